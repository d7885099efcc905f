import Verif.Spec.Cfg
/-! Lemmas about derivations. -/
set_option linter.unusedSectionVars false
namespace Bongo.Cfg
variable {T N : Type} {G : Cfg T N}

theorem Step.append_left {a b : List (Elem T N)} (h : G.Step a b) (c : List (Elem T N)) :
    G.Step (c ++ a) (c ++ b) := by
  cases h with
  | mk u v A β hp =>
    have := Step.mk (G := G) (c ++ u) v A β hp
    simpa [List.append_assoc] using this

theorem Step.append_right {a b : List (Elem T N)} (h : G.Step a b) (c : List (Elem T N)) :
    G.Step (a ++ c) (b ++ c) := by
  cases h with
  | mk u v A β hp =>
    have := Step.mk (G := G) u (v ++ c) A β hp
    simpa [List.append_assoc] using this

theorem Derives.refl (a : List (Elem T N)) : G.Derives a a := Relation.ReflTransGen.refl

theorem Derives.trans {a b c : List (Elem T N)} (h : G.Derives a b) (h' : G.Derives b c) :
    G.Derives a c := Relation.ReflTransGen.trans h h'

theorem Derives.append {a b c d : List (Elem T N)} (h : G.Derives a b) (h' : G.Derives c d) :
    G.Derives (a ++ c) (b ++ d) := by
  refine Derives.trans (b := b ++ c) ?_ ?_
  · exact Relation.ReflTransGen.lift (· ++ c) (fun _ _ hs => hs.append_right c) _ _ h
  · exact Relation.ReflTransGen.lift (b ++ ·) (fun _ _ hs => hs.append_left b) _ _ h'

theorem derives_prod {A : N} {β : List (Elem T N)} (h : G.prod A β) :
    G.Derives [.nonterm A] β := by
  have := Step.mk (G := G) [] [] A β h
  simp at this
  exact .single this

theorem Derives.split {a b c : List (Elem T N)} (h : G.Derives (a ++ b) c) :
    ∃ c₁ c₂, c = c₁ ++ c₂ ∧ G.Derives a c₁ ∧ G.Derives b c₂ := by
  unfold Derives at h
  induction h with
  | refl => exact ⟨a, b, rfl, .refl _, .refl _⟩
  | tail _ hs ih =>
    obtain ⟨c₁, c₂, rfl, h1, h2⟩ := ih
    generalize hx : c₁ ++ c₂ = x at hs
    cases hs with
    | mk u v A β hp =>
      rcases List.append_eq_append_iff.1 hx with ⟨as, h3, h4⟩ | ⟨as, h3, h4⟩
      · -- c₁ ++ as = u, c₂ = as ++ A :: v
        refine ⟨c₁, as ++ β ++ v, by simp [h3], h1, ?_⟩
        subst h4
        exact h2.trans (.single (Step.mk as v A β hp))
      · cases as with
        | nil =>
          simp at h3 h4
          subst h3; subst h4
          refine ⟨c₁, β ++ v, by simp, h1, ?_⟩
          have := Step.mk (G := G) [] v A β hp
          exact h2.trans (.single (by simpa using this))
        | cons e as =>
          simp at h4
          obtain ⟨rfl, rfl⟩ := h4
          refine ⟨u ++ β ++ as, c₂, by simp, ?_, h2⟩
          subst h3
          exact h1.trans (.single (Step.mk u as A β hp))

theorem Derives.cons_split {e : Elem T N} {b c : List (Elem T N)} (h : G.Derives (e :: b) c) :
    ∃ c₁ c₂, c = c₁ ++ c₂ ∧ G.Derives [e] c₁ ∧ G.Derives b c₂ :=
  Derives.split (a := [e]) (by simpa using h)

theorem step_terms {t : List T} {c} (h : G.Step (t.map .term) c) : False := by
  generalize hx : t.map (Elem.term (NT := N)) = x at h
  cases h with
  | mk u v A β hp =>
    have : Elem.nonterm A ∈ t.map (Elem.term (NT := N)) := by rw [hx]; simp
    simp at this

theorem derives_terms {t : List T} {c} (h : G.Derives (t.map .term) c) : c = t.map .term := by
  unfold Derives at h
  cases h using Relation.ReflTransGen.head_induction_on with
  | refl => rfl
  | head hs _ => exact absurd hs step_terms

theorem derives_term {t : T} {c} (h : G.Derives [.term t] c) : c = [.term t] :=
  derives_terms (t := [t]) h

theorem derives_nil {c} (h : G.Derives [] c) : c = [] := derives_terms (t := []) h

/-- A derivation from one nonterminal is trivial or starts with one of its productions. -/
theorem derives_nonterm {A : N} {c} (h : G.Derives [.nonterm A] c) :
    c = [.nonterm A] ∨ ∃ β, G.prod A β ∧ G.Derives β c := by
  unfold Derives at h
  cases h using Relation.ReflTransGen.head_induction_on with
  | refl => exact Or.inl rfl
  | head hs ht =>
    right
    generalize hx : [Elem.nonterm A] = x at hs
    cases hs with
    | mk u v B β hp =>
      cases u with
      | nil =>
        simp at hx
        obtain ⟨rfl, rfl⟩ := hx
        simp at ht
        exact ⟨β, hp, ht⟩
      | cons e u => simp at hx

/-- The big-step (tree-shaped) reading of derivations of words. -/
inductive Yields (G : Cfg T N) : List (Elem T N) → List T → Prop where
  | nil : Yields G [] []
  | term {s w} (t : T) : Yields G s w → Yields G (.term t :: s) (t :: w)
  | nonterm {A β s w₁ w₂} : G.prod A β → Yields G β w₁ → Yields G s w₂ →
      Yields G (.nonterm A :: s) (w₁ ++ w₂)

theorem Yields.append {a b : List (Elem T N)} {u v : List T} (h : G.Yields a u)
    (h' : G.Yields b v) : G.Yields (a ++ b) (u ++ v) := by
  induction h with
  | nil => exact h'
  | term t _ ih => exact .term t ih
  | nonterm hp h1 _ _ ih2 =>
    rw [List.append_assoc]
    exact .nonterm hp h1 ih2

theorem Yields.split {a b : List (Elem T N)} {w : List T} (h : G.Yields (a ++ b) w) :
    ∃ u v, w = u ++ v ∧ G.Yields a u ∧ G.Yields b v := by
  induction a generalizing w with
  | nil => exact ⟨[], w, rfl, .nil, h⟩
  | cons e a ih =>
    cases h with
    | term t h =>
      obtain ⟨u, v, rfl, h1, h2⟩ := ih h
      exact ⟨t :: u, v, rfl, .term t h1, h2⟩
    | nonterm hp h1 h2 =>
      obtain ⟨u, v, rfl, h3, h4⟩ := ih h2
      exact ⟨_ ++ u, v, by simp, .nonterm hp h1 h3, h4⟩

theorem Yields.derives {s : List (Elem T N)} {w : List T} (h : G.Yields s w) :
    G.Derives s (w.map .term) := by
  induction h with
  | nil => exact .refl _
  | term t _ ih => exact Derives.append (a := [.term t]) (.refl _) ih
  | nonterm hp _ _ ih1 ih2 =>
    rw [List.map_append]
    exact Derives.append (a := [_]) ((derives_prod hp).trans ih1) ih2

theorem Step.yields {s s' : List (Elem T N)} {w : List T} (h : G.Step s s') (hy : G.Yields s' w) :
    G.Yields s w := by
  cases h with
  | mk u v A β hp =>
    obtain ⟨x, y, rfl, h1, h2⟩ := hy.split
    obtain ⟨x1, x2, rfl, h3, h4⟩ := h1.split
    have := h3.append (Yields.nonterm hp h4 h2)
    simpa using this

theorem yields_terms (w : List T) : G.Yields (w.map .term) w := by
  induction w with
  | nil => exact .nil
  | cons t w ih => exact .term t ih

theorem yields_iff {s : List (Elem T N)} {w : List T} :
    G.Yields s w ↔ G.Derives s (w.map .term) := by
  refine ⟨Yields.derives, ?_⟩
  intro h
  unfold Derives at h
  induction h using Relation.ReflTransGen.head_induction_on with
  | refl => exact yields_terms w
  | head hs _ ih => exact hs.yields ih

theorem generates_iff {A : N} {w : List T} :
    G.Generates A w ↔ ∃ β, G.prod A β ∧ G.Yields β w := by
  unfold Generates
  rw [← yields_iff]
  constructor
  · intro h
    generalize hs : [Elem.nonterm A] = s at h
    cases h with
    | nil => simp at hs
    | term t _ => simp at hs
    | nonterm hp h1 h2 =>
      simp at hs
      obtain ⟨rfl, rfl⟩ := hs
      cases h2
      exact ⟨_, hp, by simpa using h1⟩
  · rintro ⟨β, hp, h⟩
    have := Yields.nonterm hp h .nil
    simpa using this

theorem yields_nonterm_iff {A : N} {w : List T} :
    G.Yields [.nonterm A] w ↔ G.Generates A w := yields_iff

theorem yields_cons_term_iff {t : T} {s : List (Elem T N)} {w : List T} :
    G.Yields (.term t :: s) w ↔ ∃ w', w = t :: w' ∧ G.Yields s w' := by
  constructor
  · intro h; cases h with | term t h => exact ⟨_, rfl, h⟩
  · rintro ⟨w', rfl, h⟩; exact .term t h

theorem yields_cons_nonterm_iff {A : N} {s : List (Elem T N)} {w : List T} :
    G.Yields (.nonterm A :: s) w ↔ ∃ u v, w = u ++ v ∧ G.Generates A u ∧ G.Yields s v := by
  constructor
  · intro h
    cases h with
    | nonterm hp h1 h2 => exact ⟨_, _, rfl, generates_iff.2 ⟨_, hp, h1⟩, h2⟩
  · rintro ⟨u, v, rfl, h1, h2⟩
    obtain ⟨β, hp, h⟩ := generates_iff.1 h1
    exact .nonterm hp h h2

theorem yields_nil_iff {w : List T} : G.Yields [] w ↔ w = [] := by
  constructor
  · intro h; cases h; rfl
  · rintro rfl; exact .nil

end Bongo.Cfg
