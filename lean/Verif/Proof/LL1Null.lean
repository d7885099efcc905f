import Verif.Spec.LL1Null
import Verif.Spec.Factored
import Verif.Proof.NonNullTree
import Verif.Proof.Firsts
/-!
# The non-null transform of a grammar for predictive parsing
-/
set_option linter.unusedSectionVars false
namespace Bongo
open Std

section
variable {T NT : Type} {G : Cfg T NT}

theorem Cfg.Begins.front {γ δ : List (Elem T NT)} {t : T} (h : G.Begins γ t) : G.Begins (γ ++ δ) t := by
  obtain ⟨ζ, h⟩ := h
  exact ⟨ζ ++ δ, h.append (.refl δ)⟩

theorem Cfg.Begins.back {m γ : List (Elem T NT)} {t : T} (hm : G.Derives m []) (h : G.Begins γ t) :
    G.Begins (m ++ γ) t := by
  obtain ⟨ζ, h⟩ := h
  exact ⟨ζ, hm.append h⟩

theorem Cfg.FollowedBy.inside {A B : NT} {α m : List (Elem T NT)} {t : T} (h : G.FollowedBy A t)
    (hp : G.prod A (α ++ .nonterm B :: m)) (hm : G.Derives m []) : G.FollowedBy B t := by
  obtain ⟨C, u, v, h⟩ := h
  refine ⟨C, u ++ α, v, h.trans ?_⟩
  have h1 := Cfg.derives_prod hp
  have h2 := ((Cfg.Derives.refl (G := G) (α ++ [.nonterm B])).append hm)
  have h3 := h1.trans (by simpa using h2)
  have := ((Cfg.Derives.refl (G := G) u).append h3).append (Cfg.Derives.refl (.term t :: v))
  simpa using this

theorem Cfg.FollowedBy.beside {A B : NT} {Y : Elem T NT} {α m β : List (Elem T NT)} {t : T}
    (hp : G.prod A (α ++ .nonterm B :: (m ++ Y :: β))) (hm : G.Derives m []) (hY : G.Begins [Y] t) :
    G.FollowedBy B t := by
  obtain ⟨ζ, hY⟩ := hY
  refine ⟨A, α, ζ ++ β, (Cfg.derives_prod hp).trans ?_⟩
  have := ((Cfg.Derives.refl (G := G) (α ++ [.nonterm B])).append (hm.append (hY.append (.refl β))))
  simpa using this

theorem Cfg.Derives.subst {G' : Cfg T NT} (h : ∀ A β, G'.prod A β → G.Derives [.nonterm A] β)
    {a b : List (Elem T NT)} (hd : G'.Derives a b) : G.Derives a b := by
  induction hd with
  | refl => exact .refl _
  | tail _ hs ih =>
    refine ih.trans ?_
    cases hs with
    | mk u v A β hp =>
      have := ((Cfg.Derives.refl (G := G) u).append (h A β hp)).append (.refl v)
      simpa using this

theorem Cfg.Begins.split {a b : List (Elem T NT)} {t : T} (h : G.Begins (a ++ b) t) :
    G.Begins a t ∨ (G.Derives a [] ∧ G.Begins b t) := by
  obtain ⟨γ, h⟩ := h
  obtain ⟨c₁, c₂, h1, h2, h3⟩ := Cfg.Derives.split h
  cases c₁ with
  | nil => exact Or.inr ⟨h2, γ, by rw [List.nil_append] at h1; rw [h1]; exact h3⟩
  | cons e c₁ =>
    cases h1
    exact Or.inl ⟨_, h2⟩

/-- A table that has what it must have, has all that may follow a nonterminal. -/
theorem Cfg.FollowedBy.mem {table : NT → List T}
    (h1 : ∀ A α B β, G.prod A (α ++ .nonterm B :: β) → ∀ t, G.Begins β t → t ∈ table B)
    (h2 : ∀ A α B β, G.prod A (α ++ .nonterm B :: β) → G.Derives β [] → ∀ t ∈ table A, t ∈ table B)
    {B : NT} {t : T} (h : G.FollowedBy B t) : t ∈ table B := by
  obtain ⟨C, u, v, h⟩ := h
  have key : ∀ s, G.Derives [.nonterm C] s → ∀ u A r, s = u ++ .nonterm A :: r → ∀ t, G.Begins r t → t ∈ table A := by
    intro s hs
    unfold Cfg.Derives at hs
    induction hs with
    | refl =>
      intro u A r h t hb
      cases u with
      | nil =>
        cases h
        obtain ⟨γ, hγ⟩ := hb
        cases Cfg.derives_nil hγ
      | cons e u => simp at h
    | tail _ hst ih =>
      intro u A r h t hb
      cases hst with
      | mk x y D β hp =>
        rw [List.append_assoc] at h
        have mid : ∀ z, u = x ++ z → β ++ y = z ++ .nonterm A :: r → t ∈ table A := by
          rintro z rfl h3
          rcases List.append_eq_append_iff.1 h3 with ⟨z', rfl, h4⟩ | ⟨z', rfl, h4⟩
          · exact ih (x ++ .nonterm D :: z') A r (by rw [h4]; simp) t hb
          · cases z' with
            | nil =>
              rw [List.nil_append] at h4
              exact ih (x ++ [.nonterm D]) A r (by rw [← h4]; simp) t hb
            | cons e z' =>
              obtain ⟨rfl, rfl⟩ := List.cons.inj h4
              rcases hb.split with h5 | ⟨h5, h6⟩
              · exact h1 _ _ _ _ hp t h5
              · exact h2 _ _ _ _ hp h5 t (ih x D y rfl t h6)
        rcases List.append_eq_append_iff.1 h with ⟨z, h3, h4⟩ | ⟨z, rfl, h3⟩
        · exact mid z h3 h4
        · cases z with
          | nil => exact mid [] (by simp) h3.symm
          | cons e z =>
            obtain ⟨rfl, rfl⟩ := List.cons.inj h3
            refine ih u A (z ++ .nonterm D :: y) (by simp) t ?_
            obtain ⟨γ, hγ⟩ := hb
            refine ⟨γ, Cfg.Derives.trans ?_ hγ⟩
            have := ((Cfg.Derives.refl (G := G) z).append (Cfg.derives_prod hp)).append (.refl y)
            simpa using this
  exact key _ h u B (.term t :: v) rfl t ⟨v, .refl _⟩
end

section
variable {T NT AK AV : Type} [Ord T] [TransOrd T] [LawfulEqOrd T] [Ord NT] [TransOrd NT] [LawfulEqOrd NT] {g : Grammar T NT AK AV}

/-- In such a grammar what begins a nonterminal that derives the empty text cannot follow it. -/
theorem LL1Null.apart (hw : g.WF) (hl : g.LL1Null) {A : NT} {t : T} (h0 : g.cfg.Generates A [])
    (hb : g.cfg.Begins [.nonterm A] t) : ¬ g.cfg.FollowedBy A t := by
  have key := fun γ (h : g.cfg.Derives [.nonterm A] (.term t :: γ)) =>
    Cfg.firstOf_complete (G := g.cfg) (null := fun A => g.cfg.Null A)
    (first := fun A t => g.cfg.Begins [.nonterm A] t ∧ (g.cfg.Generates A [] → ¬ g.cfg.FollowedBy A t))
    (fun _ => Iff.rfl) (by
      intro A β hp t hf
      obtain ⟨q, hq, rfl, rfl⟩ := (Grammar.cfg_prod_iff hw).1 hp
      obtain ⟨pre, post, h1, h2⟩ := firstOf_split.1 hf
      have hpre : g.cfg.Derives pre [] := (Cfg.yields_iff (w := [])).1 (Cfg.yields_nil_word_iff.2 h1)
      have hbeg : g.cfg.Begins q.elements t := by
        rcases h2 with h2 | ⟨B, h2, h3, -⟩
        · rw [h2]; exact Cfg.Begins.back hpre ⟨post, .refl _⟩
        · rw [h2]; exact Cfg.Begins.back hpre (Cfg.Begins.front (γ := [.nonterm B]) h3)
      refine ⟨?_, fun hA hfol => ?_⟩
      · obtain ⟨ζ, hζ⟩ := hbeg
        exact ⟨ζ, (Cfg.derives_prod hp).trans hζ⟩
      · obtain ⟨β, hβ, hy⟩ := Cfg.generates_iff.1 hA
        obtain ⟨p, hp', hh, rfl⟩ := (Grammar.cfg_prod_iff hw).1 hβ
        have hpn : g.cfg.Derives p.elements [] := Cfg.yields_iff.1 hy
        by_cases hpq : p = q
        · subst hpq
          rcases h2 with h2 | ⟨B, h2, h3, h4⟩
          · rw [h2, Cfg.yields_nil_word_iff] at hy
            obtain ⟨B, hB, -⟩ := hy (.term t) (by simp)
            cases hB
          · have h5 := hy
            rw [h2, Cfg.yields_nil_word_iff] at h5
            have hB : g.cfg.Generates B [] := by
              obtain ⟨B', hB', hn⟩ := h5 (.nonterm B) (by simp)
              cases hB'
              exact Cfg.null_iff.1 hn
            have hpost : g.cfg.Derives post [] :=
              Cfg.yields_iff.1 (Cfg.yields_nil_word_iff.2 fun e he => h5 e (by simp [he]))
            exact h4 hB (hfol.inside (h2 ▸ hp) hpost)
        · exact hl.null p hp' q hq hh hpq hpn t hbeg (hh ▸ hfol)) h
  obtain ⟨γ, hγ⟩ := hb
  have := key γ hγ
  simp only [Cfg.FirstOf, and_false, or_false] at this
  exact this.2 h0

/-! ## Choices -/

theorem Choice.gone {es : List (ProdElement T NT)} {c d} {k : List (ProdElement T NT)}
    (h : Choice (fun A => g.cfg.Generates A []) es c k d) (hk : k.map (·.element) = []) :
    g.cfg.Derives (es.map (·.element)) [] := by
  refine (Cfg.yields_iff (w := [])).1 (Cfg.yields_nil_word_iff.2 fun e he => ?_)
  obtain ⟨x, hx, rfl⟩ := List.mem_map.1 he
  obtain ⟨A, h1, h2⟩ := h.all_null (by simpa using hk) x hx
  exact ⟨A, h1, Cfg.null_iff.2 h2⟩

/-- Where a kept element is. -/
theorem Choice.split {nul : NT → Prop} {es : List (ProdElement T NT)} {c k d} (h : Choice nul es c k d) :
    ∀ {α a ρ}, k.map (·.element) = α ++ a :: ρ → ∃ es₁ x es₂ c₁ k₁ d₁ c₂ k₂ d₂, es = es₁ ++ x :: es₂ ∧ x.element = a ∧
      Choice nul es₁ c₁ k₁ d₁ ∧ k₁.map (·.element) = α ∧ Choice nul es₂ c₂ k₂ d₂ ∧ k₂.map (·.element) = ρ := by
  induction h with
  | nil => intro α a ρ h; simp at h
  | @term es c k d id t hc ih =>
    intro α a ρ h
    cases α with
    | nil =>
      obtain ⟨rfl, rfl⟩ := List.cons.inj h
      exact ⟨[], _, es, _, _, _, _, _, _, rfl, rfl, .nil, rfl, hc, rfl⟩
    | cons b α =>
      obtain ⟨h1, h2⟩ := List.cons.inj h
      obtain ⟨es₁, x, es₂, c₁, k₁, d₁, c₂, k₂, d₂, rfl, k2, k3, k4, k5, k6⟩ := ih h2
      exact ⟨_, x, es₂, _, _, _, _, _, _, rfl, k2, .term id t k3, by rw [List.map_cons, k4]; exact congrArg (· :: _) h1, k5, k6⟩
  | @nonNull es c k d id A hc ih =>
    intro α a ρ h
    cases α with
    | nil =>
      obtain ⟨rfl, rfl⟩ := List.cons.inj h
      exact ⟨[], _, es, _, _, _, _, _, _, rfl, rfl, .nil, rfl, hc, rfl⟩
    | cons b α =>
      obtain ⟨h1, h2⟩ := List.cons.inj h
      obtain ⟨es₁, x, es₂, c₁, k₁, d₁, c₂, k₂, d₂, rfl, k2, k3, k4, k5, k6⟩ := ih h2
      exact ⟨_, x, es₂, _, _, _, _, _, _, rfl, k2, .nonNull id A k3, by rw [List.map_cons, k4]; exact congrArg (· :: _) h1, k5, k6⟩
  | @null es c k d id A hA hc ih =>
    intro α a ρ h
    obtain ⟨es₁, x, es₂, c₁, k₁, d₁, c₂, k₂, d₂, rfl, k2, k3, k4, k5, k6⟩ := ih h
    exact ⟨_, x, es₂, _, _, _, _, _, _, rfl, k2, .null id A hA k3, k4, k5, k6⟩

/-- Before the first kept element there is nothing that must be there. -/
theorem Choice.first {es : List (ProdElement T NT)} {c k d} (h : Choice (fun A => g.cfg.Generates A []) es c k d)
    {a ρ} (hk : k.map (·.element) = a :: ρ) :
    ∃ m b, es.map (·.element) = m ++ a :: b ∧ g.cfg.Derives m [] := by
  obtain ⟨es₁, x, es₂, c₁, k₁, d₁, c₂, k₂, d₂, rfl, rfl, k3, k4, -, -⟩ := h.split (α := []) hk
  exact ⟨es₁.map (·.element), es₂.map (·.element), by simp, k3.gone k4⟩

/-- A choice that keeps a later element instead of the first. -/
theorem LL1Null.later (hw : g.WF) (hl : g.LL1Null) {p : Prod T NT AK AV} (hp : p ∈ g.prods) {pre : List (Elem T NT)} {N : NT}
    {es : List (ProdElement T NT)} (he : p.elements = pre ++ .nonterm N :: es.map (·.element)) (hN : g.cfg.Generates N [])
    {c k d} (hc : Choice (fun A => g.cfg.Generates A []) es c k d) {a ρ} (hk : k.map (·.element) = a :: ρ) {t : T}
    (h1 : g.cfg.Begins [.nonterm N] t) (h2 : g.cfg.Begins [a] t) : False := by
  obtain ⟨m, b, h3, h4⟩ := hc.first hk
  refine LL1Null.apart hw hl hN h1 (Cfg.FollowedBy.beside (A := p.head) (α := pre) (m := m) (β := b) (Y := a) ?_ h4 h2)
  rw [← h3, ← he]
  exact (Grammar.cfg_prod_iff hw).2 ⟨p, hp, rfl, rfl⟩

/-- Two choices for a production that keep the same elements for a while chose the same until then. -/
theorem LL1Null.align (hw : g.WF) (hl : g.LL1Null) {p : Prod T NT AK AV} (hp : p ∈ g.prods) {es : List (ProdElement T NT)} :
    ∀ {pre α ρ ρ' : List (Elem T NT)} {c k d c' k' d'}, p.elements = pre ++ es.map (·.element) →
    Choice (fun A => g.cfg.Generates A []) es c k d → Choice (fun A => g.cfg.Generates A []) es c' k' d' →
    k.map (·.element) = α ++ ρ → k'.map (·.element) = α ++ ρ' → (∀ e ∈ α, ∃ t, g.cfg.Begins [e] t) →
    ∃ es₁ es₂ c₁ c₂ c₂' k₂ d₂ k₂' d₂', es = es₁ ++ es₂ ∧ c = c₁ ++ c₂ ∧ c' = c₁ ++ c₂' ∧
      Choice (fun A => g.cfg.Generates A []) es₂ c₂ k₂ d₂ ∧ Choice (fun A => g.cfg.Generates A []) es₂ c₂' k₂' d₂' ∧
      k₂.map (·.element) = ρ ∧ k₂'.map (·.element) = ρ' := by
  induction es with
  | nil =>
    intro pre α ρ ρ' c k d c' k' d' _ h h' hk hk' _
    cases h
    cases h'
    have := hk.symm
    simp only [List.map_nil, List.append_eq_nil_iff] at this
    obtain ⟨rfl, rfl⟩ := this
    exact ⟨[], [], [], [], [], [], [], [], [], rfl, rfl, rfl, .nil, .nil, rfl, hk'⟩
  | cons x es ih =>
    intro pre α ρ ρ' c k d c' k' d' he h h' hk hk' hα
    cases α with
    | nil => exact ⟨[], _, [], _, _, _, _, _, _, rfl, rfl, rfl, h, h', hk, hk'⟩
    | cons a α =>
      have he' : p.elements = (pre ++ [x.element]) ++ es.map (·.element) := by rw [he]; simp
      have hα' : ∀ e ∈ α, ∃ t, g.cfg.Begins [e] t := fun e h => hα e (List.mem_cons_of_mem _ h)
      obtain ⟨t, ht⟩ := hα a List.mem_cons_self
      cases h with
      | term id b h =>
        cases h' with
        | term _ _ h' =>
          obtain ⟨es₁, es₂, c₁, c₂, c₂', k₂, d₂, k₂', d₂', rfl, k2, k3, k4⟩ :=
            ih he' h h' (List.cons.inj hk).2 (List.cons.inj hk').2 hα'
          exact ⟨_ :: es₁, es₂, c₁, c₂, c₂', k₂, d₂, k₂', d₂', rfl, k2, k3, k4⟩
      | nonNull id A h =>
        cases h' with
        | nonNull _ _ h' =>
          obtain ⟨es₁, es₂, c₁, c₂, c₂', k₂, d₂, k₂', d₂', rfl, rfl, rfl, k4⟩ :=
            ih he' h h' (List.cons.inj hk).2 (List.cons.inj hk').2 hα'
          exact ⟨_ :: es₁, es₂, false :: c₁, c₂, c₂', k₂, d₂, k₂', d₂', rfl, rfl, rfl, k4⟩
        | null _ _ hA h' =>
          obtain ⟨rfl, -⟩ := List.cons.inj hk
          exact (LL1Null.later hw hl hp he hA h' hk' ht ht).elim
      | null id A hA h =>
        cases h' with
        | nonNull _ _ h' =>
          obtain ⟨rfl, -⟩ := List.cons.inj hk'
          exact (LL1Null.later hw hl hp he hA h hk ht ht).elim
        | null _ _ _ h' =>
          obtain ⟨es₁, es₂, c₁, c₂, c₂', k₂, d₂, k₂', d₂', rfl, rfl, rfl, k4⟩ := ih he' h h' hk hk' hα
          exact ⟨_ :: es₁, es₂, true :: c₁, c₂, c₂', k₂, d₂, k₂', d₂', rfl, rfl, rfl, k4⟩

/-- Two choices whose next kept elements differ keep elements that begin differently. -/
theorem LL1Null.part (hw : g.WF) (hl : g.LL1Null) {p : Prod T NT AK AV} (hp : p ∈ g.prods) {es : List (ProdElement T NT)} :
    ∀ {pre β δ : List (Elem T NT)} {X Y : Elem T NT} {c k d c' k' d' t}, p.elements = pre ++ es.map (·.element) →
    Choice (fun A => g.cfg.Generates A []) es c k d → Choice (fun A => g.cfg.Generates A []) es c' k' d' →
    k.map (·.element) = X :: β → k'.map (·.element) = Y :: δ → X ≠ Y → g.cfg.Begins [X] t → g.cfg.Begins [Y] t →
    False := by
  induction es with
  | nil =>
    intro pre β δ X Y c k d c' k' d' t _ h h' hk
    cases h
    simp at hk
  | cons x es ih =>
    intro pre β δ X Y c k d c' k' d' t he h h' hk hk' hXY hX hY
    have he' : p.elements = (pre ++ [x.element]) ++ es.map (·.element) := by rw [he]; simp
    cases h with
    | term id b h =>
      cases h' with
      | term _ _ h' => exact hXY ((List.cons.inj hk).1.symm.trans (List.cons.inj hk').1)
    | nonNull id A h =>
      cases h' with
      | nonNull _ _ h' => exact hXY ((List.cons.inj hk).1.symm.trans (List.cons.inj hk').1)
      | null _ _ hA h' =>
        obtain ⟨rfl, -⟩ := List.cons.inj hk
        exact LL1Null.later hw hl hp he hA h' hk' hX hY
    | null id A hA h =>
      cases h' with
      | nonNull _ _ h' =>
        obtain ⟨rfl, -⟩ := List.cons.inj hk'
        exact LL1Null.later hw hl hp he hA h hk hY hX
      | null _ _ _ h' => exact ih he' h h' hk hk' hXY hX hY

theorem Choice.none_kept {nul : NT → Prop} {es : List (ProdElement T NT)} {c k d} (h : Choice nul es c k d) :
    k.map (·.element) = [] → ∀ {c' k' d'}, Choice nul es c' k' d' → k'.map (·.element) = [] → c = c' := by
  induction h with
  | nil => intro _ c' k' d' h' _; cases h'; rfl
  | term => intro h; simp at h
  | nonNull => intro h; simp at h
  | null id A hA _ ih =>
    intro hk c' k' d' h' hk'
    cases h' with
    | nonNull => simp at hk'
    | null _ _ _ h' => rw [ih hk h' hk']

/-! ## The transformed grammar -/
variable {g' : NonNullGrammar T NT AK AV} {origin : NNProd T NT AK AV → Prod T NT AK AV}

theorem IsOrigin.derives (hw : g.WF) (hw' : g'.WF) (ho : IsOrigin g g' origin) {a b : List (Elem T NT)}
    (h : g'.cfg.Derives a b) : g.cfg.Derives a b := by
  refine Cfg.Derives.subst (fun A β hp => ?_) h
  obtain ⟨p, hp', rfl, rfl⟩ := (Grammar.cfg_prod_iff hw').1 hp
  obtain ⟨h1, h2, -, -, -, d, hc⟩ := ho.ok p hp'
  have h3 := Cfg.derives_prod ((Grammar.cfg_prod_iff hw).2 ⟨_, h1, h2, rfl⟩)
  refine h3.trans ?_
  have drop : ∀ {es : List (ProdElement T NT)} {c k d}, Choice (fun A => g.cfg.Generates A []) es c k d →
      g.cfg.Derives (es.map (·.element)) (k.map (·.element)) := by
    intro es c k d hc
    induction hc with
    | nil => exact .refl _
    | term id t _ ih => exact Cfg.Derives.append (a := [.term t]) (.refl _) ih
    | nonNull id A _ ih => exact Cfg.Derives.append (a := [.nonterm A]) (.refl _) ih
    | null id A hA _ ih =>
      have := Cfg.Derives.append (a := [.nonterm A]) hA ih
      simpa using this
  exact drop hc

theorem IsOrigin.begins (hw : g.WF) (hw' : g'.WF) (ho : IsOrigin g g' origin) {a : List (Elem T NT)} {t : T}
    (h : g'.cfg.Begins a t) : g.cfg.Begins a t := by
  obtain ⟨δ, h⟩ := h
  exact ⟨δ, ho.derives hw hw' h⟩

theorem ll1null_transformed (hw : g.WF) (hw' : g'.WF) (hn : ∀ p ∈ g'.prods, p.elements ≠ [])
    (hne : ∀ s, g'.cfg.Yields s [] → s = []) (ho : IsOrigin g g' origin) (hl : g.LL1Null) :
    g'.Factored ∧ g'.NoRepeats := by
  have hb : ∀ {a t}, g'.cfg.Begins a t → g.cfg.Begins a t := fun h => ho.begins hw hw' h
  -- the elements of a fruitful list begin with something
  have live : ∀ α, g'.cfg.Fruitful α → ∀ e ∈ α, ∃ t, g.cfg.Begins [e] t := by
    rintro α ⟨u, hu⟩ e he
    obtain ⟨α₁, α₂, rfl⟩ := List.append_of_mem he
    obtain ⟨u1, u2, rfl, -, h2⟩ := (Cfg.yields_iff.2 hu).split
    obtain ⟨u3, u4, rfl, h3, -⟩ := Cfg.Yields.split (a := [e]) h2
    cases u3 with
    | nil => cases hne _ h3
    | cons t u => exact ⟨t, hb ⟨u.map .term, Cfg.yields_iff.1 h3⟩⟩
  -- productions that begin with the same terminal were made from the same one
  have same : ∀ p ∈ g'.prods, ∀ q ∈ g'.prods, p.head = q.head → ∀ X Y β δ t, p.elements = X :: β →
      q.elements = Y :: δ → g.cfg.Begins [X] t → g.cfg.Begins [Y] t → origin p = origin q := by
    intro p hp q hq hh X Y β δ t h1 h2 hX hY
    obtain ⟨k1, k2, -, -, -, d, hc⟩ := ho.ok p hp
    obtain ⟨k1', k2', -, -, -, d', hc'⟩ := ho.ok q hq
    have up : ∀ {es : List (ProdElement T NT)} {c k d} {Z ζ}, Choice (fun A => g.cfg.Generates A []) es c k d →
        k.map (·.element) = Z :: ζ → g.cfg.Begins [Z] t → g.cfg.Begins (es.map (·.element)) t := by
      intro es c k d Z ζ hc hk hZ
      obtain ⟨m, b, h3, h4⟩ := hc.first hk
      rw [h3]
      exact Cfg.Begins.back h4 (Cfg.Begins.front (γ := [Z]) hZ)
    exact hl.choice _ k1 _ k1' (by rw [k2, k2', hh]) t (up hc h1 hX) (up hc' h2 hY)
  have same' : ∀ p ∈ g'.prods, ∀ q ∈ g'.prods, p.head = q.head → ∀ α β δ, p.elements = α ++ β →
      q.elements = α ++ δ → α ≠ [] → g'.cfg.Fruitful α → origin p = origin q := by
    intro p hp q hq hh α β δ h1 h2 hα hf
    cases α with
    | nil => exact absurd rfl hα
    | cons a α =>
      obtain ⟨t, ht⟩ := live _ hf a List.mem_cons_self
      exact same p hp q hq hh a a _ _ t h1 h2 ht ht
  have go : ∀ B t, g'.MayGoOn B t → ¬ g.cfg.FollowedBy B t := by
    intro B t hm
    induction hm with
    | @last p α X t hp he _ ih =>
      intro hf
      obtain ⟨k1, k2, -, -, -, d, hc⟩ := ho.ok p hp
      obtain ⟨es₁, x, es₂, c₁, k₁, d₁, c₂, k₂, d₂, h1, h2, -, -, h5, h6⟩ := hc.split he
      refine ih (hf.inside (α := es₁.map (·.element)) (m := es₂.map (·.element)) ?_ (h5.gone h6))
      have := (Grammar.cfg_prod_iff hw).2 ⟨_, k1, k2, rfl⟩
      unfold Prod.elements ProdInner.elems at this
      replace h1 : (origin p).inner.elements = _ := h1
      rw [h1] at this
      simpa [h2] using this
    | @more p q Y δ t hp hq hh he hf hY =>
      intro hfol
      have ho' := same' p hp q hq hh.symm p.elements [] (Y :: δ) (List.append_nil _).symm he (hn p hp) hf
      obtain ⟨k1, k2, -, -, -, d, hc⟩ := ho.ok p hp
      obtain ⟨k1', k2', -, -, -, d', hc'⟩ := ho.ok q hq
      rw [← ho'] at hc'
      obtain ⟨es₁, es₂, c₁, c₂, c₂', e1, f1, e2, f2, h1, -, -, h4, h5, h6, h7⟩ :=
        LL1Null.align hw hl k1 (pre := []) rfl hc hc' (α := p.elements) (ρ := []) (ρ' := Y :: δ)
          (List.append_nil _).symm he (live _ hf)
      obtain ⟨es₃, x, es₄, c₃, k₃, d₃, c₄, k₄, d₄, h8, h9, -, -, -, -⟩ := h5.split (α := []) h7
      have hnull := h4.all_null (by simpa using h6)
      obtain ⟨B, hB1, hB2⟩ := hnull x (by rw [h8]; simp)
      rw [hB1] at h9
      subst h9
      refine LL1Null.apart hw hl hB2 (hb hY) (hfol.inside (α := (es₁ ++ es₃).map (·.element))
        (m := es₄.map (·.element)) ?_ ?_)
      · have := (Grammar.cfg_prod_iff hw).2 ⟨_, k1, k2, rfl⟩
        unfold Prod.elements ProdInner.elems at this
        rw [h1, h8] at this
        simpa [hB1] using this
      · refine (Cfg.yields_iff (w := [])).1 (Cfg.yields_nil_word_iff.2 fun e he => ?_)
        obtain ⟨y, hy, rfl⟩ := List.mem_map.1 he
        obtain ⟨A, h1, h2⟩ := hnull y (by rw [h8]; simp [hy])
        exact ⟨A, h1, Cfg.null_iff.2 h2⟩
  refine ⟨⟨hn, ?_, ?_⟩, ?_⟩
  · intro p hp q hq hh α X β Y δ h1 h2 hXY hf t hX hY
    have ho' : origin p = origin q := by
      cases α with
      | nil => exact same p hp q hq hh X Y β δ t h1 h2 (hb hX) (hb hY)
      | cons a α => exact same' p hp q hq hh _ _ _ h1 h2 (by simp) hf
    obtain ⟨k1, k2, -, -, -, d, hc⟩ := ho.ok p hp
    obtain ⟨k1', k2', -, -, -, d', hc'⟩ := ho.ok q hq
    rw [← ho'] at hc'
    obtain ⟨es₁, es₂, c₁, c₂, c₂', e1, f1, e2, f2, h3, -, -, h4, h5, h6, h7⟩ :=
      LL1Null.align hw hl k1 (pre := []) rfl hc hc' h1 h2 (live _ hf)
    refine LL1Null.part hw hl k1 (pre := es₁.map (·.element)) ?_ h4 h5 h6 h7 hXY (hb hX) (hb hY)
    unfold Prod.elements ProdInner.elems
    rw [h3]
    simp
  · intro p hp α B Y β he t hm hY
    obtain ⟨k1, k2, -, -, -, d, hc⟩ := ho.ok p hp
    obtain ⟨es₁, x, es₂, c₁, k₁, d₁, c₂, k₂, d₂, h1, h2, -, -, h5, h6⟩ := hc.split he
    obtain ⟨m, b, h7, h8⟩ := h5.first h6
    refine go B t hm (Cfg.FollowedBy.beside (A := p.head) (α := es₁.map (·.element)) (m := m) (β := b) (Y := Y) ?_ h8 (hb hY))
    have := (Grammar.cfg_prod_iff hw).2 ⟨_, k1, k2, rfl⟩
    unfold Prod.elements ProdInner.elems at this
    replace h1 : (origin p).inner.elements = _ := h1
    rw [h1] at this
    simpa [h2, h7] using this
  · intro p hp q hq hh he hf
    have ho' := same' p hp q hq hh p.elements [] [] (List.append_nil _).symm (by rw [he, List.append_nil]) (hn p hp) hf
    obtain ⟨k1, k2, -, -, -, d, hc⟩ := ho.ok p hp
    obtain ⟨k1', k2', -, -, -, d', hc'⟩ := ho.ok q hq
    rw [← ho'] at hc'
    obtain ⟨es₁, es₂, c₁, c₂, c₂', e1, f1, e2, f2, h3, h8, h9, h4, h5, h6, h7⟩ :=
      LL1Null.align hw hl k1 (pre := []) rfl hc hc' (α := p.elements) (ρ := []) (ρ' := [])
        (List.append_nil _).symm (by rw [he, List.append_nil]; rfl) (live _ hf)
    exact ho.inj p hp q hq ho' (by rw [h8, h9, h4.none_kept h6 h5 h7])
end
end Bongo
