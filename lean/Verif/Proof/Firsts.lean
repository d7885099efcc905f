import Verif.Model.Firsts
import Verif.Proof.CollectOps
import Verif.Proof.NullableSpec
/-! FIRST sets. -/
set_option linter.unusedSectionVars false
namespace Bongo
open Std
variable {T NT AK AV : Type} [Ord T] [TransOrd T] [LawfulEqOrd T]
  [Ord NT] [TransOrd NT] [LawfulEqOrd NT]

/-- The operations one visit of the Firsts loop performs. -/
def firstsOps (nullables : GrammarNullableInfo NT AK) (head : NT) :
    List (Elem T NT) → List (CollectOp NT T)
  | [] => []
  | .term t :: _ => [.insert head t]
  | .nonterm nt :: es =>
    .fromKey head nt :: if nullables.isNullable nt then firstsOps nullables head es else []

theorem WasChanged.join_unchanged (c : WasChanged) : c.join .unchanged = c := by cases c <;> rfl

theorem firstsVisitElems_eq (nullables : GrammarNullableInfo NT AK) (head : NT)
    (es : List (Elem T NT)) (m : CollectMap NT T) (c : WasChanged) :
    firstsVisitElems nullables head es m c =
      ((changeIter (firstsOps nullables head es) CollectOp.apply m).1,
        c.join (changeIter (firstsOps nullables head es) CollectOp.apply m).2) := by
  induction es generalizing m c with
  | nil => simp [firstsVisitElems, firstsOps, changeIter, WasChanged.join_unchanged]
  | cons e es ih =>
    cases e with
    | term t =>
      simp [firstsVisitElems, firstsOps, changeIter, CollectOp.apply, WasChanged.unchanged_join]
    | nonterm nt =>
      rw [firstsVisitElems, firstsOps]
      by_cases hn : nullables.isNullable nt = true
      · simp only [hn, ↓reduceIte, changeIter_cons, CollectOp.apply]
        rw [ih, WasChanged.join_assoc]
      · simp [hn, changeIter, CollectOp.apply, WasChanged.unchanged_join]

/-- All operations of one pass. -/
def allFirstsOps (info : GrammarNullableInfo NT AK) (g : Grammar T NT AK AV) :
    List (CollectOp NT T) :=
  g.prods.flatMap fun p => firstsOps info p.head p.elements

theorem firstsPass_eq (info : GrammarNullableInfo NT AK) (g : Grammar T NT AK AV)
    (m : CollectMap NT T) :
    changeIter g.prods (firstsVisit info) m = changeIter (allFirstsOps info g) CollectOp.apply m := by
  unfold allFirstsOps
  rw [changeIter_flatMap]
  congr 1
  funext m p
  unfold firstsVisit
  rw [firstsVisitElems_eq, WasChanged.unchanged_join]

theorem mem_firstsOps_insert {info : GrammarNullableInfo NT AK} {head : NT}
    {es : List (Elem T NT)} {k : NT} {t : T} :
    CollectOp.insert k t ∈ firstsOps info head es ↔ k = head ∧
      ∃ pre post, es = pre ++ .term t :: post ∧
        ∀ e ∈ pre, ∃ B, e = .nonterm B ∧ info.isNullable B = true := by
  induction es with
  | nil => simp [firstsOps]
  | cons e es ih =>
    cases e with
    | term t' =>
      simp only [firstsOps, List.mem_singleton, CollectOp.insert.injEq]
      constructor
      · rintro ⟨rfl, rfl⟩; exact ⟨rfl, [], es, rfl, by simp⟩
      · rintro ⟨rfl, pre, post, h1, h2⟩
        cases pre with
        | nil => simp at h1; exact ⟨rfl, h1.1.symm⟩
        | cons x pre =>
          simp at h1
          obtain ⟨B, hB, -⟩ := h2 x (by simp)
          rw [hB] at h1; simp at h1
    | nonterm nt =>
      simp only [firstsOps, List.mem_cons, reduceCtorEq, false_or]
      constructor
      · intro h
        split at h
        · rename_i hn
          obtain ⟨rfl, pre, post, rfl, h2⟩ := ih.1 h
          refine ⟨rfl, .nonterm nt :: pre, post, rfl, ?_⟩
          intro e he
          rcases List.mem_cons.1 he with rfl | he
          · exact ⟨nt, rfl, hn⟩
          · exact h2 e he
        · simp at h
      · rintro ⟨rfl, pre, post, h1, h2⟩
        cases pre with
        | nil => simp at h1
        | cons x pre =>
          simp at h1
          obtain ⟨rfl, rfl⟩ := h1
          obtain ⟨B, hB, hn⟩ := h2 _ (List.mem_cons_self)
          cases hB
          rw [if_pos hn]
          exact ih.2 ⟨rfl, pre, post, rfl, fun e he => h2 e (by simp [he])⟩

theorem mem_firstsOps_fromKey {info : GrammarNullableInfo NT AK} {head : NT}
    {es : List (Elem T NT)} {k src : NT} :
    CollectOp.fromKey k src ∈ firstsOps info head es ↔ k = head ∧
      ∃ pre post, es = pre ++ .nonterm src :: post ∧
        ∀ e ∈ pre, ∃ B, e = .nonterm B ∧ info.isNullable B = true := by
  induction es with
  | nil => simp [firstsOps]
  | cons e es ih =>
    cases e with
    | term t' =>
      simp only [firstsOps, List.mem_singleton, reduceCtorEq, false_iff]
      rintro ⟨rfl, pre, post, h1, h2⟩
      cases pre with
      | nil => simp at h1
      | cons x pre =>
        simp at h1
        obtain ⟨B, hB, -⟩ := h2 x (by simp)
        rw [hB] at h1; simp at h1
    | nonterm nt =>
      simp only [firstsOps, List.mem_cons, CollectOp.fromKey.injEq]
      constructor
      · rintro (⟨rfl, rfl⟩ | h)
        · exact ⟨rfl, [], es, rfl, by simp⟩
        split at h
        · rename_i hn
          obtain ⟨rfl, pre, post, rfl, h2⟩ := ih.1 h
          refine ⟨rfl, .nonterm nt :: pre, post, rfl, ?_⟩
          intro e he
          rcases List.mem_cons.1 he with rfl | he
          · exact ⟨nt, rfl, hn⟩
          · exact h2 e he
        · simp at h
      · rintro ⟨rfl, pre, post, h1, h2⟩
        cases pre with
        | nil => simp at h1; exact Or.inl ⟨rfl, h1.1.symm⟩
        | cons x pre =>
          simp at h1
          obtain ⟨rfl, rfl⟩ := h1
          obtain ⟨B, hB, hn⟩ := h2 _ (List.mem_cons_self)
          cases hB
          rw [if_pos hn]
          exact Or.inr (ih.2 ⟨rfl, pre, post, rfl, fun e he => h2 e (by simp [he])⟩)

theorem mem_firstsOps_iter {info : GrammarNullableInfo NT AK} {head : NT}
    {es : List (Elem T NT)} {k : NT} {vs} : CollectOp.iter k vs ∉ firstsOps info head es := by
  induction es with
  | nil => simp [firstsOps]
  | cons e es ih =>
    cases e with
    | term t' => simp [firstsOps]
    | nonterm nt =>
      simp only [firstsOps, List.mem_cons, reduceCtorEq, false_or]
      split
      · exact ih
      · simp

namespace Cfg
variable {N : Type} {G : Cfg T N}
/-- `α` starts with `t` after erasing a nullable prefix and expanding. -/
def FirstOf (null : N → Prop) (first : N → T → Prop) : List (Elem T N) → T → Prop
  | [], _ => False
  | .term t' :: _, t => t = t'
  | .nonterm B :: es, t => first B t ∨ (null B ∧ FirstOf null first es t)

theorem derives_drop {pre : List (Elem T N)} (h : ∀ e ∈ pre, ∃ B, e = .nonterm B ∧ G.Null B)
    (post : List (Elem T N)) : G.Derives (pre ++ post) post := by
  have h1 : G.Derives pre [] := yields_iff.1 (yields_nil_word_iff.2 h)
  have := Derives.append (G := G) h1 (Relation.ReflTransGen.refl (a := post))
  simpa using this

variable {null : N → Prop} {first : N → T → Prop}

theorem firstOf_append (hnull : ∀ A, null A ↔ G.Null A) (a b : List (Elem T N)) (t : T) :
    FirstOf null first (a ++ b) t ↔ FirstOf null first a t ∨
      (G.Yields a [] ∧ FirstOf null first b t) := by
  induction a with
  | nil => simp [FirstOf, Yields.nil]
  | cons e a ih =>
    cases e with
    | term t' =>
      simp only [List.cons_append, FirstOf]
      constructor
      · exact Or.inl
      · rintro (h | ⟨h, -⟩)
        · exact h
        · have := yields_nil_word_iff.1 h _ (List.mem_cons_self)
          simp at this
    | nonterm B =>
      simp only [List.cons_append, FirstOf, ih]
      have : G.Yields (.nonterm B :: a) [] ↔ G.Null B ∧ G.Yields a [] := by
        rw [yields_nil_word_iff, yields_nil_word_iff]; simp
      rw [this, hnull]
      tauto

/-- If `first` is closed under the productions, it contains every first terminal. -/
theorem firstOf_complete (hnull : ∀ A, null A ↔ G.Null A)
    (hclosed : ∀ A β, G.prod A β → ∀ t, FirstOf null first β t → first A t)
    {α : List (Elem T N)} {t : T} {γ : List (Elem T N)} (h : G.Derives α (.term t :: γ)) :
    FirstOf null first α t := by
  induction h using Relation.ReflTransGen.head_induction_on with
  | refl => simp [FirstOf]
  | head hstep _ ih =>
    cases hstep with
    | mk u v A β hp =>
      rw [List.append_assoc, firstOf_append hnull, firstOf_append hnull] at ih
      rw [firstOf_append hnull]
      rcases ih with h | ⟨hu, h | ⟨hβ, h⟩⟩
      · exact Or.inl h
      · exact Or.inr ⟨hu, Or.inl (hclosed A β hp t h)⟩
      · refine Or.inr ⟨hu, Or.inr ⟨(hnull A).2 ?_, h⟩⟩
        rw [null_iff, generates_iff]
        exact ⟨β, hp, hβ⟩
end Cfg

theorem firstOf_split {N : Type} {null : N → Prop} {first : N → T → Prop} {α : List (Elem T N)}
    {t : T} : Cfg.FirstOf null first α t ↔
      ∃ pre post, (∀ e ∈ pre, ∃ B, e = .nonterm B ∧ null B) ∧
        (α = pre ++ .term t :: post ∨ ∃ B, α = pre ++ .nonterm B :: post ∧ first B t) := by
  induction α with
  | nil => simp [Cfg.FirstOf]
  | cons e α ih =>
    cases e with
    | term t' =>
      simp only [Cfg.FirstOf]
      constructor
      · rintro rfl; exact ⟨[], α, by simp, Or.inl rfl⟩
      · rintro ⟨pre, post, h1, h2⟩
        cases pre with
        | nil => simp at h2; exact h2.1.symm
        | cons x pre =>
          obtain ⟨B, hB, -⟩ := h1 x (by simp)
          subst hB
          simp at h2
    | nonterm C =>
      simp only [Cfg.FirstOf, ih]
      constructor
      · rintro (h | ⟨hC, pre, post, h1, h2⟩)
        · exact ⟨[], α, by simp, Or.inr ⟨C, rfl, h⟩⟩
        · refine ⟨.nonterm C :: pre, post, ?_, ?_⟩
          · intro e he
            rcases List.mem_cons.1 he with rfl | he
            · exact ⟨C, rfl, hC⟩
            · exact h1 e he
          · rcases h2 with rfl | ⟨B, rfl, hB⟩
            · exact Or.inl rfl
            · exact Or.inr ⟨B, rfl, hB⟩
      · rintro ⟨pre, post, h1, h2⟩
        cases pre with
        | nil =>
          simp at h2
          exact Or.inl h2.2
        | cons x pre =>
          have hx := h1 x (by simp)
          rcases h2 with h2 | ⟨B, h2, hB⟩
          · simp at h2
            obtain ⟨rfl, rfl⟩ := h2
            obtain ⟨B, hB, hn⟩ := hx
            cases hB
            exact Or.inr ⟨hn, pre, post, fun e he => h1 e (by simp [he]), Or.inl rfl⟩
          · simp at h2
            obtain ⟨rfl, rfl⟩ := h2
            obtain ⟨B', hB', hn⟩ := hx
            cases hB'
            exact Or.inr ⟨hn, pre, post, fun e he => h1 e (by simp [he]), Or.inr ⟨B, rfl, hB⟩⟩

section
variable {g : Grammar T NT AK AV} {info : GrammarNullableInfo NT AK}

theorem coll_firsts_iff (hw : g.WF) (hn : ∀ A, info.isNullable A = true ↔ g.cfg.Null A) (A : NT)
    (t : T) : Coll (allFirstsOps info g) A t ↔
      ∃ γ, g.cfg.Derives [.nonterm A] (.term t :: γ) := by
  have hmem : ∀ op : CollectOp NT T, op ∈ allFirstsOps info g ↔
      ∃ p ∈ g.prods, op ∈ firstsOps info p.head p.elements := by
    intro op; unfold allFirstsOps; exact List.mem_flatMap
  constructor
  · intro h
    induction h with
    | insert h =>
      obtain ⟨p, hp, h⟩ := (hmem _).1 h
      obtain ⟨rfl, pre, post, he, h1⟩ := mem_firstsOps_insert.1 h
      refine ⟨post, ?_⟩
      have hd := Cfg.derives_prod (G := g.cfg) ((Grammar.cfg_prod_iff hw).2 ⟨p, hp, rfl, rfl⟩)
      rw [he] at hd
      refine hd.trans (Cfg.derives_drop ?_ _)
      intro e he
      obtain ⟨B, rfl, hB⟩ := h1 e he
      exact ⟨B, rfl, (hn B).1 hB⟩
    | iter h _ =>
      obtain ⟨p, hp, h⟩ := (hmem _).1 h
      exact absurd h mem_firstsOps_iter
    | fromKey h _ ih =>
      obtain ⟨p, hp, h⟩ := (hmem _).1 h
      obtain ⟨rfl, pre, post, he, h1⟩ := mem_firstsOps_fromKey.1 h
      obtain ⟨γ, hγ⟩ := ih
      refine ⟨γ ++ post, ?_⟩
      have hd := Cfg.derives_prod (G := g.cfg) ((Grammar.cfg_prod_iff hw).2 ⟨p, hp, rfl, rfl⟩)
      rw [he] at hd
      refine hd.trans ((Cfg.derives_drop ?_ _).trans ?_)
      · intro e he
        obtain ⟨B, rfl, hB⟩ := h1 e he
        exact ⟨B, rfl, (hn B).1 hB⟩
      · have := Cfg.Derives.append hγ (Relation.ReflTransGen.refl (a := post))
        simpa using this
  · rintro ⟨γ, h⟩
    have := Cfg.firstOf_complete (null := fun A => info.isNullable A = true)
      (first := Coll (allFirstsOps info g)) hn ?_ h
    · simpa [Cfg.FirstOf] using this
    · intro A β hp t hf
      obtain ⟨p, hp', rfl, rfl⟩ := (Grammar.cfg_prod_iff hw).1 hp
      obtain ⟨pre, post, h1, h2⟩ := firstOf_split.1 hf
      rcases h2 with h2 | ⟨B, h2, hB⟩
      · exact .insert ((hmem _).2 ⟨p, hp', mem_firstsOps_insert.2 ⟨rfl, pre, post, h2, h1⟩⟩)
      · exact .fromKey ((hmem _).2 ⟨p, hp', mem_firstsOps_fromKey.2 ⟨rfl, pre, post, h2, h1⟩⟩) hB

/-- Which keys the Firsts map has. -/
theorem firsts_creates_iff (A : NT) :
    (∃ op ∈ allFirstsOps info g, op.Creates A) ↔
      ∃ p ∈ g.prods, p.head = A ∧ ∃ pre e post, p.elements = pre ++ e :: post ∧
        (∀ x ∈ pre, x = .nonterm A ∧ info.isNullable A = true) ∧ e ≠ .nonterm A := by
  have key : ∀ (head : NT) (es : List (Elem T NT)),
      (∃ op ∈ firstsOps info head es, op.Creates A) ↔ head = A ∧
        ∃ pre e post, es = pre ++ e :: post ∧
          (∀ x ∈ pre, x = .nonterm A ∧ info.isNullable A = true) ∧ e ≠ .nonterm A := by
    intro head es
    induction es with
    | nil => simp [firstsOps]
    | cons e es ih =>
      cases e with
      | term t =>
        simp only [firstsOps, List.mem_singleton, exists_eq_left, CollectOp.Creates]
        constructor
        · rintro rfl; exact ⟨rfl, [], .term t, es, rfl, by simp, by simp⟩
        · rintro ⟨rfl, -⟩; rfl
      | nonterm B =>
        rw [firstsOps]
        simp only [List.mem_cons, exists_eq_or_imp, CollectOp.Creates]
        constructor
        · rintro (⟨rfl, hne⟩ | h)
          · exact ⟨rfl, [], .nonterm B, es, rfl, by simp, by simpa using fun h => hne h.symm⟩
          · split at h
            · rename_i hB
              obtain ⟨rfl, pre, e, post, rfl, h1, h2⟩ := ih.1 h
              by_cases hBA : B = head
              · subst hBA
                refine ⟨rfl, .nonterm B :: pre, e, post, rfl, ?_, h2⟩
                intro x hx
                rcases List.mem_cons.1 hx with rfl | hx
                · exact ⟨rfl, hB⟩
                · exact h1 x hx
              · exact ⟨rfl, [], .nonterm B, pre ++ e :: post, rfl, by simp, by simpa using hBA⟩
            · simp at h
        · rintro ⟨rfl, pre, e, post, h0, h1, h2⟩
          cases pre with
          | nil =>
            simp at h0
            obtain ⟨rfl, rfl⟩ := h0
            exact Or.inl ⟨rfl, by simpa using fun h => h2 (by rw [h])⟩
          | cons x pre =>
            simp at h0
            obtain ⟨rfl, rfl⟩ := h0
            obtain ⟨hx, hn⟩ := h1 _ (List.mem_cons_self)
            cases hx
            right
            rw [if_pos hn]
            exact ih.2 ⟨rfl, pre, e, post, rfl, fun x hx => h1 x (by simp [hx]), h2⟩
  unfold allFirstsOps
  constructor
  · rintro ⟨op, hop, hc⟩
    obtain ⟨p, hp, hop⟩ := List.mem_flatMap.1 hop
    exact ⟨p, hp, (key _ _).1 ⟨op, hop, hc⟩⟩
  · rintro ⟨p, hp, h⟩
    obtain ⟨op, hop, hc⟩ := (key _ _).2 h
    exact ⟨op, List.mem_flatMap.2 ⟨p, hp, hop⟩, hc⟩

theorem firstsRun_spec (hw : g.WF) (hn : ∀ A, info.isNullable A = true ↔ g.cfg.Null A)
    {fuel : Nat} (hf : CollectOp.bound (allFirstsOps info g) ≤ fuel) :
    ∃ f, Firsts.runPass fuel g (.ok info) = .ok (.ok f) ∧
      CollectMap.WF compare compare f.map ∧
      (∀ A t, CollectMap.Has compare f.map A t ↔ ∃ γ, g.cfg.Derives [.nonterm A] (.term t :: γ)) ∧
      ∀ A, BMap.get? compare f.map A ≠ none ↔
        ∃ p ∈ g.prods, p.head = A ∧ ∃ pre e post, p.elements = pre ++ e :: post ∧
        (∀ x ∈ pre, x = .nonterm A ∧ info.isNullable A = true) ∧ e ≠ .nonterm A := by
  obtain ⟨m, h1, h2, h3, h4⟩ := CollectOp.loop (allFirstsOps info g) hf
  refine ⟨⟨m⟩, ?_, h2, fun A t => (h3 A t).trans (coll_firsts_iff hw hn A t),
    fun A => (h4 A).trans (firsts_creates_iff A)⟩
  show (match changeLoop fuel (fun m => Res.ok (changeIter g.prods (firstsVisit info) m)) [] with
    | .ok m => _ | .panic w => _ | .oof => _) = _
  have : (fun m => Res.ok (changeIter g.prods (firstsVisit info) m)) =
      fun m : CollectMap NT T => Res.ok (changeIter (allFirstsOps info g) CollectOp.apply m) := by
    funext m; rw [firstsPass_eq]
  rw [this, h1]
end
end Bongo
