import Verif.Props.Lalr
/-!
# C51, C52, C63: witnesses and refutations
-/
set_option linter.unusedSectionVars false
namespace Bongo
open Std

/-- Inserting one pair after the other is a way of collecting. -/
theorem ofList_collectMapSpec {K V : Type} (cmp : K → K → Ordering) [TransCmp cmp] :
    CollectMapSpec cmp (BMap.ofList (V := V) cmp) := by
  have hall : ∀ l : List (K × V), BMap.Sorted cmp (BMap.ofList cmp l) ∧
      (∀ e ∈ BMap.ofList cmp l, ∃ e' ∈ l, e'.1 = e.1) ∧
      (∀ e ∈ BMap.ofList cmp l, ∃ l₁ k l₂, l = l₁ ++ (k, e.2) :: l₂ ∧ cmp k e.1 = .eq ∧
        ∀ e' ∈ l₂, cmp e'.1 e.1 ≠ .eq) ∧
      (∀ e ∈ l, ∃ e' ∈ BMap.ofList cmp l, cmp e.1 e'.1 = .eq) := by
    intro l
    induction l using List.reverseRecOn with
    | nil => exact ⟨BMap.sorted_nil, by simp [BMap.ofList], by simp [BMap.ofList], by simp⟩
    | append_singleton l x ih =>
      obtain ⟨k, v⟩ := x
      obtain ⟨h1, h2, h3, h4⟩ := ih
      have happ : BMap.ofList cmp (l ++ [(k, v)]) = BMap.insert cmp (BMap.ofList cmp l) k v := by
        simp [BMap.ofList]
      rw [happ]
      have hkey : cmp k (((BMap.entry? cmp (BMap.ofList cmp l) k).map (·.1)).getD k) = .eq := by
        cases he : BMap.entry? cmp (BMap.ofList cmp l) k with
        | none => exact cmp_self k
        | some y => exact (BMap.entry?_mem he).2
      refine ⟨BMap.sorted_insert h1 _ _, ?_, ?_, ?_⟩
      · intro e he
        rcases (BMap.mem_insert_sorted h1 k v e).1 he with rfl | ⟨he, -⟩
        · cases hy : BMap.entry? cmp (BMap.ofList cmp l) k with
          | none => exact ⟨(k, v), by simp, rfl⟩
          | some y =>
            obtain ⟨e', h5, h6⟩ := h2 y (BMap.entry?_mem hy).1
            exact ⟨e', by simp [h5], h6⟩
        · obtain ⟨e', h5, h6⟩ := h2 e he
          exact ⟨e', by simp [h5], h6⟩
      · intro e he
        rcases (BMap.mem_insert_sorted h1 k v e).1 he with rfl | ⟨he, hne⟩
        · exact ⟨l, k, [], rfl, hkey, by simp⟩
        · obtain ⟨l₁, k', l₂, h5, h6, h7⟩ := h3 e he
          refine ⟨l₁, k', l₂ ++ [(k, v)], by rw [h5]; simp, h6, ?_⟩
          intro e' he'
          rcases List.mem_append.1 he' with he' | he'
          · exact h7 e' he'
          · rw [List.mem_singleton] at he'; subst he'; exact hne
      · intro e he
        have hnew := (BMap.mem_insert_sorted h1 k v _).2 (Or.inl rfl)
        rcases List.mem_append.1 he with he | he
        · obtain ⟨e', h5, h6⟩ := h4 e he
          by_cases hk : cmp k e'.1 = .eq
          · refine ⟨_, hnew, ?_⟩
            rw [cmp_congr_left h6, ← cmp_congr_left hk]
            exact hkey
          · exact ⟨e', (BMap.mem_insert_sorted h1 k v e').2 (Or.inr ⟨h5, hk⟩), h6⟩
        · rw [List.mem_singleton] at he; subst he
          exact ⟨_, hnew, hkey⟩
  exact ⟨fun l => (hall l).1, fun l => (hall l).2.1, fun l => (hall l).2.2.1,
    fun l => (hall l).2.2.2⟩

/-- The collecting function of the examples. -/
def exampleCollect {T AK AV : Type} (l : List (ProdState T Nat AK AV × BSet T)) :
    BMap (ProdState T Nat AK AV) (BSet T) := BMap.ofList (ProdState.cmp exampleAddr) l

theorem exampleCollect_spec {T AK AV : Type} :
    CollectMapSpec (ProdState.cmp (T := T) (AK := AK) (AV := AV) exampleAddr) exampleCollect :=
  ofList_collectMapSpec _

/-- `S(0) → A(1) A(1)`, `A → a A | b`: a textbook LR grammar. -/
def lalrExample : Grammar Nat Nat Nat Unit :=
  ⟨0, [(0, ⟨0, [⟨1, (), [⟨none, .nonterm 1⟩, ⟨none, .nonterm 1⟩]⟩]⟩),
       (1, ⟨1, [⟨2, (), [⟨none, .term 100⟩, ⟨none, .nonterm 1⟩]⟩, ⟨3, (), [⟨none, .term 101⟩]⟩]⟩)]⟩

theorem lalrExample_accepted : lalrExample.Accepted :=
  ⟨9, 0, [⟨0, [.addProd 1 () [.addNonterm 1, .addNonterm 1]]⟩,
          ⟨1, [.addProd 2 () [.addTerm 100, .addNonterm 1], .addProd 3 () [.addTerm 101]]⟩],
    by decide⟩

def lalrS : Prod Nat Nat Nat Unit := ⟨0, 0, ⟨1, (), [⟨none, .nonterm 1⟩, ⟨none, .nonterm 1⟩]⟩⟩
def lalrA₁ : Prod Nat Nat Nat Unit := ⟨1, 0, ⟨2, (), [⟨none, .term 100⟩, ⟨none, .nonterm 1⟩]⟩⟩
def lalrA₂ : Prod Nat Nat Nat Unit := ⟨1, 1, ⟨3, (), [⟨none, .term 101⟩]⟩⟩

/-- The kernel `S → • A A, {$}` of the start state. -/
def lalrKernel : List (ProdState Nat Nat Nat Unit × BSet Nat) := [(⟨lalrS, 0⟩, [99])]

theorem lalrKernel_kernel : Kernel lalrExample lalrKernel :=
  ⟨by decide, by decide, by unfold BSet.Sorted; decide⟩

/-- The start state: `S → • A A, {$}`; `A → • a A, {a, b}`; `A → • b, {a, b}`. -/
def lalrState : ParseState Nat Nat Nat Unit :=
  ⟨[(⟨lalrS, 0⟩, [99]), (⟨lalrA₁, 0⟩, [100, 101]), (⟨lalrA₂, 0⟩, [100, 101])]⟩

/-- The context after building it. -/
def lalrPasses : ParseState.Ctx Nat Nat Nat :=
  ⟨[(.nullable, some (.nullable ⟨[]⟩)), (.firsts, some (.firsts ⟨[(0, [100, 101]), (1, [100, 101])]⟩))],
    [.ran .firsts, .ran .nullable, .got .nullable (.ok (.nullable ⟨[]⟩)),
      .got .firsts (.ok (.firsts ⟨[(0, [100, 101]), (1, [100, 101])]⟩))]⟩

theorem lalrState_built : ParseState.fromProdLookahead 20 exampleCollect exampleAddr lalrExample
    .new lalrKernel = .ok (lalrPasses, .ok lalrState) := by rfl

theorem lalrState_obtained : ParseState.Obtained exampleAddr lalrExample lalrState :=
  .new exampleCollect_spec ⟨[], rfl⟩ lalrKernel_kernel lalrState_built

theorem lalrPasses_used : UsedContext 20 exampleAddr lalrExample lalrPasses :=
  ⟨[.firsts], by rfl⟩

/-- Shifting `b` in the start state: `A → b •, {a, b}`, which reduces action 3. -/
def lalrStateB : ParseState Nat Nat Nat Unit := ⟨[(⟨lalrA₂, 1⟩, [100, 101])]⟩

/-- Shifting `a` in the start state: `A → a • A, {a, b}`; `A → • b, {a, b}`. -/
def lalrStateA : ParseState Nat Nat Nat Unit :=
  ⟨[(⟨lalrA₁, 1⟩, [100, 101]), (⟨lalrA₂, 0⟩, [100, 101])]⟩

/-- The hypotheses of `lalr_shift_exact` are met, with two terminals. -/
theorem lalrState_shifts : ∃ passes', ParseState.shiftActions 20 exampleCollect exampleAddr
    lalrExample lalrPasses lalrState =
      .ok (passes', .ok [(100, lalrStateA), (101, lalrStateB)]) := ⟨_, by rfl⟩

example : lalrStateB.reducableActions = [3] ∧ lalrState.reducableActions = [] := ⟨rfl, rfl⟩

theorem lalrStateB_obtained : ParseState.Obtained exampleAddr lalrExample lalrStateB := by
  obtain ⟨p, h⟩ := lalrState_shifts
  exact .shift exampleCollect_spec lalrPasses_used lalrState_obtained h (t := 101) (by simp)

theorem lalrStateA_obtained : ParseState.Obtained exampleAddr lalrExample lalrStateA := by
  obtain ⟨p, h⟩ := lalrState_shifts
  exact .shift exampleCollect_spec lalrPasses_used lalrState_obtained h (t := 100) (by simp)

/-- The hypotheses of `lalr_closure_textbook_partial` are met by the start state. -/
example : CollisionFree lalrExample lalrKernel ∧ (∀ e ∈ lalrKernel, e.2 ≠ []) ∧
    (∀ p ∈ lalrExample.prods, ∀ i B C, p.elements[i]? = some (.nonterm B) →
      p.elements[i + 1]? = some (.nonterm C) → ¬ lalrExample.cfg.Generates C []) := by
  refine ⟨?_, by decide, ?_⟩
  · intro e he t _
    simp only [lalrKernel, List.mem_singleton] at he
    rw [he]
  · intro p hp i B C hB hC hgen
    have hne : ∀ A β, lalrExample.cfg.prod A β → β ≠ [] := by
      rintro A β ⟨r, q, hr, hq, rfl⟩
      simp only [lalrExample, List.mem_cons, _root_.Prod.mk.injEq, List.not_mem_nil, or_false] at hr
      rcases hr with ⟨-, rfl⟩ | ⟨-, rfl⟩ <;> simp at hq <;> rcases hq with rfl | rfl <;> simp
    obtain ⟨β, h1, h2⟩ := (Cfg.derives_nonterm hgen).resolve_left (by simp)
    have key : ∀ {α γ}, lalrExample.cfg.Derives α γ → α ≠ [] → γ ≠ [] := by
      intro α γ h hα
      induction h with
      | refl => exact hα
      | tail _ hs ih =>
        cases hs with
        | mk u v A β hp => simp [hne A β hp]
    exact key h2 (hne _ _ h1) rfl

/-- The same state for every collecting function and fuel, from the outcome theorem: the premises of
`lalr_outcome` are met and there is no gap. -/
example : ∃ N, ∀ fuel, N ≤ fuel → ∃ passes' st,
    ParseState.fromProdLookahead fuel exampleCollect exampleAddr lalrExample .new lalrKernel =
      .ok (passes', .ok st) := by
  obtain ⟨N, hN⟩ := lalr_outcome lalrExample lalrExample_accepted exampleAddr (exampleAddr_addrInj _)
    exampleCollect exampleCollect_spec lalrKernel lalrKernel_kernel
  have h20 := lalrState_built
  refine ⟨max N 20, fun fuel hf => ?_⟩
  have hn : calculateNullables 20 exampleAddr lalrExample = .ok (.ok ⟨[]⟩) := by rfl
  rcases hN fuel (by omega) with ⟨e, h1, -⟩ | ⟨-, ⟨h1, -⟩ | ⟨-, h⟩⟩
  · rw [calculateNullables_mono (show 20 ≤ fuel by omega) hn] at h1; cases h1
  · have hf1 : firstsPass 20 exampleAddr lalrExample =
        .ok (.ok ⟨[(0, [100, 101]), (1, [100, 101])]⟩) := by rfl
    obtain ⟨s, h2, B, C, h3, h4, h5⟩ := (lalrGap_iff lalrExample_accepted.valid.toWF
      (exampleAddr_addrInj _) hf1 lalrKernel).1 h1
    have hp := (h2.kernelItem (K := lalrKernel) lalrKernel_kernel.prods).2
    have hps : lalrExample.prods = [lalrS, lalrA₁, lalrA₂] := by rfl
    have hC : C = 1 := by
      rw [hps] at hp
      simp only [List.mem_cons, List.not_mem_nil, or_false] at hp
      have hmem := List.mem_of_getElem? h4
      rcases hp with hp | hp | hp <;> rw [hp] at hmem <;>
        simp [Prod.elements, ProdInner.elems, lalrS, lalrA₁, lalrA₂] at hmem <;> exact hmem
    subst hC
    cases h5
  · exact h

/-! ## Refutations -/

/-- C51 is false of the code (a): in the state after shifting `a`, the item `A → a • A` has `A`
after the dot, but `A → • a A` is missing, because `ProdState`s of one production are equal under
`Ord` whatever their position.  The textbook closure has it; and the state cannot shift a second
`a`, although `a a b b` is in the language. -/
theorem lalr_collision :
    ParseState.Obtained exampleAddr lalrExample lalrStateA ∧
    lalrStateA.Has ⟨lalrA₁, 1⟩ none ∧ lalrA₁.elements[1]? = some (.nonterm 1) ∧
    lalrA₁ ∈ lalrExample.prods ∧ lalrA₁.head = 1 ∧ ¬ lalrStateA.Has ⟨lalrA₁, 0⟩ none ∧
    Lr1Closure lalrExample (fun s t => lalrStateA.Has s (some t)) ⟨lalrA₁, 0⟩ 100 ∧
    (∃ passes', ParseState.shiftActions 20 exampleCollect exampleAddr lalrExample lalrPasses
      lalrStateA = .ok (passes', .ok [(101, lalrStateB)])) ∧
    lalrExample.cfg.InLanguage [100, 100, 101, 101] := by
  refine ⟨lalrStateA_obtained, ⟨[100, 101], by decide, by simp⟩, rfl, by decide, rfl, ?_, ?_,
    ⟨_, by rfl⟩, ?_⟩
  · rintro ⟨la, h, -⟩
    simp [lalrStateA, lalrA₁, lalrA₂] at h
  · refine Lr1Closure.expand (s := ⟨lalrA₁, 1⟩) (a := 100) (B := 1)
      (.kernel ⟨[100, 101], by decide, by simp⟩) rfl (by decide) rfl (Or.inr ⟨Cfg.Derives.refl _, rfl⟩)
  · have hS : lalrExample.cfg.prod 0 [.nonterm 1, .nonterm 1] :=
      ⟨_, _, List.mem_cons_self, List.mem_cons_self, rfl⟩
    have hA : lalrExample.cfg.prod 1 [.term 100, .nonterm 1] :=
      ⟨_, _, List.mem_cons_of_mem _ List.mem_cons_self, List.mem_cons_self, rfl⟩
    have hb : lalrExample.cfg.prod 1 [.term 101] :=
      ⟨_, _, List.mem_cons_of_mem _ List.mem_cons_self,
        List.mem_cons_of_mem _ List.mem_cons_self, rfl⟩
    have h0 : lalrExample.cfg.Derives [.nonterm 0] [.nonterm 1, .nonterm 1] := Cfg.derives_prod hS
    have h1 : lalrExample.cfg.Derives [.nonterm 1] [.term 101] := Cfg.derives_prod hb
    have h2 : lalrExample.cfg.Derives [.nonterm 1] [.term 100, .nonterm 1] := Cfg.derives_prod hA
    have h3 : lalrExample.cfg.Derives [.nonterm 1] [.term 100, .term 101] :=
      h2.trans (Cfg.Derives.append (Cfg.Derives.refl [.term 100]) h1)
    have h4 : lalrExample.cfg.Derives [.nonterm 1] [.term 100, .term 100, .term 101] :=
      h2.trans (Cfg.Derives.append (Cfg.Derives.refl [.term 100]) h3)
    exact h0.trans (Cfg.Derives.append h4 h1)

/-- `S(0) → A(1)`, `A → a`. -/
def lalrUnit : Grammar Nat Nat Nat Unit :=
  ⟨0, [(0, ⟨0, [⟨1, (), [⟨none, .nonterm 1⟩]⟩]⟩), (1, ⟨1, [⟨2, (), [⟨none, .term 100⟩]⟩]⟩)]⟩

/-- C51 is false of the code (b): without lookaheads nothing is added, so `S → • A` does not bring
`A → • a` and the state shifts nothing. -/
theorem lalr_no_lookahead : lalrUnit.Accepted ∧
    let s : ProdState Nat Nat Nat Unit := ⟨⟨0, 0, ⟨1, (), [⟨none, .nonterm 1⟩]⟩⟩, 0⟩
    Kernel lalrUnit [(s, [])] ∧ s.prod.elements[s.index]? = some (.nonterm 1) ∧
    (⟨1, 0, ⟨2, (), [⟨none, .term 100⟩]⟩⟩ : Prod Nat Nat Nat Unit) ∈ lalrUnit.prods ∧
    ∃ passes', ParseState.fromProdLookahead 20 exampleCollect exampleAddr lalrUnit .new [(s, [])] =
      .ok (passes', .ok ⟨[(s, [])]⟩) := by
  refine ⟨⟨9, 0, [⟨0, [.addProd 1 () [.addNonterm 1]]⟩, ⟨1, [.addProd 2 () [.addTerm 100]]⟩],
    by decide⟩, ⟨by decide, by decide, by unfold BSet.Sorted; decide⟩, rfl, by decide, _, by rfl⟩

/-- C51's lookaheads differ from the textbook's (c): in `S → • A B c` with `B` nullable, `A → a`
gets lookahead `b` only, although `c` can follow too. -/
theorem lalr_ignores_nullable : followExample.Accepted ∧
    let s : ProdState Nat Nat Nat Unit :=
      ⟨⟨0, 0, ⟨1, (), [⟨none, .nonterm 1⟩, ⟨none, .nonterm 2⟩, ⟨none, .term 102⟩]⟩⟩, 0⟩
    let a : ProdState Nat Nat Nat Unit := ⟨⟨1, 0, ⟨2, (), [⟨none, .term 100⟩]⟩⟩, 0⟩
    Kernel followExample [(s, [99])] ∧ CollisionFree followExample [(s, [99])] ∧
    (∃ passes', ParseState.fromProdLookahead 20 exampleCollect exampleAddr followExample .new
      [(s, [99])] = .ok (passes', .ok ⟨[(s, [99]), (a, [101])]⟩)) ∧
    Lr1Closure followExample (KernelHas [(s, [99])]) a 102 := by
  refine ⟨followExample_accepted, ⟨by decide, by decide, by unfold BSet.Sorted; decide⟩, ?_, ⟨_, by rfl⟩, ?_⟩
  · intro e he t _
    simp only [List.mem_singleton] at he
    rw [he]
  · refine Lr1Closure.expand (s := ⟨⟨0, 0, ⟨1, (), [⟨none, .nonterm 1⟩, ⟨none, .nonterm 2⟩,
      ⟨none, .term 102⟩]⟩⟩, 0⟩) (a := 99) (B := 1) (.kernel ⟨[99], by simp, by simp⟩) rfl
      (by decide) rfl (Or.inl ⟨[], ?_⟩)
    have hB : followExample.cfg.prod 2 [] :=
      ⟨⟨2, [⟨3, (), []⟩, ⟨4, (), [⟨none, .term 101⟩]⟩]⟩, ⟨3, (), []⟩, by decide, by decide, rfl⟩
    exact Cfg.Derives.append (Cfg.derives_prod hB) (Cfg.Derives.refl [.term 102])

/-- Panics happen: `S → • A B` with `B → ε` only. -/
example : ParseState.fromProdLookahead 20 exampleCollect exampleAddr followPanicExample .new
    [(⟨⟨0, 0, ⟨1, (), [⟨none, .nonterm 1⟩, ⟨none, .nonterm 2⟩]⟩⟩, 0⟩, [99])] = .panic .noFirsts := by
  rfl

/-- C63 is false of the code: the states `A → • a A, {$}` and `A → a A •, {$}` of a program are
equal although they have no item in common, and only one of them can reduce. -/
theorem lalr_state_eq_ignores_positions :
    let a : ParseState Nat Nat Nat Unit := ⟨[(⟨lalrA₁, 0⟩, [99])]⟩
    let b : ParseState Nat Nat Nat Unit := ⟨[(⟨lalrA₁, 2⟩, [99])]⟩
    ParseState.Obtained exampleAddr lalrExample a ∧ ParseState.Obtained exampleAddr lalrExample b ∧
    ParseState.cmp exampleAddr a b = .eq ∧ (∀ s o, a.Has s o → ¬ b.Has s o) ∧
    a.reducableActions = [] ∧ b.reducableActions = [2] := by
  refine ⟨?_, ?_, by rfl, ?_, rfl, rfl⟩
  · exact .new (items := [(⟨lalrA₁, 0⟩, [99])]) exampleCollect_spec (fuel := 20) ⟨[], rfl⟩
      ⟨by decide, by decide, by unfold BSet.Sorted; decide⟩ (by rfl)
  · exact .new (items := [(⟨lalrA₁, 2⟩, [99])]) exampleCollect_spec (fuel := 20) ⟨[], rfl⟩
      ⟨by decide, by decide, by unfold BSet.Sorted; decide⟩ (by rfl)
  · rintro s o ⟨la, h1, -⟩ ⟨la', h2, -⟩
    simp only [List.mem_singleton, _root_.Prod.mk.injEq] at h1 h2
    rw [h1.1] at h2
    simp at h2
end Bongo
