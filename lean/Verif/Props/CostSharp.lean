import Verif.Props.Cost
import Verif.Proof.Start
import Verif.Props.LalrExamples
/-! C106: the bound on the rounds of the Nullable pass cannot be improved. -/
set_option linter.unusedSectionVars false
namespace Bongo
open Std

/-- The body of the last production of `i`: the next nonterminal, or nothing if `i` is the last. -/
def slowBody (n i : Nat) : List (ProdElement Nat Nat) :=
  if i = n then [] else [⟨none, .nonterm (i + 1)⟩]

/-- The rule of `i`; that of `0` has the production `0 → 0` before it. -/
def slowRule (n i : Nat) : RuleInner Nat Nat Nat Unit :=
  ⟨i, (if i = 0 then [⟨1, (), [⟨none, .nonterm 0⟩]⟩] else []) ++ [⟨2, (), slowBody n i⟩]⟩

/-- `0 → 0 | 1`, `1 → 2`, ..., `n → ε`. -/
def slowGrammar (n : Nat) : Grammar Nat Nat Nat Unit :=
  ⟨0, (List.range (n + 1)).map fun i => (i, slowRule n i)⟩

/-- `0 → 0`. -/
def slowLoop : Prod Nat Nat Nat Unit := ⟨0, 0, ⟨1, (), [⟨none, .nonterm 0⟩]⟩⟩

/-- The last production of `i`. -/
def slowProd (n i : Nat) : Prod Nat Nat Nat Unit :=
  ⟨i, if i = 0 then 1 else 0, ⟨2, (), slowBody n i⟩⟩

theorem slow_sorted (n : Nat) : BMap.Sorted compare (slowGrammar n).ruleSet := by
  unfold BMap.Sorted slowGrammar
  rw [List.pairwise_map]
  exact List.pairwise_lt_range.imp fun h => Nat.compare_eq_lt.2 h

theorem slow_ofRules (n : Nat) :
    Grammar.ofRules 0 ((List.range (n + 1)).map (slowRule n)) = slowGrammar n := by
  unfold Grammar.ofRules
  have h : ((List.range (n + 1)).map (slowRule n)).map (fun r => (r.head, r)) =
      (slowGrammar n).ruleSet := by
    simp only [slowGrammar, List.map_map]; rfl
  rw [h, BMap.ofList_of_sorted (slow_sorted n)]
  rfl

theorem slow_wf (n : Nat) : (slowGrammar n).WF := by
  rw [← slow_ofRules]; exact Grammar.ofRules_wf _ _

theorem slow_rule {n i : Nat} (h : i ≤ n) : (slowGrammar n).tryGetRule i = some (slowRule n i) := by
  rw [Grammar.tryGetRule_iff (slow_wf n)]
  exact List.mem_map.2 ⟨i, List.mem_range.2 (by omega), rfl⟩

theorem slow_rule_iff {n i : Nat} {r} (h : (slowGrammar n).tryGetRule i = some r) :
    i ≤ n ∧ r = slowRule n i := by
  rw [Grammar.tryGetRule_iff (slow_wf n)] at h
  obtain ⟨j, h1, h2⟩ := List.mem_map.1 h
  simp only [_root_.Prod.mk.injEq] at h2
  obtain ⟨rfl, rfl⟩ := h2
  have := List.mem_range.1 h1
  exact ⟨by omega, rfl⟩

theorem slow_prods (n : Nat) :
    (slowGrammar n).prods = slowLoop :: (List.range (n + 1)).map (slowProd n) := by
  have h : (slowGrammar n).prods = (List.range (n + 1)).flatMap fun i => (slowRule n i).prodRefs := by
    simp only [Grammar.prods, Grammar.rules, BMap.values, slowGrammar, List.map_map,
      List.flatMap_map]
    rfl
  rw [h, List.range_succ_eq_map, List.flatMap_cons, List.map_cons]
  have h0 : (slowRule n 0).prodRefs = [slowLoop, slowProd n 0] := rfl
  rw [h0]
  simp only [List.flatMap_map, List.map_map, List.cons_append, List.nil_append, List.cons.injEq,
    true_and]
  rw [← List.flatMap_singleton' ((List.range n).map _), List.flatMap_map]
  congr 1

theorem slow_mentions {n A B : Nat} (h : (slowGrammar n).cfg.Mentions A B) : B ≤ n := by
  obtain ⟨β, hβ, hB⟩ := h
  obtain ⟨p, hp, -, rfl⟩ := (Grammar.cfg_prod_iff (slow_wf n)).1 hβ
  rw [slow_prods] at hp
  rcases List.mem_cons.1 hp with rfl | hp
  · simp [slowLoop, Prod.elements, ProdInner.elems] at hB; omega
  · obtain ⟨i, hi, rfl⟩ := List.mem_map.1 hp
    have := List.mem_range.1 hi
    by_cases h : i = n
    · simp [slowProd, Prod.elements, ProdInner.elems, slowBody, h] at hB
    · simp [slowProd, Prod.elements, ProdInner.elems, slowBody, h] at hB; omega

theorem slow_next {n i : Nat} (h : i < n) : (slowGrammar n).cfg.Mentions i (i + 1) := by
  refine ⟨(slowProd n i).elements, (Grammar.cfg_prod_iff (slow_wf n)).2 ⟨slowProd n i, ?_, rfl, rfl⟩, ?_⟩
  · rw [slow_prods]
    exact List.mem_cons_of_mem _ (List.mem_map.2 ⟨i, List.mem_range.2 (by omega), rfl⟩)
  · simp [slowProd, Prod.elements, ProdInner.elems, slowBody, show ¬ i = n by omega]

theorem slow_loop (n : Nat) : (slowGrammar n).cfg.Mentions 0 0 := by
  refine ⟨slowLoop.elements, (Grammar.cfg_prod_iff (slow_wf n)).2 ⟨slowLoop, ?_, rfl, rfl⟩, ?_⟩
  · rw [slow_prods]; simp
  · simp [slowLoop, Prod.elements, ProdInner.elems]

theorem slow_reach {n : Nat} : ∀ B, B ≤ n → Relation.TransGen (slowGrammar n).cfg.Mentions 0 B
  | 0, _ => .single (slow_loop n)
  | B + 1, h => .tail (slow_reach B (by omega)) (slow_next (by omega))

theorem slow_accepted (n : Nat) : (slowGrammar n).Accepted := by
  have hv : (Grammar.ofRules 0 ((List.range (n + 1)).map (slowRule n))).Valid := by
    rw [slow_ofRules]
    refine { toWF := slow_wf n, startRule := ⟨_, slow_rule (Nat.zero_le n)⟩, closed := ?_, reach := ?_,
             nonempty := ?_ }
    · intro A B h; exact ⟨_, slow_rule (slow_mentions h)⟩
    · intro A B h; exact slow_reach B (slow_mentions h)
    · intro A r h
      rw [(slow_rule_iff h).2]
      simp [slowRule]
  obtain ⟨N, hN⟩ := Grammar.new_of_valid hv
  refine ⟨N, 0, (List.range (n + 1)).map fun i => ⟨i, (slowRule n i).prods.map fun p =>
    .addProdWithElems p.actionKey p.actionValue p.elements⟩, ?_⟩
  rw [grammar_builder_records, ← slow_ofRules n, ← hN N (Nat.le_refl _)]
  congr 1
  simp only [List.map_map]
  apply List.map_congr_left
  intro i _
  simp only [Function.comp, GrammarOp.declares, List.map_map]
  have : ∀ r : RuleInner Nat Nat Nat Unit, (⟨r.head, r.prods.map (RuleOp.declares ∘ fun p =>
      .addProdWithElems p.actionKey p.actionValue p.elements)⟩ : RuleInner Nat Nat Nat Unit) = r := by
    rintro ⟨h, ps⟩
    simp only [RuleInner.mk.injEq, true_and]
    conv => rhs; rw [← List.map_id ps]
    apply List.map_congr_left
    intro p _
    rfl
  exact this (slowRule n i)

section
variable {n : Nat} {addr : Nat → Nat → Nat}

/-- What can be known before round `k`. -/
def SlowInv (n k : Nat) (m : BMap Nat (InternalNullableInfo Nat Nat Nat Unit)) : Prop :=
  ∀ p, NullFact m p → n + 1 ≤ p.head + k ∧ (p = slowLoop → n + 2 ≤ k)

theorem slow_round (ha : AddrInj (slowGrammar n) addr) {k : Nat} {m}
    (h : NullInv addr (slowGrammar n) m)
    (hc : ∀ p, NullFact m p → (n + 1 ≤ p.head + k ∨ p = slowLoop) ∧ (p = slowLoop → n + 1 ≤ k))
    (j : Nat) (hj : j ≤ n + 1) :
    NullInv addr (slowGrammar n) (changeIter ((List.range j).map (slowProd n)) (nullableVisit addr) m).1 ∧
      ∀ p, NullFact (changeIter ((List.range j).map (slowProd n)) (nullableVisit addr) m).1 p →
        (n + 1 ≤ p.head + k ∨ (p.head < j ∧ n + 1 ≤ p.head + (k + 1))) ∧
        (p = slowLoop → n + 1 ≤ k) := by
  induction j with
  | zero =>
    refine ⟨h, fun p hp => ?_⟩
    obtain ⟨h1, h2⟩ := hc p hp
    refine ⟨Or.inl ?_, h2⟩
    rcases h1 with h1 | h1
    · exact h1
    · have := h2 h1; omega
  | succ j ih =>
    obtain ⟨i1, i2⟩ := ih (by omega)
    have hmem : slowProd n j ∈ (slowGrammar n).prods := by
      rw [slow_prods]
      exact List.mem_cons_of_mem _ (List.mem_map.2 ⟨j, List.mem_range.2 (by omega), rfl⟩)
    rw [List.range_succ, List.map_append, changeIter_append]
    simp only [List.map_cons, List.map_nil, changeIter_cons, changeIter]
    refine ⟨nullableVisit_inv (slow_wf n) ha i1 hmem, fun p hp => ?_⟩
    rcases (nullableVisit_fact (slow_wf n) ha i1 hmem p).1 hp with ⟨rfl, hn⟩ | hp
    · constructor
      · by_cases hjn : j = n
        · exact Or.inr (by simp only [slowProd]; omega)
        · rw [isProdNullable_iff] at hn
          obtain ⟨B, hB, hcon⟩ := hn (.nonterm (j + 1)) (by simp [slowProd, Prod.elements, ProdInner.elems, slowBody, hjn])
          cases hB
          obtain ⟨q, hq, hqf⟩ := (i1.contains_iff _).1 hcon
          have := (i2 q hqf).1
          right
          simp only [slowProd]
          omega
      · intro he
        simp [slowProd, slowLoop] at he
    · obtain ⟨h1, h2⟩ := i2 p hp
      refine ⟨?_, h2⟩
      omega

theorem slow_inv_step (ha : AddrInj (slowGrammar n) addr) {k : Nat} {m}
    (h : NullInv addr (slowGrammar n) m) (hc : SlowInv n k m) :
    SlowInv n (k + 1) (changeIter (slowGrammar n).prods (nullableVisit addr) m).1 := by
  rw [slow_prods, changeIter_cons]
  have hmem : slowLoop ∈ (slowGrammar n).prods := by rw [slow_prods]; simp
  have h' := slow_round ha (k := k) (nullableVisit_inv (slow_wf n) ha h hmem) ?_ (n + 1) (Nat.le_refl _)
  · intro p hp
    obtain ⟨h1, h2⟩ := h'.2 p hp
    exact ⟨by omega, fun e => by have := h2 e; omega⟩
  · intro p hp
    rcases (nullableVisit_fact (slow_wf n) ha h hmem p).1 hp with ⟨rfl, hn⟩ | hp
    · refine ⟨Or.inr rfl, fun _ => ?_⟩
      rw [isProdNullable_iff] at hn
      obtain ⟨B, hB, hcon⟩ := hn (.nonterm 0) (by simp [slowLoop, Prod.elements, ProdInner.elems])
      cases hB
      obtain ⟨q, hq, hqf⟩ := (h.contains_iff _).1 hcon
      have := (hc q hqf).1
      omega
    · obtain ⟨h1, h2⟩ := hc p hp
      exact ⟨Or.inl h1, fun e => by have := h2 e; omega⟩

theorem changeLoop_trace {S : Type} {f : S → Res (S × WasChanged)} {Q : Nat → S → Prop}
    (hstep : ∀ k s s' c, Q k s → f s = .ok (s', c) → Q (k + 1) s') {fuel k : Nat} {s r : S}
    (hs : Q k s) (h : changeLoop fuel f s = .ok r) :
    ∃ j s', j < k + fuel ∧ Q j s' ∧ f s' = .ok (r, .unchanged) := by
  induction fuel generalizing k s with
  | zero => cases h
  | succ fuel ih =>
    rw [changeLoop] at h
    cases he : f s with
    | panic w => simp [he] at h
    | oof => simp [he] at h
    | ok x =>
      obtain ⟨s', c⟩ := x
      cases c with
      | unchanged =>
        simp only [he] at h
        cases h
        exact ⟨k, s, by omega, hs, he⟩
      | changed =>
        simp only [he] at h
        obtain ⟨j, s'', h1, h2, h3⟩ := ih (hstep k s s' _ hs he) h
        exact ⟨j, s'', by omega, h2, h3⟩

theorem slow_null : ∀ i, i ≤ n → (slowGrammar n).cfg.Null i := by
  intro i hi
  obtain ⟨d, hd⟩ : ∃ d, n = i + d := ⟨n - i, by omega⟩
  induction d generalizing i with
  | zero =>
    refine .intro i [] ((Grammar.cfg_prod_iff (slow_wf n)).2 ⟨slowProd n i, ?_, rfl, ?_⟩) (by simp)
    · rw [slow_prods]
      exact List.mem_cons_of_mem _ (List.mem_map.2 ⟨i, List.mem_range.2 (by omega), rfl⟩)
    · simp [slowProd, Prod.elements, ProdInner.elems, slowBody, hd]
  | succ d ih =>
    refine .intro i [i + 1] ((Grammar.cfg_prod_iff (slow_wf n)).2 ⟨slowProd n i, ?_, rfl, ?_⟩) ?_
    · rw [slow_prods]
      exact List.mem_cons_of_mem _ (List.mem_map.2 ⟨i, List.mem_range.2 (by omega), rfl⟩)
    · simp [slowProd, Prod.elements, ProdInner.elems, slowBody, show ¬ i = n by omega]
    · intro B hB
      rw [List.mem_singleton] at hB
      subst hB
      exact ih (i + 1) (by omega) (by omega)

/-- C106.  `nullable_rounds` is exact: for every number of rules there is an accepted grammar for
which the Nullable pass, and so each pass that needs it, does not return with one round less. -/
theorem nullable_rounds_sharp (n : Nat) (addr : Nat → Nat → Nat) (ha : AddrInj (slowGrammar n) addr) :
    (slowGrammar n).Accepted ∧ (slowGrammar n).rules.length = n + 1 ∧
    calculateNullables (n + 2) addr (slowGrammar n) = .oof ∧
    firstsPass (n + 2) addr (slowGrammar n) = .oof ∧
    followsPass (n + 2) addr (slowGrammar n) = .oof := by
  have hw := slow_wf n
  have key : innerCalculateNullables (n + 2) addr (slowGrammar n) = .oof := by
    by_contra hne
    obtain ⟨m, hm, -, -, hfacts⟩ := innerNullables_of_ne_oof hw ha hne
    have hmem : slowLoop ∈ (slowGrammar n).prods := by rw [slow_prods]; simp
    have hl : NullFact m slowLoop := by
      rw [hfacts _ hmem]
      refine Cfg.yields_nil_word_iff.2 fun e he => ⟨0, ?_, slow_null 0 (Nat.zero_le n)⟩
      simpa [slowLoop, Prod.elements, ProdInner.elems] using he
    have hstep : ∀ k s s' c, (NullInv addr (slowGrammar n) s ∧ SlowInv n k s) →
        Res.ok (changeIter (slowGrammar n).prods (nullableVisit addr) s) = .ok (s', c) →
        NullInv addr (slowGrammar n) s' ∧ SlowInv n (k + 1) s' := by
      rintro k s s' c ⟨h1, h2⟩ he
      simp only [Res.ok.injEq] at he
      have hs' : s' = (changeIter (slowGrammar n).prods (nullableVisit addr) s).1 := by rw [he]
      subst hs'
      exact ⟨((nullFactPass hw ha).iter h1).1, slow_inv_step ha h1 h2⟩
    obtain ⟨j, s, h1, ⟨h2, h3⟩, h4⟩ := changeLoop_trace
      (Q := fun k m => NullInv addr (slowGrammar n) m ∧ SlowInv n k m) hstep (k := 0)
      ⟨nullInv_nil, by rintro p ⟨s, hs, -⟩; simp at hs⟩ hm
    simp only [Res.ok.injEq] at h4
    have h5 := ((nullFactPass hw ha).iter h2).2.2.2 (by rw [h4])
    rw [h4] at h5
    have := (h3 _ ((h5.1 slowLoop).1 hl)).2 rfl
    omega
  have hnull : calculateNullables (n + 2) addr (slowGrammar n) = .oof := by
    unfold calculateNullables
    rw [key]
  have hfirst : firstsPass (n + 2) addr (slowGrammar n) = .oof := by
    unfold firstsPass
    rw [hnull]
  refine ⟨slow_accepted n, by simp [slowGrammar, Grammar.rules, BMap.values], hnull, hfirst, ?_⟩
  unfold followsPass
  rw [hfirst]

-- The hypothesis, and one round more for three rules: the pass then finds the ambiguity.
example : AddrInj (slowGrammar 2) exampleAddr ∧
    calculateNullables 5 exampleAddr (slowGrammar 2) = .ok (.error .ambiguity) :=
  ⟨exampleAddr_addrInj _, by rfl⟩

-- Hypotheses of `nullable_rounds`, `firsts_rounds`, `follows_rounds` and `lalr_state_rounds`, with the
-- least fuel they allow.
example : lalrExample.Accepted ∧ AddrInj lalrExample exampleAddr ∧ lalrExample.rules.length + 2 = 4 ∧
    calculateNullables 4 exampleAddr lalrExample = .ok (.ok ⟨[]⟩) ∧
    firstsPass 4 exampleAddr lalrExample = .ok (.ok ⟨[(0, [100, 101]), (1, [100, 101])]⟩) ∧
    (∃ r, followsPass 4 exampleAddr lalrExample = .ok r) ∧
    CollectMapSpec (ProdState.cmp (T := Nat) (AK := Nat) (AV := Unit) exampleAddr) exampleCollect ∧
    Kernel lalrExample lalrKernel ∧ 2 * lalrExample.prods.length + 1 = 7 ∧
    ∃ r, ParseState.fromProdLookahead 10 exampleCollect exampleAddr lalrExample .new lalrKernel = .ok r :=
  ⟨lalrExample_accepted, exampleAddr_addrInj _, by decide, by rfl, by rfl, ⟨_, by rfl⟩,
    exampleCollect_spec, lalrKernel_kernel, by decide, ⟨_, by rfl⟩⟩

-- Hypotheses of `build_rounds` with the least fuel it allows: one nonterminal is written in bodies.
example : (∀ A B, Writes ([⟨0, [.addProd 1 () [.addNonterm 1, .addNonterm 1]]⟩,
      ⟨1, [.addProd 2 () [.addTerm 100, .addNonterm 1], .addProd 3 () [.addTerm 101]]⟩].map
        (GrammarOp.declares (T := Nat) (AK := Nat) (AV := Unit))) A B → B ∈ [1]) ∧
    ∃ g, buildGrammar (AV := Unit) (T := Nat) (AK := Nat) 2 0
      [⟨0, [.addProd 1 () [.addNonterm 1, .addNonterm 1]]⟩,
        ⟨1, [.addProd 2 () [.addTerm 100, .addNonterm 1], .addProd 3 () [.addTerm 101]]⟩] =
      .ok (.ok g) := by
  refine ⟨?_, _, by rfl⟩
  rintro A B ⟨r, ⟨pre, post, h1, -⟩, p, hp, e, he, hB⟩
  have hr : r ∈ pre ++ r :: post := by simp
  rw [← h1] at hr
  simp [GrammarOp.declares, RuleOp.declares, ProdOp.declares] at hr
  rcases hr with rfl | rfl
  · simp at hp
    subst hp
    simp at he
    subst he
    cases hB
    simp
  · simp at hp
    rcases hp with rfl | rfl <;> simp at he
    · rcases he with rfl | rfl
      · cases hB
      · cases hB; simp
    · subst he; cases hB
end
end Bongo
