import Verif.Spec.Refs
import Verif.Props.Lalr
import Verif.Props.LalrExamples
/-!
# C81–C84: comparing rules, productions, sets of states and elements
-/
set_option linter.unusedSectionVars false
namespace Bongo
open Std
variable {T NT AK AV : Type}

section
variable [Ord NT] [TransOrd NT] [LawfulEqOrd NT]

/-! ## C81 -/

/-- C81: rules of one grammar are compared without panic, by a total order in which rules are equal
exactly if they have the same head; comparing rules of two grammars (even two copies of one) panics. -/
theorem rule_compare_exact {gs : List (Placed T NT AK AV)} (hm : Apart gs)
    {g h : Placed T NT AK AV} (hg : g ∈ gs) (hh : h ∈ gs) {a b : RuleRef T NT AK AV}
    (ha : a ∈ g.rules) (hb : b ∈ h.rules) :
    (g ≠ h → a.eq b = .panic .otherGrammar ∧ a.cmp b = .panic .otherGrammar) ∧
    (g = h → ∃ o, a.cmp b = .ok o ∧ b.cmp a = .ok o.swap ∧ a.eq b = .ok (o == .eq) ∧
      (o = .eq ↔ a.rule.head = b.rule.head) ∧
      ∀ c ∈ g.rules, a.cmp b = .ok .lt → b.cmp c = .ok .lt → a.cmp c = .ok .lt) := by
  have hmem : ∀ {g : Placed T NT AK AV} {a : RuleRef T NT AK AV}, a ∈ g.rules →
      a.home = g ∧ a.rule ∈ g.grammar.rules := by
    intro g a h
    obtain ⟨r, hr, rfl⟩ := List.mem_map.1 h
    exact ⟨rfl, hr⟩
  obtain ⟨a1, a2⟩ := hmem ha
  obtain ⟨b1, b2⟩ := hmem hb
  constructor
  · intro hne
    have : g.base ≠ h.base := fun e => hne (hm.grammars g hg h hh e)
    simp [RuleRef.eq, RuleRef.cmp, ParentRef.eq, ParentRef.cmp, RuleRef.grammarRef, refEq, a1, b1,
      this, Res.bind]
  · rintro rfl
    have key : ∀ {x y : RuleRef T NT AK AV}, x.home = g → y.home = g →
        x.cmp y = .ok (compare (g.ruleAddr x.rule.head) (g.ruleAddr y.rule.head)) := by
      intro x y hx hy
      simp [RuleRef.cmp, ParentRef.cmp, RuleRef.grammarRef, RuleRef.ruleRef, RefCompare.cmp, refEq,
        refCmp, hx, hy, Res.bind]
    refine ⟨compare (g.ruleAddr a.rule.head) (g.ruleAddr b.rule.head), key a1 b1, ?_, ?_, ?_, ?_⟩
    · rw [key b1 a1, OrientedCmp.eq_swap (cmp := compare (α := Nat))]
    · simp only [RuleRef.eq, ParentRef.eq, RuleRef.grammarRef, RuleRef.ruleRef, RefCompare.eq, refEq,
        a1, b1, Res.bind, beq_self_eq_true, if_true]
      congr 1
      rw [Bool.eq_iff_iff]
      simp
    · rw [LawfulEqCmp.compare_eq_iff_eq]
      exact ⟨fun e => (hm.rules g hg g hg _ a2 _ b2 e).2, fun e => by rw [e]⟩
    · intro c hc
      rw [key a1 b1, key b1 (hmem hc).1, key a1 (hmem hc).1]
      simp only [Res.ok.injEq]
      exact TransCmp.lt_trans

/-! ## C82 -/

/-- C82: productions, of one grammar or several, are compared without panic, by a total order in
which two productions are equal exactly if they are the same production of the same grammar. -/
theorem prod_compare_exact {gs : List (Placed T NT AK AV)} (hm : Apart gs)
    (hwf : ∀ g ∈ gs, g.grammar.Accepted) {g h : Placed T NT AK AV} (hg : g ∈ gs) (hh : h ∈ gs)
    {a b : ProdRef T NT AK AV} (ha : a ∈ g.prods) (hb : b ∈ h.prods) :
    (a.cmp b = .eq ↔ g = h ∧ a.prod = b.prod) ∧ (a.eq b = true ↔ a.cmp b = .eq) ∧
    b.cmp a = (a.cmp b).swap ∧
    ∀ c : ProdRef T NT AK AV, a.cmp b = .lt → b.cmp c = .lt → a.cmp c = .lt := by
  obtain ⟨p, hp, rfl⟩ := List.mem_map.1 ha
  obtain ⟨q, hq, rfl⟩ := List.mem_map.1 hb
  simp only [ProdRef.cmp, ProdRef.eq, RefCompare.cmp, RefCompare.eq, refCmp, refEq, ProdRef.prodRef]
  refine ⟨?_, ?_, OrientedCmp.eq_swap, fun c => TransCmp.lt_trans⟩
  · rw [LawfulEqCmp.compare_eq_iff_eq]
    constructor
    · intro e
      obtain ⟨rfl, h1, h2⟩ := hm.prods g hg h hh p hp q hq e
      refine ⟨rfl, ?_⟩
      have hw := (hwf g hg).valid.toWF
      obtain ⟨r, k1, k2⟩ := (Grammar.mem_prods hw).1 hp
      obtain ⟨s, k3, k4⟩ := (Grammar.mem_prods hw).1 hq
      rw [h1, k3] at k1
      cases k1
      rw [h2, k4, Option.some.injEq] at k2
      cases p; cases q; simp_all
    · rintro ⟨rfl, rfl⟩
      rfl
  · rw [LawfulEqCmp.compare_eq_iff_eq]; simp

/-- C82, use as keys: `rule_set()` lists the rules in increasing order of their heads, and finds for
each nonterminal the rule that `try_get_rule` does. -/
theorem rule_set_exact (g : Placed T NT AK AV) (hg : g.grammar.Accepted) :
    g.ruleSet.Pairwise (fun x y => compare x.1 y.1 = .lt) ∧
    (∀ A, BMap.get? compare g.ruleSet A =
      (g.grammar.tryGetRule A).map fun r => (⟨g, r⟩ : RuleRef T NT AK AV)) ∧
    ∀ A r, (A, r) ∈ g.ruleSet → r.rule.head = A ∧ r ∈ g.rules := by
  have hw := hg.valid.toWF
  refine ⟨?_, ?_, ?_⟩
  · unfold Placed.ruleSet
    rw [List.pairwise_map]
    exact hw.sorted
  · intro A
    unfold Placed.ruleSet Grammar.tryGetRule BMap.get?
    generalize g.grammar.ruleSet = l
    induction l with
    | nil => rfl
    | cons e l ih =>
      rw [List.map_cons, BMap.entry?, BMap.entry?]
      cases compare A e.1 <;> simp_all
  · intro A r h
    obtain ⟨⟨B, s⟩, hm, he⟩ := List.mem_map.1 h
    simp only [_root_.Prod.mk.injEq] at he
    obtain ⟨rfl, rfl⟩ := he
    refine ⟨hw.heads _ _ hm, List.mem_map.2 ⟨s, ?_, rfl⟩⟩
    unfold Grammar.rules BMap.values
    exact List.mem_map.2 ⟨_, hm, rfl⟩
end

/-! ## C83 -/

/-- C83: two sets of production states are equal, and neither is less, exactly if they have states of
the same productions (whatever the positions). -/
theorem prodStateSet_eq_exact [Ord T] [TransOrd T] [LawfulEqOrd T] [Ord NT] [TransOrd NT]
    [LawfulEqOrd NT] (g : Grammar T NT AK AV) (hg : g.Accepted) (addr : NT → Nat → Nat)
    (ha : AddrInj g addr) (a b : ProdStateSet T NT AK AV) (h1 : ProdStateSet.Obtained addr a)
    (h2 : ProdStateSet.Obtained addr b) (hpa : ∀ x ∈ a, x.prod ∈ g.prods)
    (hpb : ∀ x ∈ b, x.prod ∈ g.prods) :
    (ProdStateSet.eq addr a b = true ↔ ProdStateSet.cmp addr a b = .eq) ∧
    (ProdStateSet.cmp addr a b = .eq ↔
      ∀ q, (∃ i, (⟨q, i⟩ : ProdState T NT AK AV) ∈ a) ↔ ∃ i, (⟨q, i⟩ : ProdState T NT AK AV) ∈ b) := by
  have hw := hg.valid.toWF
  unfold ProdStateSet.cmp
  constructor
  · rw [compareLex_eq, List.forall₂_iff_zip]
    unfold ProdStateSet.eq
    simp only [Bool.and_eq_true, beq_iff_eq, List.all_eq_true]
    exact and_congr_right fun _ => ⟨fun h x y hxy => h (x, y) hxy, fun h xy hxy => h hxy⟩
  · rw [compareLex_eq]
    have hiff : List.Forall₂ (fun x y => ProdState.cmp addr x y = .eq) a b ↔
        a.map (·.prod) = b.map (·.prod) := by
      clear h1 h2
      induction a generalizing b with
      | nil => cases b <;> simp
      | cons x l ih =>
        cases b with
        | nil => simp
        | cons y l' =>
          have hih := ih l' (fun e he => hpa e (List.mem_cons_of_mem _ he))
            (fun e he => hpb e (List.mem_cons_of_mem _ he))
          refine List.forall₂_cons.trans ((and_congr_right fun _ => hih).trans ?_)
          simp only [List.map_cons, List.cons.injEq]
          rw [kernel_cmp hw ha (hpa x List.mem_cons_self) (hpb y List.mem_cons_self)]
    rw [hiff]
    have hmem : ∀ (l : ProdStateSet T NT AK AV) q,
        q ∈ l.map (·.prod) ↔ ∃ i, (⟨q, i⟩ : ProdState T NT AK AV) ∈ l := by
      intro l q
      simp only [List.mem_map]
      constructor
      · rintro ⟨⟨p, i⟩, h1, rfl⟩
        exact ⟨i, h1⟩
      · rintro ⟨i, h1⟩
        exact ⟨_, h1, rfl⟩
    constructor
    · intro h q
      rw [← hmem, ← hmem, h]
    · intro h
      have htr : TransCmp (prodCmp (T := T) (AK := AK) (AV := AV) addr) := inferInstance
      have hpw : ∀ l : ProdStateSet T NT AK AV, BSet.Sorted (ProdState.cmp addr) l →
          (l.map (·.prod)).Pairwise fun x y => prodCmp addr x y = .lt := by
        intro l hl
        rw [List.pairwise_map]
        exact hl
      refine ext_of_pairwise (r := fun x y => prodCmp addr x y = .lt) ?_ ?_
        (hpw _ h1.sorted) (hpw _ h2.sorted) ?_
      · intro x hx
        rw [cmp_self (cmp := prodCmp addr)] at hx
        cases hx
      · intro x y h1 h2
        have := TransCmp.lt_trans h1 h2
        rw [cmp_self (cmp := prodCmp addr)] at this
        cases this
      · intro q
        rw [hmem, hmem]
        exact h q

/-! ## C84 -/

/-- C84: elements, with and without names, are ordered by a total order that agrees with equality;
terminals come before nonterminals and unnamed elements before named ones. -/
theorem element_orders [Ord T] [Ord NT] [TransOrd T] [TransOrd NT] [LawfulEqOrd T] [LawfulEqOrd NT] :
    TransCmp (Elem.cmp (T := T) (NT := NT)) ∧ LawfulEqCmp (Elem.cmp (T := T) (NT := NT)) ∧
    TransCmp (ProdElement.cmp (T := T) (NT := NT)) ∧
    LawfulEqCmp (ProdElement.cmp (T := T) (NT := NT)) ∧
    (∀ (t : T) (A : NT), Elem.cmp (.term t) (.nonterm A) = .lt) ∧
    (∀ t t' : T, Elem.cmp (.term t : Elem T NT) (.term t') = compare t t') ∧
    (∀ A A' : NT, Elem.cmp (.nonterm A : Elem T NT) (.nonterm A') = compare A A') ∧
    (∀ (n : Name) (e e' : Elem T NT), ProdElement.cmp ⟨none, e⟩ ⟨some n, e'⟩ = .lt) ∧
    (∀ e e' : Elem T NT, ProdElement.cmp ⟨none, e⟩ ⟨none, e'⟩ = Elem.cmp e e') ∧
    ∀ (n : Name) (e e' : Elem T NT), ProdElement.cmp ⟨some n, e⟩ ⟨some n, e'⟩ = Elem.cmp e e' := by
  refine ⟨inferInstanceAs (TransOrd (Elem T NT)), inferInstanceAs (LawfulEqOrd (Elem T NT)),
    inferInstance, inferInstance, fun _ _ => rfl, fun _ _ => rfl, fun _ _ => rfl, fun _ _ _ => rfl,
    fun _ _ => rfl, ?_⟩
  intro n e e'
  unfold ProdElement.cmp
  simp only [cmp_self, Ordering.then]
  rfl

/-! ## Examples -/

/-- Two grammars in memory, the second a copy of the first. -/
def placedExample (k : Nat) : Placed Nat Nat Nat Unit :=
  ⟨nullExample, k, fun A => 2 * A + k, fun A i => 2 * exampleAddr A i + k⟩

-- Hypotheses of `rule_compare_exact` and `prod_compare_exact`.
example : Apart [placedExample 0, placedExample 1] ∧
    (∀ g ∈ [placedExample 0, placedExample 1], g.grammar.Accepted) ∧
    placedExample 0 ≠ placedExample 1 ∧ 2 ≤ (placedExample 0).rules.length ∧
    2 ≤ (placedExample 1).prods.length := by
  have hne : ∀ {i j : Nat}, (placedExample i).base = (placedExample j).base → i = j := fun h => h
  have hmem : ∀ g ∈ [placedExample 0, placedExample 1], ∃ k, k < 2 ∧ g = placedExample k := by
    intro g hg
    simp only [List.mem_cons, List.not_mem_nil, or_false] at hg
    rcases hg with rfl | rfl
    · exact ⟨0, by omega, rfl⟩
    · exact ⟨1, by omega, rfl⟩
  refine ⟨⟨?_, ?_, ?_⟩, ?_, ?_, by decide, by decide⟩
  · intro g hg h hh e
    obtain ⟨i, -, rfl⟩ := hmem g hg
    obtain ⟨j, -, rfl⟩ := hmem h hh
    rw [hne e]
  · intro g hg h hh r _ s _ e
    obtain ⟨i, hi, rfl⟩ := hmem g hg
    obtain ⟨j, hj, rfl⟩ := hmem h hh
    simp only [placedExample] at e
    have : i = j := by omega
    subst this
    exact ⟨rfl, by omega⟩
  · intro g hg h hh p hp q hq e
    obtain ⟨i, hi, rfl⟩ := hmem g hg
    obtain ⟨j, hj, rfl⟩ := hmem h hh
    simp only [placedExample] at e
    have : i = j := by omega
    subst this
    exact ⟨rfl, exampleAddr_addrInj nullExample p hp q hq (by omega)⟩
  · intro g hg
    obtain ⟨i, -, rfl⟩ := hmem g hg
    exact nullExample_accepted
  · intro h
    have := congrArg Placed.base h
    simp [placedExample] at this

-- Hypotheses of `prodStateSet_eq_exact`: different sets that are equal.
example : ∃ a b : ProdStateSet Nat Nat Nat Unit, ProdStateSet.Obtained exampleAddr a ∧
    ProdStateSet.Obtained exampleAddr b ∧ (∀ x ∈ a, x.prod ∈ lalrExample.prods) ∧
    (∀ x ∈ b, x.prod ∈ lalrExample.prods) ∧ a ≠ b ∧ ProdStateSet.eq exampleAddr a b = true :=
  ⟨_, _, .add ⟨lalrA₁, 0⟩ .newEmpty, .add ⟨lalrA₁, 1⟩ .newEmpty, by decide, by decide, by decide,
    by decide⟩

/-- C112 (internal type): values put aside for comparison are all equal, so that a pair of a key and such a value is
compared by the key alone. -/
theorem noCompare_key {K V : Type} [Ord K] [DecidableEq K] (a b : K × NoCompare V) :
    ((a.1 == b.1) && NoCompare.eq a.2 b.2) = (a.1 == b.1) ∧
    (compare a.1 b.1).then (NoCompare.cmp a.2 b.2) = compare a.1 b.1 := by
  refine ⟨Bool.and_true _, ?_⟩
  unfold NoCompare.cmp
  cases compare a.1 b.1 <;> rfl
end Bongo
