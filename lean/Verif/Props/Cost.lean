import Verif.Props.Lalr
import Verif.Props.Grammar
/-!
# C106: how long the analyses take

The `fuel` of the model bounds how often each of its loops may go round (and how deeply requests for
passes may be nested, which takes at most 10); a computation that needs more returns `oof`.  So the
theorems below bound the numbers of rounds of all the loops of the analyses.  Cases that meet their
hypotheses are at the end of `Props/CostSharp`, which shows that the first bound is exact.
-/
set_option linter.unusedSectionVars false
namespace Bongo
open Std
variable {T NT AK AV : Type} [Ord T] [TransOrd T] [LawfulEqOrd T]
  [Ord NT] [TransOrd NT] [LawfulEqOrd NT]

theorem rules_length (g : Grammar T NT AK AV) : (BMap.keys g.ruleSet).length = g.rules.length := by
  simp [Grammar.rules, BMap.keys, BMap.values]

theorem prods_head_rules {g : Grammar T NT AK AV} (hw : g.WF) {p : Prod T NT AK AV}
    (hp : p ∈ g.prods) : p.head ∈ BMap.keys g.ruleSet := by
  obtain ⟨r, h1, -⟩ := (Grammar.mem_prods hw).1 hp
  rw [mem_keys_iff]
  intro h
  rw [Grammar.tryGetRule, h] at h1
  cases h1

theorem prods_mention_rules {g : Grammar T NT AK AV} (hv : g.Valid) {p : Prod T NT AK AV}
    (hp : p ∈ g.prods) {B : NT} (hB : Elem.nonterm B ∈ p.elements) : B ∈ BMap.keys g.ruleSet := by
  obtain ⟨r, h1⟩ := hv.closed p.head B
    ⟨p.elements, (Grammar.cfg_prod_iff hv.toWF).2 ⟨p, hp, rfl, rfl⟩, hB⟩
  rw [mem_keys_iff]
  intro h
  rw [Grammar.tryGetRule, h] at h1
  cases h1

section
variable (g : Grammar T NT AK AV) (hg : g.Accepted) (addr : NT → Nat → Nat) (ha : AddrInj g addr)

include hg ha in
/-- C106.  No loop of the Nullable pass goes round more than two times more than the grammar has
rules: with that much fuel the pass returns, and more fuel makes no difference. -/
theorem nullable_rounds :
    ∃ r, ∀ fuel, g.rules.length + 2 ≤ fuel → calculateNullables fuel addr g = .ok r := by
  have hw := hg.valid.toWF
  have h : ∃ r, calculateNullables (g.rules.length + 2) addr g = .ok r := by
    rcases calculateNullables_spec_of hw ha (fuel := g.rules.length + 2) (hs := BMap.keys g.ruleSet)
      (innerNullables_rounds hw ha (hs := BMap.keys g.ruleSet) (fun p hp => prods_head_rules hw hp)
        (by rw [rules_length]; omega))
      (fun p hp => prods_head_rules hw hp) (by rw [rules_length]; omega) with
      ⟨-, info, h, -⟩ | ⟨-, h⟩
    · exact ⟨_, h⟩
    · exact ⟨_, h⟩
  obtain ⟨r, h⟩ := h
  exact ⟨r, fun fuel hf => calculateNullables_mono hf h⟩

include hg ha in
/-- C106.  Likewise for the FIRST sets. -/
theorem firsts_rounds :
    ∃ r, ∀ fuel, g.rules.length + 2 ≤ fuel → firstsPass fuel addr g = .ok r := by
  have hw := hg.valid.toWF
  obtain ⟨r, hr⟩ := nullable_rounds g hg addr ha
  have h1 := hr (g.rules.length + 2) (Nat.le_refl _)
  cases r with
  | error e =>
    refine ⟨.error e, fun fuel hf => firstsPass_mono hf ?_⟩
    unfold firstsPass
    rw [h1]
    rfl
  | ok i =>
    obtain ⟨f, h2⟩ := firstsRun_rounds (g := g) (info := i) (hs := BMap.keys g.ruleSet)
      (fun p hp => prods_head_rules hw hp) (fuel := g.rules.length + 2) (by rw [rules_length]; omega)
    refine ⟨.ok f, fun fuel hf => firstsPass_mono hf ?_⟩
    unfold firstsPass
    rw [h1]
    exact h2

include hg ha in
/-- C106.  Likewise for the FOLLOW sets: they are there, or the pass has panicked (C23 says when). -/
theorem follows_rounds :
    (∃ r, ∀ fuel, g.rules.length + 2 ≤ fuel → followsPass fuel addr g = .ok r) ∨
    ∀ fuel, g.rules.length + 2 ≤ fuel → followsPass fuel addr g = .panic .noFirsts := by
  obtain ⟨r, hr⟩ := firsts_rounds g hg addr ha
  cases r with
  | error e =>
    refine Or.inl ⟨.error e, fun fuel hf => ?_⟩
    unfold followsPass
    rw [hr fuel hf]
    rfl
  | ok f =>
    by_cases hgap : ∃ p ∈ g.prods, FirstsGap f p.elements
    · refine Or.inr fun fuel hf => ?_
      unfold followsPass
      rw [hr fuel hf]
      exact followsRun_panic hgap (by omega)
    · obtain ⟨fo, h⟩ := followsRun_rounds (g := g) (firsts := f) (ns := BMap.keys g.ruleSet)
        (fun p hp B hB => prods_mention_rules hg.valid hp hB) (fuel := g.rules.length + 2)
        (by rw [rules_length]; omega) (fun p hp h => hgap ⟨p, hp, h⟩)
      refine Or.inl ⟨.ok fo, fun fuel hf => changeIterM_mono_ok hf ?_⟩
      unfold followsPass
      rw [hr _ (Nat.le_refl _)]
      exact h

variable (collect : List (ProdState T NT AK AV × BSet T) → BMap (ProdState T NT AK AV) (BSet T))
  (hc : CollectMapSpec (ProdState.cmp addr) collect)

include hg ha hc in
/-- C106.  Building an LALR state from a kernel: the closure loop goes round at most twice for each
production and once more (besides the rounds of the passes): with that much fuel the call returns,
or panics (C51 says when). -/
theorem lalr_state_rounds (items : List (ProdState T NT AK AV × BSet T)) (hk : Kernel g items)
    (fuel : Nat) (h1 : g.rules.length + 2 ≤ fuel) (h2 : 10 ≤ fuel) (h3 : 2 * g.prods.length + 1 ≤ fuel) :
    (∃ r, ParseState.fromProdLookahead fuel collect addr g .new items = .ok r) ∨
    ParseState.fromProdLookahead fuel collect addr g .new items = .panic .noFirsts := by
  obtain ⟨r, hr⟩ := firsts_rounds g hg addr ha
  have h4 := crate_pass_firsts fuel addr g (fuel - 10)
  rw [hr fuel h1, show fuel - 10 + 10 = fuel by omega] at h4
  obtain ⟨σ, h4⟩ := h4
  cases r with
  | error e =>
    refine Or.inl ⟨(σ, .error e), ?_⟩
    unfold ParseState.fromProdLookahead
    rw [h4]
    rfl
  | ok f =>
    rcases fromProdLookahead_warm collect hg.valid ha hc hk (⟨⟨[], rfl⟩, σ, h4⟩ : Warm fuel addr g f .new)
      (by omega) with ⟨-, h⟩ | ⟨-, σ', st, h, -⟩
    · exact Or.inr h
    · exact Or.inl ⟨_, h⟩
end

/-- What `Grammar::new` makes of the reachable nonterminals. -/
def Grammar.outcome (g : Grammar T NT AK AV) (reach : BSet NT) :
    Res (Except (GrammarErrors NT) (Grammar T NT AK AV)) :=
  match GrammarErrors.intoResult
      { unreachableNonterms := BSet.ofList compare
          (g.getNonterminals.filter (fun nt => !BSet.contains compare reach nt))
        nontermsWithoutRules := g.nonterminalsWithoutRules
        rulesWithoutProds := g.rulesWithoutProds } with
  | .ok _ => .ok (.ok g)
  | .error e => .ok (.error e)

/-- C106.  Checking a grammar: the search for the reachable nonterminals goes round at most once more
than there are nonterminals written in bodies, whatever the outcome of `build`. -/
theorem build_rounds (start : NT) (calls : List (GrammarOp T NT AK AV)) (ns : List NT)
    (hns : ∀ A B, Writes (calls.map GrammarOp.declares) A B → B ∈ ns) :
    ∃ r, r ≠ .oof ∧ ∀ fuel, ns.length + 1 ≤ fuel → buildGrammar fuel start calls = r := by
  let rules := calls.map GrammarOp.declares
  let g := Grammar.ofRules start rules
  have hwf : g.WF := Grammar.ofRules_wf start rules
  have hM : g.cfg.Mentions = Writes rules := mentions_ofRules start rules
  have hne : g.reachableNonterms (ns.length + 1) ≠ .oof := by
    unfold Grammar.reachableNonterms
    apply bfs_terminates (U := ns)
    · intro i _ x hx
      rw [Grammar.stepTo_body hwf, hM] at hx
      cases hx with
      | single h => exact hns _ _ h
      | tail _ h => exact hns _ _ h
    · exact fun x => Grammar.bodyNonterms_ne_oof
    · omega
  have hnew : ∀ fuel, buildGrammar fuel start calls = (match g.reachableNonterms fuel with
      | .ok s => Grammar.outcome g s
      | .panic w => .panic w
      | .oof => .oof) := by
    intro fuel
    rw [grammar_builder_records]
    show Grammar.new fuel start rules = _
    simp only [Grammar.new, Grammar.checkGrammar, Grammar.unreachableNonterms]
    show _ = (match (Grammar.ofRules start rules).reachableNonterms fuel with
      | .ok s => Grammar.outcome (Grammar.ofRules start rules) s
      | .panic w => .panic w
      | .oof => .oof)
    cases (Grammar.ofRules start rules).reachableNonterms fuel with
    | oof => rfl
    | panic w => rfl
    | ok s =>
      simp only [Grammar.outcome]
      cases GrammarErrors.intoResult _ <;> rfl
  have hout : ∀ s, Grammar.outcome g s ≠ .oof := by
    intro s
    unfold Grammar.outcome
    split <;> simp
  refine ⟨buildGrammar (ns.length + 1) start calls, ?_, fun fuel hf => ?_⟩
  · rw [hnew]
    revert hne
    cases g.reachableNonterms (ns.length + 1) with
    | oof => simp
    | panic w => simp
    | ok s => exact fun _ => hout s
  · rw [hnew, hnew, show g.reachableNonterms fuel = g.reachableNonterms (ns.length + 1) from
      bfsLoop_mono hf hne]
end Bongo
