import Verif.Proof.GrammarBuild
import Mathlib.Data.List.Nodup
/-!
# Properties C01–C05: building grammars
-/
set_option linter.unusedSectionVars false
namespace Bongo
open Std
variable {T NT AK AV : Type}

section
variable [Ord NT] [TransOrd NT] [LawfulEqOrd NT]

/-- C01.  For every start symbol and every list of declared rules, with enough fuel for the
reachability search (the number of nonterminal occurrences suffices):
* `build` panics if some nonterminal reachable from the start (the start included) has no rule;
* otherwise it returns `Ok` if every nonterminal written in a body is reachable in one or more
  expansions and every rule has a production;
* otherwise it returns `Err`, and the reported sets are exact.
The three conditions are exclusive and exhaustive, so each outcome occurs exactly under its
condition. -/
theorem build_exact (start : NT) (calls : List (GrammarOp T NT AK AV)) :
    let rules := calls.map GrammarOp.declares
    ∃ N, ∀ fuel, N ≤ fuel →
      ((∃ A, Relation.ReflTransGen (Writes rules) start A ∧ ¬ HasRule rules A) →
        buildGrammar fuel start calls = .panic .noRule) ∧
      ((∀ A, Relation.ReflTransGen (Writes rules) start A → HasRule rules A) →
        ((∀ B, (∃ A, Writes rules A B) → Relation.TransGen (Writes rules) start B) ∧
          (∀ A r, LastRule rules A r → r.prods ≠ []) →
          ∃ g, buildGrammar fuel start calls = .ok (.ok g)) ∧
        (¬ ((∀ B, (∃ A, Writes rules A B) → Relation.TransGen (Writes rules) start B) ∧
          (∀ A r, LastRule rules A r → r.prods ≠ [])) →
          ∃ e, buildGrammar fuel start calls = .ok (.error e) ∧
            (∀ B, B ∈ e.unreachableNonterms ↔
              (∃ A, Writes rules A B) ∧ ¬ Relation.TransGen (Writes rules) start B) ∧
            (∀ B, B ∈ e.nontermsWithoutRules ↔ (∃ A, Writes rules A B) ∧ ¬ HasRule rules B) ∧
            (∀ A, A ∈ e.rulesWithoutProds ↔ ∃ r, LastRule rules A r ∧ r.prods = []))) := by
  intro rules
  let g := Grammar.ofRules start rules
  have hwf : g.WF := Grammar.ofRules_wf start rules
  have hM : g.cfg.Mentions = Writes rules := mentions_ofRules start rules
  have hS : g.startSymbol = start := rfl
  refine ⟨g.checkFuel, fun fuel hf => ?_⟩
  rw [grammar_builder_records]
  show (_ → Grammar.new fuel start rules = _) ∧ (_ → (_ → ∃ g, Grammar.new fuel start rules = _) ∧
    (_ → ∃ e, Grammar.new fuel start rules = _ ∧ _))
  have hnew : Grammar.new fuel start rules = (match g.checkGrammar fuel with
      | .ok (.ok _) => .ok (.ok g)
      | .ok (.error e) => .ok (.error e)
      | .panic w => .panic w
      | .oof => .oof) := rfl
  have hnone : ∀ A, g.tryGetRule A = none ↔ ¬ HasRule rules A := by
    intro A
    rw [hasRule_iff start rules A]
    show g.tryGetRule A = none ↔ ¬ ∃ r, g.tryGetRule A = some r
    cases g.tryGetRule A <;> simp
  cases hr : g.reachableNonterms fuel with
  | oof => exact absurd hr (Grammar.reachable_ne_oof hwf hf)
  | panic w =>
    obtain ⟨rfl, B, h1, h2⟩ := Grammar.reachable_panic hwf hr
    rw [hM, hS] at h1
    rw [hnone] at h2
    refine ⟨fun _ => ?_, fun hall => absurd (hall B h1) h2⟩
    rw [hnew]
    simp [Grammar.checkGrammar, Grammar.unreachableNonterms, hr]
  | ok s =>
    have hhas : ∀ B, Relation.ReflTransGen (Writes rules) start B → HasRule rules B := by
      intro B hB
      rw [hasRule_iff start rules B]
      exact Grammar.reachable_has_rule hwf hr B (by rw [hM, hS]; exact hB)
    refine ⟨fun ⟨A, h1, h2⟩ => absurd (hhas A h1) h2, fun _ => ?_⟩
    have hs := Grammar.reachable_ok hwf hr
    rw [hM, hS] at hs
    have hbody : ∀ B, B ∈ g.getNonterminals ↔ ∃ A, Writes rules A B := by
      intro B; rw [Grammar.mem_getNonterminals, hM]
    have hu : g.unreachableNonterms fuel = .ok (BSet.ofList compare
        (g.getNonterminals.filter (fun nt => !BSet.contains compare s nt))) := by
      simp [Grammar.unreachableNonterms, hr]
    have hu' : ∀ B, B ∈ BSet.ofList compare
        (g.getNonterminals.filter (fun nt => !BSet.contains compare s nt)) ↔
          (∃ A, Writes rules A B) ∧ ¬ Relation.TransGen (Writes rules) start B := by
      intro B
      rw [BSet.mem_ofList, List.mem_filter, hbody, ← hs B,
        ← BSet.contains_iff_mem (cmp := compare)]
      simp
    have hw' : ∀ B, B ∈ g.nonterminalsWithoutRules ↔
        (∃ A, Writes rules A B) ∧ ¬ HasRule rules B := by
      intro B
      unfold Grammar.nonterminalsWithoutRules
      rw [BSet.mem_ofList, List.mem_filter, hbody, ← hnone]
      unfold BMap.contains Grammar.tryGetRule
      simp
    have hp' : ∀ A, A ∈ g.rulesWithoutProds ↔ ∃ r, LastRule rules A r ∧ r.prods = [] := by
      intro A
      unfold Grammar.rulesWithoutProds
      rw [BSet.mem_ofList]
      simp only [List.mem_map, List.mem_filter, List.isEmpty_iff, RuleInner.prodRefs_isEmpty]
      constructor
      · rintro ⟨r, ⟨h1, h2⟩, rfl⟩
        exact ⟨r, (mem_rules_ofRules start rules r).1 h1, h2⟩
      · rintro ⟨r, h1, h2⟩
        have hh : r.head = A := by obtain ⟨_, _, _, h, _⟩ := h1; exact h
        subst hh
        exact ⟨r, ⟨(mem_rules_ofRules start rules r).2 h1, h2⟩, rfl⟩
    have hcheck : g.checkGrammar fuel = .ok (GrammarErrors.intoResult
        { unreachableNonterms := BSet.ofList compare
            (g.getNonterminals.filter (fun nt => !BSet.contains compare s nt))
          nontermsWithoutRules := g.nonterminalsWithoutRules
          rulesWithoutProds := g.rulesWithoutProds }) := by
      simp [Grammar.checkGrammar, hu]
    generalize BSet.ofList compare
            (g.getNonterminals.filter (fun nt => !BSet.contains compare s nt)) = U at hcheck hu'
    generalize g.nonterminalsWithoutRules = W at hcheck hw'
    generalize g.rulesWithoutProds = P at hcheck hp'
    have hcond : (U = [] ∧ W = [] ∧ P = []) ↔
        ((∀ B, (∃ A, Writes rules A B) → Relation.TransGen (Writes rules) start B) ∧
          (∀ A r, LastRule rules A r → r.prods ≠ [])) := by
      constructor
      · rintro ⟨rfl, rfl, rfl⟩
        constructor
        · intro B hB
          by_contra hn
          exact absurd ((hu' B).2 ⟨hB, hn⟩) (by simp)
        · intro A r h1 h2
          exact absurd ((hp' A).2 ⟨r, h1, h2⟩) (by simp)
      · rintro ⟨h1, h2⟩
        refine ⟨?_, ?_, ?_⟩
        · refine List.eq_nil_iff_forall_not_mem.2 fun B hB => ?_
          exact ((hu' B).1 hB).2 (h1 B ((hu' B).1 hB).1)
        · refine List.eq_nil_iff_forall_not_mem.2 fun B hB => ?_
          exact ((hw' B).1 hB).2 (hhas B (h1 B ((hw' B).1 hB).1).to_reflTransGen)
        · refine List.eq_nil_iff_forall_not_mem.2 fun A hA => ?_
          obtain ⟨r, h3, h4⟩ := (hp' A).1 hA
          exact h2 A r h3 h4
    constructor
    · intro hc
      obtain ⟨rfl, rfl, rfl⟩ := hcond.2 hc
      refine ⟨g, ?_⟩
      rw [hnew, hcheck]
      simp [GrammarErrors.intoResult]
    · intro hc
      rw [← hcond] at hc
      refine ⟨⟨U, W, P⟩, ?_, hu', hw', hp'⟩
      rw [hnew, hcheck]
      have : (U.isEmpty && W.isEmpty && P.isEmpty) = false := by
        rw [Bool.eq_false_iff]
        intro h
        simp only [Bool.and_eq_true, List.isEmpty_iff] at h
        exact hc ⟨h.1.1, h.1.2, h.2⟩
      simp [GrammarErrors.intoResult, this]

/-- C02.  In an accepted grammar `get_rule` succeeds on the start symbol and on every nonterminal
in a body; the rule found has that head and at least one production. -/
theorem get_rule_total (g : Grammar T NT AK AV) (h : g.Accepted) (A : NT)
    (hA : A = g.startSymbol ∨ ∃ p ∈ g.prods, Elem.nonterm A ∈ p.elements) :
    ∃ r, g.getRule A = .ok r ∧ r.head = A ∧ r.prods ≠ [] := by
  have hv := h.valid
  have : ∃ r, g.tryGetRule A = some r := by
    rcases hA with rfl | ⟨p, hp, he⟩
    · exact hv.startRule
    · exact hv.closed p.head A ⟨p.elements, (Grammar.cfg_prod_iff hv.toWF).2 ⟨p, hp, rfl, rfl⟩, he⟩
  obtain ⟨r, hr⟩ := this
  refine ⟨r, by simp [Grammar.getRule, hr], ?_, hv.nonempty A r hr⟩
  exact hv.heads A r ((Grammar.tryGetRule_iff hv.toWF).1 hr)

/-- C03.  In a built grammar, `try_get_rule` finds exactly the last declared rule with that
head. -/
theorem try_get_rule_last (fuel : Nat) (start : NT) (calls : List (GrammarOp T NT AK AV)) (g)
    (h : buildGrammar fuel start calls = .ok (.ok g)) (A : NT) (r : RuleInner T NT AK AV) :
    g.tryGetRule A = some r ↔ LastRule (calls.map GrammarOp.declares) A r := by
  rw [grammar_builder_records] at h
  rw [(Grammar.valid_of_new h).2]
  exact tryGetRule_ofRules start _ A r

/-- C03.  `rules()` lists exactly the last rule of each declared head, in strictly increasing
head order, and the start symbol is the one given. -/
theorem rules_listing (fuel : Nat) (start : NT) (calls : List (GrammarOp T NT AK AV)) (g)
    (h : buildGrammar fuel start calls = .ok (.ok g)) :
    g.startSymbol = start ∧
    (g.rules.map (·.head)).Pairwise (fun a b => compare a b = .lt) ∧
    ∀ r, r ∈ g.rules ↔ LastRule (calls.map GrammarOp.declares) r.head r := by
  rw [grammar_builder_records] at h
  obtain ⟨hv, rfl⟩ := Grammar.valid_of_new h
  refine ⟨rfl, ?_, mem_rules_ofRules start _⟩
  have hk : (Grammar.ofRules start (calls.map GrammarOp.declares)).rules.map (·.head) =
      BMap.keys (Grammar.ofRules start (calls.map GrammarOp.declares)).ruleSet := by
    unfold Grammar.rules BMap.values BMap.keys
    rw [List.map_map]
    apply List.map_congr_left
    intro kr hkr
    exact hv.heads kr.1 kr.2 hkr
  rw [hk]
  exact BMap.keys_sorted hv.sorted

/-- C03.  `prods()` enumerates the productions of the rules in order, each with its head. -/
theorem prods_listing (g : Grammar T NT AK AV) :
    g.prods.map (fun p => (p.head, p.inner)) =
      g.rules.flatMap (fun r => r.prods.map (fun p => (r.head, p))) := by
  unfold Grammar.prods
  rw [List.map_flatMap]
  congr 1
  funext r
  unfold RuleInner.prodRefs
  rw [List.map_map]
  conv => rhs; rw [← List.zipIdx_map_fst 0 r.prods, List.map_map]
  rfl

/-- C04, what the check does guarantee: in an accepted grammar every nonterminal written in any
body is reachable from the start, so an unreachable rule's head is written nowhere. -/
theorem rules_reachable_partial (g : Grammar T NT AK AV) (h : g.Accepted) (r : RuleInner T NT AK AV)
    (_hr : r ∈ g.rules) :
    Relation.ReflTransGen g.cfg.Mentions g.startSymbol r.head ∨
      ∀ p ∈ g.prods, Elem.nonterm r.head ∉ p.elements := by
  have hv := h.valid
  by_cases hm : ∃ p ∈ g.prods, Elem.nonterm r.head ∈ p.elements
  · obtain ⟨p, hp, he⟩ := hm
    left
    exact (hv.reach p.head r.head
      ⟨p.elements, (Grammar.cfg_prod_iff hv.toWF).2 ⟨p, hp, rfl, rfl⟩, he⟩).to_reflTransGen
  · right
    intro p hp he
    exact hm ⟨p, hp, he⟩

/-- C05, what holds: if action keys are distinct within each rule then `prod_key()` identifies
the production. -/
theorem prod_key_unique_partial (g : Grammar T NT AK AV) (h : g.Accepted)
    (hd : ∀ r ∈ g.rules, (r.prods.map (·.actionKey)).Nodup) (p q : Prod T NT AK AV)
    (hp : p ∈ g.prods) (hq : q ∈ g.prods) (hk : p.prodKey = q.prodKey) : p = q := by
  have hwf := h.valid.toWF
  have hp' := hp; have hq' := hq
  rw [Grammar.mem_prods hwf] at hp hq
  obtain ⟨r, a1, a2⟩ := hp
  obtain ⟨r', b1, b2⟩ := hq
  simp only [Prod.prodKey, ProdKey.mk.injEq, Prod.actionKey] at hk
  rw [hk.1, b1] at a1; cases a1
  have hn := hd r (by
    unfold Grammar.rules BMap.values
    exact List.mem_map.2 ⟨_, (Grammar.tryGetRule_iff hwf).1 b1, rfl⟩)
  apply Grammar.prod_ext hwf hp' hq' hk.1
  have h1 : (r.prods.map (·.actionKey))[p.index]? = some p.inner.actionKey := by
    simp [a2]
  have h2 : (r.prods.map (·.actionKey))[q.index]? = some p.inner.actionKey := by
    simp [b2, hk.2]
  obtain ⟨l1, e1⟩ := List.getElem?_eq_some_iff.1 h1
  obtain ⟨l2, e2⟩ := List.getElem?_eq_some_iff.1 h2
  exact hn.getElem_inj_iff.1 (e1.trans e2.symm)

/-- The outcome of `build`, forgetting which grammar was built. -/
def verdict {G : Type} : Res (Except (GrammarErrors NT) G) → Res (Except (GrammarErrors NT) Unit)
  | .ok (.ok _) => .ok (.ok ())
  | .ok (.error e) => .ok (.error e)
  | .panic w => .panic w
  | .oof => .oof

/-- C05: acceptance ignores action keys and values altogether: relabelling them changes neither
the outcome nor the errors. -/
theorem build_ignores_actions {AK' AV' : Type} (fuel : Nat) (start : NT)
    (rules : List (RuleInner T NT AK AV)) (f : AK → AK') (v : AV → AV') :
    verdict (Grammar.new fuel start rules) =
    verdict (Grammar.new fuel start (rules.map (fun r => (⟨r.head, r.prods.map (fun p =>
        ⟨f p.actionKey, v p.actionValue, p.elements⟩)⟩ : RuleInner T NT AK' AV')))) := by
  let φ : RuleInner T NT AK AV → RuleInner T NT AK' AV' := fun r => ⟨r.head, r.prods.map (fun p =>
        ⟨f p.actionKey, v p.actionValue, p.elements⟩)⟩
  show _ = verdict (Grammar.new fuel start (rules.map φ))
  have hins : ∀ (m : BMap NT (RuleInner T NT AK AV)) k r,
      BMap.insert compare (m.map (fun kv => (kv.1, φ kv.2))) k (φ r) =
        (BMap.insert compare m k r).map (fun kv => (kv.1, φ kv.2)) := by
    intro m k r
    induction m with
    | nil => rfl
    | cons x m ih =>
      obtain ⟨k', r'⟩ := x
      simp only [List.map_cons, BMap.insert]
      cases compare k k' <;> simp [ih]
  have hset : (Grammar.ofRules start (rules.map φ)).ruleSet =
      (Grammar.ofRules start rules).ruleSet.map (fun kv => (kv.1, φ kv.2)) := by
    unfold Grammar.ofRules BMap.ofList
    simp only [List.map_map]
    suffices ∀ m : BMap NT (RuleInner T NT AK AV),
        (rules.map ((fun r : RuleInner T NT AK' AV' => (r.head, r)) ∘ φ)).foldl
          (fun m kv => BMap.insert compare m kv.1 kv.2) (m.map (fun kv => (kv.1, φ kv.2))) =
        ((rules.map (fun r => (r.head, r))).foldl
          (fun m kv => BMap.insert compare m kv.1 kv.2) m).map (fun kv => (kv.1, φ kv.2)) from
      this []
    induction rules with
    | nil => intro m; rfl
    | cons r rules ih =>
      intro m
      simp only [List.map_cons, List.foldl_cons, Function.comp]
      rw [show (φ r).head = r.head from rfl, hins]
      exact ih _
  have hget : ∀ A, (Grammar.ofRules start (rules.map φ)).tryGetRule A =
      ((Grammar.ofRules start rules).tryGetRule A).map φ := by
    intro A
    unfold Grammar.tryGetRule
    rw [hset]
    induction (Grammar.ofRules start rules).ruleSet with
    | nil => rfl
    | cons x m ih =>
      obtain ⟨k', r'⟩ := x
      simp only [List.map_cons, BMap.get?_cons, ih]
      split <;> rfl
  have hel : ∀ r : RuleInner T NT AK AV, (φ r).prods.flatMap (·.elems) = r.prods.flatMap (·.elems) := by
    intro r; simp [φ, List.flatMap_map, ProdInner.elems]
  have hbody : (Grammar.ofRules start (rules.map φ)).bodyNonterms =
      (Grammar.ofRules start rules).bodyNonterms := by
    funext A
    unfold Grammar.bodyNonterms Grammar.getRule
    rw [hget]
    cases (Grammar.ofRules start rules).tryGetRule A with
    | none => rfl
    | some r => simp [RuleInner.prodRefs_flatMap_elements, hel]
  have hnts : (Grammar.ofRules start (rules.map φ)).getNonterminals =
      (Grammar.ofRules start rules).getNonterminals := by
    unfold Grammar.getNonterminals Grammar.getElements BMap.values
    rw [hset]
    simp only [List.map_map, List.flatMap_assoc, List.flatMap_map]
    congr 2
    funext r
    exact hel r.2
  have hw : (Grammar.ofRules start (rules.map φ)).nonterminalsWithoutRules =
      (Grammar.ofRules start rules).nonterminalsWithoutRules := by
    unfold Grammar.nonterminalsWithoutRules
    rw [hnts]
    congr 2
    funext A
    have := hget A
    unfold Grammar.tryGetRule at this
    unfold BMap.contains
    rw [this]
    cases BMap.get? compare (Grammar.ofRules start rules).ruleSet A <;> rfl
  have hp : (Grammar.ofRules start (rules.map φ)).rulesWithoutProds =
      (Grammar.ofRules start rules).rulesWithoutProds := by
    unfold Grammar.rulesWithoutProds Grammar.rules BMap.values
    rw [hset]
    simp only [List.map_map, List.filter_map]
    congr 1
    have : ∀ kv : NT × RuleInner T NT AK AV,
        (φ kv.2).prodRefs.isEmpty = kv.2.prodRefs.isEmpty := by
      intro kv
      rw [Bool.eq_iff_iff, List.isEmpty_iff, List.isEmpty_iff, RuleInner.prodRefs_isEmpty,
        RuleInner.prodRefs_isEmpty]
      simp [φ]
    simp only [Function.comp_def, this]
    rfl
  have hc : (Grammar.ofRules start (rules.map φ)).checkGrammar fuel =
      (Grammar.ofRules start rules).checkGrammar fuel := by
    unfold Grammar.checkGrammar Grammar.unreachableNonterms Grammar.reachableNonterms
    rw [hbody, hnts, hw, hp]
    rfl
  unfold Grammar.new
  simp only [hc]
  unfold verdict
  cases (Grammar.ofRules start rules).checkGrammar fuel with
  | ok x => cases x <;> rfl
  | panic w => rfl
  | oof => rfl
end

/-! ## Witnesses -/

/-- `S(0) → a S | ε`, declared twice (the first declaration is discarded). -/
def exampleCalls : List (GrammarOp Nat Nat Nat Unit) :=
  [⟨0, [.addProd 9 () [.addNonterm 5]]⟩,
   ⟨0, [.addProd 1 () [.addTerm 7, .addNamedNonterm "rest" 0], .addProd 2 () []]⟩]

/-- The three outcomes of `build_exact` all occur. -/
example : verdict (buildGrammar 5 0 exampleCalls) = .ok (.ok ()) ∧
    buildGrammar (T := Nat) (AK := Nat) (AV := Unit) 5 3 [⟨0, []⟩] = .panic .noRule ∧
    buildGrammar (T := Nat) (AK := Nat) (AV := Unit) 5 0
      [⟨0, [.addProd 1 () []]⟩, ⟨1, [.addProd 1 () [.addNonterm 2]]⟩, ⟨3, []⟩] =
      .ok (.error ⟨[2], [2], [3]⟩) := by
  refine ⟨by decide, by decide, by decide⟩

/-- C04 is false of the code (1): a rule nobody refers to is accepted although it is not
reachable from the start. -/
theorem unreachable_rule_accepted :
    ∃ g : Grammar Nat Nat Nat Unit, g.Accepted ∧
      ∃ r ∈ g.rules, ¬ Relation.ReflTransGen g.cfg.Mentions g.startSymbol r.head := by
  refine ⟨⟨0, [(0, ⟨0, [⟨1, (), [⟨none, .term 7⟩]⟩]⟩), (1, ⟨1, [⟨1, (), [⟨none, .term 8⟩]⟩]⟩)]⟩,
    ⟨5, 0, [⟨0, [.addProd 1 () [.addTerm 7]]⟩, ⟨1, [.addProd 1 () [.addTerm 8]]⟩], by decide⟩,
    ⟨1, [⟨1, (), [⟨none, .term 8⟩]⟩]⟩, by decide, ?_⟩
  intro h
  rcases Relation.ReflTransGen.cases_head h with h | ⟨c, hc, -⟩
  · simp at h
  · obtain ⟨β, ⟨r, p, hr, hp, rfl⟩, hm⟩ := hc
    simp at hr
    subst hr
    simp at hp
    subst hp
    simp at hm

/-- C04 is false of the code (2): the start symbol, which has a rule, is itself reported as
unreachable when it is written only in the body of an unreachable rule. -/
theorem start_reported_unreachable :
    buildGrammar (T := Nat) (AK := Nat) (AV := Unit) 5 0
      [⟨0, [.addProd 1 () [.addTerm 7]]⟩, ⟨1, [.addProd 1 () [.addNonterm 0]]⟩] =
      .ok (.error ⟨[0], [], []⟩) := by decide

/-- C05 is false of the code: two different productions of one rule may share their key. -/
theorem duplicate_prod_key_accepted :
    ∃ g : Grammar Nat Nat Nat Unit, g.Accepted ∧
      ∃ p ∈ g.prods, ∃ q ∈ g.prods, p.prodKey = q.prodKey ∧ p.elements ≠ q.elements := by
  refine ⟨⟨0, [(0, ⟨0, [⟨1, (), [⟨none, .term 7⟩]⟩, ⟨1, (), [⟨none, .term 8⟩]⟩]⟩)]⟩,
    ⟨5, 0, [⟨0, [.addProd 1 () [.addTerm 7], .addProd 1 () [.addTerm 8]]⟩], by decide⟩, ?_⟩
  exact ⟨⟨0, 0, ⟨1, (), [⟨none, .term 7⟩]⟩⟩, by decide, ⟨0, 1, ⟨1, (), [⟨none, .term 8⟩]⟩⟩,
    by decide, by decide, by decide⟩

/-- The hypotheses of C02–C05's theorems are met by a concrete grammar with a recursive rule. -/
example : ∃ g : Grammar Nat Nat Nat Unit, g.Accepted ∧ g.startSymbol = 0 ∧
    (∃ p ∈ g.prods, Elem.nonterm 0 ∈ p.elements) ∧
    (∀ r ∈ g.rules, (r.prods.map (·.actionKey)).Nodup) := by
  refine ⟨⟨0, [(0, ⟨0, [⟨1, (), [⟨none, .term 7⟩, ⟨some "rest", .nonterm 0⟩]⟩, ⟨2, (), []⟩]⟩)]⟩,
    ⟨5, 0, exampleCalls, by decide⟩, rfl, ?_, by decide⟩
  exact ⟨⟨0, 0, ⟨1, (), [⟨none, .term 7⟩, ⟨some "rest", .nonterm 0⟩]⟩⟩, by decide, by decide⟩

end Bongo
