import Verif.Proof.Grammar
import Verif.Props.Builder
import Verif.Spec.Api
/-! What `Grammar::new` accepts, in terms of the declared rules. -/
set_option linter.unusedSectionVars false
namespace Bongo
open Std
variable {T NT AK AV : Type}

section
variable [Ord NT] [TransOrd NT] [LawfulEqOrd NT]

theorem tryGetRule_ofRules (start : NT) (rules : List (RuleInner T NT AK AV)) (A : NT) (r) :
    (Grammar.ofRules start rules).tryGetRule A = some r ↔ LastRule rules A r := by
  unfold Grammar.tryGetRule Grammar.ofRules
  simp only
  rw [BMap.get?_ofList, ← List.map_reverse, List.find?_map]
  simp only [Option.map_map]
  have hf : ((fun kv : NT × RuleInner T NT AK AV => compare A kv.1 == .eq) ∘
      fun r : RuleInner T NT AK AV => (r.head, r)) = fun r => compare A r.head == .eq := rfl
  rw [hf]
  have hg : ((fun kv : NT × RuleInner T NT AK AV => kv.2) ∘ fun r => (r.head, r)) = id := rfl
  rw [hg, Option.map_id_fun, id, List.find?_eq_some_iff_append]
  simp only [beq_iff_eq, LawfulEqCmp.compare_eq_iff_eq]
  constructor
  · rintro ⟨rfl, as, bs, h, hb⟩
    refine ⟨bs.reverse, as.reverse, ?_, rfl, ?_⟩
    · have := congrArg List.reverse h
      simpa using this
    · intro r' hr'
      have := hb r' (by simpa using hr')
      intro h'
      simp [h', cmp_self] at this
  · rintro ⟨pre, post, rfl, rfl, h⟩
    refine ⟨rfl, post.reverse, pre.reverse, by simp, ?_⟩
    intro r' hr'
    have := h r' (by simpa using hr')
    simp only [Bool.not_eq_true', beq_eq_false_iff_ne, ne_eq, LawfulEqCmp.compare_eq_iff_eq]
    exact fun h' => this h'.symm

theorem hasRule_iff (start : NT) (rules : List (RuleInner T NT AK AV)) (A : NT) :
    HasRule rules A ↔ ∃ r, (Grammar.ofRules start rules).tryGetRule A = some r := by
  constructor
  · rintro ⟨r, hr, hA⟩
    cases h : (Grammar.ofRules start rules).tryGetRule A with
    | some r => exact ⟨r, rfl⟩
    | none =>
      exfalso
      unfold Grammar.tryGetRule Grammar.ofRules at h
      simp only at h
      rw [BMap.get?_ofList] at h
      simp only [Option.map_eq_none_iff, List.find?_eq_none] at h
      have := h (r.head, r) (by simp only [List.mem_reverse, List.mem_map]; exact ⟨r, hr, rfl⟩)
      simp [hA, cmp_self] at this
  · rintro ⟨r, h⟩
    obtain ⟨pre, post, rfl, h2, -⟩ := (tryGetRule_ofRules start rules A r).1 h
    exact ⟨r, by simp, h2⟩

theorem mentions_ofRules (start : NT) (rules : List (RuleInner T NT AK AV)) :
    (Grammar.ofRules start rules).cfg.Mentions = Writes rules := by
  funext A B
  simp only [Cfg.Mentions, Grammar.cfg, Writes, eq_iff_iff,
    ← tryGetRule_ofRules start, Grammar.tryGetRule_iff (Grammar.ofRules_wf start rules)]
  constructor
  · rintro ⟨β, ⟨r, p, h1, h2, rfl⟩, h3⟩
    obtain ⟨e, he, h4⟩ := List.mem_map.1 h3
    exact ⟨r, h1, p, h2, e, he, h4⟩
  · rintro ⟨r, h1, p, h2, e, he, h4⟩
    exact ⟨_, ⟨r, p, h1, h2, rfl⟩, List.mem_map.2 ⟨e, he, h4⟩⟩

theorem mem_rules_ofRules (start : NT) (rules : List (RuleInner T NT AK AV)) (r) :
    r ∈ (Grammar.ofRules start rules).rules ↔ LastRule rules r.head r := by
  have hwf := Grammar.ofRules_wf start rules
  unfold Grammar.rules BMap.values
  rw [← tryGetRule_ofRules start, Grammar.tryGetRule_iff hwf]
  constructor
  · intro h
    obtain ⟨⟨k, r'⟩, hm, rfl⟩ := List.mem_map.1 h
    rw [hwf.heads k r' hm]; exact hm
  · intro h; exact List.mem_map.2 ⟨_, h, rfl⟩

/-- What acceptance by the builder guarantees, in terms of the declared rules. -/
theorem new_ok {fuel : Nat} {start : NT} {rules : List (RuleInner T NT AK AV)} {g}
    (h : Grammar.new fuel start rules = .ok (.ok g)) : g = Grammar.ofRules start rules ∧
      (∀ A, Relation.ReflTransGen (Writes rules) start A → HasRule rules A) ∧
      (∀ B, (∃ A, Writes rules A B) → Relation.TransGen (Writes rules) start B) ∧
      (∀ A r, LastRule rules A r → r.prods ≠ []) := by
  unfold Grammar.new at h
  simp only at h
  have hwf := Grammar.ofRules_wf start rules
  have hM := mentions_ofRules start rules
  cases hr : (Grammar.ofRules start rules).reachableNonterms fuel with
  | oof => simp [Grammar.checkGrammar, Grammar.unreachableNonterms, hr] at h
  | panic w => simp [Grammar.checkGrammar, Grammar.unreachableNonterms, hr] at h
  | ok s =>
    simp only [Grammar.checkGrammar, Grammar.unreachableNonterms, hr,
      GrammarErrors.intoResult] at h
    split at h
    · rename_i u heq
      simp only [Res.ok.injEq, Except.ok.injEq] at h
      refine ⟨h.symm, ?_, ?_, ?_⟩
      · intro A hA
        rw [hasRule_iff start rules A]
        exact Grammar.reachable_has_rule hwf hr A (by rw [hM]; exact hA)
      all_goals
        simp only [Res.ok.injEq] at heq
        split at heq
        · rename_i hc
          simp only [Bool.and_eq_true, List.isEmpty_iff] at hc
          obtain ⟨⟨hu, hw⟩, hp⟩ := hc
          first
            | (intro B hB
               by_contra hn
               have : B ∈ BSet.ofList compare ((Grammar.ofRules start rules).getNonterminals.filter
                  (fun nt => !BSet.contains compare s nt)) := by
                 rw [BSet.mem_ofList, List.mem_filter, Grammar.mem_getNonterminals, hM]
                 refine ⟨hB, ?_⟩
                 have hs := Grammar.reachable_ok hwf hr B
                 rw [hM] at hs
                 have : ¬ B ∈ s := fun h => hn (hs.1 h)
                 rw [← BSet.contains_iff_mem (cmp := compare)] at this
                 simpa using this
               rw [hu] at this; simp at this)
            | (intro A r hl he
               have hh : r.head = A := by obtain ⟨_, _, _, h, _⟩ := hl; exact h
               subst hh
               have : r.head ∈ (Grammar.ofRules start rules).rulesWithoutProds := by
                 unfold Grammar.rulesWithoutProds
                 rw [BSet.mem_ofList]
                 simp only [List.mem_map, List.mem_filter, List.isEmpty_iff,
                   RuleInner.prodRefs_isEmpty]
                 exact ⟨r, ⟨(mem_rules_ofRules start rules r).2 hl, he⟩, rfl⟩
               rw [hp] at this; simp at this)
        · cases heq
    · simp at h
    · simp at h
    · simp at h

/-- What every accepted grammar satisfies, in terms of the grammar itself. -/
structure Grammar.Valid (g : Grammar T NT AK AV) : Prop extends g.WF where
  startRule : ∃ r, g.tryGetRule g.startSymbol = some r
  closed : ∀ A B, g.cfg.Mentions A B → ∃ r, g.tryGetRule B = some r
  reach : ∀ A B, g.cfg.Mentions A B → Relation.TransGen g.cfg.Mentions g.startSymbol B
  nonempty : ∀ A r, g.tryGetRule A = some r → r.prods ≠ []

theorem Grammar.valid_of_new {fuel : Nat} {start : NT} {rules : List (RuleInner T NT AK AV)} {g}
    (h : Grammar.new fuel start rules = .ok (.ok g)) : g.Valid ∧ g = Grammar.ofRules start rules := by
  obtain ⟨rfl, h1, h2, h3⟩ := new_ok h
  have hM := mentions_ofRules start rules
  refine ⟨{ toWF := Grammar.ofRules_wf start rules, startRule := ?_, closed := ?_, reach := ?_, nonempty := ?_ }, rfl⟩
  · exact (hasRule_iff start rules start).1 (h1 start .refl)
  · intro A B hm
    rw [hM] at hm
    exact (hasRule_iff start rules B).1 (h1 B (h2 B ⟨A, hm⟩).to_reflTransGen)
  · intro A B hm
    rw [hM] at hm ⊢
    exact h2 B ⟨A, hm⟩
  · intro A r hr
    exact h3 A r ((tryGetRule_ofRules start rules A r).1 hr)

theorem Grammar.Accepted.valid {g : Grammar T NT AK AV} (h : g.Accepted) : g.Valid := by
  obtain ⟨fuel, start, calls, h⟩ := h
  rw [grammar_builder_records] at h
  exact (Grammar.valid_of_new h).1

end
end Bongo
