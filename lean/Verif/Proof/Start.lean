import Verif.Spec.Start
import Verif.Props.Grammar
/-! `wrap_grammar_with_start`. -/
set_option linter.unusedSectionVars false
namespace Bongo
open Std
variable {T NT AK AV : Type}

instance [Ord T] [TransOrd T] : TransOrd (StreamTerminal T) where
  eq_swap := by
    intro a b
    cases a <;> cases b <;> simp only [compare, StreamTerminal.cmp, Ordering.swap] <;>
      exact OrientedCmp.eq_swap (cmp := compare)
  isLE_trans := by
    intro a b c
    cases a <;> cases b <;> cases c <;> simp only [compare, StreamTerminal.cmp] <;>
      first
        | exact TransCmp.isLE_trans (cmp := compare)
        | (intros; simp_all)

instance [Ord T] [LawfulEqOrd T] : LawfulEqOrd (StreamTerminal T) where
  compare_self := by
    intro a; cases a <;> simp only [compare, StreamTerminal.cmp]
    exact ReflCmp.compare_self (cmp := compare)
  eq_of_compare := by
    intro a b h
    cases a <;> cases b <;>
      first
        | rfl
        | (cases h; done)
        | exact congrArg _ (LawfulEqCmp.eq_of_compare (cmp := compare) h)

instance [Ord T] [TransOrd T] : TransOrd (StartNonTerminal T) where
  eq_swap := by
    intro a b
    cases a <;> cases b <;> simp only [compare, StartNonTerminal.cmp, Ordering.swap] <;>
      exact OrientedCmp.eq_swap (cmp := compare)
  isLE_trans := by
    intro a b c
    cases a <;> cases b <;> cases c <;> simp only [compare, StartNonTerminal.cmp] <;>
      first
        | exact TransCmp.isLE_trans (cmp := compare)
        | (intros; simp_all)

instance [Ord T] [LawfulEqOrd T] : LawfulEqOrd (StartNonTerminal T) where
  compare_self := by
    intro a; cases a <;> simp only [compare, StartNonTerminal.cmp]
    exact ReflCmp.compare_self (cmp := compare)
  eq_of_compare := by
    intro a b h
    cases a <;> cases b <;>
      first
        | rfl
        | (cases h; done)
        | exact congrArg _ (LawfulEqCmp.eq_of_compare (cmp := compare) h)

/-- Building a map from a sorted list of entries. -/
theorem BMap.ofList_of_sorted {K V : Type} {cmp : K → K → Ordering} [TransCmp cmp] {l : BMap K V}
    (h : BMap.Sorted cmp l) : BMap.ofList cmp l = l := by
  have hins : ∀ (m : BMap K V) k v, (∀ e ∈ m, cmp e.1 k = .lt) →
      BMap.insert cmp m k v = m ++ [(k, v)] := by
    intro m k v hm
    induction m with
    | nil => rfl
    | cons e m ih =>
      obtain ⟨k', v'⟩ := e
      have h1 := hm (k', v') (by simp)
      have h2 : cmp k k' = .gt := by
        rw [OrientedCmp.eq_swap (cmp := cmp)]; simp at h1; simp [h1]
      rw [BMap.insert, h2]
      simp only [List.cons_append]
      rw [ih (fun e he => hm e (by simp [he]))]
  have : ∀ (l m : BMap K V), BMap.Sorted cmp (m ++ l) →
      l.foldl (fun m kv => BMap.insert cmp m kv.1 kv.2) m = m ++ l := by
    intro l
    induction l with
    | nil => intro m _; simp
    | cons e l ih =>
      intro m hs
      rw [List.foldl_cons, hins]
      · rw [ih]
        · simp
        · simpa using hs
      · unfold BMap.Sorted at hs
        rw [List.pairwise_append] at hs
        intro e' he'
        exact hs.2.2 e' he' e (by simp)
  exact this l [] h

section
variable [Ord NT] [TransOrd NT] [LawfulEqOrd NT]

/-- `Grammar::new` accepts every valid set of rules. -/
theorem Grammar.new_of_valid {start : NT} {rules : List (RuleInner T NT AK AV)}
    (h : (Grammar.ofRules start rules).Valid) :
    ∃ N, ∀ fuel, N ≤ fuel → Grammar.new fuel start rules = .ok (.ok (Grammar.ofRules start rules)) := by
  let calls : List (GrammarOp T NT AK AV) := rules.map fun r =>
    ⟨r.head, r.prods.map fun p => .addProdWithElems p.actionKey p.actionValue p.elements⟩
  have hc : calls.map GrammarOp.declares = rules := by
    simp only [calls, List.map_map]
    conv => rhs; rw [← List.map_id rules]
    apply List.map_congr_left
    intro r _
    simp only [Function.comp, GrammarOp.declares, List.map_map, id]
    cases r with
    | mk hd ps =>
      simp only [RuleInner.mk.injEq, true_and]
      conv => rhs; rw [← List.map_id ps]
      apply List.map_congr_left
      intro p _
      rfl
  obtain ⟨N, hN⟩ := build_exact start calls
  rw [hc] at hN
  have hM := mentions_ofRules start rules
  refine ⟨N, fun fuel hf => ?_⟩
  obtain ⟨-, h2⟩ := hN fuel hf
  have hall : ∀ A, Relation.ReflTransGen (Writes rules) start A → HasRule rules A := by
    intro A hA
    rw [hasRule_iff start]
    rcases Relation.ReflTransGen.cases_tail hA with rfl | ⟨B, -, hB⟩
    · exact h.startRule
    · rw [← hM] at hB; exact h.closed _ _ hB
  obtain ⟨h3, -⟩ := h2 hall
  obtain ⟨g, hg⟩ := h3 ⟨by
    rintro B ⟨A, hA⟩
    have := h.reach A B (by rw [hM]; exact hA)
    rwa [hM] at this, by
    intro A r hr
    exact h.nonempty A r ((tryGetRule_ofRules start rules A r).2 hr)⟩
  rw [grammar_builder_records, hc] at hg
  rw [hg, (Grammar.valid_of_new hg).2]

theorem Grammar.wrapped_wf {g : Grammar T NT AK AV} (h : g.WF) : g.wrapped.WF := by
  constructor
  · have hs := h.sorted
    unfold BMap.Sorted at hs ⊢
    unfold Grammar.wrapped
    rw [List.pairwise_cons, List.pairwise_map]
    refine ⟨?_, ?_⟩
    · intro e he
      obtain ⟨kr, _, rfl⟩ := List.mem_map.1 he
      rfl
    · exact hs.imp fun h => h
  · intro k r hm
    unfold Grammar.wrapped at hm
    rcases List.mem_cons.1 hm with hm | hm
    · cases hm; rfl
    · obtain ⟨kr, h1, h2⟩ := List.mem_map.1 hm
      cases h2
      exact congrArg _ (h.heads kr.1 kr.2 h1)

theorem wrapCalls_declares (g : Grammar T NT AK AV) :
    (wrapCalls g).map GrammarOp.declares =
      ⟨.start, [startProduction g.startSymbol]⟩ :: g.rules.map RuleInner.lifted := by
  unfold wrapCalls
  rw [List.map_cons, List.map_map]
  congr 1
  apply List.map_congr_left
  intro r _
  simp only [Function.comp, GrammarOp.declares, RuleInner.lifted, List.map_map]
  rw [← RuleInner.prodRefs_map_inner r]
  simp only [List.map_map, RuleInner.mk.injEq, true_and]
  apply List.map_congr_left
  intro p _
  simp only [Function.comp, RuleOp.declares, ProdInner.lifted, Prod.actionKey, Prod.actionValue,
    Prod.prodElements]
  congr 1

theorem ofRules_wrap {g : Grammar T NT AK AV} (h : g.WF) :
    Grammar.ofRules .start (⟨.start, [startProduction g.startSymbol]⟩ ::
      g.rules.map RuleInner.lifted) = g.wrapped := by
  have hw := (Grammar.wrapped_wf h).sorted
  unfold Grammar.ofRules
  have : (((⟨.start, [startProduction g.startSymbol]⟩ :: g.rules.map RuleInner.lifted) :
      List (RuleInner (StreamTerminal T) (StartNonTerminal NT) (StartActionKey AK)
        (StartActionValue AV))).map fun r => (r.head, r)) = g.wrapped.ruleSet := by
    unfold Grammar.wrapped Grammar.rules BMap.values
    simp only [List.map_cons, List.map_map]
    congr 1
    apply List.map_congr_left
    intro kr hkr
    simp only [Function.comp]
    rw [← h.heads kr.1 kr.2 hkr]
    rfl
  rw [this, BMap.ofList_of_sorted hw]
  rfl

theorem wrapped_tryGetRule_start (g : Grammar T NT AK AV) :
    g.wrapped.tryGetRule .start = some ⟨.start, [startProduction g.startSymbol]⟩ := rfl

theorem wrapped_tryGetRule {g : Grammar T NT AK AV} (h : g.WF) (A : NT) :
    g.wrapped.tryGetRule (.nterm A) = (g.tryGetRule A).map RuleInner.lifted := by
  ext r
  rw [Grammar.tryGetRule_iff (Grammar.wrapped_wf h)]
  simp only [Option.map_eq_some_iff, Grammar.tryGetRule_iff h]
  unfold Grammar.wrapped
  simp only [List.mem_cons, _root_.Prod.mk.injEq, reduceCtorEq, false_and, false_or, List.mem_map,
    StartNonTerminal.nterm.injEq]
  constructor
  · rintro ⟨⟨k, r'⟩, h1, rfl, rfl⟩; exact ⟨r', h1, rfl⟩
  · rintro ⟨r', h1, rfl⟩; exact ⟨(A, r'), h1, rfl, rfl⟩

theorem lifted_elems (p : ProdInner T NT AK AV) :
    p.lifted.elements.map (·.element) = (p.elements.map (·.element)).map baseElemToStartElem := by
  unfold ProdInner.lifted
  simp only [List.map_map]
  apply List.map_congr_left
  intro e _
  simp only [Function.comp]
  cases e.element <;> rfl

theorem wrapped_prod_start {g : Grammar T NT AK AV} {β} :
    g.wrapped.cfg.prod .start β ↔
      β = [.nonterm (.nterm g.startSymbol), .term .endOfStream] := by
  unfold Grammar.cfg Grammar.wrapped
  simp only [List.mem_cons, _root_.Prod.mk.injEq, true_and, List.mem_map]
  constructor
  · rintro ⟨r, p, h1, h2, rfl⟩
    rcases h1 with rfl | ⟨kr, _, h, _⟩
    · simp at h2; subst h2; rfl
    · cases h
  · rintro rfl
    exact ⟨_, _, Or.inl rfl, List.mem_singleton.2 rfl, rfl⟩

theorem wrapped_prod_nterm {g : Grammar T NT AK AV} {A : NT} {β} :
    g.wrapped.cfg.prod (.nterm A) β ↔ ∃ β', g.cfg.prod A β' ∧ β = β'.map baseElemToStartElem := by
  unfold Grammar.cfg Grammar.wrapped
  simp only [List.mem_cons, _root_.Prod.mk.injEq, reduceCtorEq, false_and, false_or, List.mem_map,
    StartNonTerminal.nterm.injEq]
  constructor
  · rintro ⟨r, p, ⟨⟨k, r'⟩, h1, rfl, rfl⟩, h2, rfl⟩
    obtain ⟨p', hp', rfl⟩ := List.mem_map.1 h2
    exact ⟨_, ⟨r', p', h1, hp', rfl⟩, lifted_elems p'⟩
  · rintro ⟨β', ⟨r, p, h1, h2, rfl⟩, rfl⟩
    exact ⟨r.lifted, p.lifted, ⟨(A, r), h1, rfl, rfl⟩, List.mem_map.2 ⟨p, h2, rfl⟩,
      (lifted_elems p).symm⟩

theorem wrapped_mentions {g : Grammar T NT AK AV} {A B : NT} :
    g.wrapped.cfg.Mentions (.nterm A) (.nterm B) ↔ g.cfg.Mentions A B := by
  unfold Cfg.Mentions
  simp only [wrapped_prod_nterm]
  constructor
  · rintro ⟨_, ⟨β', h1, rfl⟩, h2⟩
    obtain ⟨e, he, h3⟩ := List.mem_map.1 h2
    cases e with
    | term t => cases h3
    | nonterm nt => cases h3; exact ⟨β', h1, he⟩
  · rintro ⟨β, h1, h2⟩
    exact ⟨_, ⟨β, h1, rfl⟩, List.mem_map.2 ⟨_, h2, rfl⟩⟩

theorem wrapped_mentions_start {g : Grammar T NT AK AV} {B} :
    g.wrapped.cfg.Mentions .start B ↔ B = .nterm g.startSymbol := by
  unfold Cfg.Mentions
  simp only [wrapped_prod_start]
  constructor
  · rintro ⟨_, rfl, h⟩; simpa using h
  · rintro rfl; exact ⟨_, rfl, by simp⟩

theorem wrapped_mentions_not_start {g : Grammar T NT AK AV} {A} :
    ¬ g.wrapped.cfg.Mentions A .start := by
  cases A with
  | start => rw [wrapped_mentions_start]; simp
  | nterm A =>
    rintro ⟨β, h1, h2⟩
    obtain ⟨β', -, rfl⟩ := wrapped_prod_nterm.1 h1
    obtain ⟨e, -, h3⟩ := List.mem_map.1 h2
    cases e <;> cases h3

theorem Grammar.wrapped_valid {g : Grammar T NT AK AV} (h : g.Valid) : g.wrapped.Valid where
  toWF := Grammar.wrapped_wf h.toWF
  startRule := ⟨_, wrapped_tryGetRule_start g⟩
  closed := by
    intro A B hm
    cases B with
    | start => exact absurd hm wrapped_mentions_not_start
    | nterm B =>
      have : ∃ r, g.tryGetRule B = some r := by
        cases A with
        | start => rw [wrapped_mentions_start] at hm; cases hm; exact h.startRule
        | nterm A => exact h.closed A B (wrapped_mentions.1 hm)
      obtain ⟨r, hr⟩ := this
      exact ⟨r.lifted, by rw [wrapped_tryGetRule h.toWF, hr]; rfl⟩
  reach := by
    intro A B hm
    have hs : g.wrapped.cfg.Mentions .start (.nterm g.startSymbol) := wrapped_mentions_start.2 rfl
    cases B with
    | start => exact absurd hm wrapped_mentions_not_start
    | nterm B =>
      cases A with
      | start => exact .single hm
      | nterm A =>
        have := h.reach A B (wrapped_mentions.1 hm)
        refine .trans (.single hs) ?_
        exact Relation.TransGen.lift (fun X => StartNonTerminal.nterm X)
          (fun a b hab => wrapped_mentions.2 hab) _ _ this
  nonempty := by
    intro A r hr
    cases A with
    | start => rw [wrapped_tryGetRule_start] at hr; cases hr; simp
    | nterm A =>
      rw [wrapped_tryGetRule h.toWF] at hr
      obtain ⟨r', h1, rfl⟩ := Option.map_eq_some_iff.1 hr
      have := h.nonempty A r' h1
      simpa [RuleInner.lifted] using this

/-! ### Languages -/
theorem wrapped_yields {g : Grammar T NT AK AV} {s : List (Elem T NT)} {w : List T}
    (h : g.cfg.Yields s w) : g.wrapped.cfg.Yields (s.map baseElemToStartElem) (w.map .term) := by
  induction h with
  | nil => exact .nil
  | term t _ ih => exact .term _ ih
  | nonterm hp _ _ ih1 ih2 =>
    rw [List.map_append]
    exact .nonterm (wrapped_prod_nterm.2 ⟨_, hp, rfl⟩) ih1 ih2

theorem of_wrapped_yields {g : Grammar T NT AK AV} {s' w'} (h : g.wrapped.cfg.Yields s' w') :
    ∀ s : List (Elem T NT), s' = s.map baseElemToStartElem →
      ∃ w : List T, w' = w.map .term ∧ g.cfg.Yields s w := by
  induction h with
  | nil =>
    intro s hs
    cases s with
    | nil => exact ⟨[], rfl, .nil⟩
    | cons e s => cases hs
  | term t _ ih =>
    intro s hs
    cases s with
    | nil => cases hs
    | cons e s =>
      simp only [List.map_cons, List.cons.injEq] at hs
      cases e with
      | nonterm A => cases hs.1
      | term t' =>
        obtain ⟨w, rfl, hw⟩ := ih s hs.2
        cases hs.1
        exact ⟨t' :: w, rfl, .term _ hw⟩
  | nonterm hp _ _ ih1 ih2 =>
    intro s hs
    cases s with
    | nil => cases hs
    | cons e s =>
      simp only [List.map_cons, List.cons.injEq] at hs
      cases e with
      | term t' => cases hs.1
      | nonterm A =>
        cases hs.1
        obtain ⟨β, h1, rfl⟩ := wrapped_prod_nterm.1 hp
        obtain ⟨w1, rfl, hw1⟩ := ih1 β rfl
        obtain ⟨w2, rfl, hw2⟩ := ih2 s hs.2
        exact ⟨w1 ++ w2, by simp, .nonterm h1 hw1 hw2⟩
end
end Bongo
