import Verif.Model.NonNull
import Verif.Spec.NonNull
import Verif.Proof.Start
import Verif.Props.Nullable
import Mathlib.Data.List.Induction
/-! `transform_to_nonnull`. -/
set_option linter.unusedSectionVars false
namespace Bongo
open Std
variable {T NT AK AV : Type}

namespace Choice
variable {nul : NT → Prop}

theorem det {es : List (ProdElement T NT)} {c k d k' d'} (h : Choice nul es c k d)
    (h' : Choice nul es c k' d') : k = k' ∧ d = d' := by
  induction h generalizing k' d' with
  | nil => cases h'; exact ⟨rfl, rfl⟩
  | term id t _ ih =>
    cases h' with
    | term _ _ h' => obtain ⟨rfl, rfl⟩ := ih h'; exact ⟨rfl, rfl⟩
  | nonNull id A _ ih =>
    cases h' with
    | nonNull _ _ h' => obtain ⟨rfl, rfl⟩ := ih h'; exact ⟨rfl, rfl⟩
  | null id A _ _ ih =>
    cases h' with
    | null _ _ _ h' => obtain ⟨rfl, rfl⟩ := ih h'; exact ⟨rfl, rfl⟩

theorem dropped {es : List (ProdElement T NT)} {c k d} (h : Choice nul es c k d) :
    ∀ e ∈ d, ∃ A, e.element = .nonterm A ∧ nul A := by
  induction h with
  | nil => simp
  | term id t _ ih => exact ih
  | nonNull id A _ ih => exact ih
  | null id A hA _ ih =>
    intro e he
    rcases List.mem_cons.1 he with rfl | he
    · exact ⟨A, rfl, hA⟩
    · exact ih e he

theorem kept_sublist {es : List (ProdElement T NT)} {c k d} (h : Choice nul es c k d) :
    k.Sublist es := by
  induction h with
  | nil => exact .slnil
  | term id t _ ih => exact ih.cons_cons _
  | nonNull id A _ ih => exact ih.cons_cons _
  | null id A hA _ ih => exact ih.cons _

/-- Everything dropped: everything is nullable. -/
theorem all_null {es : List (ProdElement T NT)} {c d} {k : List (ProdElement T NT)}
    (h : Choice nul es c k d) (hk : k = []) :
    ∀ e ∈ es, ∃ A, e.element = .nonterm A ∧ nul A := by
  induction h with
  | nil => simp
  | term id t _ ih => cases hk
  | nonNull id A _ ih => cases hk
  | null id A hA _ ih =>
    intro e he
    rcases List.mem_cons.1 he with rfl | he
    · exact ⟨A, rfl, hA⟩
    · exact ih hk e he
end Choice

section states
variable [Ord NT]

/-- The arguments recorded for dropped elements. -/
def argsOf (info : GrammarNullableInfo NT AK) (args : BMap Name (TreeNode (ProdKey NT AK)))
    (d : List (ProdElement T NT)) : BMap Name (TreeNode (ProdKey NT AK)) :=
  d.foldl (fun args e =>
    match e.identifier, e.element.asNonterm.bind info.getNullableAction with
    | some id, some t => BMap.insert compare args id t
    | _, _ => args) args

theorem nonnull_states (info : GrammarNullableInfo NT AK) (es : List (ProdElement T NT)) :
    ∀ (S : List (ProdBuildState T NT AK)) s', s' ∈ es.foldl (nonnullStep info) S ↔
      ∃ s ∈ S, ∃ c k d, Choice (fun A => info.getNullableAction A ≠ none) es c k d ∧
        s' = ⟨s.elems ++ k, s.ntNullableStates ++ c, argsOf info s.actionArgs d⟩ := by
  induction es with
  | nil =>
    intro S s'
    constructor
    · intro h; exact ⟨s', h, [], [], [], .nil, by simp [argsOf]⟩
    · rintro ⟨s, hs, c, k, d, hc, rfl⟩
      cases hc
      simpa [argsOf] using hs
  | cons e es ih =>
    intro S s'
    rw [List.foldl_cons, ih]
    obtain ⟨id, el⟩ := e
    cases el with
    | term t =>
      simp only [nonnullStep, List.mem_map]
      constructor
      · rintro ⟨_, ⟨s, hs, rfl⟩, c, k, d, hc, rfl⟩
        exact ⟨s, hs, c, _, d, .term id t hc, by simp [ProdBuildState.keepTerm]⟩
      · rintro ⟨s, hs, c, k, d, hc, rfl⟩
        cases hc with
        | term _ _ hc =>
          exact ⟨_, ⟨s, hs, rfl⟩, c, _, d, hc, by simp [ProdBuildState.keepTerm]⟩
    | nonterm A =>
      cases hA : info.getNullableAction A with
      | none =>
        simp only [nonnullStep, hA, List.mem_map]
        constructor
        · rintro ⟨_, ⟨s, hs, rfl⟩, c, k, d, hc, rfl⟩
          exact ⟨s, hs, _, _, d, .nonNull id A hc, by simp [ProdBuildState.keepNt]⟩
        · rintro ⟨s, hs, c, k, d, hc, rfl⟩
          cases hc with
          | nonNull _ _ hc =>
            exact ⟨_, ⟨s, hs, rfl⟩, _, _, d, hc, by simp [ProdBuildState.keepNt]⟩
          | null _ _ hn => exact absurd hA hn
      | some t =>
        simp only [nonnullStep, hA, List.mem_map, List.mem_append]
        constructor
        · rintro ⟨_, ⟨s, hs, rfl⟩ | ⟨s, hs, rfl⟩, c, k, d, hc, rfl⟩
          · exact ⟨s, hs, _, _, d, .nonNull id A hc, by simp [ProdBuildState.keepNt]⟩
          · refine ⟨s, hs, _, _, _, .null id A (by simp [hA]) hc, ?_⟩
            cases id <;> simp [ProdBuildState.dropNt, argsOf, Elem.asNonterm, hA]
        · rintro ⟨s, hs, c, k, d, hc, rfl⟩
          cases hc with
          | nonNull _ _ hc =>
            exact ⟨_, Or.inl ⟨s, hs, rfl⟩, _, _, d, hc, by simp [ProdBuildState.keepNt]⟩
          | null _ _ hn hc =>
            refine ⟨_, Or.inr ⟨s, hs, rfl⟩, _, _, _, hc, ?_⟩
            cases id <;> simp [ProdBuildState.dropNt, argsOf, Elem.asNonterm, hA]

/-- The nullable nonterminal occurrences. -/
def nullCount (info : GrammarNullableInfo NT AK) (es : List (ProdElement T NT)) : Nat :=
  es.countP fun e => match e.element with
    | .nonterm A => (info.getNullableAction A).isSome
    | .term _ => false

theorem nonnull_states_length (info : GrammarNullableInfo NT AK) (es : List (ProdElement T NT)) :
    ∀ S : List (ProdBuildState T NT AK),
      (es.foldl (nonnullStep info) S).length = S.length * 2 ^ nullCount info es := by
  induction es with
  | nil => intro S; simp [nullCount]
  | cons e es ih =>
    intro S
    rw [List.foldl_cons, ih]
    obtain ⟨id, el⟩ := e
    cases el with
    | term t => simp [nonnullStep, nullCount]
    | nonterm A =>
      cases hA : info.getNullableAction A with
      | none => simp [nonnullStep, nullCount, hA]
      | some t =>
        simp only [nonnullStep, hA, nullCount, List.length_append, List.length_map,
          List.countP_cons, Option.isSome_some, ↓reduceIte, Nat.pow_succ]
        rw [← Nat.mul_two, Nat.mul_assoc, Nat.mul_comm 2]

theorem nonnull_states_nodup (info : GrammarNullableInfo NT AK) (es : List (ProdElement T NT)) :
    ∀ (S : List (ProdBuildState T NT AK)) (n : Nat), (S.map (·.ntNullableStates)).Nodup →
      (∀ s ∈ S, s.ntNullableStates.length = n) →
      ((es.foldl (nonnullStep info) S).map (·.ntNullableStates)).Nodup := by
  induction es with
  | nil => intro S n h _; exact h
  | cons e es ih =>
    intro S n hnd hlen
    rw [List.foldl_cons]
    obtain ⟨id, el⟩ := e
    have happ : ∀ b, ((S.map (·.ntNullableStates)).map (· ++ [b])).Nodup := by
      intro b
      exact hnd.map_on (fun x _ y _ h => by simpa using h)
    cases el with
    | term t =>
      refine ih _ n ?_ ?_
      · simp only [nonnullStep, List.map_map]; exact hnd
      · intro s hs
        simp only [nonnullStep, List.mem_map] at hs
        obtain ⟨s, hs, rfl⟩ := hs
        exact hlen s hs
    | nonterm A =>
      cases hA : info.getNullableAction A with
      | none =>
        refine ih _ (n + 1) ?_ ?_
        · have := happ false
          simp only [nonnullStep, hA, List.map_map] at this ⊢; exact this
        · intro s hs
          simp only [nonnullStep, hA, List.mem_map] at hs
          obtain ⟨s, hs, rfl⟩ := hs
          simp [ProdBuildState.keepNt, hlen s hs]
      | some t =>
        refine ih _ (n + 1) ?_ ?_
        · have h1 := happ false
          have h2 := happ true
          simp only [nonnullStep, hA, List.map_append, List.map_map]
          rw [List.nodup_append]
          refine ⟨by simp only [List.map_map] at h1; exact h1,
            by simp only [List.map_map] at h2; exact h2, ?_⟩
          intro a ha b hb
          simp only [List.mem_map, Function.comp, ProdBuildState.keepNt,
            ProdBuildState.dropNt] at ha hb
          obtain ⟨s, hs, rfl⟩ := ha
          obtain ⟨s', hs', rfl⟩ := hb
          intro heq
          have := List.append_inj_right heq (by rw [hlen s hs, hlen s' hs'])
          simp at this
        · intro s hs
          simp only [nonnullStep, hA, List.mem_append, List.mem_map] at hs
          rcases hs with ⟨s, hs, rfl⟩ | ⟨s, hs, rfl⟩
          · simp [ProdBuildState.keepNt, hlen s hs]
          · simp [ProdBuildState.dropNt, hlen s hs]

variable [TransOrd NT] [LawfulEqOrd NT]

theorem argsOf_get {info : GrammarNullableInfo NT AK} {d : List (ProdElement T NT)}
    (hd : ∀ e ∈ d, ∃ A, e.element = .nonterm A ∧ info.getNullableAction A ≠ none) (n : Name)
    (u : TreeNode (ProdKey NT AK)) :
    BMap.get? compare (argsOf info [] d) n = some u ↔
      ∃ pre B post, d = pre ++ ⟨some n, .nonterm B⟩ :: post ∧
        (∀ e ∈ post, e.identifier ≠ some n) ∧ info.getNullableAction B = some u := by
  induction d using List.reverseRecOn with
  | nil => simp [argsOf]
  | append_singleton d e ih =>
    have ih' := ih (fun e he => hd e (by simp [he]))
    obtain ⟨A, hA, hn⟩ := hd e (by simp)
    obtain ⟨t, ht⟩ := Option.ne_none_iff_exists'.1 hn
    obtain ⟨id, el⟩ := e
    simp only at hA
    subst hA
    have hsplit : ∀ {pre B post}, d ++ [⟨id, .nonterm A⟩] =
        pre ++ (⟨some n, .nonterm B⟩ : ProdElement T NT) :: post →
        (post = [] ∧ pre = d ∧ id = some n ∧ A = B) ∨
        (∃ post', post = post' ++ [⟨id, .nonterm A⟩] ∧ d = pre ++ ⟨some n, .nonterm B⟩ :: post') := by
      intro pre B post h
      rcases List.eq_nil_or_concat post with rfl | ⟨post', x, rfl⟩
      · have := List.append_inj' h rfl
        simp at this
        exact Or.inl ⟨rfl, this.1.symm, this.2.1, this.2.2⟩
      · right
        have h2 : d ++ [⟨id, .nonterm A⟩] = (pre ++ ⟨some n, .nonterm B⟩ :: post') ++ [x] := by
          simpa using h
        have := List.append_inj' h2 rfl
        simp at this
        exact ⟨post', by simp [this.2], this.1⟩
    cases id with
    | none =>
      have : argsOf info [] (d ++ [⟨none, .nonterm A⟩]) = argsOf info [] d := by simp [argsOf]
      rw [this, ih']
      constructor
      · rintro ⟨pre, B, post, rfl, h1, h2⟩
        refine ⟨pre, B, post ++ [⟨none, .nonterm A⟩], by simp, ?_, h2⟩
        intro e he
        rcases List.mem_append.1 he with he | he
        · exact h1 e he
        · simp at he; subst he; simp
      · rintro ⟨pre, B, post, h, h1, h2⟩
        rcases hsplit h with ⟨-, -, h3, -⟩ | ⟨post', rfl, rfl⟩
        · cases h3
        · exact ⟨pre, B, post', rfl, fun e he => h1 e (by simp [he]), h2⟩
    | some m =>
      have : argsOf info [] (d ++ [⟨some m, .nonterm A⟩]) =
          BMap.insert compare (argsOf info [] d) m t := by simp [argsOf, Elem.asNonterm, ht]
      rw [this, BMap.get?_insert]
      split
      · rename_i hc
        have := LawfulEqCmp.eq_of_compare hc
        subst this
        constructor
        · intro h
          exact ⟨d, A, [], rfl, by simp, by rw [ht]; exact h⟩
        · rintro ⟨pre, B, post, h, h1, h2⟩
          rcases hsplit h with ⟨-, -, -, rfl⟩ | ⟨post', rfl, rfl⟩
          · rw [ht] at h2; exact h2
          · exact absurd rfl (h1 ⟨some n, .nonterm A⟩ (by simp))
      · rename_i hc
        rw [ih']
        constructor
        · rintro ⟨pre, B, post, rfl, h1, h2⟩
          refine ⟨pre, B, post ++ [⟨some m, .nonterm A⟩], by simp, ?_, h2⟩
          intro e he
          rcases List.mem_append.1 he with he | he
          · exact h1 e he
          · simp at he
            subst he
            simp only [ne_eq, Option.some.injEq]
            rintro rfl
            exact hc (cmp_self _)
        · rintro ⟨pre, B, post, h, h1, h2⟩
          rcases hsplit h with ⟨-, -, h3, -⟩ | ⟨post', rfl, rfl⟩
          · cases h3; exact absurd (cmp_self _) hc
          · exact ⟨pre, B, post', rfl, fun e he => h1 e (by simp [he]), h2⟩

end states

/-! ### The resulting grammar -/
section
variable [Ord NT] [TransOrd NT] [LawfulEqOrd NT]

/-- The productions made from one production. -/
def nnVariants (info : GrammarNullableInfo NT AK) (p : Prod T NT AK AV) :
    List (ProdInner T NT (NNActionKey AK) (NNActionValue NT AK AV)) :=
  (p.prodElements.foldl (nonnullStep info) [⟨[], [], []⟩]).map fun s =>
    ⟨⟨p.actionKey, s.ntNullableStates⟩, ⟨p.actionValue, s.actionArgs⟩, s.elems⟩

/-- The productions of the transformed rule. -/
def nnProds (info : GrammarNullableInfo NT AK) (r : RuleInner T NT AK AV) :
    List (ProdInner T NT (NNActionKey AK) (NNActionValue NT AK AV)) :=
  r.prodRefs.flatMap fun p => if info.prodNullable p then [] else nnVariants info p

/-- The transformed grammar. -/
def nnGrammar (info : GrammarNullableInfo NT AK) (g : Grammar T NT AK AV) :
    NonNullGrammar T NT AK AV where
  startSymbol := g.startSymbol
  ruleSet := g.ruleSet.map fun kr => (kr.1, ⟨kr.1, nnProds info kr.2⟩)

theorem nonnullCalls_declares (info : GrammarNullableInfo NT AK) (g : Grammar T NT AK AV) :
    (nonnullCalls info g).map GrammarOp.declares =
      g.ruleSet.map fun kr => ⟨kr.1, nnProds info kr.2⟩ := by
  unfold nonnullCalls
  rw [List.map_map]
  apply List.map_congr_left
  intro kr _
  simp only [Function.comp, GrammarOp.declares, nnProds, RuleInner.mk.injEq, true_and]
  rw [List.map_flatMap]
  congr 1
  funext p
  split
  · rfl
  · simp only [buildNonnullProds, nnVariants, List.map_map]
    apply List.map_congr_left
    intro s _
    rfl

theorem nnGrammar_wf {info : GrammarNullableInfo NT AK} {g : Grammar T NT AK AV} (h : g.WF) :
    (nnGrammar info g).WF := by
  constructor
  · have hs := h.sorted
    unfold BMap.Sorted at hs ⊢
    unfold nnGrammar
    rw [List.pairwise_map]
    exact hs.imp fun h => h
  · intro k r hm
    obtain ⟨kr, h1, h2⟩ := List.mem_map.1 hm
    cases h2
    rfl

theorem ofRules_nn {info : GrammarNullableInfo NT AK} {g : Grammar T NT AK AV} (h : g.WF) :
    Grammar.ofRules g.startSymbol (g.ruleSet.map fun kr => (⟨kr.1, nnProds info kr.2⟩ :
      RuleInner T NT (NNActionKey AK) (NNActionValue NT AK AV))) = nnGrammar info g := by
  unfold Grammar.ofRules
  rw [List.map_map]
  have := BMap.ofList_of_sorted (nnGrammar_wf (info := info) h).sorted
  show Grammar.mk _ (BMap.ofList compare (nnGrammar info g).ruleSet) = _
  rw [this]
  rfl

theorem nn_tryGetRule {info : GrammarNullableInfo NT AK} {g : Grammar T NT AK AV} (h : g.WF)
    (A : NT) (r') : (nnGrammar info g).tryGetRule A = some r' ↔
      ∃ r, g.tryGetRule A = some r ∧ r' = ⟨A, nnProds info r⟩ := by
  rw [Grammar.tryGetRule_iff (nnGrammar_wf h)]
  simp only [Grammar.tryGetRule_iff h, nnGrammar, List.mem_map, _root_.Prod.mk.injEq]
  constructor
  · rintro ⟨⟨k, r⟩, h1, rfl, rfl⟩; exact ⟨r, h1, rfl⟩
  · rintro ⟨r, h1, rfl⟩; exact ⟨(A, r), h1, rfl, rfl⟩

/-- Success of the transform, opened up. -/
theorem transform_ok {fuel : Nat} {addr : NT → Nat → Nat} {g : Grammar T NT AK AV} (h : g.WF) {g'}
    (ht : transformToNonnull fuel addr g = .ok (.ok g')) :
    ∃ info, calculateNullables fuel addr g = .ok (.ok info) ∧ g' = nnGrammar info g ∧ g'.Valid := by
  unfold transformToNonnull at ht
  cases hn : calculateNullables fuel addr g with
  | oof => simp [hn] at ht
  | panic w => simp [hn] at ht
  | ok x =>
    cases x with
    | error e => simp [hn] at ht
    | ok info =>
      simp only [hn] at ht
      rw [grammar_builder_records, nonnullCalls_declares] at ht
      cases hb : Grammar.new fuel g.startSymbol (g.ruleSet.map fun kr =>
          (⟨kr.1, nnProds info kr.2⟩ : RuleInner T NT (NNActionKey AK) (NNActionValue NT AK AV))) with
      | oof => simp [hb] at ht
      | panic w => simp [hb] at ht
      | ok y =>
        cases y with
        | error e => simp [hb] at ht
        | ok g'' =>
          simp only [hb, Res.ok.injEq, Except.ok.injEq] at ht
          subst ht
          obtain ⟨h1, h2⟩ := Grammar.valid_of_new hb
          rw [ofRules_nn h] at h2
          exact ⟨info, rfl, h2, h1⟩

theorem getNullableAction_iff {fuel : Nat} {addr : NT → Nat → Nat} {g : Grammar T NT AK AV}
    (h : g.WF) (ha : AddrInj g addr) {info}
    (hn : calculateNullables fuel addr g = .ok (.ok info)) (A : NT) :
    info.getNullableAction A ≠ none ↔ g.cfg.Generates A [] := by
  rcases calculateNullables_ok h ha hn with ⟨-, info', he, -, hk, -⟩ | ⟨-, he⟩
  · cases he
    rw [← Cfg.null_iff, ← hk A]
    rfl
  · cases he

theorem prodNullable_iff {fuel : Nat} {addr : NT → Nat → Nat} {g : Grammar T NT AK AV}
    (h : g.WF) (ha : AddrInj g addr) {info}
    (hn : calculateNullables fuel addr g = .ok (.ok info)) (p : Prod T NT AK AV) :
    info.prodNullable p = true ↔ g.cfg.Derives p.elements [] := by
  unfold GrammarNullableInfo.prodNullable
  rw [isProdNullable_iff, show g.cfg.Derives p.elements [] ↔ g.cfg.Yields p.elements [] from
    (Cfg.yields_iff (w := [])).symm, Cfg.yields_nil_word_iff]
  have hnull : ∀ A, BMap.contains compare info.nontermInfo A = true ↔ g.cfg.Null A := by
    intro A
    rw [Cfg.null_iff, ← getNullableAction_iff h ha hn]
    unfold GrammarNullableInfo.getNullableAction BMap.contains
    cases BMap.get? compare info.nontermInfo A <;> simp
  constructor
  · intro h e he
    obtain ⟨B, rfl, hB⟩ := h e he
    exact ⟨B, rfl, (hnull B).1 hB⟩
  · intro h e he
    obtain ⟨B, rfl, hB⟩ := h e he
    exact ⟨B, rfl, (hnull B).2 hB⟩

theorem mem_nnVariants {info : GrammarNullableInfo NT AK} {p : Prod T NT AK AV} {q} :
    q ∈ nnVariants info p ↔ ∃ c k d,
      Choice (fun A => info.getNullableAction A ≠ none) p.prodElements c k d ∧
        q = ⟨⟨p.actionKey, c⟩, ⟨p.actionValue, argsOf info [] d⟩, k⟩ := by
  unfold nnVariants
  simp only [List.mem_map, nonnull_states, List.mem_singleton]
  constructor
  · rintro ⟨_, ⟨s, rfl, c, k, d, hc, rfl⟩, rfl⟩
    exact ⟨c, k, d, hc, by simp⟩
  · rintro ⟨c, k, d, hc, rfl⟩
    exact ⟨_, ⟨_, rfl, c, k, d, hc, rfl⟩, by simp⟩

/-- The productions of the transformed grammar, as a relation. -/
theorem nn_cfg_prod {fuel : Nat} {addr : NT → Nat → Nat} {g : Grammar T NT AK AV} (h : g.WF)
    (ha : AddrInj g addr) {info} (hn : calculateNullables fuel addr g = .ok (.ok info)) {A : NT} {β} :
    (nnGrammar info g).cfg.prod A β ↔
      ∃ p ∈ g.prods, p.head = A ∧ ¬ g.cfg.Derives p.elements [] ∧
        ∃ c k d, Choice (fun A => g.cfg.Generates A []) p.prodElements c k d ∧
          β = k.map (·.element) := by
  have hcg : (fun A => info.getNullableAction A ≠ none) = fun A => g.cfg.Generates A [] := by
    funext A
    exact propext (getNullableAction_iff h ha hn A)
  unfold Grammar.cfg
  simp only [← Grammar.tryGetRule_iff (nnGrammar_wf (info := info) h), nn_tryGetRule h]
  constructor
  · rintro ⟨_, q, ⟨r, h1, rfl⟩, h2, rfl⟩
    unfold nnProds at h2
    obtain ⟨p, hp, hq⟩ := List.mem_flatMap.1 h2
    obtain ⟨hp1, hp2⟩ := (Grammar.mem_prods_of_rule h h1).1 hp
    split at hq
    · simp at hq
    · rename_i hnn
      obtain ⟨c, k, d, hc, rfl⟩ := mem_nnVariants.1 hq
      rw [hcg] at hc
      exact ⟨p, hp1, hp2, fun hd => hnn ((prodNullable_iff h ha hn p).2 hd), c, k, d, hc, rfl⟩
  · rintro ⟨p, hp, rfl, hnd, c, k, d, hc, rfl⟩
    obtain ⟨r, h1, h2⟩ := (Grammar.mem_prods h).1 hp
    refine ⟨_, ⟨⟨p.actionKey, c⟩, ⟨p.actionValue, argsOf info [] d⟩, k⟩, ⟨r, h1, rfl⟩, ?_, rfl⟩
    unfold nnProds
    refine List.mem_flatMap.2 ⟨p, (Grammar.mem_prods_of_rule h h1).2 ⟨hp, rfl⟩, ?_⟩
    rw [if_neg (fun hd => hnd ((prodNullable_iff h ha hn p).1 hd))]
    rw [mem_nnVariants]
    rw [hcg]
    exact ⟨c, k, d, hc, rfl⟩

/-! ### Languages -/
/-- Putting the dropped (nullable) elements back. -/
theorem cut_yields_of_choice {g : Grammar T NT AK AV} {es : List (ProdElement T NT)} {c k d}
    (hc : Choice (fun A => g.cfg.Generates A []) es c k d) :
    ∀ {w}, g.cutNull.Yields (k.map (·.element)) w → g.cutNull.Yields (es.map (·.element)) w := by
  induction hc with
  | nil => intro w h; exact h
  | term id t _ ih =>
    intro w h
    simp only [List.map_cons] at h ⊢
    cases h with
    | term _ h => exact .term t (ih h)
  | nonNull id A _ ih =>
    intro w h
    simp only [List.map_cons] at h ⊢
    cases h with
    | nonterm hp h1 h2 => exact .nonterm hp h1 (ih h2)
  | null id A hA _ ih =>
    intro w h
    simp only [List.map_cons]
    have := Cfg.Yields.nonterm (G := g.cutNull) (A := A) (β := []) (Or.inr ⟨rfl, hA⟩) .nil (ih h)
    simpa using this

theorem cut_yields_sub {g : Grammar T NT AK AV} {s w} (h : g.cutNull.Yields s w) :
    g.cfg.Yields s w := by
  induction h with
  | nil => exact .nil
  | term t _ ih => exact .term t ih
  | nonterm hp _ _ ih1 ih2 =>
    rcases hp with ⟨hp, -⟩ | ⟨rfl, hp⟩
    · exact .nonterm hp ih1 ih2
    · cases ih1
      obtain ⟨β, h1, h2⟩ := Cfg.generates_iff.1 hp
      exact .nonterm h1 h2 ih2

section
variable {fuel : Nat} {addr : NT → Nat → Nat} {g : Grammar T NT AK AV} (h : g.WF)
    (ha : AddrInj g addr) {info : GrammarNullableInfo NT AK}
    (hn : calculateNullables fuel addr g = .ok (.ok info))
include h ha hn

theorem nn_prod_nonempty {A β} (hp : (nnGrammar info g).cfg.prod A β) : β ≠ [] := by
  rintro rfl
  obtain ⟨p, hp, rfl, hnd, c, k, d, hc, hβ⟩ := (nn_cfg_prod h ha hn).1 hp
  have hk : k = [] := by simpa using hβ.symm
  apply hnd
  rw [show g.cfg.Derives p.elements [] ↔ g.cfg.Yields p.elements [] from
    (Cfg.yields_iff (w := [])).symm, Cfg.yields_nil_word_iff]
  intro e he
  obtain ⟨e', he', rfl⟩ := List.mem_map.1 he
  obtain ⟨A, h1, h2⟩ := hc.all_null hk e' he'
  exact ⟨A, h1, Cfg.null_iff.2 h2⟩

theorem nn_yields_nonempty {s w} (hy : (nnGrammar info g).cfg.Yields s w) : w = [] → s = [] := by
  induction hy with
  | nil => intro _; rfl
  | term t _ _ => intro h; cases h
  | nonterm hp _ _ ih1 ih2 =>
    intro hw
    have := (List.append_eq_nil_iff.1 hw).1
    exact absurd (ih1 this) (nn_prod_nonempty h ha hn hp)

theorem nn_yields_cut {s w} (hy : (nnGrammar info g).cfg.Yields s w) : g.cutNull.Yields s w := by
  induction hy with
  | nil => exact .nil
  | term t _ ih => exact .term t ih
  | nonterm hp _ _ ih1 ih2 =>
    obtain ⟨p, hp', rfl, hnd, c, k, d, hc, rfl⟩ := (nn_cfg_prod h ha hn).1 hp
    exact .nonterm (Or.inl ⟨(Grammar.cfg_prod_iff h).2 ⟨p, hp', rfl, rfl⟩, hnd⟩)
      (cut_yields_of_choice hc ih1) ih2

theorem cut_yields_nn {s w} (hy : g.cutNull.Yields s w) :
    ∀ es : List (ProdElement T NT), es.map (·.element) = s →
      ∃ c k d, Choice (fun A => g.cfg.Generates A []) es c k d ∧
        (nnGrammar info g).cfg.Yields (k.map (·.element)) w := by
  induction hy with
  | nil =>
    intro es hes
    have : es = [] := by simpa using hes
    subst this
    exact ⟨[], [], [], .nil, .nil⟩
  | term t _ ih =>
    intro es hes
    cases es with
    | nil => cases hes
    | cons e es =>
      obtain ⟨id, el⟩ := e
      simp only [List.map_cons, List.cons.injEq] at hes
      obtain ⟨rfl, hes⟩ := hes
      obtain ⟨c, k, d, hc, hy⟩ := ih es hes
      exact ⟨c, _, d, .term id t hc, .term t hy⟩
  | @nonterm A β s w₁ w₂ hp _ _ ih1 ih2 =>
    intro es hes
    cases es with
    | nil => cases hes
    | cons e es =>
      obtain ⟨id, el⟩ := e
      simp only [List.map_cons, List.cons.injEq] at hes
      obtain ⟨rfl, hes⟩ := hes
      obtain ⟨c, k, d, hc, hy⟩ := ih2 es hes
      rcases hp with ⟨hp, hnd⟩ | ⟨rfl, hA⟩
      · obtain ⟨p, hp', rfl, rfl⟩ := (Grammar.cfg_prod_iff h).1 hp
        obtain ⟨c', k', d', hc', hy'⟩ := ih1 p.prodElements rfl
        exact ⟨_, _, _, .nonNull id _ hc,
          .nonterm ((nn_cfg_prod h ha hn).2 ⟨p, hp', rfl, hnd, c', k', d', hc', rfl⟩) hy' hy⟩
      · obtain ⟨c', k', d', hc', hy'⟩ := ih1 [] rfl
        cases hc'
        cases hy'
        exact ⟨_, _, _, .null id A hA hc, hy⟩

theorem nn_generates {A w} : (nnGrammar info g).cfg.Generates A w ↔
    w ≠ [] ∧ g.cutNull.Generates A w := by
  rw [← Cfg.yields_nonterm_iff, ← Cfg.yields_nonterm_iff]
  constructor
  · intro hy
    refine ⟨fun hw => ?_, nn_yields_cut h ha hn hy⟩
    have := nn_yields_nonempty h ha hn hy hw
    cases this
  · rintro ⟨hw, hy⟩
    obtain ⟨c, k, d, hc, hy'⟩ := cut_yields_nn h ha hn hy [⟨none, .nonterm A⟩] rfl
    cases hc with
    | nonNull _ _ hc => cases hc; exact hy'
    | null _ _ hA hc => cases hc; cases hy'; exact absurd rfl hw
end
end
end Bongo

namespace Bongo
open Std
variable {T NT AK AV : Type} [Ord NT] [TransOrd NT] [LawfulEqOrd NT]

/-- When every nonterminal has a rule, `Grammar::new` does not panic. -/
theorem Grammar.new_closed {start : NT} {rules : List (RuleInner T NT AK AV)}
    (hs : ∃ r, (Grammar.ofRules start rules).tryGetRule start = some r)
    (hc : ∀ A B, (Grammar.ofRules start rules).cfg.Mentions A B →
      ∃ r, (Grammar.ofRules start rules).tryGetRule B = some r) :
    ∃ N, ∀ fuel, N ≤ fuel → ∃ x, Grammar.new fuel start rules = .ok x := by
  have hwf := Grammar.ofRules_wf start rules
  refine ⟨(Grammar.ofRules start rules).checkFuel, fun fuel hf => ?_⟩
  unfold Grammar.new Grammar.checkGrammar Grammar.unreachableNonterms
  simp only
  cases hr : (Grammar.ofRules start rules).reachableNonterms fuel with
  | oof => exact absurd hr (Grammar.reachable_ne_oof hwf hf)
  | panic w =>
    obtain ⟨-, B, h1, h2⟩ := Grammar.reachable_panic hwf hr
    exfalso
    rcases Relation.ReflTransGen.cases_tail h1 with hB | ⟨C, -, hC⟩
    · obtain ⟨r, hr'⟩ := hs
      have hB' : B = start := hB
      rw [hB', hr'] at h2; cases h2
    · obtain ⟨r, hr'⟩ := hc C B hC; rw [hr'] at h2; cases h2
  | ok s =>
    simp only
    split
    · exact ⟨_, rfl⟩
    · exact ⟨_, rfl⟩
    · rename_i w heq; cases heq
    · rename_i heq; cases heq

theorem nnVariants_length (info : GrammarNullableInfo NT AK) (p : Prod T NT AK AV) :
    (nnVariants info p).length = 2 ^ nullCount info p.prodElements := by
  unfold nnVariants
  rw [List.length_map, nonnull_states_length]
  simp

theorem nnVariants_keys (info : GrammarNullableInfo NT AK) (p : Prod T NT AK AV) :
    ((nnVariants info p).map (·.actionKey)).Nodup := by
  have := nonnull_states_nodup info p.prodElements [(⟨[], [], []⟩ : ProdBuildState T NT AK)] 0
    (by simp) (by simp)
  unfold nnVariants
  rw [List.map_map]
  have h2 := this.map_on (f := fun c => (⟨p.actionKey, c⟩ : NNActionKey AK)) (by
    intro x _ y _ h; cases h; rfl)
  rw [List.map_map] at h2
  exact h2

theorem argsOf_sorted (info : GrammarNullableInfo NT AK) (d : List (ProdElement T NT)) :
    ∀ args : BMap Name (TreeNode (ProdKey NT AK)), BMap.Sorted compare args →
      BMap.Sorted compare (argsOf info args d) := by
  induction d with
  | nil => intro args h; exact h
  | cons e d ih =>
    intro args h
    unfold argsOf
    rw [List.foldl_cons]
    apply ih
    split
    · exact BMap.sorted_insert h _ _
    · exact h

theorem nnProds_keys {info : GrammarNullableInfo NT AK} {r : RuleInner T NT AK AV}
    (h : (r.prods.map (·.actionKey)).Nodup) : ((nnProds info r).map (·.actionKey)).Nodup := by
  have h' : (r.prodRefs.map (·.actionKey)).Nodup := by
    have : r.prodRefs.map (·.actionKey) = (r.prodRefs.map (·.inner)).map (·.actionKey) := by
      rw [List.map_map]; rfl
    rw [this, RuleInner.prodRefs_map_inner]; exact h
  unfold nnProds
  generalize r.prodRefs = ps at h'
  induction ps with
  | nil => simp
  | cons p ps ih =>
    simp only [List.map_cons, List.nodup_cons] at h'
    rw [List.flatMap_cons, List.map_append, List.nodup_append]
    refine ⟨?_, ih h'.2, ?_⟩
    · split
      · simp
      · exact nnVariants_keys info p
    · intro a haa b hb heq
      subst heq
      have key : ∀ (p : Prod T NT AK AV) q, q ∈ (if info.prodNullable p then [] else
          nnVariants info p) → q.actionKey.action = p.actionKey := by
        intro p q hq
        split at hq
        · simp at hq
        · obtain ⟨c, k, d, _, rfl⟩ := mem_nnVariants.1 hq; rfl
      obtain ⟨q, hq, rfl⟩ := List.mem_map.1 haa
      obtain ⟨q', hq', hqq⟩ := List.mem_map.1 hb
      obtain ⟨p', hp', hq'⟩ := List.mem_flatMap.1 hq'
      have h1 := key p q hq
      have h2 := key p' q' hq'
      apply h'.1
      rw [← h1, ← hqq, h2]
      exact List.mem_map.2 ⟨p', hp', rfl⟩
end Bongo
