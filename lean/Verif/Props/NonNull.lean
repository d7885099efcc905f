import Verif.Proof.NonNull
/-!
# C29–C32, C60: the non-null transform
-/
set_option linter.unusedSectionVars false
namespace Bongo
open Std
variable {T NT AK AV : Type} [Ord NT] [TransOrd NT] [LawfulEqOrd NT]

/-- C29.  Every string the result derives from a nonterminal is a nonempty string the original
derives from it. -/
theorem nonnull_sound (g : Grammar T NT AK AV) (hg : g.Accepted) (addr : NT → Nat → Nat)
    (ha : AddrInj g addr) (fuel : Nat) (g' : NonNullGrammar T NT AK AV)
    (h : transformToNonnull fuel addr g = .ok (.ok g')) (A : NT) (w : List T)
    (hw : g'.cfg.Generates A w) : w ≠ [] ∧ g.cfg.Generates A w := by
  have hwf := hg.valid.toWF
  obtain ⟨info, hn, rfl, -⟩ := transform_ok hwf h
  obtain ⟨h1, h2⟩ := (nn_generates hwf ha hn).1 hw
  refine ⟨h1, ?_⟩
  rw [← Cfg.yields_nonterm_iff] at h2 ⊢
  exact cut_yields_sub h2

/-- C29, for the language of the grammar. -/
theorem nonnull_sound_language (g : Grammar T NT AK AV) (hg : g.Accepted) (addr : NT → Nat → Nat)
    (ha : AddrInj g addr) (fuel : Nat) (g' : NonNullGrammar T NT AK AV)
    (h : transformToNonnull fuel addr g = .ok (.ok g')) (w : List T)
    (hw : g'.cfg.InLanguage w) : w ≠ [] ∧ g.cfg.InLanguage w := by
  have hs : g'.cfg.start = g.cfg.start := by
    obtain ⟨info, hn, rfl, -⟩ := transform_ok hg.valid.toWF h; rfl
  unfold Cfg.InLanguage at hw ⊢
  rw [hs] at hw
  exact nonnull_sound g hg addr ha fuel g' h _ w hw

/-- C30.  In a successful result no production is empty and no nonterminal derives the empty
string. -/
theorem nonnull_no_nullable (g : Grammar T NT AK AV) (hg : g.Accepted) (addr : NT → Nat → Nat)
    (ha : AddrInj g addr) (fuel : Nat) (g' : NonNullGrammar T NT AK AV)
    (h : transformToNonnull fuel addr g = .ok (.ok g')) :
    (∀ p ∈ g'.prods, p.elements ≠ []) ∧ ∀ A, ¬ g'.cfg.Generates A [] := by
  have hwf := hg.valid.toWF
  obtain ⟨info, hn, rfl, hv⟩ := transform_ok hwf h
  refine ⟨?_, fun A hA => ((nn_generates hwf ha hn).1 hA).1 rfl⟩
  intro p hp
  exact nn_prod_nonempty hwf ha hn ((Grammar.cfg_prod_iff hv.toWF).2 ⟨p, hp, rfl, rfl⟩)

/-- Exactly which strings survive: those derivable when every production that can vanish is
replaced by an empty production. -/
theorem nonnull_language_exact (g : Grammar T NT AK AV) (hg : g.Accepted) (addr : NT → Nat → Nat)
    (ha : AddrInj g addr) (fuel : Nat) (g' : NonNullGrammar T NT AK AV)
    (h : transformToNonnull fuel addr g = .ok (.ok g')) (A : NT) (w : List T) :
    g'.cfg.Generates A w ↔ w ≠ [] ∧ g.cutNull.Generates A w := by
  obtain ⟨info, hn, rfl, -⟩ := transform_ok hg.valid.toWF h
  exact nn_generates hg.valid.toWF ha hn

/-- C31, what holds: nothing nonempty is lost when the only productions that derive the empty
string are empty ones.  (The full statement drops the hypothesis `he`; it is false, see
`nonnull_loses_string`.) -/
theorem nonnull_complete_partial (g : Grammar T NT AK AV) (hg : g.Accepted) (addr : NT → Nat → Nat)
    (ha : AddrInj g addr) (fuel : Nat) (g' : NonNullGrammar T NT AK AV)
    (h : transformToNonnull fuel addr g = .ok (.ok g'))
    (he : ∀ p ∈ g.prods, g.cfg.Derives p.elements [] → p.elements = [])
    (A : NT) (w : List T) (hw : w ≠ []) (hA : g.cfg.Generates A w) : g'.cfg.Generates A w := by
  rw [nonnull_language_exact g hg addr ha fuel g' h]
  refine ⟨hw, ?_⟩
  rw [← Cfg.yields_nonterm_iff] at hA ⊢
  generalize [Elem.nonterm A] = s at hA
  clear hw
  induction hA with
  | nil => exact .nil
  | term t _ ih => exact .term t ih
  | @nonterm B β s w₁ w₂ hp h1 _ ih1 ih2 =>
    refine .nonterm ?_ ih1 ih2
    by_cases hd : g.cfg.Derives β []
    · right
      obtain ⟨p, hp', rfl, rfl⟩ := (Grammar.cfg_prod_iff hg.valid.toWF).1 hp
      have := he p hp' hd
      refine ⟨this, Cfg.generates_iff.2 ⟨_, hp, ?_⟩⟩
      rw [this]; exact .nil
    · exact Or.inl ⟨hp, hd⟩

/-- `S → A b;  A → C | x;  C → ε | c` with `S, A, C = 0, 1, 2` and `b, c, x = 11, 12, 13`. -/
def lossExample : Grammar Nat Nat Nat Unit :=
  { startSymbol := 0
    ruleSet := [(0, ⟨0, [⟨1, (), [⟨none, .nonterm 1⟩, ⟨none, .term 11⟩]⟩]⟩),
      (1, ⟨1, [⟨2, (), [⟨none, .nonterm 2⟩]⟩, ⟨3, (), [⟨none, .term 13⟩]⟩]⟩),
      (2, ⟨2, [⟨4, (), []⟩, ⟨5, (), [⟨none, .term 12⟩]⟩]⟩)] }

theorem lossExample_accepted : lossExample.Accepted :=
  ⟨9, 0, [⟨0, [.addProd 1 () [.addNonterm 1, .addTerm 11]]⟩,
    ⟨1, [.addProd 2 () [.addNonterm 2], .addProd 3 () [.addTerm 13]]⟩,
    ⟨2, [.addProd 4 () [], .addProd 5 () [.addTerm 12]]⟩], by decide⟩

/-- C31 is false: the transform accepts this grammar and loses the string `c b`, because it drops
every production that can vanish (`A → C`) instead of only its empty variant. -/
theorem nonnull_loses_string : lossExample.Accepted ∧
    ∃ g', transformToNonnull 9 exampleAddr lossExample = .ok (.ok g') ∧
      lossExample.cfg.InLanguage [12, 11] ∧ ¬ g'.cfg.InLanguage [12, 11] := by
  refine ⟨lossExample_accepted, nnGrammar ⟨[(1, .mk ⟨1, 2⟩ []), (2, .mk ⟨2, 4⟩ [])]⟩ lossExample,
    rfl, ?_, ?_⟩
  · rw [Cfg.InLanguage, Cfg.generates_iff]
    refine ⟨[.nonterm 1, .term 11], ⟨_, _, List.Mem.head _, List.Mem.head _, rfl⟩, ?_⟩
    refine .nonterm (w₁ := [12]) (β := [.nonterm 2])
      ⟨_, _, List.Mem.tail _ (List.Mem.head _), List.Mem.head _, rfl⟩ ?_ (.term _ .nil)
    exact .nonterm (w₁ := [12]) (β := [.term 12])
      ⟨_, _, List.Mem.tail _ (List.Mem.tail _ (List.Mem.head _)),
        List.Mem.tail _ (List.Mem.head _), rfl⟩ (.term _ .nil) .nil
  · intro hw
    obtain ⟨β, ⟨r, p, h1, h2, rfl⟩, h3⟩ := Cfg.generates_iff.1 hw
    have hr : r = ⟨0, [⟨⟨1, [false]⟩, ⟨(), []⟩, [⟨none, .nonterm 1⟩, ⟨none, .term 11⟩]⟩,
        ⟨⟨1, [true]⟩, ⟨(), []⟩, [⟨none, .term 11⟩]⟩]⟩ := by
      rcases List.mem_cons.1 h1 with h1 | h1
      · cases h1; rfl
      · rcases List.mem_cons.1 h1 with h1 | h1
        · cases h1
        · rcases List.mem_cons.1 h1 with h1 | h1 <;> cases h1
    subst hr
    rcases List.mem_cons.1 h2 with rfl | h2
    · simp only [List.map_cons, List.map_nil] at h3
      rw [Cfg.yields_cons_nonterm_iff] at h3
      obtain ⟨u, v, h4, h5, h6⟩ := h3
      rw [Cfg.yields_cons_term_iff] at h6
      obtain ⟨v', rfl, h7⟩ := h6
      rw [Cfg.yields_nil_iff] at h7
      subst h7
      have hu : u = [12] := by
        have : [12, 11] = [12] ++ [11] := rfl
        rw [this] at h4
        exact (List.append_inj' h4 rfl).1.symm
      subst hu
      obtain ⟨β, ⟨r, p, h1, h2, rfl⟩, h3⟩ := Cfg.generates_iff.1 h5
      have hr : r = ⟨1, [⟨⟨3, []⟩, ⟨(), []⟩, [⟨none, .term 13⟩]⟩]⟩ := by
        rcases List.mem_cons.1 h1 with h1 | h1
        · cases h1
        · rcases List.mem_cons.1 h1 with h1 | h1
          · cases h1; rfl
          · rcases List.mem_cons.1 h1 with h1 | h1 <;> cases h1
      subst hr
      rw [List.mem_singleton] at h2
      subst h2
      simp only [List.map_cons, List.map_nil] at h3
      rw [Cfg.yields_cons_term_iff] at h3
      obtain ⟨w', h3, -⟩ := h3
      cases h3
    · rw [List.mem_singleton] at h2
      subst h2
      simp only [List.map_cons, List.map_nil] at h3
      rw [Cfg.yields_cons_term_iff] at h3
      obtain ⟨w', h3, -⟩ := h3
      cases h3

/-- C32.  The rules of a successful result, in full.  The productions of a rule are, in order, the
variants of its productions: none for a production that derives the empty string; otherwise, for a
production with `k` nullable nonterminal occurrences, `2 ^ k` variants with distinct keys, one for
each choice of null or non-null for those occurrences.  A variant keeps the elements chosen
non-null with their names and order; its key is the original key and the choice vector; its value
is the original value and, for each name, the null tree of the last element of that name chosen
null. -/
theorem nonnull_prods_exact (g : Grammar T NT AK AV) (hg : g.Accepted) (addr : NT → Nat → Nat)
    (ha : AddrInj g addr) (fuel : Nat) (g' : NonNullGrammar T NT AK AV)
    (h : transformToNonnull fuel addr g = .ok (.ok g')) :
    g'.startSymbol = g.startSymbol ∧
    ∃ info, calculateNullables fuel addr g = .ok (.ok info) ∧
    ∃ variants : Prod T NT AK AV → List (ProdInner T NT (NNActionKey AK) (NNActionValue NT AK AV)),
      (∀ A r', g'.tryGetRule A = some r' ↔
        ∃ r, g.tryGetRule A = some r ∧ r' = ⟨A, r.prodRefs.flatMap variants⟩) ∧
      (∀ p, g.cfg.Derives p.elements [] → variants p = []) ∧
      (∀ p, ¬ g.cfg.Derives p.elements [] →
        ((variants p).map (·.actionKey)).Nodup ∧
        (variants p).length = 2 ^ (p.elements.countP fun e =>
          match e with
          | .nonterm A => info.isNullable A
          | .term _ => false) ∧
        ∀ q, q ∈ variants p ↔ ∃ c kept dropped,
          Choice (fun A => g.cfg.Generates A []) p.prodElements c kept dropped ∧
          q.actionKey = ⟨p.actionKey, c⟩ ∧ q.elements = kept ∧
          q.actionValue.parentValue = p.actionValue ∧
          BMap.Sorted compare q.actionValue.nullableArguments ∧
          ∀ n u, BMap.get? compare q.actionValue.nullableArguments n = some u ↔
            ∃ pre B post, dropped = pre ++ ⟨some n, .nonterm B⟩ :: post ∧
              (∀ e ∈ post, e.identifier ≠ some n) ∧ info.getNullableAction B = some u) := by
  have hwf := hg.valid.toWF
  obtain ⟨info, hn, rfl, -⟩ := transform_ok hwf h
  have hcg : (fun A => info.getNullableAction A ≠ none) = fun A => g.cfg.Generates A [] := by
    funext A
    exact propext (getNullableAction_iff hwf ha hn A)
  refine ⟨rfl, info, hn, fun p => if info.prodNullable p then [] else nnVariants info p,
    nn_tryGetRule hwf, ?_, ?_⟩
  · intro p hp
    simp [(prodNullable_iff hwf ha hn p).2 hp]
  · intro p hp
    have hp' : info.prodNullable p = false := by
      rw [Bool.eq_false_iff]
      exact fun hc => hp ((prodNullable_iff hwf ha hn p).1 hc)
    simp only [hp', Bool.false_eq_true, if_false]
    refine ⟨nnVariants_keys info p, ?_, ?_⟩
    · rw [nnVariants_length]
      congr 1
      unfold nullCount Prod.elements ProdInner.elems Prod.prodElements
      rw [List.countP_map]
      rfl
    · intro q
      rw [mem_nnVariants]
      constructor
      · rintro ⟨c, k, d, hc, rfl⟩
        refine ⟨c, k, d, by rw [← hcg]; exact hc, rfl, rfl, rfl,
          argsOf_sorted info d [] BMap.sorted_nil, ?_⟩
        exact fun n u => argsOf_get (fun e he => hc.dropped e he) n u
      · rintro ⟨c, k, d, hc, h1, h2, h3, h4, h5⟩
        rw [← hcg] at hc
        refine ⟨c, k, d, hc, ?_⟩
        obtain ⟨qk, ⟨qv, qa⟩, qe⟩ := q
        simp only at h1 h2 h3 h4 h5
        subst h1; subst h2; subst h3
        congr 2
        apply BMap.ext h4 (argsOf_sorted info d [] BMap.sorted_nil)
        intro n
        ext u
        rw [h5, argsOf_get (fun e he => hc.dropped e he)]

/-- C32.  Unique action keys stay unique. -/
theorem nonnull_keys_unique (g : Grammar T NT AK AV) (hg : g.Accepted) (addr : NT → Nat → Nat)
    (fuel : Nat) (g' : NonNullGrammar T NT AK AV)
    (h : transformToNonnull fuel addr g = .ok (.ok g'))
    (hk : ∀ r ∈ g.rules, (r.prods.map (·.actionKey)).Nodup) :
    ∀ r ∈ g'.rules, (r.prods.map (·.actionKey)).Nodup := by
  obtain ⟨info, hn, rfl, -⟩ := transform_ok hg.valid.toWF h
  intro r hr
  unfold Grammar.rules BMap.values nnGrammar at hr
  simp only [List.map_map, List.mem_map] at hr
  obtain ⟨kr, hkr, rfl⟩ := hr
  exact nnProds_keys (hk kr.2 (List.mem_map.2 ⟨kr, hkr, rfl⟩))

/-- C60.  `transform_to_nonnull` always returns.  It fails with the nullable error exactly when
the nullable pass does; otherwise it succeeds exactly when every rule has a production that does
not derive the empty string, and every nonterminal in such a production is reachable from the
start through such productions. -/
theorem nonnull_outcome (g : Grammar T NT AK AV) (hg : g.Accepted) (addr : NT → Nat → Nat)
    (ha : AddrInj g addr) :
    let Kept := fun A B => ∃ p ∈ g.prods, p.head = A ∧ ¬ g.cfg.Derives p.elements [] ∧
      Elem.nonterm B ∈ p.elements
    let Good := (∀ r ∈ g.rules, ∃ p ∈ r.prodRefs, ¬ g.cfg.Derives p.elements []) ∧
      ∀ A B, Kept A B → Relation.TransGen Kept g.startSymbol B
    ∃ N, ∀ fuel, N ≤ fuel →
      (∀ e, calculateNullables fuel addr g = .ok (.error e) →
        transformToNonnull fuel addr g = .ok (.error (.nullable e))) ∧
      (∀ info, calculateNullables fuel addr g = .ok (.ok info) →
        (Good → ∃ g', transformToNonnull fuel addr g = .ok (.ok g')) ∧
        (¬ Good → transformToNonnull fuel addr g = .ok (.error .build))) ∧
      ∃ r, calculateNullables fuel addr g = .ok r := by
  intro Kept Good
  have hv := hg.valid
  have hwf := hv.toWF
  obtain ⟨r0, hr0⟩ := nullable_terminates g hg addr ha (g.prods.length + 1) (by omega)
  cases r0 with
  | error e =>
    refine ⟨g.prods.length + 1, fun fuel hf => ?_⟩
    have hc := calculateNullables_mono hf hr0
    refine ⟨fun e' he' => ?_, fun info hi => ?_, _, hc⟩
    · unfold transformToNonnull; rw [he']
    · rw [hc] at hi; cases hi
  | ok info =>
    have hment : ∀ A B, (nnGrammar info g).cfg.Mentions A B ↔ Kept A B := by
      intro A B
      constructor
      · rintro ⟨β, hp, hB⟩
        obtain ⟨p, hp', rfl, hnd, c, k, d, hc, rfl⟩ := (nn_cfg_prod hwf ha hr0).1 hp
        exact ⟨p, hp', rfl, hnd, (hc.kept_sublist.map (·.element)).subset hB⟩
      · rintro ⟨p, hp, rfl, hnd, hB⟩
        have hall : ∀ es : List (ProdElement T NT),
            ∃ c, Choice (fun A => g.cfg.Generates A []) es c es [] := by
          intro es
          induction es with
          | nil => exact ⟨[], .nil⟩
          | cons e es ih =>
            obtain ⟨c, hc⟩ := ih
            obtain ⟨id, el⟩ := e
            cases el with
            | term t => exact ⟨c, .term id t hc⟩
            | nonterm A => exact ⟨_, .nonNull id A hc⟩
        obtain ⟨c, hc⟩ := hall p.prodElements
        exact ⟨p.elements, (nn_cfg_prod hwf ha hr0).2 ⟨p, hp, rfl, hnd, c, _, _, hc, rfl⟩, hB⟩
    have hmeq : (nnGrammar info g).cfg.Mentions = Kept := by
      funext A B; exact propext (hment A B)
    have hrule : ∀ A, (∃ r, g.tryGetRule A = some r) →
        ∃ r, (nnGrammar info g).tryGetRule A = some r := by
      rintro A ⟨r, hr⟩
      exact ⟨_, (nn_tryGetRule hwf A _).2 ⟨r, hr, rfl⟩⟩
    have hclosed : ∀ A B, (nnGrammar info g).cfg.Mentions A B →
        ∃ r, (nnGrammar info g).tryGetRule B = some r := by
      intro A B hm
      obtain ⟨p, hp, -, -, hB⟩ := (hment A B).1 hm
      exact hrule B (hv.closed p.head B ⟨_, (Grammar.cfg_prod_iff hwf).2 ⟨p, hp, rfl, rfl⟩, hB⟩)
    have hgood : Good ↔ (nnGrammar info g).Valid := by
      have hne : ∀ r ∈ g.rules, nnProds info r ≠ [] ↔
          ∃ p ∈ r.prodRefs, ¬ g.cfg.Derives p.elements [] := by
        intro r _
        constructor
        · intro h
          by_contra hcon
          apply h
          unfold nnProds
          rw [List.flatMap_eq_nil_iff]
          intro p hp
          have : g.cfg.Derives p.elements [] := by
            by_contra h'
            exact hcon ⟨p, hp, h'⟩
          rw [if_pos ((prodNullable_iff hwf ha hr0 p).2 this)]
        · rintro ⟨p, hp, hnd⟩ hnil
          unfold nnProds at hnil
          rw [List.flatMap_eq_nil_iff] at hnil
          have h1 := hnil p hp
          rw [if_neg (fun hc => hnd ((prodNullable_iff hwf ha hr0 p).1 hc))] at h1
          have h2 := nnVariants_length info p
          rw [h1] at h2
          have := Nat.pow_pos (n := nullCount info p.prodElements) (show 0 < 2 by omega)
          simp only [List.length_nil] at h2; omega
      have hmem : ∀ r, r ∈ g.rules ↔ ∃ A, g.tryGetRule A = some r := by
        intro r
        unfold Grammar.rules BMap.values
        simp only [List.mem_map, Prod.exists, exists_eq_right, Grammar.tryGetRule_iff hwf]
      constructor
      · rintro ⟨g1, g2⟩
        refine { toWF := nnGrammar_wf hwf, startRule := hrule _ hv.startRule, closed := hclosed,
                 reach := ?_, nonempty := ?_ }
        · intro A B hm
          rw [hmeq]; exact g2 A B ((hment A B).1 hm)
        · intro A r' hr'
          obtain ⟨r, hr, rfl⟩ := (nn_tryGetRule hwf A r').1 hr'
          have := (hmem r).2 ⟨A, hr⟩
          exact (hne r this).2 (g1 r this)
      · intro hV
        refine ⟨?_, ?_⟩
        · intro r hr
          obtain ⟨A, hA⟩ := (hmem r).1 hr
          exact (hne r hr).1 (hV.nonempty A _ ((nn_tryGetRule hwf A _).2 ⟨r, hA, rfl⟩))
        · intro A B hk
          have := hV.reach A B ((hment A B).2 hk)
          rwa [hmeq] at this
    have hof := ofRules_nn (info := info) hwf
    obtain ⟨N1, hN1⟩ := Grammar.new_closed (start := g.startSymbol)
      (rules := g.ruleSet.map fun kr => (⟨kr.1, nnProds info kr.2⟩ :
        RuleInner T NT (NNActionKey AK) (NNActionValue NT AK AV)))
      (by rw [hof]; exact hrule _ hv.startRule) (by rw [hof]; exact hclosed)
    have hN2 : ∃ N2, ∀ fuel, N2 ≤ fuel → Good → Grammar.new fuel g.startSymbol
        (g.ruleSet.map fun kr => (⟨kr.1, nnProds info kr.2⟩ :
          RuleInner T NT (NNActionKey AK) (NNActionValue NT AK AV))) =
        .ok (.ok (nnGrammar info g)) := by
      by_cases hG : Good
      · obtain ⟨N2, h2⟩ := Grammar.new_of_valid (start := g.startSymbol)
          (rules := g.ruleSet.map fun kr => (⟨kr.1, nnProds info kr.2⟩ :
            RuleInner T NT (NNActionKey AK) (NNActionValue NT AK AV)))
          (by rw [hof]; exact hgood.1 hG)
        rw [hof] at h2
        exact ⟨N2, fun fuel hf _ => h2 fuel hf⟩
      · exact ⟨0, fun _ _ h => absurd h hG⟩
    obtain ⟨N2, hN2⟩ := hN2
    refine ⟨max (g.prods.length + 1) (max N1 N2), fun fuel hf => ?_⟩
    have hc := calculateNullables_mono (show g.prods.length + 1 ≤ fuel by omega) hr0
    refine ⟨fun e he => (by rw [hc] at he; cases he), fun info' hi => ?_, _, hc⟩
    rw [hc] at hi
    cases hi
    unfold transformToNonnull
    rw [hc]
    simp only
    rw [grammar_builder_records, nonnullCalls_declares]
    refine ⟨fun hG => ⟨nnGrammar info g, by rw [hN2 fuel (by omega) hG]⟩, fun hG => ?_⟩
    obtain ⟨x, hx⟩ := hN1 fuel (by omega)
    rw [hx]
    cases x with
    | error e => rfl
    | ok g'' =>
      obtain ⟨h1, h2⟩ := Grammar.valid_of_new hx
      rw [hof] at h2
      subst h2
      exact absurd (hgood.2 h1) hG

/-! ## Witnesses -/
/-- `S → A A b | A;  A → ε | a A` -- `S` has productions with two and one nullable occurrences. -/
def nonnullExample : Grammar Nat Nat Nat Unit :=
  { startSymbol := 0
    ruleSet := [(0, ⟨0, [⟨1, (), [⟨some "x", .nonterm 1⟩, ⟨some "y", .nonterm 1⟩, ⟨none, .term 11⟩]⟩]⟩),
      (1, ⟨1, [⟨3, (), []⟩, ⟨4, (), [⟨none, .term 12⟩, ⟨some "z", .nonterm 1⟩]⟩]⟩)] }

theorem nonnullExample_accepted : nonnullExample.Accepted :=
  ⟨9, 0, [⟨0, [.addProd 1 () [.addNamedNonterm "x" 1, .addNamedNonterm "y" 1, .addTerm 11]]⟩,
    ⟨1, [.addProd 3 () [], .addProd 4 () [.addTerm 12, .addNamedNonterm "z" 1]]⟩], by decide⟩

/-- The hypotheses of C29–C32 are met: the transform succeeds and makes four and two productions. -/
example : ∃ g', transformToNonnull 9 exampleAddr nonnullExample = .ok (.ok g') ∧
    g'.prods.map (fun p => (p.head, p.actionKey.ntNullableStates, p.elements)) =
      [(0, [false, false], [.nonterm 1, .nonterm 1, .term 11]),
       (0, [true, false], [.nonterm 1, .term 11]),
       (0, [false, true], [.nonterm 1, .term 11]),
       (0, [true, true], [.term 11]),
       (1, [false], [.term 12, .nonterm 1]),
       (1, [true], [.term 12])] ∧
    g'.prods.map (fun p => p.actionValue.nullableArguments.map (·.1)) =
      [[], ["x"], ["y"], ["x", "y"], [], ["z"]] :=
  ⟨_, rfl, rfl, rfl⟩

/-- The documentation's example (nonnull.rs:29-46: `q := p p; p := A | ε`) is rejected: its only
production of `q` can vanish, so it is dropped and `q` has no production left. -/
def nonnullDocExample : Grammar Nat Nat Nat Unit :=
  { startSymbol := 0
    ruleSet := [(0, ⟨0, [⟨1, (), [⟨none, .nonterm 1⟩, ⟨none, .nonterm 1⟩]⟩]⟩),
      (1, ⟨1, [⟨2, (), [⟨none, .term 11⟩]⟩, ⟨3, (), []⟩]⟩)] }
theorem nonnull_doc_example_rejected : nonnullDocExample.Accepted ∧
    transformToNonnull 9 exampleAddr nonnullDocExample = .ok (.error .build) :=
  ⟨⟨9, 0, [⟨0, [.addProd 1 () [.addNonterm 1, .addNonterm 1]]⟩,
    ⟨1, [.addProd 2 () [.addTerm 11], .addProd 3 () []]⟩], by decide⟩, rfl⟩
end Bongo
