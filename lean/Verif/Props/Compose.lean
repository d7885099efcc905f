import Verif.Spec.Compose
import Verif.Props.NonNullTree
import Verif.Props.StartTree
/-!
# C114: transforming again, and transforming wrapped grammars
-/
set_option linter.unusedSectionVars false
namespace Bongo
open Std
variable {T NT AK AV : Type} [Ord NT] [TransOrd NT] [LawfulEqOrd NT]

/-! ## Nothing to transform -/

theorem nonnullStep_none {info : GrammarNullableInfo NT AK}
    (h : ∀ A, info.getNullableAction A = none) (es : List (ProdElement T NT)) :
    ∀ s : ProdBuildState T NT AK, es.foldl (nonnullStep info) [s] =
      [⟨s.elems ++ es, s.ntNullableStates ++ (es.filterMap (·.element.asNonterm)).map fun _ => false,
        s.actionArgs⟩] := by
  induction es with
  | nil => intro s; simp
  | cons e es ih =>
    intro s
    obtain ⟨id, el⟩ := e
    cases el with
    | term t =>
      have : nonnullStep info [s] ⟨id, .term t⟩ = [s.keepTerm ⟨id, .term t⟩] := rfl
      rw [List.foldl_cons, this, ih]
      simp [ProdBuildState.keepTerm, Elem.asNonterm]
    | nonterm A =>
      have : nonnullStep info [s] ⟨id, .nonterm A⟩ = [s.keepNt ⟨id, .nonterm A⟩] := by
        simp [nonnullStep, h]
      rw [List.foldl_cons, this, ih]
      simp [ProdBuildState.keepNt, Elem.asNonterm]

theorem nnGrammar_tagged {fuel : Nat} {addr : NT → Nat → Nat} {g : Grammar T NT AK AV} (hw : g.WF)
    (ha : AddrInj g addr) {info} (hn : calculateNullables fuel addr g = .ok (.ok info))
    (hnn : ∀ A, ¬ g.cfg.Generates A []) :
    nnGrammar info g = g.tagged := by
  have hnone : ∀ A, info.getNullableAction A = none := fun A => by
    by_contra hc; exact hnn A ((getNullableAction_iff hw ha hn A).1 hc)
  unfold nnGrammar Grammar.tagged
  congr 1
  apply List.map_congr_left
  rintro ⟨A, r⟩ hm
  have hh : r.head = A := hw.heads A r hm
  have hr : r ∈ g.rules := List.mem_map.2 ⟨(A, r), hm, rfl⟩
  simp only [_root_.Prod.mk.injEq, true_and, RuleInner.mk.injEq, hh]
  unfold nnProds
  have : ∀ p ∈ r.prodRefs, (if info.prodNullable p then [] else nnVariants info p) = [p.inner.tagged] := by
    intro p hp
    have hp' : p ∈ g.prods := List.mem_flatMap.2 ⟨r, hr, hp⟩
    have hnp : ¬ info.prodNullable p = true := by
      rw [prodNullable_iff hw ha hn]
      intro hd
      refine hnn p.head (Cfg.generates_iff.2 ⟨p.elements, ?_, Cfg.yields_iff.2 (by simpa using hd)⟩)
      exact (Grammar.cfg_prod_iff hw).2 ⟨p, hp', rfl, rfl⟩
    rw [if_neg hnp]
    unfold nnVariants
    rw [nonnullStep_none hnone]
    simp [ProdInner.tagged, Prod.prodElements, Prod.actionKey, Prod.actionValue]
  rw [List.flatMap_congr this]
  rw [show (fun x : Prod T NT AK AV => [x.inner.tagged]) = pure ∘ (fun x => x.inner.tagged) from rfl,
    List.flatMap_pure_eq_map, RuleInner.prodRefs, List.map_map]
  conv_rhs => rw [← List.zipIdx_map_fst 0 r.prods, List.map_map]
  rfl

/-- C114: where no nonterminal derives the empty word, the transform succeeds and changes nothing but
the keys and values, which say that nothing was left out. -/
theorem nonnull_nothing_null (g : Grammar T NT AK AV) (hg : g.Accepted) (addr : NT → Nat → Nat)
    (ha : AddrInj g addr) (hnn : ∀ A, ¬ g.cfg.Generates A []) :
    ∃ N, ∀ fuel, N ≤ fuel → transformToNonnull fuel addr g = .ok (.ok g.tagged) := by
  have hv := hg.valid
  have hw := hv.toWF
  have hnd : ∀ p ∈ g.prods, ¬ g.cfg.Derives p.elements [] := by
    intro p hp hd
    refine hnn p.head (Cfg.generates_iff.2 ⟨p.elements, ?_, Cfg.yields_iff.2 (by simpa using hd)⟩)
    exact (Grammar.cfg_prod_iff hw).2 ⟨p, hp, rfl, rfl⟩
  obtain ⟨N, hN⟩ := nonnull_outcome g hg addr ha
  refine ⟨N, fun fuel hf => ?_⟩
  obtain ⟨-, h2, r, hr⟩ := hN fuel hf
  have hu : NullUnique g := by
    intro A p q h _
    exact absurd ((Cfg.yields_iff (w := [])).1 h.2.2) (hnd p h.1)
  rcases calculateNullables_ok hw ha hr with ⟨-, info, rfl, -⟩ | ⟨h, -⟩
  · suffices hgood : _ by
      obtain ⟨g', hg'⟩ := (h2 info hr).1 hgood
      obtain ⟨info', hi, rfl, -⟩ := transform_ok hw hg'
      rw [hg', nnGrammar_tagged hw ha hi hnn]
    refine ⟨?_, ?_⟩
    · intro r hr
      obtain ⟨⟨A, r'⟩, hm, rfl⟩ := List.mem_map.1 hr
      have hne := hv.nonempty A r' ((Grammar.tryGetRule_iff hw).2 hm)
      obtain ⟨p, hp⟩ : ∃ p, p ∈ r'.prodRefs := by
        apply List.exists_mem_of_ne_nil
        simpa [RuleInner.prodRefs] using hne
      exact ⟨p, hp, hnd p (List.mem_flatMap.2 ⟨r', hr, hp⟩)⟩
    · have hk : (fun A B => ∃ p ∈ g.prods, p.head = A ∧ ¬ g.cfg.Derives p.elements [] ∧
          Elem.nonterm B ∈ p.elements) = g.cfg.Mentions := by
        funext A B
        apply propext
        constructor
        · rintro ⟨p, hp, rfl, -, hB⟩
          exact ⟨_, (Grammar.cfg_prod_iff hw).2 ⟨p, hp, rfl, rfl⟩, hB⟩
        · rintro ⟨β, hβ, hB⟩
          obtain ⟨p, hp, rfl, rfl⟩ := (Grammar.cfg_prod_iff hw).1 hβ
          exact ⟨p, hp, rfl, hnd p hp, hB⟩
      rw [hk]
      exact hv.reach
  · exact absurd hu h

/-- C114: so transforming a second time only marks the keys once more. -/
theorem nonnull_twice (g : Grammar T NT AK AV) (hg : g.Accepted) (addr : NT → Nat → Nat)
    (ha : AddrInj g addr) (fuel : Nat) (g' : NonNullGrammar T NT AK AV)
    (h : transformToNonnull fuel addr g = .ok (.ok g')) (addr' : NT → Nat → Nat)
    (ha' : AddrInj g' addr') :
    ∃ N, ∀ fuel, N ≤ fuel → transformToNonnull fuel addr' g' = .ok (.ok g'.tagged) :=
  nonnull_nothing_null g' (nonnull_accepted g addr fuel g' h) addr' ha'
    (nonnull_no_nullable g hg addr ha fuel g' h).2

/-- A tagged grammar has the same productions, and so the same language. -/
theorem tagged_cfg (g : Grammar T NT AK AV) : g.tagged.cfg = g.cfg := by
  unfold Grammar.cfg Grammar.tagged
  simp only [Cfg.mk.injEq, true_and]
  funext A β
  apply propext
  simp only [List.mem_map, _root_.Prod.mk.injEq]
  constructor
  · rintro ⟨_, _, ⟨⟨k, r⟩, hm, rfl, rfl⟩, hp, rfl⟩
    obtain ⟨p, hp', rfl⟩ := List.mem_map.1 hp
    exact ⟨r, p, hm, hp', rfl⟩
  · rintro ⟨r, p, hm, hp, rfl⟩
    exact ⟨_, p.tagged, ⟨(A, r), hm, rfl, rfl⟩, List.mem_map.2 ⟨p, hp, rfl⟩, rfl⟩

/-! ## Wrapped grammars -/

section wrapped
variable {g : Grammar T NT AK AV}

theorem lifted_derives_nil (p : Prod T NT AK AV) :
    g.wrapped.cfg.Derives p.lifted.elements [] ↔ g.cfg.Derives p.elements [] := by
  rw [show g.wrapped.cfg.Derives p.lifted.elements [] ↔ g.wrapped.cfg.Yields p.lifted.elements [] from
    (Cfg.yields_iff (w := [])).symm, show g.cfg.Derives p.elements [] ↔ g.cfg.Yields p.elements [] from
    (Cfg.yields_iff (w := [])).symm, Prod.lifted_elements]
  constructor
  · intro h
    obtain ⟨w, hw, h'⟩ := of_wrapped_yields h _ rfl
    obtain rfl := List.map_eq_nil_iff.1 hw.symm
    exact h'
  · exact fun h => wrapped_yields h

theorem start_derives_nil : ¬ g.wrapped.cfg.Derives
    (⟨.start, 0, startProduction g.startSymbol⟩ : WProd T NT AK AV).elements [] := by
  rw [show g.wrapped.cfg.Derives _ [] ↔ g.wrapped.cfg.Yields
    (⟨.start, 0, startProduction g.startSymbol⟩ : WProd T NT AK AV).elements [] from
    (Cfg.yields_iff (w := [])).symm, Cfg.yields_nil_word_iff]
  intro h
  obtain ⟨B, h1, -⟩ := h (.term .endOfStream) (by simp [Prod.elements, startProduction, ProdInner.elems])
  cases h1

theorem wrapped_nullUnique (hw : g.WF) : NullUnique g.wrapped ↔ NullUnique g := by
  have hd : ∀ p : Prod T NT AK AV, g.wrapped.cfg.Yields p.lifted.elements [] ↔ g.cfg.Yields p.elements [] :=
    fun p => by
      have := lifted_derives_nil (g := g) p
      rwa [show g.wrapped.cfg.Derives p.lifted.elements [] ↔ g.wrapped.cfg.Yields p.lifted.elements [] from
        (Cfg.yields_iff (w := [])).symm, show g.cfg.Derives p.elements [] ↔ g.cfg.Yields p.elements [] from
        (Cfg.yields_iff (w := [])).symm] at this
  have hl : ∀ A (p : Prod T NT AK AV), NullProd g A p → NullProd g.wrapped (.nterm A) p.lifted :=
    fun A p ⟨h1, h2, h3⟩ => ⟨(mem_prods_wrapped hw).2 (.inr ⟨p, h1, rfl⟩), by rw [← h2]; rfl, (hd p).2 h3⟩
  constructor
  · intro h A p q hp hq
    exact Prod.lifted_inj (h _ _ _ (hl A p hp) (hl A q hq))
  · rintro h A p q ⟨p1, p2, p3⟩ ⟨q1, q2, q3⟩
    have hs : ¬ g.wrapped.cfg.Yields
        (⟨.start, 0, startProduction g.startSymbol⟩ : WProd T NT AK AV).elements [] := fun hy =>
      start_derives_nil ((Cfg.yields_iff (w := [])).1 hy)
    rcases (mem_prods_wrapped hw).1 p1 with rfl | ⟨p, hp, rfl⟩
    · exact absurd p3 hs
    · rcases (mem_prods_wrapped hw).1 q1 with rfl | ⟨q, hq, rfl⟩
      · exact absurd q3 hs
      · subst p2
        have e : q.head = p.head := StartNonTerminal.nterm.inj q2
        rw [h p.head p q ⟨hp, rfl, (hd p).1 p3⟩ ⟨hq, e, (hd q).1 q3⟩]

/-- C114: wrapping and then transforming succeeds exactly if the `Nullable` pass does, every rule has a
production that does not derive the empty word, and every nonterminal in such a production is the start
symbol or reachable from it through such productions. -/
theorem nonnull_wrapped_outcome (g : Grammar T NT AK AV) (hg : g.Accepted) (addr : NT → Nat → Nat)
    (ha : AddrInj g addr) (saddr : StartNonTerminal NT → Nat → Nat) (hs : AddrInj g.wrapped saddr) :
    let Kept := fun A B => ∃ p ∈ g.prods, p.head = A ∧ ¬ g.cfg.Derives p.elements [] ∧
      Elem.nonterm B ∈ p.elements
    ∃ N, ∀ fuel, N ≤ fuel →
      ((∃ g', transformToNonnull fuel saddr g.wrapped = .ok (.ok g')) ↔
        (∃ info, calculateNullables fuel addr g = .ok (.ok info)) ∧
        (∀ r ∈ g.rules, ∃ p ∈ r.prodRefs, ¬ g.cfg.Derives p.elements []) ∧
        ∀ A B, Kept A B → B = g.startSymbol ∨ Relation.TransGen Kept g.startSymbol B) := by
  intro Kept
  have hv := hg.valid
  have hw := hv.toWF
  have hwa := (wrap_exact g hg).2.2
  obtain ⟨N, hN⟩ := nonnull_outcome g.wrapped hwa saddr hs
  obtain ⟨M, hM⟩ := nonnull_outcome g hg addr ha
  refine ⟨max N M, fun fuel hf => ?_⟩
  obtain ⟨-, h2, r, hr⟩ := hN fuel (by omega)
  obtain ⟨-, -, r0, hr0⟩ := hM fuel (by omega)
  have hnull : (∃ info, calculateNullables fuel addr g = .ok (.ok info)) ↔
      ∃ info, calculateNullables fuel saddr g.wrapped = .ok (.ok info) := by
    rw [hr, hr0]
    rcases calculateNullables_ok hw ha hr0 with ⟨hu, info, rfl, -⟩ | ⟨hu, rfl⟩ <;>
      rcases calculateNullables_ok (Grammar.wrapped_wf hw) hs hr with ⟨hu', info', rfl, -⟩ | ⟨hu', rfl⟩
    · simp
    · exact absurd ((wrapped_nullUnique hw).2 hu) hu'
    · exact absurd ((wrapped_nullUnique hw).1 hu') hu
    · simp
  set Kept' : StartNonTerminal NT → StartNonTerminal NT → Prop := fun A B => ∃ p ∈ g.wrapped.prods,
    p.head = A ∧ ¬ g.wrapped.cfg.Derives p.elements [] ∧ Elem.nonterm B ∈ p.elements with hK'
  have k1 : ∀ B, Kept' .start B ↔ B = .nterm g.startSymbol := by
    intro B
    constructor
    · rintro ⟨p, hp, h1, -, h3⟩
      rcases (mem_prods_wrapped hw).1 hp with rfl | ⟨q, hq, rfl⟩
      · simpa [Prod.elements, startProduction, ProdInner.elems] using h3
      · cases h1
    · rintro rfl
      exact ⟨_, (mem_prods_wrapped hw).2 (.inl rfl), rfl, start_derives_nil,
        by simp [Prod.elements, startProduction, ProdInner.elems]⟩
  have k2 : ∀ A B, Kept' (.nterm A) B ↔ ∃ C, B = .nterm C ∧ Kept A C := by
    intro A B
    constructor
    · rintro ⟨p, hp, h1, h2, h3⟩
      rcases (mem_prods_wrapped hw).1 hp with rfl | ⟨q, hq, rfl⟩
      · cases h1
      · rw [Prod.lifted_elements] at h3
        obtain ⟨e, he, h4⟩ := List.mem_map.1 h3
        cases e with
        | term t => cases h4
        | nonterm C =>
          cases h4
          exact ⟨C, rfl, q, hq, StartNonTerminal.nterm.inj h1, mt (lifted_derives_nil q).2 h2, he⟩
    · rintro ⟨C, rfl, q, hq, rfl, h2, h3⟩
      refine ⟨q.lifted, (mem_prods_wrapped hw).2 (.inr ⟨q, hq, rfl⟩), rfl,
        mt (lifted_derives_nil q).1 h2, ?_⟩
      rw [Prod.lifted_elements]
      exact List.mem_map.2 ⟨_, h3, rfl⟩
  have k3 : ∀ A B, Relation.TransGen Kept' (.nterm A) (.nterm B) ↔ Relation.TransGen Kept A B := by
    intro A B
    constructor
    · intro h
      have : ∀ X, Relation.TransGen Kept' (.nterm A) X → ∃ C, X = .nterm C ∧ Relation.TransGen Kept A C := by
        intro X hX
        induction hX with
        | single h => obtain ⟨C, h1, h2⟩ := (k2 _ _).1 h; exact ⟨C, h1, .single h2⟩
        | tail _ h ih =>
          obtain ⟨C, rfl, h1⟩ := ih
          obtain ⟨D, h2, h3⟩ := (k2 _ _).1 h
          exact ⟨D, h2, h1.tail h3⟩
      obtain ⟨C, h1, h2⟩ := this _ h
      cases h1
      exact h2
    · exact fun h => Relation.TransGen.lift StartNonTerminal.nterm
        (fun a b hab => (k2 _ _).2 ⟨b, rfl, hab⟩) _ _ h
  have k4 : ∀ B, Relation.TransGen Kept' .start (.nterm B) ↔
      B = g.startSymbol ∨ Relation.TransGen Kept g.startSymbol B := by
    intro B
    rw [Relation.TransGen.head'_iff]
    constructor
    · rintro ⟨c, hc, h⟩
      rw [k1] at hc
      subst hc
      rcases Relation.reflTransGen_iff_eq_or_transGen.1 h with h | h
      · exact .inl (StartNonTerminal.nterm.inj h)
      · exact .inr ((k3 _ _).1 h)
    · rintro (rfl | h)
      · exact ⟨_, (k1 _).2 rfl, .refl⟩
      · exact ⟨_, (k1 _).2 rfl, ((k3 _ _).2 h).to_reflTransGen⟩
  have hgood : ((∀ r ∈ g.wrapped.rules, ∃ p ∈ r.prodRefs, ¬ g.wrapped.cfg.Derives p.elements []) ∧
      ∀ A B, Kept' A B → Relation.TransGen Kept' g.wrapped.startSymbol B) ↔
      (∀ r ∈ g.rules, ∃ p ∈ r.prodRefs, ¬ g.cfg.Derives p.elements []) ∧
        ∀ A B, Kept A B → B = g.startSymbol ∨ Relation.TransGen Kept g.startSymbol B := by
    refine and_congr ?_ ?_
    · have hrefs : ∀ r : RuleInner T NT AK AV, r.lifted.prodRefs = r.prodRefs.map Prod.lifted := by
        intro r
        simp only [RuleInner.prodRefs, RuleInner.lifted, List.zipIdx_map, List.map_map]
        rfl
      have hrules : g.wrapped.rules = ⟨.start, [startProduction g.startSymbol]⟩ :: g.rules.map RuleInner.lifted := by
        simp [Grammar.rules, Grammar.wrapped, BMap.values]
      rw [hrules]
      simp only [List.mem_cons, forall_eq_or_imp, List.mem_map, forall_exists_index, and_imp,
        forall_apply_eq_imp_iff₂, hrefs, exists_exists_and_eq_and, lifted_derives_nil]
      refine and_iff_right ⟨_, List.mem_singleton.2 rfl, start_derives_nil⟩
    · constructor
      · intro h A B hk
        exact (k4 B).1 (h (.nterm A) (.nterm B) ((k2 _ _).2 ⟨B, rfl, hk⟩))
      · intro h A B hk
        show Relation.TransGen Kept' .start B
        cases A with
        | start => exact .single hk
        | nterm A =>
          obtain ⟨C, rfl, hk'⟩ := (k2 _ _).1 hk
          exact (k4 C).2 (h A C hk')
  rw [hnull, ← hgood]
  constructor
  · rintro ⟨g', hg'⟩
    obtain ⟨info, hi, -⟩ := transform_ok (Grammar.wrapped_wf hw) hg'
    refine ⟨⟨info, hi⟩, ?_⟩
    by_contra hc
    rw [(h2 info hi).2 hc] at hg'
    cases hg'
  · rintro ⟨⟨info, hi⟩, hg'⟩
    exact (h2 info hi).1 hg'

/-- More fuel does not change what `Grammar::new` returns. -/
theorem Grammar.new_mono {start : NT} {rules : List (RuleInner T NT AK AV)}
    {n m : Nat} (hnm : n ≤ m) {r} (h : Grammar.new n start rules = .ok r) :
    Grammar.new m start rules = .ok r := by
  have hne : (Grammar.ofRules start rules).reachableNonterms n ≠ .oof := by
    intro ho
    simp [Grammar.new, Grammar.checkGrammar, Grammar.unreachableNonterms, ho] at h
  have : (Grammar.ofRules start rules).reachableNonterms m =
      (Grammar.ofRules start rules).reachableNonterms n := bfsLoop_mono hnm hne
  rw [← h]
  simp only [Grammar.new, Grammar.checkGrammar, Grammar.unreachableNonterms, this]

/-- More fuel does not change what the transform returns. -/
theorem transformToNonnull_mono {addr : NT → Nat → Nat} {n m : Nat} (hnm : n ≤ m) {r}
    (h : transformToNonnull n addr g = .ok r) : transformToNonnull m addr g = .ok r := by
  unfold transformToNonnull at h ⊢
  cases hc : calculateNullables n addr g with
  | oof => simp [hc] at h
  | panic w => simp [hc] at h
  | ok x =>
    rw [calculateNullables_mono hnm hc]
    cases x with
    | error e => simpa [hc] using h
    | ok info =>
      simp only [hc, grammar_builder_records] at h ⊢
      cases hb : Grammar.new n g.startSymbol ((nonnullCalls info g).map GrammarOp.declares) with
      | oof => simp [hb] at h
      | panic w => simp [hb] at h
      | ok y => rw [Grammar.new_mono hnm hb]; simpa [hb] using h

/-- C114: so it succeeds wherever transforming the grammar itself does. -/
theorem nonnull_wrapped_succeeds (g : Grammar T NT AK AV) (hg : g.Accepted) (addr : NT → Nat → Nat)
    (ha : AddrInj g addr) (saddr : StartNonTerminal NT → Nat → Nat) (hs : AddrInj g.wrapped saddr)
    (fuel : Nat) (g' : NonNullGrammar T NT AK AV) (h : transformToNonnull fuel addr g = .ok (.ok g')) :
    ∃ N, ∀ fuel, N ≤ fuel → ∃ g'', transformToNonnull fuel saddr g.wrapped = .ok (.ok g'') := by
  obtain ⟨N, hN⟩ := nonnull_wrapped_outcome g hg addr ha saddr hs
  obtain ⟨M, hM⟩ := nonnull_outcome g hg addr ha
  refine ⟨max fuel (max N M), fun fuel' hf => (hN fuel' (by omega)).2 ?_⟩
  have h' := transformToNonnull_mono (show fuel ≤ fuel' by omega) h
  obtain ⟨info, hi, -⟩ := transform_ok hg.valid.toWF h'
  obtain ⟨-, h2, -⟩ := hM fuel' (by omega)
  have hgood := not_not.1 fun hc => by
    have := (h2 info hi).2 hc
    rw [h'] at this; cases this
  exact ⟨⟨info, hi⟩, hgood.1, fun A B hk => .inr (hgood.2 A B hk)⟩

theorem lifted_body_derives_nil (β : List (Elem T NT)) :
    g.wrapped.cfg.Derives (β.map baseElemToStartElem) [] ↔ g.cfg.Derives β [] := by
  rw [show g.wrapped.cfg.Derives (β.map baseElemToStartElem) [] ↔
      g.wrapped.cfg.Yields (β.map baseElemToStartElem) [] from
    (Cfg.yields_iff (w := [])).symm, show g.cfg.Derives β [] ↔ g.cfg.Yields β [] from
    (Cfg.yields_iff (w := [])).symm]
  constructor
  · intro h
    obtain ⟨w, hw, h'⟩ := of_wrapped_yields h _ rfl
    obtain rfl := List.map_eq_nil_iff.1 hw.symm
    exact h'
  · exact fun h => wrapped_yields h

theorem wrapped_cut_prod {A : NT} {β} : g.wrapped.cutNull.prod (.nterm A) β ↔
    ∃ β', g.cutNull.prod A β' ∧ β = β'.map baseElemToStartElem := by
  have hA : g.wrapped.cfg.Generates (.nterm A) [] ↔ g.cfg.Generates A [] :=
    lifted_body_derives_nil [.nonterm A]
  constructor
  · rintro (⟨h1, h2⟩ | ⟨rfl, h⟩)
    · obtain ⟨β', h3, rfl⟩ := wrapped_prod_nterm.1 h1
      exact ⟨β', .inl ⟨h3, mt (lifted_body_derives_nil β').2 h2⟩, rfl⟩
    · exact ⟨[], .inr ⟨rfl, hA.1 h⟩, rfl⟩
  · rintro ⟨β', ⟨h1, h2⟩ | ⟨rfl, h⟩, rfl⟩
    · exact .inl ⟨wrapped_prod_nterm.2 ⟨β', h1, rfl⟩, mt (lifted_body_derives_nil β').1 h2⟩
    · exact .inr ⟨rfl, hA.2 h⟩

theorem wrapped_cut_yields {s : List (Elem T NT)} {w : List T}
    (h : g.cutNull.Yields s w) : g.wrapped.cutNull.Yields (s.map baseElemToStartElem) (w.map .term) := by
  induction h with
  | nil => exact .nil
  | term t _ ih => exact .term _ ih
  | nonterm hp _ _ ih1 ih2 =>
    rw [List.map_append]
    exact .nonterm (wrapped_cut_prod.2 ⟨_, hp, rfl⟩) ih1 ih2

theorem of_wrapped_cut_yields {s' w'} (h : g.wrapped.cutNull.Yields s' w') :
    ∀ s : List (Elem T NT), s' = s.map baseElemToStartElem →
      ∃ w : List T, w' = w.map .term ∧ g.cutNull.Yields s w := by
  induction h with
  | nil =>
    intro s hs
    cases s with
    | nil => exact ⟨[], rfl, .nil⟩
    | cons e s => cases hs
  | term t _ ih =>
    intro s hs
    cases s with
    | nil => cases hs
    | cons e s =>
      simp only [List.map_cons, List.cons.injEq] at hs
      cases e with
      | nonterm A => cases hs.1
      | term t' =>
        obtain ⟨w, rfl, hw⟩ := ih s hs.2
        cases hs.1
        exact ⟨t' :: w, rfl, .term _ hw⟩
  | nonterm hp _ _ ih1 ih2 =>
    intro s hs
    cases s with
    | nil => cases hs
    | cons e s =>
      simp only [List.map_cons, List.cons.injEq] at hs
      cases e with
      | term t' => cases hs.1
      | nonterm A =>
        cases hs.1
        obtain ⟨β, h1, rfl⟩ := wrapped_cut_prod.1 hp
        obtain ⟨w1, rfl, hw1⟩ := ih1 β rfl
        obtain ⟨w2, rfl, hw2⟩ := ih2 s hs.2
        exact ⟨w1 ++ w2, by simp, .nonterm h1 hw1 hw2⟩

theorem cut_generates_nil {A : NT} : g.cutNull.Generates A [] ↔ g.cfg.Generates A [] := by
  constructor
  · intro h
    have : g.cutNull.Yields [.nonterm A] [] := Cfg.yields_iff.2 h
    exact (Cfg.yields_iff (w := [])).1 (cut_yields_sub this)
  · intro h
    exact Cfg.generates_iff.2 ⟨[], .inr ⟨rfl, h⟩, .nil⟩

/-- C114: the language of a grammar that was first wrapped and then transformed: what the transform keeps
of the grammar, and the empty word if the grammar derives it, followed by the end of the input.  Unlike
transforming the grammar itself, this does not lose the empty word. -/
theorem nonnull_wrapped_language (g : Grammar T NT AK AV) (hg : g.Accepted)
    (saddr : StartNonTerminal NT → Nat → Nat) (hs : AddrInj g.wrapped saddr) (fuel : Nat)
    (g'' : NonNullGrammar (StreamTerminal T) (StartNonTerminal NT) (StartActionKey AK) (StartActionValue AV))
    (h : transformToNonnull fuel saddr g.wrapped = .ok (.ok g'')) (w' : List (StreamTerminal T)) :
    g''.cfg.InLanguage w' ↔ ∃ w, w' = w.map .term ++ [.endOfStream] ∧
      (w = [] ∧ g.cfg.InLanguage [] ∨ w ≠ [] ∧ g.cutNull.InLanguage w) := by
  have hwa := (wrap_exact g hg).2.2
  have hst : g''.startSymbol = .start := (nonnull_prods_exact g.wrapped hwa saddr hs fuel g'' h).1
  have hl := nonnull_language_exact g.wrapped hwa saddr hs fuel g'' h .start w'
  have hIn : g''.cfg.InLanguage w' ↔ g''.cfg.Generates .start w' := by
    unfold Cfg.InLanguage
    rw [show g''.cfg.start = .start from hst]
  have hcut : ∀ w, (w = [] ∧ g.cfg.InLanguage [] ∨ w ≠ [] ∧ g.cutNull.InLanguage w) ↔
      g.cutNull.Generates g.startSymbol w := by
    intro w
    by_cases hw : w = []
    · subst hw
      simp only [true_and, ne_eq, not_true_eq_false, false_and, or_false]
      exact cut_generates_nil.symm
    · simp [hw]; rfl
  rw [hIn, hl]
  simp only [hcut]
  rw [Cfg.generates_iff]
  constructor
  · rintro ⟨-, β, hp, hy⟩
    rcases hp with ⟨hp, -⟩ | ⟨rfl, hn⟩
    · rw [wrapped_prod_start] at hp
      subst hp
      cases hy with
      | @nonterm _ β _ u v hp h1 h2 =>
        obtain ⟨w, hw, h3⟩ := of_wrapped_cut_yields (Cfg.Yields.nonterm hp h1 .nil) [.nonterm g.startSymbol] rfl
        rw [List.append_nil] at hw
        subst hw
        cases h2 with
        | term _ h => cases h; exact ⟨w, rfl, Cfg.yields_iff.1 h3⟩
    · exfalso
      rw [Cfg.generates_iff] at hn
      obtain ⟨β, hp, hy⟩ := hn
      rw [wrapped_prod_start] at hp
      subst hp
      obtain ⟨B, h1, -⟩ := Cfg.yields_nil_word_iff.1 hy (.term .endOfStream) (by simp)
      cases h1
  · rintro ⟨w, rfl, hw⟩
    refine ⟨by simp, [.nonterm (.nterm g.startSymbol), .term .endOfStream],
      .inl ⟨wrapped_prod_start.2 rfl, start_derives_nil⟩, ?_⟩
    have h1 : g.wrapped.cutNull.Yields [.nonterm (.nterm g.startSymbol)] (w.map .term) :=
      wrapped_cut_yields (Cfg.yields_iff.2 hw)
    exact h1.append (.term _ .nil)

/-- C114: compared with transforming the grammar itself, where that succeeds too: only the empty word is
added. -/
theorem nonnull_wrapped_compare (g : Grammar T NT AK AV) (hg : g.Accepted) (addr : NT → Nat → Nat)
    (ha : AddrInj g addr) (saddr : StartNonTerminal NT → Nat → Nat) (hs : AddrInj g.wrapped saddr)
    (fuel fuel' : Nat) (g' : NonNullGrammar T NT AK AV)
    (g'' : NonNullGrammar (StreamTerminal T) (StartNonTerminal NT) (StartActionKey AK) (StartActionValue AV))
    (h' : transformToNonnull fuel addr g = .ok (.ok g'))
    (h'' : transformToNonnull fuel' saddr g.wrapped = .ok (.ok g'')) (w : List T) :
    g''.cfg.InLanguage (w.map .term ++ [.endOfStream]) ↔
      g'.cfg.InLanguage w ∨ w = [] ∧ g.cfg.InLanguage [] := by
  have hst : g'.startSymbol = g.startSymbol := (nonnull_prods_exact g hg addr ha fuel g' h').1
  have hl : g'.cfg.InLanguage w ↔ w ≠ [] ∧ g.cutNull.InLanguage w := by
    unfold Cfg.InLanguage
    rw [show g'.cfg.start = g.startSymbol from hst, nonnull_language_exact g hg addr ha fuel g' h']
    rfl
  rw [nonnull_wrapped_language g hg saddr hs fuel' g'' h'', hl, or_comm]
  constructor
  · rintro ⟨v, hv, h⟩
    obtain rfl : w = v := by
      have := List.append_inj_left' hv rfl
      exact List.map_injective_iff.2 (fun _ _ => StreamTerminal.term.inj) this
    exact h
  · exact fun h => ⟨w, rfl, h⟩
end wrapped

/-! ## Witnesses -/

/-- `S → A | 7;  A → ε | S 7`. -/
def wrapFirstExample : Grammar Nat Nat Nat Unit :=
  ⟨0, [exRule 0 [(10, [.nonterm 1]), (11, [.term 7])], exRule 1 [(12, []), (13, [.nonterm 0, .term 7])]]⟩

theorem wrapFirstExample_accepted : wrapFirstExample.Accepted :=
  ⟨20, 0, [⟨0, [.addProd 10 () [.addNonterm 1], .addProd 11 () [.addTerm 7]]⟩,
    ⟨1, [.addProd 12 () [], .addProd 13 () [.addNonterm 0, .addTerm 7]]⟩], by decide⟩

/-- C114: the order matters: this grammar cannot be transformed (the result would have an unreachable
symbol), but it can be wrapped and then transformed, and then derives the empty word. -/
theorem wrap_before_nonnull : wrapFirstExample.Accepted ∧
    transformToNonnull 20 exampleAddr wrapFirstExample = .ok (.error .build) ∧
    ∃ g'', transformToNonnull 20 exampleSAddr wrapFirstExample.wrapped = .ok (.ok g'') ∧
      g''.cfg.InLanguage [.endOfStream] ∧ g''.cfg.InLanguage [.term 7, .endOfStream] := by
  have hn : wrapFirstExample.cfg.Yields [.nonterm 0] [] :=
    .nonterm (β := [.nonterm 1]) (w₁ := []) (w₂ := [])
      ⟨_, ⟨10, (), [⟨none, .nonterm 1⟩]⟩, List.mem_cons_self .., by simp [exRule], rfl⟩
      (.nonterm (β := []) (w₁ := []) (w₂ := [])
        ⟨_, ⟨12, (), []⟩, List.mem_cons_of_mem _ (List.mem_cons_self ..), by simp [exRule], rfl⟩ .nil .nil)
      .nil
  have h7 : wrapFirstExample.cutNull.Yields [.nonterm 0] [7] :=
    .nonterm (β := [.term 7]) (w₁ := [7]) (w₂ := [])
      (.inl ⟨⟨_, ⟨11, (), [⟨none, .term 7⟩]⟩, List.mem_cons_self .., by simp [exRule], rfl⟩, fun h => by
        have := (Cfg.yields_iff (w := [])).2 h
        cases this⟩) (.term _ .nil) .nil
  obtain ⟨g'', hg''⟩ : ∃ g'', transformToNonnull 20 exampleSAddr wrapFirstExample.wrapped = .ok (.ok g'') :=
    ⟨_, rfl⟩
  have hl := nonnull_wrapped_language wrapFirstExample wrapFirstExample_accepted exampleSAddr
    (exampleSAddr_addrInj _) 20 g'' hg''
  refine ⟨wrapFirstExample_accepted, rfl, g'', hg'', ?_, ?_⟩
  · exact (hl _).2 ⟨[], rfl, .inl ⟨rfl, Cfg.yields_iff.1 hn⟩⟩
  · exact (hl _).2 ⟨[7], rfl, .inr ⟨by simp, Cfg.yields_iff.1 h7⟩⟩

/-- `S → A 2; A → ε | 1`, transformed once, has three productions; transformed again, the same three. -/
example : ∃ g', transformToNonnull 9 exampleAddr optExample = .ok (.ok g') ∧ g'.Accepted ∧
    transformToNonnull 9 exampleAddr g' = .ok (.ok g'.tagged) ∧
    g'.prods.map (·.elements) = [[.nonterm 1, .term 2], [.term 2], [.term 1]] ∧
    g'.tagged.prods.map (·.elements) = g'.prods.map (·.elements) ∧
    g'.tagged.prods.map (·.actionKey) =
      [⟨⟨10, [false]⟩, [false]⟩, ⟨⟨10, [true]⟩, []⟩, ⟨⟨12, []⟩, []⟩] := by
  obtain ⟨g', hg'⟩ : ∃ g', transformToNonnull 9 exampleAddr optExample = .ok (.ok g') := ⟨_, rfl⟩
  refine ⟨g', hg', nonnull_accepted _ _ _ _ hg', ?_⟩
  have : g' = _ := (Except.ok.inj (Res.ok.inj hg')).symm
  subst this
  exact ⟨rfl, rfl, rfl, rfl⟩

/-- Where both succeed: `S → A 2; A → ε | 1` and `S → ε | 1`. -/
example : (∃ g', transformToNonnull 9 exampleAddr optExample = .ok (.ok g')) ∧
    ∃ g'', transformToNonnull 9 exampleSAddr optExample.wrapped = .ok (.ok g'') := ⟨⟨_, rfl⟩, _, rfl⟩
end Bongo
