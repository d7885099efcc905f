import Verif.Proof.LalrRounds
import Verif.Props.Pass
/-! LALR states: kernels, contexts, shifting. -/
set_option linter.unusedSectionVars false
namespace Bongo
open Std

/-! ## Grouping -/
section shuffle
variable {K : Type u} {V : Type v} {cmpK : K → K → Ordering} {cmpV : V → V → Ordering}
variable [TransCmp cmpK] [LawfulEqCmp cmpK] [TransCmp cmpV]

theorem shuffleIter_eq (l : List (K × V)) :
    shuffleIter cmpK cmpV l = mergeValuePairs cmpK cmpV l := rfl

/-- Grouping values no two of which are equal under their order. -/
theorem shuffleIter_distinct (l : List (K × V)) (hl : l.Pairwise fun a b => cmpV a.2 b.2 ≠ .eq) :
    BMap.Sorted cmpK (shuffleIter cmpK cmpV l) ∧
    ∀ k, match BMap.get? cmpK (shuffleIter cmpK cmpV l) k with
      | some s => BSet.Sorted cmpV s ∧ s ≠ [] ∧ ∀ v, v ∈ s ↔ (k, v) ∈ l
      | none => ∀ v, (k, v) ∉ l := by
  unfold shuffleIter
  induction l using List.reverseRecOn with
  | nil => simp [BMap.sorted_nil]
  | append_singleton l x ih =>
    obtain ⟨k₀, v₀⟩ := x
    rw [List.pairwise_append] at hl
    obtain ⟨hl1, -, hl2⟩ := hl
    obtain ⟨h1, h2⟩ := ih hl1
    rw [List.foldl_append]
    simp only [List.foldl_cons, List.foldl_nil]
    generalize hm : List.foldl (shuffleStep cmpK cmpV) [] l = m at h1 h2
    have hold := h2 k₀
    unfold shuffleStep
    cases hg : BMap.get? cmpK m k₀ with
    | none =>
      rw [hg] at hold
      simp only at hold ⊢
      refine ⟨BMap.sorted_insert h1 _ _, ?_⟩
      intro k
      rw [BMap.get?_insert]
      by_cases hk : k = k₀
      · subst hk
        rw [if_pos (cmp_self k)]
        simp only [BSet.ofList, BSet.insertAll, List.foldl_cons, List.foldl_nil, BSet.insert]
        refine ⟨List.pairwise_singleton _ _, by simp, ?_⟩
        intro v
        simp [hold v]
      · rw [if_neg (fun h => hk (LawfulEqCmp.eq_of_compare h))]
        have := h2 k
        cases hgk : BMap.get? cmpK m k with
        | none => rw [hgk] at this; simpa [hk] using this
        | some s => rw [hgk] at this; simpa [hk] using this
    | some s₀ =>
      rw [hg] at hold
      simp only at hold ⊢
      obtain ⟨hs1, hs2, hs3⟩ := hold
      refine ⟨BMap.sorted_insert h1 _ _, ?_⟩
      intro k
      rw [BMap.get?_insert]
      by_cases hk : k = k₀
      · subst hk
        rw [if_pos (cmp_self k)]
        have hnc : BSet.contains cmpV s₀ v₀ = false := by
          rw [BSet.not_contains_iff]
          intro y hy hc
          exact hl2 (k, y) ((hs3 y).1 hy) (k, v₀) (by simp) (cmp_eq_symm hc)
        refine ⟨BSet.sorted_insert hs1 _, ?_, ?_⟩
        · intro h
          have := length_eq_zero h
          rw [BSet.length_insert_of_not_contains hnc] at this
          omega
        · intro v
          rw [BSet.mem_insert_sorted hs1, hs3]
          simp [hnc]
      · rw [if_neg (fun h => hk (LawfulEqCmp.eq_of_compare h))]
        have := h2 k
        cases hgk : BMap.get? cmpK m k with
        | none => rw [hgk] at this; simpa [hk] using this
        | some s => rw [hgk] at this; simpa [hk] using this
where
  length_eq_zero {s : BSet V} (h : s = []) : s.length = 0 := by rw [h]; rfl
end shuffle

variable {T NT AK AV : Type} [Ord T] [TransOrd T] [LawfulEqOrd T]
  [Ord NT] [TransOrd NT] [LawfulEqOrd NT]

instance itemCmp_trans (addr : NT → Nat → Nat) :
    TransCmp (itemCmp (T := T) (AK := AK) (AV := AV) addr) := by
  have : (itemCmp (T := T) (AK := AK) (AV := AV) addr) =
      compareLex (fun a b => ProdState.cmp addr a.1 b.1)
        (fun a b => List.compareLex compare a.2 b.2) := by
    funext a b; rfl
  rw [this]
  have i1 : TransCmp (fun a b : ProdState T NT AK AV × BSet T => ProdState.cmp addr a.1 b.1) :=
    { eq_swap := fun {a b} => (ProdState.cmp_trans addr).eq_swap (a := a.1) (b := b.1)
      isLE_trans := fun {a b c} h1 h2 => (ProdState.cmp_trans addr).isLE_trans
        (a := a.1) (b := b.1) (c := c.1) h1 h2 }
  have i0 : TransCmp (List.compareLex (compare (α := T))) := inferInstance
  have i2 : TransCmp (fun a b : ProdState T NT AK AV × BSet T =>
      List.compareLex compare a.2 b.2) :=
    { eq_swap := fun {a b} => i0.eq_swap (a := a.2) (b := b.2)
      isLE_trans := fun {a b c} h1 h2 => i0.isLE_trans (a := a.2) (b := b.2) (c := c.2) h1 h2 }
  infer_instance

/-! ## Kernels -/
section
variable {g : Grammar T NT AK AV} {addr : NT → Nat → Nat}
  {collect : List (ProdState T NT AK AV × BSet T) → BMap (ProdState T NT AK AV) (BSet T)}

theorem kernel_cmp (hw : g.WF) (ha : AddrInj g addr) {a b : ProdState T NT AK AV}
    (h1 : a.prod ∈ g.prods) (h2 : b.prod ∈ g.prods) :
    ProdState.cmp addr a b = .eq ↔ a.prod = b.prod := prodCmp_eq hw ha h1 h2

theorem Kernel.unique {items : List (ProdState T NT AK AV × BSet T)} (hk : Kernel g items)
    {a b} (h1 : a ∈ items) (h2 : b ∈ items) (h : a.1.prod = b.1.prod) : a = b := by
  have := hk.distinct
  clear hk
  induction items with
  | nil => simp at h1
  | cons x items ih =>
    rw [List.pairwise_cons] at this
    rcases List.mem_cons.1 h1 with rfl | h1' <;> rcases List.mem_cons.1 h2 with rfl | h2'
    · rfl
    · exact absurd h (this.1 _ h2')
    · exact absurd h.symm (this.1 _ h1')
    · exact ih h1' h2' this.2

theorem collect_kernel (hw : g.WF) (ha : AddrInj g addr)
    (hc : CollectMapSpec (ProdState.cmp addr) collect)
    {items : List (ProdState T NT AK AV × BSet T)} (hk : Kernel g items) (e) :
    e ∈ collect items ↔ e ∈ items := by
  have hfw : ∀ e ∈ collect items, e ∈ items := by
    intro e he
    obtain ⟨e', h1, h2⟩ := hc.key items e he
    obtain ⟨l₁, k, l₂, h3, h4, -⟩ := hc.value items e he
    have hmem : (k, e.2) ∈ items := by rw [h3]; simp
    have hp : e.1.prod ∈ g.prods := by rw [← h2]; exact hk.prods _ h1
    have h5 := (kernel_cmp hw ha (hk.prods _ hmem) hp).1 h4
    have := hk.unique h1 hmem (by rw [h2, h5])
    rw [this] at h2
    simp only at h2
    rw [h2] at hmem
    exact hmem
  refine ⟨hfw e, ?_⟩
  intro he
  obtain ⟨e', h1, h2⟩ := hc.all items e he
  have h3 := hfw e' h1
  rw [hk.unique he h3 ((kernel_cmp hw ha (hk.prods _ he) (hk.prods _ h3)).1 h2)]
  exact h1

theorem lalrFact_congr {K K' : List (ProdState T NT AK AV × BSet T)} (h : ∀ e, e ∈ K ↔ e ∈ K')
    {s o} (hf : LalrFact g K s o) : LalrFact g K' s o := by
  have hki : ∀ {q s'}, KernelItem K q s' → KernelItem K' q s' := by
    rintro q s' (⟨⟨la, h1⟩, h2⟩ | ⟨h1, h2⟩)
    · exact Or.inl ⟨⟨la, (h _).1 h1⟩, h2⟩
    · exact Or.inr ⟨h1, fun e he => h2 e ((h e).2 he)⟩
  induction hf with
  | item h1 => exact .item ((h _).1 h1)
  | lookahead h1 h2 => exact .lookahead ((h _).1 h1) h2
  | present _ ih => exact .present ih
  | term _ a b c d e ih => exact .term ih a b c d (hki e)
  | first _ a b b' c d e ih => exact .first ih a b b' c d (hki e)
  | last _ a b c d e ih => exact .last ih a b c d (hki e)

theorem collect_wf (hw : g.WF) (ha : AddrInj g addr)
    (hc : CollectMapSpec (ProdState.cmp addr) collect)
    {items : List (ProdState T NT AK AV × BSet T)} (hk : Kernel g items) :
    ItemWF addr (collect items) :=
  ⟨hc.sorted items, fun e he => hk.sets e ((collect_kernel hw ha hc hk e).1 he)⟩

/-- The outcome of the closure loop, for a kernel. -/
theorem close_spec (hv : g.Valid) (ha : AddrInj g addr)
    (hc : CollectMapSpec (ProdState.cmp addr) collect)
    {items : List (ProdState T NT AK AV × BSet T)} (hk : Kernel g items) {f : Firsts T NT}
    (hfe : FirstsExact g f) {fuel : Nat}
    (hf : 2 * g.prods.length < fuel) :
    ((∃ s, LalrFact g items s none ∧ LaGap f s) ∧
      ParseState.close fuel collect addr g f items = .panic .noFirsts) ∨
    ((¬ ∃ s, LalrFact g items s none ∧ LaGap f s) ∧
      ∃ st, ParseState.close fuel collect addr g f items = .ok st ∧ ItemWF addr st.prods ∧
        ∀ s o, st.Has s o ↔ LalrFact g items s o) := by
  have hmem := collect_kernel hv.toWF ha hc hk
  have hK : ∀ e ∈ collect items, e.1.prod ∈ g.prods := fun e he => hk.prods e ((hmem e).1 he)
  have hfact : ∀ s o, LalrFact g (collect items) s o ↔ LalrFact g items s o := fun s o =>
    ⟨lalrFact_congr hmem, lalrFact_congr fun e => (hmem e).symm⟩
  unfold ParseState.close
  rcases lalr_loop_sharp hv ha hK (collect_wf hv.toWF ha hc hk) hfe hf with ⟨h1, h2⟩ | ⟨h1, m, h2, h3, h4⟩
  · simp only [hfact] at h1
    exact Or.inl ⟨h1, by rw [h2]⟩
  · simp only [hfact] at h1
    refine Or.inr ⟨h1, ⟨m⟩, by rw [h2], h3, ?_⟩
    intro s o
    exact (h4 s o).trans (hfact s o)

theorem close_mono {fuel fuel' : Nat} (hle : fuel ≤ fuel') {f : Firsts T NT} {items}
    (h : ParseState.close fuel collect addr g f items ≠ .oof) :
    ParseState.close fuel' collect addr g f items = ParseState.close fuel collect addr g f items := by
  unfold ParseState.close at h ⊢
  rw [changeLoop_mono hle]
  intro h'
  rw [h'] at h
  exact h rfl

/-- What any run that returned a state returned. -/
theorem close_ok (hv : g.Valid) (ha : AddrInj g addr)
    (hc : CollectMapSpec (ProdState.cmp addr) collect)
    {items : List (ProdState T NT AK AV × BSet T)} (hk : Kernel g items) {f : Firsts T NT}
    (hfe : FirstsExact g f) {fuel : Nat} {st}
    (h : ParseState.close fuel collect addr g f items = .ok st) :
    ItemWF addr st.prods ∧ ∀ s o, st.Has s o ↔ LalrFact g items s o := by
  have h' := close_mono (Nat.le_max_left fuel (2 * g.prods.length + 1))
    (show ParseState.close fuel collect addr g f items ≠ .oof by rw [h]; simp)
  rw [h] at h'
  rcases close_spec hv ha hc hk hfe (fuel := max fuel (2 * g.prods.length + 1))
    (by omega) with ⟨-, h1⟩ | ⟨-, st', h1, h2⟩
  · rw [h'] at h1; cases h1
  · rw [h'] at h1; cases h1; exact h2

/-! ## Contexts -/

theorem crate_eval_firsts {fuel : Nat} {f : Firsts T NT}
    (h : Eval (cratePasses fuel addr g) .firsts (.ok (.firsts f))) :
    firstsPass fuel addr g = .ok (.ok f) := by
  unfold Eval at h
  rw [cratePasses] at h
  cases h with
  | get h1 h2 =>
    rename_i r'
    rw [cratePasses] at h1
    unfold firstsPass
    cases hn : calculateNullables fuel addr g with
    | panic w => rw [hn] at h1; cases h1
    | oof => rw [hn] at h1; cases h1
    | ok x =>
      rw [hn] at h1
      simp only
      cases x with
      | error e =>
        cases h1
        simp only at h2
        cases h2
      | ok i =>
        cases h1
        simp only at h2
        cases hr : Firsts.runPass fuel g (.ok i) with
        | panic w => rw [hr] at h2; cases h2
        | oof => rw [hr] at h2; cases h2
        | ok y =>
          rw [hr] at h2
          cases y with
          | error e => cases h2
          | ok f' => cases h2; rfl

theorem UsedContext.firsts {fuel : Nat} {σ : ParseState.Ctx T NT AK}
    (hu : UsedContext fuel addr g σ) {σ'} {f : Firsts T NT}
    (h : PassContext.getPass fuel (cratePasses fuel addr g) σ .firsts = .ok (σ', .ok (.firsts f))) :
    firstsPass fuel addr g = .ok (.ok f) ∧ UsedContext fuel addr g σ' := by
  obtain ⟨ps, hps⟩ := hu
  refine ⟨crate_eval_firsts (pass_value_meaning _ fuel ps σ hps _ _ _ h), ps ++ [.firsts], ?_⟩
  have : ∀ (ps : List PassId) (σ₀ : ParseState.Ctx T NT AK),
      PassContext.getPasses fuel (cratePasses fuel addr g) σ₀ ps = .ok σ →
      PassContext.getPasses fuel (cratePasses fuel addr g) σ₀ (ps ++ [.firsts]) = .ok σ' := by
    intro ps
    induction ps with
    | nil =>
      intro σ₀ h0
      simp only [PassContext.getPasses, Res.ok.injEq] at h0
      subst h0
      simp [PassContext.getPasses, h]
    | cons p ps ih =>
      intro σ₀ h0
      rw [PassContext.getPasses] at h0
      rw [List.cons_append, PassContext.getPasses]
      cases hg : PassContext.getPass fuel (cratePasses fuel addr g) σ₀ p with
      | panic w => rw [hg] at h0; cases h0
      | oof => rw [hg] at h0; cases h0
      | ok x =>
        obtain ⟨σ₁, r⟩ := x
        rw [hg] at h0
        simp only at h0 ⊢
        exact ih σ₁ h0
  exact this ps _ hps

/-- A successful call returned the closure for the FIRST sets of the grammar. -/
theorem fromProdLookahead_ok {fuel : Nat} {σ σ' : ParseState.Ctx T NT AK} {items st}
    (hu : UsedContext fuel addr g σ)
    (h : ParseState.fromProdLookahead fuel collect addr g σ items = .ok (σ', .ok st)) :
    UsedContext fuel addr g σ' ∧ ∃ f, firstsPass fuel addr g = .ok (.ok f) ∧
      ParseState.close fuel collect addr g f items = .ok st := by
  unfold ParseState.fromProdLookahead at h
  cases hg : PassContext.getPass fuel (cratePasses fuel addr g) σ .firsts with
  | panic w => rw [hg] at h; cases h
  | oof => rw [hg] at h; cases h
  | ok x =>
    obtain ⟨σ₁, r⟩ := x
    rw [hg] at h
    cases r with
    | error e => simp at h
    | ok v =>
      cases v with
      | nullable _ => cases h
      | follows _ => cases h
      | firsts f =>
        simp only at h
        obtain ⟨h1, h2⟩ := hu.firsts hg
        cases hcl : ParseState.close fuel collect addr g f items with
        | panic w => rw [hcl] at h; cases h
        | oof => rw [hcl] at h; cases h
        | ok st' =>
          rw [hcl] at h
          simp only [Res.ok.injEq, _root_.Prod.mk.injEq, Except.ok.injEq] at h
          obtain ⟨rfl, rfl⟩ := h
          exact ⟨h2, f, h1, hcl⟩

theorem fromProdLookahead_spec (hv : g.Valid) (ha : AddrInj g addr)
    (hc : CollectMapSpec (ProdState.cmp addr) collect)
    {items : List (ProdState T NT AK AV × BSet T)} (hk : Kernel g items)
    {fuel : Nat} {σ σ' : ParseState.Ctx T NT AK} {st}
    (hu : UsedContext fuel addr g σ)
    (h : ParseState.fromProdLookahead fuel collect addr g σ items = .ok (σ', .ok st)) :
    UsedContext fuel addr g σ' ∧ ItemWF addr st.prods ∧ ∀ s o, st.Has s o ↔ LalrFact g items s o := by
  obtain ⟨h1, f, h2, h3⟩ := fromProdLookahead_ok hu h
  exact ⟨h1, close_ok hv ha hc hk (fun A t => (firstsPass_ok hv.toWF ha h2).2.1 A t) h3⟩

/-! ## Shifting -/

/-- What is known of every state of a program. -/
structure StateOk (addr : NT → Nat → Nat) (g : Grammar T NT AK AV) (st : ParseState T NT AK AV) :
    Prop where
  wf : ItemWF addr st.prods
  prods : ∀ e ∈ st.prods, e.1.prod ∈ g.prods

theorem mem_shiftPairs {st : ParseState T NT AK AV} {t : T} {s : ProdState T NT AK AV} {la} :
    (t, (s, la)) ∈ st.shiftPairs ↔ ∃ s₀, (s₀, la) ∈ st.prods ∧
      s₀.prod.elements[s₀.index]? = some (.term t) ∧ s = ⟨s₀.prod, s₀.index + 1⟩ := by
  unfold ParseState.shiftPairs
  simp only [List.mem_filterMap, Option.map_eq_some_iff]
  constructor
  · rintro ⟨⟨e, s', la'⟩, ⟨⟨s₀, la₀⟩, h1, ⟨e', s''⟩, h2, h3⟩, t', h4, h5⟩
    obtain ⟨h6, h7⟩ := ProdStateSet.nextElemState_some.1 h2
    simp only [_root_.Prod.mk.injEq] at h3 h5
    obtain ⟨rfl, rfl, rfl⟩ := h3
    obtain ⟨rfl, rfl, rfl⟩ := h5
    refine ⟨s₀, h1, ?_, h7⟩
    unfold Prod.elements ProdInner.elems
    rw [List.getElem?_map]
    have h6' : s₀.prod.inner.elements[s₀.index]? = some e' := h6
    rw [h6']
    simp only at h4
    cases he : e'.element with
    | term x => rw [he] at h4; simp [Elem.asTerm] at h4; simp [he, h4]
    | nonterm x => rw [he] at h4; simp [Elem.asTerm] at h4
  · rintro ⟨s₀, h1, h2, rfl⟩
    unfold Prod.elements ProdInner.elems at h2
    rw [List.getElem?_map, Option.map_eq_some_iff] at h2
    obtain ⟨e', h3, h4⟩ := h2
    refine ⟨(e', ⟨s₀.prod, s₀.index + 1⟩, la), ⟨(s₀, la), h1, (e', ⟨s₀.prod, s₀.index + 1⟩),
      ProdStateSet.nextElemState_some.2 ⟨h3, rfl⟩, rfl⟩, t, ?_, rfl⟩
    simp only [h4, Elem.asTerm]

theorem shiftPairs_pairwise (st : ParseState T NT AK AV)
    (h : BMap.Sorted (ProdState.cmp addr) st.prods) :
    st.shiftPairs.Pairwise fun a b => ProdState.cmp addr a.2.1 b.2.1 = .lt := by
  unfold ParseState.shiftPairs
  refine List.Pairwise.filterMap _ (S := fun (a b : T × ProdState T NT AK AV × BSet T) =>
      ProdState.cmp addr a.2.1 b.2.1 = .lt) ?_
    (List.Pairwise.filterMap _ (S := fun a b : ProdElement T NT × ProdState T NT AK AV × BSet T =>
      ProdState.cmp addr a.2.1 b.2.1 = .lt) ?_ h)
  · intro a a' haa b hb b' hb'
    simp only [Option.mem_def, Option.map_eq_some_iff] at hb hb'
    obtain ⟨_, -, rfl⟩ := hb
    obtain ⟨_, -, rfl⟩ := hb'
    exact haa
  · intro a a' haa b hb b' hb'
    simp only [Option.mem_def, Option.map_eq_some_iff] at hb hb'
    obtain ⟨⟨e, s⟩, h1, rfl⟩ := hb
    obtain ⟨⟨e', s'⟩, h1', rfl⟩ := hb'
    obtain ⟨-, rfl⟩ := ProdStateSet.nextElemState_some.1 h1
    obtain ⟨-, rfl⟩ := ProdStateSet.nextElemState_some.1 h1'
    exact haa

/-- The groups of `shift_actions`. -/
theorem shiftGroups (hw : g.WF) (ha : AddrInj g addr) {st : ParseState T NT AK AV}
    (hs : StateOk addr g st) :
    BMap.Sorted compare (shuffleIter compare (itemCmp addr) st.shiftPairs) ∧
    (∀ t, (∃ items, (t, items) ∈ shuffleIter compare (itemCmp addr) st.shiftPairs) ↔
      ∃ s, st.Has s none ∧ s.prod.elements[s.index]? = some (.term t)) ∧
    ∀ t items, (t, items) ∈ shuffleIter compare (itemCmp addr) st.shiftPairs → Kernel g items ∧
      ∀ s la, (s, la) ∈ items ↔ ∃ s₀, (s₀, la) ∈ st.prods ∧
        s₀.prod.elements[s₀.index]? = some (.term t) ∧ s = ⟨s₀.prod, s₀.index + 1⟩ := by
  have hpw := shiftPairs_pairwise st hs.wf.sorted
  obtain ⟨h1, h2⟩ := shuffleIter_distinct (cmpK := compare) (cmpV := itemCmp addr) st.shiftPairs
    (hpw.imp (by
      intro a b hab hc
      unfold itemCmp at hc
      rw [hab] at hc
      cases hc))
  refine ⟨h1, ?_, ?_⟩
  · intro t
    have ht := h2 t
    constructor
    · rintro ⟨items, hm⟩
      rw [(BMap.mem_iff_get? h1 t items).1 hm] at ht
      obtain ⟨-, hne, hmem⟩ := ht
      obtain ⟨⟨s, la⟩, hx⟩ := List.exists_mem_of_ne_nil _ hne
      obtain ⟨s₀, k1, k2, -⟩ := mem_shiftPairs.1 ((hmem _).1 hx)
      exact ⟨s₀, ⟨la, k1, by simp⟩, k2⟩
    · rintro ⟨s, ⟨la, k1, -⟩, k2⟩
      cases hg : BMap.get? compare (shuffleIter compare (itemCmp addr) st.shiftPairs) t with
      | none =>
        rw [hg] at ht
        exact absurd (mem_shiftPairs.2 ⟨s, k1, k2, rfl⟩) (ht _)
      | some items => exact ⟨items, (BMap.mem_iff_get? h1 t items).2 hg⟩
  · intro t items hm
    have ht := h2 t
    rw [(BMap.mem_iff_get? h1 t items).1 hm] at ht
    obtain ⟨hsort, -, hmem⟩ := ht
    have hiff : ∀ s la, (s, la) ∈ items ↔ ∃ s₀, (s₀, la) ∈ st.prods ∧
        s₀.prod.elements[s₀.index]? = some (.term t) ∧ s = ⟨s₀.prod, s₀.index + 1⟩ :=
      fun s la => (hmem (s, la)).trans mem_shiftPairs
    have hprod : ∀ e ∈ items, e.1.prod ∈ g.prods := by
      rintro ⟨s, la⟩ he
      obtain ⟨s₀, k1, -, rfl⟩ := (hiff s la).1 he
      exact hs.prods (s₀, la) k1
    refine ⟨⟨hprod, ?_, ?_⟩, hiff⟩
    · refine List.Pairwise.imp_of_mem ?_ hsort
      rintro ⟨s, la⟩ ⟨s', la'⟩ ha1 ha2 hlt hp
      obtain ⟨s₀, k1, -, rfl⟩ := (hiff s la).1 ha1
      obtain ⟨s₀', k1', -, rfl⟩ := (hiff s' la').1 ha2
      simp only at hp
      have := BMap.sorted_unique hs.wf.sorted k1 k1'
        ((kernel_cmp hw ha (hs.prods _ k1) (hs.prods _ k1')).2 hp)
      simp only [_root_.Prod.mk.injEq] at this
      obtain ⟨rfl, rfl⟩ := this
      rw [cmp_self (cmp := itemCmp addr)] at hlt
      cases hlt
    · rintro ⟨s, la⟩ he
      obtain ⟨s₀, k1, -, -⟩ := (hiff s la).1 he
      exact hs.wf.sets (s₀, la) k1

theorem shiftEach_ok {fuel : Nat} : ∀ {gs : List (T × BSet (ProdState T NT AK AV × BSet T))}
    {σ σ' : ParseState.Ctx T NT AK} {l}, UsedContext fuel addr g σ →
    ParseState.shiftEach fuel collect addr g σ gs = .ok (σ', .ok l) →
    UsedContext fuel addr g σ' ∧ l.map (·.1) = gs.map (·.1) ∧
    (∀ t st, (t, st) ∈ l → ∃ items σ₁ σ₂, (t, items) ∈ gs ∧ UsedContext fuel addr g σ₁ ∧
      ParseState.fromProdLookahead fuel collect addr g σ₁ items = .ok (σ₂, .ok st)) := by
  intro gs
  induction gs with
  | nil =>
    intro σ σ' l hu h
    simp only [ParseState.shiftEach, Res.ok.injEq, _root_.Prod.mk.injEq, Except.ok.injEq] at h
    obtain ⟨rfl, rfl⟩ := h
    exact ⟨hu, rfl, by simp⟩
  | cons x gs ih =>
    obtain ⟨t, items⟩ := x
    intro σ σ' l hu h
    rw [ParseState.shiftEach] at h
    cases hf : ParseState.fromProdLookahead fuel collect addr g σ items with
    | panic w => rw [hf] at h; cases h
    | oof => rw [hf] at h; cases h
    | ok y =>
      obtain ⟨σ₁, r⟩ := y
      rw [hf] at h
      cases r with
      | error e => simp at h
      | ok st =>
        simp only at h
        have hu1 := (fromProdLookahead_ok hu hf).1
        cases hr : ParseState.shiftEach fuel collect addr g σ₁ gs with
        | panic w => rw [hr] at h; cases h
        | oof => rw [hr] at h; cases h
        | ok z =>
          obtain ⟨σ₂, r'⟩ := z
          rw [hr] at h
          cases r' with
          | error e => simp at h
          | ok l' =>
            simp only [Res.ok.injEq, _root_.Prod.mk.injEq, Except.ok.injEq] at h
            obtain ⟨rfl, rfl⟩ := h
            obtain ⟨k1, k2, k3⟩ := ih hu1 hr
            refine ⟨k1, by simp [k2], ?_⟩
            intro t' st' hm
            rcases List.mem_cons.1 hm with hm | hm
            · cases hm
              exact ⟨items, σ, _, List.mem_cons_self, hu, hf⟩
            · obtain ⟨items', σa, σb, j1, j2⟩ := k3 t' st' hm
              exact ⟨items', σa, σb, List.mem_cons_of_mem _ j1, j2⟩

theorem BMap.mem_ofList_of_sorted {K V : Type} {cmp : K → K → Ordering} [TransCmp cmp]
    [LawfulEqCmp cmp] (l : List (K × V)) (h : BMap.Sorted cmp l) (e : K × V) :
    e ∈ BMap.ofList cmp l ↔ e ∈ l := by
  rw [BMap.mem_iff_get? (BMap.sorted_ofList l) e.1 e.2, BMap.get?_ofList]
  constructor
  · intro hx
    rw [Option.map_eq_some_iff] at hx
    obtain ⟨a, h1, h2⟩ := hx
    have h3 := List.mem_of_find?_eq_some h1
    have h4 := List.find?_some h1
    simp only [beq_iff_eq] at h4
    have : a = e := by
      obtain ⟨a1, a2⟩ := a; obtain ⟨e1, e2⟩ := e
      simp only at h2 h4 ⊢
      rw [LawfulEqCmp.eq_of_compare h4, h2]
    rw [← this]; simpa using h3
  · intro he
    cases hf : l.reverse.find? (fun kv => cmp e.1 kv.1 == .eq) with
    | none =>
      have := List.find?_eq_none.1 hf e (by simpa using he)
      simp [cmp_self (cmp := cmp)] at this
    | some a =>
      have h3 : a ∈ l := by simpa using List.mem_of_find?_eq_some hf
      have h4 := List.find?_some hf
      simp only [beq_iff_eq] at h4
      rw [BMap.sorted_unique h he h3 h4]
      rfl

theorem shiftActions_ok (hv : g.Valid) (ha : AddrInj g addr)
    (hc : CollectMapSpec (ProdState.cmp addr) collect) {st : ParseState T NT AK AV}
    (hs : StateOk addr g st) {fuel : Nat} {σ σ' : ParseState.Ctx T NT AK} {m}
    (hu : UsedContext fuel addr g σ)
    (h : ParseState.shiftActions fuel collect addr g σ st = .ok (σ', .ok m)) :
    UsedContext fuel addr g σ' ∧ BMap.Sorted compare m ∧
    (∀ t, (∃ st', (t, st') ∈ m) ↔ ∃ s, st.Has s none ∧ s.prod.elements[s.index]? = some (.term t)) ∧
    ∀ t st', (t, st') ∈ m → ∃ items, Kernel g items ∧
      (∀ s la, (s, la) ∈ items ↔ ∃ s₀, (s₀, la) ∈ st.prods ∧
        s₀.prod.elements[s₀.index]? = some (.term t) ∧ s = ⟨s₀.prod, s₀.index + 1⟩) ∧
      ItemWF addr st'.prods ∧ ∀ s o, st'.Has s o ↔ LalrFact g items s o := by
  obtain ⟨g1, g2, g3⟩ := shiftGroups hv.toWF ha hs
  unfold ParseState.shiftActions at h
  cases hr : ParseState.shiftEach fuel collect addr g σ
      (shuffleIter compare (itemCmp addr) st.shiftPairs) with
  | panic w => rw [hr] at h; cases h
  | oof => rw [hr] at h; cases h
  | ok y =>
    obtain ⟨σ₁, r⟩ := y
    rw [hr] at h
    cases r with
    | error e => simp at h
    | ok l =>
      simp only [Res.ok.injEq, _root_.Prod.mk.injEq, Except.ok.injEq] at h
      obtain ⟨rfl, rfl⟩ := h
      obtain ⟨k1, k2, k3⟩ := shiftEach_ok hu hr
      have hsl : BMap.Sorted compare l := by
        have := BMap.keys_sorted g1
        unfold BMap.keys at this
        rw [← k2] at this
        unfold BSet.Sorted at this
        rw [List.pairwise_map] at this
        exact this
      have hmem := BMap.mem_ofList_of_sorted l hsl
      refine ⟨k1, BMap.sorted_ofList l, ?_, ?_⟩
      · intro t
        rw [← g2 t]
        simp only [hmem]
        have a : (∃ st', (t, st') ∈ l) ↔ t ∈ l.map (·.1) := by simp
        have b : (∃ items, (t, items) ∈ shuffleIter compare (itemCmp addr) st.shiftPairs) ↔
            t ∈ (shuffleIter compare (itemCmp addr) st.shiftPairs).map (·.1) := by simp
        rw [a, b, k2]
      · intro t st' hm
        obtain ⟨items, σ₁, σ₂, j1, j2, j3⟩ := k3 t st' ((hmem _).1 hm)
        obtain ⟨j4, j5⟩ := g3 t items j1
        obtain ⟨-, j6, j7⟩ := fromProdLookahead_spec hv ha hc j4 j2 j3
        exact ⟨items, j4, j5, j6, j7⟩

theorem stateOk_of_fact {st : ParseState T NT AK AV} {items} (hk : Kernel g items)
    (hwf : ItemWF addr st.prods) (h : ∀ s o, st.Has s o ↔ LalrFact g items s o) :
    StateOk addr g st := by
  refine ⟨hwf, ?_⟩
  rintro ⟨s, la⟩ he
  exact (((h s none).1 ⟨la, he, by simp⟩).kernelItem hk.prods).2

theorem ParseState.Obtained.ok (hv : g.Valid) (ha : AddrInj g addr) {st : ParseState T NT AK AV}
    (h : ParseState.Obtained addr g st) : StateOk addr g st := by
  induction h with
  | new hc hu hk h =>
    obtain ⟨-, h1, h2⟩ := fromProdLookahead_spec hv ha hc hk hu h
    exact stateOk_of_fact hk h1 h2
  | shift hc hu _ h hm ih =>
    obtain ⟨-, -, -, h2⟩ := shiftActions_ok hv ha hc ih hu h
    obtain ⟨items, k1, -, k2, k3⟩ := h2 _ _ hm
    exact stateOk_of_fact k1 k2 k3
end
end Bongo
