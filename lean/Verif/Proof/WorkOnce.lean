import Verif.Proof.EarleyWork
import Verif.Proof.EarleySpan
/-! # The calls of a parse of an input that is divided in one way only -/
set_option linter.unusedSectionVars false
namespace Bongo
open Std TreeProg
variable {T NT AK AV V Λ : Type}

section
variable {sg : StartGrammar T NT AK AV} {toks : List (Token T V)}

/-- The first element of an item begins where the item does. -/
theorem espan_first (hu : EUnique sg toks) {p i} (d : Nat) :
    ∀ {j}, EItem sg toks j p (d + 1) i → (espan sg toks p i (d + 1) j 0).1 = i := by
  induction d with
  | zero =>
    intro j h
    obtain ⟨k, hk⟩ := h.succ
    rw [espan, if_pos rfl, ecut_eq hu hk]
    exact hk.1.zero.symm
  | succ d ih =>
    intro j h
    obtain ⟨k, hk⟩ := h.succ
    rw [espan, if_neg (by omega), ecut_eq hu hk]
    exact ih hk.1

/-- The last one ends where the item is. -/
theorem espan_last {p : SProd T NT AK AV} {i d j : Nat} : (espan sg toks p i (d + 1) j d).2 = j := by
  rw [espan, if_pos rfl]
end

/-- The contents in the table are leaves, or belong to the sets. -/
def Known (Zs : List (EarleyStateSet T NT AK AV)) (I : Inner T AK V) : Prop :=
  ∀ a c, I.altAt a = some c → (∃ k v, c = .leaf k v) ∨
    ∃ (j : Nat) (Zj : EarleyStateSet T NT AK AV), Zs[j]? = some Zj ∧ ContentOf Zj c

section
variable {sg : StartGrammar T NT AK AV} {toks : List (Token T V)}
variable [Ord T] [Ord NT] [Ord AK] [Ord V] [DecidableEq T] [DecidableEq NT]
variable [TransOrd T] [TransOrd NT] [TransOrd AK] [TransOrd V]
variable [LawfulEqOrd T] [LawfulEqOrd NT] [LawfulEqOrd AK] [LawfulEqOrd V]
variable {addr : StartNonTerminal NT → Nat → Nat} {N : Nat} {I : Inner T AK V} {L : Nat → Nat × Nat → Prop}
variable {w : World T AK V} {t : Nat}

theorem Known.step {prev : List (EarleyStateSet T NT AK AV)} {Z Z' : EarleyStateSet T NT AK AV}
    {I I' : Inner T AK V} (hk : Known (prev ++ [Z]) I) (hZ : ∀ e ∈ Z, e ∈ Z')
    (he : Inner.Ext N (ContentOf Z') I I') : Known (prev ++ [Z']) I' := by
  intro a c hc
  rcases he.new a c hc with hc | hc
  · rcases hk a c hc with h | ⟨j, Zj, hj, e, h1, h2⟩
    · exact Or.inl h
    · rcases getElem?_concat hj with ⟨hlt, hj⟩ | ⟨rfl, rfl⟩
      · exact Or.inr ⟨j, Zj, by rw [List.getElem?_append_left hlt]; exact hj, e, h1, h2⟩
      · exact Or.inr ⟨prev.length, Z', by simp, e, hZ e h1, h2⟩
  · exact Or.inr ⟨prev.length, Z', by simp, hc⟩

/-- No node has more alternatives than there are productions, plus one. -/
theorem alts_few (hg : SGOk addr sg) (hu : EUnique sg toks) (ht : Typed (spanLabel hu) N I L)
    {Zs : List (EarleyStateSet T NT AK AV)}
    (hsets : ∀ k Zk, Zs[k]? = some Zk → SetOk (spanLabel hu) addr k L Zk) (hk : Known Zs I)
    {n : Nat} {ℓ : Nat × Nat} (hL : L n ℓ) {l : List Nat} (hnd : l.Nodup) (hl : ∀ a ∈ l, I.Has n a) :
    l.length ≤ sg.prods.length + 1 := by
  classical
  let entry : SProd T NT AK AV → EarleyStateKey T NT AK AV × List Nat → Prop := fun q e =>
    ∃ Zj, Zs[ℓ.2]? = some Zj ∧ e ∈ Zj ∧ e.1.prodState.prod = q ∧ e.1.originIndex = ℓ.1
  let vals : SProd T NT AK AV → List Nat := fun q => if h : ∃ e, entry q e then h.choose.2 else []
  have hvals : ∀ q e, entry q e → vals q = e.2 := by
    intro q e he
    have hex : ∃ e, entry q e := ⟨e, he⟩
    simp only [vals, dif_pos hex]
    obtain ⟨Z1, a1, a2, a3, a4⟩ := hex.choose_spec
    obtain ⟨Z2, b1, b2, b3, b4⟩ := he
    rw [a1] at b1
    cases b1
    rw [(hsets _ _ a1).unique hg.wf hg.addr a2 b2 (a3.trans b3.symm) (a4.trans b4.symm)]
  let cand : SProd T NT AK AV → Option (NodeContent T AK V) := fun q =>
    q.actionKey.asBase.map fun ak => .branch ak (vals q)
  let U : List (NodeContent T AK V) :=
    (toks[ℓ.1]?.map fun tok => NodeContent.leaf tok.kind tok.value).toList ++ sg.prods.filterMap cand
  have hU : U.length ≤ sg.prods.length + 1 := by
    have h1 := List.length_filterMap_le cand sg.prods
    simp only [U, List.length_append]
    cases toks[ℓ.1]? <;> simp <;> omega
  have hmem : ∀ a ∈ l, ∃ c ∈ U, I.altAt a = some c := by
    intro a ha
    obtain ⟨c, hc, hok⟩ := ht.ok n ℓ hL a (hl a ha)
    refine ⟨c, ?_, hc⟩
    cases c with
    | leaf kind value =>
      obtain ⟨k, tok, h1, rfl, rfl, h2⟩ := hok
      simp only [spanLabel] at h2
      subst h2
      simp [U, h1]
    | branch ak ns =>
      obtain ⟨j, q, k, h1, h2, h3, h4, h5⟩ := hok
      simp only [spanLabel] at h4
      subst h4
      refine List.mem_append_right _ (List.mem_filterMap.2 ?_)
      rcases ns with _ | ⟨n0, ns⟩
      · refine ⟨q, h1.mem, ?_⟩
        have hv : vals q = [] := by
          by_cases hex : ∃ e, entry q e
          · obtain ⟨e, he⟩ := hex
            rw [hvals q e he]
            obtain ⟨Z1, a1, a2, a3, a4⟩ := he
            obtain ⟨b1, b2, -⟩ := (hsets _ _ a1).entry e a2
            have b3 := b1.bounds.1
            rw [a3, Prod.elements_length] at b3
            simp only [List.length_nil] at h3
            exact List.eq_nil_of_length_eq_zero (by omega)
          · simp only [vals, dif_neg hex]
        simp only [cand, h2, Option.map_some, hv]
      · rcases hk a _ hc with ⟨_, _, h⟩ | ⟨j', Zj, hj', e, he, ak', h6, h7⟩
        · cases h
        · injection h7 with h8 h9
          subst h8
          obtain ⟨b1, b2, b3⟩ := (hsets _ _ hj').entry e he
          rw [← h9] at b2 b3
          have h3' : q.numElements = ns.length + 1 := h3.symm
          have b2' : e.1.prodState.index = ns.length + 1 := b2.symm
          rw [h3'] at h1
          rw [b2'] at b1
          simp only [spanLabel, h3'] at h5
          simp only [spanLabel, b2'] at b3
          have c1 := ht.func _ _ _ (h5 0 n0 rfl) (b3 0 n0 rfl)
          have c2 := congrArg _root_.Prod.fst c1
          rw [espan_first hu _ h1, espan_first hu _ b1] at c2
          obtain ⟨m, hm⟩ : ∃ m, (n0 :: ns)[ns.length]? = some m :=
            ⟨_, List.getElem?_eq_getElem (by simp)⟩
          have c3 := congrArg _root_.Prod.snd (ht.func _ _ _ (h5 _ m hm) (b3 _ m hm))
          rw [espan_last, espan_last] at c3
          subst c3
          refine ⟨e.1.prodState.prod, b1.mem, ?_⟩
          simp only [cand, h6, Option.map_some, hvals _ e ⟨Zj, hj', he, rfl, c2.symm⟩, h9]
  have hnd' : (l.map I.altAt).Nodup := by
    refine List.Nodup.map_on ?_ hnd
    intro a ha b hb hab
    obtain ⟨c, -, hc⟩ := hmem a ha
    exact ht.wf.altAt_inj hc (hab ▸ hc)
  have := nodup_subset_length hnd' (U := U.map some) (by
    intro x hx
    obtain ⟨a, ha, rfl⟩ := List.mem_map.1 hx
    obtain ⟨c, h1, h2⟩ := hmem a ha
    exact List.mem_map.2 ⟨c, h1, h2.symm⟩)
  simp only [List.length_map] at this
  omega

/-- The facts of the closing loop that hold. -/
noncomputable def present {S X : Type} (U : List X) (F : S → X → Prop) (s : S) : Nat :=
  open Classical in (U.filter fun x => F s x).length

theorem missing_present {S X : Type} (U : List X) (F : S → X → Prop) (s : S) :
    missing U F s + present U F s = U.length := by
  classical
  unfold missing present
  induction U with
  | nil => rfl
  | cons a U ih =>
    simp only [List.filter_cons]
    by_cases h : F s a <;> simp [h] at ih ⊢ <;> omega

/-- Not many facts can hold. -/
theorem present_le (hg : SGOk addr sg) (hu : EUnique sg toks) {E : Nat} (hE : ∀ p ∈ sg.prods, p.numElements ≤ E)
    (ht : Typed (spanLabel hu) N I L) {prev : List (EarleyStateSet T NT AK AV)} {Z : EarleyStateSet T NT AK AV}
    (hsets : ∀ k Zk, (prev ++ [Z])[k]? = some Zk → SetOk (spanLabel hu) addr k L Zk)
    (hk : Known (prev ++ [Z]) I) (B : Nat) :
    present (factUniv sg prev.length B) EFact (I, Z) ≤ (keyUniv sg prev.length).length +
      (keyUniv sg prev.length).length * (E * (sg.prods.length + 1)) := by
  classical
  have hz := hsets prev.length Z (by simp)
  unfold present factUniv
  rw [List.filter_append, List.length_append]
  refine Nat.add_le_add (Nat.le_trans (List.length_filter_le _ _) (by simp)) ?_
  rw [List.filter_flatMap]
  refine flatMap_length_le _ _ ?_
  rintro ⟨p, i⟩ hp
  rw [List.filter_flatMap]
  refine Nat.le_trans (flatMap_length_le _ _ (n := sg.prods.length + 1) ?_) ?_
  · intro x _
    rw [List.filter_map, List.length_map]
    set l := (List.range B).filter _ with hl
    have hmem : ∀ a ∈ l, EFact (I, Z) (.inr (p, i, x, a)) := by
      intro a ha
      rw [hl] at ha
      simpa using (List.mem_filter.1 ha).2
    have hnd : l.Nodup := List.nodup_range.filter _
    rcases hl0 : l with _ | ⟨a, l'⟩
    · simp
    · obtain ⟨e, he, h1, h2, n, hn, -⟩ := hmem a (by rw [hl0]; simp)
      rw [← hl0]
      refine alts_few hg hu ht hsets hk ((hz.entry e he).2.2 x n hn) hnd ?_
      intro b hb
      obtain ⟨e', he', h1', h2', n', hn', hb'⟩ := hmem b hb
      have := hz.unique hg.wf hg.addr he he' (h1.trans h1'.symm) (h2.trans h2'.symm)
      subst this
      rw [hn] at hn'
      cases hn'
      exact hb'
  · rw [List.length_range]
    exact Nat.mul_le_mul_right _ (hE p (mem_keyUniv.1 hp).1)
/-- The passes for one token. -/
def passBoundOnce (P E M : Nat) : Nat := M + M * (E * (P + 1)) + 1

/-- The calls for one token. -/
def setWorkOnce (P E M : Nat) : Nat := M * (E + 4) + passBoundOnce P E M * passWork P E M

/-- The calls of `close_state`. -/
theorem close_calls_once (hg : SGOk addr sg) (hu : EUnique sg toks) {E : Nat} (hE : ∀ p ∈ sg.prods, p.numElements ≤ E)
    {prev : List (EarleyStateSet T NT AK AV)} {Z : EarleyStateSet T NT AK AV} (ht : Typed (spanLabel hu) N I L)
    (hsets : ∀ k Zk, (prev ++ [Z])[k]? = some Zk → SetOk (spanLabel hu) addr k L Zk)
    (hk : Known (prev ++ [Z]) I) {M : Nat}
    (hM : sg.prods.length * (prev.length + 1) ≤ M) (fuel : Nat) :
    (closeStateProg addr sg t fuel prev Z).calls (w.set t I) ≤
      passBoundOnce sg.prods.length E M * passWork sg.prods.length E M ∧
    (∀ I' Z', closeState addr sg fuel prev (I, Z) = .ok (I', Z') → Known (prev ++ [Z']) I') ∧
    (passBoundOnce sg.prods.length E M ≤ fuel → closeState addr sg fuel prev (I, Z) ≠ .oof) := by
  have hK : (keyUniv sg prev.length).length ≤ M := by rw [keyUniv_length]; exact hM
  let B := I.alternatives.idToValue.length + (keyUniv sg prev.length).length
  let C := M + M * (E * (sg.prods.length + 1))
  let P : Inner T AK V × EarleyStateSet T NT AK AV → Prop := CloseInv (spanLabel hu) addr N prev I L Z
  let μ : Inner T AK V × EarleyStateSet T NT AK AV → Nat := fun st => C - present (factUniv sg prev.length B) EFact st
  have hP0 : P (I, Z) := ⟨L, ht, fun _ _ h => h, hsets, .refl _ _ _, fun _ h => h⟩
  have hknown : ∀ st, P st → Known (prev ++ [st.2]) st.1 := by
    rintro st ⟨L1, -, -, -, h4, h5⟩
    exact hk.step h5 h4
  have hpres : ∀ st, P st → present (factUniv sg prev.length B) EFact st ≤ C := by
    intro st hst
    obtain ⟨L1, h1, -, h3, -, -⟩ := id hst
    refine Nat.le_trans (present_le hg hu hE h1 h3 (hknown st hst) B) ?_
    exact Nat.add_le_add hK (Nat.mul_le_mul_right _ hK)
  have hpass : ∀ st, P st → ∀ st' c, closePass addr sg prev st = .ok (st', c) →
      P st' ∧ (c = .changed → μ st' < μ st) := by
    intro st hst st' c hc
    obtain ⟨h1, h2, -⟩ := CloseInv.pass hg hst hc
    refine ⟨h1, fun hch => ?_⟩
    have h3 : missing (factUniv sg prev.length B) EFact st' < missing (factUniv sg prev.length B) EFact st := h2 hch
    have h4 := missing_present (factUniv sg prev.length B) EFact st
    have h5 := missing_present (factUniv sg prev.length B) EFact st'
    have h6 := hpres st' h1
    have h7 := hpres st hst
    show C - present (factUniv sg prev.length B) EFact st' < C - present (factUniv sg prev.length B) EFact st
    omega
  have hmiss : μ (I, Z) ≤ C := Nat.sub_le _ _
  refine ⟨?_, ?_, ?_⟩
  · unfold closeStateProg
    split
    · exact Nat.zero_le _
    · refine Nat.le_trans (calls_changeLoop (st := id) (w := w) (t := t)
        (fun s => agree_closePass (addr := addr) (g := sg) prev s)
        (P := P) μ (C := passWork sg.prods.length E M) hpass ?_
        fuel (I, Z) hP0) ?_
      · rintro st ⟨L1, h1, -, h3, -⟩
        exact pass_calls hg hE h1 h3 hM
      · exact Nat.mul_le_mul_right _ (Nat.succ_le_succ hmiss)
  · intro I' Z' hc
    have hinv : ∀ fuel (st : Inner T AK V × EarleyStateSet T NT AK AV), P st →
        ∀ st', changeLoop fuel (closePass addr sg prev) st = .ok st' → P st' := by
      intro fuel
      induction fuel with
      | zero => intro st _ st' h; cases h
      | succ fuel ih =>
        intro st hst st' h
        unfold changeLoop at h
        split at h
        · next h' => exact ih _ (hpass st hst _ _ h').1 _ h
        · next h' => cases h; exact (hpass st hst _ _ h').1
        · cases h
        · cases h
    unfold closeState at hc
    split at hc
    · cases hc
    · exact hknown _ (hinv fuel _ hP0 _ hc)
  · intro hf
    unfold closeState
    split
    · simp
    · have hstep : ∀ st, P st → (∃ st' c, closePass addr sg prev st = .ok (st', c) ∧ P st' ∧
          (c = .changed → μ st' < μ st)) ∨
          (∃ p, closePass addr sg prev st = .panic p ∧ True) := by
        rintro st hst
        obtain ⟨L1, h1, h2, h3, h4, h5⟩ := id hst
        rcases closePass_spec (I := st.1) (Z := st.2) hg h1 h3 with ⟨I2, Z2, c2, L2, g1, -⟩ | ⟨p, g1, g2⟩
        · exact Or.inl ⟨_, _, g1, hpass st hst _ _ g1⟩
        · exact Or.inr ⟨p, g1, trivial⟩
      rcases changeLoop_or_panic (P := P) μ hstep hP0
        (fuel := fuel) (by unfold passBoundOnce at hf; omega) with ⟨s₁, s₂, e1, -⟩ | ⟨p, e1, -⟩
      · rw [e1]; simp
      · rw [e1]; simp

/-- The calls of the loop over the tokens. -/
theorem parseLoop_calls_once (hg : SGOk addr sg) (hu : EUnique sg toks) {E : Nat} (hE : ∀ p ∈ sg.prods, p.numElements ≤ E)
    {I0 : Inner T AK V} (fuel : Nat) {M : Nat} (hM : sg.prods.length * (toks.length + 1) ≤ M)
    (rest : List (Token T V))
    {before : List (EarleyStateSet T NT AK AV)} {last : EarleyStateSet T NT AK AV}
    (hr : RunOk (spanLabel hu) addr I0 (before ++ [last]) I L) (hrest : toks.drop before.length = rest)
    (hlen : before.length ≤ toks.length) (hk : Known (before ++ [last]) I) :
    (parseLoopProg addr sg t fuel before last rest).calls (w.set t I) ≤
      rest.length * setWorkOnce sg.prods.length E M ∧
    (passBoundOnce sg.prods.length E M ≤ fuel → parseLoop addr sg fuel before last I rest ≠ .oof) := by
  induction rest generalizing before last I L with
  | nil => exact ⟨Nat.zero_le _, fun _ => by simp [parseLoop]⟩
  | cons tok rest ih =>
    have hlt : before.length < toks.length := by
      have := congrArg List.length hrest; simp at this; omega
    have htok : toks[before.length]? = some tok := by
      have : (toks.drop before.length)[0]? = some tok := by rw [hrest]; rfl
      simpa using this
    have hl1 : (before ++ [last]).length = before.length + 1 := by simp
    have hdrop : toks.drop (before ++ [last]).length = rest := by
      rw [hl1, ← List.drop_drop, hrest]; rfl
    have hlast : (before ++ [last])[before.length]? = some last := by simp
    have hz := hr.sets _ _ hlast
    have hMl : ∀ k, k ≤ toks.length → sg.prods.length * (k + 1) ≤ M := fun k hk =>
      Nat.le_trans (Nat.mul_le_mul_left _ (by omega)) hM
    have hll : last.length ≤ M := by
      have := hz.length_le hg
      rw [keyUniv_length] at this
      exact Nat.le_trans this (hMl _ hlen)
    -- the shifted set
    obtain ⟨I1, Z1, L1, h1, h2, h3, h4, h5, -, -⟩ := shift_spec hg htok (EarleyStateSet.states last)
      (by
        unfold EarleyStateSet.states
        rw [List.pairwise_map]
        have := hz.sorted
        unfold BMap.Sorted at this
        refine List.Pairwise.imp ?_ this
        intro a b hab
        simp [hab]) (acc := []) hr.typed
      (fun s hs => hz.entry _ (mem_states.1 hs)) ⟨BMap.sorted_nil, by simp⟩ (by simp)
    have s1 : (EarleyStateSet.shiftProg addr t tok (EarleyStateSet.states last) []).calls (w.set t I) ≤
        M * (E + 4) := by
      refine Nat.le_trans (shift_calls (E := E) tok _ ?_ _ _) ?_
      · intro s hs
        have h6 := hz.entry _ (mem_states.1 hs)
        rw [show s.value.length = _ from h6.2.1]
        have h7 := h6.1.bounds.1
        rw [Prod.elements_length] at h7
        exact Nat.le_trans h7 (hE _ h6.1.mem)
      · refine Nat.mul_le_mul_right _ ?_
        simpa [EarleyStateSet.states] using hll
    have sag := agree_shift (addr := addr) (w := w) (t := t) tok (EarleyStateSet.states last) (I, [])
    rw [h1] at sag
    simp only [Agree, id] at sag
    -- closing it
    have hsets : ∀ k Zk, ((before ++ [last]) ++ [Z1])[k]? = some Zk → SetOk (spanLabel hu) addr k L1 Zk := by
      intro k Zk h
      rcases getElem?_concat h with ⟨-, h⟩ | ⟨rfl, rfl⟩
      · exact (hr.sets k Zk h).mono h3
      · rw [hl1]; exact h4
    have hk1 : Known (before ++ [last] ++ [Z1]) I1 := by
      intro a c hc
      rcases h5.new a c hc with hc | rfl
      · rcases hk a c hc with h | ⟨j, Zj, hj, h⟩
        · exact Or.inl h
        · exact Or.inr ⟨j, Zj, by
            rw [List.getElem?_append_left (List.getElem?_eq_some_iff.1 hj).1]; exact hj, h⟩
      · exact Or.inl ⟨_, _, rfl⟩
    obtain ⟨c1, c2, c0⟩ := close_calls_once (w := w) (t := t) hg hu hE h2 hsets hk1 (M := M)
      (by rw [hl1]; exact hMl _ (by omega)) fuel
    have cag := agree_closeState (addr := addr) (g := sg) (w := w) (t := t) fuel (before ++ [last]) (I1, Z1)
    have hc1 : (closeStateProg addr sg t fuel (before ++ [last]) Z1).calls (w.set t I1) + M * (E + 4) ≤
        setWorkOnce sg.prods.length E M := by
      unfold setWorkOnce
      omega
    unfold parseLoopProg parseLoop
    rw [bind_def, calls_bind, sag, h1]
    simp only
    rw [bind_def, calls_bind]
    rw [List.length_cons, Nat.add_one_mul]
    simp only at cag
    cases hcl : closeState addr sg fuel (before ++ [last]) (I1, Z1) with
    | panic p =>
      refine ⟨?_, by simp⟩
      rw [hcl] at cag
      simp only [Agree] at cag
      rcases hrr : (closeStateProg addr sg t fuel (before ++ [last]) Z1).run (w.set t I1) with ⟨w', r⟩
      rw [hrr] at cag
      simp only at cag
      subst cag
      simp only; omega
    | oof =>
      refine ⟨?_, fun hf => absurd hcl (c0 hf)⟩
      rw [hcl] at cag
      simp only [Agree] at cag
      rcases hrr : (closeStateProg addr sg t fuel (before ++ [last]) Z1).run (w.set t I1) with ⟨w', r⟩
      rw [hrr] at cag
      simp only at cag
      subst cag
      simp only; omega
    | ok r =>
      obtain ⟨I', new⟩ := r
      rw [hcl] at cag
      simp only [Agree, id] at cag
      rw [cag]
      simp only
      have c3 := c2 _ _ hcl
      obtain ⟨st, F, k1, k2⟩ := token_step hg hr htok
      rw [h1] at k1
      cases k1
      have hm : closeState addr sg (max F fuel) (before ++ [last]) (I1, Z1) = .ok (I', new) := by
        rw [closeState_mono (Nat.le_max_right F fuel) (by rw [hcl]; simp), hcl]
      have hrun : ∃ L', RunOk (spanLabel hu) addr I0 (before ++ [last] ++ [new]) I' L' := by
        rcases k2 with ⟨I'', new', L', k3, k4, -⟩ | ⟨k3, -⟩ | ⟨_, k3, -⟩
        · have := k3 _ (Nat.le_max_left F fuel)
          rw [hm] at this
          cases this
          exact ⟨L', k4⟩
        · have := k3 _ (Nat.le_max_left F fuel); rw [hm] at this; cases this
        · have := k3 _ (Nat.le_max_left F fuel); rw [hm] at this; cases this
      obtain ⟨L', hrun⟩ := hrun
      obtain ⟨e1, e2⟩ := ih hrun hdrop (by omega) c3
      exact ⟨by omega, e2⟩
end

section
variable [Ord T] [Ord NT] [Ord AK] [Ord V] [DecidableEq T] [DecidableEq NT]
variable [TransOrd T] [TransOrd NT] [TransOrd AK] [TransOrd V]
variable [LawfulEqOrd T] [LawfulEqOrd NT] [LawfulEqOrd AK] [LawfulEqOrd V]
variable {addr : StartNonTerminal NT → Nat → Nat} {g : Grammar T NT AK AV}

/-- The calls of `parse` in a tree with no alternatives. -/
theorem parse_calls_once (hw : g.WF) (ha : AddrInj g.wrapped addr) {E : Nat}
    (hE : ∀ p ∈ g.wrapped.prods, p.numElements ≤ E) {toks : List (Token T V)} (hu : EUnique g.wrapped toks) (t fuel : Nat) {M : Nat}
    (hM : g.wrapped.prods.length * (toks.length + 1) ≤ M) :
    (parseProg addr g.wrapped t fuel toks).calls (World.new : World T AK V) ≤
      (toks.length + 1) * setWorkOnce g.wrapped.prods.length E M ∧
    (passBoundOnce g.wrapped.prods.length E M ≤ fuel →
      parse addr g.wrapped fuel (World.new : World T AK V) t toks ≠ .oof) := by
  have hg := wrapped_sgok hw ha
  let w : World T AK V := World.new
  have hI : (w t).WF := (History.start (T := T) (AK := AK) (V := V)).inv.wf t
  have h0 : (w t).alternatives.idToValue.length = 0 := rfl
  have hset : w.set t (w t) = w := by
    funext t'
    simp only [World.set]
    split
    · next e => rw [e]
    · rfl
  let lb := spanLabel hu
  obtain ⟨hr0, hz0, hk0⟩ := start_kernel (addr := addr) hw lb hI
  let Z0 : EarleyStateSet T NT AK AV := [(⟨⟨startRef g, 0⟩, 0⟩, [])]
  have hM1 : g.wrapped.prods.length * ([] : List (EarleyStateSet T NT AK AV)).length.succ ≤ M :=
    Nat.le_trans (Nat.mul_le_mul_left _ (by simp)) hM
  have hsets : ∀ k Zk, (([] : List (EarleyStateSet T NT AK AV)) ++ [Z0])[k]? = some Zk →
      SetOk lb addr k (fun _ _ => False) Zk := by
    intro k Zk h
    rcases getElem?_concat h with ⟨-, h⟩ | ⟨rfl, rfl⟩
    · simp at h
    · exact hz0
  have hk1 : Known ([] ++ [Z0]) (w t) := by
    intro a c hc
    have : (([] : List (NodeContent T AK V)))[a]? = some c := hc
    simp at this
  obtain ⟨c1, c2, c0⟩ := close_calls_once (w := w) (t := t) hg hu hE hr0.typed hsets hk1 hM1 fuel
  have nag := agree_newStart (addr := addr) (g := g.wrapped) (w := w) (t := t) (w t)
  rw [newStart_wrapped] at nag
  simp only [Agree, id] at nag
  have n1 : (EarleyStateSet.newStartProg addr t g.wrapped).calls w ≤ 0 := by
    unfold EarleyStateSet.newStartProg
    split
    · refine fromStates_calls _ ?_ _ w
      intro s hs
      obtain ⟨p, -, rfl⟩ := List.mem_map.1 hs
      rfl
    · exact Nat.le_refl _
    · exact Nat.le_refl _
  have cag := agree_closeState (addr := addr) (g := g.wrapped) (w := w) (t := t) fuel [] (w t, Z0)
  simp only at cag
  have hc1 : (closeStateProg addr g.wrapped t fuel [] Z0).calls (w.set t (w t)) ≤
      setWorkOnce g.wrapped.prods.length E M := by
    unfold setWorkOnce
    omega
  show (parseProg addr g.wrapped t fuel toks).calls w ≤ _ ∧ (_ → parse addr g.wrapped fuel w t toks ≠ .oof)
  unfold parseProg
  rw [bind_def, calls_bind]
  rw [hset] at nag
  rw [nag]
  have hparse : ∀ (hn : parseInner addr g.wrapped fuel (w t) toks ≠ .oof),
      parse addr g.wrapped fuel w t toks ≠ .oof := by
    intro hn
    unfold parse
    split <;> simp_all
  simp only
  rw [bind_def, calls_bind]
  rw [hset] at hc1
  rw [Nat.add_one_mul]
  cases hcl : closeState addr g.wrapped fuel [] (w t, Z0) with
  | panic p =>
    refine ⟨?_, fun _ => hparse (by
      unfold parseInner; rw [newStart_wrapped]; simp only [Z0] at hcl; simp [hcl])⟩
    rw [hcl] at cag
    simp only [Agree] at cag
    rw [hset] at cag
    rcases hrr : (closeStateProg addr g.wrapped t fuel [] Z0).run w with ⟨w', r⟩
    rw [hrr] at cag
    simp only at cag
    subst cag
    simp only [Z0] at hc1
    simp only; omega
  | oof =>
    refine ⟨?_, fun hf => absurd hcl (c0 hf)⟩
    rw [hcl] at cag
    simp only [Agree] at cag
    rw [hset] at cag
    rcases hrr : (closeStateProg addr g.wrapped t fuel [] Z0).run w with ⟨w', r⟩
    rw [hrr] at cag
    simp only at cag
    subst cag
    simp only [Z0] at hc1
    simp only; omega
  | ok r =>
    obtain ⟨I', Z'⟩ := r
    rw [hcl] at cag
    simp only [Agree, id] at cag
    rw [hset] at cag
    simp only [Z0] at cag hc1
    rw [cag]
    simp only
    rw [bind_def, calls_bind]
    have c3 := c2 _ _ hcl
    obtain ⟨F, k⟩ := close_kernel hg (by simp) hr0 hz0 hk0
    have hm : closeState addr g.wrapped (max F fuel) [] (w t, Z0) = .ok (I', Z') := by
      rw [closeState_mono (Nat.le_max_right F fuel) (by rw [hcl]; simp), hcl]
    have hrun : ∃ L', RunOk lb addr (w t) ([] ++ [Z']) I' L' := by
      rcases k with ⟨I'', new', L', k3, k4, -⟩ | ⟨_, k3, -⟩
      · have := k3 _ (Nat.le_max_left F fuel)
        simp only [Z0] at hm
        rw [hm] at this
        cases this
        exact ⟨L', k4⟩
      · have := k3 _ (Nat.le_max_left F fuel); simp only [Z0] at hm; rw [hm] at this; cases this
    obtain ⟨L', hrun⟩ := hrun
    obtain ⟨hp, hp2⟩ := parseLoop_calls_once (w := w) (t := t) hg hu hE fuel hM toks hrun (by simp) (by simp) c3
    refine ⟨?_, fun hf => hparse ?_⟩
    swap
    · have h1 := hp2 hf
      simp only [Z0] at hcl
      unfold parseInner
      rw [newStart_wrapped]
      simp only [hcl]
      cases hpl : parseLoop addr g.wrapped fuel [] Z' I' toks with
      | oof => exact absurd hpl h1
      | panic p => simp
      | ok x =>
        obtain ⟨i'', last⟩ := x
        simp only
        have := getFinal_not_oof last
        cases hgf : EarleyStateSet.getFinal last with
        | oof => exact absurd hgf this
        | panic p => simp
        | ok n => simp
    rcases (parseLoopProg addr g.wrapped t fuel [] Z' toks).run (w.set t I') with ⟨w', r⟩
    cases r with
    | ok a =>
      simp only
      cases EarleyStateSet.getFinal a <;> simp only [TreeProg.calls] <;> omega
    | panic p => simp only; omega
    | oof => simp only; omega
end
end Bongo
