import Verif.Proof.Calls
import Verif.Proof.EarleyParse
import Verif.Proof.EarleyTree
import Verif.Proof.Forest
/-! # The calls of a parse that starts in a small tree -/
set_option linter.unusedSectionVars false
namespace Bongo
open Std TreeProg
variable {T NT AK AV V Λ : Type}

theorem keyUniv_length (sg : StartGrammar T NT AK AV) (j : Nat) :
    (keyUniv sg j).length = sg.prods.length * (j + 1) := by
  unfold keyUniv
  induction sg.prods with
  | nil => simp
  | cons p l ih => simp only [List.flatMap_cons, List.length_append, ih]; simp [Nat.add_one_mul]; omega

theorem flatMap_length_le {α β : Type} (l : List α) (f : α → List β) {n : Nat}
    (h : ∀ a ∈ l, (f a).length ≤ n) : (l.flatMap f).length ≤ l.length * n := by
  induction l with
  | nil => simp
  | cons a l ih =>
    have h1 := h a (by simp)
    have h2 := ih (fun a ha => h a (by simp [ha]))
    simp only [List.flatMap_cons, List.length_append, List.length_cons, Nat.add_one_mul]; omega

theorem factUniv_length {sg : StartGrammar T NT AK AV} {E : Nat}
    (hE : ∀ p ∈ sg.prods, p.numElements ≤ E) (j B : Nat) :
    (factUniv sg j B).length ≤ (keyUniv sg j).length + (keyUniv sg j).length * (E * B) := by
  unfold factUniv
  rw [List.length_append, List.length_map]
  refine Nat.add_le_add_left (flatMap_length_le _ _ ?_) _
  rintro ⟨p, i⟩ hp
  refine Nat.le_trans (flatMap_length_le _ _ (n := B) (by simp)) ?_
  rw [List.length_range]
  have hp' : p ∈ sg.prods := by
    unfold keyUniv at hp
    obtain ⟨q, hq, h⟩ := List.mem_flatMap.1 hp
    obtain ⟨x, -, hx⟩ := List.mem_map.1 h
    rw [_root_.Prod.mk.injEq] at hx
    rw [← hx.1]; exact hq
  exact Nat.mul_le_mul_right _ (hE p hp')

section
variable {sg : StartGrammar T NT AK AV} {toks : List (Token T V)} {lb : Labelling sg toks Λ}
variable [Ord T] [Ord NT] [Ord AK] [Ord V] [DecidableEq T] [DecidableEq NT]
variable [TransOrd T] [TransOrd NT] [TransOrd AK] [TransOrd V]
variable [LawfulEqOrd T] [LawfulEqOrd NT] [LawfulEqOrd AK] [LawfulEqOrd V]
variable {addr : StartNonTerminal NT → Nat → Nat} {N : Nat} {I : Inner T AK V} {L : Nat → Λ → Prop}
variable {w : World T AK V} {t : Nat}

/-- If all new contents are in a list, there are no more of them than it has. -/
theorem table_le_of {I I1 : Inner T AK V} (hw : I1.WF) (U : List (NodeContent T AK V))
    (h : Inner.Ext N (· ∈ U) I I1) :
    I1.alternatives.idToValue.length ≤ I.alternatives.idToValue.length + U.length := by
  have hnd : (I1.alternatives.idToValue.drop I.alternatives.idToValue.length).Nodup := by
    rw [List.nodup_iff_injective_getElem]
    intro a b hab
    simp only [List.getElem_drop] at hab
    have ha := List.getElem?_eq_getElem (l := I1.alternatives.idToValue)
      (i := I.alternatives.idToValue.length + a.1) (by have := a.2; simp at this; omega)
    have hb := List.getElem?_eq_getElem (l := I1.alternatives.idToValue)
      (i := I.alternatives.idToValue.length + b.1) (by have := b.2; simp at this; omega)
    rw [← hab] at hb
    have := hw.altAt_inj ha hb
    exact Fin.ext (by omega)
  have := nodup_subset_length hnd (U := U) (by
    intro c hc
    obtain ⟨x, hx⟩ := List.mem_iff_getElem?.1 hc
    rw [List.getElem?_drop] at hx
    rcases h.new _ c hx with h' | h'
    · have := (List.getElem?_eq_some_iff.1 h').1; omega
    · exact h')
  simp at this
  omega

theorem predict_length (g : StartGrammar T NT AK AV) (s : EarleyState T NT AK AV) (n : Nat) :
    (s.predict g n).length ≤ g.prods.length := by
  unfold EarleyState.predict
  split
  · simp
  · split
    · simp
    · next r hr =>
      rw [List.length_map]
      obtain ⟨k, hk, -⟩ := BMap.get?_mem hr
      have hm : r ∈ g.rules := List.mem_map.2 ⟨_, hk, rfl⟩
      unfold Grammar.prods
      obtain ⟨a, b, hab⟩ := List.append_of_mem hm
      rw [hab]
      simp [List.flatMap_append]
      omega

/-- The calls of a loop, each pass of which lowers a measure. -/
theorem calls_changeLoop {S S' : Type} {f : S → TreeProg T AK V (S × WasChanged)}
    {f' : S' → Res (S' × WasChanged)} {st : S' → Inner T AK V × S}
    (h : ∀ s, Agree w t (f (st s).2) (st s).1 (fun r => ((st r.1).1, ((st r.1).2, r.2))) (f' s))
    {P : S' → Prop} (μ : S' → Nat) {C : Nat}
    (hstep : ∀ s, P s → ∀ s' c, f' s = .ok (s', c) → P s' ∧ (c = .changed → μ s' < μ s))
    (hcost : ∀ s, P s → (f (st s).2).calls (w.set t (st s).1) ≤ C) (fuel : Nat) :
    ∀ s : S', P s → (TreeProg.changeLoop fuel f (st s).2).calls (w.set t (st s).1) ≤ (μ s + 1) * C := by
  induction fuel with
  | zero => intro s _; exact Nat.zero_le _
  | succ fuel ih =>
    intro s hs
    unfold TreeProg.changeLoop
    rw [bind_def, calls_bind]
    have h1 := h s
    have h2 := hcost s hs
    have h3 : C ≤ (μ s + 1) * C := by rw [Nat.add_one_mul]; omega
    cases hf : f' s with
    | ok r =>
      obtain ⟨s', c⟩ := r
      obtain ⟨h4, h5⟩ := hstep s hs s' c hf
      rw [hf] at h1
      simp only [Agree] at h1
      rw [h1]
      cases c with
      | unchanged => simp only [TreeProg.calls]; omega
      | changed =>
        simp only
        have h6 := ih s' h4
        have h7 : (μ s' + 1) * C ≤ μ s * C := Nat.mul_le_mul_right _ (h5 rfl)
        rw [Nat.add_one_mul]
        omega
    | panic p =>
      rw [hf] at h1
      simp only [Agree] at h1
      rcases hr : (f (st s).2).run (w.set t (st s).1) with ⟨w', r⟩
      rw [hr] at h1
      simp only at h1
      subst h1
      simp only; omega
    | oof =>
      rw [hf] at h1
      simp only [Agree] at h1
      rcases hr : (f (st s).2).run (w.set t (st s).1) with ⟨w', r⟩
      rw [hr] at h1
      simp only at h1
      subst h1
      simp only; omega

/-- The calls of one pass over sets with at most `M` states. -/
def passWork (P E M : Nat) : Nat := M * (3 * M) + M * (P + M) * E

theorem pass_calls (hg : SGOk addr sg) {E : Nat} (hE : ∀ p ∈ sg.prods, p.numElements ≤ E)
    {prev : List (EarleyStateSet T NT AK AV)} {Z : EarleyStateSet T NT AK AV} (ht : Typed lb N I L)
    (hsets : ∀ k Zk, (prev ++ [Z])[k]? = some Zk → SetOk lb addr k L Zk) {M : Nat}
    (hM : sg.prods.length * (prev.length + 1) ≤ M) :
    (closePassProg addr sg t prev Z).calls (w.set t I) ≤ passWork sg.prods.length E M := by
  have hlen : ∀ Zk ∈ prev ++ [Z], Zk.length ≤ M := by
    intro Zk hZk
    obtain ⟨k, hk⟩ := List.mem_iff_getElem?.1 hZk
    have h1 := (hsets k Zk hk).length_le hg
    rw [keyUniv_length] at h1
    have h2 := (List.getElem?_eq_some_iff.1 hk).1
    simp at h2
    have : sg.prods.length * (k + 1) ≤ sg.prods.length * (prev.length + 1) :=
      Nat.mul_le_mul_left _ (by omega)
    omega
  have hZ : Z.length ≤ M := hlen Z (by simp)
  have hst : (EarleyStateSet.states Z).length = Z.length := by simp [EarleyStateSet.states]
  have c1 : (closureStatesProg sg t prev Z (EarleyStateSet.states Z)).calls (w.set t I) ≤ M * (3 * M) :=
    Nat.le_trans (atMost_closureStates (g := sg) (t := t) (V := V) hlen _ _) (by
      rw [hst]; exact Nat.mul_le_mul_right _ hZ)
  have hag := agree_closureStates (g := sg) (w := w) (t := t) prev Z (EarleyStateSet.states Z) I
  unfold closePassProg
  rw [bind_def, calls_bind]
  rcases closureStates_spec hg
    (EarleyStateSet.states Z) (fun s hs => mem_states.1 hs) ht hsets with
    ⟨I1, L1, out, h1, h2, h3, h4, h5, -, -⟩ | ⟨h1, -⟩
  swap
  · rw [h1] at hag
    simp only [Agree] at hag
    rcases hrr : (closureStatesProg sg t prev Z (EarleyStateSet.states Z)).run (w.set t I) with ⟨w', r⟩
    rw [hrr] at hag
    simp only at hag
    subst hag
    simp only
    unfold passWork
    omega
  rw [h1] at hag
  simp only [Agree, id] at hag
  rw [hag]
  simp only
  have c2 : (TreeProg.changeIter out (EarleyStateSet.insertProg addr t) Z).calls (w.set t I1) ≤
      M * (sg.prods.length + M) * E := by
    refine Nat.le_trans (atMost_changeIter out (n := E) (fun Z s hs => (atMost_insert Z s).mono ?_) Z
      .unchanged _) ?_
    · have h6 := h5 s hs
      rw [h6.2.1]
      have h7 := h6.1.bounds.1
      rw [Prod.elements_length] at h7
      exact Nat.le_trans h7 (hE _ h6.1.mem)
    · refine Nat.mul_le_mul_right _ (Nat.le_trans (closureStates_length hlen
        (fun s => predict_length sg s _) _ h1) ?_)
      rw [hst]
      exact Nat.mul_le_mul_right _ hZ
  unfold passWork
  omega

/-- The calls of `close_state`, and how much it adds to the table. -/
theorem close_calls (hg : SGOk addr sg) {E : Nat} (hE : ∀ p ∈ sg.prods, p.numElements ≤ E)
    {prev : List (EarleyStateSet T NT AK AV)} {Z : EarleyStateSet T NT AK AV} (ht : Typed lb N I L)
    (hsets : ∀ k Zk, (prev ++ [Z])[k]? = some Zk → SetOk lb addr k L Zk) {M : Nat}
    (hM : sg.prods.length * (prev.length + 1) ≤ M) (fuel : Nat) :
    (closeStateProg addr sg t fuel prev Z).calls (w.set t I) ≤
      (M + M * (E * (I.alternatives.idToValue.length + M)) + 1) * passWork sg.prods.length E M ∧
    (∀ I' Z', closeState addr sg fuel prev (I, Z) = .ok (I', Z') →
      I'.alternatives.idToValue.length ≤ I.alternatives.idToValue.length + M) ∧
    (M + M * (E * (I.alternatives.idToValue.length + M)) + 1 ≤ fuel →
      closeState addr sg fuel prev (I, Z) ≠ .oof) := by
  have hK : (keyUniv sg prev.length).length ≤ M := by rw [keyUniv_length]; exact hM
  let B := I.alternatives.idToValue.length + (keyUniv sg prev.length).length
  let P : Inner T AK V × EarleyStateSet T NT AK AV → Prop := CloseInv lb addr N prev I L Z
  have hP0 : P (I, Z) := ⟨L, ht, fun _ _ h => h, hsets, .refl _ _ _, fun _ h => h⟩
  have hpass : ∀ st, P st → ∀ st' c, closePass addr sg prev st = .ok (st', c) →
      P st' ∧ (c = .changed → missing (factUniv sg prev.length B) EFact st' <
        missing (factUniv sg prev.length B) EFact st) := fun st hst st' c hc =>
    ⟨(CloseInv.pass hg hst hc).1, (CloseInv.pass hg hst hc).2.1⟩
  have hmiss : missing (factUniv sg prev.length B) EFact (I, Z) ≤
      M + M * (E * (I.alternatives.idToValue.length + M)) :=
    Nat.le_trans (missing_le_length _ _ _) (Nat.le_trans (factUniv_length hE _ _)
      (Nat.add_le_add hK (Nat.mul_le_mul hK (Nat.mul_le_mul_left _ (Nat.add_le_add_left hK _)))))
  refine ⟨?_, ?_, ?_⟩
  · unfold closeStateProg
    split
    · exact Nat.zero_le _
    · refine Nat.le_trans (calls_changeLoop (st := id) (w := w) (t := t)
        (fun s => agree_closePass (addr := addr) (g := sg) prev s)
        (P := P) (missing (factUniv sg prev.length B) EFact) (C := passWork sg.prods.length E M) hpass ?_
        fuel (I, Z) hP0) ?_
      · rintro st ⟨L1, h1, -, h3, -⟩
        exact pass_calls hg hE h1 h3 hM
      · exact Nat.mul_le_mul_right _ (Nat.succ_le_succ hmiss)
  · intro I' Z' hc
    have hinv : ∀ fuel (st : Inner T AK V × EarleyStateSet T NT AK AV), P st →
        ∀ st', changeLoop fuel (closePass addr sg prev) st = .ok st' → P st' := by
      intro fuel
      induction fuel with
      | zero => intro st _ st' h; cases h
      | succ fuel ih =>
        intro st hst st' h
        unfold changeLoop at h
        split at h
        · next h' => exact ih _ (hpass st hst _ _ h').1 _ h
        · next h' => cases h; exact (hpass st hst _ _ h').1
        · cases h
        · cases h
    unfold closeState at hc
    split at hc
    · cases hc
    · obtain ⟨L1, h1, -, h3, h4, -⟩ := hinv fuel _ hP0 _ hc
      have a1 := table_le h1.wf h4
      have a2 := (h3 prev.length Z' (by simp)).length_le hg
      simp only at a1
      omega
  · intro hf
    unfold closeState
    split
    · simp
    · have hstep : ∀ st, P st → (∃ st' c, closePass addr sg prev st = .ok (st', c) ∧ P st' ∧
          (c = .changed → missing (factUniv sg prev.length B) EFact st' <
            missing (factUniv sg prev.length B) EFact st)) ∨
          (∃ p, closePass addr sg prev st = .panic p ∧ True) := by
        rintro st hst
        obtain ⟨L1, h1, h2, h3, h4, h5⟩ := id hst
        rcases closePass_spec (I := st.1) (Z := st.2) hg h1 h3 with ⟨I2, Z2, c2, L2, g1, -⟩ | ⟨p, g1, g2⟩
        · exact Or.inl ⟨_, _, g1, hpass st hst _ _ g1⟩
        · exact Or.inr ⟨p, g1, trivial⟩
      rcases changeLoop_or_panic (P := P) (missing (factUniv sg prev.length B) EFact) hstep hP0
        (fuel := fuel) (by omega) with ⟨s₁, s₂, e1, -⟩ | ⟨p, e1, -⟩
      · rw [e1]; simp
      · rw [e1]; simp

/-- The value of a scanned state has one node more. -/
theorem scan_value {s : EarleyState T NT AK AV} {tok : Token T V} {w w' : World T AK V} {s'}
    (h : (s.scanProg t tok).run w = (w', .ok (some s'))) : s'.value.length = s.value.length + 1 := by
  unfold EarleyState.scanProg at h
  split at h
  · simp [TreeProg.run] at h
  · split at h
    · simp [TreeProg.run] at h
    · split at h
      · rw [bind_def, run_bind] at h
        split at h
        · simp only [pure_def, TreeProg.run, _root_.Prod.mk.injEq, Res.ok.injEq, Option.some.injEq] at h
          rw [← h.2]
          simp [EarleyState.createNextValue]
        · simp at h
        · simp at h
      · simp [TreeProg.run] at h

theorem shift_calls {E : Nat} (tok : Token T V) (l : List (EarleyState T NT AK AV))
    (hl : ∀ s ∈ l, s.value.length ≤ E) (acc : EarleyStateSet T NT AK AV) :
    AtMost (l.length * (E + 4)) (EarleyStateSet.shiftProg addr t tok l acc) := by
  induction l generalizing acc with
  | nil => exact (atMost_ret _).mono (Nat.zero_le _)
  | cons s l ih =>
    intro w
    unfold EarleyStateSet.shiftProg
    rw [bind_def, calls_bind]
    have h1 := atMost_scan (t := t) (V := V) s tok w
    rw [List.length_cons, Nat.add_one_mul]
    rcases hr : (s.scanProg t tok).run w with ⟨w', r⟩
    cases r with
    | panic p => simp only; omega
    | oof => simp only; omega
    | ok o =>
      cases o with
      | none =>
        simp only
        have := ih (fun s hs => hl s (by simp [hs])) acc w'
        omega
      | some s' =>
        simp only
        have h2 := scan_value hr
        have h3 := hl s (by simp)
        have := ((atMost_insert (addr := addr) (t := t) (V := V) acc s').bind fun r =>
          ih (fun s hs => hl s (by simp [hs])) r.1) w'
        rw [bind_def]
        omega

theorem fromStates_calls (l : List (EarleyState T NT AK AV)) (hl : ∀ s ∈ l, s.value = [])
    (acc : EarleyStateSet T NT AK AV) :
    AtMost 0 (EarleyStateSet.fromStatesProg (V := V) addr t l acc) := by
  induction l generalizing acc with
  | nil => exact atMost_ret _
  | cons s l ih =>
    unfold EarleyStateSet.fromStatesProg
    have := (atMost_insert (addr := addr) (t := t) (V := V) acc s).bind fun r =>
      ih (fun s hs => hl s (by simp [hs])) r.1
    rw [hl s (by simp)] at this
    exact this

/-- The passes for one token. -/
def passBound (E M A : Nat) : Nat := M + M * (E * (A + M)) + 1

theorem passBound_mono {E M A A' : Nat} (h : A ≤ A') : passBound E M A ≤ passBound E M A' := by
  unfold passBound
  have : M * (E * (A + M)) ≤ M * (E * (A' + M)) :=
    Nat.mul_le_mul_left _ (Nat.mul_le_mul_left _ (by omega))
  omega

/-- The calls for one token. -/
def setWork (P E M A : Nat) : Nat := M * (E + 4) + (M + M * (E * (A + M)) + 1) * passWork P E M

theorem setWork_mono {P E M A A' : Nat} (h : A ≤ A') : setWork P E M A ≤ setWork P E M A' := by
  unfold setWork
  have : M * (E * (A + M)) ≤ M * (E * (A' + M)) :=
    Nat.mul_le_mul_left _ (Nat.mul_le_mul_left _ (by omega))
  exact Nat.add_le_add_left (Nat.mul_le_mul_right _ (by omega)) _

/-- The calls of the loop over the tokens. -/
theorem parseLoop_calls (hg : SGOk addr sg) {E : Nat} (hE : ∀ p ∈ sg.prods, p.numElements ≤ E)
    {I0 : Inner T AK V} (fuel : Nat) {M : Nat} (hM : sg.prods.length * (toks.length + 1) ≤ M)
    (rest : List (Token T V))
    {before : List (EarleyStateSet T NT AK AV)} {last : EarleyStateSet T NT AK AV}
    (hr : RunOk lb addr I0 (before ++ [last]) I L) (hrest : toks.drop before.length = rest)
    (hlen : before.length ≤ toks.length) {A : Nat}
    (hA : I.alternatives.idToValue.length + rest.length * (M + 1) ≤ A) :
    (parseLoopProg addr sg t fuel before last rest).calls (w.set t I) ≤
      rest.length * setWork sg.prods.length E M A ∧
    (passBound E M A ≤ fuel → parseLoop addr sg fuel before last I rest ≠ .oof) := by
  induction rest generalizing before last I L with
  | nil => exact ⟨Nat.zero_le _, fun _ => by simp [parseLoop]⟩
  | cons tok rest ih =>
    have hlt : before.length < toks.length := by
      have := congrArg List.length hrest; simp at this; omega
    have htok : toks[before.length]? = some tok := by
      have : (toks.drop before.length)[0]? = some tok := by rw [hrest]; rfl
      simpa using this
    have hl1 : (before ++ [last]).length = before.length + 1 := by simp
    have hdrop : toks.drop (before ++ [last]).length = rest := by
      rw [hl1, ← List.drop_drop, hrest]; rfl
    have hlast : (before ++ [last])[before.length]? = some last := by simp
    have hz := hr.sets _ _ hlast
    have hMl : ∀ k, k ≤ toks.length → sg.prods.length * (k + 1) ≤ M := fun k hk =>
      Nat.le_trans (Nat.mul_le_mul_left _ (by omega)) hM
    have hll : last.length ≤ M := by
      have := hz.length_le hg
      rw [keyUniv_length] at this
      exact Nat.le_trans this (hMl _ hlen)
    -- the shifted set
    obtain ⟨I1, Z1, L1, h1, h2, h3, h4, h5, -, -⟩ := shift_spec hg htok (EarleyStateSet.states last)
      (by
        unfold EarleyStateSet.states
        rw [List.pairwise_map]
        have := hz.sorted
        unfold BMap.Sorted at this
        refine List.Pairwise.imp ?_ this
        intro a b hab
        simp [hab]) (acc := []) hr.typed
      (fun s hs => hz.entry _ (mem_states.1 hs)) ⟨BMap.sorted_nil, by simp⟩ (by simp)
    have hI1 := table_le_of (N := I0.nodes.length) h2.wf [.leaf tok.kind tok.value]
      (h5.mono (by simp))
    simp only [List.length_singleton] at hI1
    rw [List.length_cons, Nat.add_one_mul] at hA
    have s1 : (EarleyStateSet.shiftProg addr t tok (EarleyStateSet.states last) []).calls (w.set t I) ≤
        M * (E + 4) := by
      refine Nat.le_trans (shift_calls (E := E) tok _ ?_ _ _) ?_
      · intro s hs
        have h6 := hz.entry _ (mem_states.1 hs)
        rw [show s.value.length = _ from h6.2.1]
        have h7 := h6.1.bounds.1
        rw [Prod.elements_length] at h7
        exact Nat.le_trans h7 (hE _ h6.1.mem)
      · refine Nat.mul_le_mul_right _ ?_
        simpa [EarleyStateSet.states] using hll
    have sag := agree_shift (addr := addr) (w := w) (t := t) tok (EarleyStateSet.states last) (I, [])
    rw [h1] at sag
    simp only [Agree, id] at sag
    -- closing it
    have hsets : ∀ k Zk, ((before ++ [last]) ++ [Z1])[k]? = some Zk → SetOk lb addr k L1 Zk := by
      intro k Zk h
      rcases getElem?_concat h with ⟨-, h⟩ | ⟨rfl, rfl⟩
      · exact (hr.sets k Zk h).mono h3
      · rw [hl1]; exact h4
    obtain ⟨c1, c2, c0⟩ := close_calls (w := w) (t := t) hg hE h2 hsets (M := M)
      (by rw [hl1]; exact hMl _ (by omega)) fuel
    have c0' : passBound E M A ≤ fuel →
        closeState addr sg fuel (before ++ [last]) (I1, Z1) ≠ .oof := by
      intro hf
      have := passBound_mono (E := E) (M := M) (A := I1.alternatives.idToValue.length) (A' := A) (by omega)
      exact c0 (by unfold passBound at this hf; omega)
    have cag := agree_closeState (addr := addr) (g := sg) (w := w) (t := t) fuel (before ++ [last]) (I1, Z1)
    have hc1 : (closeStateProg addr sg t fuel (before ++ [last]) Z1).calls (w.set t I1) + M * (E + 4) ≤
        setWork sg.prods.length E M A := by
      have := setWork_mono (P := sg.prods.length) (E := E) (M := M)
        (A := I1.alternatives.idToValue.length) (A' := A) (by omega)
      unfold setWork at this ⊢
      omega
    unfold parseLoopProg parseLoop
    rw [bind_def, calls_bind, sag, h1]
    simp only
    rw [bind_def, calls_bind]
    rw [List.length_cons, Nat.add_one_mul]
    simp only at cag
    cases hcl : closeState addr sg fuel (before ++ [last]) (I1, Z1) with
    | panic p =>
      refine ⟨?_, by simp⟩
      rw [hcl] at cag
      simp only [Agree] at cag
      rcases hrr : (closeStateProg addr sg t fuel (before ++ [last]) Z1).run (w.set t I1) with ⟨w', r⟩
      rw [hrr] at cag
      simp only at cag
      subst cag
      simp only; omega
    | oof =>
      refine ⟨?_, fun hf => absurd hcl (c0' hf)⟩
      rw [hcl] at cag
      simp only [Agree] at cag
      rcases hrr : (closeStateProg addr sg t fuel (before ++ [last]) Z1).run (w.set t I1) with ⟨w', r⟩
      rw [hrr] at cag
      simp only at cag
      subst cag
      simp only; omega
    | ok r =>
      obtain ⟨I', new⟩ := r
      rw [hcl] at cag
      simp only [Agree, id] at cag
      rw [cag]
      simp only
      have c3 := c2 _ _ hcl
      obtain ⟨st, F, k1, k2⟩ := token_step hg hr htok
      rw [h1] at k1
      cases k1
      have hm : closeState addr sg (max F fuel) (before ++ [last]) (I1, Z1) = .ok (I', new) := by
        rw [closeState_mono (Nat.le_max_right F fuel) (by rw [hcl]; simp), hcl]
      have hrun : ∃ L', RunOk lb addr I0 (before ++ [last] ++ [new]) I' L' := by
        rcases k2 with ⟨I'', new', L', k3, k4, -⟩ | ⟨k3, -⟩ | ⟨_, k3, -⟩
        · have := k3 _ (Nat.le_max_left F fuel)
          rw [hm] at this
          cases this
          exact ⟨L', k4⟩
        · have := k3 _ (Nat.le_max_left F fuel); rw [hm] at this; cases this
        · have := k3 _ (Nat.le_max_left F fuel); rw [hm] at this; cases this
      obtain ⟨L', hrun⟩ := hrun
      obtain ⟨e1, e2⟩ := ih hrun hdrop (by omega) (by omega)
      exact ⟨by omega, e2⟩
end

section
variable [Ord T] [Ord NT] [Ord AK] [Ord V] [DecidableEq T] [DecidableEq NT]
variable [TransOrd T] [TransOrd NT] [TransOrd AK] [TransOrd V]
variable [LawfulEqOrd T] [LawfulEqOrd NT] [LawfulEqOrd AK] [LawfulEqOrd V]
variable {addr : StartNonTerminal NT → Nat → Nat} {g : Grammar T NT AK AV}

theorem getFinal_not_oof (Z : EarleyStateSet T NT AK AV) : EarleyStateSet.getFinal Z ≠ .oof := by
  induction Z with
  | nil => simp [EarleyStateSet.getFinal]
  | cons e Z ih =>
    unfold EarleyStateSet.getFinal
    split
    · split <;> simp
    · exact ih

/-- The calls of `parse` in a tree with no alternatives. -/
theorem parse_calls_new (hw : g.WF) (ha : AddrInj g.wrapped addr) {E : Nat}
    (hE : ∀ p ∈ g.wrapped.prods, p.numElements ≤ E) (toks : List (Token T V)) (t fuel : Nat) {M : Nat}
    (hM : g.wrapped.prods.length * (toks.length + 1) ≤ M) :
    (parseProg addr g.wrapped t fuel toks).calls (World.new : World T AK V) ≤
      (toks.length + 1) * setWork g.wrapped.prods.length E M ((toks.length + 1) * (M + 1)) ∧
    (passBound E M ((toks.length + 1) * (M + 1)) ≤ fuel →
      parse addr g.wrapped fuel (World.new : World T AK V) t toks ≠ .oof) := by
  have hg := wrapped_sgok hw ha
  let w : World T AK V := World.new
  have hI : (w t).WF := (History.start (T := T) (AK := AK) (V := V)).inv.wf t
  have h0 : (w t).alternatives.idToValue.length = 0 := rfl
  have hset : w.set t (w t) = w := by
    funext t'
    simp only [World.set]
    split
    · next e => rw [e]
    · rfl
  let lb := unitLabel (V := V) g.wrapped toks
  obtain ⟨hr0, hz0, hk0⟩ := start_kernel (addr := addr) hw lb hI
  let Z0 : EarleyStateSet T NT AK AV := [(⟨⟨startRef g, 0⟩, 0⟩, [])]
  have hM1 : g.wrapped.prods.length * ([] : List (EarleyStateSet T NT AK AV)).length.succ ≤ M :=
    Nat.le_trans (Nat.mul_le_mul_left _ (by simp)) hM
  have hsets : ∀ k Zk, (([] : List (EarleyStateSet T NT AK AV)) ++ [Z0])[k]? = some Zk →
      SetOk lb addr k (fun _ _ => False) Zk := by
    intro k Zk h
    rcases getElem?_concat h with ⟨-, h⟩ | ⟨rfl, rfl⟩
    · simp at h
    · exact hz0
  obtain ⟨c1, c2, c0⟩ := close_calls (w := w) (t := t) hg hE hr0.typed hsets hM1 fuel
  have nag := agree_newStart (addr := addr) (g := g.wrapped) (w := w) (t := t) (w t)
  rw [newStart_wrapped] at nag
  simp only [Agree, id] at nag
  have n1 : (EarleyStateSet.newStartProg addr t g.wrapped).calls w ≤ 0 := by
    unfold EarleyStateSet.newStartProg
    split
    · refine fromStates_calls _ ?_ _ w
      intro s hs
      obtain ⟨p, -, rfl⟩ := List.mem_map.1 hs
      rfl
    · exact Nat.le_refl _
    · exact Nat.le_refl _
  have cag := agree_closeState (addr := addr) (g := g.wrapped) (w := w) (t := t) fuel [] (w t, Z0)
  simp only at cag
  let A := (toks.length + 1) * (M + 1)
  have hc1 : (closeStateProg addr g.wrapped t fuel [] Z0).calls (w.set t (w t)) ≤
      setWork g.wrapped.prods.length E M A := by
    have := setWork_mono (P := g.wrapped.prods.length) (E := E) (M := M)
      (A := (w t).alternatives.idToValue.length) (A' := A) (by omega)
    unfold setWork at this ⊢
    omega
  have c0' : passBound E M A ≤ fuel → closeState addr g.wrapped fuel [] (w t, Z0) ≠ .oof := by
    intro hf
    have := passBound_mono (E := E) (M := M) (A := (w t).alternatives.idToValue.length) (A' := A) (by omega)
    exact c0 (by unfold passBound at this hf; omega)
  show (parseProg addr g.wrapped t fuel toks).calls w ≤ _ ∧ (_ → parse addr g.wrapped fuel w t toks ≠ .oof)
  unfold parseProg
  rw [bind_def, calls_bind]
  rw [hset] at nag
  rw [nag]
  have hparse : ∀ (hn : parseInner addr g.wrapped fuel (w t) toks ≠ .oof),
      parse addr g.wrapped fuel w t toks ≠ .oof := by
    intro hn
    unfold parse
    split <;> simp_all
  simp only
  rw [bind_def, calls_bind]
  rw [hset] at hc1
  rw [Nat.add_one_mul]
  cases hcl : closeState addr g.wrapped fuel [] (w t, Z0) with
  | panic p =>
    refine ⟨?_, fun _ => hparse (by
      unfold parseInner; rw [newStart_wrapped]; simp only [Z0] at hcl; simp [hcl])⟩
    rw [hcl] at cag
    simp only [Agree] at cag
    rw [hset] at cag
    rcases hrr : (closeStateProg addr g.wrapped t fuel [] Z0).run w with ⟨w', r⟩
    rw [hrr] at cag
    simp only at cag
    subst cag
    simp only [Z0, A] at hc1
    simp only; omega
  | oof =>
    refine ⟨?_, fun hf => absurd hcl (c0' hf)⟩
    rw [hcl] at cag
    simp only [Agree] at cag
    rw [hset] at cag
    rcases hrr : (closeStateProg addr g.wrapped t fuel [] Z0).run w with ⟨w', r⟩
    rw [hrr] at cag
    simp only at cag
    subst cag
    simp only [Z0, A] at hc1
    simp only; omega
  | ok r =>
    obtain ⟨I', Z'⟩ := r
    rw [hcl] at cag
    simp only [Agree, id] at cag
    rw [hset] at cag
    simp only [Z0] at cag hc1
    rw [cag]
    simp only
    rw [bind_def, calls_bind]
    have c3 := c2 _ _ hcl
    obtain ⟨F, k⟩ := close_kernel hg (by simp) hr0 hz0 hk0
    have hm : closeState addr g.wrapped (max F fuel) [] (w t, Z0) = .ok (I', Z') := by
      rw [closeState_mono (Nat.le_max_right F fuel) (by rw [hcl]; simp), hcl]
    have hrun : ∃ L', RunOk lb addr (w t) ([] ++ [Z']) I' L' := by
      rcases k with ⟨I'', new', L', k3, k4, -⟩ | ⟨_, k3, -⟩
      · have := k3 _ (Nat.le_max_left F fuel)
        simp only [Z0] at hm
        rw [hm] at this
        cases this
        exact ⟨L', k4⟩
      · have := k3 _ (Nat.le_max_left F fuel); simp only [Z0] at hm; rw [hm] at this; cases this
    obtain ⟨L', hrun⟩ := hrun
    obtain ⟨hp, hp2⟩ := parseLoop_calls (w := w) (t := t) hg hE fuel hM toks hrun (by simp) (by simp)
      (A := A) (by simp only [A]; rw [Nat.add_one_mul]; omega)
    simp only [A] at hp hc1
    refine ⟨?_, fun hf => hparse ?_⟩
    swap
    · have h1 := hp2 hf
      simp only [Z0] at hcl
      unfold parseInner
      rw [newStart_wrapped]
      simp only [hcl]
      cases hpl : parseLoop addr g.wrapped fuel [] Z' I' toks with
      | oof => exact absurd hpl h1
      | panic p => simp
      | ok x =>
        obtain ⟨i'', last⟩ := x
        simp only
        have := getFinal_not_oof last
        cases hgf : EarleyStateSet.getFinal last with
        | oof => exact absurd hgf this
        | panic p => simp
        | ok n => simp
    rcases (parseLoopProg addr g.wrapped t fuel [] Z' toks).run (w.set t I') with ⟨w', r⟩
    cases r with
    | ok a =>
      simp only
      cases EarleyStateSet.getFinal a <;> simp only [TreeProg.calls] <;> omega
    | panic p => simp only; omega
    | oof => simp only; omega
end
end Bongo
