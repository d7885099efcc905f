import Verif.Proof.EarleyClose
/-! The closing loop of the Earley parser terminates in a closed set or a collision. -/
set_option linter.unusedSectionVars false
namespace Bongo
open Std
variable {T NT AK AV V Λ : Type}

theorem changeLoop_or_panic {S : Type} {f : S → Res (S × WasChanged)} {P : S → Prop}
    {Q : Panic → Prop} (μ : S → Nat)
    (hstep : ∀ s, P s → (∃ s' c, f s = .ok (s', c) ∧ P s' ∧ (c = .changed → μ s' < μ s)) ∨
      (∃ w, f s = .panic w ∧ Q w))
    {s : S} (hs : P s) {fuel : Nat} (hfuel : μ s < fuel) :
    (∃ s₁ s₂, changeLoop fuel f s = .ok s₂ ∧ P s₁ ∧ f s₁ = .ok (s₂, .unchanged)) ∨
    (∃ w, changeLoop fuel f s = .panic w ∧ Q w) := by
  induction fuel generalizing s with
  | zero => omega
  | succ n ih =>
    rcases hstep s hs with ⟨s', c, he, hP, hc⟩ | ⟨w, he, hq⟩
    · rw [changeLoop, he]
      cases c with
      | changed => exact ih hP (by have := hc rfl; omega)
      | unchanged => exact Or.inl ⟨s, s', rfl, hs, he⟩
    · right; rw [changeLoop, he]; exact ⟨w, rfl, hq⟩

section
variable {sg : StartGrammar T NT AK AV} {toks : List (Token T V)} {lb : Labelling sg toks Λ}
variable [Ord T] [Ord NT] [Ord AK] [Ord V] [DecidableEq T] [DecidableEq NT]
variable [TransOrd T] [TransOrd NT] [TransOrd AK] [TransOrd V]
variable [LawfulEqOrd T] [LawfulEqOrd NT] [LawfulEqOrd AK] [LawfulEqOrd V]
variable {addr : StartNonTerminal NT → Nat → Nat} {N : Nat} {I : Inner T AK V} {L : Nat → Λ → Prop}

/-- The possible keys of state `j`. -/
def keyUniv (sg : StartGrammar T NT AK AV) (j : Nat) : List (SProd T NT AK AV × Nat) :=
  sg.prods.flatMap fun p => (List.range (j + 1)).map fun i => (p, i)

/-- The possible facts of state `j` with at most `B` alternatives. -/
def factUniv (sg : StartGrammar T NT AK AV) (j B : Nat) :
    List ((SProd T NT AK AV × Nat) ⊕ (SProd T NT AK AV × Nat × Nat × Nat)) :=
  (keyUniv sg j).map .inl ++
  (keyUniv sg j).flatMap fun pi => (List.range pi.1.numElements).flatMap fun x =>
    (List.range B).map fun a => .inr (pi.1, pi.2, x, a)

theorem mem_keyUniv {j : Nat} {p : SProd T NT AK AV} {i : Nat} :
    (p, i) ∈ keyUniv sg j ↔ p ∈ sg.prods ∧ i ≤ j := by
  unfold keyUniv
  simp [Nat.lt_succ_iff]

theorem SetOk.mem_keyUniv {j : Nat} {Z : EarleyStateSet T NT AK AV} (hz : SetOk lb addr j L Z)
    {e} (he : e ∈ Z) : (e.1.prodState.prod, e.1.originIndex) ∈ keyUniv sg j :=
  Bongo.mem_keyUniv.2 ⟨(hz.entry e he).1.mem, (hz.entry e he).1.bounds.2.1⟩

theorem SetOk.length_le (hg : SGOk addr sg) {j : Nat} {Z : EarleyStateSet T NT AK AV}
    (hz : SetOk lb addr j L Z) : Z.length ≤ (keyUniv sg j).length := by
  have hs := hz.sorted
  unfold BMap.Sorted at hs
  have hnd : (Z.map fun e => (e.1.prodState.prod, e.1.originIndex)).Nodup := by
    unfold List.Nodup
    rw [List.pairwise_map]
    refine List.Pairwise.imp_of_mem ?_ hs
    intro a b ha hb hab heq
    rw [_root_.Prod.mk.injEq] at heq
    have := (EarleyStateKey.cmp_eq_iff hg.wf hg.addr (hz.entry a ha).1.mem
      (hz.entry b hb).1.mem).2 heq
    rw [this] at hab; cases hab
  have := nodup_subset_length hnd (U := keyUniv sg j) (by
    intro x hx
    obtain ⟨e, he, rfl⟩ := List.mem_map.1 hx
    exact hz.mem_keyUniv he)
  simpa using this

theorem table_le {I I1 : Inner T AK V} (hw : I1.WF) {Z : EarleyStateSet T NT AK AV}
    (h : Inner.Ext N (ContentOf Z) I I1) :
    I1.alternatives.idToValue.length ≤ I.alternatives.idToValue.length + Z.length := by
  let f : EarleyStateKey T NT AK AV × List Nat → Option (NodeContent T AK V) := fun e =>
    e.1.prodState.prod.actionKey.asBase.map fun ak => .branch ak e.2
  have hnd : (I1.alternatives.idToValue.drop I.alternatives.idToValue.length).Nodup := by
    rw [List.nodup_iff_injective_getElem]
    intro a b hab
    simp only [List.getElem_drop] at hab
    have ha := List.getElem?_eq_getElem (l := I1.alternatives.idToValue)
      (i := I.alternatives.idToValue.length + a.1) (by have := a.2; simp at this; omega)
    have hb := List.getElem?_eq_getElem (l := I1.alternatives.idToValue)
      (i := I.alternatives.idToValue.length + b.1) (by have := b.2; simp at this; omega)
    rw [← hab] at hb
    have := hw.altAt_inj ha hb
    exact Fin.ext (by omega)
  have := nodup_subset_length hnd (U := Z.filterMap f) (by
    intro c hc
    obtain ⟨x, hx⟩ := List.mem_iff_getElem?.1 hc
    rw [List.getElem?_drop] at hx
    rcases h.new _ c hx with h' | ⟨e, he, ak, h1, h2⟩
    · have := (List.getElem?_eq_some_iff.1 h').1; omega
    · exact List.mem_filterMap.2 ⟨e, he, by simp only [f, h1, Option.map_some, h2]⟩)
  have h2 := List.length_filterMap_le f Z
  simp at this
  omega

theorem EFact.mem_univ {j B : Nat} {I1 : Inner T AK V} (hw : I1.WF)
    {Z : EarleyStateSet T NT AK AV} (hz : SetOk lb addr j L Z)
    (hB : I1.alternatives.idToValue.length ≤ B) {x} (h : EFact (I1, Z) x) : x ∈ factUniv sg j B := by
  unfold factUniv
  cases x with
  | inl pi =>
    obtain ⟨p, i⟩ := pi
    obtain ⟨e, he, rfl, rfl⟩ := h
    exact List.mem_append_left _ (List.mem_map.2 ⟨_, hz.mem_keyUniv he, rfl⟩)
  | inr r =>
    obtain ⟨p, i, x, a⟩ := r
    obtain ⟨e, he, rfl, rfl, n, h1, h2⟩ := h
    refine List.mem_append_right _ (List.mem_flatMap.2 ⟨_, hz.mem_keyUniv he, List.mem_flatMap.2
      ⟨x, List.mem_range.2 ?_, List.mem_map.2 ⟨a, List.mem_range.2 ?_, rfl⟩⟩⟩)
    · have h3 := (List.getElem?_eq_some_iff.1 h1).1
      have h4 := hz.entry e he
      have h5 := h4.1.bounds.1
      rw [Prod.elements_length] at h5
      have h6 := h4.2.1
      simp only
      omega
    · exact Nat.lt_of_lt_of_le (h2.alt_lt hw) hB

/-- What holds after every pass of the closing loop started with `I` and `Z`. -/
def CloseInv (lb : Labelling sg toks Λ) (addr : StartNonTerminal NT → Nat → Nat) (N : Nat)
    (prev : List (EarleyStateSet T NT AK AV)) (I : Inner T AK V) (L : Nat → Λ → Prop)
    (Z : EarleyStateSet T NT AK AV) (st : Inner T AK V × EarleyStateSet T NT AK AV) : Prop :=
  ∃ L', Typed lb N st.1 L' ∧ (∀ n ℓ, L n ℓ → L' n ℓ) ∧
    (∀ k Zk, (prev ++ [st.2])[k]? = some Zk → SetOk lb addr k L' Zk) ∧
    Inner.Ext N (ContentOf st.2) I st.1 ∧ (∀ e ∈ Z, e ∈ st.2)

/-- Each pass keeps it and, if it changed something, adds a fact. -/
theorem CloseInv.pass (hg : SGOk addr sg) {prev : List (EarleyStateSet T NT AK AV)}
    {Z : EarleyStateSet T NT AK AV} {st : Inner T AK V × EarleyStateSet T NT AK AV}
    (hst : CloseInv lb addr N prev I L Z st) {I' Z' c}
    (hc : closePass addr sg prev st = .ok ((I', Z'), c)) :
    CloseInv lb addr N prev I L Z (I', Z') ∧
    (c = .changed → missing (factUniv sg prev.length
        (I.alternatives.idToValue.length + (keyUniv sg prev.length).length)) EFact (I', Z') <
      missing (factUniv sg prev.length
        (I.alternatives.idToValue.length + (keyUniv sg prev.length).length)) EFact st) ∧
    (c = .unchanged → Closed sg prev Z' I') := by
  revert hst hc
  obtain ⟨I1, Z1⟩ := st
  rintro ⟨L1, h1, h2, h3, h4, h5⟩ hc
  rcases closePass_spec hg h1 h3 with ⟨I2, Z2, c2, L2, g1, g2, g3, g4, g5, g6, g7, g8⟩ | ⟨_, g1, -⟩
  · rw [g1] at hc; cases hc
    have hmem : ∀ e ∈ Z1, e ∈ Z' := g6
    have hcont : ∀ c, ContentOf Z1 c → ContentOf (V := V) Z' c := by
      rintro c ⟨e, he, h⟩; exact ⟨e, hmem e he, h⟩
    have hsets2 : ∀ k Zk, (prev ++ [Z'])[k]? = some Zk → SetOk lb addr k L2 Zk := by
      intro k Zk hk
      rw [List.getElem?_append] at hk
      split at hk
      · next hlt => exact (h3 k Zk (by rw [List.getElem?_append_left hlt]; exact hk)).mono g3
      · next hge =>
        rw [List.getElem?_singleton] at hk
        split at hk
        · next h0 =>
          cases hk
          have : k = prev.length := by omega
          subst this; exact g4
        · cases hk
    have hext : Inner.Ext N (ContentOf Z') I I' := (h4.mono hcont).trans (g5.mono hcont)
    refine ⟨⟨L2, g2, fun n ℓ h => g3 n ℓ (h2 n ℓ h), hsets2, hext, fun e he => hmem e (h5 e he)⟩,
      ?_, ?_⟩
    · intro hch
      refine missing_lt (fun x hx => EFact.mono (st := (I1, Z1)) (st' := (I', Z')) g5.le hmem hx) ?_
      obtain ⟨x, hx1, hx2⟩ := g7 hch
      refine ⟨x, EFact.mem_univ g2.wf g4 ?_ hx2, hx1, hx2⟩
      have a1 := table_le g2.wf hext
      have a2 := g4.length_le hg
      omega
    · intro hch
      obtain ⟨rfl, k⟩ := g8 hch
      exact k
  · rw [g1] at hc; cases hc

/-- `close_state` on a nonempty set. -/
theorem closeState_spec (hg : SGOk addr sg) {prev : List (EarleyStateSet T NT AK AV)}
    {Z : EarleyStateSet T NT AK AV} (hne : Z ≠ []) (ht : Typed lb N I L)
    (hsets : ∀ k Zk, (prev ++ [Z])[k]? = some Zk → SetOk lb addr k L Zk) :
    ∃ F, (∃ I' Z' L', (∀ fuel, F ≤ fuel → closeState addr sg fuel prev (I, Z) = .ok (I', Z')) ∧
      Typed lb N I' L' ∧ (∀ n ℓ, L n ℓ → L' n ℓ) ∧
      (∀ k Zk, (prev ++ [Z'])[k]? = some Zk → SetOk lb addr k L' Zk) ∧
      Inner.Ext N (fun _ => True) I I' ∧ (∀ e ∈ Z, e ∈ Z') ∧ Closed sg prev Z' I') ∨
    (∃ w, (∀ fuel, F ≤ fuel → closeState addr sg fuel prev (I, Z) = .panic w) ∧
      Stuck sg toks prev.length w) := by
  have hclose : ∀ fuel, closeState addr sg fuel prev (I, Z) =
      changeLoop fuel (closePass addr sg prev) (I, Z) := by
    intro fuel
    unfold closeState
    cases Z with
    | nil => exact absurd rfl hne
    | cons e Z => rfl
  let B := I.alternatives.idToValue.length + (keyUniv sg prev.length).length
  let P : Inner T AK V × EarleyStateSet T NT AK AV → Prop := CloseInv lb addr N prev I L Z
  have hpass : ∀ st, P st → ∀ I' Z' c, closePass addr sg prev st = .ok ((I', Z'), c) →
      P (I', Z') ∧ (c = .changed → missing (factUniv sg prev.length B) EFact (I', Z') <
        missing (factUniv sg prev.length B) EFact st) ∧
      (c = .unchanged → Closed sg prev Z' I') := fun st hst I' Z' c hc => CloseInv.pass hg hst hc
  have hP0 : P (I, Z) := ⟨L, ht, fun _ _ h => h, hsets, .refl _ _ _, fun _ h => h⟩
  refine ⟨missing (factUniv sg prev.length B) EFact (I, Z) + 1, ?_⟩
  have hstep : ∀ st, P st → (∃ st' c, closePass addr sg prev st = .ok (st', c) ∧ P st' ∧
      (c = .changed → missing (factUniv sg prev.length B) EFact st' <
        missing (factUniv sg prev.length B) EFact st)) ∨
      (∃ w, closePass addr sg prev st = .panic w ∧ Stuck sg toks prev.length w) := by
    rintro st hst
    obtain ⟨L1, h1, h2, h3, h4, h5⟩ := id hst
    rcases closePass_spec (I := st.1) (Z := st.2) hg h1 h3 with ⟨I2, Z2, c2, L2, g1, -⟩ | h
    · left
      obtain ⟨k1, k2, -⟩ := hpass st hst I2 Z2 c2 g1
      exact ⟨_, _, g1, k1, k2⟩
    · exact Or.inr h
  rcases changeLoop_or_panic (P := P) (missing (factUniv sg prev.length B) EFact) hstep hP0
    (Nat.lt_succ_self _) with ⟨s₁, ⟨I2, Z2⟩, e1, e2, e3⟩ | ⟨w, e1, e2⟩
  · left
    obtain ⟨⟨L2, k1, k2, k3, k4, k5⟩, -, k7⟩ := hpass s₁ e2 I2 Z2 .unchanged e3
    refine ⟨I2, Z2, L2, ?_, k1, k2, k3, k4.mono (fun _ _ => trivial), k5, k7 rfl⟩
    intro fuel hf
    rw [hclose, changeLoop_mono hf (by rw [e1]; simp), e1]
  · right
    refine ⟨w, ?_, e2⟩
    intro fuel hf
    rw [hclose, changeLoop_mono hf (by rw [e1]; simp), e1]
end
end Bongo
