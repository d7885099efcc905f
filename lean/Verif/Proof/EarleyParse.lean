import Verif.Proof.EarleyRun
/-! The whole of the Earley parser, on a wrapped grammar. -/
set_option linter.unusedSectionVars false
namespace Bongo
open Std
variable {T NT AK AV V Λ : Type}
variable [Ord T] [Ord NT] [Ord AK] [Ord V] [DecidableEq T] [DecidableEq NT]

/-! ### More fuel gives the same result -/
section mono
variable {addr : StartNonTerminal NT → Nat → Nat} {sg : StartGrammar T NT AK AV}

theorem closeState_mono {n m : Nat} (hnm : n ≤ m) {prev : List (EarleyStateSet T NT AK AV)}
    {st : Inner T AK V × EarleyStateSet T NT AK AV} (h : closeState addr sg n prev st ≠ .oof) :
    closeState addr sg m prev st = closeState addr sg n prev st := by
  unfold closeState at h ⊢
  split
  · rfl
  · next hne => rw [if_neg hne] at h; exact changeLoop_mono hnm h

theorem parseLoop_mono {n m : Nat} (hnm : n ≤ m) (toks : List (Token T V))
    {before : List (EarleyStateSet T NT AK AV)} {last : EarleyStateSet T NT AK AV}
    {i : Inner T AK V} (h : parseLoop addr sg n before last i toks ≠ .oof) :
    parseLoop addr sg m before last i toks = parseLoop addr sg n before last i toks := by
  induction toks generalizing before last i with
  | nil => rfl
  | cons tok toks ih =>
    rw [parseLoop] at h ⊢
    conv => rhs; rw [parseLoop]
    cases hs : EarleyStateSet.shift addr tok (EarleyStateSet.states last) (i, []) with
    | panic w => rfl
    | oof => rfl
    | ok st =>
      rw [hs] at h
      simp only at h ⊢
      have hc : closeState addr sg n (before ++ [last]) st ≠ .oof := by
        intro hc; rw [hc] at h; exact h rfl
      rw [closeState_mono hnm hc]
      cases hcs : closeState addr sg n (before ++ [last]) st with
      | panic w => rfl
      | oof => rfl
      | ok r =>
        obtain ⟨i', new⟩ := r
        rw [hcs] at h
        exact ih h

theorem parseInner_mono {n m : Nat} (hnm : n ≤ m) {toks : List (Token T V)} {i : Inner T AK V}
    (h : parseInner addr sg n i toks ≠ .oof) :
    parseInner addr sg m i toks = parseInner addr sg n i toks := by
  unfold parseInner at h ⊢
  cases hs : EarleyStateSet.newStart addr sg i with
  | panic w => rfl
  | oof => rfl
  | ok st =>
    rw [hs] at h
    simp only at h ⊢
    have hc : closeState addr sg n [] st ≠ .oof := by
      intro hc; rw [hc] at h; exact h rfl
    rw [closeState_mono hnm hc]
    cases hcs : closeState addr sg n [] st with
    | panic w => rfl
    | oof => rfl
    | ok r =>
      obtain ⟨i', new⟩ := r
      rw [hcs] at h
      simp only at h ⊢
      have hp : parseLoop addr sg n [] new i' toks ≠ .oof := by
        intro hp; rw [hp] at h; exact h rfl
      rw [parseLoop_mono hnm toks hp]

theorem parse_mono {n m : Nat} (hnm : n ≤ m) {toks : List (Token T V)} {w : World T AK V} {t : Nat}
    (h : parse addr sg n w t toks ≠ .oof) : parse addr sg m w t toks = parse addr sg n w t toks := by
  unfold parse at h ⊢
  have hp : parseInner addr sg n (w t) toks ≠ .oof := by
    intro hp; rw [hp] at h; exact h rfl
  rw [parseInner_mono hnm hp]
end mono

variable [TransOrd T] [TransOrd NT] [TransOrd AK] [TransOrd V]
variable [LawfulEqOrd T] [LawfulEqOrd NT] [LawfulEqOrd AK] [LawfulEqOrd V]
variable {addr : StartNonTerminal NT → Nat → Nat} {g : Grammar T NT AK AV}

theorem wrapped_sgok (hw : g.WF) (ha : AddrInj g.wrapped addr) : SGOk addr g.wrapped where
  wf := Grammar.wrapped_wf hw
  addr := ha

/-- Only a clash stops the closing loop of a wrapped grammar: the start production is never
complete. -/
theorem Stuck.wrapped (hw : g.WF) {toks : List (Token T V)} {j : Nat} {w : Panic}
    (h : Stuck g.wrapped toks j w) : w = .lenMismatch ∧ Collides g.wrapped toks j := by
  cases h with
  | collides h => exact ⟨rfl, h⟩
  | startKey h =>
    obtain ⟨q, k, p, d, i, ⟨ts, h1⟩, -, -, h4⟩ := h
    rcases (mem_wrapped_prods hw).1 h1.mem with rfl | ⟨q', hq', rfl⟩
    · exact absurd (by rw [startRef_elements]; rfl) (h1.no_eos 1 (by rw [← Prod.elements_length, startRef_elements]; simp))
    · cases h4

theorem newStart_wrapped (i : Inner T AK V) : EarleyStateSet.newStart addr g.wrapped i =
    .ok (i, [(⟨⟨startRef g, 0⟩, 0⟩, [])]) := rfl

/-- Only the start item at the end of stream is final. -/
theorem isFinalKey_iff (hw : g.WF) {k : EarleyStateKey T NT AK AV}
    (hk : k.prodState.prod ∈ g.wrapped.prods) :
    k.isFinalKey = true ↔ k.prodState.prod = startRef g ∧ k.prodState.index = 1 := by
  unfold EarleyStateKey.isFinalKey
  rw [ProdState.nextElem_eq]
  rcases (mem_wrapped_prods hw).1 hk with h | ⟨q, hq, h⟩
  · rw [h, startRef_elements]
    generalize k.prodState.index = d
    rcases d with _ | _ | d
    · simp [Elem.asTerm]
    · simp [Elem.asTerm, StreamTerminal.isEos]
    · simp
  · rw [h, liftProd_elements, List.getElem?_map]
    constructor
    · intro hf
      exfalso
      revert hf
      cases q.elements[k.prodState.index]? with
      | none => simp
      | some e => cases e <;> simp [baseElemToStartElem, Elem.asTerm, StreamTerminal.isEos]
    · rintro ⟨hh, -⟩
      have := congrArg Prod.head hh
      simp at this

theorem getFinal_spec (hw : g.WF) (Z : EarleyStateSet T NT AK AV)
    (hz : ∀ e ∈ Z, e.1.prodState.prod ∈ g.wrapped.prods ∧ e.2.length = e.1.prodState.index) :
    (EarleyStateSet.getFinal Z = .ok none ∧
      ∀ e ∈ Z, ¬ (e.1.prodState.prod = startRef g ∧ e.1.prodState.index = 1)) ∨
    ∃ n k, EarleyStateSet.getFinal Z = .ok (some n) ∧ (k, [n]) ∈ Z ∧
      k.prodState.prod = startRef g ∧ k.prodState.index = 1 := by
  induction Z with
  | nil => left; exact ⟨rfl, by simp⟩
  | cons e Z ih =>
    obtain ⟨k, v⟩ := e
    have he := hz (k, v) (by simp)
    by_cases hf : k.isFinalKey = true
    · have hi := (isFinalKey_iff hw he.1).1 hf
      right
      have hl := he.2
      simp only at hl
      rw [hi.2] at hl
      obtain ⟨n, rfl⟩ := List.length_eq_one_iff.1 hl
      refine ⟨n, k, ?_, by simp, hi⟩
      simp [EarleyStateSet.getFinal, hf]
    · have hgf : EarleyStateSet.getFinal ((k, v) :: Z) = EarleyStateSet.getFinal Z := by
        simp [EarleyStateSet.getFinal, hf]
      rw [hgf]
      rcases ih (fun e he => hz e (by simp [he])) with ⟨h1, h2⟩ | ⟨n, k', h1, h2, h3⟩
      · left
        refine ⟨h1, ?_⟩
        intro e' he'
        rcases List.mem_cons.1 he' with rfl | he'
        · intro h; exact hf ((isFinalKey_iff hw he.1).2 h)
        · exact h2 e' he'
      · right
        exact ⟨n, k', h1, by simp [h2], h3⟩

/-- The first kernel. -/
theorem start_kernel (hw : g.WF) {toks : List (Token T V)}
    (lb : Labelling g.wrapped toks Λ) {I0 : Inner T AK V} (hI : I0.WF) :
    RunOk lb addr I0 [] I0 (fun _ _ => False) ∧
    SetOk lb addr 0 (fun _ _ => False)
      ([(⟨⟨startRef g, 0⟩, 0⟩, [])] : EarleyStateSet T NT AK AV) ∧
    Kern g.wrapped toks 0 I0 ([(⟨⟨startRef g, 0⟩, 0⟩, [])] : EarleyStateSet T NT AK AV) := by
  have hr0 : RunOk lb addr I0 [] I0 (fun _ _ => False) := by
    refine ⟨⟨hI, Nat.le_refl _, ?_, ?_, ?_, ?_⟩, by simp, by simp, .refl _ _ _⟩
    · intro _ _ h; exact h.elim
    · intro _ _ _ h; exact h.elim
    · intro _ _ h; exact h.elim
    · intro _ _ h; exact h.elim
  have hz0 : SetOk lb addr 0 (fun _ _ => False)
      ([(⟨⟨startRef g, 0⟩, 0⟩, [])] : EarleyStateSet T NT AK AV) := by
    refine ⟨List.pairwise_singleton _ _, ?_⟩
    intro e he
    simp only [List.mem_singleton] at he
    subst he
    refine ⟨⟨[], .start (startRef_mem hw) rfl⟩, rfl, ?_⟩
    intro x n h; simp at h
  have hk0 : Kern g.wrapped toks 0 I0 ([(⟨⟨startRef g, 0⟩, 0⟩, [])] : EarleyStateSet T NT AK AV) := by
    refine ⟨?_, ?_⟩
    · intro _ p hp hh
      rcases (mem_wrapped_prods hw).1 hp with rfl | ⟨q, hq, rfl⟩
      · exact ⟨[], by simp⟩
      · exact absurd hh (by simp [Grammar.wrapped])
    · intro j' _ _ _ _ _ h; omega
  exact ⟨hr0, hz0, hk0⟩

/-- What `parse` does. -/
theorem parseInner_spec (hw : g.WF) (ha : AddrInj g.wrapped addr) {toks : List (Token T V)}
    (lb : Labelling g.wrapped toks Λ) {I0 : Inner T AK V} (hI : I0.WF) :
    ∃ F, (∃ I sets last L r, (∀ fuel, F ≤ fuel → parseInner addr g.wrapped fuel I0 toks = .ok (I, r)) ∧
        RunOk lb addr I0 (sets ++ [last]) I L ∧ sets.length = toks.length ∧
        (∀ k, k ≤ toks.length → GoodAt g.wrapped toks k) ∧
        ((r = none ∧ ¬ EItem g.wrapped toks toks.length (startRef g) 1 0) ∨
        ∃ n, r = some n ∧ (⟨⟨startRef g, 1⟩, 0⟩, [n]) ∈ last)) ∨
    (∃ b, b ≤ toks.length ∧ (∀ k, k < b → GoodAt g.wrapped toks k) ∧
      (((∀ fuel, F ≤ fuel → parseInner addr g.wrapped fuel I0 toks = .panic .emptyState) ∧
        ¬ ∃ p d i, EItem g.wrapped toks b p d i) ∨
      ((∀ fuel, F ≤ fuel → parseInner addr g.wrapped fuel I0 toks = .panic .lenMismatch) ∧
        Collides g.wrapped toks b))) := by
  have hg := wrapped_sgok hw ha
  obtain ⟨hr0, hz0, hk0⟩ := start_kernel (addr := addr) hw lb hI
  obtain ⟨F, h | h⟩ := close_kernel hg (by simp) hr0 hz0 hk0
  · obtain ⟨I1, Z1, L1, h1, h2, h3⟩ := h
    obtain ⟨F', h | h⟩ := parseLoop_spec hg toks (before := []) h2 (by simp) (by simp)
    · obtain ⟨I, sets, last, L, k1, k2, k3, k4⟩ := h
      have hlast : SetOk lb addr toks.length L last := k2.sets _ _ (by rw [← k3]; simp)
      have hfull : Full g.wrapped toks toks.length I last := k2.full _ _ (by rw [← k3]; simp)
      have hgood : ∀ k, k ≤ toks.length → GoodAt g.wrapped toks k := by
        intro k hk
        rcases Nat.eq_zero_or_pos k with rfl | hpos
        · exact h3
        · exact k4 k hpos hk
      have heq : ∀ fuel, max F F' ≤ fuel → parseInner addr g.wrapped fuel I0 toks =
          match EarleyStateSet.getFinal last with
          | .ok n => .ok (I, n)
          | .panic w => .panic w
          | .oof => .oof := by
        intro fuel hf
        unfold parseInner
        rw [newStart_wrapped]
        simp only [h1 fuel (by omega), k1 fuel (by omega)]
        cases EarleyStateSet.getFinal last <;> rfl
      have hstart : ∀ e ∈ last, e.1.prodState.prod = startRef g → e.1.originIndex = 0 := by
        intro e he hp
        have := (hlast.entry e he).1
        rw [hp] at this
        rcases this.means hw with ⟨-, hi, -⟩ | ⟨q, hq, hh, -⟩
        · exact hi
        · have := congrArg Prod.head hh
          simp at this
      rcases getFinal_spec hw last (fun e he => ⟨(hlast.entry e he).1.mem, (hlast.entry e he).2.1⟩) with
        ⟨f1, f2⟩ | ⟨n, k, f1, f2, f3, f4⟩
      · refine ⟨max F F', Or.inl ⟨I, sets, last, L, none, ?_, k2, k3, hgood, Or.inl ⟨rfl, ?_⟩⟩⟩
        · intro fuel hf; rw [heq fuel hf, f1]
        · intro hts
          obtain ⟨v, hv, -⟩ := hfull _ _ _ hts
          exact f2 _ hv ⟨rfl, rfl⟩
      · refine ⟨max F F', Or.inl ⟨I, sets, last, L, some n, ?_, k2, k3, hgood, Or.inr ⟨n, rfl, ?_⟩⟩⟩
        · intro fuel hf; rw [heq fuel hf, f1]
        · have h0 := hstart _ f2 f3
          obtain ⟨⟨p, d⟩, o⟩ := k
          simp only at f3 f4 h0
          subst f3 f4 h0
          exact f2
    · obtain ⟨b, b1, b2, b3, b4⟩ := h
      have heq : ∀ fuel w, F ≤ fuel → parseLoop addr g.wrapped fuel [] Z1 I1 toks = .panic w →
          parseInner addr g.wrapped fuel I0 toks = .panic w := by
        intro fuel w hf hp
        unfold parseInner
        rw [newStart_wrapped]
        simp only [h1 fuel hf, hp]
      refine ⟨max F F', Or.inr ⟨b, b2, ?_, ?_⟩⟩
      · intro k hk
        rcases Nat.eq_zero_or_pos k with rfl | hpos
        · exact h3
        · exact b3 k hpos hk
      · rcases b4 with ⟨c1, c2⟩ | ⟨_, c1, c2⟩
        · exact Or.inl ⟨fun fuel hf => heq fuel _ (by omega) (c1 fuel (by omega)), c2⟩
        · obtain ⟨rfl, c3⟩ := c2.wrapped hw
          exact Or.inr ⟨fun fuel hf => heq fuel _ (by omega) (c1 fuel (by omega)), c3⟩
  · obtain ⟨_, h, hs⟩ := h
    obtain ⟨rfl, hs'⟩ := hs.wrapped hw
    refine ⟨F, Or.inr ⟨0, Nat.zero_le _, by intro k hk; omega, Or.inr ⟨?_, hs'⟩⟩⟩
    intro fuel hf
    unfold parseInner
    rw [newStart_wrapped]
    simp only [h fuel hf]
end Bongo

namespace Bongo
open Std
variable {T NT AK AV V Λ : Type}
variable [Ord T] [Ord NT] [Ord AK] [Ord V] [DecidableEq T] [DecidableEq NT]
variable [TransOrd T] [TransOrd NT] [TransOrd AK] [TransOrd V]
variable [LawfulEqOrd T] [LawfulEqOrd NT] [LawfulEqOrd AK] [LawfulEqOrd V]
variable {addr : StartNonTerminal NT → Nat → Nat} {g : Grammar T NT AK AV}

/-- What is known after `parse` has returned. -/
theorem parseInner_ok (hw : g.WF) (ha : AddrInj g.wrapped addr) {toks : List (Token T V)}
    (lb : Labelling g.wrapped toks Λ) {I0 I : Inner T AK V} (hI : I0.WF) {fuel : Nat} {r}
    (h : parseInner addr g.wrapped fuel I0 toks = .ok (I, r)) :
    ∃ sets last L, RunOk lb addr I0 (sets ++ [last]) I L ∧ sets.length = toks.length ∧
      (∀ k, k ≤ toks.length → GoodAt g.wrapped toks k) ∧
      ((r = none ∧ ¬ EItem g.wrapped toks toks.length (startRef g) 1 0) ∨
      ∃ n, r = some n ∧ (⟨⟨startRef g, 1⟩, 0⟩, [n]) ∈ last) := by
  have hm : ∀ F, parseInner addr g.wrapped (max F fuel) I0 toks = .ok (I, r) := by
    intro F
    rw [parseInner_mono (Nat.le_max_right F fuel) (by rw [h]; simp), h]
  obtain ⟨F, h' | h'⟩ := parseInner_spec hw ha lb hI
  · obtain ⟨I', sets, last, L, r', h1, h2, h3, h4, h5⟩ := h'
    have := h1 _ (Nat.le_max_left F fuel)
    rw [hm F] at this
    simp only [Res.ok.injEq, _root_.Prod.mk.injEq] at this
    obtain ⟨rfl, rfl⟩ := this
    exact ⟨sets, last, L, h2, h3, h4, h5⟩
  · obtain ⟨b, -, -, ⟨h1, -⟩ | ⟨h1, -⟩⟩ := h'
    · have := h1 _ (Nat.le_max_left F fuel); rw [hm F] at this; cases this
    · have := h1 _ (Nat.le_max_left F fuel); rw [hm F] at this; cases this
end Bongo
