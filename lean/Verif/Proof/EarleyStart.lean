import Verif.Proof.EarleyTree
import Verif.Spec.StartParse
/-! The Earley parser on any start grammar. -/
set_option linter.unusedSectionVars false
namespace Bongo
open Std
variable {T NT AK AV V Λ : Type}

section items
variable [Ord NT] [TransOrd NT] [LawfulEqOrd NT]
variable {sg : StartGrammar T NT AK AV} {toks : List (Token T V)}

theorem streamKinds_append (a b : List (Token T V)) :
    streamKinds (a ++ b) = streamKinds a ++ streamKinds b := by unfold streamKinds; simp

theorem tokElems_streamKinds (a : List (Token T V)) :
    (tokElems a : List (Elem (StreamTerminal T) (StartNonTerminal NT))) =
      (streamKinds a).map Elem.term := by
  unfold tokElems streamKinds; simp

/-- Continuing after the first `d` elements of an expected production. -/
theorem Grammar.At.expand {g : Grammar T NT AK AV} (hw : g.WF) {p d u v} (h : g.At p d u v) :
    ∃ δ, g.cfg.Derives [.nonterm g.startSymbol]
      (u.map .term ++ v.map .term ++ p.elements.drop d ++ δ) := by
  obtain ⟨hp, hd, ⟨δ, hδ⟩, hy⟩ := h
  refine ⟨δ, ?_⟩
  have h1 := Cfg.derives_prod ((Grammar.cfg_prod_iff hw).2 ⟨p, hp, rfl, rfl⟩)
  have h2 := hδ.trans (Cfg.Derives.append (Cfg.Derives.refl (u.map Elem.term))
    (Cfg.Derives.append h1 (Cfg.Derives.refl δ)))
  rw [← List.take_append_drop d p.elements] at h2
  have h3 := h2.trans (Cfg.Derives.append (Cfg.Derives.refl (u.map Elem.term))
    (Cfg.Derives.append (Cfg.Derives.append hy (Cfg.Derives.refl (p.elements.drop d)))
      (Cfg.Derives.refl δ)))
  simpa using h3

theorem EParse.at (hw : sg.WF) {j p d i ts} (h : EParse sg toks j p d i ts) :
    sg.At p d (streamKinds (toks.take i)) (streamKinds (seg toks i j)) := by
  induction h with
  | start h1 h2 =>
    refine ⟨h1, Nat.zero_le _, ⟨[], ?_⟩, ?_⟩
    · rw [h2]; exact .refl _
    · simp [streamKinds]; exact .refl _
  | @predict j p d i ts q h1 h2 h3 ih =>
    refine ⟨h3, Nat.zero_le _, ?_, by simp [streamKinds]; exact .refl _⟩
    obtain ⟨δ, hδ⟩ := ih.expand hw
    refine ⟨p.elements.drop (d + 1) ++ δ, ?_⟩
    rw [← List.map_append, ← streamKinds_append, take_seg toks h1.bounds.2.1] at hδ
    have hdec : p.elements.drop d = .nonterm q.head :: p.elements.drop (d + 1) := by
      obtain ⟨hlt, he⟩ := List.getElem?_eq_some_iff.1 h2
      rw [← he, List.getElem_cons_drop]
    rw [hdec] at hδ
    simpa using hδ
  | @scan j p d i ts tok h1 h2 h3 ih =>
    obtain ⟨i1, i2, i3, i4⟩ := ih
    have := (List.getElem?_eq_some_iff.1 h2).1
    refine ⟨i1, this, i3, ?_⟩
    rw [List.take_add_one, h2, seg_succ h1.bounds.2.1 h3, streamKinds_append, List.map_append]
    exact Cfg.Derives.append i4 (.refl _)
  | @complete j k p d i ts q us h1 h2 h3 ih1 ih2 =>
    obtain ⟨i1, i2, i3, i4⟩ := ih1
    obtain ⟨k1, k2, k3, k4⟩ := ih2
    have := (List.getElem?_eq_some_iff.1 h2).1
    refine ⟨i1, this, i3, ?_⟩
    rw [← Prod.elements_length, List.take_length] at k4
    have hq := (Cfg.derives_prod ((Grammar.cfg_prod_iff hw).2 ⟨q, k1, rfl, rfl⟩)).trans k4
    rw [List.take_add_one, h2, ← seg_append toks h1.bounds.2.1 h3.bounds.2.1, streamKinds_append,
      List.map_append]
    exact Cfg.Derives.append i4 hq

/-- The items found from a derivation of the start symbol. -/
theorem EItem.of_derivation (hw : sg.WF) {j : Nat} (hj : j ≤ toks.length) {γ}
    (h : sg.cfg.Derives [.nonterm sg.startSymbol] γ) :
    (∀ A δ, γ = (streamKinds (toks.take j)).map .term ++ .nonterm A :: δ → ∀ q ∈ sg.prods, q.head = A →
      EItem sg toks j q 0 j) ∧
    (∀ t δ, γ = (streamKinds (toks.take j)).map .term ++ .term t :: δ →
      ∃ q d' i', EItem sg toks j q d' i' ∧ q.elements[d']? = some (.term t)) ∧
    (∀ δ, γ = (streamKinds (toks.take j)).map .term ++ δ →
      (∃ p ∈ sg.prods, p.head = sg.startSymbol) → ∃ q d' i', EItem sg toks j q d' i') := by
  have hs := Cfg.syields_iff.2 h
  generalize hl : [Elem.nonterm sg.startSymbol] = l at hs
  have hzero : (streamKinds (toks.take j)) = [] → j = 0 := by
    intro h
    have := congrArg List.length h
    simp [streamKinds] at this
    rcases this with h | h
    · exact h
    · subst h; simpa using hj
  cases hs with
  | nil => cases hl
  | @keep s γ' e h1 =>
    simp only [List.cons.injEq] at hl
    obtain ⟨rfl, rfl⟩ := hl
    cases h1
    refine ⟨?_, ?_, ?_⟩
    · intro A δ e q hq hh
      cases hu : streamKinds (toks.take j) with
      | cons a b => rw [hu] at e; simp at e
      | nil =>
        rw [hu] at e
        simp at e
        have hj0 := hzero hu
        subst hj0
        exact ⟨[], .start hq (by rw [hh, ← e.1])⟩
    · intro t δ e
      cases hu : streamKinds (toks.take j) with
      | cons a b => rw [hu] at e; simp at e
      | nil => rw [hu] at e; simp at e
    · rintro δ e ⟨p, hp, hh⟩
      cases hu : streamKinds (toks.take j) with
      | cons a b => rw [hu] at e; simp at e
      | nil =>
        have hj0 := hzero hu
        subst hj0
        exact ⟨p, 0, 0, [], .start hp hh⟩
  | @expand A β s γ₁ γ₂ hp h1 h2 =>
    simp only [List.cons.injEq, Elem.nonterm.injEq] at hl
    obtain ⟨rfl, rfl⟩ := hl
    cases h2
    obtain ⟨q, hq, hqh, rfl⟩ := (Grammar.cfg_prod_iff hw).1 hp
    have h0 : EItem sg toks 0 q 0 0 := ⟨[], .start hq hqh⟩
    obtain ⟨-, g2, g3⟩ := EItem.syields hw h1 h0 (rest := []) (by simp) (Nat.zero_le j) hj
    refine ⟨?_, ?_, ?_⟩
    · intro A δ e q' hq' hh
      obtain ⟨p, d, i, k1, k2⟩ := g2 _ δ (by rw [seg_zero, tokElems_streamKinds, ← e]; simp)
      exact k1.predict (by rw [k2, hh]) hq'
    · intro t δ e
      exact g2 _ δ (by rw [seg_zero, tokElems_streamKinds, ← e]; simp)
    · rintro δ e -
      exact g3 δ (by rw [seg_zero, tokElems_streamKinds, ← e]; simp)

/-- The meaning of the items. -/
theorem eitem_iff (hw : sg.WF) {i j : Nat} (hij : i ≤ j) (hj : j ≤ toks.length) {p d} :
    EItem sg toks j p d i ↔ sg.At p d (streamKinds (toks.take i)) (streamKinds (seg toks i j)) := by
  constructor
  · rintro ⟨ts, h⟩; exact h.at hw
  · rintro ⟨h1, h2, ⟨δ, h3⟩, h4⟩
    have h0 := (EItem.of_derivation hw (show i ≤ toks.length by omega) h3).1 _ _ rfl p h1 rfl
    have := (EItem.syields hw (Cfg.syields_iff.2 h4) h0 (j := j) (rest := p.elements.drop d) (by simp)
      hij hj).1 (by rw [tokElems_streamKinds])
    simpa [Nat.min_eq_left h2] using this

theorem viable_iff_item (hw : sg.WF) (hs : ∃ p ∈ sg.prods, p.head = sg.startSymbol) {j : Nat}
    (hj : j ≤ toks.length) :
    (∃ p d i, EItem sg toks j p d i) ↔ sg.Viable (streamKinds (toks.take j)) := by
  constructor
  · rintro ⟨p, d, i, h⟩
    have hb := h.bounds
    obtain ⟨δ, hδ⟩ := ((eitem_iff hw hb.2.1 hj).1 h).expand hw
    rw [← List.map_append, ← streamKinds_append, take_seg toks hb.2.1] at hδ
    exact ⟨p.elements.drop d ++ δ, by simpa using hδ⟩
  · rintro ⟨δ, h⟩
    exact (EItem.of_derivation hw hj h).2.2 δ rfl hs

theorem streamKinds_length (a : List (Token T V)) : (streamKinds a).length = a.length := by
  unfold streamKinds; simp

/-- A division of a prefix of the tokens. -/
theorem streamKinds_split {j : Nat} (hj : j ≤ toks.length) {u v : List (StreamTerminal T)}
    (h : streamKinds (toks.take j) = u ++ v) : u.length ≤ j ∧ u = streamKinds (toks.take u.length) ∧
      v = streamKinds (seg toks u.length j) := by
  have hlen : u.length ≤ j := by
    have := congrArg List.length h
    rw [streamKinds_length] at this
    simp at this; omega
  have h' := h
  rw [← take_seg toks hlen, streamKinds_append] at h'
  obtain ⟨h1, h2⟩ := List.append_inj h' (by rw [streamKinds_length]; simp; omega)
  exact ⟨hlen, h1.symm, h2.symm⟩

theorem twoPlaces_iff (hw : sg.WF) {j : Nat} (hj : j ≤ toks.length) :
    Collides sg toks j ↔ sg.TwoPlaces (streamKinds (toks.take j)) := by
  constructor
  · rintro ⟨p, d₁, d₂, i, hlt, h1, h2⟩
    have hb := h1.bounds.2.1
    exact ⟨p, d₁, d₂, _, _, by rw [← streamKinds_append, take_seg toks hb], hlt,
      (eitem_iff hw hb hj).1 h1, (eitem_iff hw hb hj).1 h2⟩
  · rintro ⟨p, d₁, d₂, u, v, h, hlt, h1, h2⟩
    obtain ⟨hl, hu, hv⟩ := streamKinds_split hj h
    rw [hu, hv] at h1 h2
    exact ⟨p, d₁, d₂, _, hlt, (eitem_iff hw hl hj).2 h1, (eitem_iff hw hl hj).2 h2⟩

theorem asBase_none {k : StartActionKey AK} : k.asBase = none ↔ k = .start := by
  cases k <;> simp [StartActionKey.asBase]

theorem startReduced_iff (hw : sg.WF) {j : Nat} (hj : j ≤ toks.length) :
    StartDone sg toks j ↔ StartReduced sg (streamKinds (toks.take j)) := by
  constructor
  · rintro ⟨q, k, p, d, i, h1, h2, h3, h4⟩
    have hb := h1.bounds.2.1
    have hb2 := h2.bounds.2.1
    have e1 := (eitem_iff hw hb hj).1 h1
    have e2 := (eitem_iff hw hb2 (by omega)).1 h2
    refine ⟨p, d, q, streamKinds (toks.take i), streamKinds (seg toks i k), streamKinds (seg toks k j),
      ?_, e2, h3, ?_, asBase_none.1 h4⟩
    · rw [← streamKinds_append, take_seg toks hb2, ← streamKinds_append, take_seg toks hb]
    · rw [← streamKinds_append, take_seg toks hb2, Prod.elements_length]; exact e1
  · rintro ⟨p, d, q, x, u, v, h, h1, h2, h3, h4⟩
    obtain ⟨hl, hu, hv⟩ := streamKinds_split hj h
    rw [hu, hv] at h3
    obtain ⟨hl2, hx, hu2⟩ := streamKinds_split (toks := toks) (show (x ++ u).length ≤ toks.length by omega)
      hu.symm
    rw [hx, hu2] at h1
    refine ⟨q, _, p, d, _, ?_, (eitem_iff hw hl2 (by omega)).2 h1, h2, asBase_none.2 h4⟩
    rw [← Prod.elements_length]
    exact (eitem_iff hw hl hj).2 h3

theorem stopsAt_iff (hw : sg.WF) {p d i} :
    StopsAt sg toks p d i ↔ EItem sg toks toks.length p d i ∧ p.elements[d]? = some (.term .endOfStream) := by
  have hseg : seg toks i toks.length = toks.drop i := by unfold seg; simp
  constructor
  · rintro ⟨h1, h2, h3⟩
    exact ⟨(eitem_iff hw h1 (Nat.le_refl _)).2 (by rw [hseg]; exact h2), h3⟩
  · rintro ⟨h1, h3⟩
    have hb := h1.bounds.2.1
    have := (eitem_iff hw hb (Nat.le_refl _)).1 h1
    rw [hseg] at this
    exact ⟨hb, this, h3⟩

/-- Some production stops before the end of stream exactly if the end of stream can follow. -/
theorem stops_iff_viable (hw : sg.WF) :
    (∃ p d i, StopsAt sg toks p d i) ↔ sg.Viable (streamKinds toks ++ [.endOfStream]) := by
  constructor
  · rintro ⟨p, d, i, h1, h2, h3⟩
    obtain ⟨δ, hδ⟩ := h2.expand hw
    have hdec : p.elements.drop d = .term .endOfStream :: p.elements.drop (d + 1) := by
      obtain ⟨hlt, he⟩ := List.getElem?_eq_some_iff.1 h3
      rw [← he, List.getElem_cons_drop]
    rw [← List.map_append, ← streamKinds_append, List.take_append_drop, hdec] at hδ
    exact ⟨p.elements.drop (d + 1) ++ δ, by simpa using hδ⟩
  · rintro ⟨δ, h⟩
    obtain ⟨p, d, i, k1, k2⟩ := (EItem.of_derivation hw (Nat.le_refl toks.length) h).2.1 .endOfStream δ
      (by simp)
    exact ⟨p, d, i, (stopsAt_iff hw).2 ⟨k1, k2⟩⟩
end items

section run
variable [Ord T] [Ord NT] [Ord AK] [Ord V] [DecidableEq T] [DecidableEq NT]
variable [TransOrd T] [TransOrd NT] [TransOrd AK] [TransOrd V]
variable [LawfulEqOrd T] [LawfulEqOrd NT] [LawfulEqOrd AK] [LawfulEqOrd V]
variable {addr : StartNonTerminal NT → Nat → Nat} {sg : StartGrammar T NT AK AV}
variable {toks : List (Token T V)}

/-- The first kernel: every production of the start rule, with nothing read. -/
theorem fromStates_starts (hg : SGOk addr sg) (I : Inner T AK V) (l : List (SProd T NT AK AV))
    (hl : ∀ p ∈ l, p ∈ sg.prods) (Z : EarleyStateSet T NT AK AV)
    (hs : BMap.Sorted (EarleyStateKey.cmp addr) Z)
    (hz : ∀ e ∈ Z, ∃ p ∈ sg.prods, e = (⟨⟨p, 0⟩, 0⟩, [])) :
    ∃ Z', EarleyStateSet.fromStates addr (l.map fun p => EarleyState.fromProdStart p 0) (I, Z) =
        .ok (I, Z') ∧ BMap.Sorted (EarleyStateKey.cmp addr) Z' ∧
      ∀ e, e ∈ Z' ↔ e ∈ Z ∨ ∃ p ∈ l, e = (⟨⟨p, 0⟩, 0⟩, []) := by
  induction l generalizing Z with
  | nil => exact ⟨Z, rfl, hs, by simp⟩
  | cons p l ih =>
    rw [List.map_cons, EarleyStateSet.fromStates]
    by_cases hv : ∀ e ∈ Z, EarleyStateKey.cmp addr (EarleyState.fromProdStart p 0).key e.1 ≠ .eq
    · obtain ⟨h1, h2⟩ := insert_vacant (st := (I, Z)) hv
      rw [h1]
      simp only
      obtain ⟨Z', g1, g2, g3⟩ := ih (fun q hq => hl q (by simp [hq])) _ (BMap.sorted_insert hs _ _) (by
        intro e he
        rcases (h2 e).1 he with rfl | he
        · exact ⟨p, hl p (by simp), rfl⟩
        · exact hz e he)
      refine ⟨Z', g1, g2, ?_⟩
      intro e
      rw [g3, h2]
      simp only [List.mem_cons, exists_eq_or_imp]
      constructor
      · rintro ((rfl | h) | h)
        · exact Or.inr (Or.inl rfl)
        · exact Or.inl h
        · exact Or.inr (Or.inr h)
      · rintro (h | rfl | h)
        · exact Or.inl (Or.inr h)
        · exact Or.inl (Or.inl rfl)
        · exact Or.inr h
    · have hv' : ∃ e ∈ Z, EarleyStateKey.cmp addr (EarleyState.fromProdStart p 0).key e.1 = .eq := by
        apply Classical.byContradiction
        intro h
        exact hv fun e he heq => h ⟨e, he, heq⟩
      obtain ⟨e, he, heq⟩ := hv'
      obtain ⟨q, hq, rfl⟩ := hz e he
      have hpq := (EarleyStateKey.cmp_eq_iff hg.wf hg.addr (hl p (by simp)) hq).1 heq
      simp only [EarleyState.fromProdStart, ProdState.fromStart, and_true] at hpq
      subst hpq
      have hget := BMap.get?_of_mem hs he heq
      simp only [EarleyState.fromProdStart, ProdState.fromStart] at hget
      have hins : EarleyStateSet.insert addr (I, Z) (EarleyState.fromProdStart p 0) =
          .ok ((I, Z), .unchanged) := by
        unfold EarleyStateSet.insert EarleyState.fromProdStart ProdState.fromStart
        simp only [hget]
        rfl
      rw [hins]
      simp only
      obtain ⟨Z', g1, g2, g3⟩ := ih (fun q hq => hl q (by simp [hq])) Z hs hz
      refine ⟨Z', g1, g2, ?_⟩
      intro e
      rw [g3]
      simp only [List.mem_cons, exists_eq_or_imp]
      constructor
      · rintro (h | h)
        · exact Or.inl h
        · exact Or.inr (Or.inr h)
      · rintro (h | rfl | h)
        · exact Or.inl h
        · exact Or.inl he
        · exact Or.inr h

theorem newStart_spec (hg : SGOk addr sg) {r} (hr : sg.tryGetRule sg.startSymbol = some r)
    (I : Inner T AK V) :
    ∃ Z, EarleyStateSet.newStart addr sg I = .ok (I, Z) ∧
      BMap.Sorted (EarleyStateKey.cmp addr) Z ∧
      ∀ e, e ∈ Z ↔ ∃ p ∈ sg.prods, p.head = sg.startSymbol ∧ e = (⟨⟨p, 0⟩, 0⟩, []) := by
  obtain ⟨Z, h1, h2, h3⟩ := fromStates_starts hg I r.prodRefs
    (fun p hp => ((Grammar.mem_prods_of_rule hg.wf hr).1 hp).1) [] BMap.sorted_nil (by simp)
  refine ⟨Z, ?_, h2, ?_⟩
  · unfold EarleyStateSet.newStart Grammar.getRule
    rw [hr]
    exact h1
  · intro e
    rw [h3]
    simp only [List.not_mem_nil, false_or]
    constructor
    · rintro ⟨p, hp, rfl⟩
      obtain ⟨k1, k2⟩ := (Grammar.mem_prods_of_rule hg.wf hr).1 hp
      exact ⟨p, k1, k2, rfl⟩
    · rintro ⟨p, k1, k2, rfl⟩
      exact ⟨p, (Grammar.mem_prods_of_rule hg.wf hr).2 ⟨k1, k2⟩, rfl⟩

theorem isFinalKey_eos {k : EarleyStateKey T NT AK AV} : k.isFinalKey = true ↔
    k.prodState.prod.elements[k.prodState.index]? = some (.term .endOfStream) := by
  unfold EarleyStateKey.isFinalKey
  rw [ProdState.nextElem_eq]
  cases k.prodState.prod.elements[k.prodState.index]? with
  | none => simp
  | some e =>
    cases e with
    | nonterm A => simp [Elem.asTerm]
    | term t => cases t <;> simp [Elem.asTerm, StreamTerminal.isEos]

/-- `get_final` takes the first final state. -/
theorem getFinal_first (Z : EarleyStateSet T NT AK AV) :
    (EarleyStateSet.getFinal Z = .ok none ∧ ∀ e ∈ Z, e.1.isFinalKey = false) ∨
    ∃ pre k v post, Z = pre ++ (k, v) :: post ∧ (∀ e ∈ pre, e.1.isFinalKey = false) ∧
      k.isFinalKey = true ∧
      (∀ n, v = [n] → EarleyStateSet.getFinal Z = .ok (some n)) ∧
      (v.length ≠ 1 → EarleyStateSet.getFinal Z = .panic .finalLen) := by
  induction Z with
  | nil => exact Or.inl ⟨rfl, by simp⟩
  | cons e Z ih =>
    obtain ⟨k, v⟩ := e
    by_cases hf : k.isFinalKey = true
    · refine Or.inr ⟨[], k, v, Z, rfl, by simp, hf, ?_, ?_⟩
      · rintro n rfl
        simp [EarleyStateSet.getFinal, hf]
      · intro hv
        rcases v with _ | ⟨n, _ | ⟨m, v⟩⟩
        · simp [EarleyStateSet.getFinal, hf]
        · simp at hv
        · simp [EarleyStateSet.getFinal, hf]
    · have hgf : EarleyStateSet.getFinal ((k, v) :: Z) = EarleyStateSet.getFinal Z := by
        simp [EarleyStateSet.getFinal, hf]
      have hf' : k.isFinalKey = false := by simpa using hf
      rw [hgf]
      rcases ih with ⟨h1, h2⟩ | ⟨pre, k', v', post, h1, h2, h3, h4⟩
      · refine Or.inl ⟨h1, ?_⟩
        intro e he
        rcases List.mem_cons.1 he with rfl | he
        · exact hf'
        · exact h2 e he
      · refine Or.inr ⟨(k, v) :: pre, k', v', post, by rw [h1]; rfl, ?_, h3, h4⟩
        intro e he
        rcases List.mem_cons.1 he with rfl | he
        · exact hf'
        · exact h2 e he

/-- What `parse` does on a start grammar. -/
theorem parseInner_gen (hg : SGOk addr sg) {r} (hr : sg.tryGetRule sg.startSymbol = some r)
    (hne : ∃ p ∈ sg.prods, p.head = sg.startSymbol)
    (lb : Labelling sg toks Λ) {I0 : Inner T AK V} (hI : I0.WF) :
    ∃ F, (∃ I sets last L,
        (∀ fuel, F ≤ fuel → parseInner addr sg fuel I0 toks =
          match EarleyStateSet.getFinal last with
          | .ok n => .ok (I, n)
          | .panic w => .panic w
          | .oof => .oof) ∧
        RunOk lb addr I0 (sets ++ [last]) I L ∧ sets.length = toks.length ∧
        (∀ k, k ≤ toks.length → GoodAt sg toks k)) ∨
    (∃ b, b ≤ toks.length ∧ (∀ k, k < b → GoodAt sg toks k) ∧
      (((∀ fuel, F ≤ fuel → parseInner addr sg fuel I0 toks = .panic .emptyState) ∧
        ¬ ∃ p d i, EItem sg toks b p d i) ∨
      (∃ w, (∀ fuel, F ≤ fuel → parseInner addr sg fuel I0 toks = .panic w) ∧
        Stuck sg toks b w ∧ ∃ p d i, EItem sg toks b p d i))) := by
  obtain ⟨Z0, hZ0, hsort, hmem⟩ := newStart_spec hg hr I0
  have hr0 : RunOk lb addr I0 [] I0 (fun _ _ => False) := by
    refine ⟨⟨hI, Nat.le_refl _, ?_, ?_, ?_, ?_⟩, by simp, by simp, .refl _ _ _⟩
    · intro _ _ h; exact h.elim
    · intro _ _ _ h; exact h.elim
    · intro _ _ h; exact h.elim
    · intro _ _ h; exact h.elim
  have hz0 : SetOk lb addr 0 (fun _ _ => False) Z0 := by
    refine ⟨hsort, ?_⟩
    intro e he
    obtain ⟨p, hp, hh, rfl⟩ := (hmem e).1 he
    refine ⟨⟨[], .start hp hh⟩, rfl, ?_⟩
    intro x n h; simp at h
  have hk0 : Kern sg toks 0 I0 Z0 := by
    refine ⟨?_, ?_⟩
    · intro _ p hp hh
      exact ⟨[], (hmem _).2 ⟨p, hp, hh, rfl⟩⟩
    · intro j' _ _ _ _ _ h; omega
  have hne0 : Z0 ≠ [] := by
    obtain ⟨p, hp, hh⟩ := hne
    have := (hmem _).2 ⟨p, hp, hh, rfl⟩
    intro h; rw [h] at this; cases this
  have hitem : ∀ {b w}, Stuck sg toks b w → ∃ p d i, EItem sg toks b p d i := by
    intro b w h
    cases h with
    | collides h => obtain ⟨p, d, _, i, _, h, _⟩ := h; exact ⟨p, d, i, h⟩
    | startKey h => obtain ⟨q, k, _, _, _, h, _⟩ := h; exact ⟨q, _, k, h⟩
  obtain ⟨F, h | h⟩ := close_kernel hg hne0 hr0 hz0 hk0
  · obtain ⟨I1, Z1, L1, h1, h2, h3⟩ := h
    have hgood0 : ∀ b, (∀ k, 0 < k → k < b → GoodAt sg toks k) → ∀ k, k < b → GoodAt sg toks k := by
      intro b hb k hk
      rcases Nat.eq_zero_or_pos k with rfl | hpos
      · exact h3
      · exact hb k hpos hk
    obtain ⟨F', h | h⟩ := parseLoop_spec hg toks (before := []) h2 (by simp) (by simp)
    · obtain ⟨I, sets, last, L, k1, k2, k3, k4⟩ := h
      refine ⟨max F F', Or.inl ⟨I, sets, last, L, ?_, k2, k3, ?_⟩⟩
      · intro fuel hf
        unfold parseInner
        rw [hZ0]
        simp only [h1 fuel (by omega), k1 fuel (by omega)]
        cases EarleyStateSet.getFinal last <;> rfl
      · intro k hk
        exact hgood0 (toks.length + 1) (fun k a b => k4 k a (by omega)) k (by omega)
    · obtain ⟨b, b1, b2, b3, b4⟩ := h
      have heq : ∀ fuel w, F ≤ fuel → parseLoop addr sg fuel [] Z1 I1 toks = .panic w →
          parseInner addr sg fuel I0 toks = .panic w := by
        intro fuel w hf hp
        unfold parseInner
        rw [hZ0]
        simp only [h1 fuel hf, hp]
      refine ⟨max F F', Or.inr ⟨b, b2, hgood0 b b3, ?_⟩⟩
      rcases b4 with ⟨c1, c2⟩ | ⟨w, c1, c2⟩
      · exact Or.inl ⟨fun fuel hf => heq fuel _ (by omega) (c1 fuel (by omega)), c2⟩
      · exact Or.inr ⟨w, fun fuel hf => heq fuel _ (by omega) (c1 fuel (by omega)), c2, hitem c2⟩
  · obtain ⟨w, h, hs⟩ := h
    refine ⟨F, Or.inr ⟨0, Nat.zero_le _, by intro k hk; omega, Or.inr ⟨w, ?_, hs, hitem hs⟩⟩⟩
    intro fuel hf
    unfold parseInner
    rw [hZ0]
    simp only [h fuel hf]

/-- The state `get_final` chooses. -/
theorem getFinal_stops (hg : SGOk addr sg) {lb : Labelling sg toks Λ} {I : Inner T AK V}
    {L : Nat → Λ → Prop} {last : EarleyStateSet T NT AK AV}
    (hz : SetOk lb addr toks.length L last) (hf : Full sg toks toks.length I last) :
    (EarleyStateSet.getFinal last = .ok none ∧ ∀ p d i, ¬ StopsAt sg toks p d i) ∨
    ∃ p d i v, (⟨⟨p, d⟩, i⟩, v) ∈ last ∧ FirstStop addr sg toks p d i ∧ v.length = d ∧
      (∀ n, v = [n] → EarleyStateSet.getFinal last = .ok (some n)) ∧
      (v.length ≠ 1 → EarleyStateSet.getFinal last = .panic .finalLen) := by
  have hstop : ∀ {p d i}, StopsAt sg toks p d i →
      ∃ v, ((⟨⟨p, d⟩, i⟩, v) : EarleyStateKey T NT AK AV × List Nat) ∈ last ∧
        (⟨⟨p, d⟩, i⟩ : EarleyStateKey T NT AK AV).isFinalKey = true := by
    intro p d i h
    obtain ⟨h1, h2⟩ := (stopsAt_iff hg.wf).1 h
    obtain ⟨v, hv, -⟩ := hf _ _ _ h1
    exact ⟨v, hv, isFinalKey_eos.2 h2⟩
  rcases getFinal_first last with ⟨h1, h2⟩ | ⟨pre, k, v, post, h1, h2, h3, h4⟩
  · refine Or.inl ⟨h1, ?_⟩
    intro p d i h
    obtain ⟨v, hv, hk⟩ := hstop h
    have := h2 _ hv
    rw [hk] at this; cases this
  · obtain ⟨⟨p, d⟩, i⟩ := k
    have hmem : (⟨⟨p, d⟩, i⟩, v) ∈ last := by rw [h1]; simp
    have hent := hz.entry _ hmem
    refine Or.inr ⟨p, d, i, v, hmem, ⟨(stopsAt_iff hg.wf).2 ⟨hent.1, isFinalKey_eos.1 h3⟩, ?_⟩,
      hent.2.1, h4⟩
    intro p' d' i' hs
    obtain ⟨v', hv', hk'⟩ := hstop hs
    rw [h1] at hv'
    rcases List.mem_append.1 hv' with hv' | hv'
    · have := h2 _ hv'
      rw [hk'] at this; cases this
    · rcases List.mem_cons.1 hv' with heq | hv'
      · cases heq; exact Or.inr ⟨rfl, Nat.le_refl _⟩
      · have hsort := hz.sorted
        unfold BMap.Sorted at hsort
        rw [h1] at hsort
        have hlt := (List.pairwise_cons.1 (List.pairwise_append.1 hsort).2.1).1 _ hv'
        unfold EarleyStateKey.cmp ProdState.cmp prodCmp at hlt
        rw [Ordering.then_eq_lt] at hlt
        rcases hlt with hlt | ⟨heq, hlt⟩
        · exact Or.inl (Nat.compare_eq_lt.1 hlt)
        · exact Or.inr ⟨Nat.compare_eq_eq.1 heq, Nat.le_of_lt (Nat.compare_eq_lt.1 hlt)⟩
end run

/-! ### Reading trees of a start grammar -/
section reads
variable [Ord T] [Ord AK] [Ord V] [TransOrd T] [TransOrd AK] [TransOrd V]
variable [LawfulEqOrd T] [LawfulEqOrd AK] [LawfulEqOrd V]

mutual
/-- A represented derivation tree of a start grammar can be read off. -/
theorem Rep.readsS {w : World T AK V} {t : Nat} : (d : STree T NT AK AV V) → (n : Nat) →
    Rep (w t) d n → ∃ s : DTree (Token T V) AK,
      s.mapNodes StartActionKey.actionKey = d.mapNodes (·.actionKey) ∧ Reads w s ⟨n, t⟩
  | .leaf tok, n => by
    intro h
    rw [Rep] at h
    exact ⟨.leaf tok, by rw [DTree.mapNodes, DTree.mapNodes], reads_leaf.2 h⟩
  | .node q cs, n => by
    intro h
    rw [Rep] at h
    obtain ⟨a, ak, ns, h1, h2, h3, h4⟩ := h
    obtain ⟨ss, k1, k2⟩ := RepAll.readsS cs ns h4
    have hak : q.actionKey = .actionKey ak := by
      cases hq : q.actionKey with
      | start => rw [hq] at h3; cases h3
      | actionKey x => rw [hq] at h3; cases h3; rfl
    refine ⟨.node ak ss, ?_, reads_node.2 ⟨a, ns, h1, h2, k2⟩⟩
    rw [DTree.mapNodes, DTree.mapNodes, k1, hak]
theorem RepAll.readsS {w : World T AK V} {t : Nat} : (ds : List (STree T NT AK AV V)) →
    (ns : List Nat) → RepAll (w t) ds ns → ∃ ss : List (DTree (Token T V) AK),
      DTree.mapNodesAll StartActionKey.actionKey ss = DTree.mapNodesAll (·.actionKey) ds ∧
      ReadsAll w ss (ns.map (⟨·, t⟩))
  | [], [] => fun _ => ⟨[], by rw [DTree.mapNodesAll, DTree.mapNodesAll], by simp [ReadsAll]⟩
  | [], _ :: _ => fun h => by simp [RepAll] at h
  | _ :: _, [] => fun h => by simp [RepAll] at h
  | d :: ds, n :: ns => by
    intro h
    rw [RepAll] at h
    obtain ⟨s, h1, h2⟩ := Rep.readsS d n h.1
    obtain ⟨ss, h3, h4⟩ := RepAll.readsS ds ns h.2
    refine ⟨s :: ss, by rw [DTree.mapNodesAll, DTree.mapNodesAll, h1, h3], ?_⟩
    rw [List.map_cons, ReadsAll]
    exact ⟨h2, h4⟩
end

variable [Ord NT] [TransOrd NT] [LawfulEqOrd NT] {sg : StartGrammar T NT AK AV} {toks : List (Token T V)}
variable {N : Nat} {L : Nat → Option (Elem (StreamTerminal T) (StartNonTerminal NT)) → Prop}

mutual
/-- What is read off a node that stands for an element is a derivation tree of it. -/
theorem Reads.grammaticalS {w : World T AK V} {t : Nat}
    (ht : Typed (elemLabel sg toks) N (w t) L) :
    (s : DTree (Token T V) AK) → (n : Nat) →
    (e : Elem (StreamTerminal T) (StartNonTerminal NT)) → L n (some e) → Reads w s ⟨n, t⟩ →
    ∃ d : STree T NT AK AV V, IsTree sg (fun tok => .term tok.kind) e d ∧
      d.mapNodes (·.actionKey) = s.mapNodes StartActionKey.actionKey ∧ ∀ tok ∈ s.yield, tok ∈ toks
  | .leaf tok, n, e => by
    intro hL hr
    obtain ⟨a, h1, h2⟩ := reads_leaf.1 hr
    obtain ⟨c, h3, h4⟩ := ht.ok n _ hL a h1
    simp only at h2
    rw [h2] at h3
    cases h3
    obtain ⟨k, tok', e1, e2, e3, e4⟩ := h4
    have htok : tok' = tok := by cases tok; cases tok'; simp_all
    subst htok
    simp only [elemLabel, e1, Option.map_some, Option.some.injEq] at e4
    subst e4
    refine ⟨.leaf tok', .leaf tok', by rw [DTree.mapNodes, DTree.mapNodes], ?_⟩
    rw [DTree.yield]
    intro x hx
    simp only [List.mem_singleton] at hx
    subst hx
    exact List.mem_iff_getElem?.2 ⟨k, e1⟩
  | .node ak cs, n, e => by
    intro hL hr
    obtain ⟨a, ns, h1, h2, h5⟩ := reads_node.1 hr
    obtain ⟨c, h3, h4⟩ := ht.ok n _ hL a h1
    simp only at h2 h5
    rw [h2] at h3
    cases h3
    obtain ⟨j, q, k, e1, e2, e3, e4, e5⟩ := h4
    simp only [elemLabel, Option.some.injEq] at e4 e5
    subst e4
    have hak : q.actionKey = .actionKey ak := by
      cases hq : q.actionKey with
      | start => rw [hq] at e2; cases e2
      | actionKey x => rw [hq] at e2; cases e2; rfl
    obtain ⟨ds, d1, d2, d3⟩ := ReadsAll.grammaticalS ht cs ns q.elements (by
      rw [e3, Prod.elements_length]) (by
      intro x m e' hx hm
      have := e5 x m hm
      rw [hx] at this
      exact this) h5
    refine ⟨.node q ds, .node q ds e1.mem d1, by rw [DTree.mapNodes, DTree.mapNodes, d2, hak], ?_⟩
    rw [DTree.yield]; exact d3
theorem ReadsAll.grammaticalS {w : World T AK V} {t : Nat}
    (ht : Typed (elemLabel sg toks) N (w t) L) :
    (ss : List (DTree (Token T V) AK)) → (ns : List Nat) →
    (es : List (Elem (StreamTerminal T) (StartNonTerminal NT))) → ns.length = es.length →
    (∀ (x : Nat) (m : Nat) (e : Elem (StreamTerminal T) (StartNonTerminal NT)), es[x]? = some e →
      ns[x]? = some m → L m (some e)) →
    ReadsAll w ss (ns.map (⟨·, t⟩)) →
    ∃ ds : List (STree T NT AK AV V), IsForest sg (fun tok => .term tok.kind) es ds ∧
      DTree.mapNodesAll (·.actionKey) ds = DTree.mapNodesAll StartActionKey.actionKey ss ∧
      ∀ tok ∈ DTree.yields ss, tok ∈ toks
  | [], [], es => by
    intro h1 _ _
    cases es with
    | nil => exact ⟨[], .nil, by rw [DTree.mapNodesAll, DTree.mapNodesAll], by rw [DTree.yields]; simp⟩
    | cons _ _ => simp at h1
  | [], _ :: _, _ => fun _ _ h => by simp [ReadsAll] at h
  | _ :: _, [], _ => fun _ _ h => by simp [ReadsAll] at h
  | s :: ss, n :: ns, es => by
    intro h1 h2 h3
    cases es with
    | nil => simp at h1
    | cons e es =>
      rw [List.map_cons, ReadsAll] at h3
      obtain ⟨d, a1, a2, a3⟩ := Reads.grammaticalS ht s n e (h2 0 n e rfl rfl) h3.1
      obtain ⟨ds, b1, b2, b3⟩ := ReadsAll.grammaticalS ht ss ns es (by simpa using h1)
        (fun x m e' hx hm => h2 (x + 1) m e' hx hm) h3.2
      refine ⟨d :: ds, .cons a1 b1, by rw [DTree.mapNodesAll, DTree.mapNodesAll, a2, b2], ?_⟩
      rw [DTree.yields]
      intro tok htok
      rcases List.mem_append.1 htok with h | h
      · exact a3 tok h
      · exact b3 tok h
end
end reads
end Bongo
