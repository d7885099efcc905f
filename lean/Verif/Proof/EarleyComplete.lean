import Verif.Proof.EarleyItems
/-! Every derivation has its items. -/
set_option linter.unusedSectionVars false
namespace Bongo
open Std
variable {T NT AK AV V : Type}

/-- A token as a terminal of the start grammar. -/
def sKind (tok : Token T V) : StreamTerminal T := .term tok.kind

theorem seg_full_len {α : Type} {l : List α} {i j n : Nat} (h : (seg l i j).length = n) (hij : i ≤ j)
    (hj : j ≤ l.length) : j = i + n := by
  rw [seg_length hj] at h; omega

section
variable {sg : StartGrammar T NT AK AV} {toks : List (Token T V)}

mutual
theorem EParse.tree {e : Elem (StreamTerminal T) (StartNonTerminal NT)} {t : STree T NT AK AV V}
    (h : IsTree sg sKind e t) {k j p d i ts0} (h0 : EParse sg toks k p d i ts0)
    (he : p.elements[d]? = some e) (hkj : k ≤ j) (hj : j ≤ toks.length)
    (hy : t.yield = seg toks k j) : EParse sg toks j p (d + 1) i (ts0 ++ [t]) := by
  cases h with
  | leaf l =>
    rw [DTree.yield] at hy
    have hl := seg_full_len (by rw [← hy]; rfl : (seg toks k j).length = 1) hkj hj
    subst hl
    exact h0.scan he (seg_cons hy.symm).1
  | node q cs hq hf =>
    rw [DTree.yield] at hy
    have h1 := h0.predict he hq
    have h2 := EParse.forest hf h1 (rest := []) (by simp) hkj hj hy
    rw [Nat.zero_add, Prod.elements_length, List.nil_append] at h2
    exact h0.complete he h2
theorem EParse.forest {es : List (Elem (StreamTerminal T) (StartNonTerminal NT))}
    {ts : List (STree T NT AK AV V)}
    (h : IsForest sg sKind es ts) {k j p d i ts0 rest} (h0 : EParse sg toks k p d i ts0)
    (he : p.elements.drop d = es ++ rest) (hkj : k ≤ j) (hj : j ≤ toks.length)
    (hy : DTree.yields ts = seg toks k j) : EParse sg toks j p (d + es.length) i (ts0 ++ ts) := by
  cases h with
  | nil =>
    rw [DTree.yields] at hy
    have hl := seg_full_len (by rw [← hy]; rfl : (seg toks k j).length = 0) hkj hj
    subst hl
    simpa using h0
  | @cons e es c cs h1 h2 =>
    rw [DTree.yields] at hy
    obtain ⟨m, hm1, hm2, ha, hb⟩ := seg_eq_append hkj hj hy.symm
    have hel : p.elements[d]? = some e := by
      have : (p.elements.drop d)[0]? = some e := by rw [he]; rfl
      simpa using this
    have g1 := EParse.tree h1 h0 hel hm1 (by omega) ha.symm
    have g2 := EParse.forest h2 g1 (rest := rest) (by
      rw [← List.drop_drop, he]; rfl) hm2 hj hb.symm
    simpa [Nat.add_assoc, Nat.add_comm, Nat.add_left_comm] using g2
end
end

/-! ### Lifting trees -/
section
variable [Ord NT] [TransOrd NT] [LawfulEqOrd NT] {g : Grammar T NT AK AV}

mutual
theorem DTree.yield_mapNodes {L P Q : Type} (f : P → Q) : (t : DTree L P) → (t.mapNodes f).yield = t.yield
  | .leaf _ => by rw [DTree.mapNodes, DTree.yield, DTree.yield]
  | .node _ cs => by rw [DTree.mapNodes, DTree.yield, DTree.yield]; exact DTree.yields_mapNodes f cs
theorem DTree.yields_mapNodes {L P Q : Type} (f : P → Q) :
    (ts : List (DTree L P)) → DTree.yields (DTree.mapNodesAll f ts) = DTree.yields ts
  | [] => by rw [DTree.mapNodesAll, DTree.yields, DTree.yields]
  | c :: cs => by
    rw [DTree.mapNodesAll, DTree.yields, DTree.yields, DTree.yield_mapNodes f c,
      DTree.yields_mapNodes f cs]
end

mutual
theorem IsTree.lift (hw : g.WF) {e : Elem T NT} {t : DTree (Token T V) (Prod T NT AK AV)}
    (h : IsTree g (·.kind) e t) :
    IsTree g.wrapped sKind (baseElemToStartElem e) (t.mapNodes liftProd) := by
  cases h with
  | leaf l => rw [DTree.mapNodes]; exact .leaf l
  | node p cs hp hf =>
    rw [DTree.mapNodes]
    have := hf.lift hw
    rw [← liftProd_elements] at this
    exact .node (liftProd p) _ ((mem_wrapped_prods hw).2 (Or.inr ⟨p, hp, rfl⟩)) this
theorem IsForest.lift (hw : g.WF) {es : List (Elem T NT)}
    {ts : List (DTree (Token T V) (Prod T NT AK AV))} (h : IsForest g (·.kind) es ts) :
    IsForest g.wrapped sKind (es.map baseElemToStartElem) (DTree.mapNodesAll liftProd ts) := by
  cases h with
  | nil => rw [DTree.mapNodesAll]; exact .nil
  | cons h1 h2 =>
    rw [DTree.mapNodesAll, List.map_cons]
    exact .cons (h1.lift hw) (h2.lift hw)
end

theorem startRef_mem (hw : g.WF) : startRef g ∈ g.wrapped.prods := (mem_wrapped_prods hw).2 (Or.inl rfl)
theorem liftProd_mem (hw : g.WF) {q} (h : q ∈ g.prods) : liftProd q ∈ g.wrapped.prods :=
  (mem_wrapped_prods hw).2 (Or.inr ⟨q, h, rfl⟩)

/-- Every derivation tree of the input is found. -/
theorem EParse.of_tree (hw : g.WF) {toks : List (Token T V)}
    {t : DTree (Token T V) (Prod T NT AK AV)}
    (h : IsTree g (·.kind) (.nonterm g.startSymbol) t) (hy : t.yield = toks) :
    EParse g.wrapped toks toks.length (startRef g) 1 0 [t.mapNodes liftProd] := by
  have h0 : EParse g.wrapped toks 0 (startRef g) 0 0 [] := .start (startRef_mem hw) rfl
  have := EParse.tree (h.lift hw) h0 (j := toks.length) (by rw [startRef_elements]; rfl) (Nat.zero_le _)
    (Nat.le_refl _) (by rw [DTree.yield_mapNodes, hy]; simp)
  simpa using this

/-! ### Sentential forms -/
theorem wrapped_syields {s γ : List (Elem T NT)} (h : g.cfg.SYields s γ) :
    g.wrapped.cfg.SYields (s.map baseElemToStartElem) (γ.map baseElemToStartElem) := by
  induction h with
  | nil => exact .nil
  | keep e _ ih => exact .keep _ ih
  | expand hp _ _ ih1 ih2 =>
    rw [List.map_append]
    exact .expand (wrapped_prod_nterm.2 ⟨_, hp, rfl⟩) ih1 ih2

/-- The tokens as elements. -/
def tokElems (toks : List (Token T V)) : List (Elem (StreamTerminal T) (StartNonTerminal NT)) :=
  toks.map fun t => .term (.term t.kind)

theorem EItem.syields {sg : StartGrammar T NT AK AV} [TransOrd NT] (hw : sg.WF) {toks : List (Token T V)} {s γ}
    (h : sg.cfg.SYields s γ) : ∀ {k j p d i rest}, EItem sg toks k p d i →
      p.elements.drop d = s ++ rest → k ≤ j → j ≤ toks.length →
      (γ = tokElems (seg toks k j) → EItem sg toks j p (d + s.length) i) ∧
      (∀ e δ, γ = tokElems (seg toks k j) ++ e :: δ → ∃ q d' i', EItem sg toks j q d' i' ∧
        q.elements[d']? = some e) ∧
      (∀ δ, γ = tokElems (seg toks k j) ++ δ → ∃ q d' i', EItem sg toks j q d' i') := by
  induction h with
  | nil =>
    intro k j p d i rest h0 he hkj hj
    have hnil : ∀ {x}, ([] : List (Elem (StreamTerminal T) (StartNonTerminal NT))) =
        tokElems (seg toks k j) ++ x → j = k ∧ x = [] := by
      intro x hx
      obtain ⟨h1, h2⟩ := List.nil_eq_append_iff.1 hx
      have : (seg toks k j).length = 0 := by
        have := congrArg List.length h1; simpa [tokElems] using this
      exact ⟨by have := seg_full_len this hkj hj; omega, h2⟩
    refine ⟨?_, ?_, ?_⟩
    · intro h
      obtain ⟨rfl, -⟩ := hnil (x := []) (by simpa using h)
      simpa using h0
    · intro e δ h
      obtain ⟨-, h⟩ := hnil h; cases h
    · intro δ h
      obtain ⟨rfl, -⟩ := hnil h
      exact ⟨_, _, _, h0⟩
  | @keep s γ e h ih =>
    intro k j p d i rest h0 he hkj hj
    have hel : p.elements[d]? = some e := by
      have : (p.elements.drop d)[0]? = some e := by rw [he]; rfl
      simpa using this
    have hdrop : p.elements.drop (d + 1) = s ++ rest := by rw [← List.drop_drop, he]; rfl
    rcases Nat.eq_or_lt_of_le hkj with rfl | hlt
    · refine ⟨?_, ?_, ?_⟩
      · intro h; simp [tokElems] at h
      · intro e' δ h
        simp [tokElems] at h
        rw [h.1] at hel
        exact ⟨_, _, _, h0, hel⟩
      · intro δ _; exact ⟨_, _, _, h0⟩
    · have hs : seg toks k j = toks[k] :: seg toks (k + 1) j := by
        rw [← seg_append toks (Nat.le_succ k) hlt, seg_succ (Nat.le_refl k)
          (List.getElem?_eq_getElem (show k < toks.length by omega))]
        simp
      have key : ∀ {x}, e :: γ = tokElems (seg toks k j) ++ x →
          EItem sg toks (k + 1) p (d + 1) i ∧ γ = tokElems (seg toks (k + 1) j) ++ x := by
        intro x h
        rw [hs] at h
        simp only [tokElems, List.map_cons, List.cons_append, List.cons.injEq] at h
        refine ⟨h0.scan (tok := toks[k]) (by rw [hel, h.1])
          (List.getElem?_eq_getElem (show k < toks.length by omega)), h.2⟩
      refine ⟨?_, ?_, ?_⟩
      · intro h
        obtain ⟨h1, h2⟩ := key (x := []) (by simpa using h)
        have := (ih h1 hdrop hlt hj).1 (by simpa using h2)
        simpa [Nat.add_assoc, Nat.add_comm, Nat.add_left_comm] using this
      · intro e' δ h
        obtain ⟨h1, h2⟩ := key h
        exact (ih h1 hdrop hlt hj).2.1 e' δ h2
      · intro δ h
        obtain ⟨h1, h2⟩ := key h
        exact (ih h1 hdrop hlt hj).2.2 δ h2
  | @expand A β s γ₁ γ₂ hp h1 h2 ih1 ih2 =>
    intro k j p d i rest h0 he hkj hj
    have hel : p.elements[d]? = some (.nonterm A) := by
      have : (p.elements.drop d)[0]? = some (.nonterm A) := by rw [he]; rfl
      simpa using this
    have hdrop : p.elements.drop (d + 1) = s ++ rest := by rw [← List.drop_drop, he]; rfl
    obtain ⟨q, hq, rfl, rfl⟩ := (Grammar.cfg_prod_iff hw).1 hp
    have hq0 : EItem sg toks k q 0 k := h0.predict hel hq
    -- the first part is all terminals
    have full : ∀ {a : List (Token T V)} {x}, γ₁ = tokElems a → γ₂ = x → 
        ∀ m, k ≤ m → m ≤ j → seg toks k m = a → EItem sg toks m p (d + 1) i := by
      intro a x e1 e2 m hm1 hm2 hs
      have := (ih1 hq0 (rest := []) (by simp) hm1 (by omega)).1 (by rw [e1, hs])
      rw [Nat.zero_add, Prod.elements_length] at this
      exact h0.complete hel this
    have split : ∀ {x}, γ₁ ++ γ₂ = tokElems (seg toks k j) ++ x →
        (∃ y, γ₁ = tokElems (seg toks k j) ++ y ∧ x = y ++ γ₂) ∨
        ∃ m, k ≤ m ∧ m ≤ j ∧ EItem sg toks m p (d + 1) i ∧ γ₂ = tokElems (seg toks m j) ++ x := by
      intro x h
      rcases List.append_eq_append_iff.1 h with ⟨b, hb1, hb2⟩ | ⟨b, hb1, hb2⟩
      · right
        unfold tokElems at hb1
        obtain ⟨u, v, huv, hu, hv⟩ := List.map_eq_append_iff.1 hb1
        obtain ⟨m, hm1, hm2, ha, hb⟩ := seg_eq_append hkj hj huv
        exact ⟨m, hm1, hm2, full hu.symm rfl m hm1 hm2 ha, by rw [hb2, ← hv, hb]; rfl⟩
      · left; exact ⟨b, hb1, hb2⟩
    refine ⟨?_, ?_, ?_⟩
    · intro h
      rcases split (x := []) (by simpa using h) with ⟨y, hy1, hy2⟩ | ⟨m, hm1, hm2, hm3, hm4⟩
      · obtain ⟨rfl, hγ⟩ := List.nil_eq_append_iff.1 hy2
        have := full (a := seg toks k j) (by simpa using hy1) rfl j hkj (Nat.le_refl j) rfl
        have := (ih2 this hdrop (Nat.le_refl j) hj).1 (by simpa [tokElems] using hγ)
        simpa [Nat.add_assoc, Nat.add_comm, Nat.add_left_comm] using this
      · have := (ih2 hm3 hdrop hm2 hj).1 (by simpa using hm4)
        simpa [Nat.add_assoc, Nat.add_comm, Nat.add_left_comm] using this
    · intro B δ h
      rcases split h with ⟨y, hy1, hy2⟩ | ⟨m, hm1, hm2, hm3, hm4⟩
      · cases y with
        | nil =>
          have := full (a := seg toks k j) (by simpa using hy1) rfl j hkj (Nat.le_refl j) rfl
          exact (ih2 this hdrop (Nat.le_refl j) hj).2.1 B δ (by simpa [tokElems] using hy2.symm)
        | cons c y =>
          simp only [List.cons_append, List.cons.injEq] at hy2
          obtain ⟨rfl, -⟩ := hy2
          exact (ih1 hq0 (rest := []) (by simp) hkj hj).2.1 B y hy1
      · exact (ih2 hm3 hdrop hm2 hj).2.1 B δ hm4
    · intro δ h
      rcases split h with ⟨y, hy1, hy2⟩ | ⟨m, hm1, hm2, hm3, hm4⟩
      · exact (ih1 hq0 (rest := []) (by simp) hkj hj).2.2 y hy1
      · exact (ih2 hm3 hdrop hm2 hj).2.2 δ hm4

theorem tokElems_kinds (toks : List (Token T V)) :
    (tokElems toks : List (Elem (StreamTerminal T) (StartNonTerminal NT))) =
      ((kinds toks).map Elem.term).map baseElemToStartElem := by
  unfold tokElems kinds; simp [baseElemToStartElem]

/-- The items of a derivation from the start symbol. -/
theorem EItem.of_start (hw : g.WF) {toks : List (Token T V)} {j : Nat} (hj : j ≤ toks.length)
    {γ : List (Elem T NT)} (h : g.cfg.Derives [.nonterm g.startSymbol] γ) :
    (γ = (kinds (toks.take j)).map .term → EItem g.wrapped toks j (startRef g) 1 0) ∧
    (∀ A δ, γ = (kinds (toks.take j)).map .term ++ .nonterm A :: δ → ∀ q ∈ g.prods, q.head = A →
      EItem g.wrapped toks j (liftProd q) 0 j) ∧
    (∀ δ, γ = (kinds (toks.take j)).map .term ++ δ → ∃ q d' i', EItem g.wrapped toks j q d' i') := by
  have h0 : EItem g.wrapped toks 0 (startRef g) 0 0 := ⟨[], .start (startRef_mem hw) rfl⟩
  have hs := wrapped_syields (Cfg.syields_iff.2 h)
  obtain ⟨h1, h2, h3⟩ := EItem.syields (Grammar.wrapped_wf hw) hs h0
    (rest := [.term .endOfStream]) (by rw [startRef_elements]; rfl) (Nat.zero_le j) hj
  refine ⟨?_, ?_, ?_⟩
  · intro e; exact h1 (by rw [e, seg_zero, tokElems_kinds])
  · intro A δ e q hq hh
    obtain ⟨p, d, i, k1, k2⟩ := h2 (.nonterm (.nterm A)) (δ.map baseElemToStartElem)
      (by rw [e, seg_zero, tokElems_kinds]; simp [baseElemToStartElem])
    exact k1.predict (q := liftProd q) (by rw [k2, liftProd_head, hh]) (liftProd_mem hw hq)
  · intro δ e
    exact h3 (δ.map baseElemToStartElem) (by rw [e, seg_zero, tokElems_kinds]; simp)

theorem EItem.means (hw : g.WF) {toks : List (Token T V)} {j p d i}
    (h : EItem g.wrapped toks j p d i) : EMeans g toks j p d i := h.elim fun _ h => h.means hw

theorem EItem.bounds {sg : StartGrammar T NT AK AV} {toks : List (Token T V)} {j p d i}
    (h : EItem sg toks j p d i) : d ≤ p.elements.length ∧ i ≤ j ∧ j ≤ toks.length := by
  obtain ⟨_, h⟩ := h
  exact ⟨h.bounds.1, h.bounds.2.1, h.bounds.2.2.1⟩

/-- The state of a position has an item exactly if the prefix is viable. -/
theorem exists_item_iff (hw : g.WF) {toks : List (Token T V)} {j : Nat} (hj : j ≤ toks.length) :
    (∃ p d i, EItem g.wrapped toks j p d i) ↔ g.Viable (kinds (toks.take j)) := by
  constructor
  · rintro ⟨p, d, i, h⟩
    have hb := h.bounds
    rcases h.means hw with ⟨rfl, rfl, ⟨rfl, rfl⟩ | ⟨rfl, hg⟩⟩ | ⟨q, hq, rfl, ⟨δ, hδ⟩, hy⟩
    · exact ⟨[.nonterm g.startSymbol], by simpa [kinds] using .refl _⟩
    · exact ⟨[], by unfold Cfg.Generates at hg; simpa using hg⟩
    · refine ⟨q.elements.drop d ++ δ, ?_⟩
      have hp := Cfg.derives_prod ((Grammar.cfg_prod_iff hw).2 ⟨q, hq, rfl, rfl⟩)
      have h4 := Cfg.Derives.append (Cfg.Derives.refl ((kinds (toks.take i)).map Elem.term))
        (Cfg.Derives.append hp (Cfg.Derives.refl δ))
      have h5 := hδ.trans h4
      rw [← List.take_append_drop d q.elements] at h5
      have h6 := Cfg.Derives.append (Cfg.Derives.refl ((kinds (toks.take i)).map Elem.term))
        (Cfg.Derives.append (Cfg.Derives.append hy.derives
          (Cfg.Derives.refl (q.elements.drop d))) (Cfg.Derives.refl δ))
      have h7 := h5.trans h6
      rw [← take_seg toks hb.2.1, kinds_append, List.map_append]
      simpa using h7
  · rintro ⟨δ, h⟩
    exact (EItem.of_start hw hj h).2.2 δ rfl

theorem EItem.of_derives (hw : g.WF) {toks : List (Token T V)} {i j : Nat} (hij : i ≤ j)
    (hj : j ≤ toks.length) {q} (h : EItem g.wrapped toks i (liftProd q) 0 i) {d : Nat}
    (hd : d ≤ q.elements.length)
    (hy : g.cfg.Derives (q.elements.take d) ((kinds (seg toks i j)).map .term)) :
    EItem g.wrapped toks j (liftProd q) d i := by
  have hs := wrapped_syields (Cfg.syields_iff.2 hy)
  have := (EItem.syields (Grammar.wrapped_wf hw) hs h (j := j)
    (rest := (q.elements.drop d).map baseElemToStartElem) (by
      rw [liftProd_elements, ← List.map_append]; simp) hij hj).1 (by rw [tokElems_kinds])
  simpa [Nat.min_eq_left hd] using this

/-- Two items of one production with one origin at different positions exist exactly if the prefix
clashes. -/
theorem exists_clash_iff (hw : g.WF) {toks : List (Token T V)} {j : Nat} (hj : j ≤ toks.length) :
    (∃ p d₁ d₂ i, d₁ < d₂ ∧ EItem g.wrapped toks j p d₁ i ∧ EItem g.wrapped toks j p d₂ i) ↔
      g.Clash (kinds (toks.take j)) := by
  constructor
  · rintro ⟨p, d₁, d₂, i, hlt, h1, h2⟩
    have hb := h2.bounds
    rcases h1.means hw with ⟨rfl, rfl, hd1⟩ | ⟨q, hq, rfl, ⟨δ, hδ⟩, hy1⟩
    · rcases h2.means hw with ⟨-, -, hd2⟩ | ⟨q, hq, hh, -⟩
      · rcases hd1 with ⟨rfl, rfl⟩ | ⟨rfl, -⟩
        · rcases hd2 with ⟨rfl, -⟩ | ⟨rfl, hg⟩
          · omega
          · left; exact ⟨rfl, by simpa [kinds] using hg⟩
        · rcases hd2 with ⟨rfl, -⟩ | ⟨rfl, hg⟩ <;> omega
      · have := congrArg Prod.head hh; cases this
    · rcases h2.means hw with ⟨hh, -⟩ | ⟨q', hq', hh, -, hy2⟩
      · have := congrArg Prod.head hh; cases this
      · have := liftProd_inj hh; subst this
        right
        refine ⟨kinds (toks.take i), kinds (seg toks i j), q.head, q.elements, δ, d₁, d₂, ?_, hδ,
          (Grammar.cfg_prod_iff hw).2 ⟨q, hq, rfl, rfl⟩, hlt, ?_, hy1.derives, hy2.derives⟩
        · rw [← kinds_append, take_seg toks hb.2.1]
        · have := hb.1; rw [liftProd_elements] at this; simpa using this
  · rintro (⟨hnil, hg⟩ | ⟨u, v, A, β, δ, d₁, d₂, huv, hδ, hp, hlt, hle, hy1, hy2⟩)
    · have : j = 0 := by
        have := congrArg List.length hnil
        simp [kinds] at this
        rcases this with h | h
        · exact h
        · subst h; simpa using hj
      subst this
      refine ⟨startRef g, 0, 1, 0, by omega, ⟨[], .start (startRef_mem hw) rfl⟩, ?_⟩
      exact (EItem.of_start hw hj hg).1 (by simp [kinds])
    · obtain ⟨q, hq, rfl, rfl⟩ := (Grammar.cfg_prod_iff hw).1 hp
      have hlen : u.length ≤ j := by
        have := congrArg List.length huv
        simp [kinds] at this; omega
      have htake : kinds (toks.take u.length) = u ∧ kinds (seg toks u.length j) = v := by
        have h := huv
        rw [← take_seg toks hlen, kinds_append] at h
        exact List.append_inj h (by simp [kinds]; omega)
      have h0 := (EItem.of_start hw (show u.length ≤ toks.length by omega) hδ).2.1 q.head δ
        (by rw [htake.1]) q hq rfl
      exact ⟨liftProd q, d₁, d₂, u.length, hlt,
        EItem.of_derives hw hlen hj h0 (by omega) (by rw [htake.2]; exact hy1),
        EItem.of_derives hw hlen hj h0 hle (by rw [htake.2]; exact hy2)⟩

theorem final_item_iff (hw : g.WF) {toks : List (Token T V)} :
    EItem g.wrapped toks toks.length (startRef g) 1 0 ↔ g.cfg.Generates g.startSymbol (kinds toks) := by
  constructor
  · intro h
    rcases h.means hw with ⟨-, -, ⟨h, -⟩ | ⟨-, hg⟩⟩ | ⟨q, hq, hh, -⟩
    · cases h
    · simpa using hg
    · have := congrArg Prod.head hh; cases this
  · intro h
    exact (EItem.of_start hw (Nat.le_refl _) h).1 (by simp)
end
end Bongo
