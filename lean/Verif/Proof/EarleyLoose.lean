import Verif.Spec.Mix
import Verif.Proof.EarleyTree
import Verif.Proof.EarleyComplete
/-! The trees that can be read off the forest of the parser: at least and at most. -/
set_option linter.unusedSectionVars false
namespace Bongo
open Std
variable {T NT AK AV V : Type}

section
variable {sg : StartGrammar T NT AK AV} {toks : List (Token T V)}

/-- Children are kept when the rest of the production is found. -/
theorem LItem.forest {es : List (Elem (StreamTerminal T) (StartNonTerminal NT))} :
    ∀ {ts : List (STree T NT AK AV V)}, IsForest sg sKind es ts → ∀ {k j p d i ts0 rest x s},
    EParse sg toks k p d i ts0 → LItem sg toks k p d i x s →
    p.elements.drop d = es ++ rest → k ≤ j → j ≤ toks.length →
    DTree.yields ts = seg toks k j → LItem sg toks j p (d + es.length) i x s := by
  induction es with
  | nil =>
    intro ts h k j p d i ts0 rest x s h0 hl he hkj hj hy
    cases h
    rw [DTree.yields] at hy
    have hl := seg_full_len (by rw [← hy]; rfl : (seg toks k j).length = 0) hkj hj
    subst hl
    simpa using hl
  | cons e es ih =>
    intro ts h k j p d i ts0 rest x s h0 hl he hkj hj hy
    cases h with
    | @cons _ _ c cs h1 h2 =>
      rw [DTree.yields] at hy
      obtain ⟨m, hm1, hm2, ha, hb⟩ := seg_eq_append hkj hj hy.symm
      have hel : p.elements[d]? = some e := by
        have : (p.elements.drop d)[0]? = some e := by rw [he]; rfl
        simpa using this
      have g1 := EParse.tree h1 h0 hel hm1 (by omega) ha.symm
      have g2 : LItem sg toks m p (d + 1) i x s := by
        cases h1 with
        | leaf l =>
          rw [DTree.yield] at ha
          have hl' := seg_full_len (by rw [ha]; rfl : (seg toks k m).length = 1) hm1 (by omega)
          subst hl'
          exact .scanOld ⟨_, h0⟩ hel (seg_cons ha).1 hl
        | node q us hq hf =>
          rw [DTree.yield] at ha
          have h3 := EParse.forest hf (h0.predict hel hq) (rest := []) (by simp) hm1 (by omega) ha.symm
          rw [Nat.zero_add, Prod.elements_length] at h3
          exact .compOld ⟨_, h0⟩ hel ⟨_, h3⟩ hl
      have g3 := ih h2 g1 g2 (rest := rest) (by rw [← List.drop_drop, he]; rfl) hm2 hj hb.symm
      simpa [Nat.add_assoc, Nat.add_comm, Nat.add_left_comm] using g3
end

section
variable [Ord NT] [TransOrd NT] [LawfulEqOrd NT] {g : Grammar T NT AK AV} {toks : List (Token T V)}

/-- A mixed tree is a possible child wherever its element is expected. -/
theorem Mix.litem (hw : g.WF) {v : List (Token T V)} {e : Elem T NT}
    {d : DTree (Token T V) (Prod T NT AK AV)} (h : Mix g v e d) :
    ∀ {k j p x i}, EItem g.wrapped toks k p x i → p.elements[x]? = some (baseElemToStartElem e) →
      k ≤ j → j ≤ toks.length → seg toks k j = v →
      LItem g.wrapped toks j p (x + 1) i x (d.mapNodes liftProd) := by
  induction h with
  | leaf tok =>
    intro k j p x i h0 he hkj hj hs
    have hl := seg_full_len (by rw [hs]; rfl : (seg toks k j).length = 1) hkj hj
    subst hl
    rw [DTree.mapNodes]
    exact .scanNew h0 he (seg_cons hs).1
  | node v q cs before over after hq hd hlen hdiv hcs ih =>
    intro k j p x i h0 he hkj hj hs
    have hq0 : EItem g.wrapped toks k (liftProd q) 0 k := h0.predict he (liftProd_mem hw hq)
    have hqj := EItem.of_derives hw hkj hj hq0 (Nat.le_refl _) (by rw [List.take_length, hs]; exact hd)
    rw [Prod.elements_length, ← liftProd_numElements] at hqj
    rw [DTree.mapNodes]
    have hmap : DTree.mapNodesAll liftProd cs = cs.map (·.mapNodes liftProd) := by
      clear hlen hcs ih
      induction cs with
      | nil => rw [DTree.mapNodesAll]; rfl
      | cons c cs ih => rw [DTree.mapNodesAll, ih]; rfl
    rw [hmap]
    refine .compNew h0 he hqj ?_ ?_
    · rw [List.length_map, hlen, liftProd_numElements, Prod.elements_length]
    · intro y u hy
      rw [List.getElem?_map] at hy
      obtain ⟨c, hc, rfl⟩ := Option.map_eq_some_iff.1 hy
      have hylt : y < q.elements.length := by
        have := (List.getElem?_eq_some_iff.1 hc).1; omega
      have hey := List.getElem?_eq_getElem hylt
      obtain ⟨e1, e2, e3, e4⟩ := hdiv y _ hey
      rw [← hs] at e1
      obtain ⟨b, b1, b2, b3, b4⟩ := seg_eq_append hkj hj e1
      obtain ⟨a, a1, a2, a3, a4⟩ := seg_eq_append b1 (by omega) b3
      have hqa := EItem.of_derives hw a1 (by omega) hq0 (Nat.le_of_lt hylt) (by rw [a3]; exact e2)
      have hey' : (liftProd q).elements[y]? = some (baseElemToStartElem q.elements[y]) := by
        rw [liftProd_elements, List.getElem?_map, hey]; rfl
      have hL := ih y _ c hey hc hqa hey' a2 (by omega) a4
      have hqb := EItem.of_derives hw b1 (by omega) hq0 (d := y + 1) hylt (by
        rw [List.take_add_one, hey, ← seg_append toks a1 a2, a3, a4, kinds_append, List.map_append]
        exact e2.append e3)
      obtain ⟨ts0, hqb⟩ := hqb
      obtain ⟨fs, f1, f2⟩ := forest_of_yields (kind := (·.kind)) hw (Cfg.yields_iff.2 e4) (after y) rfl
      have := hL.forest (f1.lift hw) hqb (rest := []) (by
        rw [liftProd_elements, List.append_nil, List.map_drop]) b2 hj (by
        rw [DTree.yields_mapNodes, f2, b4])
      have hn : y + 1 + (List.map baseElemToStartElem (List.drop (y + 1) q.elements)).length =
          (liftProd q).numElements := by
        rw [liftProd_numElements, ← Prod.elements_length]; simp; omega
      rw [hn] at this
      exact this
end

/-! ### At most -/
/-- There is something after the element that can be moved over. -/
def openAfter (p : SProd T NT AK AV) (x : Nat) : Bool :=
  match p.elements[x + 1]? with
  | none => false
  | some (.term .endOfStream) => false
  | some _ => true

theorem openAfter_of_lt {sg : StartGrammar T NT AK AV} {toks : List (Token T V)} {k p d i x}
    (h : EItem sg toks k p d i) (hd : ∃ e, p.elements[d]? = some e ∧ e ≠ .term .endOfStream) (hx : x < d) :
    openAfter p x = true := by
  unfold openAfter
  have : ∃ e, p.elements[x + 1]? = some e ∧ e ≠ .term .endOfStream := by
    rcases Nat.lt_or_ge (x + 1) d with hlt | hge
    · obtain ⟨ts, h⟩ := h
      have hb := h.bounds.1
      refine ⟨_, List.getElem?_eq_getElem (show x + 1 < p.elements.length by omega), ?_⟩
      intro he
      have hn := h.no_eos (x + 1) hlt
      rw [List.getElem?_eq_getElem (show x + 1 < p.elements.length by omega), he] at hn
      exact hn rfl
    · have : x + 1 = d := by omega
      rw [this]; exact hd
  obtain ⟨e, h1, h2⟩ := this
  rw [h1]
  split
  · next h => cases h
  · next h => cases h; exact absurd rfl h2
  · rfl

/-- A node is labelled with the production, where it starts, the position of the element, and with
where the node ends if the element is the last one. -/
def looseLabel (sg : StartGrammar T NT AK AV) (toks : List (Token T V)) :
    Labelling sg toks (SProd T NT AK AV × Nat × Nat × Option Nat) where
  lab j p _ i x := (p, i, x, if openAfter p x then none else some j)
  leafOk ℓ k := EItem sg toks k ℓ.1 ℓ.2.2.1 ℓ.2.1 ∧
    (∃ tok, toks[k]? = some tok ∧ ℓ.1.elements[ℓ.2.2.1]? = some (.term (.term tok.kind))) ∧
    ∀ j, ℓ.2.2.2 = some j → k + 1 = j
  nodeOk ℓ j q k := EItem sg toks k ℓ.1 ℓ.2.2.1 ℓ.2.1 ∧
    ℓ.1.elements[ℓ.2.2.1]? = some (.nonterm q.head) ∧ ∀ j', ℓ.2.2.2 = some j' → j = j'
  scanOld h1 h2 _ hx := by
    rw [openAfter_of_lt h1 ⟨_, h2, by simp⟩ hx]; rfl
  scanNew h1 h2 h3 := by
    refine ⟨h1, ⟨_, h3, h2⟩, ?_⟩
    intro j hj
    simp only at hj
    split at hj <;> simp at hj
    omega
  compOld h1 h2 _ hx := by
    rw [openAfter_of_lt h1 ⟨_, h2, by simp⟩ hx]; rfl
  compNew h1 h2 h3 := by
    refine ⟨h1, h2, ?_⟩
    intro j hj
    simp only at hj
    split at hj <;> simp at hj
    omega

section
variable [Ord T] [Ord NT] [Ord AK] [Ord V] [TransOrd T] [TransOrd AK] [TransOrd V]
variable [LawfulEqOrd T] [LawfulEqOrd AK] [LawfulEqOrd V]
variable [TransOrd NT] [LawfulEqOrd NT] {g : Grammar T NT AK AV} {toks : List (Token T V)}
variable {N : Nat} {L : Nat → SProd T NT AK AV × Nat × Nat × Option Nat → Prop}

/-- What is known of a tree at a labelled node. -/
def LooseAt (g : Grammar T NT AK AV) (toks : List (Token T V)) (p : SProd T NT AK AV) (i x : Nat)
    (o : Option Nat) (e : Elem T NT) (s : DTree (Token T V) AK)
    (d : DTree (Token T V) (Prod T NT AK AV)) (a b : Nat) : Prop :=
  EItem g.wrapped toks a p x i ∧ a ≤ b ∧ b ≤ toks.length ∧ (∀ j, o = some j → b = j) ∧
    g.cfg.Derives [e] ((kinds (seg toks a b)).map .term) ∧
    Loose g toks (toks.take a) (seg toks a b) e d ∧ d.mapNodes (·.actionKey) = s

theorem take_append_seg_prefix {a b : Nat} (h : a ≤ b) :
    toks.take a ++ seg toks a b <+: toks := by
  rw [take_seg toks h]; exact List.take_prefix b toks

mutual
theorem Reads.loose (hw : g.WF) {w : World T AK V} {t : Nat}
    (ht : Typed (looseLabel g.wrapped toks) N (w t) L) :
    (s : DTree (Token T V) AK) → (n : Nat) → (p : SProd T NT AK AV) → (i x : Nat) → (o : Option Nat) →
    (e : Elem T NT) → L n (p, i, x, o) → p.elements[x]? = some (baseElemToStartElem e) →
    Reads w s ⟨n, t⟩ → ∃ d a b, LooseAt g toks p i x o e s d a b
  | .leaf tok, n, p, i, x, o, e => by
    intro hL he hr
    obtain ⟨a, h1, h2⟩ := reads_leaf.1 hr
    obtain ⟨c, h3, h4⟩ := ht.ok n _ hL a h1
    simp only at h2
    rw [h2] at h3
    cases h3
    obtain ⟨k, tok', e1, e2, e3, e4, ⟨tok'', e5, e6⟩, e7⟩ := h4
    have htok : tok' = tok := by cases tok; cases tok'; simp_all
    subst htok
    rw [e1] at e5
    cases e5
    simp only at e4 e6 e7
    rw [he] at e6
    have hk := (List.getElem?_eq_some_iff.1 e1).1
    have hseg : seg toks k (k + 1) = [tok'] := by rw [seg_succ (Nat.le_refl k) e1]; simp
    cases e with
    | nonterm A => simp [baseElemToStartElem] at e6
    | term k' =>
      simp [baseElemToStartElem] at e6
      subst e6
      refine ⟨.leaf tok', k, k + 1, e4, by omega, by omega, e7, ?_, ?_, by rw [DTree.mapNodes]⟩
      · rw [hseg]; exact .refl _
      · rw [hseg]
        refine .leaf _ _ ?_
        rw [← hseg]; exact take_append_seg_prefix (by omega)
  | .node ak cs, n, p, i, x, o, e => by
    intro hL he hr
    obtain ⟨a, ns, h1, h2, h5⟩ := reads_node.1 hr
    obtain ⟨c, h3, h4⟩ := ht.ok n _ hL a h1
    simp only at h2 h5
    rw [h2] at h3
    cases h3
    obtain ⟨j, q, k, e1, e2, e3, ⟨e4, e6, e7⟩, e5⟩ := h4
    simp only [looseLabel] at e4 e5 e6 e7
    rw [he] at e6
    rcases (mem_wrapped_prods hw).1 e1.mem with rfl | ⟨q', hq', rfl⟩
    · cases e <;> simp [baseElemToStartElem] at e6
    · cases e with
      | term k' => simp [baseElemToStartElem] at e6
      | nonterm A =>
        simp [baseElemToStartElem] at e6
        subst e6
        rw [liftProd_actionKey] at e2
        have hak : q'.actionKey = ak := by simpa [StartActionKey.asBase] using e2
        subst hak
        have hb := e1.bounds
        obtain ⟨ds, d1, d2, d3⟩ := ReadsAll.loose hw ht cs ns (liftProd q') k j q'.elements 0 (by
          rw [liftProd_elements, List.drop_zero]) (by
          rw [e3, liftProd_numElements, Prod.elements_length]) (by
          intro y m hm
          have := e5 y m hm
          simpa using this) h5
        have hy : g.cfg.Derives q'.elements ((kinds (seg toks k j)).map .term) := by
          rcases e1.means hw with ⟨hh, -⟩ | ⟨q'', hq'', hh, -, hy⟩
          · have := congrArg Prod.head hh; cases this
          · have := liftProd_inj hh; subst this
            have := hy.derives
            rwa [liftProd_numElements, ← Prod.elements_length, List.take_length] at this
        have key : ∀ y : Nat, ∃ ab : Nat × Nat, ∀ e d, q'.elements[y]? = some e → ds[y]? = some d →
            ∃ s, LooseAt g toks (liftProd q') k y
              (if openAfter (liftProd q') y then none else some j) e s d ab.1 ab.2 := by
          intro y
          rcases Nat.lt_or_ge y ds.length with hlt | hge
          · obtain ⟨s, a, b, hh⟩ := d3 y q'.elements[y] ds[y]
              (List.getElem?_eq_getElem (by omega)) (List.getElem?_eq_getElem hlt)
            refine ⟨(a, b), ?_⟩
            intro e d he hd
            rw [List.getElem?_eq_getElem (by omega)] at he
            rw [List.getElem?_eq_getElem hlt] at hd
            cases he; cases hd
            rw [Nat.zero_add] at hh
            exact ⟨s, hh⟩
          · refine ⟨(0, 0), ?_⟩
            intro e d _ hd
            rw [List.getElem?_eq_none hge] at hd; cases hd
        obtain ⟨f, hf⟩ := Classical.axiomOfChoice key
        have hchild : ∀ (y : Nat) (e : Elem T NT), q'.elements[y]? = some e → ∃ d, ds[y]? = some d := by
          intro y e hy
          have := (List.getElem?_eq_some_iff.1 hy).1
          exact ⟨_, List.getElem?_eq_getElem (by omega)⟩
        have hbef : ∀ y, EItem g.wrapped toks (f y).1 (liftProd q') y k →
            k ≤ (f y).1 ∧ g.cfg.Derives (q'.elements.take y) ((kinds (seg toks k (f y).1)).map .term) := by
          intro y hy
          refine ⟨hy.bounds.2.1, ?_⟩
          rcases hy.means hw with ⟨hh, -⟩ | ⟨q'', hq'', hh, -, hy⟩
          · have := congrArg Prod.head hh; cases this
          · have := liftProd_inj hh; subst this
            exact hy.derives
        refine ⟨.node q' ds, k, j, e4, hb.2.1, hb.2.2, e7,
          (Cfg.derives_prod ((Grammar.cfg_prod_iff hw).2 ⟨q', hq', rfl, rfl⟩)).trans hy,
          .node _ _ q' ds (fun y => seg toks k (f y).1) (fun y => seg toks (f y).1 (f y).2) hq'
            (take_append_seg_prefix hb.2.1) hy d1.symm ?_ ?_, by rw [DTree.mapNodes, d2]⟩
        · intro y e hy
          obtain ⟨d, hd⟩ := hchild y e hy
          obtain ⟨s, g1, g2, g3, g4, g5, g6, g7⟩ := hf y e d hy hd
          obtain ⟨b1, b2⟩ := hbef y g1
          refine ⟨b2, g5, ?_⟩
          intro hlast
          have : openAfter (liftProd q') y = false := by
            unfold openAfter
            rw [liftProd_elements, List.getElem?_eq_none (by simp; omega)]
          rw [this] at g4
          rw [seg_append toks b1 g2, g4 j rfl]
        · intro y e d hy hd
          obtain ⟨s, g1, g2, g3, g4, g5, g6, g7⟩ := hf y e d hy hd
          obtain ⟨b1, b2⟩ := hbef y g1
          rw [take_seg toks b1]
          exact g6
theorem ReadsAll.loose (hw : g.WF) {w : World T AK V} {t : Nat}
    (ht : Typed (looseLabel g.wrapped toks) N (w t) L) :
    (ss : List (DTree (Token T V) AK)) → (ns : List Nat) → (p : SProd T NT AK AV) → (i j : Nat) →
    (es : List (Elem T NT)) → (x : Nat) → p.elements.drop x = es.map baseElemToStartElem →
    ns.length = es.length →
    (∀ (y : Nat) (m : Nat), ns[y]? = some m →
      L m (p, i, x + y, if openAfter p (x + y) then none else some j)) →
    ReadsAll w ss (ns.map (⟨·, t⟩)) →
    ∃ ds : List (DTree (Token T V) (Prod T NT AK AV)), es.length = ds.length ∧
      DTree.mapNodesAll (·.actionKey) ds = ss ∧
      ∀ (y : Nat) (e : Elem T NT) (d : DTree (Token T V) (Prod T NT AK AV)), es[y]? = some e →
        ds[y]? = some d → ∃ s a b, LooseAt g toks p i (x + y)
          (if openAfter p (x + y) then none else some j) e s d a b
  | [], [], p, i, j, es, x => by
    intro _ h1 _ _
    cases es with
    | nil => exact ⟨[], rfl, by rw [DTree.mapNodesAll], by simp⟩
    | cons _ _ => simp at h1
  | [], _ :: _, _, _, _, _, _ => fun _ _ _ h => by simp [ReadsAll] at h
  | _ :: _, [], _, _, _, _, _ => fun _ _ _ h => by simp [ReadsAll] at h
  | s :: ss, n :: ns, p, i, j, es, x => by
    intro h0 h1 h2 h3
    cases es with
    | nil => simp at h1
    | cons e es =>
      rw [List.map_cons, ReadsAll] at h3
      have hel : p.elements[x]? = some (baseElemToStartElem e) := by
        have : (p.elements.drop x)[0]? = some (baseElemToStartElem e) := by rw [h0]; rfl
        simpa using this
      obtain ⟨d, a, b, a1⟩ := Reads.loose hw ht s n p i x _ e (h2 0 n rfl) hel h3.1
      obtain ⟨ds, b1, b2, b3⟩ := ReadsAll.loose hw ht ss ns p i j es (x + 1)
        (by rw [← List.drop_drop, h0]; rfl) (by simpa using h1)
        (fun y m hm => by
          have := h2 (y + 1) m hm
          rwa [show x + (y + 1) = x + 1 + y by omega] at this) h3.2
      refine ⟨d :: ds, by simpa using b1, by rw [DTree.mapNodesAll, a1.2.2.2.2.2.2, b2], ?_⟩
      intro y e' d' he' hd'
      cases y with
      | zero =>
        simp at he' hd'
        subst he' hd'
        exact ⟨s, a, b, a1⟩
      | succ y =>
        simp at he' hd'
        have := b3 y e' d' he' hd'
        rwa [show x + (y + 1) = x + 1 + y by omega]
end
end
end Bongo
