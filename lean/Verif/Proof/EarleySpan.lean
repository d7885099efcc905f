import Verif.Proof.EarleyTree
/-! If items can be reached in one way only, nodes stand for parts of the input. -/
set_option linter.unusedSectionVars false
namespace Bongo
open Std
variable {T NT AK AV V : Type}

theorem DTree.yields_append {L P : Type} (a b : List (DTree L P)) :
    DTree.yields (a ++ b) = DTree.yields a ++ DTree.yields b := by
  induction a with
  | nil => rw [DTree.yields]; rfl
  | cons c a ih => rw [List.cons_append, DTree.yields, ih, DTree.yields, List.append_assoc]

section
variable (sg : StartGrammar T NT AK AV) (toks : List (Token T V))

/-- The item at position `d + 1` can come from the item at `d` of state `k`. -/
def EPre (j : Nat) (p : SProd T NT AK AV) (d i k : Nat) : Prop :=
  EItem sg toks k p d i ∧
  ((∃ tok, p.elements[d]? = some (.term (.term tok.kind)) ∧ toks[k]? = some tok ∧ j = k + 1) ∨
    ∃ q, p.elements[d]? = some (.nonterm q.head) ∧ EItem sg toks j q q.numElements k)

/-- Items come from one place. -/
def EUnique : Prop := ∀ j p d i k k', EPre sg toks j p d i k → EPre sg toks j p d i k' → k = k'

open Classical in
/-- Where the item comes from. -/
noncomputable def ecut (j : Nat) (p : SProd T NT AK AV) (d i : Nat) : Nat :=
  if h : ∃ k, EPre sg toks j p d i k then h.choose else 0

/-- The span of the `x`-th element. -/
noncomputable def espan (p : SProd T NT AK AV) (i : Nat) : Nat → Nat → Nat → Nat × Nat
  | 0, _, _ => (0, 0)
  | d + 1, j, x => if x = d then (ecut sg toks j p d i, j) else espan p i d (ecut sg toks j p d i) x

variable {sg toks}
theorem ecut_eq (hu : EUnique sg toks) {j p d i k} (h : EPre sg toks j p d i k) :
    ecut sg toks j p d i = k := by
  have hex : ∃ k, EPre sg toks j p d i k := ⟨k, h⟩
  unfold ecut
  rw [dif_pos hex]
  exact hu _ _ _ _ _ _ hex.choose_spec h

/-- Nodes are labelled with spans. -/
noncomputable def spanLabel (hu : EUnique sg toks) : Labelling sg toks (Nat × Nat) where
  lab j p d i x := espan sg toks p i d j x
  leafOk ℓ k := ℓ = (k, k + 1)
  nodeOk ℓ j _ k := ℓ = (k, j)
  scanOld h1 h2 h3 hx := by
    rw [espan, if_neg (by omega), ecut_eq hu ⟨h1, Or.inl ⟨_, h2, h3, rfl⟩⟩]
  scanNew h1 h2 h3 := by
    rw [espan, if_pos rfl, ecut_eq hu ⟨h1, Or.inl ⟨_, h2, h3, rfl⟩⟩]
  compOld h1 h2 h3 hx := by
    rw [espan, if_neg (by omega), ecut_eq hu ⟨h1, Or.inr ⟨_, h2, h3⟩⟩]
  compNew h1 h2 h3 := by
    rw [espan, if_pos rfl, ecut_eq hu ⟨h1, Or.inr ⟨_, h2, h3⟩⟩]

theorem EItem.zero {j p i} (h : EItem sg toks j p 0 i) : i = j := by
  obtain ⟨ts, h⟩ := h
  cases h <;> rfl

theorem EItem.succ {j p d i} (h : EItem sg toks j p (d + 1) i) : ∃ k, EPre sg toks j p d i k := by
  obtain ⟨ts, h⟩ := h
  cases h with
  | scan h1 h2 h3 => exact ⟨_, ⟨_, h1⟩, Or.inl ⟨_, h2, h3, rfl⟩⟩
  | complete h1 h2 h3 => exact ⟨_, ⟨_, h1⟩, Or.inr ⟨_, h2, _, h3⟩⟩

theorem EPre.bounds {j p d i k} (h : EPre sg toks j p d i k) : i ≤ k ∧ k ≤ j := by
  refine ⟨h.1.elim fun _ h => h.bounds.2.1, ?_⟩
  rcases h.2 with ⟨tok, -, -, rfl⟩ | ⟨q, -, hq⟩
  · omega
  · exact hq.elim fun _ h => h.bounds.2.1

/-- Trees with the spans of an item spell its part of the input. -/
theorem yields_of_spans {P : Type} (hu : EUnique sg toks) {p i} (d : Nat) :
    ∀ {j} (_ : EItem sg toks j p d i) (cs : List (DTree (Token T V) P)), cs.length = d →
    (∀ (x : Nat) (c : DTree (Token T V) P), cs[x]? = some c →
      c.yield = seg toks (espan sg toks p i d j x).1 (espan sg toks p i d j x).2) →
    DTree.yields cs = seg toks i j := by
  induction d with
  | zero =>
    intro j h cs hl _
    rw [List.length_eq_zero_iff.1 hl, h.zero, seg_self, DTree.yields]
  | succ d ih =>
    intro j h cs hl hy
    obtain ⟨k, hk⟩ := h.succ
    have hb := hk.bounds
    rcases List.eq_nil_or_concat cs with rfl | ⟨cs', c, rfl⟩
    · simp at hl
    · rw [List.concat_eq_append] at hl hy ⊢
      simp only [List.length_append, List.length_cons, List.length_nil, Nat.zero_add,
        Nat.add_right_cancel_iff] at hl
      have hc := hy d c (by rw [← hl]; simp)
      rw [espan, if_pos rfl, ecut_eq hu hk] at hc
      have := ih hk.1 cs' hl (by
        intro x c' hx
        have hlt := (List.getElem?_eq_some_iff.1 hx).1
        have := hy x c' (by rw [List.getElem?_append_left hlt]; exact hx)
        rw [espan, if_neg (by omega), ecut_eq hu hk] at this
        exact this)
      rw [DTree.yields_append, this, DTree.yields, DTree.yields, hc, List.append_nil]
      exact seg_append toks hb.1 hb.2
end

section
variable [Ord T] [Ord NT] [Ord AK] [Ord V] [TransOrd T] [TransOrd AK] [TransOrd V]
variable [LawfulEqOrd T] [LawfulEqOrd AK] [LawfulEqOrd V]
variable {sg : StartGrammar T NT AK AV} {toks : List (Token T V)}
variable {N : Nat} {L : Nat → Nat × Nat → Prop}

mutual
/-- What is read off a node spells its span. -/
theorem Reads.spells (hu : EUnique sg toks) {w : World T AK V} {t : Nat}
    (ht : Typed (spanLabel hu) N (w t) L) :
    (s : DTree (Token T V) AK) → (n : Nat) → (ℓ : Nat × Nat) → L n ℓ → Reads w s ⟨n, t⟩ →
    s.yield = seg toks ℓ.1 ℓ.2
  | .leaf tok, n, ℓ => by
    intro hL hr
    obtain ⟨a, h1, h2⟩ := reads_leaf.1 hr
    obtain ⟨c, h3, h4⟩ := ht.ok n _ hL a h1
    simp only at h2
    rw [h2] at h3
    cases h3
    obtain ⟨k, tok', e1, e2, e3, e4⟩ := h4
    have htok : tok' = tok := by cases tok; cases tok'; simp_all
    subst htok
    rw [e4]
    simp only [spanLabel]
    rw [seg_succ (Nat.le_refl k) e1, seg_self, DTree.yield]; rfl
  | .node ak cs, n, ℓ => by
    intro hL hr
    obtain ⟨a, ns, h1, h2, h5⟩ := reads_node.1 hr
    obtain ⟨c, h3, h4⟩ := ht.ok n _ hL a h1
    simp only at h2 h5
    rw [h2] at h3
    cases h3
    obtain ⟨j, q, k, e1, e2, e3, e4, e5⟩ := h4
    rw [e4]
    simp only [spanLabel] at e5 ⊢
    have hsp := ReadsAll.spells hu ht cs ns h5
    have hlen := (readsAll_iff.1 h5).1
    rw [List.length_map] at hlen
    rw [DTree.yield]
    refine yields_of_spans hu _ e1 cs (by omega) ?_
    intro x c hx
    have hlt := (List.getElem?_eq_some_iff.1 hx).1
    have hn := List.getElem?_eq_getElem (l := ns) (i := x) (by omega)
    exact hsp x c _ _ hx hn (e5 x _ hn)
theorem ReadsAll.spells (hu : EUnique sg toks) {w : World T AK V} {t : Nat}
    (ht : Typed (spanLabel hu) N (w t) L) :
    (ss : List (DTree (Token T V) AK)) → (ns : List Nat) → ReadsAll w ss (ns.map (⟨·, t⟩)) →
    ∀ (x : Nat) (s : DTree (Token T V) AK) (n : Nat) (ℓ : Nat × Nat), ss[x]? = some s →
      ns[x]? = some n → L n ℓ → s.yield = seg toks ℓ.1 ℓ.2
  | [], _ => fun _ x s n ℓ h => by simp at h
  | _ :: _, [] => fun h => by simp [ReadsAll] at h
  | s :: ss, n :: ns => by
    intro h x s' n' ℓ hx hn hL
    rw [List.map_cons, ReadsAll] at h
    cases x with
    | zero =>
      simp only [List.getElem?_cons_zero, Option.some.injEq] at hx hn
      subst hx hn
      exact Reads.spells hu ht s n ℓ hL h.1
    | succ x => exact ReadsAll.spells hu ht ss ns h.2 x s' n' ℓ hx hn hL
end
end

/-! ### Grammars in which items come from one place -/
section
variable [Ord NT] [TransOrd NT] [LawfulEqOrd NT] {g : Grammar T NT AK AV}

theorem kinds_length {T V : Type} (l : List (Token T V)) : (kinds l).length = l.length := by
  unfold kinds; simp

theorem eunique_of_splits (hw : g.WF) {toks : List (Token T V)} (h : g.SplitsOnce (kinds toks)) :
    EUnique g.wrapped toks := by
  intro j p d i k k' hk hk'
  have b := hk.bounds
  have b' := hk'.bounds
  have hj : j ≤ toks.length := by
    rcases hk.2 with ⟨tok, -, ht, rfl⟩ | ⟨q, -, hq⟩
    · exact (List.getElem?_eq_some_iff.1 ht).1
    · exact hq.bounds.2.2
  have hel : ∀ {q0 : Prod T NT AK AV} {m : Nat}, p = liftProd q0 → EPre g.wrapped toks j p d i m →
      ∃ e, q0.elements[d]? = some e ∧ g.cfg.Derives [e] ((kinds (seg toks m j)).map .term) := by
    rintro q0 m rfl hm
    rcases hm.2 with ⟨tok, h2, h3, rfl⟩ | ⟨q, h2, h3⟩
    · obtain ⟨t, ht, hel⟩ := lift_getElem_term.1 h2
      cases ht
      refine ⟨_, hel, ?_⟩
      rw [seg_succ (Nat.le_refl m) h3, seg_self]
      exact .refl _
    · obtain ⟨B, hB, hel⟩ := lift_getElem_nonterm.1 h2
      refine ⟨_, hel, ?_⟩
      rcases h3.means hw with ⟨rfl, -, -⟩ | ⟨q1, hq1, rfl, -, hy2⟩
      · cases hB
      · rw [liftProd_numElements, ← Prod.elements_length, List.take_length] at hy2
        simp at hB
        exact Cfg.generates_iff.2 ⟨_, (Grammar.cfg_prod_iff hw).2 ⟨q1, hq1, hB, rfl⟩, hy2⟩
  rcases hk.1.means hw with ⟨rfl, rfl, hd⟩ | ⟨q0, hq0, rfl, ⟨δ, hδ⟩, hy⟩
  · have hd0 : d = 0 := by
      rcases hd with ⟨h0, -⟩ | ⟨rfl, -⟩
      · exact h0
      · exfalso
        rcases hk.2 with ⟨tok, h2, -⟩ | ⟨q, h2, -⟩ <;> (rw [startRef_elements] at h2; simp at h2)
    subst hd0
    exact hk.1.zero.symm.trans hk'.1.zero
  · obtain ⟨e, he, hd1⟩ := hel rfl hk
    obtain ⟨e', he', hd2⟩ := hel rfl hk'
    rw [he] at he'
    cases he'
    rcases hk'.1.means hw with ⟨hh, -, -⟩ | ⟨q1, hq1, hh, -, hy'⟩
    · have := congrArg Prod.head hh; simp at this
    · have := liftProd_inj hh
      subst this
      have hx := h (kinds (toks.take i)) (kinds (seg toks i k)) (kinds (seg toks k j))
        (kinds (seg toks i k')) (kinds (seg toks k' j)) q0.head q0.elements δ d e
        (by
          rw [List.append_assoc, ← kinds_append, seg_append toks b.1 b.2, ← kinds_append,
            take_seg toks (by omega)]
          unfold kinds
          exact (List.take_prefix j toks).map _)
        (by rw [← kinds_append, ← kinds_append, seg_append toks b.1 b.2, seg_append toks b'.1 b'.2])
        hδ ((Grammar.cfg_prod_iff hw).2 ⟨q0, hq0, rfl, rfl⟩) he hy.derives hd1 hy'.derives hd2
      have hl := congrArg List.length hx
      rw [kinds_length, kinds_length, seg_length (by omega), seg_length (by omega)] at hl
      omega
end
end Bongo
