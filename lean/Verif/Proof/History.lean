import Verif.Proof.Forest
/-!
# Lemmas: histories of calls on trees
-/
set_option linter.unusedSectionVars false
namespace Bongo
open Std
variable {T AK V : Type} [Ord T] [Ord AK] [Ord V]

theorem World.set_apply (w : World T AK V) (t t' : Nat) (i : Inner T AK V) :
    w.set t i t' = if t' = t then i else w t' := rfl

@[simp] theorem World.set_self (w : World T AK V) (t : Nat) (i : Inner T AK V) :
    w.set t i t = i := by simp [World.set_apply]

theorem World.set_other (w : World T AK V) {t t' : Nat} (i : Inner T AK V) (h : t' ≠ t) :
    w.set t i t' = w t' := by simp [World.set_apply, h]

/-- The handle refers to something that exists and is of the right kind. -/
def HandleOk (w : World T AK V) : Handle → Prop
  | .tree _ => True
  | .node n => n.index < (w n.tree).nodes.length
  | .alt a => a.index < (w a.tree).alternatives.idToValue.length
  | .leaf l => ∃ k v, (w l.tree).altAt l.index = some (.leaf k v)
  | .branch b => ∃ a ns, (w b.tree).altAt b.index = some (.branch a ns)

/-- The alternative is there with the content it was made of. -/
def MadeOk (w : World T AK V) (a : Alternative) : Nat × ((T × V) ⊕ (AK × List Node)) → Prop
  | (t, .inl (k, v)) => a.tree = t ∧ (w t).altAt a.index = some (.leaf k v)
  | (t, .inr (act, ns)) => a.tree = t ∧ (∀ n ∈ ns, n.tree = t) ∧
      (w t).altAt a.index = some (.branch act (ns.map (·.index)))

structure HistInv (log : TreeLog T AK V) (w : World T AK V) (held : List Handle) : Prop where
  wf : ∀ t, (w t).WF
  handles : ∀ h ∈ held, HandleOk w h
  added : ∀ n a, AddedTo log n a ↔ a.tree = n.tree ∧ (w n.tree).Has n.index a.index
  made : ∀ op a m, (op, .ok (.alt a)) ∈ log → TreeOp.made op = some m → MadeOk w a m

/-- `w'` is a later state of `w`. -/
def World.Le (w w' : World T AK V) : Prop := ∀ t, (w t).Le (w' t)

theorem HandleOk.mono {w w' : World T AK V} (h : w.Le w') {hd : Handle} (hh : HandleOk w hd) :
    HandleOk w' hd := by
  cases hd with
  | tree t => trivial
  | node n => exact Nat.lt_of_lt_of_le hh (h n.tree).nodesLen
  | alt a => exact Nat.lt_of_lt_of_le hh (h a.tree).altsLen
  | leaf l => obtain ⟨k, v, hh⟩ := hh; exact ⟨k, v, (h l.tree).alts _ _ hh⟩
  | branch b => obtain ⟨k, v, hh⟩ := hh; exact ⟨k, v, (h b.tree).alts _ _ hh⟩

theorem MadeOk.mono {w w' : World T AK V} (h : w.Le w') {a : Alternative} {m}
    (hm : MadeOk w a m) : MadeOk w' a m := by
  obtain ⟨t, m⟩ := m
  cases m with
  | inl kv => exact ⟨hm.1, (h t).alts _ _ hm.2⟩
  | inr an => exact ⟨hm.1, hm.2.1, (h t).alts _ _ hm.2.2⟩

theorem World.Le.refl (w : World T AK V) : w.Le w := fun t => Inner.Le.refl _
theorem World.Le.trans {a b c : World T AK V} (h : a.Le b) (h' : b.Le c) : a.Le c :=
  fun t => (h t).trans (h' t)

theorem World.Le.set {w : World T AK V} {t : Nat} {i : Inner T AK V} (h : (w t).Le i) :
    w.Le (w.set t i) := by
  intro t'
  rw [World.set_apply]
  split
  · next he => subst he; exact h
  · exact Inner.Le.refl _

theorem World.wf_set {w : World T AK V} (h : ∀ t, (w t).WF) {t : Nat} {i : Inner T AK V} (hi : i.WF) :
    ∀ t', (w.set t i t').WF := by
  intro t'
  rw [World.set_apply]
  split
  · exact hi
  · exact h t'

/-- A call that changes nothing and returns no new alternative-making result. -/
theorem HistInv.read {log : TreeLog T AK V} {w : World T AK V} {held : List Handle}
    (h : HistInv log w held) {op : TreeOp T AK V} {r : Res (TreeOut T AK V)} {new : List Handle}
    (hn : ∀ x ∈ new, HandleOk w x)
    (ha : ∀ n a, AddedTo ((op, r) :: log) n a ↔ AddedTo log n a)
    (hm : ∀ a m, r = .ok (.alt a) → op.made = some m → MadeOk w a m) :
    HistInv ((op, r) :: log) w (new ++ held) where
  wf := h.wf
  handles := by
    intro x hx
    rcases List.mem_append.1 hx with hx | hx
    · exact hn x hx
    · exact h.handles x hx
  added := fun n a => (ha n a).trans (h.added n a)
  made := by
    intro op' a m hmem hmade
    rcases List.mem_cons.1 hmem with he | hmem
    · cases he; exact hm a m rfl hmade
    · exact h.made op' a m hmem hmade

/-- A call that writes to tree `t`. -/
theorem HistInv.write {log : TreeLog T AK V} {w : World T AK V} {held : List Handle}
    (h : HistInv log w held) {op : TreeOp T AK V} {r : Res (TreeOut T AK V)} {new : List Handle}
    {t : Nat} {i : Inner T AK V} (hi : i.WF) (hle : (w t).Le i)
    (hn : ∀ x ∈ new, HandleOk (w.set t i) x)
    (ha : ∀ n a, AddedTo ((op, r) :: log) n a ↔
      a.tree = n.tree ∧ (w.set t i n.tree).Has n.index a.index)
    (hm : ∀ a m, r = .ok (.alt a) → op.made = some m → MadeOk (w.set t i) a m) :
    HistInv ((op, r) :: log) (w.set t i) (new ++ held) where
  wf := World.wf_set h.wf hi
  handles := by
    intro x hx
    rcases List.mem_append.1 hx with hx | hx
    · exact hn x hx
    · exact (h.handles x hx).mono (World.Le.set hle)
  added := ha
  made := by
    intro op' a m hmem hmade
    rcases List.mem_cons.1 hmem with he | hmem
    · cases he; exact hm a m rfl hmade
    · exact (h.made op' a m hmem hmade).mono (World.Le.set hle)

theorem getAlt_of_altAt {i : Inner T AK V} {k : Nat} {c} (h : i.altAt k = some c) :
    i.getAlt k = .ok c := by
  unfold Inner.getAlt AltSet.get
  unfold Inner.altAt at h
  rw [h]; rfl

section
variable [TransOrd T] [TransOrd AK] [TransOrd V] [LawfulEqOrd T] [LawfulEqOrd AK] [LawfulEqOrd V]

/-- Calls on handles a program holds: what they do, and that the invariant is kept. -/
theorem exec_inv {log : TreeLog T AK V} {w : World T AK V} {held : List Handle}
    (h : HistInv log w held) (op : TreeOp T AK V) (hop : op.Allowed held) :
    HistInv ((op, (op.exec w).2) :: log) (op.exec w).1 (TreeOut.gives (op.exec w).2 ++ held) ∧
    w.Le (op.exec w).1 ∧
    ((op.Mixes ∧ op.exec w = (w, .panic .otherTree)) ∨ (¬ op.Mixes ∧ ∃ o, (op.exec w).2 = .ok o)) ∧
    (∀ n a, op = .addAlt n a → ¬ op.Mixes →
      ∃ c, (op.exec w).2 = .ok (.changed c) ∧ (c = .changed ↔ ¬ AddedTo log n a)) ∧
    (∀ n m, op = .addAll n m → ¬ op.Mixes →
      ∃ c, (op.exec w).2 = .ok (.changed c) ∧
        (c = .changed ↔ ∃ a, AddedTo log m a ∧ ¬ AddedTo log n a)) := by
  cases op with
  | makeNode t =>
    refine ⟨?_, World.Le.set (Inner.makeNode_le _), Or.inr ⟨fun h => h, _, rfl⟩, by simp, by simp⟩
    refine h.write (Inner.makeNode_wf (h.wf t)) (Inner.makeNode_le _) ?_ ?_ ?_
    · intro x hx
      simp only [TreeOp.exec, TreeOut.gives, List.mem_singleton] at hx
      subst hx
      simp [HandleOk, World.makeNode]
    · intro n a
      simp only [AddedTo, h.added]
      refine and_congr_right fun _ => ?_
      rw [World.set_apply]
      split
      · next he => rw [he, Inner.makeNode_has]
      · rfl
    · intro a m hr hm; simp [TreeOp.made] at hm
  | makeLeafAlt t k v =>
    have hle := Inner.makeAlt_le (h.wf t) (.leaf k v)
    refine ⟨?_, World.Le.set hle, Or.inr ⟨fun h => h, _, rfl⟩, by simp, by simp⟩
    refine h.write (Inner.makeAlt_wf (h.wf t) (.leaf k v) (by simp)) hle ?_ ?_ ?_
    · intro x hx
      simp only [TreeOp.exec, TreeOut.gives, List.mem_singleton] at hx
      subst hx
      simp only [HandleOk, World.makeLeafAlt, World.makeAlt, World.set_self]
      exact Inner.altAt_lt (Inner.makeAlt_self (h.wf t) _)
    · intro n a
      simp only [AddedTo, h.added]
      refine and_congr_right fun _ => ?_
      rw [World.set_apply]
      split
      · next he => rw [he, Inner.makeAlt_has]
      · rfl
    · intro a m hr hm
      simp only [TreeOp.made, Option.some.injEq] at hm
      subst hm
      simp only [TreeOp.exec, Res.ok.injEq, TreeOut.alt.injEq] at hr
      subst hr
      exact ⟨rfl, by rw [World.set_self]; exact Inner.makeAlt_self (h.wf t) _⟩
  | makeBranchAlt t act ns =>
    obtain ⟨-, hns⟩ := hop
    by_cases hmix : ∃ n ∈ ns, n.tree ≠ t
    · have hall : ns.all (fun n => World.isSame t n.tree) = false := by
        obtain ⟨n, hn, hne⟩ := hmix
        rw [List.all_eq_false]
        exact ⟨n, hn, by simp [World.isSame]; exact fun h => hne h.symm⟩
      have he : (TreeOp.makeBranchAlt t act ns).exec w = (w, .panic .otherTree) := by
        simp [TreeOp.exec, World.makeBranchAlt, hall, Res.mapOut]
      rw [he]
      refine ⟨h.read (by simp [TreeOut.gives]) (by simp [AddedTo]) (by simp), World.Le.refl w,
        Or.inl ⟨hmix, rfl⟩, by simp, by simp⟩
    · have hsame : ∀ n ∈ ns, n.tree = t := by
        intro n hn
        by_contra hne
        exact hmix ⟨n, hn, hne⟩
      have hall : ns.all (fun n => World.isSame t n.tree) = true := by
        rw [List.all_eq_true]
        intro n hn; simp [World.isSame, hsame n hn]
      have he : (TreeOp.makeBranchAlt t act ns).exec w =
          (w.set t ((w t).makeAlt (.branch act (ns.map (·.index)))).1,
            .ok (.alt ⟨((w t).makeAlt (.branch act (ns.map (·.index)))).2, t⟩)) := by
        simp [TreeOp.exec, World.makeBranchAlt, hall, Res.mapOut, World.makeAlt]
      have hle := Inner.makeAlt_le (h.wf t) (.branch act (ns.map (·.index)))
      rw [he]
      refine ⟨?_, World.Le.set hle, Or.inr ⟨hmix, _, rfl⟩, by simp, by simp⟩
      refine h.write (Inner.makeAlt_wf (h.wf t) _ ?_) hle ?_ ?_ ?_
      · intro a ns' hc n hn
        cases hc
        obtain ⟨m, hm, rfl⟩ := List.mem_map.1 hn
        have := h.handles _ (hns m hm)
        simp only [HandleOk] at this
        rwa [hsame m hm] at this
      · intro x hx
        simp only [TreeOut.gives, List.mem_singleton] at hx
        subst hx
        simp only [HandleOk, World.set_self]
        exact Inner.altAt_lt (Inner.makeAlt_self (h.wf t) _)
      · intro n a
        simp only [AddedTo, h.added]
        refine and_congr_right fun _ => ?_
        rw [World.set_apply]
        split
        · next he => rw [he, Inner.makeAlt_has]
        · rfl
      · intro a m hr hm
        simp only [TreeOp.made, Option.some.injEq] at hm
        subst hm
        simp only [Res.ok.injEq, TreeOut.alt.injEq] at hr
        subst hr
        exact ⟨rfl, hsame, by rw [World.set_self]; exact Inner.makeAlt_self (h.wf t) _⟩
  | addAlt n a =>
    obtain ⟨hn, ha⟩ := hop
    by_cases hmix : n.tree ≠ a.tree
    · have he : (TreeOp.addAlt n a).exec w = (w, .panic .otherTree) := by
        simp [TreeOp.exec, World.addAlt, World.isSame, hmix, Res.mapOut]
      rw [he]
      refine ⟨h.read (by simp [TreeOut.gives]) (by simp [AddedTo]) (by simp), World.Le.refl w,
        Or.inl ⟨hmix, rfl⟩, ?_, by simp⟩
      intro n' a' hh hnm
      exact absurd hmix hnm
    · have hsame : n.tree = a.tree := by simpa using hmix
      have hn' := h.handles _ hn
      have ha' := h.handles _ ha
      simp only [HandleOk] at hn' ha'
      rw [← hsame] at ha'
      obtain ⟨j, c, h1, h2, h3, h4, h5, h6, h7⟩ := Inner.addNodeAlt_ok hn' a.index
      have hw := h.wf n.tree
      have he : (TreeOp.addAlt n a).exec w = (w.set n.tree j, .ok (.changed c)) := by
        simp only [TreeOp.exec, World.addAlt, World.isSame, hsame, beq_self_eq_true, if_true]
        rw [hsame] at h1
        rw [h1]
        simp [World.update, Res.mapOut]
      have hadd : AddedTo log n a ↔ (w n.tree).Has n.index a.index := by
        rw [h.added]; simp [hsame]
      rw [he]
      have hle : (w n.tree).Le j :=
        ⟨by unfold Inner.altAt; rw [h2]; exact fun _ _ h => h, by rw [h2]; exact Nat.le_refl _,
          by omega, fun m b hb => (h4 hw m b).2 (Or.inl hb)⟩
      refine ⟨?_, World.Le.set hle, Or.inr ⟨hmix, _, rfl⟩, ?_, by simp⟩
      · refine h.write (h6 hw ha') hle (by simp [TreeOut.gives]) ?_ (by simp)
        intro m b
        simp only [AddedTo, h.added]
        rw [World.set_apply]
        split
        · next heq =>
          rw [h4 hw, heq]
          constructor
          · rintro (⟨rfl, rfl⟩ | ⟨h1, h2⟩)
            · exact ⟨hsame.symm, Or.inr ⟨rfl, rfl⟩⟩
            · exact ⟨h1, Or.inl h2⟩
          · rintro ⟨h1, h2 | ⟨h2, h3⟩⟩
            · exact Or.inr ⟨h1, h2⟩
            · left
              refine ⟨?_, ?_⟩
              · cases m; cases n; simp_all
              · cases b; cases a; simp_all
        · next hne =>
          constructor
          · rintro (⟨rfl, rfl⟩ | h)
            · exact absurd rfl hne
            · exact h
          · exact Or.inr
      · intro n' a' hh _
        cases hh
        exact ⟨c, rfl, by rw [h5 hw, hadd]⟩
  | addAll n m =>
    obtain ⟨hn, hm⟩ := hop
    by_cases hmix : n.tree ≠ m.tree
    · have he : (TreeOp.addAll n m).exec w = (w, .panic .otherTree) := by
        simp [TreeOp.exec, World.addAll, World.isSame, hmix, Res.mapOut]
      rw [he]
      refine ⟨h.read (by simp [TreeOut.gives]) (by simp [AddedTo]) (by simp), World.Le.refl w,
        Or.inl ⟨hmix, rfl⟩, by simp, ?_⟩
      intro n' a' hh hnm
      exact absurd hmix hnm
    · have hsame : n.tree = m.tree := by simpa using hmix
      have hn' := h.handles _ hn
      have hm' := h.handles _ hm
      simp only [HandleOk] at hn' hm'
      rw [← hsame] at hm'
      have hw := h.wf n.tree
      obtain ⟨j, c, h1, h2, h3, h4, h5, h6, h7⟩ := Inner.addAll_ok hw hn' hm'
      have he : (TreeOp.addAll n m).exec w = (w.set n.tree j, .ok (.changed c)) := by
        simp only [TreeOp.exec, World.addAll, World.isSame, hsame, beq_self_eq_true, if_true]
        rw [hsame] at h1
        rw [h1]
        simp [World.update, Res.mapOut]
      rw [he]
      have hle : (w n.tree).Le j :=
        ⟨by unfold Inner.altAt; rw [h2]; exact fun _ _ h => h, by rw [h2]; exact Nat.le_refl _,
          by omega, fun m b hb => (h4 m b).2 (Or.inl hb)⟩
      refine ⟨?_, World.Le.set hle, Or.inr ⟨hmix, _, rfl⟩, by simp, ?_⟩
      · refine h.write h6 hle (by simp [TreeOut.gives]) ?_ (by simp)
        intro k b
        simp only [AddedTo, h.added]
        rw [World.set_apply]
        split
        · next heq =>
          rw [h4, heq, ← hsame]
          constructor
          · rintro (⟨rfl, h1, h2⟩ | ⟨h1, h2⟩)
            · exact ⟨h1, Or.inr ⟨rfl, h2⟩⟩
            · exact ⟨h1, Or.inl h2⟩
          · rintro ⟨h1, h2 | ⟨h2, h3⟩⟩
            · exact Or.inr ⟨h1, h2⟩
            · left
              refine ⟨?_, h1, h3⟩
              cases k; cases n; simp_all
        · next hne =>
          constructor
          · rintro (⟨rfl, h⟩ | h)
            · exact absurd rfl hne
            · exact h
          · exact Or.inr
      · intro n' m' hh _
        cases hh
        refine ⟨c, rfl, ?_⟩
        rw [h5]
        simp only [h.added, ← hsame]
        constructor
        · rintro ⟨a, h1, h2⟩
          exact ⟨⟨a, n.tree⟩, ⟨rfl, h1⟩, fun h => h2 h.2⟩
        · rintro ⟨a, ⟨h0, h1⟩, h2⟩
          exact ⟨a.index, h1, fun h => h2 ⟨h0, h⟩⟩
  | alts n =>
    have hn := h.handles _ hop
    simp only [HandleOk] at hn
    have he : (TreeOp.alts n).exec w = (w, .ok (.alts ((w n.tree).nodes[n.index].map (⟨·, n.tree⟩)))) := by
      simp only [TreeOp.exec, World.alts, Inner.getNode_ok hn, Res.mapOut]
    rw [he]
    refine ⟨h.read ?_ (by simp [AddedTo]) (by simp), World.Le.refl w, Or.inr ⟨fun h => h, _, rfl⟩,
      by simp, by simp⟩
    intro x hx
    simp only [TreeOut.gives, List.mem_map] at hx
    obtain ⟨a, ⟨b, hb, rfl⟩, rfl⟩ := hx
    exact (h.wf n.tree).nodeAlts _ (List.getElem_mem hn) b hb
  | content a =>
    have ha := h.handles _ hop
    simp only [HandleOk] at ha
    have hget : (w a.tree).altAt a.index = some (w a.tree).alternatives.idToValue[a.index] :=
      List.getElem?_eq_getElem ha
    cases hc : (w a.tree).alternatives.idToValue[a.index] with
    | leaf k v =>
      rw [hc] at hget
      have he : (TreeOp.content a).exec w = (w, .ok (.view (.leaf ⟨a.index, a.tree⟩))) := by
        simp only [TreeOp.exec, World.content, getAlt_of_altAt hget, Res.mapOut]
      rw [he]
      refine ⟨h.read ?_ (by simp [AddedTo]) (by simp), World.Le.refl w, Or.inr ⟨fun h => h, _, rfl⟩,
        by simp, by simp⟩
      intro x hx
      simp only [TreeOut.gives, List.mem_singleton] at hx
      subst hx
      exact ⟨k, v, hget⟩
    | branch k v =>
      rw [hc] at hget
      have he : (TreeOp.content a).exec w = (w, .ok (.view (.branch ⟨a.index, a.tree⟩))) := by
        simp only [TreeOp.exec, World.content, getAlt_of_altAt hget, Res.mapOut]
      rw [he]
      refine ⟨h.read ?_ (by simp [AddedTo]) (by simp), World.Le.refl w, Or.inr ⟨fun h => h, _, rfl⟩,
        by simp, by simp⟩
      intro x hx
      simp only [TreeOut.gives, List.mem_singleton] at hx
      subst hx
      exact ⟨k, v, hget⟩
  | kind l =>
    obtain ⟨k, v, hl⟩ := h.handles _ hop
    have he : (TreeOp.kind l).exec w = (w, .ok (.kind k)) := by
      simp only [TreeOp.exec, World.kind, World.withLeaf, getAlt_of_altAt hl, NodeContent.asLeaf,
        Res.expect_some, Res.mapOut]
    rw [he]
    exact ⟨h.read (by simp [TreeOut.gives]) (by simp [AddedTo]) (by simp), World.Le.refl w,
      Or.inr ⟨fun h => h, _, rfl⟩, by simp, by simp⟩
  | value l =>
    obtain ⟨k, v, hl⟩ := h.handles _ hop
    have he : (TreeOp.value l).exec w = (w, .ok (.value v)) := by
      simp only [TreeOp.exec, World.value, World.withLeaf, getAlt_of_altAt hl, NodeContent.asLeaf,
        Res.expect_some, Res.mapOut]
    rw [he]
    exact ⟨h.read (by simp [TreeOut.gives]) (by simp [AddedTo]) (by simp), World.Le.refl w,
      Or.inr ⟨fun h => h, _, rfl⟩, by simp, by simp⟩
  | action b =>
    obtain ⟨k, v, hl⟩ := h.handles _ hop
    have he : (TreeOp.action b).exec w = (w, .ok (.action k)) := by
      simp only [TreeOp.exec, World.action, World.withBranch, getAlt_of_altAt hl,
        NodeContent.asBranch, Res.expect_some, Res.mapOut]
    rw [he]
    exact ⟨h.read (by simp [TreeOut.gives]) (by simp [AddedTo]) (by simp), World.Le.refl w,
      Or.inr ⟨fun h => h, _, rfl⟩, by simp, by simp⟩
  | nodes b =>
    obtain ⟨k, v, hl⟩ := h.handles _ hop
    have he : (TreeOp.nodes b).exec w = (w, .ok (.nodes (v.map (⟨·, b.tree⟩)))) := by
      simp only [TreeOp.exec, World.branchNodes, World.withBranch, getAlt_of_altAt hl,
        NodeContent.asBranch, Res.expect_some, Res.mapOut]
    rw [he]
    refine ⟨h.read ?_ (by simp [AddedTo]) (by simp), World.Le.refl w,
      Or.inr ⟨fun h => h, _, rfl⟩, by simp, by simp⟩
    intro x hx
    simp only [TreeOut.gives, List.mem_map] at hx
    obtain ⟨a, ⟨n, hn, rfl⟩, rfl⟩ := hx
    exact (h.wf b.tree).branchNodes _ _ _ hl n hn

theorem History.inv {log : TreeLog T AK V} {w : World T AK V} {held : List Handle}
    (h : History log w held) : HistInv log w held := by
  induction h with
  | start =>
    refine ⟨fun t => Inner.wf_new, by simp, ?_, by simp⟩
    intro n a
    simp [AddedTo, World.new, Inner.new, Inner.Has]
  | newOwner t _ _ ih =>
    refine ⟨ih.wf, ?_, ih.added, ih.made⟩
    intro x hx
    rcases List.mem_cons.1 hx with rfl | hx
    · trivial
    · exact ih.handles x hx
  | call op _ hop ih => exact (exec_inv ih op hop).1
end
end Bongo
