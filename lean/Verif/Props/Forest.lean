import Verif.Proof.Dot
/-!
# C33–C37: parse forests
-/
set_option linter.unusedSectionVars false
namespace Bongo
open Std
variable {T AK V : Type} [Ord T] [Ord AK] [Ord V]

instance TreeOp.decAllowed {T AK V : Type} (held : List Handle) (op : TreeOp T AK V) :
    Decidable (op.Allowed held) := by
  cases op <;> unfold TreeOp.Allowed <;> infer_instance

instance TreeOp.decMixes {T AK V : Type} (op : TreeOp T AK V) : Decidable op.Mixes := by
  cases op <;> unfold TreeOp.Mixes <;> infer_instance

/-! ## An example history

Two trees.  In tree 7: a node with two alternatives (a leaf, and a branch over a node that has that
branch too, so the forest is cyclic); in tree 8: one node. -/
section example_history
/-- The calls, in order. -/
def forestOps : List (TreeOp Nat Nat Nat) :=
  [.makeNode 7, .makeNode 7, .makeLeafAlt 7 1 10, .makeBranchAlt 7 5 [⟨0, 7⟩, ⟨1, 7⟩],
   .addAlt ⟨0, 7⟩ ⟨0, 7⟩, .addAlt ⟨1, 7⟩ ⟨1, 7⟩, .addAll ⟨0, 7⟩ ⟨1, 7⟩, .makeNode 8,
   .addAlt ⟨0, 7⟩ ⟨0, 7⟩, .makeLeafAlt 7 1 10, .addAll ⟨0, 7⟩ ⟨0, 8⟩]

/-- Run calls from given log, memory and handles. -/
def runOps (ops : List (TreeOp Nat Nat Nat)) (st : TreeLog Nat Nat Nat × World Nat Nat Nat × List Handle) :
    TreeLog Nat Nat Nat × World Nat Nat Nat × List Handle :=
  ops.foldl (fun st op => ((op, (op.exec st.2.1).2) :: st.1, (op.exec st.2.1).1,
    TreeOut.gives (op.exec st.2.1).2 ++ st.2.2)) st

/-- Whether every call uses handles obtained before. -/
def opsAllowed : List (TreeOp Nat Nat Nat) →
    TreeLog Nat Nat Nat × World Nat Nat Nat × List Handle → Bool
  | [], _ => true
  | op :: ops, st => decide (op.Allowed st.2.2) && opsAllowed ops (runOps [op] st)

theorem runOps_history (ops : List (TreeOp Nat Nat Nat))
    (st : TreeLog Nat Nat Nat × World Nat Nat Nat × List Handle) (h : History st.1 st.2.1 st.2.2)
    (hok : opsAllowed ops st = true) :
    History (runOps ops st).1 (runOps ops st).2.1 (runOps ops st).2.2 := by
  induction ops generalizing st with
  | nil => exact h
  | cons op ops ih =>
    rw [opsAllowed, Bool.and_eq_true, decide_eq_true_eq] at hok
    exact ih (runOps [op] st) (.call op h hok.1) hok.2

/-- The state after the example calls. -/
def forestExample : TreeLog Nat Nat Nat × World Nat Nat Nat × List Handle :=
  runOps forestOps ([], World.new, [.tree 8, .tree 7])

theorem forestExample_history :
    History forestExample.1 forestExample.2.1 forestExample.2.2 :=
  runOps_history forestOps _
    (.newOwner 8 (.newOwner 7 .start (by simp)) (by simp [Handle.owner])) (by decide)
end example_history

section
variable [TransOrd T] [TransOrd AK] [TransOrd V] [LawfulEqOrd T] [LawfulEqOrd AK] [LawfulEqOrd V]

/-! ## C33 -/

/-- C33: a leaf alternative reads back as what it was made of, at any later time. -/
theorem leaf_alt_reads_back {log : TreeLog T AK V} {w : World T AK V} {held : List Handle}
    (h : History log w held) {t : Nat} {k : T} {v : V} {a : Alternative}
    (hm : (.makeLeafAlt t k v, .ok (.alt a)) ∈ log) :
    ∃ l, w.content a = .ok (.leaf l) ∧ w.kind l = .ok k ∧ w.value l = .ok v := by
  obtain ⟨h1, h2⟩ := h.inv.made _ a (t, .inl (k, v)) hm rfl
  subst h1
  have hg := getAlt_of_altAt h2
  refine ⟨⟨a.index, a.tree⟩, ?_, ?_, ?_⟩
  · simp only [World.content, hg]
  · simp only [World.kind, World.withLeaf, hg, NodeContent.asLeaf, Res.expect_some]
  · simp only [World.value, World.withLeaf, hg, NodeContent.asLeaf, Res.expect_some]

/-- C33: a branch alternative reads back as what it was made of, at any later time. -/
theorem branch_alt_reads_back {log : TreeLog T AK V} {w : World T AK V} {held : List Handle}
    (h : History log w held) {t : Nat} {act : AK} {ns : List Node} {a : Alternative}
    (hm : (.makeBranchAlt t act ns, .ok (.alt a)) ∈ log) :
    ∃ b, w.content a = .ok (.branch b) ∧ w.action b = .ok act ∧ w.branchNodes b = .ok ns := by
  obtain ⟨h1, h3, h2⟩ := h.inv.made _ a (t, .inr (act, ns)) hm rfl
  subst h1
  have hg := getAlt_of_altAt h2
  refine ⟨⟨a.index, a.tree⟩, ?_, ?_, ?_⟩
  · simp only [World.content, hg]
  · simp only [World.action, World.withBranch, hg, NodeContent.asBranch, Res.expect_some]
  · simp only [World.branchNodes, World.withBranch, hg, NodeContent.asBranch, Res.expect_some,
      List.map_map, Res.ok.injEq]
    conv => rhs; rw [← List.map_id ns]
    apply List.map_congr_left
    intro n hn
    have := h3 n hn
    cases n
    simp_all

/-- C33: two alternatives made at any two times are equal exactly when they were made in the same
tree with equal content. -/
theorem alts_interned {log : TreeLog T AK V} {w : World T AK V} {held : List Handle}
    (h : History log w held) {op op' : TreeOp T AK V} {a a' : Alternative} {m m'}
    (h1 : (op, .ok (.alt a)) ∈ log) (h2 : (op', .ok (.alt a')) ∈ log)
    (hm : op.made = some m) (hm' : op'.made = some m') : a = a' ↔ m = m' := by
  have k1 := h.inv.made _ a m h1 hm
  have k2 := h.inv.made _ a' m' h2 hm'
  have hmap : ∀ (t : Nat) (l l' : List Node), (∀ n ∈ l, n.tree = t) → (∀ n ∈ l', n.tree = t) →
      l.map (·.index) = l'.map (·.index) → l = l' := by
    intro t l
    induction l with
    | nil => intro l' _ _ he; cases l' with
      | nil => rfl
      | cons => cases he
    | cons n l ih =>
      intro l' hl hl' he
      cases l' with
      | nil => cases he
      | cons n' l' =>
        simp only [List.map_cons, List.cons.injEq] at he
        have e1 := hl n (by simp)
        have e2 := hl' n' (by simp)
        have : n = n' := by cases n; cases n'; simp_all
        rw [this, ih l' (fun m hm => hl m (by simp [hm])) (fun m hm => hl' m (by simp [hm])) he.2]
  obtain ⟨t, m⟩ := m
  obtain ⟨t', m'⟩ := m'
  have ext : ∀ x y : Alternative, x.tree = y.tree → x.index = y.index → x = y := by
    intro x y; cases x; cases y; simp_all
  cases m with
  | inl kv =>
    obtain ⟨k, v⟩ := kv
    obtain ⟨rfl, e1⟩ := k1
    cases m' with
    | inl kv' =>
      obtain ⟨k', v'⟩ := kv'
      obtain ⟨rfl, e2⟩ := k2
      constructor
      · rintro rfl; rw [e1] at e2; cases e2; rfl
      · intro he
        simp only [_root_.Prod.mk.injEq, Sum.inl.injEq] at he
        obtain ⟨ht, rfl, rfl⟩ := he
        rw [← ht] at e2
        exact ext _ _ ht ((h.inv.wf a.tree).altAt_inj e1 e2)
    | inr an' =>
      obtain ⟨act', ns'⟩ := an'
      obtain ⟨rfl, -, e2⟩ := k2
      constructor
      · rintro rfl; rw [e1] at e2; cases e2
      · intro he; simp at he
  | inr an =>
    obtain ⟨act, ns⟩ := an
    obtain ⟨rfl, s1, e1⟩ := k1
    cases m' with
    | inl kv' =>
      obtain ⟨k', v'⟩ := kv'
      obtain ⟨rfl, e2⟩ := k2
      constructor
      · rintro rfl; rw [e1] at e2; cases e2
      · intro he; simp at he
    | inr an' =>
      obtain ⟨act', ns'⟩ := an'
      obtain ⟨rfl, s2, e2⟩ := k2
      constructor
      · rintro rfl
        rw [e1] at e2
        simp only [Option.some.injEq, NodeContent.branch.injEq] at e2
        rw [e2.1, hmap _ _ _ s1 s2 e2.2]
      · intro he
        simp only [_root_.Prod.mk.injEq, Sum.inr.injEq] at he
        obtain ⟨ht, rfl, rfl⟩ := he
        rw [← ht] at e2
        exact ext _ _ ht ((h.inv.wf a.tree).altAt_inj e1 e2)

-- The hypotheses are met: tree 7's leaf is made twice, and its branch differs.
example : (.makeLeafAlt 7 1 10, .ok (.alt ⟨0, 7⟩)) ∈ forestExample.1 ∧
    (.makeBranchAlt 7 5 [⟨0, 7⟩, ⟨1, 7⟩], .ok (.alt ⟨1, 7⟩)) ∈ forestExample.1 ∧
    ((forestExample.1.filter (fun e => e.1 = .makeLeafAlt 7 1 10)).length = 2) := by decide

/-! ## C34 -/

/-- C34: `alts` gives, in order of creation, exactly the alternatives added so far. -/
theorem node_alts_exact {log : TreeLog T AK V} {w : World T AK V} {held : List Handle}
    (h : History log w held) {n : Node} (hn : .node n ∈ held) :
    ∃ l, w.alts n = .ok l ∧ l.Pairwise (fun a b => a.index < b.index) ∧
      ∀ a, a ∈ l ↔ AddedTo log n a := by
  have hn' : n.index < (w n.tree).nodes.length := h.inv.handles _ hn
  refine ⟨(w n.tree).nodes[n.index].map (⟨·, n.tree⟩),
    by simp only [World.alts, Inner.getNode_ok hn'], ?_, ?_⟩
  · have := (h.inv.wf n.tree).nodeSorted _ (List.getElem_mem hn')
    rw [List.pairwise_map]
    refine List.Pairwise.imp ?_ this
    intro a b hab
    exact Nat.compare_eq_lt.1 hab
  · intro a
    rw [h.inv.added]
    unfold Inner.Has
    simp only [List.getElem?_eq_getElem hn', Option.some.injEq, exists_eq_left', List.mem_map]
    constructor
    · rintro ⟨b, hb, rfl⟩; exact ⟨rfl, hb⟩
    · rintro ⟨h1, h2⟩
      exact ⟨a.index, h2, by cases a; simp_all⟩

/-- C34: a new node is different from every node the program holds or can reach through a
branch, and has no alternatives. -/
theorem makeNode_fresh {log : TreeLog T AK V} {w : World T AK V} {held : List Handle}
    (h : History log w held) (t : Nat) :
    (w.makeNode t).1.alts (w.makeNode t).2 = .ok [] ∧
    .node (w.makeNode t).2 ∉ held ∧ (w.makeNode t).2.tree = t ∧
    (∀ (b : Branch) l, (w.makeNode t).1.branchNodes b = .ok l → (w.makeNode t).2 ∉ l) ∧
    (∀ a, ¬ AddedTo log (w.makeNode t).2 a) := by
  have hlen : (w t).nodes.length < ((w.makeNode t).1 t).nodes.length := by
    simp [World.makeNode]
  refine ⟨?_, ?_, rfl, ?_, ?_⟩
  · show World.alts _ ⟨(w t).nodes.length, t⟩ = _
    simp only [World.alts, Inner.getNode_ok hlen]
    simp [World.makeNode]
  · intro hn
    have : (w t).nodes.length < (w t).nodes.length := h.inv.handles _ hn
    omega
  · intro b l hb hmem
    unfold World.branchNodes at hb
    cases hw : (w.makeNode t).1.withBranch b with
    | ok d =>
      simp only [hw, Res.ok.injEq] at hb
      subst hb
      obtain ⟨m, hm, he⟩ := List.mem_map.1 hmem
      unfold World.withBranch at hw
      cases hg : ((w.makeNode t).1 b.tree).getAlt b.index with
      | ok c =>
        simp only [hg] at hw
        cases c with
        | leaf => simp [NodeContent.asBranch] at hw
        | branch act ns =>
          simp only [NodeContent.asBranch, Res.expect_some, Res.ok.injEq] at hw
          subst hw
          have hbt : b.tree = t := congrArg Node.tree he
          have hmi : m = (w t).nodes.length := congrArg Node.index he
          rw [Inner.getAlt_some, hbt] at hg
          have hg' : (w t).altAt b.index = some (.branch act ns) := by
            simpa [World.makeNode] using hg
          have := (h.inv.wf t).branchNodes _ _ _ hg' m hm
          omega
      | panic p => simp [hg] at hw
      | oof => simp [hg] at hw
    | panic p => simp [hw] at hb
    | oof => simp [hw] at hb
  · intro a ha
    rw [h.inv.added] at ha
    have := ha.2.lt
    simp [World.makeNode] at this

/-- C34: `add_alt` reports whether the alternative is new. -/
theorem addAlt_reports {log : TreeLog T AK V} {w : World T AK V} {held : List Handle}
    (h : History log w held) {n : Node} {a : Alternative} (hn : .node n ∈ held)
    (ha : .alt a ∈ held) (ht : n.tree = a.tree) :
    ∃ c, (w.addAlt n a).2 = .ok c ∧ (c = .changed ↔ ¬ AddedTo log n a) := by
  obtain ⟨c, h1, h2⟩ := (exec_inv h.inv (.addAlt n a) ⟨hn, ha⟩).2.2.2.1 n a rfl (fun h => h ht)
  refine ⟨c, ?_, h2⟩
  simp only [TreeOp.exec] at h1
  cases hr : (w.addAlt n a).2 <;> simp_all [Res.mapOut]

/-- C34: `add_all` reports whether any of the alternatives is new. -/
theorem addAll_reports {log : TreeLog T AK V} {w : World T AK V} {held : List Handle}
    (h : History log w held) {n m : Node} (hn : .node n ∈ held)
    (hm : .node m ∈ held) (ht : n.tree = m.tree) :
    ∃ c, (w.addAll n m).2 = .ok c ∧ (c = .changed ↔ ∃ a, AddedTo log m a ∧ ¬ AddedTo log n a) := by
  obtain ⟨c, h1, h2⟩ := (exec_inv h.inv (.addAll n m) ⟨hn, hm⟩).2.2.2.2 n m rfl (fun h => h ht)
  refine ⟨c, ?_, h2⟩
  simp only [TreeOp.exec] at h1
  cases hr : (w.addAll n m).2 <;> simp_all [Res.mapOut]

-- In the example `add_all` and then a repeated `add_alt` were called.
example : .node ⟨0, 7⟩ ∈ forestExample.2.2 ∧
    forestExample.2.1.alts ⟨0, 7⟩ = .ok [⟨0, 7⟩, ⟨1, 7⟩] ∧
    (.addAlt ⟨0, 7⟩ ⟨0, 7⟩, .ok (.changed .unchanged)) ∈ forestExample.1 ∧
    (.addAll ⟨0, 7⟩ ⟨1, 7⟩, .ok (.changed .changed)) ∈ forestExample.1 := by decide

/-! ## C35 -/

/-- C35: no call on handles a program has obtained ever panics, unless it combines different
trees; in particular no index is ever invalid and no view ever finds the other kind. -/
theorem calls_never_fail {log : TreeLog T AK V} {w : World T AK V} {held : List Handle}
    (h : History log w held) {op : TreeOp T AK V} (hop : op.Allowed held) (hm : ¬ op.Mixes) :
    ∃ o, (op.exec w).2 = .ok o := by
  rcases (exec_inv h.inv op hop).2.2.1 with ⟨h1, -⟩ | ⟨-, h2⟩
  · exact absurd h1 hm
  · exact h2

/-- C35: what is found stays found: a call never changes what reading an alternative the program
holds gives. -/
theorem reads_are_stable {log : TreeLog T AK V} {w : World T AK V} {held : List Handle}
    (h : History log w held) {op : TreeOp T AK V} (hop : op.Allowed held) :
    (∀ a, .alt a ∈ held → (op.exec w).1.content a = w.content a) ∧
    (∀ l, .leaf l ∈ held → (op.exec w).1.kind l = w.kind l ∧ (op.exec w).1.value l = w.value l) ∧
    (∀ b, .branch b ∈ held →
      (op.exec w).1.action b = w.action b ∧ (op.exec w).1.branchNodes b = w.branchNodes b) := by
  have hle := (exec_inv h.inv op hop).2.1
  refine ⟨?_, ?_, ?_⟩
  · intro a ha
    have hlt : a.index < (w a.tree).alternatives.idToValue.length := h.inv.handles _ ha
    have h1 : (w a.tree).altAt a.index = some (w a.tree).alternatives.idToValue[a.index] :=
      List.getElem?_eq_getElem hlt
    have h2 := (hle a.tree).alts _ _ h1
    simp only [World.content, getAlt_of_altAt h1, getAlt_of_altAt h2]
  · intro l hl
    obtain ⟨k, v, h1⟩ := h.inv.handles _ hl
    have h2 := (hle l.tree).alts _ _ h1
    simp only [World.kind, World.value, World.withLeaf, getAlt_of_altAt h1, getAlt_of_altAt h2,
      and_self]
  · intro b hb
    obtain ⟨k, v, h1⟩ := h.inv.handles _ hb
    have h2 := (hle b.tree).alts _ _ h1
    simp only [World.action, World.branchNodes, World.withBranch, getAlt_of_altAt h1,
      getAlt_of_altAt h2, and_self]

example : (TreeOp.alts ⟨0, 7⟩ : TreeOp Nat Nat Nat).Allowed forestExample.2.2 ∧
    ¬ (TreeOp.alts ⟨0, 7⟩ : TreeOp Nat Nat Nat).Mixes := by decide

/-! ## C36 -/

/-- C36: a call panics exactly when it combines different trees, and then changes nothing. -/
theorem mixing_panics {log : TreeLog T AK V} {w : World T AK V} {held : List Handle}
    (h : History log w held) {op : TreeOp T AK V} (hop : op.Allowed held) :
    (op.Mixes ↔ (op.exec w).2.Panics) ∧ (op.Mixes → op.exec w = (w, .panic .otherTree)) := by
  rcases (exec_inv h.inv op hop).2.2.1 with ⟨h1, h2⟩ | ⟨h1, o, h2⟩
  · exact ⟨⟨fun _ => ⟨.otherTree, by rw [h2]⟩, fun _ => h1⟩, fun _ => h2⟩
  · refine ⟨⟨fun h => absurd h h1, ?_⟩, fun h => absurd h h1⟩
    rintro ⟨p, hp⟩; rw [h2] at hp; cases hp

/-- C36: a call changes at most the tree it is made on. -/
theorem other_trees_unchanged (w : World T AK V) (op : TreeOp T AK V) (t : Nat)
    (h : op.target ≠ some t) : (op.exec w).1 t = w t := by
  cases op with
  | makeNode t' =>
    simp only [TreeOp.target, ne_eq, Option.some.injEq] at h
    exact World.set_other w _ (fun e => h e.symm)
  | makeLeafAlt t' k v =>
    simp only [TreeOp.target, ne_eq, Option.some.injEq] at h
    exact World.set_other w _ (fun e => h e.symm)
  | makeBranchAlt t' a ns =>
    simp only [TreeOp.target, ne_eq, Option.some.injEq] at h
    simp only [TreeOp.exec, World.makeBranchAlt]
    split
    · exact World.set_other w _ (fun e => h e.symm)
    · rfl
  | addAlt n a =>
    simp only [TreeOp.target, ne_eq, Option.some.injEq] at h
    simp only [TreeOp.exec, World.addAlt]
    split
    · unfold World.update
      split
      · exact World.set_other w _ (fun e => h e.symm)
      · rfl
      · rfl
    · rfl
  | addAll n m =>
    simp only [TreeOp.target, ne_eq, Option.some.injEq] at h
    simp only [TreeOp.exec, World.addAll]
    split
    · unfold World.update
      split
      · exact World.set_other w _ (fun e => h e.symm)
      · rfl
      · rfl
    · rfl
  | alts | content | kind | value | action | nodes => rfl

/-- C36: `make_leaf_node` is a history of primitive calls; the new node's only alternative is the
leaf. -/
theorem makeLeafNode_history {log : TreeLog T AK V} {w : World T AK V} {held : List Handle}
    (h : History log w held) {t : Nat} (ht : ∃ x ∈ held, x.owner = t) (k : T) (v : V) :
    ∃ new held' n a l, History (new ++ log) (w.makeLeafNode t k v).1 held' ∧ CallsOn t new ∧
      (w.makeLeafNode t k v).2 = .ok n ∧ n.tree = t ∧
      .node n ∈ held' ∧ .node n ∉ held ∧ (∀ x ∈ held, x ∈ held') ∧
      (w.makeLeafNode t k v).1.alts n = .ok [a] ∧
      (w.makeLeafNode t k v).1.content a = .ok (.leaf l) ∧
      (w.makeLeafNode t k v).1.kind l = .ok k ∧ (w.makeLeafNode t k v).1.value l = .ok v := by
  have hfresh := makeNode_fresh h t
  have h1 := History.call (.makeNode t) h ht
  have h2 := History.call (.makeLeafAlt t k v) h1
    (by obtain ⟨x, hx, he⟩ := ht; exact ⟨x, by simp [hx], he⟩)
  simp only [TreeOp.exec, TreeOut.gives, List.cons_append, List.nil_append] at h2
  have h3 := History.call (.addAlt (w.makeNode t).2 ((w.makeNode t).1.makeLeafAlt t k v).2) h2
    (by simp [TreeOp.Allowed])
  obtain ⟨o, ho⟩ := calls_never_fail h2
    (op := .addAlt (w.makeNode t).2 ((w.makeNode t).1.makeLeafAlt t k v).2)
    (by simp [TreeOp.Allowed]) (fun h => h rfl)
  simp only [TreeOp.exec] at ho h3
  have hexec : ∃ c, ((w.makeNode t).1.makeLeafAlt t k v).1.addAlt (w.makeNode t).2
      ((w.makeNode t).1.makeLeafAlt t k v).2 = ((w.makeLeafNode t k v).1, .ok c) ∧
      (w.makeLeafNode t k v).2 = .ok (w.makeNode t).2 := by
    unfold World.makeLeafNode
    cases hr : ((w.makeNode t).1.makeLeafAlt t k v).1.addAlt (w.makeNode t).2
      ((w.makeNode t).1.makeLeafAlt t k v).2 with
    | mk w' r =>
      rw [hr] at ho
      cases r with
      | ok c => exact ⟨c, by simp [hr]⟩
      | panic p => simp [Res.mapOut] at ho
      | oof => simp [Res.mapOut] at ho
  obtain ⟨c, hx1, hx2⟩ := hexec
  rw [hx1] at h3
  obtain ⟨l, hl1, hl2, hl3⟩ := leaf_alt_reads_back h3 (t := t) (k := k) (v := v)
    (a := ((w.makeNode t).1.makeLeafAlt t k v).2) (by simp)
  obtain ⟨as, ha1, ha2, ha3⟩ := node_alts_exact h3 (n := (w.makeNode t).2) (by simp)
  have has : as = [((w.makeNode t).1.makeLeafAlt t k v).2] := by
    have key : ∀ a, a ∈ as ↔ a = ((w.makeNode t).1.makeLeafAlt t k v).2 := by
      intro a
      rw [ha3]
      simp only [Res.mapOut, AddedTo, true_and, or_iff_left_iff_imp]
      intro hh; exact absurd hh (hfresh.2.2.2.2 a)
    match as, ha2, key with
    | [], _, key => exact absurd ((key _).2 rfl) (by simp)
    | [x], _, key => rw [(key x).1 (by simp)]
    | x :: y :: l, ha2, key =>
      have hx := (key x).1 (by simp)
      have hy := (key y).1 (by simp)
      rw [hx, hy] at ha2
      simp at ha2
  exact ⟨[_, _, _], _, _, _, l, h3, by simp [CallsOn, TreeOp.target, Res.mapOut, World.makeNode],
    hx2, rfl, by simp, hfresh.2.1, by intro x hx; simp [hx],
    by rw [ha1, has], hl1, hl2, hl3⟩

/-- C36: `make_branch_node` is a history of primitive calls when the nodes are the tree's own; the
new node's only alternative is the branch. -/
theorem makeBranchNode_history {log : TreeLog T AK V} {w : World T AK V} {held : List Handle}
    (h : History log w held) {t : Nat} (ht : ∃ x ∈ held, x.owner = t) (act : AK) {ns : List Node}
    (hns : ∀ n ∈ ns, .node n ∈ held) (hsame : ∀ n ∈ ns, n.tree = t) :
    ∃ new held' n a b, History (new ++ log) (w.makeBranchNode t act ns).1 held' ∧ CallsOn t new ∧
      (w.makeBranchNode t act ns).2 = .ok n ∧ n.tree = t ∧
      .node n ∈ held' ∧ .node n ∉ held ∧ (∀ x ∈ held, x ∈ held') ∧
      (w.makeBranchNode t act ns).1.alts n = .ok [a] ∧
      (w.makeBranchNode t act ns).1.content a = .ok (.branch b) ∧
      (w.makeBranchNode t act ns).1.action b = .ok act ∧
      (w.makeBranchNode t act ns).1.branchNodes b = .ok ns := by
  have hfresh := makeNode_fresh h t
  have h1 := History.call (.makeNode t) h ht
  have hal : (TreeOp.makeBranchAlt t act ns : TreeOp T AK V).Allowed
      (TreeOut.gives ((TreeOp.makeNode t : TreeOp T AK V).exec w).2 ++ held) := by
    obtain ⟨x, hx, he⟩ := ht
    exact ⟨⟨x, by simp [hx], he⟩, fun n hn => by simp [hns n hn]⟩
  have h2 := History.call (.makeBranchAlt t act ns) h1 hal
  have hok := calls_never_fail h1 hal (by rintro ⟨n, hn, hne⟩; exact hne (hsame n hn))
  simp only [TreeOp.exec, TreeOut.gives, List.cons_append, List.nil_append] at h2 hok
  cases hr2 : (w.makeNode t).1.makeBranchAlt t act ns with
  | mk w2 r2 =>
  rw [hr2] at h2 hok
  cases r2 with
  | panic p => obtain ⟨o, ho⟩ := hok; cases ho
  | oof => obtain ⟨o, ho⟩ := hok; cases ho
  | ok a =>
  simp only [Res.mapOut] at h2
  have hat : a.tree = t := by
    have := (h2.inv.made (.makeBranchAlt t act ns) a (t, .inr (act, ns)) (by simp) rfl).1
    exact this
  have hal2 : (TreeOp.addAlt (w.makeNode t).2 a : TreeOp T AK V).Allowed
      (.alt a :: .node (w.makeNode t).2 :: held) := by simp [TreeOp.Allowed]
  have h3 := History.call (.addAlt (w.makeNode t).2 a) h2 (by simpa [TreeOut.gives] using hal2)
  obtain ⟨o, ho⟩ := calls_never_fail h2 (op := .addAlt (w.makeNode t).2 a)
    (by simpa [TreeOut.gives] using hal2) (fun h => h hat.symm)
  simp only [TreeOp.exec] at ho h3
  have hexec : ∃ c, w2.addAlt (w.makeNode t).2 a = ((w.makeBranchNode t act ns).1, .ok c) ∧
      (w.makeBranchNode t act ns).2 = .ok (w.makeNode t).2 := by
    unfold World.makeBranchNode
    simp only [hr2]
    cases hr : w2.addAlt (w.makeNode t).2 a with
    | mk w' r =>
      rw [hr] at ho
      cases r with
      | ok c => exact ⟨c, by simp [hr]⟩
      | panic p => simp [Res.mapOut] at ho
      | oof => simp [Res.mapOut] at ho
  obtain ⟨c, hx1, hx2⟩ := hexec
  rw [hx1] at h3
  obtain ⟨l, hl1, hl2, hl3⟩ := branch_alt_reads_back h3 (t := t) (act := act) (ns := ns)
    (a := a) (by simp)
  obtain ⟨as, ha1, ha2, ha3⟩ := node_alts_exact h3 (n := (w.makeNode t).2) (by simp [TreeOut.gives])
  have has : as = [a] := by
    have key : ∀ x, x ∈ as ↔ x = a := by
      intro x
      rw [ha3]
      simp only [Res.mapOut, AddedTo, true_and, or_iff_left_iff_imp]
      intro hh; exact absurd hh (hfresh.2.2.2.2 x)
    match as, ha2, key with
    | [], _, key => exact absurd ((key _).2 rfl) (by simp)
    | [x], _, key => rw [(key x).1 (by simp)]
    | x :: y :: l, ha2, key =>
      have hx := (key x).1 (by simp)
      have hy := (key y).1 (by simp)
      rw [hx, hy] at ha2
      simp at ha2
  exact ⟨[_, _, _], _, _, _, l, h3, by simp [CallsOn, TreeOp.target, Res.mapOut, World.makeNode],
    hx2, rfl, by simp [TreeOut.gives], hfresh.2.1,
    by intro x hx; simp [TreeOut.gives, hx], by rw [ha1, has], hl1, hl2, hl3⟩

/-- C36: `make_branch_node` with a node of another tree panics, and all it leaves behind is one
empty node that nothing refers to (see `makeNode_fresh`). -/
theorem makeBranchNode_mixed (w : World T AK V) (t : Nat) (act : AK) {ns : List Node}
    (hmix : ∃ n ∈ ns, n.tree ≠ t) :
    w.makeBranchNode t act ns = ((w.makeNode t).1, .panic .otherTree) := by
  have hall : ns.all (fun n => World.isSame t n.tree) = false := by
    obtain ⟨n, hn, hne⟩ := hmix
    rw [List.all_eq_false]
    exact ⟨n, hn, by simp [World.isSame]; exact fun h => hne h.symm⟩
  simp [World.makeBranchNode, World.makeBranchAlt, hall]

-- In the example a node of tree 8 was added to one of tree 7.
example : (TreeOp.addAll ⟨0, 7⟩ ⟨0, 8⟩ : TreeOp Nat Nat Nat).Allowed forestExample.2.2 ∧
    (TreeOp.addAll ⟨0, 7⟩ ⟨0, 8⟩ : TreeOp Nat Nat Nat).Mixes ∧
    (.addAll ⟨0, 7⟩ ⟨0, 8⟩, .panic .otherTree) ∈ forestExample.1 ∧
    (forestExample.2.1.makeBranchNode 7 5 [⟨0, 7⟩, ⟨0, 8⟩]).2 = .panic .otherTree := by decide
example : ∃ n ∈ [(⟨0, 7⟩ : Node), ⟨0, 8⟩], n.tree ≠ 7 := by decide

/-! ## C37 -/

/-- C37 as far as it holds: `to_dot` of a node a program holds always finishes without a panic; its
node list is, without repetition, everything one or more arrows away from the given node, and its
edges are exactly the arrows out of those.  Missing: the given node itself (and its own arrows),
unless it lies on a cycle; see `dot_omits_root`. -/
theorem dot_graph_partial {log : TreeLog T AK V} {w : World T AK V} {held : List Handle}
    (h : History log w held) {n : Node} (hn : .node n ∈ held) :
    ∃ N ns es, (∀ fuel ≥ N, dotGraph fuel w n = .ok (ns, es)) ∧ ns.Nodup ∧
      (∀ x, x ∈ ns ↔ Relation.TransGen (ForestArrow w n.tree) (.node n.index) x) ∧
      (∀ x y, (x, y) ∈ es ↔ x ∈ ns ∧ ForestArrow w n.tree x y) :=
  dotGraph_ok (h.inv.wf n.tree) (h.inv.handles _ hn)

-- The cyclic forest of the example.
example : .node ⟨0, 7⟩ ∈ forestExample.2.2 ∧ dotGraph 10 forestExample.2.1 ⟨0, 7⟩ =
    .ok ([.node 0, .node 1, .alt 0, .alt 1],
      [(.node 0, .alt 0), (.node 0, .alt 1), (.node 1, .alt 1), (.alt 1, .node 0), (.alt 1, .node 1)]) := by
  decide

/-- The state after `make_leaf_node` on a new tree. -/
def dotExample : TreeLog Nat Nat Nat × World Nat Nat Nat × List Handle :=
  runOps [.makeNode 0, .makeLeafAlt 0 1 10, .addAlt ⟨0, 0⟩ ⟨0, 0⟩] ([], World.new, [.tree 0])

/-- C37 is false: for a node with one leaf, `to_dot` lists only the leaf: neither the node nor its
arrow is exported. -/
theorem dot_omits_root :
    History dotExample.1 dotExample.2.1 dotExample.2.2 ∧ .node ⟨0, 0⟩ ∈ dotExample.2.2 ∧
    ForestArrow dotExample.2.1 0 (.node 0) (.alt 0) ∧
    ∀ fuel ≥ 2, dotGraph fuel dotExample.2.1 ⟨0, 0⟩ = .ok ([.alt 0], []) := by
  refine ⟨runOps_history _ _ (.newOwner 0 .start (by simp)) (by decide), by decide, ?_, ?_⟩
  · exact .alt (l := [⟨0, 0⟩]) (by decide) (by decide)
  · intro fuel hf
    have h2 : bfsLoop DotNode.cmp 2 (dotStep (dotExample.2.1 0)) [.node 0] [] = .ok [.alt 0] := by decide
    have := bfsLoop_mono (cmp := DotNode.cmp) hf (f := dotStep (dotExample.2.1 0))
      (curr := [.node 0]) (seen := []) (by rw [h2]; simp)
    unfold dotGraph collectNodesAndAlts
    simp only [this, h2]
    decide
end
end Bongo
