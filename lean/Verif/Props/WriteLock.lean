import Verif.Props.Poison
/-!
# C119: write locks
-/
set_option linter.unusedSectionVars false
namespace Bongo
open Std
variable {T AK V : Type}

theorem lockCheckNodes_snd (t : Nat) (ns : List (Nat × List LockAct)) :
    (lockCheckNodes t ns).2 = true ↔ ∀ n ∈ ns, n.1 = t := by
  induction ns with
  | nil => simp [lockCheckNodes]
  | cons n ns ih =>
    unfold lockCheckNodes
    by_cases h : World.isSame t n.1 = true
    · rw [if_pos h]
      simp only [World.isSame, beq_iff_eq] at h
      simp only [ih, List.mem_cons, forall_eq_or_imp]
      exact ⟨fun hh => ⟨h.symm, hh⟩, fun hh => hh.2⟩
    · rw [if_neg h]
      simp only [World.isSame, beq_iff_eq] at h
      simp only [Bool.false_eq_true, List.mem_cons, forall_eq_or_imp, false_iff]
      exact fun hh => h hh.1.symm

theorem lockCheckNodes_reads (t : Nat) (ns : List (Nat × List LockAct)) (hns : ∀ n ∈ ns, n.2 = []) (u : Nat) :
    LockAct.acqW u ∉ (lockCheckNodes t ns).1 := by
  induction ns with
  | nil => simp [lockCheckNodes]
  | cons n ns ih =>
    have h0 := hns n (by simp)
    have := ih (fun m hm => hns m (by simp [hm]))
    unfold lockCheckNodes
    split <;> simp [h0, lockWith, this]

/-- C119: the calls that take the write lock of a tree are exactly those that are made to change it and do
not combine it with another tree. -/
theorem write_lock_iff (op : TreeOp T AK V) (t : Nat) :
    LockAct.acqW t ∈ op.lockCall.acts ↔ op.target = some t ∧ ¬ op.Mixes := by
  have hadd : ∀ a b : Nat, LockAct.acqW t ∈ lockAdd a b ↔ a = t ∧ a = b := by
    intro a b
    unfold lockAdd lockIsSame lockWith lockWithMut World.isSame
    by_cases h : a = b
    · simp [h, eq_comm]
    · simp [h]
  cases op <;> simp only [TreeOp.lockCall, LockCall.acts, TreeOp.target, TreeOp.Mixes]
  case makeNode u => simp [lockWithMut, eq_comm]
  case makeLeafAlt u k v => simp [lockWithMut, eq_comm]
  case makeBranchAlt u a ns =>
    have h1 := lockCheckNodes_reads u (ns.map fun n => (n.tree, [])) (by simp) t
    have h2 := lockCheckNodes_snd u (ns.map fun n => (n.tree, []))
    simp only [List.mem_map, forall_exists_index, and_imp, forall_apply_eq_imp_iff₂] at h2
    unfold lockBranchAlt
    by_cases hc : (lockCheckNodes u (ns.map fun n => (n.tree, []))).2 = true
    · have := h2.1 hc
      rw [if_pos hc]
      simp only [lockWith, lockWithMut, List.mem_append, List.mem_cons, h1]
      simp
      constructor
      · rintro rfl; exact ⟨rfl, this⟩
      · rintro ⟨rfl, -⟩; rfl
    · rw [if_neg hc]
      simp only [lockWith, List.mem_append, List.mem_cons, h1]
      simp
      intro _
      by_contra hh
      push Not at hh
      exact hc (h2.2 hh)
  case addAlt n a => rw [hadd]; simp
  case addAll n m => rw [hadd]; simp
  all_goals simp [lockWith]

/-- C119: a call changes a tree only if it takes its write lock. -/
theorem changes_under_write_lock [Ord T] [Ord AK] [Ord V] [TransOrd T] [TransOrd AK] [TransOrd V]
    [LawfulEqOrd T] [LawfulEqOrd AK] [LawfulEqOrd V] {log : TreeLog T AK V} {w : World T AK V}
    {held : List Handle} (h : History log w held) {op : TreeOp T AK V} (hop : op.Allowed held) (t : Nat)
    (hc : (op.exec w).1 t ≠ w t) : LockAct.acqW t ∈ op.lockCall.acts := by
  rw [write_lock_iff]
  constructor
  · by_contra hh
    exact hc (other_trees_unchanged w op t hh)
  · intro hm
    exact hc (by rw [(mixing_panics h hop).2 hm])

/-- The hypotheses are met: in the history `forestExample`, a call that changes a tree, a call that would
combine two trees and a call that only reads. -/
example : History forestExample.1 forestExample.2.1 forestExample.2.2 ∧
    (TreeOp.makeLeafAlt 7 5 6 : TreeOp Nat Nat Nat).Allowed forestExample.2.2 ∧
    ((TreeOp.makeLeafAlt 7 5 6 : TreeOp Nat Nat Nat).exec forestExample.2.1).1 7 ≠ forestExample.2.1 7 ∧
    (TreeOp.addAll ⟨0, 7⟩ ⟨0, 8⟩ : TreeOp Nat Nat Nat).Mixes ∧
    (TreeOp.alts ⟨0, 7⟩ : TreeOp Nat Nat Nat).target = none :=
  ⟨forestExample_history, by decide, by decide, by decide, rfl⟩

/-- C119: `is_same` only reads, and reads both trees; nobody can change either while it compares them
(the guard of the first is held until that of the second has been given back). -/
theorem isSame_locks (t t' : Nat) :
    (∀ x, LockAct.acqW x ∉ (LockCall.isSame t t').acts) ∧
    (∀ x, LockAct.acqR x ∈ (LockCall.isSame t t').acts ↔ x = t ∨ x = t') ∧
    (LockCall.isSame t t').acts.head? = some (.acqR t) ∧
    (LockCall.isSame t t').acts.getLast? = some (.relR t) := by
  simp [LockCall.acts, lockIsSame, lockWith]

/-- The trees a call looks at before it changes anything: those of the objects it was given; of the nodes
of a branch up to the first one of another tree, at which the call panics. -/
def TreeOp.LooksAt : TreeOp T AK V → Nat → Prop
  | .makeNode _, _ => False
  | .makeLeafAlt _ _ _, _ => False
  | .makeBranchAlt t _ ns, u => u = t ∨ ∃ pre n post, ns = pre ++ n :: post ∧ (∀ m ∈ pre, m.tree = t) ∧ u = n.tree
  | .addAlt n a, u => u = n.tree ∨ u = a.tree
  | .addAll n m, u => u = n.tree ∨ u = m.tree
  | .alts n, u => u = n.tree
  | .content a, u => u = a.tree
  | .kind l, u => u = l.tree
  | .value l, u => u = l.tree
  | .action b, u => u = b.tree
  | .nodes b, u => u = b.tree

theorem lockCheckNodes_acqR (t u : Nat) (ns : List Node) :
    LockAct.acqR u ∈ (lockCheckNodes t (ns.map fun n => (n.tree, []))).1 ↔
      ∃ pre n post, ns = pre ++ n :: post ∧ (∀ m ∈ pre, m.tree = t) ∧ u = n.tree := by
  induction ns with
  | nil => simp [lockCheckNodes]
  | cons n ns ih =>
    rw [List.map_cons]
    unfold lockCheckNodes
    by_cases h : t = n.tree
    · have h1 : World.isSame t n.tree = true := by simp [World.isSame, h]
      simp only [h1, if_true, lockWith, List.nil_append, List.mem_append, List.mem_cons, ih]
      constructor
      · rintro (h2 | ⟨pre, m, post, rfl, h2, h3⟩)
        · refine ⟨[], n, ns, rfl, by simp, ?_⟩
          simpa using h2
        · refine ⟨n :: pre, m, post, rfl, ?_, h3⟩
          intro x hx
          rcases List.mem_cons.1 hx with rfl | hx
          · exact h.symm
          · exact h2 x hx
      · rintro ⟨pre, m, post, h2, h3, h4⟩
        cases pre with
        | nil => cases h2; left; simp [h4]
        | cons x pre =>
          cases h2
          exact Or.inr ⟨pre, m, post, rfl, fun y hy => h3 y (List.mem_cons_of_mem _ hy), h4⟩
    · have h1 : ¬ World.isSame t n.tree = true := by simp [World.isSame, h]
      simp only [if_neg h1, lockWith, List.nil_append]
      constructor
      · intro h2
        refine ⟨[], n, ns, rfl, by simp, ?_⟩
        simpa using h2
      · rintro ⟨pre, m, post, h2, h3, h4⟩
        cases pre with
        | nil => cases h2; simp [h4]
        | cons x pre =>
          cases h2
          exact absurd (h3 n (List.mem_cons_self ..)).symm h

/-- C119: the calls that take a read lock of a tree are exactly those that look at an object of it. -/
theorem read_lock_iff (op : TreeOp T AK V) (t : Nat) :
    LockAct.acqR t ∈ op.lockCall.acts ↔ op.LooksAt t := by
  have hadd : ∀ a b : Nat, LockAct.acqR t ∈ lockAdd a b ↔ t = a ∨ t = b := by
    intro a b
    unfold lockAdd lockIsSame lockWith lockWithMut
    split <;> simp
  cases op <;> simp only [TreeOp.lockCall, LockCall.acts, TreeOp.LooksAt]
  case makeBranchAlt u a ns =>
    have h1 := lockCheckNodes_acqR u t ns
    unfold lockBranchAlt
    split <;> simp [lockWith, lockWithMut, h1]
  case addAlt n a => exact hadd _ _
  case addAll n m => exact hadd _ _
  all_goals simp [lockWith, lockWithMut]

/-- Calls on trees that mix two trees look at both. -/
example : (TreeOp.addAll ⟨0, 7⟩ ⟨0, 8⟩ : TreeOp Nat Nat Nat).LooksAt 8 ∧
    ¬ (TreeOp.makeBranchAlt 7 0 [⟨0, 7⟩, ⟨0, 8⟩, ⟨0, 9⟩] : TreeOp Nat Nat Nat).LooksAt 9 :=
  ⟨Or.inr rfl, fun h => by
    rw [← read_lock_iff] at h
    revert h
    decide⟩

/-- The lock operations of producing the nodes of an iterator and comparing each with the tree: whatever the
iterator does to produce a node, then a read lock of the tree of the node. -/
def iterLocks (nodes : List (Nat × List LockAct)) : List LockAct :=
  nodes.flatMap fun x => x.2 ++ [.acqR x.1, .relR x.1]

theorem lockCheckNodes_all (t : Nat) (ns : List (Nat × List LockAct)) (h : ∀ n ∈ ns, n.1 = t) :
    lockCheckNodes t ns = (iterLocks ns, true) := by
  induction ns with
  | nil => rfl
  | cons n ns ih =>
    have h1 : World.isSame t n.1 = true := by simp [World.isSame, h n (by simp)]
    obtain ⟨n, pre⟩ := n
    unfold lockCheckNodes
    rw [if_pos h1, ih (fun m hm => h m (by simp [hm]))]
    simp [iterLocks, lockWith]

theorem lockCheckNodes_stop (t : Nat) (good : List (Nat × List LockAct)) (bad : Nat × List LockAct)
    (rest : List (Nat × List LockAct)) (h : ∀ n ∈ good, n.1 = t) (hb : bad.1 ≠ t) :
    lockCheckNodes t (good ++ bad :: rest) = (iterLocks (good ++ [bad]), false) := by
  induction good with
  | nil =>
    obtain ⟨n, pre⟩ := bad
    have h1 : ¬ World.isSame t n = true := by simpa [World.isSame] using fun e => hb e.symm
    simp only [List.nil_append]
    unfold lockCheckNodes
    rw [if_neg h1]
    simp [iterLocks, lockWith]
  | cons n ns ih =>
    have h1 : World.isSame t n.1 = true := by simp [World.isSame, h n (by simp)]
    obtain ⟨n, pre⟩ := n
    simp only [List.cons_append]
    unfold lockCheckNodes
    rw [if_pos h1, ih (fun m hm => h m (by simp [hm]))]
    simp [iterLocks, lockWith]

/-- C119: `make_branch_alt` advances the iterator it is given while it holds a read lock of its tree, one
node at a time, and looks at the tree of each node; if all nodes are of its tree it gives the read lock back and
takes the write lock. -/
theorem branch_iterator_locks (t : Nat) (nodes : List (Nat × List LockAct)) (h : ∀ n ∈ nodes, n.1 = t) :
    (LockCall.branchAlt t nodes).acts = [.acqR t] ++ iterLocks nodes ++ [.relR t, .acqW t, .relW t] := by
  simp [LockCall.acts, lockBranchAlt, lockCheckNodes_all t nodes h, lockWith, lockWithMut]

/-- C119: at the first node of another tree it stops: the iterator is not advanced further, and no write lock
is taken. -/
theorem branch_iterator_stops (t : Nat) (good : List (Nat × List LockAct)) (bad : Nat × List LockAct)
    (rest : List (Nat × List LockAct)) (h : ∀ n ∈ good, n.1 = t) (hb : bad.1 ≠ t) :
    (LockCall.branchAlt t (good ++ bad :: rest)).acts =
      [.acqR t] ++ iterLocks good ++ (bad.2 ++ [.acqR bad.1, .relR bad.1]) ++ [.relR t] := by
  simp [LockCall.acts, lockBranchAlt, lockCheckNodes_stop t good bad rest h hb, lockWith, iterLocks]

/-- The hypotheses are met: an iterator that makes a node of tree 7 by a call on it, then one of tree 8, then
another one. -/
example : (LockCall.branchAlt 7 [(7, (LockCall.read 5).acts), (8, (LockCall.read 6).acts), (7, [])]).acts =
    [.acqR 7, .acqR 5, .relR 5, .acqR 7, .relR 7, .acqR 6, .relR 6, .acqR 8, .relR 8, .relR 7] :=
  branch_iterator_stops 7 [(7, (LockCall.read 5).acts)] (8, (LockCall.read 6).acts) [(7, [])]
    (by decide) (by decide)
end Bongo
