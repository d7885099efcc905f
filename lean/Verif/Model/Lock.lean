import Verif.Spec.Forest
/-!
# The locking of src/parsers/tree.rs

Two models of threads sharing trees.

1. `LockState`/`LockStep`: which lock operations a call performs, in which order, and when they are
   granted.  `std::sync::RwLock` does not promise a policy; `policy` says when a read request is
   granted although it could be (no writer holds the lock).
2. `SharedState`/`SharedStep`: what the calls do to the memory when their critical sections are
   interleaved.
-/
namespace Bongo
set_option linter.unusedSectionVars false

/-! ## Lock operations -/

/-- The lock operations: `RwLock::read`, dropping its guard, `RwLock::write`, dropping its guard
(src/parsers/tree.rs:253-267). -/
inductive LockAct where
  | acqR (t : Nat)
  | relR (t : Nat)
  | acqW (t : Nat)
  | relW (t : Nat)
  deriving DecidableEq, Repr

/-- src/parsers/tree.rs:253-259 `TreeHandle::with` around a closure that performs `body`. -/
def lockWith (t : Nat) (body : List LockAct) : List LockAct := .acqR t :: body ++ [.relR t]

/-- src/parsers/tree.rs:261-267 `TreeHandle::with_mut`; no closure given to it takes a lock. -/
def lockWithMut (t : Nat) : List LockAct := [.acqW t, .relW t]

/-- src/parsers/tree.rs:347-351 `TreeHandle::is_same`. -/
def lockIsSame (t t' : Nat) : List LockAct := lockWith t (lockWith t' [])

/-- src/parsers/tree.rs:331-339, the read section of `make_branch_alt` for an iterator each of whose
items is a node of the tree given, made by performing the lock operations given.  A failing
assertion unwinds, dropping the guards. -/
def lockCheckNodes (t : Nat) : List (Nat × List LockAct) → List LockAct × Bool
  | [] => ([], true)
  | (n, pre) :: ns =>
    if World.isSame t n then (pre ++ lockWith n [] ++ (lockCheckNodes t ns).1, (lockCheckNodes t ns).2)
    else (pre ++ lockWith n [], false)

/-- The calls, as far as locking is concerned.  A branch call has an iterator; each item is a node,
with the calls (already turned into lock operations) the iterator makes to produce it. -/
inductive LockCall where
  /-- `make_node`, `make_leaf_alt`. -/
  | write (t : Nat)
  /-- `alts`, `content`, `kind`, `value`, `action`, `nodes`. -/
  | read (t : Nat)
  /-- `is_same`. -/
  | isSame (t t' : Nat)
  /-- `add_alt`, `add_all` of objects of the two trees. -/
  | add (t t' : Nat)
  /-- `make_leaf_node`. -/
  | leafNode (t : Nat)
  /-- `make_branch_alt`. -/
  | branchAlt (t : Nat) (nodes : List (Nat × List LockAct))
  /-- `make_branch_node`. -/
  | branchNode (t : Nat) (nodes : List (Nat × List LockAct))
  /-- `to_dot`: some number of reads. -/
  | dot (t : Nat) (k : Nat)
  deriving Repr

/-- src/parsers/tree.rs:379-385 and 402-411. -/
def lockAdd (t t' : Nat) : List LockAct :=
  lockIsSame t t' ++ (if World.isSame t t' then lockWithMut t else [])

/-- src/parsers/tree.rs:325-345 `make_branch_alt`. -/
def lockBranchAlt (t : Nat) (nodes : List (Nat × List LockAct)) : List LockAct :=
  lockWith t (lockCheckNodes t nodes).1 ++ (if (lockCheckNodes t nodes).2 then lockWithMut t else [])

/-- The lock operations of a call. -/
def LockCall.acts : LockCall → List LockAct
  | .write t => lockWithMut t
  | .read t => lockWith t []
  | .isSame t t' => lockIsSame t t'
  | .add t t' => lockAdd t t'
  | .leafNode t => lockWithMut t ++ lockWithMut t ++ lockAdd t t
  | .branchAlt t ns => lockBranchAlt t ns
  | .branchNode t ns =>
    lockWithMut t ++ lockBranchAlt t ns ++ (if (lockCheckNodes t ns).2 then lockAdd t t else [])
  | .dot t k => (List.replicate k (lockWith t [])).flatten

/-- A thread: the lock operations it has still to do, the read guards it has (latest first), the
write guard, and whether it is waiting inside `write`. -/
structure LockThread where
  todo : List LockAct
  reads : List Nat
  write : Option Nat
  queued : Bool
  deriving DecidableEq, Repr

abbrev LockState := List LockThread

/-- Some thread has a read guard of `t`. -/
def LockState.ReadHeld (s : LockState) (t : Nat) : Prop := ∃ th ∈ s, t ∈ th.reads

/-- Some thread has the write guard of `t`. -/
def LockState.WriteHeld (s : LockState) (t : Nat) : Prop := ∃ th ∈ s, th.write = some t

/-- Some thread is waiting inside `write` on `t`. -/
def LockState.WriterWaits (s : LockState) (t : Nat) : Prop :=
  ∃ th ∈ s, th.queued = true ∧ th.todo.head? = some (.acqW t)

/-- One step of one thread.  `policy` is the policy of the lock. -/
inductive ThreadStep (policy : LockState → Nat → Prop) (s : LockState) :
    LockThread → LockThread → Prop where
  | read {t p rs w q} : ¬ s.WriteHeld t → policy s t →
      ThreadStep policy s ⟨.acqR t :: p, rs, w, q⟩ ⟨p, t :: rs, w, q⟩
  | dropRead {t p rs w q} : t ∈ rs →
      ThreadStep policy s ⟨.relR t :: p, rs, w, q⟩ ⟨p, rs.erase t, w, q⟩
  | queue {t p rs w} : ThreadStep policy s ⟨.acqW t :: p, rs, w, false⟩ ⟨.acqW t :: p, rs, w, true⟩
  | write {t p rs w} : ¬ s.WriteHeld t → ¬ s.ReadHeld t →
      ThreadStep policy s ⟨.acqW t :: p, rs, w, true⟩ ⟨p, rs, some t, false⟩
  | dropWrite {t p rs q} : ThreadStep policy s ⟨.relW t :: p, rs, some t, q⟩ ⟨p, rs, none, q⟩

/-- One step of the system: some thread steps. -/
inductive LockStep (policy : LockState → Nat → Prop) : LockState → LockState → Prop where
  | mk (l r : LockState) {th th' : LockThread} : ThreadStep policy (l ++ th :: r) th th' →
      LockStep policy (l ++ th :: r) (l ++ th' :: r)

/-- Threads about to perform the given calls. -/
def lockInit (progs : List (List LockCall)) : LockState :=
  progs.map (fun cs => ⟨(cs.map LockCall.acts).flatten, [], none, false⟩)

/-- Everybody has finished. -/
def LockState.Done (s : LockState) : Prop := ∀ th ∈ s, th.todo = []

/-- A policy that grants every read request no writer's guard stands against. -/
def readersFirst : LockState → Nat → Prop := fun _ _ => True

/-- A policy that makes readers wait while a writer waits. -/
def writersFirst : LockState → Nat → Prop := fun s t => ¬ s.WriterWaits t

/-! ## Interleaved critical sections -/

/-- Where a thread is in its call. -/
inductive Phase (T AK V : Type) where
  | called (op : TreeOp T AK V)
  | checked (op : TreeOp T AK V)

namespace TreeOp
variable {T AK V : Type}

/-- What the first, reading section of a call finds, for the calls that have one before the section
that does the work: the assertions at src/parsers/tree.rs:332-335, 380 and 403. -/
def check : TreeOp T AK V → Option Bool
  | .makeBranchAlt t _ ns => some (ns.all (fun n => World.isSame t n.tree))
  | .addAlt n a => some (World.isSame n.tree a.tree)
  | .addAll n m => some (World.isSame n.tree m.tree)
  | _ => none

/-- What the last section of a call does, src/parsers/tree.rs:276-284, 304-316, 382-384, 405-410
(writing) and 388-390, 451-460, 487-499, 533-545 (reading). -/
def commit [Ord T] [Ord AK] [Ord V] (w : World T AK V) :
    TreeOp T AK V → World T AK V × Res (TreeOut T AK V)
  | .makeBranchAlt t a ns =>
    let r := w.makeAlt t (.branch a (ns.map (·.index)))
    (r.1, .ok (.alt r.2))
  | .addAlt n a =>
    let r := w.update n.tree ((w n.tree).addNodeAlt n.index a.index)
    (r.1, r.2.mapOut .changed)
  | .addAll n m =>
    let r := w.update n.tree ((w n.tree).addAll n.index m.index)
    (r.1, r.2.mapOut .changed)
  | op => op.exec w
end TreeOp

/-- Threads sharing trees. -/
structure SharedState (T AK V : Type) where
  world : World T AK V
  /-- The handles any thread has obtained; threads may pass them on. -/
  held : List Handle
  /-- The finished calls, most recent first, with the thread. -/
  log : List (Nat × TreeOp T AK V × Res (TreeOut T AK V))
  /-- What each thread is doing. -/
  cur : Nat → Option (Phase T AK V)

/-- Nothing has happened. -/
def SharedState.start {T AK V : Type} : SharedState T AK V := ⟨World.new, [], [], fun _ => none⟩

/-- Thread `i` changes its phase. -/
def setPhase {T AK V : Type} (cur : Nat → Option (Phase T AK V)) (i : Nat)
    (p : Option (Phase T AK V)) : Nat → Option (Phase T AK V) := fun j => if j = i then p else cur j

/-- One step of the system: a thread starts a call, or performs one critical section of it. -/
inductive SharedStep {T AK V : Type} [Ord T] [Ord AK] [Ord V] :
    SharedState T AK V → SharedState T AK V → Prop where
  | newOwner {s : SharedState T AK V} (t : Nat) : (∀ h ∈ s.held, h.owner ≠ t) →
      SharedStep s { s with held := .tree t :: s.held }
  | call {s : SharedState T AK V} (i : Nat) (op : TreeOp T AK V) : s.cur i = none →
      op.Allowed s.held → SharedStep s { s with cur := setPhase s.cur i (some (.called op)) }
  | checkPass {s : SharedState T AK V} (i : Nat) (op : TreeOp T AK V) :
      s.cur i = some (.called op) → op.check = some true →
      SharedStep s { s with cur := setPhase s.cur i (some (.checked op)) }
  | checkFail {s : SharedState T AK V} (i : Nat) (op : TreeOp T AK V) :
      s.cur i = some (.called op) → op.check = some false →
      SharedStep s { s with cur := setPhase s.cur i none, log := (i, op, .panic .otherTree) :: s.log }
  | commit {s : SharedState T AK V} (i : Nat) (op : TreeOp T AK V) :
      s.cur i = some (.checked op) ∨ (s.cur i = some (.called op) ∧ op.check = none) →
      SharedStep s { world := (op.commit s.world).1, cur := setPhase s.cur i none,
                     held := TreeOut.gives (op.commit s.world).2 ++ s.held,
                     log := (i, op, (op.commit s.world).2) :: s.log }
end Bongo
