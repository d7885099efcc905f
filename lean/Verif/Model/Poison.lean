import Verif.Model.Lock
import Verif.Model.EarleyProg
/-!
# Panics of the user's functions inside calls on trees

src/parsers/tree.rs runs code of the user while it has the lock of a tree: `Ord` of `T`, `AK` and `V`
(and `Drop` of a content that is there already) in `make_alt`, under the write lock; the iterator
given to `make_branch_alt` and `Clone` of `T` and `AK` in `kind` and `action`, under the read lock.
The rest of the model assumes that none of these panics.  Here they may.  `std::sync::RwLock`: a
panic of a thread that has the write lock poisons the lock; `read` and `write` of a poisoned lock
return an error, and the `unwrap`s at src/parsers/tree.rs:257, 265 panic.
-/
namespace Bongo
set_option linter.unusedSectionVars false

/-- The functions of the user that are called with a lock held: src/parsers/tree.rs:94-100 (compare), 332
(iterator), 502 and 548 (clone). -/
inductive UserFn where
  | compare
  | iterator
  | clone
  deriving DecidableEq, Repr

/-- How a call ends: as in `Verif.Model.Tree`, with the panic of an `unwrap` at
src/parsers/tree.rs:257, 265, or with a panic of a function of the user. -/
inductive Outcome (α : Type) where
  | normal (r : Res α)
  | poisoned
  | user (f : UserFn)
  deriving DecidableEq, Repr

/-- The memory, and for each tree whether its lock is poisoned. -/
structure PWorld (T AK V : Type) where
  world : World T AK V
  poisoned : Nat → Bool

/-- No tree has been used. -/
def PWorld.new {T AK V : Type} : PWorld T AK V := ⟨World.new, fun _ => false⟩

/-- The lock a lock operation waits for, src/parsers/tree.rs:257, 265. -/
def LockAct.acquires : LockAct → Option Nat
  | .acqR t => some t
  | .acqW t => some t
  | .relR _ => none
  | .relW _ => none

namespace TreeOp
variable {T AK V : Type}

/-- A call, as far as locking is concerned (src/parsers/tree.rs:276-561); the nodes of a branch are
ready. -/
def lockCall : TreeOp T AK V → LockCall
  | .makeNode t => .write t
  | .makeLeafAlt t _ _ => .write t
  | .makeBranchAlt t _ ns => .branchAlt t (ns.map fun n => (n.tree, []))
  | .addAlt n a => .add n.tree a.tree
  | .addAll n m => .add n.tree m.tree
  | .alts n => .read n.tree
  | .content a => .read a.tree
  | .kind l => .read l.tree
  | .value l => .read l.tree
  | .action b => .read b.tree
  | .nodes b => .read b.tree

/-- The trees whose locks the call takes, in this order. -/
def locks (op : TreeOp T AK V) : List Nat := op.lockCall.acts.filterMap LockAct.acquires

/-- The content that a call adds to a tree under the write lock, src/parsers/tree.rs:304-316, if it gets
that far (`make_branch_alt` checks its nodes before). -/
def adds : TreeOp T AK V → Option (Nat × NodeContent T AK V)
  | .makeLeafAlt t k v => some (t, .leaf k v)
  | .makeBranchAlt t a ns =>
    if ns.all (fun n => World.isSame t n.tree) then some (t, .branch a (ns.map (·.index))) else none
  | _ => none

/-- The function of the user that runs under the read lock: src/parsers/tree.rs:332, 502, 548. -/
def readUser : TreeOp T AK V → Option UserFn
  | .makeBranchAlt _ _ _ => some .iterator
  | .kind _ => some .clone
  | .action _ => some .clone
  | _ => none
end TreeOp

section
variable {T AK V : Type} [Ord T] [Ord AK] [Ord V]

/-- What `AltSet::add` (src/parsers/tree.rs:93-104) leaves behind when a comparison panics: in the `get`
at 94 nothing has happened; in the `insert` at 100 the content has been pushed (99).  (`BTreeMap` is
changed by `insert` only after the last comparison.) -/
inductive AddBroken (s : AltSet T AK V) (c : NodeContent T AK V) : AltSet T AK V → Prop where
  | lookup : AddBroken s c s
  | insert : BMap.get? NodeContent.cmp s.valueToId c = none →
      AddBroken s c ⟨s.valueToId, s.idToValue ++ [c]⟩

/-- A call in which functions of the user may panic (src/parsers/tree.rs:253-561). -/
inductive PStep (pw : PWorld T AK V) (op : TreeOp T AK V) :
    PWorld T AK V → Outcome (TreeOut T AK V) → Prop where
  /-- A lock it takes is poisoned. -/
  | poisoned {t : Nat} : t ∈ op.locks → pw.poisoned t = true → PStep pw op pw .poisoned
  /-- No function of the user panics. -/
  | normal : (∀ t ∈ op.locks, pw.poisoned t = false) →
      PStep pw op ⟨(op.exec pw.world).1, pw.poisoned⟩ (.normal (op.exec pw.world).2)
  /-- One panics while the first lock, a read lock, is held. -/
  | read {t : Nat} {f : UserFn} : op.locks.head? = some t → pw.poisoned t = false →
      op.readUser = some f → PStep pw op pw (.user f)
  /-- A comparison panics while the write lock is held. -/
  | write {t : Nat} {c : NodeContent T AK V} {s : AltSet T AK V} :
      (∀ t ∈ op.locks, pw.poisoned t = false) → op.adds = some (t, c) →
      AddBroken (pw.world t).alternatives c s →
      PStep pw op ⟨pw.world.set t { pw.world t with alternatives := s },
        fun t' => if t' = t then true else pw.poisoned t'⟩ (.user .compare)

/-- The handles an outcome gives to the program. -/
def Outcome.gives : Outcome (TreeOut T AK V) → List Handle
  | .normal r => TreeOut.gives r
  | _ => []

/-- As `History`, with calls in which functions of the user may panic.  (The program goes on after a
panic: other threads do, and so does the same thread if it catches it.) -/
inductive PHistory : List (TreeOp T AK V × Outcome (TreeOut T AK V)) → PWorld T AK V → List Handle →
    Prop where
  | start : PHistory [] PWorld.new []
  | newOwner {log pw held} (t : Nat) : PHistory log pw held → (∀ h ∈ held, h.owner ≠ t) →
      PHistory log pw (.tree t :: held)
  | call {log pw pw' held o} (op : TreeOp T AK V) : PHistory log pw held → op.Allowed held →
      PStep pw op pw' o → PHistory ((op, o) :: log) pw' (o.gives ++ held)

/-- Running code that calls tree operations; a call that does not return ends it, as a panic does
(src/parsers/earley.rs:60-88 for `parseProg`). -/
inductive PRun {α : Type} : TreeProg T AK V α → PWorld T AK V → PWorld T AK V → Outcome α → Prop where
  | ret {a pw} : PRun (.ret a) pw pw (.normal (.ok a))
  | panic {p pw} : PRun (.panic p) pw pw (.normal (.panic p))
  | oof {pw} : PRun .oof pw pw (.normal .oof)
  | call {op k pw pw' pw'' o r} : PStep pw op pw' (.normal (.ok o)) → PRun (k o) pw' pw'' r →
      PRun (.call op k) pw pw'' r
  | callPanics {op k pw pw' p} : PStep pw op pw' (.normal (.panic p)) →
      PRun (.call op k) pw pw' (.normal (.panic p))
  | callPoisoned {op k pw pw'} : PStep pw op pw' .poisoned → PRun (.call op k) pw pw' .poisoned
  | callUser {op k pw pw' f} : PStep pw op pw' (.user f) → PRun (.call op k) pw pw' (.user f)
end
end Bongo
