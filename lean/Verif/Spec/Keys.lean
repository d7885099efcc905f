import Verif.Spec.Values
/-!
# Specification: kinds, action keys and values that compare equal

Kinds, action keys and token values need an `Ord`, but nothing makes the user's `cmp` tell them all
apart.
-/
namespace Bongo
variable {T AK V L L' P P' : Type}

/-- The contents given to `make_leaf_alt` and `make_branch_alt` on tree `t` in calls that returned, in
the order of the calls (a log has the most recent call first). -/
def TreeLog.madeOn (t : Nat) : TreeLog T AK V → List ((T × V) ⊕ (AK × List Node))
  | [] => []
  | (op, .ok _) :: log =>
    match op.made with
    | some (t', x) => if t' = t then TreeLog.madeOn t log ++ [x] else TreeLog.madeOn t log
    | none => TreeLog.madeOn t log
  | _ :: log => TreeLog.madeOn t log

/-- Both are leaves, with kinds and values that compare equal, or both are branches, with action keys
that compare equal and the same nodes. -/
def alike [Ord T] [Ord AK] [Ord V] : (T × V) ⊕ (AK × List Node) → (T × V) ⊕ (AK × List Node) → Bool
  | .inl x, .inl y => (compare x.1 y.1 == .eq) && (compare x.2 y.2 == .eq)
  | .inr x, .inr y => (compare x.1 y.1 == .eq) && decide (x.2 = y.2)
  | _, _ => false

/-- What can be read off the alternative is this content. -/
def World.Shows (w : World T AK V) (a : Alternative) : (T × V) ⊕ (AK × List Node) → Prop
  | .inl (k, v) => ∃ l, w.content a = .ok (.leaf l) ∧ w.kind l = .ok k ∧ w.value l = .ok v
  | .inr (ak, ns) => ∃ b, w.content a = .ok (.branch b) ∧ w.action b = .ok ak ∧ w.branchNodes b = .ok ns
end Bongo
