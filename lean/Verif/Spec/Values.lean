import Verif.Spec.Forest
import Verif.Spec.Earley
/-!
# Specification: values that compare equal

The values of the tokens need an `Ord`, but nothing makes the user's `cmp` tell different values apart:
values that carry a position in the source text may well be compared by their text only.
-/
namespace Bongo
variable {T AK V : Type}

/-- The tokens given to `make_leaf_alt` on tree `t`, in the order of the calls (a log has the most recent
call first). -/
def TreeLog.leavesOn (t : Nat) : TreeLog T AK V → List (Token T V)
  | [] => []
  | (.makeLeafAlt t' k v, _) :: log =>
    if t' = t then TreeLog.leavesOn t log ++ [⟨k, v⟩] else TreeLog.leavesOn t log
  | _ :: log => TreeLog.leavesOn t log

/-- The tokens have the same kind, and their values compare equal. -/
def Token.like [DecidableEq T] [Ord V] (a b : Token T V) : Bool :=
  decide (a.kind = b.kind) && (compare a.value b.value == .eq)

/-- The first of the tokens in the list that is like `tok` (`tok` itself if there is none). -/
def firstLike [DecidableEq T] [Ord V] (given : List (Token T V)) (tok : Token T V) : Token T V :=
  (given.find? (·.like tok)).getD tok
end Bongo
