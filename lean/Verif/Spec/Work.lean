import Verif.Model.Tree
/-!
# The bounds on what a parse costs

Not taken from /repo: these are the numbers in terms of which C102 is stated.
-/
namespace Bongo
variable {T AK V : Type}

/-- The constant for the tree calls of a parse with a grammar of `p` productions, none of which has more
than `e` elements. -/
def workFactor (p e : Nat) : Nat :=
  p * (e + 4) + (p + p * e * (2 * p + 1) + 1) * (3 * p * p + 2 * p * p * e)

/-- The constant for the passes of one closing loop. -/
def passFactor (p e : Nat) : Nat := p + p * e * (2 * p + 1) + 1

/-- The constant for the passes of one closing loop if the input is divided in one way only. -/
def passFactorOnce (p e : Nat) : Nat := p + p * e * (p + 1) + 1

/-- The constant for the tree calls of a parse then. -/
def workFactorOnce (p e : Nat) : Nat := p * (e + 4) + passFactorOnce p e * (3 * p * p + 2 * p * p * e)

/-- The number of nodes and alternatives that a tree has. -/
def Inner.size (i : Inner T AK V) : Nat := i.nodes.length + i.alternatives.idToValue.length
end Bongo
