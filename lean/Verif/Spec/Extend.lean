import Verif.Model.Earley
import Verif.Spec.Cfg
/-!
# Specification: adding productions and rules to a grammar, outcomes of `parse` in a row
-/
namespace Bongo
variable {T NT AK AV V : Type}

/-- The second grammar has the rules and productions of the first, and possibly more: each rule of the first
is there with further productions before, between or after its own. -/
def Grammar.ExtendedTo (g g' : Grammar T NT AK AV) : Prop :=
  g'.startSymbol = g.startSymbol ∧
    ∀ r ∈ g.rules, ∃ r' ∈ g'.rules, r'.head = r.head ∧ r.prods.Sublist r'.prods

/-- The outcomes of `parse` in a row: the input cannot be continued to a sentence; it can, but is none; it is
one; the parser gives up as a production can be at two positions. -/
def parseRank : Res (World T AK V × Option Node) → Option Nat
  | .panic .emptyState => some 0
  | .ok (_, none) => some 1
  | .ok (_, some _) => some 2
  | .panic .lenMismatch => some 3
  | _ => none

/-- Every rule generates some text. -/
def Grammar.Productive (g : Grammar T NT AK AV) : Prop :=
  ∀ r ∈ g.rules, ∃ u, g.cfg.Generates r.head u
end Bongo
