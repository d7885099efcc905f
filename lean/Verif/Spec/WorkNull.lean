import Verif.Spec.Earley
import Mathlib.Logic.Basic
/-!
# Specification: elements that can be empty
-/
namespace Bongo
open Classical in
/-- The number of elements of a production that can be empty. -/
noncomputable def Grammar.emptiable {T NT AK AV : Type} (g : Grammar T NT AK AV) (p : Prod T NT AK AV) : Nat :=
  p.elements.countP fun e => decide (g.cfg.Derives [e] [])
end Bongo
