import Verif.Spec.Start
import Verif.Model.Nullable
/-!
# Specification: a null tree inside the wrapped grammar
-/
namespace Bongo
variable {NT AK : Type}

/-- The key of an original production inside the wrapped grammar. -/
def ProdKey.lifted (k : ProdKey NT AK) : ProdKey (StartNonTerminal NT) (StartActionKey AK) :=
  ⟨.nterm k.head, .actionKey k.actionKey⟩

mutual
/-- A null tree with every production key replaced by that of the wrapped production. -/
def TreeNode.lifted : TreeNode (ProdKey NT AK) → TreeNode (ProdKey (StartNonTerminal NT) (StartActionKey AK))
  | .mk k ps => .mk k.lifted (TreeNode.liftedAll ps)
/-- The same for every parameter. -/
def TreeNode.liftedAll : List (Name × TreeNode (ProdKey NT AK)) →
    List (Name × TreeNode (ProdKey (StartNonTerminal NT) (StartActionKey AK)))
  | [] => []
  | (n, t) :: ps => (n, t.lifted) :: TreeNode.liftedAll ps
end
end Bongo
