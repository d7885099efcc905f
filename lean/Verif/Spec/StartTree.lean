import Verif.Spec.Start
import Verif.Spec.Tree
/-!
# Specification: trees of the original grammar inside the wrapped grammar
-/
namespace Bongo
variable {T NT AK AV L : Type}

/-- A production of the wrapped grammar. -/
abbrev WProd (T NT AK AV : Type) :=
  Prod (StreamTerminal T) (StartNonTerminal NT) (StartActionKey AK) (StartActionValue AV)

/-- The same position, in the wrapped grammar. -/
def Prod.lifted (p : Prod T NT AK AV) : WProd T NT AK AV := ⟨.nterm p.head, p.index, p.inner.lifted⟩

/-- What a leaf of the wrapped grammar stands for. -/
def StreamTerminal.kindOf (kind : L → T) : StreamTerminal L → StreamTerminal T
  | .endOfStream => .endOfStream
  | .term l => .term (kind l)

mutual
/-- The same tree, over the wrapped grammar. -/
def DTree.lifted : DTree L (Prod T NT AK AV) → DTree (StreamTerminal L) (WProd T NT AK AV)
  | .leaf l => .leaf (.term l)
  | .node p cs => .node p.lifted (liftedAll cs)
def DTree.liftedAll : List (DTree L (Prod T NT AK AV)) →
    List (DTree (StreamTerminal L) (WProd T NT AK AV))
  | [] => []
  | c :: cs => c.lifted :: liftedAll cs
end
end Bongo
