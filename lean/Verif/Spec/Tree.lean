import Verif.Model.Grammar
/-!
# Specification: derivation trees

A derivation tree has terminals at its leaves and, at an inner node, the production that was
applied there (as a reference into the grammar, so two equal productions in different places
are different).
-/
namespace Bongo

inductive DTree (L P : Type) where
  | leaf (t : L)
  | node (p : P) (children : List (DTree L P))

namespace DTree
variable {L P : Type}
mutual
/-- The leaves of a tree, from left to right. -/
def yield : DTree L P → List L
  | .leaf t => [t]
  | .node _ cs => yields cs
def yields : List (DTree L P) → List L
  | [] => []
  | c :: cs => c.yield ++ yields cs
end

mutual
/-- The same tree with other leaves. -/
def mapLeaves {M : Type} (f : L → M) : DTree L P → DTree M P
  | .leaf l => .leaf (f l)
  | .node p cs => .node p (mapLeavesAll f cs)
def mapLeavesAll {M : Type} (f : L → M) : List (DTree L P) → List (DTree M P)
  | [] => []
  | c :: cs => c.mapLeaves f :: mapLeavesAll f cs
end
end DTree

section
variable {T NT AK AV L : Type} (g : Grammar T NT AK AV) (kind : L → T)
mutual
/-- `t` is a derivation tree for the element `e`; a leaf `l` stands for the terminal `kind l`. -/
inductive IsTree : Elem T NT → DTree L (Prod T NT AK AV) → Prop where
  | leaf (l : L) : IsTree (.term (kind l)) (.leaf l)
  | node (p : Prod T NT AK AV) (cs : List (DTree L (Prod T NT AK AV))) :
      p ∈ g.prods → IsForest p.elements cs → IsTree (.nonterm p.head) (.node p cs)
/-- The trees `cs` are derivation trees for the elements `es`, in order. -/
inductive IsForest : List (Elem T NT) → List (DTree L (Prod T NT AK AV)) → Prop where
  | nil : IsForest [] []
  | cons {e es c cs} : IsTree e c → IsForest es cs → IsForest (e :: es) (c :: cs)
end
end
end Bongo
