import Verif.Model.Orders
/-!
# Specification: lawful orders, and the order of trees
-/
namespace Bongo

/-- What Rust asks of `Ord` (and what `BTreeMap` relies on): a total order, equal exactly on equal
values. -/
structure LawfulOrder {α : Type} (cmp : α → α → Ordering) : Prop where
  /-- Equal exactly on equal values. -/
  eq_iff : ∀ a b, cmp a b = .eq ↔ a = b
  /-- Antisymmetric: seen from the other side, the answer is the opposite. -/
  gt_iff : ∀ a b, cmp a b = .gt ↔ cmp b a = .lt
  /-- Transitive. -/
  lt_trans : ∀ a b c, cmp a b = .lt → cmp b c = .lt → cmp a c = .lt

/-- One tree comes before another: nodes come before leaves; leaves are ordered by value and nodes by
action, and nodes with the same action by the first parameter in which they differ, by its name and then
by its value, a node without further parameters first. -/
inductive TreeLt {L V : Type} (lL : L → L → Prop) (lV : V → V → Prop) (lN : Name → Name → Prop) :
    TreeValue L V → TreeValue L V → Prop
  | node_leaf a ps v : TreeLt lL lV lN (.node a ps) (.leaf v)
  | leaf v w : lV v w → TreeLt lL lV lN (.leaf v) (.leaf w)
  | action a b ps qs : lL a b → TreeLt lL lV lN (.node a ps) (.node b qs)
  | name a c n m t u ps qs : lN n m →
      TreeLt lL lV lN (.node a (c ++ (n, t) :: ps)) (.node a (c ++ (m, u) :: qs))
  | value a c n t u ps qs : TreeLt lL lV lN t u →
      TreeLt lL lV lN (.node a (c ++ (n, t) :: ps)) (.node a (c ++ (n, u) :: qs))
  | more a c e ps : TreeLt lL lV lN (.node a c) (.node a (c ++ e :: ps))

mutual
/-- A tree without leaves as a tree with leaves that cannot exist. -/
def TreeNode.toValue {L : Type} : TreeNode L → TreeValue L Empty
  | .mk a ps => .node a (TreeNode.toParams ps)
/-- Its parameters. -/
def TreeNode.toParams {L : Type} : List (Name × TreeNode L) → List (Name × TreeValue L Empty)
  | [] => []
  | e :: ps => TreeNode.toEntry e :: TreeNode.toParams ps
/-- One of them. -/
def TreeNode.toEntry {L : Type} : Name × TreeNode L → Name × TreeValue L Empty
  | (n, t) => (n, TreeNode.toValue t)
end
end Bongo
