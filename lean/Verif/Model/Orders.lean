import Verif.Model.Utils
import Verif.Model.Grammar
import Verif.Model.Start
import Verif.Model.Tree
import Verif.Model.Earley
/-!
# Derived orders

What `#[derive(PartialEq, Ord)]` (and `derivative`'s) generate for the crate's public types that are not
compared anywhere inside the crate: variants in the order of their declaration, fields in the order of
their declaration.  (`PartialOrd` is `Some(cmp)` throughout.)  The orders the crate uses itself are next
to their types: `Elem.cmp`, `ProdElement.cmp`, `StreamTerminal.cmp`, `StartNonTerminal.cmp`,
`NNActionKey.cmp`, `NodeContent.cmp`.
-/
namespace Bongo
set_option linter.unusedSectionVars false

/-- src/grammar/base.rs:245-249 `ProdKey`, derived `Ord`. -/
def ProdKey.cmp {NT AK : Type} [Ord NT] [Ord AK] (a b : ProdKey NT AK) : Ordering :=
  (compare a.head b.head).then (compare a.actionKey b.actionKey)

/-- src/start_grammar.rs:81-85 `StartActionKey`, derived `Ord`. -/
def StartActionKey.cmp {AK : Type} [Ord AK] : StartActionKey AK → StartActionKey AK → Ordering
  | .start, .start => .eq
  | .start, .actionKey _ => .lt
  | .actionKey _, .start => .gt
  | .actionKey a, .actionKey b => compare a b

/-- src/utils.rs:205-209 `WasChanged`, derived `Ord`. -/
def WasChanged.cmp : WasChanged → WasChanged → Ordering
  | .changed, .changed => .eq
  | .changed, .unchanged => .lt
  | .unchanged, .changed => .gt
  | .unchanged, .unchanged => .eq

/-- src/utils.rs:121-131 `TreeValue` and `TreeNode`, for any labels and leaves (`Verif.Model.Utils` has
the case of `Void` leaves, which is the only one the crate uses).  A boxed `TreeNode` is part of the
value.  `params` are the entries of the `BTreeMap`, in its order. -/
inductive TreeValue (L V : Type) where
  | node (action : L) (params : List (Name × TreeValue L V))
  | leaf (v : V)

/-- src/utils.rs:128-131 `TreeNode`. -/
structure TreeNodeG (L V : Type) where
  actionName : L
  params : BMap Name (TreeValue L V)

/-- src/utils.rs:134-139 `TreeNode::new`. -/
def TreeNodeG.new {L V : Type} (action : L) (params : BMap Name (TreeValue L V)) : TreeNodeG L V :=
  ⟨action, params⟩

/-- src/utils.rs:140-145 `TreeNode::from_action`. -/
def TreeNodeG.fromAction {L V : Type} (action : L) : TreeNodeG L V := ⟨action, []⟩

/-- src/utils.rs:123 `TreeValue::Node`. -/
def TreeNodeG.toValue {L V : Type} (n : TreeNodeG L V) : TreeValue L V := .node n.actionName n.params

mutual
/-- src/utils.rs:121-125 `TreeValue`, derived `Ord`; nodes as at 127-131 (derived `Ord` of `TreeNode`). -/
def TreeValue.cmp {L V : Type} [Ord L] [Ord V] : TreeValue L V → TreeValue L V → Ordering
  | .node a ps, .node b qs => (compare a b).then (TreeValue.cmpParams ps qs)
  | .node _ _, .leaf _ => .lt
  | .leaf _, .node _ _ => .gt
  | .leaf v, .leaf w => compare v w
/-- `Ord` of `BTreeMap`, src/utils.rs:130: the entries, lexicographically; one that is a beginning of
the other is less. -/
def TreeValue.cmpParams {L V : Type} [Ord L] [Ord V] :
    List (Name × TreeValue L V) → List (Name × TreeValue L V) → Ordering
  | [], [] => .eq
  | [], _ :: _ => .lt
  | _ :: _, [] => .gt
  | e :: ps, f :: qs => (TreeValue.cmpEntry e f).then (TreeValue.cmpParams ps qs)
/-- `Ord` of the entries of a `BTreeMap`, src/utils.rs:130: by key, then by value. -/
def TreeValue.cmpEntry {L V : Type} [Ord L] [Ord V] :
    Name × TreeValue L V → Name × TreeValue L V → Ordering
  | (n, t), (m, u) => (compare n m).then (TreeValue.cmp t u)
end

/-- src/utils.rs:127-131 `TreeNode`, derived `Ord`. -/
def TreeNodeG.cmp {L V : Type} [Ord L] [Ord V] (a b : TreeNodeG L V) : Ordering :=
  (compare a.actionName b.actionName).then (TreeValue.cmpParams a.params b.params)

mutual
/-- src/utils.rs:121-125 `TreeValue`, derived `PartialEq`. -/
def TreeValue.beq {L V : Type} [DecidableEq L] [DecidableEq V] : TreeValue L V → TreeValue L V → Bool
  | .node a ps, .node b qs => a == b && TreeValue.beqParams ps qs
  | .node _ _, .leaf _ => false
  | .leaf _, .node _ _ => false
  | .leaf v, .leaf w => v == w
/-- `PartialEq` of `BTreeMap`, src/utils.rs:130: as many entries, equal one by one. -/
def TreeValue.beqParams {L V : Type} [DecidableEq L] [DecidableEq V] :
    List (Name × TreeValue L V) → List (Name × TreeValue L V) → Bool
  | [], [] => true
  | [], _ :: _ => false
  | _ :: _, [] => false
  | e :: ps, f :: qs => TreeValue.beqEntry e f && TreeValue.beqParams ps qs
/-- `PartialEq` of the entries of a `BTreeMap`, src/utils.rs:130. -/
def TreeValue.beqEntry {L V : Type} [DecidableEq L] [DecidableEq V] :
    Name × TreeValue L V → Name × TreeValue L V → Bool
  | (n, t), (m, u) => n == m && TreeValue.beq t u
end

/-- src/parsers/tree.rs:354-365 `Node`, derived `Ord` (its handle as at 232-236: by address). -/
def Node.cmp (a b : Node) : Ordering := (compare a.index b.index).then (compare a.tree b.tree)
/-- src/parsers/tree.rs:427-438 `Alternative`, derived `Ord`. -/
def Alternative.cmp (a b : Alternative) : Ordering :=
  (compare a.index b.index).then (compare a.tree b.tree)
/-- src/parsers/tree.rs:464-475 `Leaf`, derived `Ord`. -/
def Leaf.cmp (a b : Leaf) : Ordering := (compare a.index b.index).then (compare a.tree b.tree)
/-- src/parsers/tree.rs:510-521 `Branch`, derived `Ord`. -/
def Branch.cmp (a b : Branch) : Ordering := (compare a.index b.index).then (compare a.tree b.tree)
/-- src/parsers/tree.rs:564-577 `NodeContent`, derived `Ord`. -/
def NodeView.cmp : NodeView → NodeView → Ordering
  | .leaf a, .leaf b => Leaf.cmp a b
  | .leaf _, .branch _ => .lt
  | .branch _, .leaf _ => .gt
  | .branch a, .branch b => Branch.cmp a b
end Bongo
