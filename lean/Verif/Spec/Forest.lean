import Verif.Model.Tree
/-!
# Specification: histories of calls on trees

A history is any sequence of calls of the public operations of src/parsers/tree.rs in which every
call uses handles the program has obtained before.  `make_leaf_node` and `make_branch_node` are
sequences of such calls (`makeLeafNode_history`, `makeBranchNode_history`).
-/
namespace Bongo

/-- The handles a program can hold. -/
inductive Handle where
  | tree (t : Nat)
  | node (n : Node)
  | alt (a : Alternative)
  | leaf (l : Leaf)
  | branch (b : Branch)
  deriving DecidableEq, Repr

/-- The tree a handle belongs to (what `handle()` returns). -/
def Handle.owner : Handle → Nat
  | .tree t => t
  | .node n => n.tree
  | .alt a => a.tree
  | .leaf l => l.tree
  | .branch b => b.tree

/-- Calls. -/
inductive TreeOp (T AK V : Type) where
  | makeNode (t : Nat)
  | makeLeafAlt (t : Nat) (kind : T) (value : V)
  | makeBranchAlt (t : Nat) (action : AK) (nodes : List Node)
  | addAlt (n : Node) (a : Alternative)
  | addAll (n other : Node)
  | alts (n : Node)
  | content (a : Alternative)
  | kind (l : Leaf)
  | value (l : Leaf)
  | action (b : Branch)
  | nodes (b : Branch)
  deriving DecidableEq, Repr

/-- What calls return. -/
inductive TreeOut (T AK V : Type) where
  | node (n : Node)
  | alt (a : Alternative)
  | changed (c : WasChanged)
  | alts (l : List Alternative)
  | view (v : NodeView)
  | kind (t : T)
  | value (v : V)
  | action (a : AK)
  | nodes (l : List Node)
  deriving DecidableEq, Repr

/-- Apply a constructor to a successful result. -/
def Res.mapOut {α β : Type} (f : α → β) : Res α → Res β
  | .ok a => .ok (f a)
  | .panic p => .panic p
  | .oof => .oof

namespace TreeOp
variable {T AK V : Type}

/-- Perform a call. -/
def exec [Ord T] [Ord AK] [Ord V] (w : World T AK V) :
    TreeOp T AK V → World T AK V × Res (TreeOut T AK V)
  | .makeNode t => ((w.makeNode t).1, .ok (.node (w.makeNode t).2))
  | .makeLeafAlt t k v => ((w.makeLeafAlt t k v).1, .ok (.alt (w.makeLeafAlt t k v).2))
  | .makeBranchAlt t a ns =>
    ((w.makeBranchAlt t a ns).1, (w.makeBranchAlt t a ns).2.mapOut .alt)
  | .addAlt n a => ((w.addAlt n a).1, (w.addAlt n a).2.mapOut .changed)
  | .addAll n m => ((w.addAll n m).1, (w.addAll n m).2.mapOut .changed)
  | .alts n => (w, (w.alts n).mapOut .alts)
  | .content a => (w, (w.content a).mapOut .view)
  | .kind l => (w, (w.kind l).mapOut .kind)
  | .value l => (w, (w.value l).mapOut .value)
  | .action b => (w, (w.action b).mapOut .action)
  | .nodes b => (w, (w.branchNodes b).mapOut .nodes)

/-- The handles a call uses; a tree is available when a handle of that tree is. -/
def Allowed (held : List Handle) : TreeOp T AK V → Prop
  | .makeNode t => ∃ h ∈ held, h.owner = t
  | .makeLeafAlt t _ _ => ∃ h ∈ held, h.owner = t
  | .makeBranchAlt t _ ns => (∃ h ∈ held, h.owner = t) ∧ ∀ n ∈ ns, Handle.node n ∈ held
  | .addAlt n a => .node n ∈ held ∧ .alt a ∈ held
  | .addAll n m => .node n ∈ held ∧ .node m ∈ held
  | .alts n => .node n ∈ held
  | .content a => .alt a ∈ held
  | .kind l => .leaf l ∈ held
  | .value l => .leaf l ∈ held
  | .action b => .branch b ∈ held
  | .nodes b => .branch b ∈ held

/-- The call combines objects of different trees. -/
def Mixes : TreeOp T AK V → Prop
  | .makeBranchAlt t _ ns => ∃ n ∈ ns, n.tree ≠ t
  | .addAlt n a => n.tree ≠ a.tree
  | .addAll n m => n.tree ≠ m.tree
  | _ => False

/-- The tree the call may write to. -/
def target : TreeOp T AK V → Option Nat
  | .makeNode t => some t
  | .makeLeafAlt t _ _ => some t
  | .makeBranchAlt t _ _ => some t
  | .addAlt n _ => some n.tree
  | .addAll n _ => some n.tree
  | _ => none

/-- The content an alternative-making call was given, with the tree. -/
def made : TreeOp T AK V → Option (Nat × ((T × V) ⊕ (AK × List Node)))
  | .makeLeafAlt t k v => some (t, .inl (k, v))
  | .makeBranchAlt t a ns => some (t, .inr (a, ns))
  | _ => none
end TreeOp

/-- The handles a result gives to the program. -/
def TreeOut.gives {T AK V : Type} : Res (TreeOut T AK V) → List Handle
  | .ok (.node n) => [.node n]
  | .ok (.alt a) => [.alt a]
  | .ok (.alts l) => l.map .alt
  | .ok (.view (.leaf l)) => [.leaf l]
  | .ok (.view (.branch b)) => [.branch b]
  | .ok (.nodes l) => l.map .node
  | _ => []

/-- A log of calls and their results, the most recent first. -/
abbrev TreeLog (T AK V : Type) := List (TreeOp T AK V × Res (TreeOut T AK V))

/-- `History log w held`: a program has created owners and made the calls of `log`; the memory is
now `w` and it holds `held`. -/
inductive History {T AK V : Type} [Ord T] [Ord AK] [Ord V] :
    TreeLog T AK V → World T AK V → List Handle → Prop where
  | start : History [] World.new []
  | newOwner {log w held} (t : Nat) : History log w held → (∀ h ∈ held, h.owner ≠ t) →
      History log w (.tree t :: held)
  | call {log w held} (op : TreeOp T AK V) : History log w held → op.Allowed held →
      History ((op, (op.exec w).2) :: log) (op.exec w).1 (TreeOut.gives (op.exec w).2 ++ held)

/-- All the calls of a part of a log were successful calls that write to tree `t`. -/
def CallsOn {T AK V : Type} (t : Nat) (log : TreeLog T AK V) : Prop :=
  ∀ c ∈ log, c.1.target = some t ∧ ∃ o, c.2 = .ok o

/-- According to the log, `a` has been added to `n`: directly, or as an alternative that another
node had when that node was added to `n`. -/
def AddedTo {T AK V : Type} : TreeLog T AK V → Node → Alternative → Prop
  | [], _, _ => False
  | (.addAlt n' a', .ok _) :: log, n, a => (n = n' ∧ a = a') ∨ AddedTo log n a
  | (.addAll n' m, .ok _) :: log, n, a => (n = n' ∧ AddedTo log m a) ∨ AddedTo log n a
  | _ :: log, n, a => AddedTo log n a

/-- The arrows of a forest as the public operations show them: from a node of tree `t` to each of
its alternatives, from a branch to each of its child nodes. -/
inductive ForestArrow {T AK V : Type} [Ord T] [Ord AK] [Ord V] (w : World T AK V) (t : Nat) :
    DotNode → DotNode → Prop where
  | alt {n a : Nat} {l : List Alternative} : w.alts ⟨n, t⟩ = .ok l → ⟨a, t⟩ ∈ l →
      ForestArrow w t (.node n) (.alt a)
  | child {a n : Nat} {b : Branch} {l : List Node} : w.content ⟨a, t⟩ = .ok (.branch b) →
      w.branchNodes b = .ok l → ⟨n, t⟩ ∈ l → ForestArrow w t (.alt a) (.node n)

end Bongo
