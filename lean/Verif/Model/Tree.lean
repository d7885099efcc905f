import Verif.Model.Utils
/-!
# src/parsers/tree.rs

Shared parse forests.  A tree owner is the `RwLock<Inner>` it holds; here it is a number (its
address), and the memory is a `World` giving the `Inner` of each.  An operation that takes the lock
several times is the sequence of its critical sections (`with`/`with_mut`, 253-267); each section is
atomic.  Poisoning is not modelled here: no section that holds the write lock panics (C35) unless a
function of the user does (`Verif.Model.Poison`), and a panic under a read lock does not poison.  Lifetimes (a handle cannot outlive its owner) are Rust's.
-/
namespace Bongo
set_option linter.unusedSectionVars false

/-- src/parsers/tree.rs:42-45 `enum NodeContentInner`, with the fields of `LeafData` (30-33) and
`BranchData` (36-39).  `Arc<V>` compares by content. -/
inductive NodeContent (T AK V : Type) where
  | leaf (kind : T) (value : V)
  | branch (action : AK) (nodes : List Nat)
  deriving DecidableEq, Repr

namespace NodeContent
variable {T AK V : Type}
/-- `#[derive(Ord)]` at src/parsers/tree.rs:29,35,41: `Leaf < Branch`, then field by field;
`im::Vector` compares lexicographically. -/
protected def cmp [Ord T] [Ord AK] [Ord V] : NodeContent T AK V → NodeContent T AK V → Ordering
  | .leaf k v, .leaf k' v' => (compare k k').then (compare v v')
  | .leaf _ _, .branch _ _ => .lt
  | .branch _ _, .leaf _ _ => .gt
  | .branch a ns, .branch a' ns' => (compare a a').then (compare ns ns')

/-- src/parsers/tree.rs:48-53 `NodeContentInner::as_leaf`. -/
def asLeaf : NodeContent T AK V → Option (T × V)
  | .leaf k v => some (k, v)
  | .branch _ _ => none

/-- src/parsers/tree.rs:55-60 `NodeContentInner::as_branch`. -/
def asBranch : NodeContent T AK V → Option (AK × List Nat)
  | .leaf _ _ => none
  | .branch a ns => some (a, ns)
end NodeContent

/-- src/parsers/tree.rs:63-66 `struct AltSet`. -/
structure AltSet (T AK V : Type) where
  valueToId : BMap (NodeContent T AK V) Nat
  idToValue : List (NodeContent T AK V)
  deriving DecidableEq, Repr

namespace AltSet
variable {T AK V : Type}
/-- src/parsers/tree.rs:69-74 `AltSet::new`. -/
def new : AltSet T AK V := ⟨[], []⟩

/-- src/parsers/tree.rs:76-84 `AltSet::get`. -/
def get (s : AltSet T AK V) (index : Nat) : Res (NodeContent T AK V) :=
  Res.expect .badAlt s.idToValue[index]?

/-- src/parsers/tree.rs:93-104 `AltSet::add`. -/
def add [Ord T] [Ord AK] [Ord V] (s : AltSet T AK V) (content : NodeContent T AK V) :
    AltSet T AK V × Nat :=
  match BMap.get? NodeContent.cmp s.valueToId content with
  | some index => (s, index)
  | none =>
    (⟨BMap.insert NodeContent.cmp s.valueToId content s.idToValue.length,
      s.idToValue ++ [content]⟩, s.idToValue.length)
end AltSet

/-- src/parsers/tree.rs:116-119 `struct Inner`; a node is its `BTreeSet` of alternatives
(`NodeData`, 108-110). -/
structure Inner (T AK V : Type) where
  nodes : List (BSet Nat)
  alternatives : AltSet T AK V
  deriving DecidableEq, Repr

namespace Inner
variable {T AK V : Type}
/-- src/parsers/tree.rs:122-127 `Inner::new`. -/
def new : Inner T AK V := ⟨[], .new⟩

/-- src/parsers/tree.rs:129-137 `Inner::get_node` (and `get_node_mut`, 139-147). -/
def getNode (i : Inner T AK V) (index : Nat) : Res (BSet Nat) := Res.expect .badNode i.nodes[index]?

/-- src/parsers/tree.rs:149-151 `Inner::get_alt`. -/
def getAlt (i : Inner T AK V) (index : Nat) : Res (NodeContent T AK V) := i.alternatives.get index

/-- src/parsers/tree.rs:160-166 `Inner::make_node`. -/
def makeNode (i : Inner T AK V) : Inner T AK V × Nat :=
  ({ i with nodes := i.nodes ++ [[]] }, i.nodes.length)

/-- src/parsers/tree.rs:168-170 `Inner::make_alt`. -/
def makeAlt [Ord T] [Ord AK] [Ord V] (i : Inner T AK V) (content : NodeContent T AK V) :
    Inner T AK V × Nat :=
  let r := i.alternatives.add content
  ({ i with alternatives := r.1 }, r.2)

/-- src/parsers/tree.rs:172-179 `Inner::add_node_alt`. -/
def addNodeAlt (i : Inner T AK V) (node alt : Nat) : Res (Inner T AK V × WasChanged) :=
  match i.getNode node with
  | .ok set =>
    .ok ({ i with nodes := i.nodes.set node (BSet.insert compare set alt) },
      .fromChanged (!BSet.contains compare set alt))
  | .panic w => .panic w
  | .oof => .oof

/-- The closure of `add_all`, src/parsers/tree.rs:405-410. -/
def addAll (i : Inner T AK V) (node other : Nat) : Res (Inner T AK V × WasChanged) :=
  match i.getNode other with
  | .ok alts => changeIterM alts (fun i a => i.addNodeAlt node a) i
  | .panic w => .panic w
  | .oof => .oof
end Inner

/-! ## Handles and the public operations -/

/-- src/parsers/tree.rs:362-365 `struct Node`. -/
structure Node where
  index : Nat
  tree : Nat
  deriving DecidableEq, Repr

/-- src/parsers/tree.rs:435-438 `struct Alternative`. -/
structure Alternative where
  index : Nat
  tree : Nat
  deriving DecidableEq, Repr

/-- src/parsers/tree.rs:472-475 `struct Leaf`. -/
structure Leaf where
  index : Nat
  tree : Nat
  deriving DecidableEq, Repr

/-- src/parsers/tree.rs:518-521 `struct Branch`. -/
structure Branch where
  index : Nat
  tree : Nat
  deriving DecidableEq, Repr

/-- src/parsers/tree.rs:574-577 `enum NodeContent`. -/
inductive NodeView where
  | leaf (l : Leaf)
  | branch (b : Branch)
  deriving DecidableEq, Repr

/-- The contents of all tree owners; one that has not been used yet holds `Inner::new()`
(`TreeOwner::new`, src/parsers/tree.rs:190-217). -/
def World (T AK V : Type) := Nat → Inner T AK V

namespace World
variable {T AK V : Type}
/-- The memory before any use of a tree. -/
def new : World T AK V := fun _ => .new

/-- Writing through the guard of `with_mut`, src/parsers/tree.rs:261-267. -/
def set (w : World T AK V) (t : Nat) (i : Inner T AK V) : World T AK V :=
  fun t' => if t' = t then i else w t'

/-- Run a closure that may panic under `with_mut`, src/parsers/tree.rs:261-267. -/
def update {α : Type} (w : World T AK V) (t : Nat) (r : Res (Inner T AK V × α)) :
    World T AK V × Res α :=
  match r with
  | .ok (i, a) => (w.set t i, .ok a)
  | .panic p => (w, .panic p)
  | .oof => (w, .oof)

/-- src/parsers/tree.rs:276-284 `TreeHandle::make_node`. -/
def makeNode (w : World T AK V) (t : Nat) : World T AK V × Node :=
  let r := (w t).makeNode
  (w.set t r.1, ⟨r.2, t⟩)

/-- src/parsers/tree.rs:347-351 `TreeHandle::is_same`, with `Inner::is_same` (181-183). -/
def isSame (t t' : Nat) : Bool := t == t'

variable [Ord T] [Ord AK] [Ord V]

/-- src/parsers/tree.rs:304-316 `TreeHandle::make_alt`. -/
def makeAlt (w : World T AK V) (t : Nat) (c : NodeContent T AK V) : World T AK V × Alternative :=
  let r := (w t).makeAlt c
  (w.set t r.1, ⟨r.2, t⟩)

/-- src/parsers/tree.rs:318-323 `TreeHandle::make_leaf_alt`. -/
def makeLeafAlt (w : World T AK V) (t : Nat) (kind : T) (value : V) : World T AK V × Alternative :=
  w.makeAlt t (.leaf kind value)

/-- src/parsers/tree.rs:325-345 `TreeHandle::make_branch_alt`, for an iterator that has its nodes
ready (it is consumed under the read lock; see `Verif.Model.Lock` for one that makes nodes while it
is consumed). -/
def makeBranchAlt (w : World T AK V) (t : Nat) (action : AK) (nodes : List Node) :
    World T AK V × Res Alternative :=
  if nodes.all (fun n => isSame t n.tree) then
    let r := w.makeAlt t (.branch action (nodes.map (·.index)))
    (r.1, .ok r.2)
  else (w, .panic .otherTree)

/-- src/parsers/tree.rs:379-385 `Node::add_alt`. -/
def addAlt (w : World T AK V) (n : Node) (a : Alternative) : World T AK V × Res WasChanged :=
  if isSame n.tree a.tree then w.update n.tree ((w n.tree).addNodeAlt n.index a.index)
  else (w, .panic .otherTree)

/-- src/parsers/tree.rs:387-399 `Node::alts`. -/
def alts (w : World T AK V) (n : Node) : Res (List Alternative) :=
  match (w n.tree).getNode n.index with
  | .ok s => .ok (s.map (⟨·, n.tree⟩))
  | .panic p => .panic p
  | .oof => .oof

/-- src/parsers/tree.rs:402-411 `Node::add_all`. -/
def addAll (w : World T AK V) (n other : Node) : World T AK V × Res WasChanged :=
  if isSame n.tree other.tree then w.update n.tree ((w n.tree).addAll n.index other.index)
  else (w, .panic .otherTree)

/-- src/parsers/tree.rs:286-291 `TreeHandle::make_leaf_node`. -/
def makeLeafNode (w : World T AK V) (t : Nat) (kind : T) (value : V) : World T AK V × Res Node :=
  let r1 := w.makeNode t
  let r2 := r1.1.makeLeafAlt t kind value
  match r2.1.addAlt r1.2 r2.2 with
  | (w', .ok _) => (w', .ok r1.2)
  | (w', .panic p) => (w', .panic p)
  | (w', .oof) => (w', .oof)

/-- src/parsers/tree.rs:293-302 `TreeHandle::make_branch_node`. -/
def makeBranchNode (w : World T AK V) (t : Nat) (action : AK) (nodes : List Node) :
    World T AK V × Res Node :=
  let r1 := w.makeNode t
  match r1.1.makeBranchAlt t action nodes with
  | (w2, .ok a) =>
    match w2.addAlt r1.2 a with
    | (w', .ok _) => (w', .ok r1.2)
    | (w', .panic p) => (w', .panic p)
    | (w', .oof) => (w', .oof)
  | (w2, .panic p) => (w2, .panic p)
  | (w2, .oof) => (w2, .oof)

/-- src/parsers/tree.rs:450-461 `Alternative::content`. -/
def content (w : World T AK V) (a : Alternative) : Res NodeView :=
  match (w a.tree).getAlt a.index with
  | .ok (.leaf _ _) => .ok (.leaf ⟨a.index, a.tree⟩)
  | .ok (.branch _ _) => .ok (.branch ⟨a.index, a.tree⟩)
  | .panic p => .panic p
  | .oof => .oof

/-- src/parsers/tree.rs:487-499 `Leaf::with_leaf`. -/
def withLeaf (w : World T AK V) (l : Leaf) : Res (T × V) :=
  match (w l.tree).getAlt l.index with
  | .ok c => Res.expect .wrongKind c.asLeaf
  | .panic p => .panic p
  | .oof => .oof

/-- src/parsers/tree.rs:501-503 `Leaf::kind`. -/
def kind (w : World T AK V) (l : Leaf) : Res T :=
  match w.withLeaf l with
  | .ok d => .ok d.1
  | .panic p => .panic p
  | .oof => .oof

/-- src/parsers/tree.rs:505-507 `Leaf::value`. -/
def value (w : World T AK V) (l : Leaf) : Res V :=
  match w.withLeaf l with
  | .ok d => .ok d.2
  | .panic p => .panic p
  | .oof => .oof

/-- src/parsers/tree.rs:533-545 `Branch::with_branch`. -/
def withBranch (w : World T AK V) (b : Branch) : Res (AK × List Nat) :=
  match (w b.tree).getAlt b.index with
  | .ok c => Res.expect .wrongKind c.asBranch
  | .panic p => .panic p
  | .oof => .oof

/-- src/parsers/tree.rs:547-549 `Branch::action`. -/
def action (w : World T AK V) (b : Branch) : Res AK :=
  match w.withBranch b with
  | .ok d => .ok d.1
  | .panic p => .panic p
  | .oof => .oof

/-- src/parsers/tree.rs:551-561 `Branch::nodes`. -/
def branchNodes (w : World T AK V) (b : Branch) : Res (List Node) :=
  match w.withBranch b with
  | .ok d => .ok (d.2.map (⟨·, b.tree⟩))
  | .panic p => .panic p
  | .oof => .oof
end World

/-! ## The graph given to the `dot` crate -/

/-- src/parsers/tree.rs:580-583 `enum DotNode`. -/
inductive DotNode where
  | node (i : Nat)
  | alt (i : Nat)
  deriving DecidableEq, Repr

/-- `#[derive(Ord)]` at src/parsers/tree.rs:579. -/
def DotNode.cmp : DotNode → DotNode → Ordering
  | .node i, .node j => compare i j
  | .node _, .alt _ => .lt
  | .alt _, .node _ => .gt
  | .alt i, .alt j => compare i j

/-- src/parsers/tree.rs:632-633, the first arm. -/
def DotNode.nodeId : DotNode → Option Nat
  | .node n => some n
  | .alt _ => none

/-- src/parsers/tree.rs:632-634, the second arm. -/
def DotNode.altId : DotNode → Option Nat
  | .node _ => none
  | .alt a => some a

section dot
variable {T AK V : Type}

/-- src/parsers/tree.rs:602-621: what one `curr_item` leads to. -/
def dotStep (i : Inner T AK V) : DotNode → Res (List DotNode)
  | .node n => match i.getNode n with
    | .ok s => .ok (s.map .alt)
    | .panic p => .panic p
    | .oof => .oof
  | .alt a => match i.getAlt a with
    | .ok (.branch _ ns) => .ok (ns.map .node)
    | .ok (.leaf _ _) => .ok []
    | .panic p => .panic p
    | .oof => .oof

/-- src/parsers/tree.rs:585-638 `collect_nodes_and_alts`.  Its `while` loop over `seen`, `curr` and
`next` (594-626) is the same as that of `breadth_first_search` (src/utils.rs:163-177): here too
`seen` starts empty. -/
def collectNodesAndAlts (fuel : Nat) (w : World T AK V) (node : Node) : Res (List Nat × List Nat) :=
  match bfsLoop DotNode.cmp fuel (dotStep (w node.tree)) [.node node.index] [] with
  | .ok seen =>
    .ok (seen.filterMap DotNode.nodeId, seen.filterMap DotNode.altId)
  | .panic p => .panic p
  | .oof => .oof

/-- src/parsers/tree.rs:674-682 `GraphWalk::nodes for DotPrinter`. -/
def dotNodes (nodes alts : List Nat) : List DotNode := nodes.map .node ++ alts.map .alt

/-- src/parsers/tree.rs:685-694, the edges of the collected nodes. -/
def dotNodeEdges (i : Inner T AK V) : List Nat → Res (List (DotNode × DotNode))
  | [] => .ok []
  | n :: ns => match i.getNode n, dotNodeEdges i ns with
    | .ok s, .ok es => .ok (s.map (fun a => (.node n, .alt a)) ++ es)
    | .panic p, _ => .panic p
    | .oof, _ => .oof
    | .ok _, r => r

/-- src/parsers/tree.rs:696-709, the edges of the collected alternatives. -/
def dotAltEdges (i : Inner T AK V) : List Nat → Res (List (DotNode × DotNode))
  | [] => .ok []
  | a :: as => match i.getAlt a, dotAltEdges i as with
    | .ok (.branch _ ns), .ok es => .ok (ns.map (fun n => (.alt a, .node n)) ++ es)
    | .ok (.leaf _ _), .ok es => .ok es
    | .panic p, _ => .panic p
    | .oof, _ => .oof
    | .ok _, r => r

/-- The two lists `dot::render` is given by `to_dot`, src/parsers/tree.rs:420-424, 653-662 and
674-712 (their names and labels: `Verif.Model.Dot`). -/
def dotGraph (fuel : Nat) (w : World T AK V) (node : Node) :
    Res (List DotNode × List (DotNode × DotNode)) :=
  match collectNodesAndAlts fuel w node with
  | .ok (ns, as) =>
    match dotNodeEdges (w node.tree) ns, dotAltEdges (w node.tree) as with
    | .ok e1, .ok e2 => .ok (dotNodes ns as, e1 ++ e2)
    | .panic p, _ => .panic p
    | .oof, _ => .oof
    | .ok _, .panic p => .panic p
    | .ok _, .oof => .oof
  | .panic p => .panic p
  | .oof => .oof
end dot
end Bongo
