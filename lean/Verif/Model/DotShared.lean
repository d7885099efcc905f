import Verif.Model.Dot
/-!
# src/parsers/tree.rs: `Node::to_dot` of a tree that other threads use

`to_dot` takes the read lock anew for each thing it looks at, and between two of these reads other
threads may have used the tree.  Here its reads are numbered: `ws k` is the memory at read number `k`,
and each function is given the number of reads made before it and returns that of those made after it.
The definitions follow those of `Verif.Model.Tree` and `Verif.Model.Dot`; `toDotAmong_alone` proves that
without other threads they are the same.
-/
namespace Bongo
section
variable {T AK V : Type}

/-- src/parsers/tree.rs:601-622, one round of the search: a read for each item (603, 611). -/
def dotLevelAmong (ws : Nat → World T AK V) (t : Nat) (curr : List DotNode)
    (st : BSet DotNode × BSet DotNode) (k : Nat) : Res ((BSet DotNode × BSet DotNode) × Nat) :=
  match curr with
  | [] => .ok (st, k)
  | item :: curr =>
    match dotStep (ws k t) item with
    | .ok steps => dotLevelAmong ws t curr (steps.foldl (bfsVisit DotNode.cmp) st) (k + 1)
    | .panic p => .panic p
    | .oof => .oof

/-- src/parsers/tree.rs:600-626 `while !curr.is_empty()`. -/
def dotLoopAmong (fuel : Nat) (ws : Nat → World T AK V) (t : Nat) (curr seen : BSet DotNode) (k : Nat) :
    Res (BSet DotNode × Nat) :=
  match curr with
  | [] => .ok (seen, k)
  | c :: cs =>
    match fuel with
    | 0 => .oof
    | fuel + 1 =>
      match dotLevelAmong ws t (c :: cs) ([], seen) k with
      | .ok ((next, seen'), k') => dotLoopAmong fuel ws t next seen' k'
      | .panic p => .panic p
      | .oof => .oof

/-- src/parsers/tree.rs:585-638 `collect_nodes_and_alts`. -/
def collectAmong (fuel : Nat) (ws : Nat → World T AK V) (node : Node) : Res ((List Nat × List Nat) × Nat) :=
  match dotLoopAmong fuel ws node.tree [.node node.index] [] 0 with
  | .ok (seen, k) => .ok ((seen.filterMap DotNode.nodeId, seen.filterMap DotNode.altId), k)
  | .panic p => .panic p
  | .oof => .oof

/-- src/parsers/tree.rs:684-694, the edges of the collected nodes: a read for each node (686). -/
def dotNodeEdgesAmong (ws : Nat → World T AK V) (t : Nat) :
    List Nat → Nat → Res (List (DotNode × DotNode) × Nat)
  | [], k => .ok ([], k)
  | n :: ns, k =>
    match (ws k t).getNode n with
    | .ok s => match dotNodeEdgesAmong ws t ns (k + 1) with
      | .ok (es, k') => .ok (s.map (fun a => (.node n, .alt a)) ++ es, k')
      | .panic p => .panic p
      | .oof => .oof
    | .panic p => .panic p
    | .oof => .oof

/-- src/parsers/tree.rs:696-709, the edges of the collected alternatives: a read for each (697). -/
def dotAltEdgesAmong (ws : Nat → World T AK V) (t : Nat) :
    List Nat → Nat → Res (List (DotNode × DotNode) × Nat)
  | [], k => .ok ([], k)
  | a :: as, k =>
    match (ws k t).getAlt a with
    | .ok c => match dotAltEdgesAmong ws t as (k + 1) with
      | .ok (es, k') => .ok (match c with
        | .branch _ ns => ns.map (fun n => (.alt a, .node n)) ++ es
        | .leaf _ _ => es, k')
      | .panic p => .panic p
      | .oof => .oof
    | .panic p => .panic p
    | .oof => .oof

/-- The number of reads `node_label` makes, src/parsers/tree.rs:748-761: one for an alternative. -/
def dotLabelReads : DotNode → Nat
  | .node _ => 0
  | .alt _ => 1

/-- The vertices as the calls of `Labeller` (src/parsers/tree.rs:734-761) describe them. -/
def dotVerticesAmong (dbgT : T → String) (dbgAK : AK → String) (dbgV : V → String)
    (ws : Nat → World T AK V) (t : Nat) : List DotNode → Nat → Res (List DotVertex × Nat)
  | [], k => .ok ([], k)
  | x :: xs, k =>
    match dotNodeId x with
    | .ok id => match dotNodeLabel dbgT dbgAK dbgV (ws k t) x with
      | .ok label => match dotVerticesAmong dbgT dbgAK dbgV ws t xs (k + dotLabelReads x) with
        | .ok (vs, k') => .ok (⟨id, label, dotNodeShape x⟩ :: vs, k')
        | .panic p => .panic p
        | .oof => .oof
      | .panic p => .panic p
      | .oof => .oof
    | .panic p => .panic p
    | .oof => .oof

/-- src/parsers/tree.rs:420-424 `Node::to_dot`, up to the text made by `dot::render`, with the number of
reads it made.  `dot::render` (not part of /repo) asks for the name of the graph, then for the vertices
and the label of each, then for the edges and the names of their ends. -/
def toDotAmong (dbgT : T → String) (dbgAK : AK → String) (dbgV : V → String) (fuel : Nat)
    (ws : Nat → World T AK V) (node : Node) : Res (DotOutput × Nat) :=
  match collectAmong fuel ws node with
  | .ok ((ns, as), k) =>
    match dotGraphId with
    | .ok name => match dotVerticesAmong dbgT dbgAK dbgV ws node.tree (dotNodes ns as) k with
      | .ok (vs, k1) => match dotNodeEdgesAmong ws node.tree ns k1 with
        | .ok (e1, k2) => match dotAltEdgesAmong ws node.tree as k2 with
          | .ok (e2, k3) => match dotEdgeIds (e1 ++ e2) with
            | .ok ids => .ok (⟨name, vs, ids⟩, k3)
            | .panic p => .panic p
            | .oof => .oof
          | .panic p => .panic p
          | .oof => .oof
        | .panic p => .panic p
        | .oof => .oof
      | .panic p => .panic p
      | .oof => .oof
    | .panic p => .panic p
    | .oof => .oof
  | .panic p => .panic p
  | .oof => .oof
end
end Bongo
