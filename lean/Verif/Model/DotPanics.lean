import Verif.Model.DotShared
/-!
# src/parsers/tree.rs: `Node::to_dot` when locks may be poisoned and `Debug` may panic

`to_dot` as a sequence of reads (`TreeHandle::with`).  A read panics if the lock of the tree is poisoned
(src/parsers/tree.rs:257, `read().unwrap()`); `Debug` of the user's types runs inside reads of alternatives for
their labels, and may panic.  A read guard that is dropped by a panic does not poison the lock, so nothing here
changes anything.  Without both, this is `toDotAmong` (`to_dot_no_panics`).  The order of the calls that
`dot::render` (not part of /repo) makes is as in `Verif.Model.DotShared`.
-/
namespace Bongo

/-- How `to_dot` ends (src/parsers/tree.rs:420-424). -/
inductive DotEnd (α : Type) where
  | ok (a : α)
  /-- A panic of the library's own. -/
  | panic (p : Panic)
  | oof
  /-- `Debug` of the user has panicked (src/parsers/tree.rs:753, 755-758). -/
  | debug
  /-- The lock is poisoned (src/parsers/tree.rs:257). -/
  | poisoned
  deriving DecidableEq, Repr

/-- Code that reads a tree again and again (src/parsers/tree.rs:253-259 `TreeHandle::with`). -/
inductive DotProg (I α : Type) where
  | ret (a : α)
  | panic (p : Panic)
  | oof
  | debug
  | read (f : I → DotProg I α)

/-- Code after code (the sequence of statements at src/parsers/tree.rs:420-424). -/
def DotProg.bind {I α β : Type} (f : α → DotProg I β) : DotProg I α → DotProg I β
  | .ret a => f a
  | .panic p => .panic p
  | .oof => .oof
  | .debug => .debug
  | .read g => .read fun i => (g i).bind f

/-- Running it: `mem k` is the tree at read number `k`, `lost k` whether its lock is poisoned then
(src/parsers/tree.rs:253-259).  Gives how it ends and the number of the next read; that of the read that
panics if the lock is poisoned. -/
def DotProg.run {I α : Type} (mem : Nat → I) (lost : Nat → Bool) : DotProg I α → Nat → DotEnd α × Nat
  | .ret a, k => (.ok a, k)
  | .panic p, k => (.panic p, k)
  | .oof, k => (.oof, k)
  | .debug, k => (.debug, k)
  | .read f, k => if lost k then (.poisoned, k) else (f (mem k)).run mem lost (k + 1)

section
variable {T AK V : Type}

/-- src/parsers/tree.rs:601-622, one round of the search. -/
def dotLevelProg (curr : List DotNode) (st : BSet DotNode × BSet DotNode) :
    DotProg (Inner T AK V) (BSet DotNode × BSet DotNode) :=
  match curr with
  | [] => .ret st
  | item :: curr => .read fun i =>
    match dotStep i item with
    | .ok steps => dotLevelProg curr (steps.foldl (bfsVisit DotNode.cmp) st)
    | .panic p => .panic p
    | .oof => .oof

/-- src/parsers/tree.rs:600-626 `while !curr.is_empty()`. -/
def dotLoopProg (fuel : Nat) (curr seen : BSet DotNode) : DotProg (Inner T AK V) (BSet DotNode) :=
  match curr with
  | [] => .ret seen
  | c :: cs =>
    match fuel with
    | 0 => .oof
    | fuel + 1 => (dotLevelProg (c :: cs) ([], seen)).bind fun st => dotLoopProg fuel st.1 st.2

/-- src/parsers/tree.rs:684-694. -/
def dotNodeEdgesProg : List Nat → DotProg (Inner T AK V) (List (DotNode × DotNode))
  | [] => .ret []
  | n :: ns => .read fun i =>
    match i.getNode n with
    | .ok s => (dotNodeEdgesProg ns).bind fun es => .ret (s.map (fun a => (.node n, .alt a)) ++ es)
    | .panic p => .panic p
    | .oof => .oof

/-- src/parsers/tree.rs:696-709. -/
def dotAltEdgesProg : List Nat → DotProg (Inner T AK V) (List (DotNode × DotNode))
  | [] => .ret []
  | a :: as => .read fun i =>
    match i.getAlt a with
    | .ok c => (dotAltEdgesProg as).bind fun es => .ret (match c with
        | .branch _ ns => ns.map (fun n => (.alt a, .node n)) ++ es
        | .leaf _ _ => es)
    | .panic p => .panic p
    | .oof => .oof

variable (dbgT : T → Option String) (dbgAK : AK → Option String) (dbgV : V → Option String)

/-- src/parsers/tree.rs:748-761 `Labeller::node_label`, where `Debug` gives `none` if it panics. -/
def dotLabelProg : DotNode → DotProg (Inner T AK V) String
  | .node _ => .ret ""
  | .alt a => .read fun i =>
    match i.getAlt a with
    | .ok (.branch action _) => match dbgAK action with
      | some s => .ret s
      | none => .debug
    | .ok (.leaf kind value) => match dbgT kind with
      | some s => match dbgV value with
        | some s' => .ret (s ++ "(" ++ s' ++ ")")
        | none => .debug
      | none => .debug
    | .panic p => .panic p
    | .oof => .oof

/-- The vertices, as the calls of `Labeller` (src/parsers/tree.rs:734-761) describe them. -/
def dotVerticesProg : List DotNode → DotProg (Inner T AK V) (List DotVertex)
  | [] => .ret []
  | x :: xs =>
    match dotNodeId x with
    | .ok id => (dotLabelProg dbgT dbgAK dbgV x).bind fun label =>
      (dotVerticesProg xs).bind fun vs => .ret (⟨id, label, dotNodeShape x⟩ :: vs)
    | .panic p => .panic p
    | .oof => .oof

/-- src/parsers/tree.rs:420-424 `Node::to_dot`, up to the text made by `dot::render`. -/
def toDotProg (fuel : Nat) (node : Node) : DotProg (Inner T AK V) DotOutput :=
  (dotLoopProg fuel [.node node.index] []).bind fun seen =>
    match dotGraphId with
    | .ok name =>
      (dotVerticesProg dbgT dbgAK dbgV (dotNodes (seen.filterMap DotNode.nodeId) (seen.filterMap DotNode.altId))).bind
        fun vs => (dotNodeEdgesProg (seen.filterMap DotNode.nodeId)).bind fun e1 =>
          (dotAltEdgesProg (seen.filterMap DotNode.altId)).bind fun e2 =>
            match dotEdgeIds (e1 ++ e2) with
            | .ok ids => .ret ⟨name, vs, ids⟩
            | .panic p => .panic p
            | .oof => .oof
    | .panic p => .panic p
    | .oof => .oof

/-- `to_dot` on a node (src/parsers/tree.rs:420-424), `ws k` being the memory at its read number `k`, and `lost k t`
whether the lock of `t` is poisoned then. -/
def toDotPanics (fuel : Nat) (ws : Nat → World T AK V) (lost : Nat → Nat → Bool) (node : Node) : DotEnd DotOutput × Nat :=
  (toDotProg dbgT dbgAK dbgV fuel node).run (fun k => ws k node.tree) (fun k => lost k node.tree) 0
end
end Bongo
