import Verif.Model.Tree
/-!
# src/parsers/tree.rs: `Node::to_dot` and the labels of `DotPrinter`

What `to_dot` hands to the `dot` crate: the name of the graph, one entry for each vertex (name, label,
shape) and one for each edge (the names of its ends).  The text the crate makes of these is not
modelled.  `Debug` of the user's types is a parameter.
-/
namespace Bongo

/-- The `dot` crate's `Id::new`, as used at src/parsers/tree.rs:731, 736 and 737: a letter or an
underscore, then letters, digits and underscores (ASCII); otherwise an error. -/
def dotIdNew (s : List Char) : Option (List Char) :=
  match s with
  | [] => none
  | c :: cs =>
    if c.isAlpha || c == '_' then
      if cs.all (fun d => d.isAlpha || d.isDigit || d == '_') then some (c :: cs) else none
    else none

/-- src/parsers/tree.rs:730-732 `Labeller::graph_id`. -/
def dotGraphId : Res (List Char) := Res.expect .unwrap (dotIdNew ['G'])

/-- src/parsers/tree.rs:734-739 `Labeller::node_id`. -/
def dotNodeId : DotNode → Res (List Char)
  | .node i => Res.expect .unwrap (dotIdNew ('n' :: Nat.toDigits 10 i))
  | .alt i => Res.expect .unwrap (dotIdNew ('a' :: Nat.toDigits 10 i))

/-- src/parsers/tree.rs:741-746 `Labeller::node_shape`. -/
def dotNodeShape : DotNode → String
  | .node _ => "point"
  | .alt _ => "box"

section
variable {T AK V : Type} (dbgT : T → String) (dbgAK : AK → String) (dbgV : V → String)

/-- src/parsers/tree.rs:748-761 `Labeller::node_label`. -/
def dotNodeLabel (i : Inner T AK V) : DotNode → Res String
  | .node _ => .ok ""
  | .alt a => match i.getAlt a with
    | .ok (.branch action _) => .ok (dbgAK action)
    | .ok (.leaf kind value) => .ok (dbgT kind ++ "(" ++ dbgV value ++ ")")
    | .panic p => .panic p
    | .oof => .oof

/-- One vertex as given to `dot::render` (called at src/parsers/tree.rs:422). -/
structure DotVertex where
  id : List Char
  label : String
  shape : String
  deriving DecidableEq, Repr

/-- The vertices as the calls of `Labeller` (src/parsers/tree.rs:734-761) describe them. -/
def dotVertices (i : Inner T AK V) : List DotNode → Res (List DotVertex)
  | [] => .ok []
  | x :: xs =>
    match dotNodeId x with
    | .ok id => match dotNodeLabel dbgT dbgAK dbgV i x with
      | .ok label => match dotVertices i xs with
        | .ok vs => .ok (⟨id, label, dotNodeShape x⟩ :: vs)
        | .panic p => .panic p
        | .oof => .oof
      | .panic p => .panic p
      | .oof => .oof
    | .panic p => .panic p
    | .oof => .oof

/-- The edges by name: `source`, `target` (src/parsers/tree.rs:714-720) and `node_id` (734-739). -/
def dotEdgeIds : List (DotNode × DotNode) → Res (List (List Char × List Char))
  | [] => .ok []
  | (x, y) :: es =>
    match dotNodeId x with
    | .ok s => match dotNodeId y with
      | .ok t => match dotEdgeIds es with
        | .ok l => .ok ((s, t) :: l)
        | .panic p => .panic p
        | .oof => .oof
      | .panic p => .panic p
      | .oof => .oof
    | .panic p => .panic p
    | .oof => .oof

/-- What `to_dot` asks to be rendered. -/
structure DotOutput where
  name : List Char
  vertices : List DotVertex
  edges : List (List Char × List Char)
  deriving DecidableEq, Repr

/-- src/parsers/tree.rs:420-424 `Node::to_dot`, up to the text made by `dot::render`. -/
def toDot (fuel : Nat) (w : World T AK V) (node : Node) : Res DotOutput :=
  match dotGraph fuel w node with
  | .ok (ns, es) =>
    match dotGraphId with
    | .ok name => match dotVertices dbgT dbgAK dbgV (w node.tree) ns with
      | .ok vs => match dotEdgeIds es with
        | .ok ids => .ok ⟨name, vs, ids⟩
        | .panic p => .panic p
        | .oof => .oof
      | .panic p => .panic p
      | .oof => .oof
    | .panic p => .panic p
    | .oof => .oof
  | .panic p => .panic p
  | .oof => .oof
end
end Bongo
