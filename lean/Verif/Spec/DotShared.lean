import Verif.Spec.Dot
import Mathlib.Logic.Relation
/-!
# Specification: a tree over time

Threads share trees.  A moment is the memory and the handles the threads have; from one moment to a
later one the threads have made any calls with the handles they had, and created any owners.
-/
namespace Bongo
variable {T AK V : Type} [Ord T] [Ord AK] [Ord V]

/-- From a moment to a later one (or the same). -/
inductive Later (w : World T AK V) (held : List Handle) : World T AK V → List Handle → Prop where
  | now : Later w held w held
  | newOwner {w' held'} (t : Nat) : Later w held w' held' → (∀ h ∈ held', h.owner ≠ t) →
      Later w held w' (.tree t :: held')
  | call {w' held'} (op : TreeOp T AK V) : Later w held w' held' → op.Allowed held' →
      Later w held (op.exec w').1 (TreeOut.gives (op.exec w').2 ++ held')

/-- A sequence of moments. -/
def Moments (ws : Nat → World T AK V) (held : Nat → List Handle) : Prop :=
  ∀ k, Later (ws k) (held k) (ws (k + 1)) (held (k + 1))

/-- How many nodes and alternatives a tree has. -/
def World.size (w : World T AK V) (t : Nat) : Nat :=
  (w t).nodes.length + (w t).alternatives.idToValue.length

/-- How many alternatives a list of things has. -/
def altsAmong : List DotNode → Nat
  | [] => 0
  | .node _ :: l => altsAmong l
  | .alt _ :: l => altsAmong l + 1

/-- What a drawing of node `n` shows that was begun at moment 0 and was ready at moment `k`, when the
things to be drawn were all found at moment `m`: they are the vertices. -/
structure DrawnBetween (dbgT : T → String) (dbgAK : AK → String) (dbgV : V → String)
    (ws : Nat → World T AK V) (n : Node) (m k : Nat) (drawn : List DotNode) (out : DotOutput) : Prop where
  order : m ≤ k
  /-- To find them, the tree is looked at once for each of them and once for the node itself. -/
  search : m = 1 + drawn.length
  /-- Then it is looked at once for each of them, for its edges, and once more for each alternative, for
  its label. -/
  reads : k = m + altsAmong drawn + drawn.length
  name : out.name = "G".toList
  /-- One vertex for each thing drawn, in order, and no thing twice. -/
  ids : out.vertices.map (·.id) = drawn.map DotNode.name
  once : drawn.Nodup
  /-- It is drawn as what the public operations report about it then (and ever after). -/
  shown : ∀ v, v ∈ out.vertices ↔ ∃ x ∈ drawn, DrawnAs dbgT dbgAK dbgV (ws m) n.tree x v
  /-- All that could be reached at the beginning is drawn. -/
  complete : ∀ x, Relation.TransGen (ForestArrow (ws 0) n.tree) (.node n.index) x → x ∈ drawn
  /-- All that is drawn could be reached at moment `m`, passing only by things that are drawn. -/
  sound : ∀ x ∈ drawn, Relation.TransGen
    (fun a b => ForestArrow (ws m) n.tree a b ∧ b ∈ drawn) (.node n.index) x
  /-- The edges that leave a node are its alternatives at some moment after `m`, in order. -/
  alts : ∀ i, .node i ∈ drawn → ∃ j l, m ≤ j ∧ j < k ∧ (ws j).alts ⟨i, n.tree⟩ = .ok l ∧
    out.edges.filter (fun e => e.1 = (DotNode.node i).name) =
      l.map (fun a => ((DotNode.node i).name, (DotNode.alt a.index).name))
  /-- The edges that leave an alternative are its children, in order; none for a leaf. -/
  children : ∀ i, .alt i ∈ drawn →
    (∀ b l, (ws m).content ⟨i, n.tree⟩ = .ok (.branch b) → (ws m).branchNodes b = .ok l →
      out.edges.filter (fun e => e.1 = (DotNode.alt i).name) =
        l.map (fun c => ((DotNode.alt i).name, (DotNode.node c.index).name))) ∧
    (∀ l, (ws m).content ⟨i, n.tree⟩ = .ok (.leaf l) →
      out.edges.filter (fun e => e.1 = (DotNode.alt i).name) = [])
  /-- Nothing else has edges. -/
  sources : ∀ e ∈ out.edges, ∃ x ∈ drawn, e.1 = x.name
end Bongo
