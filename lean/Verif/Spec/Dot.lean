import Verif.Model.Dot
import Verif.Spec.Forest
/-!
# Specification: what a drawing of a forest shows

A vertex of the drawing is a node or an alternative of the tree.  Nodes are drawn as points without
text; a branch as a box with its action, a leaf as a box with its kind and its value.
-/
namespace Bongo

/-- The name of a vertex in the drawing: `n` or `a` and its number in decimal notation. -/
def DotNode.name : DotNode → List Char
  | .node i => 'n' :: Nat.toDigits 10 i
  | .alt i => 'a' :: Nat.toDigits 10 i

/-- How a vertex is drawn, in terms of what the public operations report about it. -/
inductive DrawnAs {T AK V : Type} [Ord T] [Ord AK] [Ord V] (dbgT : T → String) (dbgAK : AK → String)
    (dbgV : V → String) (w : World T AK V) (t : Nat) : DotNode → DotVertex → Prop where
  | node {n : Nat} : DrawnAs dbgT dbgAK dbgV w t (.node n) ⟨(DotNode.node n).name, "", "point"⟩
  | branch {a : Nat} {b : Branch} {k : AK} : w.content ⟨a, t⟩ = .ok (.branch b) → w.action b = .ok k →
      DrawnAs dbgT dbgAK dbgV w t (.alt a) ⟨(DotNode.alt a).name, dbgAK k, "box"⟩
  | leaf {a : Nat} {l : Leaf} {k : T} {v : V} : w.content ⟨a, t⟩ = .ok (.leaf l) → w.kind l = .ok k →
      w.value l = .ok v →
      DrawnAs dbgT dbgAK dbgV w t (.alt a) ⟨(DotNode.alt a).name, dbgT k ++ "(" ++ dbgV v ++ ")", "box"⟩

/-- The names the `dot` language allows: a letter or underscore, then letters, digits, underscores. -/
def DotName (s : List Char) : Prop :=
  ∃ c cs, s = c :: cs ∧ (c.isAlpha ∨ c = '_') ∧ ∀ d ∈ cs, d.isAlpha ∨ d.isDigit ∨ d = '_'
end Bongo
