import Verif.Proof.ForestIso
import Verif.Props.Mix
/-!
# C120: the forest that `parse` returns has the same shape for every layout in memory
-/
set_option linter.unusedSectionVars false
namespace Bongo
open Std
variable {T NT AK AV V : Type}
variable [Ord T] [Ord NT] [Ord AK] [Ord V] [DecidableEq T] [DecidableEq NT]
variable [TransOrd T] [TransOrd NT] [TransOrd AK] [TransOrd V]
variable [LawfulEqOrd T] [LawfulEqOrd NT] [LawfulEqOrd AK] [LawfulEqOrd V]
variable {addr addr' : StartNonTerminal NT → Nat → Nat} {g : Grammar T NT AK AV}

/-- C120: two calls of `parse` with the same grammar and tokens, wherever the arrays of the rules lie in
memory and whatever trees and calls there were before, return forests of the same shape: the nodes can
be paired one to one, the returned nodes with each other, such that the alternatives of the nodes of a
pair say the same, one for one. -/
theorem parse_forest_shape (hg : g.Accepted) (ha : AddrPlaced g.wrapped addr)
    (ha' : AddrPlaced g.wrapped addr') {log₁ log₂ : TreeLog T AK V} {w₁ w₂ w₁' w₂' : World T AK V}
    {held₁ held₂ : List Handle} (hist₁ : History log₁ w₁ held₁) (hist₂ : History log₂ w₂ held₂)
    {t₁ t₂ fuel₁ fuel₂ : Nat} {toks : List (Token T V)} {n₁ n₂ : Node}
    (h₁ : parse addr g.wrapped fuel₁ w₁ t₁ toks = .ok (w₁', some n₁))
    (h₂ : parse addr' g.wrapped fuel₂ w₂ t₂ toks = .ok (w₂', some n₂)) :
    ∃ R, SameForest R w₁' w₂' ∧ R n₁ n₂ := by
  obtain ⟨R, h, hn, -⟩ := parse_sameForest hg ha.addrInj ha.ordered ha'.addrInj ha'.ordered hist₁ hist₂ h₁ h₂
  exact ⟨R, h, hn⟩

/-- Whatever can be read off a node can be read off the one it is paired with (C87 is a special case). -/
theorem same_shape_reads {R : Node → Node → Prop} {w₁ w₂ : World T AK V} (h : SameForest R w₁ w₂)
    {n₁ n₂ : Node} (hn : R n₁ n₂) (s : DTree (Token T V) AK) : Reads w₁ s n₁ ↔ Reads w₂ s n₂ :=
  ⟨h.reads s _ _ hn, h.flip.reads s _ _ hn⟩

/-- Every node below the one is paired with a node below the other. -/
theorem same_shape_under {R : Node → Node → Prop} {w₁ w₂ : World T AK V} (h : SameForest R w₁ w₂)
    {n₁ n₂ : Node} (hn : R n₁ n₂) :
    (∀ m₁, Under w₁ n₁ m₁ → ∃ m₂, Under w₂ n₂ m₂ ∧ R m₁ m₂) ∧
      ∀ m₂, Under w₂ n₂ m₂ → ∃ m₁, Under w₁ n₁ m₁ ∧ R m₁ m₂ :=
  ⟨fun _ hm => h.under hn hm, fun _ hm => h.flip.under hn hm⟩

/-- C120 for `to_dot`: the graphs it draws of the two returned nodes are the same up to names.  Their
nodes can be paired one to one, nodes with nodes, leaves with the same kind and value, branches with the
same action; and there is an arrow between two of the one exactly if there is one between those of the
other. -/
theorem parse_dot_shape (hg : g.Accepted) (ha : AddrPlaced g.wrapped addr)
    (ha' : AddrPlaced g.wrapped addr') {log₁ log₂ : TreeLog T AK V} {w₁ w₂ w₁' w₂' : World T AK V}
    {held₁ held₂ : List Handle} (hist₁ : History log₁ w₁ held₁) (hist₂ : History log₂ w₂ held₂)
    {t₁ t₂ fuel₁ fuel₂ : Nat} {toks : List (Token T V)} {n₁ n₂ : Node}
    (h₁ : parse addr g.wrapped fuel₁ w₁ t₁ toks = .ok (w₁', some n₁))
    (h₂ : parse addr' g.wrapped fuel₂ w₂ t₂ toks = .ok (w₂', some n₂)) :
    ∃ (R : Node → Node → Prop) (D : DotNode → DotNode → Prop), R n₁ n₂ ∧
      D = SameDot R w₁' n₁.tree w₂' n₂.tree ∧
      ∃ N ns₁ es₁ ns₂ es₂ ns, (∀ fuel ≥ N, dotGraph fuel w₁' n₁ = .ok (ns₁, es₁)) ∧
      (∀ fuel ≥ N, dotGraph fuel w₂' n₂ = .ok (ns₂, es₂)) ∧ ns.Perm ns₂ ∧ List.Forall₂ D ns₁ ns ∧
      (∀ x y y', D x y → D x y' → y = y') ∧ (∀ x x' y, D x y → D x' y → x = x') ∧
      ∀ x y x' y', D x x' → D y y' → ((x, y) ∈ es₁ ↔ (x', y') ∈ es₂) := by
  obtain ⟨R, h, hn, k1, k2, k3, k4⟩ :=
    parse_sameForest hg ha.addrInj ha.ordered ha'.addrInj ha'.ordered hist₁ hist₂ h₁ h₂
  exact ⟨R, _, hn, rfl, h.dot hn k1 k2 k3 k4⟩

/-- The hypotheses of C120 are met, by layouts with the rules in opposite orders, for a grammar and an
input that productions divide in two ways. -/
example : splitExample.Accepted ∧ AddrPlaced splitExample.wrapped exampleSAddr ∧
    AddrPlaced splitExample.wrapped exampleSAddr' ∧ ∃ w₁ n₁ w₂ n₂,
    parse exampleSAddr splitExample.wrapped 9 (World.new : World Nat Nat Nat) 7
      (exampleToks [1, 2, 3, 4, 5]) = .ok (w₁, some n₁) ∧
    parse exampleSAddr' splitExample.wrapped 9 (World.new : World Nat Nat Nat) 3
      (exampleToks [1, 2, 3, 4, 5]) = .ok (w₂, some n₂) :=
  ⟨splitExample_accepted, exampleSAddr_placed _ (by decide), exampleSAddr'_placed _ (by decide),
    _, _, _, _, rfl, rfl⟩

/-- C120: the indices of nodes (which the names of nodes in `to_dot` show, and by which nodes are
ordered) do depend on the placement of the rules in memory, so "the same" cannot be said of them. -/
theorem parse_node_index_layout : splitExample.Accepted ∧ AddrPlaced splitExample.wrapped exampleSAddr ∧
    AddrPlaced splitExample.wrapped exampleSAddr' ∧ ∃ w₁ n₁ w₂ n₂,
    parse exampleSAddr splitExample.wrapped 9 (World.new : World Nat Nat Nat) 7
      (exampleToks [1, 2, 3, 4, 5]) = .ok (w₁, some n₁) ∧
    parse exampleSAddr' splitExample.wrapped 9 (World.new : World Nat Nat Nat) 7
      (exampleToks [1, 2, 3, 4, 5]) = .ok (w₂, some n₂) ∧ n₁ ≠ n₂ :=
  ⟨splitExample_accepted, exampleSAddr_placed _ (by decide), exampleSAddr'_placed _ (by decide),
    _, ⟨26, 7⟩, _, ⟨27, 7⟩, rfl, rfl, by decide⟩
end Bongo
