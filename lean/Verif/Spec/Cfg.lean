import Verif.Model.Grammar
import Mathlib.Logic.Relation
/-!
# Specification: context-free derivations

The textbook notions, independent of the code: one-step rewriting of sentential forms, its
reflexive transitive closure, and languages.
-/
namespace Bongo

/-- A context-free grammar as a start symbol and a relation "`A` may be rewritten to `β`". -/
structure Cfg (T N : Type) where
  start : N
  prod : N → List (Elem T N) → Prop

namespace Cfg
variable {T N : Type} (G : Cfg T N)

/-- One rewriting step: `u A v ⟶ u β v`. -/
inductive Step : List (Elem T N) → List (Elem T N) → Prop where
  | mk (u v : List (Elem T N)) (A : N) (β : List (Elem T N)) :
      G.prod A β → Step (u ++ .nonterm A :: v) (u ++ β ++ v)

/-- `α ⟶* β`. -/
def Derives : List (Elem T N) → List (Elem T N) → Prop := Relation.ReflTransGen G.Step

/-- The words derived from a nonterminal. -/
def Generates (A : N) (w : List T) : Prop := G.Derives [.nonterm A] (w.map .term)

/-- The language of the grammar. -/
def InLanguage (w : List T) : Prop := G.Generates G.start w

/-- `A` occurs in a right-hand side of `B`'s productions: one expansion step. -/
def Mentions (B A : N) : Prop := ∃ β, G.prod B β ∧ Elem.nonterm A ∈ β
end Cfg

/-- The context-free grammar a `Grammar` value denotes: `A` may be rewritten to the elements of
any production listed under `A` in the rule map. -/
def Grammar.cfg {T NT AK AV : Type} (g : Grammar T NT AK AV) : Cfg T NT where
  start := g.startSymbol
  prod A β := ∃ r p, (A, r) ∈ g.ruleSet ∧ p ∈ r.prods ∧ β = p.elements.map (·.element)

end Bongo
