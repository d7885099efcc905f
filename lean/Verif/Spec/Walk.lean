import Verif.Spec.Earley
import Mathlib.Data.Set.Finite.Basic
/-!
# Specification: walking down a forest, and how many derivation trees an input has
-/
namespace Bongo
section
variable {T AK V : Type}

/-- A program can go from node `n` to node `m`: `alts` of `n` lists an alternative whose `content` is
a branch that has `m` among its `nodes`. -/
def World.Child (w : World T AK V) (m n : Node) : Prop :=
  ∃ alts a b ns, w.alts n = .ok alts ∧ a ∈ alts ∧ w.content a = .ok (.branch b) ∧
    w.branchNodes b = .ok ns ∧ m ∈ ns

/-- Every walk down from `n` comes to an end. -/
def World.WalkEnds (w : World T AK V) (n : Node) : Prop :=
  ¬ ∃ f : Nat → Node, f 0 = n ∧ ∀ i, w.Child (f (i + 1)) (f i)
end

section
variable {T NT AK AV V : Type}

/-- The derivation trees of the input: of the start symbol, with the tokens at the leaves. -/
def Grammar.treesOf (g : Grammar T NT AK AV) (toks : List (Token T V)) :
    Set (DTree (Token T V) (Prod T NT AK AV)) :=
  {d | IsTree g (·.kind) (.nonterm g.startSymbol) d ∧ d.yield = toks}

/-- No nonterminal derives itself by one or more steps. -/
def Grammar.Acyclic (g : Grammar T NT AK AV) : Prop :=
  ∀ A β, g.cfg.prod A β → ¬ g.cfg.Derives β [.nonterm A]

/-- Every nonterminal with productions occurs in a sentential form. -/
def Grammar.AllReached (g : Grammar T NT AK AV) : Prop :=
  ∀ A β, g.cfg.prod A β →
    ∃ γ δ, g.cfg.Derives [.nonterm g.startSymbol] (γ ++ .nonterm A :: δ)
end
end Bongo
