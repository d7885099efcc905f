import Verif.Spec.Cfg
import Verif.Model.Firsts
/-!
# Specification: grammars whose productions are told apart by one token
-/
namespace Bongo
variable {T NT AK AV : Type}

/-- Something derived from `γ` begins with the terminal `t`. -/
def Cfg.Begins (G : Cfg T NT) (γ : List (Elem T NT)) (t : T) : Prop :=
  ∃ δ, G.Derives γ (.term t :: δ)

/-- No production is empty, and two productions of one nonterminal never begin with the same
terminal. -/
structure Grammar.LL1 (g : Grammar T NT AK AV) : Prop where
  nonempty : ∀ p ∈ g.prods, p.elements ≠ []
  choice : ∀ p ∈ g.prods, ∀ q ∈ g.prods, p.head = q.head → ∀ t,
    g.cfg.Begins p.elements t → g.cfg.Begins q.elements t → p = q

/-- No production is empty, and what a nonterminal that is followed by something in a production
generates never begins with something else it generates. -/
structure Grammar.PrefixFreeInside (g : Grammar T NT AK AV) : Prop where
  nonempty : ∀ p ∈ g.prods, p.elements ≠ []
  free : ∀ p ∈ g.prods, ∀ B, Elem.nonterm B ∈ p.elements.dropLast → ∀ u v,
    g.cfg.Generates B u → g.cfg.Generates B (u ++ v) → v = []

/-- No production is empty, and nonterminals occur only at the end of productions. -/
def Grammar.RightLinear (g : Grammar T NT AK AV) : Prop :=
  ∀ p ∈ g.prods, p.elements ≠ [] ∧ ∀ B, Elem.nonterm B ∉ p.elements.dropLast

/-- The terminals the FIRST sets give for the first element of a production. -/
def Prod.starts [Ord NT] (f : Firsts T NT) (p : Prod T NT AK AV) : List T :=
  match p.elements with
  | [] => []
  | .term t :: _ => [t]
  | .nonterm A :: _ => (f.get A).getD []

/-- The same condition, to be checked with the FIRST sets the crate computes. -/
def Grammar.LL1Check [Ord NT] (g : Grammar T NT AK AV) (f : Firsts T NT) : Prop :=
  (∀ p ∈ g.prods, p.elements ≠ []) ∧
  ∀ p ∈ g.prods, ∀ q ∈ g.prods, p.head = q.head → ∀ t ∈ p.starts f, t ∈ q.starts f → p = q
end Bongo
