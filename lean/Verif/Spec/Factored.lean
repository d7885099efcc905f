import Verif.Spec.LL1
/-!
# Specification: grammars in which what ends a nonterminal can be told from what continues it
-/
namespace Bongo
variable {T NT AK AV : Type}

/-- Something can be read for `γ`. -/
def Cfg.Fruitful (G : Cfg T NT) (γ : List (Elem T NT)) : Prop := ∃ u : List T, G.Derives γ (u.map .term)

/-- The element derives some text, and a longer one that begins with it and goes on with the terminal `t`. -/
def Cfg.GoesOn (G : Cfg T NT) (e : Elem T NT) (t : T) : Prop :=
  ∃ y z : List T, G.Derives [e] (y.map .term) ∧ G.Derives [e] ((y ++ t :: z).map .term)

/-- No production is empty, and no text of what follows an element in a production begins with a terminal with
which a text of that element could go on. -/
structure Grammar.SeparatedInside (g : Grammar T NT AK AV) : Prop where
  nonempty : ∀ p ∈ g.prods, p.elements ≠ []
  apart : ∀ p ∈ g.prods, ∀ α e e' β, p.elements = α ++ e :: e' :: β → ∀ t, g.cfg.GoesOn e t →
    ∀ z : List T, ¬ g.cfg.Derives [e'] ((t :: z).map .term)

/-- The terminals with which a text of a nonterminal may go on, as seen from the productions: those that the last
nonterminal of a production may go on with, and those that begin what a production has after another one. -/
inductive Grammar.MayGoOn (g : Grammar T NT AK AV) : NT → T → Prop where
  | last {p : Prod T NT AK AV} {α X t} : p ∈ g.prods → p.elements = α ++ [.nonterm X] → g.MayGoOn X t →
      g.MayGoOn p.head t
  | more {p q : Prod T NT AK AV} {Y δ t} : p ∈ g.prods → q ∈ g.prods → q.head = p.head →
      q.elements = p.elements ++ Y :: δ → g.cfg.Fruitful p.elements → g.cfg.Begins [Y] t →
      g.MayGoOn p.head t

/-- One token tells what to do, after taking common beginnings together: no production is empty; where two
productions of a nonterminal part, they go on with different terminals; and what follows a nonterminal in a
production begins with other terminals than those with which the nonterminal may go on. -/
structure Grammar.Factored (g : Grammar T NT AK AV) : Prop where
  nonempty : ∀ p ∈ g.prods, p.elements ≠ []
  fork : ∀ p ∈ g.prods, ∀ q ∈ g.prods, p.head = q.head → ∀ α X β Y δ, p.elements = α ++ X :: β →
    q.elements = α ++ Y :: δ → X ≠ Y → g.cfg.Fruitful α → ∀ t, g.cfg.Begins [X] t → ¬ g.cfg.Begins [Y] t
  apart : ∀ p ∈ g.prods, ∀ α B Y β, p.elements = α ++ .nonterm B :: Y :: β → ∀ t, g.MayGoOn B t →
    ¬ g.cfg.Begins [Y] t

/-- No rule has the same production twice (other than productions for which nothing can be read). -/
def Grammar.NoRepeats (g : Grammar T NT AK AV) : Prop :=
  ∀ p ∈ g.prods, ∀ q ∈ g.prods, p.head = q.head → p.elements = q.elements → g.cfg.Fruitful p.elements → p = q

/-- The terminals the FIRST sets give for an element. -/
def Elem.starts [Ord NT] (f : Firsts T NT) : Elem T NT → List T
  | .term t => [t]
  | .nonterm A => (f.get A).getD []

/-- The same conditions, to be checked with the FIRST sets the crate computes and a table of the terminals with
which nonterminals may go on. -/
structure Grammar.FactoredCheck [Ord NT] (g : Grammar T NT AK AV) (f : Firsts T NT) (table : NT → List T) : Prop where
  nonempty : ∀ p ∈ g.prods, p.elements ≠ []
  distinct : ∀ p ∈ g.prods, ∀ q ∈ g.prods, p.head = q.head → p.elements = q.elements → p = q
  fork : ∀ p ∈ g.prods, ∀ q ∈ g.prods, p.head = q.head → ∀ n < p.elements.length, p.elements.take n = q.elements.take n →
    ∀ X ∈ p.elements[n]?, ∀ Y ∈ q.elements[n]?, X ≠ Y → ∀ t ∈ X.starts f, t ∉ Y.starts f
  last : ∀ p ∈ g.prods, ∀ X, p.elements.getLast? = some (.nonterm X) → ∀ t ∈ table X, t ∈ table p.head
  more : ∀ p ∈ g.prods, ∀ q ∈ g.prods, q.head = p.head → q.elements.take p.elements.length = p.elements →
    ∀ Y ∈ q.elements[p.elements.length]?, ∀ t ∈ Y.starts f, t ∈ table p.head
  apart : ∀ p ∈ g.prods, ∀ n < p.elements.length, ∀ B, p.elements[n]? = some (.nonterm B) →
    ∀ Y ∈ p.elements[n + 1]?, ∀ t ∈ table B, t ∉ Y.starts f
end Bongo
