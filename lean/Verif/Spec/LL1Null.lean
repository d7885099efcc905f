import Verif.Spec.LL1
/-!
# Specification: grammars for predictive parsing, with empty productions
-/
namespace Bongo
variable {T NT AK AV : Type}

/-- In something that some nonterminal derives, `A` is followed by the terminal `t`. -/
def Cfg.FollowedBy (G : Cfg T NT) (A : NT) (t : T) : Prop :=
  ∃ B u v, G.Derives [.nonterm B] (u ++ .nonterm A :: .term t :: v)

/-- The textbook condition LL(1): two productions of a nonterminal never begin with the same terminal, and if one of
them derives the empty text, the other never begins with a terminal that can follow the nonterminal.  (The third
part of it, that not both derive the empty text, is what the nullable pass checks.) -/
structure Grammar.LL1Null (g : Grammar T NT AK AV) : Prop where
  choice : ∀ p ∈ g.prods, ∀ q ∈ g.prods, p.head = q.head → ∀ t,
    g.cfg.Begins p.elements t → g.cfg.Begins q.elements t → p = q
  null : ∀ p ∈ g.prods, ∀ q ∈ g.prods, p.head = q.head → p ≠ q → g.cfg.Derives p.elements [] → ∀ t,
    g.cfg.Begins q.elements t → ¬ g.cfg.FollowedBy p.head t

/-- The terminals that can begin a list of elements, as the FIRST sets `f` and the nullable nonterminals `i` of the
crate have it. -/
def startsOf [Ord NT] (i : GrammarNullableInfo NT AK) (f : Firsts T NT) : List (Elem T NT) → List T
  | [] => []
  | .term t :: _ => [t]
  | .nonterm A :: es => (f.get A).getD [] ++ if i.isNullable A then startsOf i f es else []

/-- All elements are nullable nonterminals. -/
def vanishes [Ord NT] (i : GrammarNullableInfo NT AK) : List (Elem T NT) → Bool
  | [] => true
  | .term _ :: _ => false
  | .nonterm A :: es => i.isNullable A && vanishes i es

/-- The same conditions, to be checked with what the crate computes and a table of the terminals that may follow
nonterminals. -/
structure Grammar.LL1NullCheck [Ord NT] (g : Grammar T NT AK AV) (i : GrammarNullableInfo NT AK) (f : Firsts T NT)
    (table : NT → List T) : Prop where
  choice : ∀ p ∈ g.prods, ∀ q ∈ g.prods, p.head = q.head → p ≠ q → ∀ t ∈ startsOf i f p.elements,
    t ∉ startsOf i f q.elements
  null : ∀ p ∈ g.prods, ∀ q ∈ g.prods, p.head = q.head → p ≠ q → vanishes i p.elements = true →
    ∀ t ∈ startsOf i f q.elements, t ∉ table p.head
  beside : ∀ p ∈ g.prods, ∀ n < p.elements.length, ∀ B, p.elements[n]? = some (.nonterm B) →
    ∀ t ∈ startsOf i f (p.elements.drop (n + 1)), t ∈ table B
  inside : ∀ p ∈ g.prods, ∀ n < p.elements.length, ∀ B, p.elements[n]? = some (.nonterm B) →
    vanishes i (p.elements.drop (n + 1)) = true → ∀ t ∈ table p.head, t ∈ table B
end Bongo
