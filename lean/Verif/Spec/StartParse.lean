import Verif.Spec.Earley
/-!
# Specification: `parse` on a start grammar that was built directly

`StartGrammar` is only a type alias, so a user of the crate can build one with `build` instead of
`wrap_grammar_with_start` and give it to `parse`.  Here: the notions by which its behaviour is
described for every grammar over the terminals `Term(t)` and `EndOfStream`.
-/
namespace Bongo
section
variable {T NT AK AV : Type}

/-- Production `p` was expected after `u`, and its first `d` elements derive `v`. -/
def Grammar.At (g : Grammar T NT AK AV) (p : Prod T NT AK AV) (d : Nat) (u v : List T) : Prop :=
  p ∈ g.prods ∧ d ≤ p.elements.length ∧
  (∃ δ, g.cfg.Derives [.nonterm g.startSymbol] (u.map .term ++ .nonterm p.head :: δ)) ∧
  g.cfg.Derives (p.elements.take d) (v.map .term)

/-- After `w` some production that was started at one point can be at two positions. -/
def Grammar.TwoPlaces (g : Grammar T NT AK AV) (w : List T) : Prop :=
  ∃ p d₁ d₂ u v, w = u ++ v ∧ d₁ < d₂ ∧ g.At p d₁ u v ∧ g.At p d₂ u v

/-- The terminals of a start grammar that the tokens stand for. -/
def streamKinds {V : Type} (toks : List (Token T V)) : List (StreamTerminal T) :=
  toks.map fun t => .term t.kind

/-- After `w` a whole production whose action is the start action is done, and its head was the next
element of some production. -/
def StartReduced (g : StartGrammar T NT AK AV) (w : List (StreamTerminal T)) : Prop :=
  ∃ p d q x u v, w = x ++ u ++ v ∧ g.At p d x u ∧ p.elements[d]? = some (.nonterm q.head) ∧
    g.At q q.elements.length (x ++ u) v ∧ q.actionKey = .start

/-- After all tokens, production `p`, started at token `i`, is before the end of stream at its
position `d`. -/
def StopsAt {V : Type} (g : StartGrammar T NT AK AV) (toks : List (Token T V)) (p : SProd T NT AK AV)
    (d i : Nat) : Prop :=
  i ≤ toks.length ∧ g.At p d (streamKinds (toks.take i)) (streamKinds (toks.drop i)) ∧
    p.elements[d]? = some (.term .endOfStream)

/-- `p`, `d`, `i` comes first among the productions that stop before the end of stream: it has the
lowest address and, among those of one address, was started first. -/
def FirstStop {V : Type} (addr : StartNonTerminal NT → Nat → Nat) (g : StartGrammar T NT AK AV)
    (toks : List (Token T V)) (p : SProd T NT AK AV) (d i : Nat) : Prop :=
  StopsAt g toks p d i ∧ ∀ p' d' i', StopsAt g toks p' d' i' →
    addr p.head p.index < addr p'.head p'.index ∨
      (addr p.head p.index = addr p'.head p'.index ∧ i ≤ i')
end
end Bongo
