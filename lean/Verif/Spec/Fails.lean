import Verif.Spec.Walk
/-!
# Specification: grammars whose sentences cannot all be parsed
-/
namespace Bongo
variable {T NT AK AV : Type}

/-- Two different beginnings of a production derive the same text. -/
def Grammar.Overlaps (g : Grammar T NT AK AV) : Prop :=
  ∃ A β d₁ d₂, ∃ v : List T, g.cfg.prod A β ∧ d₁ < d₂ ∧ d₂ ≤ β.length ∧
    g.cfg.Derives (β.take d₁) (v.map .term) ∧ g.cfg.Derives (β.take d₂) (v.map .term)

/-- A grammar without useless parts: every production occurs in a derivation of some text. -/
structure Grammar.Trim (g : Grammar T NT AK AV) : Prop where
  reached : g.AllReached
  noDeadEnds : g.NoDeadEnds
end Bongo
