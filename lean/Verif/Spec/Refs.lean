import Verif.Model.Refs
/-!
# Specification: several grammars in memory
-/
namespace Bongo
variable {T NT AK AV : Type}

/-- Grammars that are alive together: different objects have different addresses. -/
structure Apart (gs : List (Placed T NT AK AV)) : Prop where
  grammars : ∀ g ∈ gs, ∀ h ∈ gs, g.base = h.base → g = h
  rules : ∀ g ∈ gs, ∀ h ∈ gs, ∀ r ∈ g.grammar.rules, ∀ s ∈ h.grammar.rules,
    g.ruleAddr r.head = h.ruleAddr s.head → g = h ∧ r.head = s.head
  prods : ∀ g ∈ gs, ∀ h ∈ gs, ∀ p ∈ g.grammar.prods, ∀ q ∈ h.grammar.prods,
    g.prodAddr p.head p.index = h.prodAddr q.head q.index →
      g = h ∧ p.head = q.head ∧ p.index = q.index
end Bongo
