import Verif.Model.Grammar
/-!
# Specification: grammars as users obtain them
-/
namespace Bongo
variable {T NT AK AV : Type}

/-- A grammar returned by `build` (every `Grammar` value of the crate comes from `Grammar::new`,
which `build` calls with the declared rules). -/
def Grammar.Accepted [Ord NT] (g : Grammar T NT AK AV) : Prop :=
  ∃ fuel start calls, buildGrammar fuel start calls = .ok (.ok g)

/-- Distinct productions of the grammar live at distinct addresses. -/
def AddrInj (g : Grammar T NT AK AV) (addr : NT → Nat → Nat) : Prop :=
  ∀ p ∈ g.prods, ∀ q ∈ g.prods, addr p.head p.index = addr q.head q.index →
    p.head = q.head ∧ p.index = q.index

/-- Later productions of a rule live at higher addresses. -/
def AddrOrdered (g : Grammar T NT AK AV) (addr : NT → Nat → Nat) : Prop :=
  ∀ p ∈ g.prods, ∀ q ∈ g.prods, p.head = q.head → p.index < q.index →
    addr p.head p.index < addr q.head q.index

/-- How productions can lie in memory: those of one rule fill an array
(src/grammar/base.rs:`RuleInner.prods`), in the order in which they were added, and the arrays of
different rules lie anywhere apart from each other. -/
def AddrPlaced (g : Grammar T NT AK AV) (addr : NT → Nat → Nat) : Prop :=
  ∃ (base : NT → Nat) (size : Nat), 0 < size ∧
    (∀ p ∈ g.prods, addr p.head p.index = base p.head + p.index * size) ∧
    ∀ r ∈ g.rules, ∀ r' ∈ g.rules, r.head ≠ r'.head →
      base r.head + r.prods.length * size ≤ base r'.head ∨
      base r'.head + r'.prods.length * size ≤ base r.head

end Bongo
