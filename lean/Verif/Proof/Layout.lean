import Verif.Spec.Api
import Verif.Proof.Grammar
/-! Memory layouts in which the productions of a rule fill an array. -/
set_option linter.unusedSectionVars false
namespace Bongo
open Std
variable {T NT AK AV : Type} {g : Grammar T NT AK AV} {addr : NT → Nat → Nat}

/-- Every production lies in the array of its rule. -/
theorem Grammar.prod_rule {p : Prod T NT AK AV} (hp : p ∈ g.prods) :
    ∃ r ∈ g.rules, r.head = p.head ∧ p.index < r.prods.length := by
  unfold Grammar.prods at hp
  obtain ⟨r, hr, hp⟩ := List.mem_flatMap.1 hp
  rw [RuleInner.mem_prodRefs] at hp
  exact ⟨r, hr, hp.1.symm, (List.getElem?_eq_some_iff.1 hp.2).1⟩

/-- In an array layout distinct productions have distinct addresses. -/
theorem AddrPlaced.addrInj (h : AddrPlaced g addr) : AddrInj g addr := by
  obtain ⟨base, size, h1, h2, h3⟩ := h
  intro p hp q hq he
  rw [h2 p hp, h2 q hq] at he
  obtain ⟨r, r1, r2, r3⟩ := Grammar.prod_rule hp
  obtain ⟨r', r1', r2', r3'⟩ := Grammar.prod_rule hq
  have e1 : p.index * size + size ≤ r.prods.length * size := by
    rw [← Nat.succ_mul]; exact Nat.mul_le_mul_right _ r3
  have e2 : q.index * size + size ≤ r'.prods.length * size := by
    rw [← Nat.succ_mul]; exact Nat.mul_le_mul_right _ r3'
  by_cases hh : p.head = q.head
  · refine ⟨hh, ?_⟩
    rw [hh] at he
    exact Nat.eq_of_mul_eq_mul_right h1 (by omega)
  · have := h3 r r1 r' r1' (by rw [r2, r2']; exact hh)
    rw [r2, r2'] at this
    omega

/-- In an array layout later productions of a rule have higher addresses. -/
theorem AddrPlaced.ordered (h : AddrPlaced g addr) : AddrOrdered g addr := by
  obtain ⟨base, size, h1, h2, -⟩ := h
  intro p hp q hq hh hlt
  rw [h2 p hp, h2 q hq, hh]
  exact Nat.add_lt_add_left (Nat.mul_lt_mul_of_pos_right hlt h1) _

/-- No rule has more productions than the grammar. -/
theorem Grammar.rule_length_le {r : RuleInner T NT AK AV} (hr : r ∈ g.rules) :
    r.prods.length ≤ g.prods.length := by
  have : r.prodRefs.length = r.prods.length := by simp [RuleInner.prodRefs]
  rw [← this]
  unfold Grammar.prods
  rw [List.flatMap_def]
  exact (List.sublist_flatten_of_mem (List.mem_map.2 ⟨r, hr, rfl⟩)).length_le

/-- Arrays of rules one after the other, in the order given by `rank`. -/
theorem placed_of_rank (rank : NT → Nat)
    (hr : ∀ r ∈ g.rules, ∀ r' ∈ g.rules, rank r.head = rank r'.head → r.head = r'.head) :
    AddrPlaced g (fun A i => rank A * g.prods.length + i) := by
  refine ⟨fun A => rank A * g.prods.length, 1, Nat.one_pos, fun p _ => by simp, ?_⟩
  intro r h1 r' h2 hne
  have l1 := Grammar.rule_length_le h1
  have l2 := Grammar.rule_length_le h2
  simp only [Nat.mul_one]
  rcases Nat.lt_trichotomy (rank r.head) (rank r'.head) with h | h | h
  · left
    have := Nat.mul_le_mul_right g.prods.length (show rank r.head + 1 ≤ rank r'.head from h)
    rw [Nat.succ_mul] at this
    omega
  · exact absurd (hr r h1 r' h2 h) hne
  · right
    have := Nat.mul_le_mul_right g.prods.length (show rank r'.head + 1 ≤ rank r.head from h)
    rw [Nat.succ_mul] at this
    omega

/-- Every grammar can be placed in memory. -/
theorem exists_placed [DecidableEq NT] (g : Grammar T NT AK AV) : ∃ addr, AddrPlaced g addr := by
  refine ⟨_, placed_of_rank (fun A => (g.rules.map (·.head)).idxOf A) ?_⟩
  intro r h1 r' h2 h
  have m1 : r.head ∈ g.rules.map (·.head) := List.mem_map.2 ⟨r, h1, rfl⟩
  have m2 : r'.head ∈ g.rules.map (·.head) := List.mem_map.2 ⟨r', h2, rfl⟩
  have e1 := List.getElem_idxOf (List.idxOf_lt_length_of_mem m1)
  have e2 := List.getElem_idxOf (List.idxOf_lt_length_of_mem m2)
  rw [← e1, ← e2]
  simp only [h]
end Bongo
