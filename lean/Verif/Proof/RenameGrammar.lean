import Verif.Proof.RenameParse
import Verif.Spec.Api
/-!
# Lemmas: grammars with other names
-/
set_option linter.unusedSectionVars false
namespace Bongo
open Std
variable {T NT AK AV T' NT' AK' AV' : Type} [Ord NT] [Ord NT'] [TransOrd NT] [LawfulEqOrd NT] [TransOrd NT']
  [LawfulEqOrd NT']
variable {ρ : Renaming T NT AK AV T' NT' AK' AV'} {g : Grammar T NT AK AV} {g' : Grammar T' NT' AK' AV'}

theorem Grammar.mem_rules_iff (h : g.WF) {r : RuleInner T NT AK AV} :
    r ∈ g.rules ↔ g.tryGetRule r.head = some r := by
  rw [Grammar.tryGetRule_iff h]
  simp only [Grammar.rules, BMap.values, List.mem_map]
  constructor
  · rintro ⟨⟨k, r'⟩, hm, rfl⟩
    have := h.heads _ _ hm
    simp only at this ⊢
    rw [this]; exact hm
  · intro hm; exact ⟨_, hm, rfl⟩

theorem Grammar.tryGetRule_iff_rules (h : g.WF) {nt : NT} {r : RuleInner T NT AK AV} :
    g.tryGetRule nt = some r ↔ r ∈ g.rules ∧ r.head = nt := by
  constructor
  · intro hr
    have hh := h.heads _ _ ((Grammar.tryGetRule_iff h).1 hr)
    subst hh
    exact ⟨(Grammar.mem_rules_iff h).2 hr, rfl⟩
  · rintro ⟨hr, rfl⟩
    exact (Grammar.mem_rules_iff h).1 hr

theorem Grammar.RenamedTo.tryGetRule (h : g.RenamedTo ρ g') (hw : g.WF) (hw' : g'.WF)
    (hn : ∀ a b, ρ.nonterm a = ρ.nonterm b → a = b) (nt : NT) :
    g'.tryGetRule (ρ.nonterm nt) = (g.tryGetRule nt).map ρ.rule := by
  apply Option.ext
  intro r'
  rw [Grammar.tryGetRule_iff_rules hw', h.2, Option.map_eq_some_iff]
  constructor
  · rintro ⟨⟨r, hr, rfl⟩, hh⟩
    exact ⟨r, (Grammar.tryGetRule_iff_rules hw).2 ⟨hr, hn _ _ hh⟩, rfl⟩
  · rintro ⟨r, hr, rfl⟩
    obtain ⟨h1, rfl⟩ := (Grammar.tryGetRule_iff_rules hw).1 hr
    exact ⟨⟨r, h1, rfl⟩, rfl⟩

theorem Grammar.RenamedTo.prods (h : g.RenamedTo ρ g') (p' : Prod T' NT' AK' AV') :
    p' ∈ g'.prods ↔ ∃ p ∈ g.prods, p' = ρ.prod p := by
  simp only [Grammar.prods, List.mem_flatMap]
  constructor
  · rintro ⟨r', hr', hp⟩
    obtain ⟨r, hr, rfl⟩ := (h.2 r').1 hr'
    rw [ρ.prodRefs, List.mem_map] at hp
    obtain ⟨p, hp, rfl⟩ := hp
    exact ⟨p, ⟨r, hr, hp⟩, rfl⟩
  · rintro ⟨p, ⟨r, hr, hp⟩, rfl⟩
    refine ⟨ρ.rule r, (h.2 _).2 ⟨r, hr, rfl⟩, ?_⟩
    rw [ρ.prodRefs]; exact List.mem_map_of_mem hp

omit [Ord NT] [Ord NT'] [TransOrd NT] [LawfulEqOrd NT] [TransOrd NT'] [LawfulEqOrd NT'] in
theorem Renaming.lifted_rule (r : RuleInner T NT AK AV) : (ρ.rule r).lifted = ρ.start.rule r.lifted := by
  simp only [RuleInner.lifted, Renaming.rule, List.map_map, Renaming.start, RuleInner.mk.injEq, true_and]
  apply List.map_congr_left
  intro p _
  simp only [Function.comp, ProdInner.lifted, Renaming.prodInner, List.map_map, ProdInner.mk.injEq, true_and]
  apply List.map_congr_left
  intro e _
  simp only [Function.comp, Renaming.prodElement, ProdElement.mk.injEq, true_and]
  cases e.element <;> rfl

omit [Ord NT] [Ord NT'] [TransOrd NT] [LawfulEqOrd NT] [TransOrd NT'] [LawfulEqOrd NT'] in
theorem Grammar.wrapped_rules (g : Grammar T NT AK AV) :
    g.wrapped.rules = ⟨.start, [startProduction g.startSymbol]⟩ :: g.rules.map RuleInner.lifted := by
  simp [Grammar.wrapped, Grammar.rules, BMap.values]

omit [Ord NT] [Ord NT'] [TransOrd NT] [LawfulEqOrd NT] [TransOrd NT'] [LawfulEqOrd NT'] in
theorem Grammar.RenamedTo.wrapped (h : g.RenamedTo ρ g') : g.wrapped.RenamedTo ρ.start g'.wrapped := by
  refine ⟨rfl, fun r' => ?_⟩
  simp only [Grammar.wrapped_rules, List.mem_cons, List.mem_map]
  constructor
  · rintro (rfl | ⟨r, hr, rfl⟩)
    · refine ⟨_, .inl rfl, ?_⟩
      rw [h.1]; rfl
    · obtain ⟨r0, hr0, rfl⟩ := (h.2 r).1 hr
      exact ⟨_, .inr ⟨r0, hr0, rfl⟩, ρ.lifted_rule r0⟩
  · rintro ⟨x, (rfl | ⟨r, hr, rfl⟩), rfl⟩
    · left; rw [h.1]; rfl
    · right; exact ⟨_, (h.2 _).2 ⟨r, hr, rfl⟩, ρ.lifted_rule r⟩

/-- A layout of the renamed grammar that puts every production where its counterpart is. -/
theorem Grammar.RenamedTo.placed (h : g.RenamedTo ρ g')
    (hn : ∀ a b, ρ.nonterm a = ρ.nonterm b → a = b) {addr : NT → Nat → Nat}
    (ha : AddrPlaced g addr) :
    ∃ addr' : NT' → Nat → Nat, (∀ A i, addr' (ρ.nonterm A) i = addr A i) ∧ AddrPlaced g' addr' := by
  classical
  obtain ⟨base, size, h0, h1, h2⟩ := ha
  let inv : {X : Type} → (NT → X) → X → NT' → X := fun f d B =>
    if hB : ∃ A, ρ.nonterm A = B then f hB.choose else d
  have hinv : ∀ {X : Type} (f : NT → X) (d : X) (A : NT), inv f d (ρ.nonterm A) = f A := by
    intro X f d A
    have he : ∃ A', ρ.nonterm A' = ρ.nonterm A := ⟨A, rfl⟩
    simp only [inv, dif_pos he]
    rw [hn _ _ he.choose_spec]
  refine ⟨fun B i => inv addr (fun _ => 0) B i, fun A i => by simp only [hinv], inv base 0, size, h0, ?_, ?_⟩
  · intro p' hp'
    obtain ⟨p, hp, rfl⟩ := (h.prods p').1 hp'
    simp only [Renaming.prod, hinv]
    exact h1 p hp
  · intro r₁ hr₁ r₂ hr₂ hne
    obtain ⟨a, ha, rfl⟩ := (h.2 r₁).1 hr₁
    obtain ⟨b, hb, rfl⟩ := (h.2 r₂).1 hr₂
    simp only [Renaming.rule, hinv, List.length_map]
    exact h2 a ha b hb fun e => hne (by simp only [Renaming.rule, e])
end Bongo
