import Verif.Proof.Cfg
import Verif.Proof.Utils
/-! Lemmas about grammars and their validity check. -/
set_option linter.unusedSectionVars false
namespace Bongo
open Std

namespace Elem
variable {T NT : Type}

@[simp] theorem asNonterm_eq_some {e : Elem T NT} {nt : NT} :
    e.asNonterm = some nt ↔ e = .nonterm nt := by cases e <;> simp [asNonterm]
@[simp] theorem asTerm_eq_some {e : Elem T NT} {t : T} :
    e.asTerm = some t ↔ e = .term t := by cases e <;> simp [asTerm]

variable [Ord T] [Ord NT]

instance [TransOrd T] [TransOrd NT] : TransOrd (Elem T NT) where
  eq_swap := by
    intro a b
    cases a <;> cases b <;> simp only [compare, Elem.cmp, Ordering.swap] <;>
      exact OrientedCmp.eq_swap (cmp := compare)
  isLE_trans := by
    intro a b c
    cases a <;> cases b <;> cases c <;> simp only [compare, Elem.cmp] <;>
      first
        | exact TransCmp.isLE_trans (cmp := compare)
        | (intros; simp_all)

instance [LawfulEqOrd T] [LawfulEqOrd NT] : LawfulEqOrd (Elem T NT) where
  compare_self := by
    intro a; cases a <;> simp only [compare, Elem.cmp] <;> exact ReflCmp.compare_self (cmp := compare)
  eq_of_compare := by
    intro a b
    cases a <;> cases b <;> simp only [compare, Elem.cmp] <;> intro h <;>
      first
        | (cases h; done)
        | exact congrArg _ (LawfulEqCmp.eq_of_compare (cmp := compare) h)
end Elem

namespace RuleInner
variable {T NT AK AV : Type}

theorem mem_prodRefs {r : RuleInner T NT AK AV} {p : Prod T NT AK AV} :
    p ∈ r.prodRefs ↔ p.head = r.head ∧ r.prods[p.index]? = some p.inner := by
  unfold prodRefs
  simp only [List.mem_map, Prod.exists]
  constructor
  · rintro ⟨q, i, hm, rfl⟩
    exact ⟨rfl, List.mem_zipIdx_iff_getElem?.1 hm⟩
  · rintro ⟨h1, h2⟩
    exact ⟨p.inner, p.index, List.mem_zipIdx_iff_getElem?.2 h2, by cases p; simp_all⟩

theorem prodRefs_map_inner (r : RuleInner T NT AK AV) : r.prodRefs.map (·.inner) = r.prods := by
  unfold prodRefs
  rw [List.map_map]
  conv => rhs; rw [← List.zipIdx_map_fst 0 r.prods]
  rfl

theorem prodRefs_isEmpty {r : RuleInner T NT AK AV} : r.prodRefs = [] ↔ r.prods = [] := by
  rw [← prodRefs_map_inner]; simp

theorem prodRefs_flatMap_elements (r : RuleInner T NT AK AV) :
    r.prodRefs.flatMap (·.elements) = r.prods.flatMap (·.elems) := by
  rw [← prodRefs_map_inner r, List.flatMap_map]; rfl
end RuleInner

namespace Grammar
variable {T NT AK AV : Type} [Ord NT] [TransOrd NT] [LawfulEqOrd NT]

/-- The representation invariant of a grammar's rule map. -/
structure WF (g : Grammar T NT AK AV) : Prop where
  sorted : BMap.Sorted compare g.ruleSet
  heads : ∀ k r, (k, r) ∈ g.ruleSet → r.head = k

theorem tryGetRule_iff {g : Grammar T NT AK AV} (h : g.WF) {nt : NT} {r} :
    g.tryGetRule nt = some r ↔ (nt, r) ∈ g.ruleSet := (BMap.mem_iff_get? h.sorted nt r).symm

theorem ofRules_wf (start : NT) (rules : List (RuleInner T NT AK AV)) : (ofRules start rules).WF := by
  refine ⟨BMap.sorted_ofList _, ?_⟩
  unfold ofRules BMap.ofList
  simp only
  suffices ∀ m : BMap NT (RuleInner T NT AK AV), (∀ k r, (k, r) ∈ m → r.head = k) →
      ∀ k r, (k, r) ∈ (rules.map (fun r => (r.head, r))).foldl
        (fun m kv => BMap.insert compare m kv.1 kv.2) m → r.head = k from this [] (by simp)
  induction rules with
  | nil => intro m h; exact h
  | cons r rules ih =>
    intro m h
    simp only [List.map_cons, List.foldl_cons]
    apply ih
    intro k r' hm
    have : ∀ m : BMap NT (RuleInner T NT AK AV), (k, r') ∈ BMap.insert compare m r.head r →
        (k, r') ∈ m ∨ (k = r.head ∧ r' = r) := by
      intro m
      induction m with
      | nil => simp [BMap.insert]
      | cons x m ihm =>
        obtain ⟨k1, r1⟩ := x
        rw [BMap.insert]
        cases hc : compare r.head k1 with
        | lt => simp; grind
        | eq =>
          have := LawfulEqCmp.eq_of_compare hc
          simp; grind
        | gt => simp; grind
    rcases this m hm with h1 | ⟨rfl, rfl⟩
    · exact h k r' h1
    · rfl

theorem mem_prods {g : Grammar T NT AK AV} (h : g.WF) {p : Prod T NT AK AV} :
    p ∈ g.prods ↔ ∃ r, g.tryGetRule p.head = some r ∧ r.prods[p.index]? = some p.inner := by
  unfold prods rules BMap.values
  simp only [List.mem_flatMap, List.mem_map, RuleInner.mem_prodRefs]
  constructor
  · rintro ⟨r, ⟨⟨k, r'⟩, hm, rfl⟩, h1, h2⟩
    have hk := h.heads k r' hm
    simp only at h1 h2 hk
    refine ⟨r', ?_, h2⟩
    rw [tryGetRule_iff h, h1, hk]; exact hm
  · rintro ⟨r, h1, h2⟩
    rw [tryGetRule_iff h] at h1
    exact ⟨r, ⟨_, h1, rfl⟩, (h.heads _ _ h1).symm, h2⟩

theorem cfg_prod_iff {g : Grammar T NT AK AV} (h : g.WF) {A : NT} {β : List (Elem T NT)} :
    g.cfg.prod A β ↔ ∃ p ∈ g.prods, p.head = A ∧ p.elements = β := by
  simp only [cfg]
  constructor
  · rintro ⟨r, p, h1, h2, rfl⟩
    obtain ⟨i, hi, rfl⟩ := List.mem_iff_getElem.1 h2
    refine ⟨⟨A, i, r.prods[i]⟩, ?_, rfl, rfl⟩
    rw [mem_prods h]
    exact ⟨r, (tryGetRule_iff h).2 h1, by simp [hi]⟩
  · rintro ⟨p, hp, rfl, rfl⟩
    rw [mem_prods h] at hp
    obtain ⟨r, h1, h2⟩ := hp
    exact ⟨r, p.inner, (tryGetRule_iff h).1 h1, List.mem_of_getElem? h2, rfl⟩

theorem mem_prods_of_rule {g : Grammar T NT AK AV} (h : g.WF) {A : NT} {r}
    (hr : g.tryGetRule A = some r) {p} : p ∈ r.prodRefs ↔ p ∈ g.prods ∧ p.head = A := by
  have hh : r.head = A := h.heads A r ((tryGetRule_iff h).1 hr)
  rw [RuleInner.mem_prodRefs, mem_prods h]
  constructor
  · rintro ⟨h1, h2⟩
    refine ⟨⟨r, by rw [h1, hh]; exact hr, h2⟩, by rw [h1, hh]⟩
  · rintro ⟨⟨r', h1, h2⟩, h3⟩
    rw [h3, hr] at h1; cases h1
    exact ⟨by rw [h3, hh], h2⟩

/-- Two references to the same slot point to the same production. -/
theorem prod_ext {g : Grammar T NT AK AV} (h : g.WF) {p q : Prod T NT AK AV} (hp : p ∈ g.prods)
    (hq : q ∈ g.prods) (h1 : p.head = q.head) (h2 : p.index = q.index) : p = q := by
  rw [mem_prods h] at hp hq
  obtain ⟨r, a1, a2⟩ := hp
  obtain ⟨r', b1, b2⟩ := hq
  rw [h1, b1] at a1; cases a1
  rw [h2, b2] at a2
  cases p; cases q; simp_all

theorem mem_getNonterminals {g : Grammar T NT AK AV} {B : NT} :
    B ∈ g.getNonterminals ↔ ∃ A, g.cfg.Mentions A B := by
  unfold getNonterminals getElements BMap.values Cfg.Mentions cfg ProdInner.elems
  simp only [List.mem_filterMap, List.mem_flatMap, List.mem_map, Elem.asNonterm_eq_some]
  constructor
  · rintro ⟨e, ⟨p, ⟨r, ⟨⟨k, r'⟩, hm, rfl⟩, hp⟩, e', he', rfl⟩, hee⟩
    exact ⟨k, _, ⟨r', p, hm, hp, rfl⟩, List.mem_map.2 ⟨e', he', by assumption⟩⟩
  · rintro ⟨A, β, ⟨r, p, hm, hp, rfl⟩, hB⟩
    obtain ⟨e', he', h⟩ := List.mem_map.1 hB
    exact ⟨e'.element, ⟨p, ⟨r, ⟨⟨A, r⟩, hm, rfl⟩, hp⟩, e', he', rfl⟩, h⟩

theorem bodyNonterms_ok {g : Grammar T NT AK AV} (h : g.WF) {A : NT} {l : List NT}
    (hb : g.bodyNonterms A = .ok l) : ∀ B, B ∈ l ↔ g.cfg.Mentions A B := by
  unfold bodyNonterms getRule at hb
  cases hr : g.tryGetRule A with
  | none => simp [hr] at hb
  | some r =>
    simp only [hr, Res.expect_some, Res.ok.injEq] at hb
    subst hb
    intro B
    rw [BSet.mem_ofList, RuleInner.prodRefs_flatMap_elements]
    simp only [List.mem_filterMap, List.mem_flatMap, Elem.asNonterm_eq_some, Cfg.Mentions, cfg,
      ProdInner.elems]
    constructor
    · rintro ⟨e, ⟨p, hp, he⟩, rfl⟩
      exact ⟨_, ⟨r, p, (tryGetRule_iff h).1 hr, hp, rfl⟩, he⟩
    · rintro ⟨β, ⟨r', p, hm, hp, rfl⟩, hB⟩
      rw [← tryGetRule_iff h, hr] at hm; cases hm
      exact ⟨_, ⟨p, hp, hB⟩, rfl⟩

theorem bodyNonterms_ok_iff {g : Grammar T NT AK AV} {A : NT} :
    (∃ l, g.bodyNonterms A = .ok l) ↔ ∃ r, g.tryGetRule A = some r := by
  unfold bodyNonterms getRule
  cases hr : g.tryGetRule A <;> simp

theorem bodyNonterms_panic_iff {g : Grammar T NT AK AV} {A : NT} {w} :
    g.bodyNonterms A = .panic w ↔ w = .noRule ∧ g.tryGetRule A = none := by
  unfold bodyNonterms getRule
  cases hr : g.tryGetRule A <;> simp [eq_comm]

theorem bodyNonterms_ne_oof {g : Grammar T NT AK AV} {A : NT} : g.bodyNonterms A ≠ .oof := by
  unfold bodyNonterms getRule
  cases hr : g.tryGetRule A <;> simp

theorem stepTo_body {g : Grammar T NT AK AV} (h : g.WF) :
    StepTo g.bodyNonterms = g.cfg.Mentions := by
  funext A B
  simp only [StepTo, eq_iff_iff]
  constructor
  · rintro ⟨l, hl, hB⟩; exact (bodyNonterms_ok h hl B).1 hB
  · intro hm
    have hr : ∃ r, g.tryGetRule A = some r := by
      obtain ⟨β, ⟨r, p, hr, -, -⟩, -⟩ := hm
      exact ⟨r, (tryGetRule_iff h).2 hr⟩
    obtain ⟨l, hl⟩ := bodyNonterms_ok_iff.2 hr
    exact ⟨l, hl, (bodyNonterms_ok h hl B).2 hm⟩

/-- Fuel that suffices for the reachability search. -/
def checkFuel (g : Grammar T NT AK AV) : Nat := g.getNonterminals.length + 1

theorem reachable_ne_oof {g : Grammar T NT AK AV} (h : g.WF) {fuel} (hf : g.checkFuel ≤ fuel) :
    g.reachableNonterms fuel ≠ .oof := by
  unfold reachableNonterms
  apply bfs_terminates (U := g.getNonterminals)
  · intro i _ x hx
    rw [stepTo_body h] at hx
    rw [mem_getNonterminals]
    cases hx with
    | single h => exact ⟨_, h⟩
    | tail _ h => exact ⟨_, h⟩
  · exact fun x => bodyNonterms_ne_oof
  · unfold checkFuel at hf; omega

theorem reachable_ok {g : Grammar T NT AK AV} (h : g.WF) {fuel s}
    (he : g.reachableNonterms fuel = .ok s) (B : NT) :
    B ∈ s ↔ Relation.TransGen g.cfg.Mentions g.startSymbol B := by
  unfold reachableNonterms at he
  rw [bfs_mem he, stepTo_body h]; simp

theorem reachable_has_rule {g : Grammar T NT AK AV} (h : g.WF) {fuel s}
    (he : g.reachableNonterms fuel = .ok s) (B : NT)
    (hB : Relation.ReflTransGen g.cfg.Mentions g.startSymbol B) : ∃ r, g.tryGetRule B = some r := by
  rw [← bodyNonterms_ok_iff]
  unfold reachableNonterms at he
  apply bfs_calls_ok he
  rcases Relation.reflTransGen_iff_eq_or_transGen.1 hB with rfl | hB
  · simp
  · exact Or.inr ((reachable_ok h he B).2 hB)

theorem reachable_panic {g : Grammar T NT AK AV} (h : g.WF) {fuel w}
    (he : g.reachableNonterms fuel = .panic w) :
    w = .noRule ∧ ∃ B, Relation.ReflTransGen g.cfg.Mentions g.startSymbol B ∧
      g.tryGetRule B = none := by
  unfold reachableNonterms at he
  obtain ⟨x, hx, hp⟩ := bfs_panic he
  rw [stepTo_body h] at hx
  rw [bodyNonterms_panic_iff] at hp
  refine ⟨hp.1, x, ?_, hp.2⟩
  rcases hx with hx | ⟨i, hi, hx⟩
  · simp at hx; subst hx; exact .refl
  · simp at hi; subst hi; exact hx.to_reflTransGen

end Grammar
end Bongo
