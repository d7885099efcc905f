import Verif.Props.KeysTell
import Verif.Props.Walk
import Mathlib.Data.Set.Card
/-!
# C145: counting the trees that can be read off the returned node
-/
set_option linter.unusedSectionVars false
namespace Bongo
open Std

section
variable {T NT AK AV V : Type}
variable [Ord T] [Ord NT] [Ord AK] [Ord V] [DecidableEq T] [DecidableEq NT]
variable [TransOrd T] [TransOrd NT] [TransOrd AK] [TransOrd V]
variable [LawfulEqOrd T] [LawfulEqOrd NT] [LawfulEqOrd AK] [LawfulEqOrd V]
variable {addr : StartNonTerminal NT → Nat → Nat} {g : Grammar T NT AK AV}
variable (hg : g.Accepted) (ha : AddrInj g.wrapped addr) {log : TreeLog T AK V} {w : World T AK V}
  {held : List Handle} (hist : History log w held)

section
variable (hk : ∀ p ∈ g.prods, ∀ q ∈ g.prods, p.prodKey = q.prodKey → p = q)

include hg ha hist hk in
/-- C145.  If productions divide the input in one way only and action keys tell productions apart, reading is a one-to-one
correspondence between the derivation trees of the input and the trees that can be read off the node. -/
theorem reads_bijOn {t fuel : Nat} {toks : List (Token T V)} {w' : World T AK V} {n : Node}
    (hsplit : g.SplitsOnce (kinds toks)) (h : parse addr g.wrapped fuel w t toks = .ok (w', some n)) :
    Set.BijOn (DTree.mapNodes (·.actionKey)) (g.treesOf toks) {s : DTree (Token T V) AK | Reads w' s n} := by
  refine ⟨fun d hd => parse_all_trees hg ha hist h hd.1 hd.2, fun d hd d' hd' e => keys_tell_trees hk d d' hd.1 hd'.1 e, ?_⟩
  intro s hs
  obtain ⟨d, k1, rfl, -⟩ := parse_trees_grammatical hg ha hist h hs
  have y := parse_trees_spell_partial hg ha hist hsplit h hs
  rw [DTree.yield_mapNodes] at y
  exact ⟨d, ⟨k1, y⟩, rfl⟩

include hg ha hist hk in
/-- C145.  So there are as many of the one as of the other. -/
theorem reads_count {t fuel : Nat} {toks : List (Token T V)} {w' : World T AK V} {n : Node}
    (hsplit : g.SplitsOnce (kinds toks)) (h : parse addr g.wrapped fuel w t toks = .ok (w', some n)) :
    {s : DTree (Token T V) AK | Reads w' s n}.encard = (g.treesOf toks).encard := by
  have hb := reads_bijOn hg ha hist hk hsplit h
  rw [← hb.image_eq, hb.injOn.encard_image]

include hg ha hist hk in
/-- C145.  In general there are no fewer. -/
theorem reads_count_ge {t fuel : Nat} {toks : List (Token T V)} {w' : World T AK V} {n : Node}
    (h : parse addr g.wrapped fuel w t toks = .ok (w', some n)) :
    (g.treesOf toks).encard ≤ {s : DTree (Token T V) AK | Reads w' s n}.encard := by
  have hi : Set.InjOn (DTree.mapNodes (·.actionKey)) (g.treesOf toks) :=
    fun d hd d' hd' e => keys_tell_trees hk d d' hd.1 hd'.1 e
  rw [← hi.encard_image]
  refine Set.encard_le_encard ?_
  rintro _ ⟨d, hd, rfl⟩
  exact parse_all_trees hg ha hist h hd.1 hd.2
end

include hg ha hist in
/-- C145.  Whatever the keys are: there are no more trees to be read than derivation trees, if productions divide the input
in one way only. -/
theorem reads_count_le {t fuel : Nat} {toks : List (Token T V)} {w' : World T AK V} {n : Node}
    (hsplit : g.SplitsOnce (kinds toks)) (h : parse addr g.wrapped fuel w t toks = .ok (w', some n)) :
    {s : DTree (Token T V) AK | Reads w' s n}.encard ≤ (g.treesOf toks).encard := by
  refine _root_.le_trans (Set.encard_le_encard ?_) (Set.encard_image_le (DTree.mapNodes (·.actionKey)) _)
  intro s hs
  obtain ⟨d, k1, rfl, -⟩ := parse_trees_grammatical hg ha hist h hs
  have y := parse_trees_spell_partial hg ha hist hsplit h hs
  rw [DTree.yield_mapNodes] at y
  exact ⟨d, ⟨k1, y⟩, rfl⟩

include hg ha hist in
/-- C145.  Take a trimmed grammar for which `parse` is right (C141).  Every walk down from every node it returns ends exactly
if no nonterminal derives itself. -/
theorem right_walks_end_iff [Nonempty V] (ht : g.Trim) (h1 : ¬ g.cfg.InLanguage []) (h2 : ¬ g.Overlaps)
    (h3 : ¬ g.Divides) (t : Nat) :
    (∀ (toks : List (Token T V)) fuel w' n, parse addr g.wrapped fuel w t toks = .ok (w', some n) → w'.WalkEnds n) ↔
      g.Acyclic := by
  constructor
  · intro h
    by_contra hc
    obtain ⟨toks, hinf⟩ := cyclic_trees_infinite (V := V) hg ht.reached ht.noDeadEnds hc
    refine hinf ?_
    by_cases hne : (g.treesOf toks).Nonempty
    · obtain ⟨d, hd, hy⟩ := hne
      have hin : g.cfg.InLanguage (kinds toks) := by
        have := hd.yields hg.valid.toWF
        rw [hy] at this
        exact Cfg.yields_nonterm_iff.1 this
      obtain ⟨N, w', n, h4⟩ := (reliable_exact hg ha ht hist t).2 ⟨h1, h2⟩ _ hin
      have h5 := h4 N (Nat.le_refl _)
      exact parse_walk_ends_trees hg ha hist h5 (h _ _ _ _ h5)
    · rw [Set.not_nonempty_iff_eq_empty] at hne
      rw [hne]
      exact Set.finite_empty
  · intro hac toks fuel w' n h
    exact parse_walk_ends_partial hg ha hist h (splitsOnce_of_not_divides h3 _) (acyclic_trees_finite hg hac _)
end

/-! ## Witnesses -/

/-- In a production with one element nothing is divided. -/
theorem not_divides_of_short {T NT AK AV : Type} {g : Grammar T NT AK AV} (h : ∀ A β, g.cfg.prod A β → β.length ≤ 1) :
    ¬ g.Divides := by
  rintro ⟨A, β, d, e, x, y, x', y', hp, he, hxy, hne, h1, h2, h3, h4⟩
  have hl := h A β hp
  have hd := (List.getElem?_eq_some_iff.1 he).1
  obtain rfl : d = 0 := by omega
  rw [List.take_zero] at h1 h3
  have e1 := Cfg.derives_nil h1
  have e2 := Cfg.derives_nil h3
  simp only [List.map_eq_nil_iff] at e1 e2
  exact hne (by rw [e1, e2])

/-- A text with exactly as many trees to be read as derivation trees, and two at least. -/
example : ∃ w n, parse exampleSAddr twoWays.wrapped 9 (World.new : World Nat Nat Nat) 7 [⟨7, 70⟩] = .ok (w, some n) ∧
    {s : DTree (Token Nat Nat) Nat | Reads w s n}.encard = (twoWays.treesOf [(⟨7, 70⟩ : Token Nat Nat)]).encard ∧
    Set.BijOn (DTree.mapNodes (·.actionKey)) (twoWays.treesOf [(⟨7, 70⟩ : Token Nat Nat)])
      {s : DTree (Token Nat Nat) Nat | Reads w s n} := by
  have hk : ∀ p ∈ twoWays.prods, ∀ q ∈ twoWays.prods, p.prodKey = q.prodKey → p = q := by decide
  have hd : ¬ twoWays.Divides := not_divides_of_short fun A β h => by
    obtain ⟨p, hp, rfl, rfl⟩ := (Grammar.cfg_prod_iff twoWays_accepted.valid.toWF).1 h
    have : ∀ p ∈ twoWays.prods, p.elements.length ≤ 1 := by decide
    exact this p hp
  obtain ⟨w, n, h⟩ : ∃ w n, parse exampleSAddr twoWays.wrapped 9 (World.new : World Nat Nat Nat) 7
      [⟨7, 70⟩] = .ok (w, some n) := ⟨_, _, rfl⟩
  exact ⟨w, n, h, reads_count twoWays_accepted (exampleSAddr_addrInj _) .start hk (splitsOnce_of_not_divides hd _) h,
    reads_bijOn twoWays_accepted (exampleSAddr_addrInj _) .start hk (splitsOnce_of_not_divides hd _) h⟩

/-- A grammar (`S → S | 2`) for which `parse` is right, and some walk does not end. -/
example : cycleExample.Trim ∧ ¬ cycleExample.cfg.InLanguage [] ∧ ¬ cycleExample.Overlaps ∧ ¬ cycleExample.Divides ∧
    ∃ (toks : List (Token Nat Nat)) (fuel : Nat) (w' : World Nat Nat Nat) (n : Node),
      parse exampleSAddr cycleExample.wrapped fuel World.new 7 toks = .ok (w', some n) ∧ ¬ w'.WalkEnds n := by
  have hp : ∀ {A β}, cycleExample.cfg.prod A β ↔ A = 0 ∧ (β = [.nonterm 0] ∨ β = [.term 2]) := by
    intro A β
    simp [cycleExample, Grammar.cfg, exRule, and_assoc]
  have ht : cycleExample.Trim := ⟨cycleExample_shape.1, cycleExample_shape.2.2⟩
  have hd : ¬ cycleExample.Divides := not_divides_of_short fun A β h => by
    obtain ⟨-, rfl | rfl⟩ := hp.1 h <;> simp
  have hn : ∀ γ, cycleExample.cfg.Derives [.nonterm 0] γ → γ = [.nonterm 0] ∨ γ = [.term 2] := by
    intro γ h
    unfold Cfg.Derives at h
    induction h with
    | refl => exact Or.inl rfl
    | tail _ hs ih =>
      cases hs with
      | mk u v A β h =>
        obtain ⟨rfl, hβ⟩ := hp.1 h
        rcases ih with ih | ih
        · rcases u with _ | ⟨x, u⟩
          · simp only [List.nil_append, List.cons.injEq] at ih
            obtain ⟨-, rfl⟩ := ih
            simpa using hβ
          · simp at ih
        · rcases u with _ | ⟨x, u⟩
          · simp at ih
          · simp at ih
  have h1 : ¬ cycleExample.cfg.InLanguage [] := fun h => by simpa using hn [] h
  have h2 : ¬ cycleExample.Overlaps := by
    rintro ⟨A, β, d, d', x, hβ0, hdd, hd', k1, k2⟩
    obtain ⟨rfl, hβ⟩ := hp.1 hβ0
    clear hβ0
    have hl : β.length = 1 := by rcases hβ with rfl | rfl <;> rfl
    obtain rfl : d = 0 := by omega
    obtain rfl : d' = 1 := by omega
    have e1 := Cfg.derives_nil k1
    simp only [List.map_eq_nil_iff] at e1
    subst e1
    rcases hβ with rfl | rfl
    · simpa using hn _ k2
    · exact h1 ((Cfg.derives_prod (hp.2 ⟨rfl, Or.inr rfl⟩)).trans k2)
  refine ⟨ht, h1, h2, hd, ?_⟩
  by_contra hc
  refine cycleExample_shape.2.1 ((right_walks_end_iff (V := Nat) cycleExample_accepted (exampleSAddr_addrInj _)
    (log := []) (held := []) .start ht h1 h2 hd 7).1 ?_)
  intro toks fuel w' n h
  by_contra hw
  exact hc ⟨toks, fuel, w', n, h, hw⟩
end Bongo
