import Verif.Spec.Tree
import Verif.Proof.Grammar
/-! Derivation trees and derivations. -/
set_option linter.unusedSectionVars false
namespace Bongo
open Std
variable {T NT AK AV L : Type} [Ord NT] [TransOrd NT] [LawfulEqOrd NT]
variable {g : Grammar T NT AK AV} {kind : L → T}

mutual
theorem IsTree.yields (hw : g.WF) {e : Elem T NT} {t : DTree L (Prod T NT AK AV)}
    (h : IsTree g kind e t) : g.cfg.Yields [e] (t.yield.map kind) := by
  cases h with
  | leaf l => simpa [DTree.yield] using Cfg.Yields.term (G := g.cfg) (kind l) .nil
  | node p cs hp hf =>
    have := hf.yields hw
    have h2 := Cfg.Yields.nonterm (G := g.cfg) ((Grammar.cfg_prod_iff hw).2 ⟨p, hp, rfl, rfl⟩) this .nil
    simpa [DTree.yield] using h2
theorem IsForest.yields (hw : g.WF) {es : List (Elem T NT)} {cs : List (DTree L (Prod T NT AK AV))}
    (h : IsForest g kind es cs) : g.cfg.Yields es ((DTree.yields cs).map kind) := by
  cases h with
  | nil => exact .nil
  | cons h1 h2 =>
    have := (h1.yields hw).append (h2.yields hw)
    simpa [DTree.yields] using this
end

/-- Every derivation of a word has a tree (over any leaves with those kinds). -/
theorem forest_of_yields (hw : g.WF) {es : List (Elem T NT)} {w : List T}
    (h : g.cfg.Yields es w) (v : List L) (hv : v.map kind = w) :
    ∃ cs : List (DTree L (Prod T NT AK AV)), IsForest g kind es cs ∧ DTree.yields cs = v := by
  induction h generalizing v with
  | nil => simp at hv; subst hv; exact ⟨[], .nil, rfl⟩
  | term t _ ih =>
    cases v with
    | nil => simp at hv
    | cons l v =>
      simp at hv
      obtain ⟨rfl, hv⟩ := hv
      obtain ⟨cs, h1, h2⟩ := ih v hv
      exact ⟨.leaf l :: cs, .cons (.leaf l) h1, by simp [DTree.yields, DTree.yield, h2]⟩
  | nonterm hp _ _ ih1 ih2 =>
    obtain ⟨v1, v2, rfl, h1, h2⟩ := List.map_eq_append_iff.1 hv
    obtain ⟨cs1, a1, a2⟩ := ih1 v1 h1
    obtain ⟨cs2, b1, b2⟩ := ih2 v2 h2
    obtain ⟨p, hp2, rfl, rfl⟩ := (Grammar.cfg_prod_iff hw).1 hp
    exact ⟨.node p cs1 :: cs2, .cons (.node p cs1 hp2 a1) b1,
      by simp [DTree.yields, DTree.yield, a2, b2]⟩

end Bongo
