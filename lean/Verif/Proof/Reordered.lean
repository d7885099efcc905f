import Verif.Spec.Mix
import Verif.Proof.Grammar
import Verif.Spec.Tree
/-! Grammars whose rules have the same productions in another order. -/
set_option linter.unusedSectionVars false
namespace Bongo
open Std
variable {T NT AK AV L : Type} {g g' : Grammar T NT AK AV}

/-- Every production of the one grammar is in the other. -/
def Grammar.Carries (g g' : Grammar T NT AK AV) : Prop :=
  ∀ p ∈ g.prods, ∃ p' ∈ g'.prods, p'.head = p.head ∧ p'.inner = p.inner

theorem Grammar.Reordered.symm (h : g.Reordered g') : g'.Reordered g := by
  refine ⟨h.1.symm, ?_⟩
  have := h.2.flip
  exact this.imp fun r r' hr => ⟨hr.1.symm, hr.2.symm⟩

theorem Grammar.Reordered.carries (h : g.Reordered g') : g.Carries g' := by
  intro p hp
  unfold Grammar.prods at hp
  obtain ⟨r, hr, hp⟩ := List.mem_flatMap.1 hp
  rw [RuleInner.mem_prodRefs] at hp
  obtain ⟨i, hi⟩ := List.mem_iff_getElem?.1 hr
  obtain ⟨hi1, rfl⟩ := List.getElem?_eq_some_iff.1 hi
  have hl := h.2.length_eq
  obtain ⟨e1, e2⟩ := (List.forall₂_iff_get.1 h.2).2 i hi1 (by omega)
  simp only [List.get_eq_getElem] at e1 e2
  have hm : p.inner ∈ (g'.rules[i]'(by omega)).prods := e2.mem_iff.1 (List.mem_of_getElem? hp.2)
  obtain ⟨k, hk⟩ := List.mem_iff_getElem?.1 hm
  refine ⟨⟨(g'.rules[i]'(by omega)).head, k, p.inner⟩, ?_, ?_, rfl⟩
  · unfold Grammar.prods
    exact List.mem_flatMap.2 ⟨_, List.getElem_mem _, (RuleInner.mem_prodRefs).2 ⟨rfl, hk⟩⟩
  · simp only; rw [hp.1, e1]

theorem Grammar.Reordered.cfg [Ord NT] [TransOrd NT] [LawfulEqOrd NT] (h : g.Reordered g') (hw : g.WF)
    (hw' : g'.WF) : g.cfg = g'.cfg := by
  have key : ∀ {g g' : Grammar T NT AK AV}, g.Carries g' → g.WF → g'.WF → ∀ A β, g.cfg.prod A β →
      g'.cfg.prod A β := by
    intro g g' hc hw hw' A β hp
    obtain ⟨p, h1, h2, h3⟩ := (Grammar.cfg_prod_iff hw).1 hp
    obtain ⟨p', k1, k2, k3⟩ := hc p h1
    refine (Grammar.cfg_prod_iff hw').2 ⟨p', k1, by rw [k2, h2], ?_⟩
    rw [← h3]; unfold Prod.elements; rw [k3]
  have hp : g.cfg.prod = g'.cfg.prod := by
    funext A β
    exact propext ⟨key h.carries hw hw' A β, key h.symm.carries hw' hw A β⟩
  have hs : g.cfg.start = g'.cfg.start := h.1
  cases hg : g.cfg
  cases hg' : g'.cfg
  rw [hg, hg'] at hp hs
  simp only at hp hs
  rw [hp, hs]

variable {kind : L → T}
mutual
/-- A tree over the one grammar is one over the other. -/
theorem IsTree.reorder (hc : g.Carries g') : {e : Elem T NT} → {d : DTree L (Prod T NT AK AV)} →
    IsTree g kind e d → ∃ d', IsTree g' kind e d' ∧
      d'.mapNodes (·.actionKey) = d.mapNodes (·.actionKey) ∧ d'.yield = d.yield
  | _, _, .leaf l => ⟨.leaf l, .leaf l, rfl, rfl⟩
  | _, _, .node p cs hp hcs => by
    obtain ⟨p', k1, k2, k3⟩ := hc p hp
    obtain ⟨cs', e1, e2, e3⟩ := IsForest.reorder hc hcs
    refine ⟨.node p' cs', ?_, ?_, ?_⟩
    · rw [← k2]
      refine .node p' cs' k1 ?_
      have : p'.elements = p.elements := by unfold Prod.elements; rw [k3]
      rw [this]; exact e1
    · have : p'.actionKey = p.actionKey := by unfold Prod.actionKey; rw [k3]
      simp only [DTree.mapNodes, this, e2]
    · simp only [DTree.yield, e3]
theorem IsForest.reorder (hc : g.Carries g') : {es : List (Elem T NT)} →
    {ds : List (DTree L (Prod T NT AK AV))} →
    IsForest g kind es ds → ∃ ds', IsForest g' kind es ds' ∧
      DTree.mapNodesAll (·.actionKey) ds' = DTree.mapNodesAll (·.actionKey) ds ∧ DTree.yields ds' = DTree.yields ds
  | _, _, .nil => ⟨[], .nil, rfl, rfl⟩
  | _, _, .cons hd hds => by
    obtain ⟨d', a1, a2, a3⟩ := IsTree.reorder hc hd
    obtain ⟨ds', b1, b2, b3⟩ := IsForest.reorder hc hds
    exact ⟨d' :: ds', .cons a1 b1, by simp only [DTree.mapNodesAll, a2, b2], by simp only [DTree.yields, a3, b3]⟩
end
end Bongo
