import Verif.Proof.Sentential
import Verif.Proof.EarleySpan
/-! In an unambiguous grammar without dead ends, productions divide words in one way. -/
set_option linter.unusedSectionVars false
namespace Bongo
open Std
variable {T NT AK AV : Type} [Ord NT] [TransOrd NT] [LawfulEqOrd NT] {g : Grammar T NT AK AV}

theorem forest_of_derives (hw : g.WF) {es : List (Elem T NT)} {w : List T}
    (h : g.cfg.Derives es (w.map .term)) :
    ∃ cs : List (DTree T (Prod T NT AK AV)), IsForest g id es cs ∧ DTree.yields cs = w :=
  forest_of_yields hw (Cfg.yields_iff.2 h) w (List.map_id w)

/-- The derivation trees around a nonterminal of a sentential form. -/
theorem tree_context (hw : g.WF) {s γ : List (Elem T NT)} (h : g.cfg.SYields s γ) :
    ∀ (u z : List T) (A : NT) (δ : List (Elem T NT)), γ = u.map .term ++ .nonterm A :: δ →
      g.cfg.Derives δ (z.map .term) →
      ∃ C : DTree T (Prod T NT AK AV) → List (DTree T (Prod T NT AK AV)),
        (∀ t, IsTree g id (.nonterm A) t → IsForest g id s (C t) ∧
          DTree.yields (C t) = u ++ t.yield ++ z) ∧ ∀ t t', C t = C t' → t = t' := by
  induction h with
  | nil => intro u z A δ h; simp at h
  | @keep s γ e h ih =>
    intro u z A δ hγ hz
    cases u with
    | nil =>
      simp only [List.map_nil, List.nil_append, List.cons.injEq] at hγ
      obtain ⟨rfl, rfl⟩ := hγ
      obtain ⟨cs, h1, h2⟩ := forest_of_derives hw (h.derives.trans hz)
      refine ⟨fun t => t :: cs, ?_, ?_⟩
      · intro t ht
        exact ⟨.cons ht h1, by rw [DTree.yields, h2]; simp⟩
      · intro t t' h; simpa using h
    | cons x u =>
      simp only [List.map_cons, List.cons_append, List.cons.injEq] at hγ
      obtain ⟨rfl, rfl⟩ := hγ
      obtain ⟨C, h1, h2⟩ := ih u z A δ rfl hz
      refine ⟨fun t => .leaf x :: C t, ?_, ?_⟩
      · intro t ht
        refine ⟨.cons (.leaf (kind := id) x) (h1 t ht).1, ?_⟩
        rw [DTree.yields, DTree.yield, (h1 t ht).2]; simp
      · intro t t' h
        simp only [List.cons.injEq, true_and] at h
        exact h2 t t' h
  | @expand B β s γ₁ γ₂ hp h1 h2 ih1 ih2 =>
    intro u z A δ hγ hz
    obtain ⟨q, hq, rfl, rfl⟩ := (Grammar.cfg_prod_iff hw).1 hp
    have hcase : (∃ u1 u2, u = u1 ++ u2 ∧ γ₁ = u1.map .term ∧ γ₂ = u2.map .term ++ .nonterm A :: δ) ∨
        ∃ δ1, γ₁ = u.map .term ++ .nonterm A :: δ1 ∧ δ = δ1 ++ γ₂ := by
      rcases List.append_eq_append_iff.1 hγ with ⟨c, hc1, hc2⟩ | ⟨c, hc1, hc2⟩
      · obtain ⟨u1, u2, rfl, e1, e2⟩ := List.map_eq_append_iff.1 hc1
        exact Or.inl ⟨u1, u2, rfl, e1.symm, by rw [hc2, ← e2]⟩
      · cases c with
        | nil =>
          simp only [List.append_nil, List.nil_append] at hc1 hc2
          exact Or.inl ⟨u, [], by simp, hc1, by simp [hc2]⟩
        | cons e c =>
          simp only [List.cons_append, List.cons.injEq] at hc2
          obtain ⟨rfl, rfl⟩ := hc2
          exact Or.inr ⟨c, hc1, rfl⟩
    rcases hcase with ⟨u1, u2, rfl, rfl, rfl⟩ | ⟨δ1, rfl, rfl⟩
    · obtain ⟨C, c1, c2⟩ := ih2 u2 z A δ rfl hz
      obtain ⟨ds, d1, d2⟩ := forest_of_derives hw h1.derives
      refine ⟨fun t => .node q ds :: C t, ?_, ?_⟩
      · intro t ht
        refine ⟨.cons (.node q ds hq d1) (c1 t ht).1, ?_⟩
        rw [DTree.yields, DTree.yield, (c1 t ht).2, d2]; simp
      · intro t t' h
        simp only [List.cons.injEq, true_and] at h
        exact c2 t t' h
    · obtain ⟨z1, z2, hz12, hz1, hz2⟩ := hz.split
      obtain ⟨w1, w2, rfl, rfl, rfl⟩ := List.map_eq_append_iff.1 hz12
      obtain ⟨C, c1, c2⟩ := ih1 u w1 A δ1 rfl hz1
      obtain ⟨ds, d1, d2⟩ := forest_of_derives hw (h2.derives.trans hz2)
      refine ⟨fun t => .node q (C t) :: ds, ?_, ?_⟩
      · intro t ht
        refine ⟨.cons (.node q _ hq (c1 t ht).1) d1, ?_⟩
        rw [DTree.yields, DTree.yield, (c1 t ht).2, d2]; simp
      · intro t t' h
        simp only [List.cons.injEq, and_true, DTree.node.injEq, true_and] at h
        exact c2 t t' h

theorem IsForest.append {L : Type} {kind : L → T} {a b : List (Elem T NT)}
    {cs ds : List (DTree L (Prod T NT AK AV))} (h : IsForest g kind a cs) (h' : IsForest g kind b ds) :
    IsForest g kind (a ++ b) (cs ++ ds) := by
  induction a generalizing cs with
  | nil => cases h; exact h'
  | cons e a ih =>
    cases h with
    | cons h1 h2 => exact .cons h1 (ih h2)

theorem IsForest.length {L : Type} {kind : L → T} {a : List (Elem T NT)}
    {cs : List (DTree L (Prod T NT AK AV))} (h : IsForest g kind a cs) : a.length = cs.length := by
  induction a generalizing cs with
  | nil => cases h; rfl
  | cons e a ih =>
    cases h with
    | cons h1 h2 => simp [ih h2]

theorem splits_of_unambiguous (hw : g.WF) (hu : g.Unambiguous) (hd : g.NoDeadEnds) (w : List T) :
    g.SplitsOnce w := by
  intro u x y x' y' A β δ d e _ hxy hδ hp he hx hy hx' hy'
  obtain ⟨q, hq, rfl, rfl⟩ := (Grammar.cfg_prod_iff hw).1 hp
  have hdec : q.elements = q.elements.take d ++ ([e] ++ q.elements.drop (d + 1)) := by
    obtain ⟨hlt, he⟩ := List.getElem?_eq_some_iff.1 he
    rw [← he, List.singleton_append, List.getElem_cons_drop, List.take_append_drop]
  have hrest : ∃ z1 z2 : List T, g.cfg.Derives (q.elements.drop (d + 1)) (z1.map .term) ∧
      g.cfg.Derives δ (z2.map .term) := by
    have h1 : g.cfg.Derives [.nonterm g.startSymbol]
        (u.map .term ++ (q.elements.take d ++ ([e] ++ q.elements.drop (d + 1)) ++ δ)) := by
      rw [← hdec]
      exact hδ.trans (Cfg.Derives.append (.refl _)
        (Cfg.Derives.append (Cfg.derives_prod hp) (.refl δ)))
    obtain ⟨v, hv⟩ := hd _ h1
    obtain ⟨v1, v2, e1, k1, k2⟩ := hv.split
    obtain ⟨v3, v4, e2, k3, k4⟩ := k2.split
    obtain ⟨v5, v6, e3, k5, k6⟩ := k3.split
    obtain ⟨v7, v8, e4, k7, k8⟩ := k6.split
    subst e4 e3 e2
    obtain ⟨a1, a2, rfl, m1, m2⟩ := List.map_eq_append_iff.1 e1
    obtain ⟨a3, a4, rfl, m3, m4⟩ := List.map_eq_append_iff.1 m2
    obtain ⟨a5, a6, rfl, m5, m6⟩ := List.map_eq_append_iff.1 m3
    obtain ⟨a7, a8, rfl, m7, m8⟩ := List.map_eq_append_iff.1 m6
    exact ⟨a8, a4, by rw [m8]; exact k8, by rw [m4]; exact k4⟩
  obtain ⟨z1, z2, hz1, hz2⟩ := hrest
  obtain ⟨cs3, f3, y3⟩ := forest_of_derives hw hz1
  have mk : ∀ x y : List T, g.cfg.Derives (q.elements.take d) (x.map .term) →
      g.cfg.Derives [e] (y.map .term) → ∃ cs1 cs2, cs1.length = d ∧ DTree.yields cs1 = x ∧
        IsTree g id (.nonterm q.head) (.node q (cs1 ++ (cs2 ++ cs3))) ∧
        (DTree.node q (cs1 ++ (cs2 ++ cs3))).yield = x ++ y ++ z1 := by
    intro x y hx hy
    obtain ⟨cs1, f1, y1⟩ := forest_of_derives hw hx
    obtain ⟨cs2, f2, y2⟩ := forest_of_derives hw hy
    refine ⟨cs1, cs2, ?_, y1, .node q _ hq ?_, ?_⟩
    · rw [← f1.length, List.length_take]
      have := (List.getElem?_eq_some_iff.1 he).1
      omega
    · rw [hdec]; exact f1.append (f2.append f3)
    · rw [DTree.yield, DTree.yields_append, DTree.yields_append, y1, y2, y3]; simp
  obtain ⟨cs1, cs2, l1, y1, t1, e1⟩ := mk x y hx hy
  obtain ⟨cs1', cs2', l1', y1', t1', e1'⟩ := mk x' y' hx' hy'
  obtain ⟨C, c1, c2⟩ := tree_context hw (Cfg.syields_iff.2 hδ) u z2 q.head δ rfl hz2
  have one : ∀ cs : List (DTree T (Prod T NT AK AV)),
      IsForest g id [.nonterm g.startSymbol] cs → ∃ t, cs = [t] ∧ IsTree g id (.nonterm g.startSymbol) t := by
    intro cs h
    cases h with
    | cons h1 h2 => cases h2; exact ⟨_, rfl, h1⟩
  obtain ⟨s1, hs1, ts1⟩ := one _ (c1 _ t1).1
  obtain ⟨s2, hs2, ts2⟩ := one _ (c1 _ t1').1
  have q1 := (c1 _ t1).2
  have q2 := (c1 _ t1').2
  rw [hs1, e1, DTree.yields, DTree.yields, List.append_nil] at q1
  rw [hs2, e1', DTree.yields, DTree.yields, List.append_nil] at q2
  have hs := hu s1 s2 ts1 ts2 (by rw [q1, q2, hxy])
  have := c2 _ _ ((hs1.trans (by rw [hs])).trans hs2.symm)
  simp only [DTree.node.injEq, true_and] at this
  have := (List.append_inj this (by rw [l1, l1'])).1
  rw [← y1, ← y1', this]
end Bongo
