import Verif.Proof.EarleyLoose
import Verif.Proof.Ambiguity
/-! Mixed trees. -/
set_option linter.unusedSectionVars false
namespace Bongo
open Std
variable {T NT AK AV V : Type} [Ord NT] [TransOrd NT] [LawfulEqOrd NT] {g : Grammar T NT AK AV}

/-- Mixed trees for the elements, one after the other. -/
inductive MixAll (g : Grammar T NT AK AV) : List (Token T V) → List (Elem T NT) →
    List (DTree (Token T V) (Prod T NT AK AV)) → Prop where
  | nil : MixAll g [] [] []
  | cons {v w e es c cs} : Mix g v e c → g.cfg.Derives [e] ((kinds v).map .term) → MixAll g w es cs →
      MixAll g (v ++ w) (e :: es) (c :: cs)

theorem MixAll.length {v : List (Token T V)} {es cs} (h : MixAll g v es cs) : cs.length = es.length := by
  induction h with
  | nil => rfl
  | cons _ _ _ ih => simp [ih]

theorem MixAll.single {v : List (Token T V)} {e es cs} (h : MixAll g v es cs) (he : es = [e]) :
    ∃ c, cs = [c] ∧ Mix g v e c := by
  cases h with
  | nil => cases he
  | cons h1 h2 h3 =>
    simp only [List.cons.injEq] at he
    obtain ⟨rfl, rfl⟩ := he
    cases h3
    exact ⟨_, rfl, by rw [List.append_nil]; exact h1⟩

theorem MixAll.derives {v : List (Token T V)} {es cs} (h : MixAll g v es cs) :
    g.cfg.Derives es ((kinds v).map .term) := by
  induction h with
  | nil => exact .refl _
  | cons _ h1 _ ih =>
    rw [kinds_append, List.map_append]
    exact Cfg.Derives.append (a := [_]) h1 ih

theorem MixAll.get {v : List (Token T V)} {es cs} (h : MixAll g v es cs) :
    ∀ (x : Nat) (e : Elem T NT), es[x]? = some e → ∃ c b o a, cs[x]? = some c ∧ v = b ++ o ++ a ∧
      g.cfg.Derives (es.take x) ((kinds b).map .term) ∧ g.cfg.Derives [e] ((kinds o).map .term) ∧
      g.cfg.Derives (es.drop (x + 1)) ((kinds a).map .term) ∧ Mix g o e c := by
  induction h with
  | nil => intro x e h; simp at h
  | @cons v w e es c cs h1 h2 h3 ih =>
    intro x e' he
    cases x with
    | zero =>
      simp at he; subst he
      exact ⟨c, [], v, w, rfl, by simp, .refl _, h2, h3.derives, h1⟩
    | succ x =>
      simp at he
      obtain ⟨c', b, o, a, k1, k2, k3, k4, k5, k6⟩ := ih x e' he
      refine ⟨c', v ++ b, o, a, k1, by rw [k2]; simp, ?_, k4, k5, k6⟩
      rw [List.take_succ_cons, kinds_append, List.map_append]
      exact Cfg.Derives.append (a := [_]) h2 k3

/-- A node from two divisions of its tokens: the first children from the one, the others from the
other. -/
theorem Mix.of_two {p : Prod T NT AK AV} (hp : p ∈ g.prods) {k : Nat} {x y x' y' : List (Token T V)}
    {cs ds} (h : x ++ y = x' ++ y') (h1 : MixAll g x (p.elements.take k) cs)
    (h2 : g.cfg.Derives (p.elements.drop k) ((kinds y).map .term))
    (h3 : g.cfg.Derives (p.elements.take k) ((kinds x').map .term))
    (h4 : MixAll g y' (p.elements.drop k) ds) :
    Mix g (x ++ y) (.nonterm p.head) (.node p (cs ++ ds)) := by
  have hl1 := h1.length
  have hl4 := h4.length
  have hk : (p.elements.take k).length ≤ k := by simp; omega
  have key : ∀ z : Nat, ∃ t : List (Token T V) × List (Token T V) × List (Token T V),
      ∀ e, p.elements[z]? = some e → x ++ y = t.1 ++ t.2.1 ++ t.2.2 ∧
        g.cfg.Derives (p.elements.take z) ((kinds t.1).map .term) ∧
        g.cfg.Derives [e] ((kinds t.2.1).map .term) ∧
        g.cfg.Derives (p.elements.drop (z + 1)) ((kinds t.2.2).map .term) ∧
        ∃ c, (cs ++ ds)[z]? = some c ∧ Mix g t.2.1 e c := by
    intro z
    rcases Nat.lt_or_ge z p.elements.length with hz | hz
    · have he := List.getElem?_eq_getElem hz
      rcases Nat.lt_or_ge z k with hzk | hzk
      · obtain ⟨c, b, o, a, k1, k2, k3, k4, k5, k6⟩ := h1.get z p.elements[z]
          (by rw [List.getElem?_take, if_pos hzk, he])
        refine ⟨(b, o, a ++ y), ?_⟩
        intro e he'
        rw [he] at he'; cases he'
        refine ⟨by rw [k2]; simp, ?_, k4, ?_, c, ?_, k6⟩
        · rwa [List.take_take, Nat.min_eq_left (by omega)] at k3
        · have hd : p.elements.drop (z + 1) =
              (p.elements.take k).drop (z + 1) ++ p.elements.drop k := by
            conv => lhs; rw [← List.take_append_drop k p.elements]
            rw [List.drop_append_of_le_length (by simp; omega)]
          rw [hd, kinds_append, List.map_append]
          exact k5.append h2
        · rw [List.getElem?_append_left (List.getElem?_eq_some_iff.1 k1).1]; exact k1
      · obtain ⟨c, b, o, a, k1, k2, k3, k4, k5, k6⟩ := h4.get (z - k) p.elements[z]
          (by rw [List.getElem?_drop, Nat.add_sub_cancel' hzk, he])
        refine ⟨(x' ++ b, o, a), ?_⟩
        intro e he'
        rw [he] at he'; cases he'
        refine ⟨by rw [h, k2]; simp, ?_, k4, ?_, c, ?_, k6⟩
        · have : p.elements.take z = p.elements.take k ++ (p.elements.drop k).take (z - k) := by
            rw [← List.take_add, Nat.add_sub_cancel' hzk]
          rw [this, kinds_append, List.map_append]
          exact h3.append k3
        · rw [List.drop_drop] at k5
          rwa [show k + (z - k + 1) = z + 1 by omega] at k5
        · have : cs.length = k := by rw [hl1, List.length_take]; omega
          rw [List.getElem?_append_right (by omega), this]; exact k1
    · refine ⟨([], [], []), ?_⟩
      intro e he
      rw [List.getElem?_eq_none hz] at he; cases he
  obtain ⟨f, hf⟩ := Classical.axiomOfChoice key
  refine .node _ p _ (fun z => (f z).1) (fun z => (f z).2.1) (fun z => (f z).2.2) hp ?_ ?_ ?_ ?_
  · conv => arg 2; rw [← List.take_append_drop k p.elements]
    rw [kinds_append, List.map_append]
    exact h1.derives.append h2
  · rw [List.length_append, hl1, hl4, ← List.length_append, List.take_append_drop]
  · intro z e he
    obtain ⟨a1, a2, a3, a4, -⟩ := hf z e he
    exact ⟨a1, a2, a3, a4⟩
  · intro z e c he hc
    obtain ⟨-, -, -, -, c', b1, b2⟩ := hf z e he
    rw [hc] at b1; cases b1; exact b2

theorem MixAll.node {p : Prod T NT AK AV} (hp : p ∈ g.prods) {v : List (Token T V)} {cs}
    (h : MixAll g v p.elements cs) : Mix g v (.nonterm p.head) (.node p cs) := by
  have := Mix.of_two (k := p.elements.length) (x := v) (y := []) (x' := v) (y' := []) (ds := []) hp rfl
    (by rw [List.take_length]; exact h) (by rw [List.drop_length]; exact .refl _)
    (by rw [List.take_length]; exact h.derives) (by rw [List.drop_length]; exact .nil)
  simpa using this

mutual
/-- A derivation tree is a mixed tree. -/
theorem IsTree.mix (hw : g.WF) {e : Elem T NT} {t : DTree (Token T V) (Prod T NT AK AV)}
    (h : IsTree g (·.kind) e t) : Mix g t.yield e t := by
  cases h with
  | leaf l => rw [DTree.yield]; exact .leaf l
  | node p cs hp hf => rw [DTree.yield]; exact (hf.mixAll hw).node hp
theorem IsForest.mixAll (hw : g.WF) {es : List (Elem T NT)}
    {ts : List (DTree (Token T V) (Prod T NT AK AV))} (h : IsForest g (·.kind) es ts) :
    MixAll g (DTree.yields ts) es ts := by
  cases h with
  | nil => rw [DTree.yields]; exact .nil
  | @cons e es c cs h1 h2 =>
    rw [DTree.yields]
    refine .cons (h1.mix hw) ?_ (h2.mixAll hw)
    have := (h1.yields hw).derives
    exact this
end

theorem forest_of_tokens (hw : g.WF) {es : List (Elem T NT)} {v : List (Token T V)}
    (h : g.cfg.Derives es ((kinds v).map .term)) :
    ∃ cs : List (DTree (Token T V) (Prod T NT AK AV)), IsForest g (·.kind) es cs ∧ DTree.yields cs = v :=
  forest_of_yields (kind := (·.kind)) hw (Cfg.yields_iff.2 h) v rfl

theorem mixAll_of_tokens (hw : g.WF) {es : List (Elem T NT)} {v : List (Token T V)}
    (h : g.cfg.Derives es ((kinds v).map .term)) :
    ∃ cs : List (DTree (Token T V) (Prod T NT AK AV)), MixAll g v es cs ∧ DTree.yields cs = v := by
  obtain ⟨cs, h1, h2⟩ := forest_of_tokens hw h
  exact ⟨cs, by have := h1.mixAll hw; rwa [h2] at this, h2⟩

/-- Mixed trees around a mixed tree. -/
theorem mix_context (hw : g.WF) {s γ : List (Elem T NT)} (h : g.cfg.SYields s γ) {v : List (Token T V)}
    {A : NT} {t : DTree (Token T V) (Prod T NT AK AV)} (ht : Mix g v (.nonterm A) t)
    (hv : g.cfg.Derives [.nonterm A] ((kinds v).map .term)) :
    ∀ (u z : List (Token T V)) (δ : List (Elem T NT)), γ = (kinds u).map .term ++ .nonterm A :: δ →
      g.cfg.Derives δ ((kinds z).map .term) →
      ∃ cs, MixAll g (u ++ v ++ z) s cs ∧ DTree.yields cs = u ++ t.yield ++ z := by
  induction h with
  | nil => intro u z δ h; simp at h
  | @keep s γ e h ih =>
    intro u z δ hγ hz
    cases u with
    | nil =>
      simp only [kinds, List.map_nil, List.nil_append, List.cons.injEq] at hγ
      obtain ⟨rfl, rfl⟩ := hγ
      obtain ⟨cs, h1, h2⟩ := mixAll_of_tokens hw (h.derives.trans hz)
      exact ⟨t :: cs, .cons ht hv h1, by rw [DTree.yields, h2]; simp⟩
    | cons x u =>
      simp only [kinds, List.map_cons, List.cons_append, List.cons.injEq] at hγ
      obtain ⟨rfl, rfl⟩ := hγ
      obtain ⟨cs, h1, h2⟩ := ih u z δ rfl hz
      refine ⟨.leaf x :: cs, MixAll.cons (v := [x]) (.leaf x) (.refl _) h1, ?_⟩
      rw [DTree.yields, DTree.yield, h2]; simp
  | @expand B β s γ₁ γ₂ hp h1 h2 ih1 ih2 =>
    intro u z δ hγ hz
    obtain ⟨q, hq, rfl, rfl⟩ := (Grammar.cfg_prod_iff hw).1 hp
    have hcase : (∃ u1 u2, u = u1 ++ u2 ∧ γ₁ = (kinds u1).map .term ∧
          γ₂ = (kinds u2).map .term ++ .nonterm A :: δ) ∨
        ∃ δ1, γ₁ = (kinds u).map .term ++ .nonterm A :: δ1 ∧ δ = δ1 ++ γ₂ := by
      rcases List.append_eq_append_iff.1 hγ with ⟨c, hc1, hc2⟩ | ⟨c, hc1, hc2⟩
      · unfold kinds at hc1
        rw [List.map_map] at hc1
        obtain ⟨u1, u2, rfl, e1, e2⟩ := List.map_eq_append_iff.1 hc1
        exact Or.inl ⟨u1, u2, rfl, by rw [← e1]; simp [kinds], by rw [hc2, ← e2]; simp [kinds]⟩
      · cases c with
        | nil =>
          simp only [List.append_nil, List.nil_append] at hc1 hc2
          exact Or.inl ⟨u, [], by simp, hc1, by simp [hc2, kinds]⟩
        | cons e c =>
          simp only [List.cons_append, List.cons.injEq] at hc2
          obtain ⟨rfl, rfl⟩ := hc2
          exact Or.inr ⟨c, hc1, rfl⟩
    rcases hcase with ⟨u1, u2, rfl, rfl, rfl⟩ | ⟨δ1, rfl, rfl⟩
    · obtain ⟨cs, c1, c2⟩ := ih2 u2 z δ rfl hz
      obtain ⟨ds, d1, d2⟩ := mixAll_of_tokens hw h1.derives
      refine ⟨.node q ds :: cs, ?_, ?_⟩
      · have := MixAll.cons (d1.node hq)
          ((Cfg.derives_prod ((Grammar.cfg_prod_iff hw).2 ⟨q, hq, rfl, rfl⟩)).trans h1.derives) c1
        simpa using this
      · rw [DTree.yields, DTree.yield, c2, d2]; simp
    · obtain ⟨z1, z2, hz12, hz1, hz2⟩ := hz.split
      unfold kinds at hz12
      rw [List.map_map] at hz12
      obtain ⟨w1, w2, rfl, rfl, rfl⟩ := List.map_eq_append_iff.1 hz12
      obtain ⟨cs, c1, c2⟩ := ih1 u w1 δ1 rfl (by simpa [kinds] using hz1)
      obtain ⟨ds, d1, d2⟩ := mixAll_of_tokens (v := w2) hw (h2.derives.trans (by simpa [kinds] using hz2))
      refine ⟨.node q cs :: ds, ?_, ?_⟩
      · have := MixAll.cons (c1.node hq)
          ((Cfg.derives_prod ((Grammar.cfg_prod_iff hw).2 ⟨q, hq, rfl, rfl⟩)).trans c1.derives) d1
        simpa using this
      · rw [DTree.yields, DTree.yield, c2, d2]; simp
end Bongo
