import Verif.Spec.RightCut
import Verif.Proof.RightNull
import Verif.Props.Compose
/-!
# Faults of transformed grammars, in general
-/
set_option linter.unusedSectionVars false
namespace Bongo
open Std

section
variable {T NT AK AV : Type} [Ord NT] [TransOrd NT] [LawfulEqOrd NT]
variable {g : Grammar T NT AK AV} (hg : g.Accepted) {addr : NT → Nat → Nat} (ha : AddrInj g addr) {fuel : Nat}
  {g' : NonNullGrammar T NT AK AV} (h : transformToNonnull fuel addr g = .ok (.ok g'))
include hg ha h

theorem cut_derives_elem (e : Elem T NT) (u : List T) :
    g'.cfg.Derives [e] (u.map .term) ↔ u ≠ [] ∧ g.cutNull.Derives [e] (u.map .term) := by
  cases e with
  | nonterm A => exact nonnull_language_exact g hg addr ha fuel g' h A u
  | term t =>
    have : ∀ (G : Cfg T NT), G.Derives [.term t] (u.map .term) ↔ u = [t] := by
      intro G
      constructor
      · intro h
        have := Cfg.derives_terms (t := [t]) h
        cases u with
        | nil => simp at this
        | cons a u => simp at this; simp [this]
      · rintro rfl; exact .refl _
    rw [this, this]
    constructor
    · rintro rfl; simp
    · exact fun h => h.2

/-- Overlaps of the transformed grammar. -/
theorem cut_overlaps : g'.Overlaps ↔ g.cutNull.OverlapsFilled := by
  have hk := cut_derives_elem hg ha h
  have hw := hg.valid.toWF
  obtain ⟨info, hn, rfl, hv⟩ := transform_ok hw h
  constructor
  · rintro ⟨A, β, d₁, d₂, v, hp, h1, h2, h3, h4⟩
    obtain ⟨p, hpm, rfl, hnd0, c, k, d, hc, rfl⟩ := (nn_cfg_prod hw ha hn).1 hp
    obtain ⟨xs, hx, rfl⟩ := derives_each h3
    obtain ⟨ys, hy, hf⟩ := derives_each h4
    obtain ⟨bs, hb, hfill⟩ := hc.fill (D := fun e u => g.cutNull.Derives [e] (u.map .term))
      (D' := fun e u => (nnGrammar info g).cfg.Derives [e] (u.map .term)) (fun e u hd => ((hk e u).1 hd).2) (fun A hA => cut_generates_nil.2 hA)
    have hlx := hx.length_eq
    have hly := hy.length_eq
    simp only [List.length_take, List.length_map] at hlx hly h2
    have ex : xs.length = d₁ := by omega
    have ey : ys.length = d₂ := by omega
    subst ex ey
    have hne : ∀ {zs : List (List T)} {l}, List.Forall₂ (fun e u => (nnGrammar info g).cfg.Derives [e] (u.map .term)) l zs →
        ∀ z ∈ zs, z ≠ [] := by
      intro zs l hz z hm
      obtain ⟨i, hi, rfl⟩ := List.getElem_of_mem hm
      exact ((hk _ _).1 ((List.forall₂_iff_get.1 hz).2 i (by rw [hz.length_eq]; exact hi) hi)).1
    obtain ⟨ys', y, rfl⟩ : ∃ ys' y, ys = ys' ++ [y] := by
      rcases List.eq_nil_or_concat ys with rfl | ⟨a, b, rfl⟩
      · simp at h1
      · exact ⟨a, b, by simp⟩
    simp only [List.length_append, List.length_cons, List.length_nil] at h1 h2
    obtain ⟨f, f1, f2, f3⟩ := fillIn_snoc (bs := bs) (xs := ys') (y := y) (by omega)
    have h5 : (fillIn bs xs).length ≤ f.length :=
      Nat.le_trans (fillIn_length_le (by omega)) f3
    refine ⟨p.head, p.elements, fillIn bs xs, fillIn bs (ys' ++ [y]), .inl ⟨(Grammar.cfg_prod_iff hw).2 ⟨p, hpm, rfl, rfl⟩, hnd0⟩,
      hfill xs hx, hfill _ hy, List.prefix_of_prefix_length_le (fillIn_pattern (hne hx)) (fillIn_pattern (hne hy)) ?_, ?_,
      y, ?_, hne hy y (by simp)⟩
    · rw [List.length_map, List.length_map, f1, List.length_append]; omega
    · rw [fillIn_flatten (by omega), fillIn_flatten (by simp; omega), hf]
    · rw [f1, List.drop_append_of_le_length h5]; simp
  · rintro ⟨A, β, us, vs, hp, h1, h2, h3, h4, v, h5, h6⟩
    rcases hp with ⟨hp, hnd⟩ | ⟨rfl, -⟩
    rotate_left
    · have hl := List.Forall₂.length_eq h2
      cases vs <;> simp_all
    obtain ⟨p, hpm, rfl, rfl⟩ := (Grammar.cfg_prod_iff hw).1 hp
    obtain ⟨c, k, d, hc, hfill⟩ := Choice.of_fill (nul := fun A => g.cfg.Generates A []) (D := fun e u => g.cutNull.Derives [e] (u.map .term))
      (D' := fun e u => (nnGrammar info g).cfg.Derives [e] (u.map .term)) (fun e u hu hd => (hk e u).2 ⟨hu, hd⟩)
      (fun A hA => cut_generates_nil.1 hA) (fun t ht => by simpa using Cfg.derives_terms (t := [t]) ht) (es := p.prodElements) h2
    have k1 := hfill us h1 h3
    have k2 := hfill vs h2 List.prefix_rfl
    refine ⟨p.head, k.map (·.element), _, _, us.flatten, (nn_cfg_prod hw ha hn).2 ⟨p, hpm, rfl, hnd, c, k, d, hc, rfl⟩,
      ?_, ?_, by have := derives_of_each k1; rwa [filter_flatten] at this,
      by have := derives_of_each k2; rwa [filter_flatten, ← h4] at this⟩
    · have h7 : us.map List.isEmpty = (vs.take us.length).map List.isEmpty := by
        obtain ⟨t, ht⟩ := h3
        rw [List.map_take, ← ht, List.take_left' (by simp)]
      rw [filter_length_of_pattern h7]
      conv_rhs => rw [← List.take_append_drop us.length vs, List.filter_append, List.length_append]
      have : v ∈ (vs.drop us.length).filter (! ·.isEmpty) := List.mem_filter.2 ⟨h5, by simpa using h6⟩
      have := List.length_pos_of_mem this
      omega
    · have := k2.length_eq
      rw [List.length_take] at this
      omega

/-- Two ways to divide a text in the transformed grammar. -/
theorem cut_divides : g'.Divides ↔ g.cutNull.DividesFilled := by
  have hk := cut_derives_elem hg ha h
  have hw := hg.valid.toWF
  obtain ⟨info, hn, rfl, hv⟩ := transform_ok hw h
  constructor
  · rintro ⟨A, β, n, e, x, y, x', y', hp, hb, hxy, hne', h1, h2, h3, h4⟩
    obtain ⟨p, hpm, rfl, hnd0, c, k, d, hc, rfl⟩ := (nn_cfg_prod hw ha hn).1 hp
    obtain ⟨xs, hx, rfl⟩ := derives_each h1
    obtain ⟨xs', hx', rfl⟩ := derives_each h3
    obtain ⟨bs, hbs, hfill⟩ := hc.fill (D := fun e u => g.cutNull.Derives [e] (u.map .term))
      (D' := fun e u => (nnGrammar info g).cfg.Derives [e] (u.map .term)) (fun e u hd => ((hk e u).1 hd).2) (fun A hA => cut_generates_nil.2 hA)
    have hlt : n < k.length := by simpa using (List.getElem?_eq_some_iff.1 hb).1
    have ex : xs.length = n := by rw [← hx.length_eq]; simp; omega
    have ex' : xs'.length = n := by rw [← hx'.length_eq]; simp; omega
    have hX := forall₂_snoc_take (y := y) (by rw [ex]; exact hb) (by rw [ex]; exact hx) h2
    have hX' := forall₂_snoc_take (y := y') (by rw [ex']; exact hb) (by rw [ex']; exact hx') h4
    have hne : ∀ {zs : List (List T)} {l}, List.Forall₂ (fun e u => (nnGrammar info g).cfg.Derives [e] (u.map .term)) l zs →
        ∀ z ∈ zs, z ≠ [] := by
      intro zs l hz z hm
      obtain ⟨i, hi, rfl⟩ := List.getElem_of_mem hm
      exact ((hk _ _).1 ((List.forall₂_iff_get.1 hz).2 i (by rw [hz.length_eq]; exact hi) hi)).1
    obtain ⟨f, f1, f2, -⟩ := fillIn_snoc (bs := bs) (xs := xs) (y := y) (by omega)
    obtain ⟨f', f1', f2', -⟩ := fillIn_snoc (bs := bs) (xs := xs') (y := y') (by omega)
    have hlen := fillIn_length (bs := bs) (xs := xs ++ [y]) (ys := xs' ++ [y']) (by simp [ex, ex'])
    have p1 := fillIn_pattern (bs := bs) (hne hX)
    have p2 := fillIn_pattern (bs := bs) (hne hX')
    have hpat := List.prefix_of_prefix_length_le p1 p2 (by simp [hlen])
    have hpat := hpat.eq_of_length (by simp [hlen])
    have q1 := hfill _ hX
    have q2 := hfill _ hX'
    rw [f1] at q1 hpat
    rw [f1'] at q2 hpat
    refine ⟨p.head, p.elements, f, y, f', y', .inl ⟨(Grammar.cfg_prod_iff hw).2 ⟨p, hpm, rfl, rfl⟩, hnd0⟩, q1, q2, hpat, ?_, ?_⟩
    · rw [f2, f2']; exact hxy
    · rw [f2, f2']; exact hne'
  · rintro ⟨A, β, us, u, vs, v, hp, h1, h2, h3, h4, h5⟩
    rcases hp with ⟨hp, hnd⟩ | ⟨rfl, -⟩
    rotate_left
    · have hl := List.Forall₂.length_eq h2
      cases vs <;> simp_all
    obtain ⟨p, hpm, rfl, rfl⟩ := (Grammar.cfg_prod_iff hw).1 hp
    obtain ⟨c, k, d, hc, hfill⟩ := Choice.of_fill (nul := fun A => g.cfg.Generates A []) (D := fun e u => g.cutNull.Derives [e] (u.map .term))
      (D' := fun e u => (nnGrammar info g).cfg.Derives [e] (u.map .term)) (fun e u hu hd => (hk e u).2 ⟨hu, hd⟩)
      (fun A hA => cut_generates_nil.1 hA) (fun t ht => by simpa using Cfg.derives_terms (t := [t]) ht) (es := p.prodElements) h2
    have hu : u ≠ [] ∧ v ≠ [] := by
      have h6 : u.isEmpty = v.isEmpty := by
        have := congrArg List.getLast? h3
        simpa using this
      by_cases hu : u = []
      · subst hu
        have hv : v = [] := by simpa using h6.symm
        subst hv
        exact absurd (by simpa using h4) h5
      · exact ⟨hu, fun hv => hu (by subst hv; simpa using h6)⟩
    have k1 := hfill _ h1 (by rw [h3])
    have k2 := hfill _ h2 List.prefix_rfl
    have fs : ∀ (us : List (List T)) (u : List T), u ≠ [] →
        (us ++ [u]).filter (! ·.isEmpty) = us.filter (! ·.isEmpty) ++ [u] := by
      intro us u hu
      rw [List.filter_append, List.filter_cons_of_pos (by simpa using hu)]; rfl
    rw [fs _ _ hu.1] at k1
    rw [fs _ _ hu.2] at k2
    obtain ⟨e, e1, e2, e3⟩ := forall₂_take_snoc k1
    obtain ⟨e', e1', e2', e3'⟩ := forall₂_take_snoc k2
    have hl : (us.filter (! ·.isEmpty)).length = (vs.filter (! ·.isEmpty)).length := by
      have := filter_length_of_pattern h3
      rw [fs _ _ hu.1, fs _ _ hu.2] at this
      simpa using this
    rw [← hl] at e1' e2'
    rw [e1] at e1'
    cases e1'
    have m1 := derives_of_each e2
    have m2 := derives_of_each e2'
    rw [filter_flatten] at m1 m2
    exact ⟨p.head, k.map (·.element), _, e, us.flatten, u, vs.flatten, v,
      (nn_cfg_prod hw ha hn).2 ⟨p, hpm, rfl, hnd, c, k, d, hc, rfl⟩, e1, h4, h5, m1, e3, m2, e3'⟩

/-- The transform makes no useless parts. -/
theorem cut_trim (ht : g.CutTrim) : g'.Trim := by
  have hs : g'.startSymbol = g.startSymbol := by
    obtain ⟨info, hn, rfl, -⟩ := transform_ok hg.valid.toWF h; rfl
  refine ⟨?_, nonnull_no_dead_ends g hg addr ha fuel g' h ht.noDeadEnds⟩
  · have hw := hg.valid.toWF
    intro A β hp
    have : ∃ p ∈ g.prods, p.head = A ∧ ¬ g.cfg.Derives p.elements [] := by
      obtain ⟨info, hn, rfl, -⟩ := transform_ok hw h
      obtain ⟨p, a, b, c, -⟩ := (nn_cfg_prod hw ha hn).1 hp
      exact ⟨p, a, b, c⟩
    obtain ⟨p, a, rfl, c⟩ := this
    obtain ⟨γ, δ, hd⟩ := ht.reached p a c
    rw [hs]
    exact ⟨γ, δ, (nonnull_sentential g hg addr ha fuel g' h _ _).2 ⟨by simp, hd⟩⟩
end
end Bongo
