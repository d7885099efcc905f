import Verif.Spec.RightNull
import Verif.Proof.NonNullTree
import Verif.Proof.LL1Null
import Verif.Props.Right
import Verif.Props.NonNullPasses
/-!
# Faults of transformed grammars
-/
set_option linter.unusedSectionVars false
namespace Bongo
open Std

section
variable {T NT : Type}

theorem derives_each {G : Cfg T NT} {s : List (Elem T NT)} {v : List T} (h : G.Derives s (v.map .term)) :
    ∃ vs, List.Forall₂ (fun e u => G.Derives [e] (u.map .term)) s vs ∧ vs.flatten = v := by
  induction s generalizing v with
  | nil => exact ⟨[], .nil, by simpa using Cfg.derives_nil h⟩
  | cons e s ih =>
    have h' : G.Derives ([e] ++ s) (v.map .term) := h
    obtain ⟨c₁, c₂, h1, h2, h3⟩ := h'.split
    obtain ⟨x, y, rfl, rfl, rfl⟩ := terms_append h1.symm
    obtain ⟨vs, h4, rfl⟩ := ih h3
    exact ⟨x :: vs, .cons h2 h4, rfl⟩

theorem derives_of_each {G : Cfg T NT} {s : List (Elem T NT)} {vs : List (List T)}
    (h : List.Forall₂ (fun e u => G.Derives [e] (u.map .term)) s vs) : G.Derives s (vs.flatten.map .term) := by
  induction h with
  | nil => exact .refl _
  | cons h1 _ ih => simpa using h1.append ih

theorem forall₂_take_snoc {α β : Type} {R : α → β → Prop} {l : List α} {xs : List β} {y : β}
    (h : List.Forall₂ R (l.take (xs ++ [y]).length) (xs ++ [y])) :
    ∃ e, l[xs.length]? = some e ∧ List.Forall₂ R (l.take xs.length) xs ∧ R e y := by
  have hlen := h.length_eq
  simp only [List.length_take, List.length_append, List.length_cons, List.length_nil] at hlen
  have hlt : xs.length < l.length := by omega
  have h1 : l.take (xs ++ [y]).length = l.take xs.length ++ [l[xs.length]] := by
    rw [List.length_append, List.length_cons, List.length_nil, List.take_add_one, List.getElem?_eq_getElem hlt]; rfl
  rw [h1] at h
  refine ⟨l[xs.length], List.getElem?_eq_getElem hlt, ?_⟩
  have h2 := List.forall₂_take_append _ _ _ h
  have h3 := List.forall₂_drop_append _ _ _ h
  rw [List.take_left' (by simp; omega)] at h2
  rw [List.drop_left' (by simp; omega)] at h3
  exact ⟨h2, by simpa using h3⟩

theorem forall₂_snoc_take {α β : Type} {R : α → β → Prop} {l : List α} {xs : List β} {y : β} {e : α}
    (h1 : l[xs.length]? = some e) (h2 : List.Forall₂ R (l.take xs.length) xs) (h3 : R e y) :
    List.Forall₂ R (l.take (xs ++ [y]).length) (xs ++ [y]) := by
  have : l.take (xs ++ [y]).length = l.take xs.length ++ [e] := by
    rw [List.length_append, List.length_cons, List.length_nil, List.take_add_one, h1]; rfl
  rw [this]
  exact List.rel_append h2 (.cons h3 .nil)

/-- The texts `xs` with empty ones put in where `bs` says so, up to the last of `xs`. -/
def fillIn : List Bool → List (List T) → List (List T)
  | _, [] => []
  | [], _ :: _ => []
  | true :: bs, x :: xs => [] :: fillIn bs (x :: xs)
  | false :: bs, x :: xs => x :: fillIn bs xs

theorem fillIn_length {bs : List Bool} {xs ys : List (List T)} (h : xs.length = ys.length) :
    (fillIn bs xs).length = (fillIn bs ys).length := by
  induction bs generalizing xs ys with
  | nil => cases xs <;> cases ys <;> simp_all [fillIn]
  | cons b bs ih =>
    cases xs with
    | nil => cases ys <;> simp_all [fillIn]
    | cons x xs =>
      cases ys with
      | nil => simp at h
      | cons y ys =>
        cases b
        · simp only [fillIn, List.length_cons]
          rw [ih (by simpa using h)]
        · simp only [fillIn, List.length_cons]
          rw [ih h]

theorem fillIn_flatten {bs : List Bool} {xs : List (List T)} (h : xs.length ≤ bs.count false) :
    (fillIn bs xs).flatten = xs.flatten := by
  induction bs generalizing xs with
  | nil => cases xs <;> simp_all [fillIn]
  | cons b bs ih =>
    cases xs with
    | nil => simp [fillIn]
    | cons x xs =>
      cases b
      · simp only [fillIn, List.flatten_cons]
        rw [ih (by simpa using h)]
      · simp only [fillIn, List.flatten_cons, List.nil_append]
        rw [ih (by simpa using h), List.flatten_cons]

theorem fillIn_pattern {bs : List Bool} {xs : List (List T)} (h : ∀ x ∈ xs, x ≠ []) :
    (fillIn bs xs).map List.isEmpty <+: bs := by
  induction bs generalizing xs with
  | nil => cases xs <;> simp [fillIn]
  | cons b bs ih =>
    cases xs with
    | nil => simp [fillIn]
    | cons x xs =>
      cases b
      · simp only [fillIn, List.map_cons, List.cons_prefix_cons]
        exact ⟨by simpa using h x List.mem_cons_self, ih fun y hy => h y (List.mem_cons_of_mem _ hy)⟩
      · simp only [fillIn, List.map_cons, List.cons_prefix_cons]
        exact ⟨rfl, ih h⟩

theorem fillIn_snoc {bs : List Bool} {xs : List (List T)} {y : List T} (h : xs.length + 1 ≤ bs.count false) :
    ∃ f, fillIn bs (xs ++ [y]) = f ++ [y] ∧ f.flatten = xs.flatten ∧ (fillIn bs xs).length ≤ f.length := by
  induction bs generalizing xs with
  | nil => simp at h
  | cons b bs ih =>
    cases xs with
    | nil =>
      cases b
      · exact ⟨[], by simp [fillIn], rfl, by simp [fillIn]⟩
      · obtain ⟨f, h1, h2, h3⟩ := ih (xs := []) (by simpa using h)
        exact ⟨[] :: f, by simpa [fillIn] using h1, by simpa using h2, by simp [fillIn]⟩
    | cons x xs =>
      cases b
      · obtain ⟨f, h1, h2, h3⟩ := ih (xs := xs) (by simpa using h)
        exact ⟨x :: f, by simp [fillIn, h1], by simp [h2], by simpa [fillIn] using h3⟩
      · obtain ⟨f, h1, h2, h3⟩ := ih (xs := x :: xs) (by simpa using h)
        exact ⟨[] :: f, by simpa [fillIn] using h1, by simpa using h2, by simpa [fillIn] using h3⟩

theorem fillIn_length_le {bs : List Bool} {xs ys : List (List T)} (h : xs.length ≤ ys.length) :
    (fillIn bs xs).length ≤ (fillIn bs ys).length := by
  induction bs generalizing xs ys with
  | nil => cases xs <;> simp [fillIn]
  | cons b bs ih =>
    cases xs with
    | nil => simp [fillIn]
    | cons x xs =>
      cases ys with
      | nil => simp at h
      | cons y ys =>
        cases b
        · simpa [fillIn] using ih (by simpa using h)
        · simpa [fillIn] using ih (xs := x :: xs) (ys := y :: ys) h

theorem Choice.all (nul : NT → Prop) (es : List (ProdElement T NT)) : ∃ c k d, Choice nul es c k d := by
  induction es with
  | nil => exact ⟨_, _, _, .nil⟩
  | cons e es ih =>
    obtain ⟨c, k, d, h⟩ := ih
    obtain ⟨id, t | A⟩ := e
    · exact ⟨_, _, _, .term id t h⟩
    · exact ⟨_, _, _, .nonNull id A h⟩

section
variable {nul : NT → Prop} {D D' : Elem T NT → List T → Prop}

/-- What a choice keeps can be filled in. -/
theorem Choice.fill (hD : ∀ e u, D' e u → D e u) (hn : ∀ A, nul A → D (.nonterm A) []) {es : List (ProdElement T NT)} {c k d}
    (h : Choice nul es c k d) : ∃ bs : List Bool, bs.count false = k.length ∧
      ∀ xs, List.Forall₂ D' ((k.map (·.element)).take xs.length) xs →
        List.Forall₂ D ((es.map (·.element)).take (fillIn bs xs).length) (fillIn bs xs) := by
  have keep : ∀ {es k : List (ProdElement T NT)} {bs : List Bool} (e : ProdElement T NT), bs.count false = k.length →
      (∀ xs, List.Forall₂ D' ((k.map (·.element)).take xs.length) xs →
        List.Forall₂ D ((es.map (·.element)).take (fillIn bs xs).length) (fillIn bs xs)) →
      (false :: bs).count false = (e :: k).length ∧
      ∀ xs, List.Forall₂ D' (((e :: k).map (·.element)).take xs.length) xs →
        List.Forall₂ D (((e :: es).map (·.element)).take (fillIn (false :: bs) xs).length) (fillIn (false :: bs) xs) := by
    intro es k bs e h1 h2
    refine ⟨by simp [h1], fun xs hx => ?_⟩
    cases xs with
    | nil => simp [fillIn]
    | cons x xs =>
      simp only [List.map_cons, List.length_cons, List.take_succ_cons, List.forall₂_cons] at hx
      simp only [fillIn, List.map_cons, List.length_cons, List.take_succ_cons, List.forall₂_cons]
      exact ⟨hD _ _ hx.1, h2 _ hx.2⟩
  induction h with
  | nil =>
    refine ⟨[], rfl, fun xs h => ?_⟩
    cases xs with
    | nil => simp [fillIn]
    | cons x xs => simp [fillIn]
  | term id t _ ih =>
    obtain ⟨bs, h1, h2⟩ := ih
    exact ⟨false :: bs, keep _ h1 h2⟩
  | nonNull id A _ ih =>
    obtain ⟨bs, h1, h2⟩ := ih
    exact ⟨false :: bs, keep _ h1 h2⟩
  | null id A hA _ ih =>
    obtain ⟨bs, h1, h2⟩ := ih
    refine ⟨true :: bs, by simp [h1], fun xs hx => ?_⟩
    cases xs with
    | nil => simp [fillIn]
    | cons x xs =>
      simp only [fillIn, List.map_cons, List.length_cons, List.take_succ_cons, List.forall₂_cons]
      exact ⟨hn A hA, h2 _ hx⟩

/-- Texts for elements make a choice. -/
theorem Choice.of_fill (hD : ∀ e u, u ≠ [] → D e u → D' e u) (hn : ∀ A, D (.nonterm A) [] → nul A)
    (ht : ∀ t, ¬ D (.term t) []) {es : List (ProdElement T NT)} {vs : List (List T)}
    (h : List.Forall₂ D ((es.map (·.element)).take vs.length) vs) :
    ∃ c k d, Choice nul es c k d ∧ ∀ us, List.Forall₂ D ((es.map (·.element)).take us.length) us →
      us.map List.isEmpty <+: vs.map List.isEmpty →
      List.Forall₂ D' ((k.map (·.element)).take (us.filter (! ·.isEmpty)).length) (us.filter (! ·.isEmpty)) := by
  induction es generalizing vs with
  | nil =>
    refine ⟨_, _, _, .nil, fun us h1 _ => ?_⟩
    have : us = [] := by
      cases us with
      | nil => rfl
      | cons _ _ => simp at h1
    subst this
    simp
  | cons e es ih =>
    cases vs with
    | nil =>
      obtain ⟨c, k, d, hc⟩ := Choice.all nul (e :: es)
      refine ⟨c, k, d, hc, fun us _ h2 => ?_⟩
      have : us = [] := by simpa using h2
      subst this
      simp
    | cons v vs =>
      simp only [List.map_cons, List.length_cons, List.take_succ_cons, List.forall₂_cons] at h
      obtain ⟨h1, h2⟩ := h
      obtain ⟨c, k, d, hc, hk⟩ := ih h2
      by_cases hv : v = []
      · subst hv
        obtain ⟨id, t | A⟩ := e
        · exact absurd h1 (ht t)
        · refine ⟨_, _, _, .null id A (hn A h1) hc, fun us h3 h4 => ?_⟩
          cases us with
          | nil => simp
          | cons u us =>
            simp only [List.map_cons, List.length_cons, List.take_succ_cons, List.forall₂_cons] at h3
            simp only [List.map_cons, List.cons_prefix_cons] at h4
            have hu : u.isEmpty = true := h4.1
            rw [List.filter_cons_of_neg (by simp [hu])]
            exact hk us h3.2 h4.2
      · have hkeep : ∃ c', Choice nul (e :: es) c' (e :: k) d := by
          obtain ⟨id, t | A⟩ := e
          · exact ⟨_, .term id t hc⟩
          · exact ⟨_, .nonNull id A hc⟩
        obtain ⟨c', hc'⟩ := hkeep
        refine ⟨c', e :: k, d, hc', fun us h3 h4 => ?_⟩
        cases us with
        | nil => simp
        | cons u us =>
          simp only [List.map_cons, List.length_cons, List.take_succ_cons, List.forall₂_cons] at h3
          simp only [List.map_cons, List.cons_prefix_cons] at h4
          have hu : u.isEmpty = false := by rw [h4.1]; simpa using hv
          rw [List.filter_cons_of_pos (by simp [hu])]
          simp only [List.map_cons, List.length_cons, List.take_succ_cons, List.forall₂_cons]
          exact ⟨hD _ _ (by simpa using hu) h3.1, hk us h3.2 h4.2⟩
end

theorem filter_length_of_pattern {us vs : List (List T)} (h : us.map List.isEmpty = vs.map List.isEmpty) :
    (us.filter (! ·.isEmpty)).length = (vs.filter (! ·.isEmpty)).length := by
  induction us generalizing vs with
  | nil =>
    have : vs = [] := by simpa using h.symm
    subst this; rfl
  | cons u us ih =>
    cases vs with
    | nil => simp at h
    | cons v vs =>
      simp only [List.map_cons, List.cons.injEq] at h
      simp only [List.filter_cons, h.1]
      split <;> simp [ih h.2]

theorem filter_flatten (us : List (List T)) : (us.filter (! ·.isEmpty)).flatten = us.flatten := by
  induction us with
  | nil => rfl
  | cons u us ih =>
    rw [List.filter_cons]
    cases u with
    | nil => simpa using ih
    | cons a u => simpa using ih
end

section
variable {T NT AK AV : Type} [Ord NT] [TransOrd NT] [LawfulEqOrd NT]
variable {g : Grammar T NT AK AV} (hg : g.Accepted) {addr : NT → Nat → Nat} (ha : AddrInj g addr) {fuel : Nat}
  {g' : NonNullGrammar T NT AK AV} (h : transformToNonnull fuel addr g = .ok (.ok g'))
  (he : ∀ p ∈ g.prods, g.cfg.Derives p.elements [] → p.elements = [])
include hg ha h he

theorem nonnull_derives_elem (e : Elem T NT) (u : List T) :
    g'.cfg.Derives [e] (u.map .term) ↔ u ≠ [] ∧ g.cfg.Derives [e] (u.map .term) := by
  cases e with
  | nonterm A =>
    have := nonnull_language_exact g hg addr ha fuel g' h A u
    rw [Cfg.Generates, Cfg.Generates, cutNull_derives_iff g hg he] at this
    exact this
  | term t =>
    have : ∀ (G : Cfg T NT), G.Derives [.term t] (u.map .term) ↔ u = [t] := by
      intro G
      constructor
      · intro h
        have := Cfg.derives_terms (t := [t]) h
        cases u with
        | nil => simp at this
        | cons a u => simp at this; simp [this]
      · rintro rfl; exact .refl _
    rw [this, this]
    constructor
    · rintro rfl; simp
    · exact fun h => h.2

/-- Overlaps of the transformed grammar. -/
theorem nonnull_overlaps : g'.Overlaps ↔ g.OverlapsFilled := by
  have hk := nonnull_derives_elem hg ha h he
  have hw := hg.valid.toWF
  obtain ⟨info, hn, rfl, hv⟩ := transform_ok hw h
  constructor
  · rintro ⟨A, β, d₁, d₂, v, hp, h1, h2, h3, h4⟩
    obtain ⟨p, hpm, rfl, -, c, k, d, hc, rfl⟩ := (nn_cfg_prod hw ha hn).1 hp
    obtain ⟨xs, hx, rfl⟩ := derives_each h3
    obtain ⟨ys, hy, hf⟩ := derives_each h4
    obtain ⟨bs, hb, hfill⟩ := hc.fill (D := fun e u => g.cfg.Derives [e] (u.map .term))
      (D' := fun e u => (nnGrammar info g).cfg.Derives [e] (u.map .term)) (fun e u hd => ((hk e u).1 hd).2) (fun A hA => hA)
    have hlx := hx.length_eq
    have hly := hy.length_eq
    simp only [List.length_take, List.length_map] at hlx hly h2
    have ex : xs.length = d₁ := by omega
    have ey : ys.length = d₂ := by omega
    subst ex ey
    have hne : ∀ {zs : List (List T)} {l}, List.Forall₂ (fun e u => (nnGrammar info g).cfg.Derives [e] (u.map .term)) l zs →
        ∀ z ∈ zs, z ≠ [] := by
      intro zs l hz z hm
      obtain ⟨i, hi, rfl⟩ := List.getElem_of_mem hm
      exact ((hk _ _).1 ((List.forall₂_iff_get.1 hz).2 i (by rw [hz.length_eq]; exact hi) hi)).1
    obtain ⟨ys', y, rfl⟩ : ∃ ys' y, ys = ys' ++ [y] := by
      rcases List.eq_nil_or_concat ys with rfl | ⟨a, b, rfl⟩
      · simp at h1
      · exact ⟨a, b, by simp⟩
    simp only [List.length_append, List.length_cons, List.length_nil] at h1 h2
    obtain ⟨f, f1, f2, f3⟩ := fillIn_snoc (bs := bs) (xs := ys') (y := y) (by omega)
    have h5 : (fillIn bs xs).length ≤ f.length :=
      Nat.le_trans (fillIn_length_le (by omega)) f3
    refine ⟨p.head, p.elements, fillIn bs xs, fillIn bs (ys' ++ [y]), (Grammar.cfg_prod_iff hw).2 ⟨p, hpm, rfl, rfl⟩,
      hfill xs hx, hfill _ hy, List.prefix_of_prefix_length_le (fillIn_pattern (hne hx)) (fillIn_pattern (hne hy)) ?_, ?_,
      y, ?_, hne hy y (by simp)⟩
    · rw [List.length_map, List.length_map, f1, List.length_append]; omega
    · rw [fillIn_flatten (by omega), fillIn_flatten (by simp; omega), hf]
    · rw [f1, List.drop_append_of_le_length h5]; simp
  · rintro ⟨A, β, us, vs, hp, h1, h2, h3, h4, v, h5, h6⟩
    obtain ⟨p, hpm, rfl, rfl⟩ := (Grammar.cfg_prod_iff hw).1 hp
    obtain ⟨c, k, d, hc, hfill⟩ := Choice.of_fill (nul := fun A => g.cfg.Generates A []) (D := fun e u => g.cfg.Derives [e] (u.map .term))
      (D' := fun e u => (nnGrammar info g).cfg.Derives [e] (u.map .term)) (fun e u hu hd => (hk e u).2 ⟨hu, hd⟩)
      (fun A hA => hA) (fun t ht => by simpa using Cfg.derives_terms (t := [t]) ht) (es := p.prodElements) h2
    have hnd : ¬ g.cfg.Derives p.elements [] := by
      intro hd
      have h0 := he p hpm hd
      have hl := List.Forall₂.length_eq h2
      rw [h0] at hl
      have : vs = [] := by cases vs <;> simp_all
      subst this
      simp at h5
    have k1 := hfill us h1 h3
    have k2 := hfill vs h2 List.prefix_rfl
    refine ⟨p.head, k.map (·.element), _, _, us.flatten, (nn_cfg_prod hw ha hn).2 ⟨p, hpm, rfl, hnd, c, k, d, hc, rfl⟩,
      ?_, ?_, by have := derives_of_each k1; rwa [filter_flatten] at this,
      by have := derives_of_each k2; rwa [filter_flatten, ← h4] at this⟩
    · have h7 : us.map List.isEmpty = (vs.take us.length).map List.isEmpty := by
        obtain ⟨t, ht⟩ := h3
        rw [List.map_take, ← ht, List.take_left' (by simp)]
      rw [filter_length_of_pattern h7]
      conv_rhs => rw [← List.take_append_drop us.length vs, List.filter_append, List.length_append]
      have : v ∈ (vs.drop us.length).filter (! ·.isEmpty) := List.mem_filter.2 ⟨h5, by simpa using h6⟩
      have := List.length_pos_of_mem this
      omega
    · have := k2.length_eq
      rw [List.length_take] at this
      omega

/-- Two ways to divide a text in the transformed grammar. -/
theorem nonnull_divides : g'.Divides ↔ g.DividesFilled := by
  have hk := nonnull_derives_elem hg ha h he
  have hw := hg.valid.toWF
  obtain ⟨info, hn, rfl, hv⟩ := transform_ok hw h
  constructor
  · rintro ⟨A, β, n, e, x, y, x', y', hp, hb, hxy, hne', h1, h2, h3, h4⟩
    obtain ⟨p, hpm, rfl, -, c, k, d, hc, rfl⟩ := (nn_cfg_prod hw ha hn).1 hp
    obtain ⟨xs, hx, rfl⟩ := derives_each h1
    obtain ⟨xs', hx', rfl⟩ := derives_each h3
    obtain ⟨bs, hbs, hfill⟩ := hc.fill (D := fun e u => g.cfg.Derives [e] (u.map .term))
      (D' := fun e u => (nnGrammar info g).cfg.Derives [e] (u.map .term)) (fun e u hd => ((hk e u).1 hd).2) (fun A hA => hA)
    have hlt : n < k.length := by simpa using (List.getElem?_eq_some_iff.1 hb).1
    have ex : xs.length = n := by rw [← hx.length_eq]; simp; omega
    have ex' : xs'.length = n := by rw [← hx'.length_eq]; simp; omega
    have hX := forall₂_snoc_take (y := y) (by rw [ex]; exact hb) (by rw [ex]; exact hx) h2
    have hX' := forall₂_snoc_take (y := y') (by rw [ex']; exact hb) (by rw [ex']; exact hx') h4
    have hne : ∀ {zs : List (List T)} {l}, List.Forall₂ (fun e u => (nnGrammar info g).cfg.Derives [e] (u.map .term)) l zs →
        ∀ z ∈ zs, z ≠ [] := by
      intro zs l hz z hm
      obtain ⟨i, hi, rfl⟩ := List.getElem_of_mem hm
      exact ((hk _ _).1 ((List.forall₂_iff_get.1 hz).2 i (by rw [hz.length_eq]; exact hi) hi)).1
    obtain ⟨f, f1, f2, -⟩ := fillIn_snoc (bs := bs) (xs := xs) (y := y) (by omega)
    obtain ⟨f', f1', f2', -⟩ := fillIn_snoc (bs := bs) (xs := xs') (y := y') (by omega)
    have hlen := fillIn_length (bs := bs) (xs := xs ++ [y]) (ys := xs' ++ [y']) (by simp [ex, ex'])
    have p1 := fillIn_pattern (bs := bs) (hne hX)
    have p2 := fillIn_pattern (bs := bs) (hne hX')
    have hpat := List.prefix_of_prefix_length_le p1 p2 (by simp [hlen])
    have hpat := hpat.eq_of_length (by simp [hlen])
    have q1 := hfill _ hX
    have q2 := hfill _ hX'
    rw [f1] at q1 hpat
    rw [f1'] at q2 hpat
    refine ⟨p.head, p.elements, f, y, f', y', (Grammar.cfg_prod_iff hw).2 ⟨p, hpm, rfl, rfl⟩, q1, q2, hpat, ?_, ?_⟩
    · rw [f2, f2']; exact hxy
    · rw [f2, f2']; exact hne'
  · rintro ⟨A, β, us, u, vs, v, hp, h1, h2, h3, h4, h5⟩
    obtain ⟨p, hpm, rfl, rfl⟩ := (Grammar.cfg_prod_iff hw).1 hp
    obtain ⟨c, k, d, hc, hfill⟩ := Choice.of_fill (nul := fun A => g.cfg.Generates A []) (D := fun e u => g.cfg.Derives [e] (u.map .term))
      (D' := fun e u => (nnGrammar info g).cfg.Derives [e] (u.map .term)) (fun e u hu hd => (hk e u).2 ⟨hu, hd⟩)
      (fun A hA => hA) (fun t ht => by simpa using Cfg.derives_terms (t := [t]) ht) (es := p.prodElements) h2
    have hnd : ¬ g.cfg.Derives p.elements [] := by
      intro hd
      have h0 := he p hpm hd
      have hl := List.Forall₂.length_eq h2
      rw [h0] at hl
      simp at hl
    have hu : u ≠ [] ∧ v ≠ [] := by
      have h6 : u.isEmpty = v.isEmpty := by
        have := congrArg List.getLast? h3
        simpa using this
      by_cases hu : u = []
      · subst hu
        have hv : v = [] := by simpa using h6.symm
        subst hv
        exact absurd (by simpa using h4) h5
      · exact ⟨hu, fun hv => hu (by subst hv; simpa using h6)⟩
    have k1 := hfill _ h1 (by rw [h3])
    have k2 := hfill _ h2 List.prefix_rfl
    have fs : ∀ (us : List (List T)) (u : List T), u ≠ [] →
        (us ++ [u]).filter (! ·.isEmpty) = us.filter (! ·.isEmpty) ++ [u] := by
      intro us u hu
      rw [List.filter_append, List.filter_cons_of_pos (by simpa using hu)]; rfl
    rw [fs _ _ hu.1] at k1
    rw [fs _ _ hu.2] at k2
    obtain ⟨e, e1, e2, e3⟩ := forall₂_take_snoc k1
    obtain ⟨e', e1', e2', e3'⟩ := forall₂_take_snoc k2
    have hl : (us.filter (! ·.isEmpty)).length = (vs.filter (! ·.isEmpty)).length := by
      have := filter_length_of_pattern h3
      rw [fs _ _ hu.1, fs _ _ hu.2] at this
      simpa using this
    rw [← hl] at e1' e2'
    rw [e1] at e1'
    cases e1'
    have m1 := derives_of_each e2
    have m2 := derives_of_each e2'
    rw [filter_flatten] at m1 m2
    exact ⟨p.head, k.map (·.element), _, e, us.flatten, u, vs.flatten, v,
      (nn_cfg_prod hw ha hn).2 ⟨p, hpm, rfl, hnd, c, k, d, hc, rfl⟩, e1, h4, h5, m1, e3, m2, e3'⟩

/-- The transform leaves no useless parts in a grammar without them. -/
theorem nonnull_trim (ht : g.Trim) : g'.Trim := by
  refine ⟨?_, nonnull_no_dead_ends g hg addr ha fuel g' h ht.noDeadEnds⟩
  have hw := hg.valid.toWF
  obtain ⟨info, hn, rfl, hv⟩ := transform_ok hw h
  have hment : ∀ A B, g.cfg.Mentions A B → (nnGrammar info g).cfg.Mentions A B := by
    rintro A B ⟨β, hp, hB⟩
    obtain ⟨p, hpm, rfl, rfl⟩ := (Grammar.cfg_prod_iff hw).1 hp
    have hnd : ¬ g.cfg.Derives p.elements [] := by
      intro hd
      rw [he p hpm hd] at hB
      cases hB
    have hall : ∀ es : List (ProdElement T NT), ∃ c, Choice (fun A => g.cfg.Generates A []) es c es [] := by
      intro es
      induction es with
      | nil => exact ⟨_, .nil⟩
      | cons e es ih =>
        obtain ⟨c, hc⟩ := ih
        obtain ⟨id, t | A⟩ := e
        · exact ⟨_, .term id t hc⟩
        · exact ⟨_, .nonNull id A hc⟩
    obtain ⟨c, hc⟩ := hall p.prodElements
    exact ⟨_, (nn_cfg_prod hw ha hn).2 ⟨p, hpm, rfl, hnd, c, _, _, hc, rfl⟩, hB⟩
  intro A β hp
  obtain ⟨p, hpm, rfl, -, -⟩ := (nn_cfg_prod hw ha hn).1 hp
  obtain ⟨γ, δ, hd⟩ := ht.reached p.head p.elements ((Grammar.cfg_prod_iff hw).2 ⟨p, hpm, rfl, rfl⟩)
  have hreach : ∀ s, g.cfg.Derives [.nonterm g.startSymbol] s → ∀ B, Elem.nonterm B ∈ s →
      Relation.ReflTransGen g.cfg.Mentions g.startSymbol B := by
    intro s hs
    induction hs with
    | refl => intro B hB; simp at hB; subst hB; exact .refl
    | tail _ hst ih =>
      intro B hB
      cases hst with
      | mk u v C β hp =>
        simp only [List.mem_append] at hB
        rcases hB with (hB | hB) | hB
        · exact ih B (by simp [hB])
        · exact (ih C (by simp)).tail ⟨β, hp, hB⟩
        · exact ih B (by simp [hB])
  have hr := hreach _ hd p.head (by simp)
  show ∃ γ δ, (nnGrammar info g).cfg.Derives [.nonterm g.startSymbol] (γ ++ .nonterm p.head :: δ)
  generalize p.head = A at hr
  induction hr with
  | refl => exact ⟨[], [], .refl _⟩
  | tail _ hm ih =>
    obtain ⟨γ, δ, ih⟩ := ih
    obtain ⟨β, hp, hB⟩ := hment _ _ hm
    obtain ⟨a, b, rfl⟩ := List.append_of_mem hB
    refine ⟨γ ++ a, b ++ δ, ih.trans ?_⟩
    have := ((Cfg.Derives.refl (G := (nnGrammar info g).cfg) γ).append (Cfg.derives_prod hp)).append (.refl δ)
    simpa using this
end
end Bongo
