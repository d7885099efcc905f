import Verif.Spec.Factored
import Verif.Props.LL1
import Verif.Props.Walk
/-!
# C137: more grammars on which `parse` can be relied on
-/
set_option linter.unusedSectionVars false
namespace Bongo
open Std

section
variable {T NT AK AV L : Type} [Ord NT] [TransOrd NT] [LawfulEqOrd NT] {g : Grammar T NT AK AV}

/-! ## Texts of separated elements -/

/-- A list of elements each of which can be told from the next. -/
def Grammar.Chained (g : Grammar T NT AK AV) (es : List (Elem T NT)) : Prop :=
  ∀ α e e' β, es = α ++ e :: e' :: β → ∀ t, g.cfg.GoesOn e t → ∀ z : List T, ¬ g.cfg.Derives [e'] ((t :: z).map .term)

theorem Grammar.Chained.tail {e : Elem T NT} {es : List (Elem T NT)} (h : g.Chained (e :: es)) : g.Chained es :=
  fun α a a' β hes => h (e :: α) a a' β (by rw [hes]; rfl)

theorem Grammar.Chained.left {es fs : List (Elem T NT)} (h : g.Chained (es ++ fs)) : g.Chained es :=
  fun α a a' β hes => h α a a' (β ++ fs) (by rw [hes]; simp)

/-- The element can be told from what comes next. -/
theorem separated_one {e : Elem T NT} {x x' r r' : List T} (hx : g.cfg.Yields [e] x) (hx' : g.cfg.Yields [e] x')
    (h : x ++ r = x' ++ r') (hr : ∀ t s, r = t :: s → ¬ g.cfg.GoesOn e t)
    (hr' : ∀ t s, r' = t :: s → ¬ g.cfg.GoesOn e t) : x = x' := by
  have hx := Cfg.yields_iff.1 hx
  have hx' := Cfg.yields_iff.1 hx'
  rcases List.append_eq_append_iff.1 h with ⟨z, rfl, h2⟩ | ⟨z, rfl, h2⟩
  · cases z with
    | nil => simp
    | cons t z => exact absurd ⟨x, z, hx, hx'⟩ (hr t _ h2)
  · cases z with
    | nil => simp
    | cons t z => exact absurd ⟨x', z, hx', hx⟩ (hr' t _ h2)

theorem separated_list (hw : g.WF) (hn : ∀ p ∈ g.prods, p.elements ≠ []) {es : List (Elem T NT)} :
    ∀ {x x' r r' : List T}, g.Chained es → g.cfg.Yields es x → g.cfg.Yields es x' → x ++ r = x' ++ r' →
    (∀ e t s, es.getLast? = some e → r = t :: s → ¬ g.cfg.GoesOn e t) →
    (∀ e t s, es.getLast? = some e → r' = t :: s → ¬ g.cfg.GoesOn e t) → x = x' := by
  induction es with
  | nil =>
    intro x x' r r' _ hx hx' _ _ _
    rw [Cfg.yields_nil_iff] at hx hx'
    rw [hx, hx']
  | cons e es ih =>
    intro x x' r r' hc hx hx' h hr hr'
    cases es with
    | nil => exact separated_one hx hx' h (fun t s => hr e t s rfl) (fun t s => hr' e t s rfl)
    | cons e' es =>
      obtain ⟨x1, x2, rfl, h1, h2⟩ := Cfg.Yields.split (a := [e]) hx
      obtain ⟨x1', x2', rfl, h1', h2'⟩ := Cfg.Yields.split (a := [e]) hx'
      have key : ∀ {x2 r : List T}, g.cfg.Yields (e' :: es) x2 → ∀ t s, x2 ++ r = t :: s → ¬ g.cfg.GoesOn e t := by
        intro x2 r h2 t s hs hgo
        obtain ⟨a, b, rfl, h3, h4⟩ := Cfg.Yields.split (a := [e']) h2
        cases a with
        | nil => exact yields_ne_nil hw hn (by simp) h3
        | cons t' a =>
          cases hs
          exact hc [] e e' es rfl t hgo a (Cfg.yields_iff.1 h3)
      rw [List.append_assoc, List.append_assoc] at h
      have he := separated_one h1 h1' h (key h2) (key h2')
      subst he
      rw [List.append_cancel_left_eq] at h
      rw [ih hc.tail h2 h2' h (fun a t s ha => hr a t s (by simpa using ha)) (fun a t s ha => hr' a t s (by simpa using ha))]

theorem Grammar.SeparatedInside.chained (hs : g.SeparatedInside) {p : Prod T NT AK AV} (hp : p ∈ g.prods) :
    g.Chained p.elements := fun α e e' β h => hs.apart p hp α e e' β h

theorem Grammar.Chained.last {es : List (Elem T NT)} {d : Nat} {e e' : Elem T NT} (hc : g.Chained es)
    (he : (es.take d).getLast? = some e) (he' : es[d]? = some e') {t : T} (h : g.cfg.GoesOn e t) (z : List T) :
    ¬ g.cfg.Yields [e'] (t :: z) := by
  intro hy
  obtain ⟨hlt, rfl⟩ := List.getElem?_eq_some_iff.1 he'
  obtain ⟨α, hα⟩ := List.getLast?_eq_some_iff.1 he
  refine hc α e es[d] (es.drop (d + 1)) ?_ t h z (Cfg.yields_iff.1 hy)
  conv => lhs; rw [← List.take_append_drop d es, hα, List.drop_eq_getElem_cons hlt]
  simp

/-- C137: no production can be at two positions after the same input. -/
theorem separated_no_clash (hg : g.Accepted) (hs : g.SeparatedInside) (w : List T) : ¬ g.Clash w := by
  have hw := hg.valid.toWF
  rintro (⟨-, h⟩ | ⟨u, v, A, β, δ, d₁, d₂, -, -, hp, h1, h2, h3, h4⟩)
  · exact yields_ne_nil hw hs.nonempty (by simp) (Cfg.yields_iff.2 h)
  · obtain ⟨p, hp', rfl, rfl⟩ := (Grammar.cfg_prod_iff hw).1 hp
    have hc := hs.chained hp'
    rw [show p.elements.take d₂ = p.elements.take d₁ ++ (p.elements.drop d₁).take (d₂ - d₁) by
      conv => lhs; rw [show d₂ = d₁ + (d₂ - d₁) by omega, List.take_add]] at h4
    have hlt : d₁ < p.elements.length := by omega
    obtain ⟨v₁, v₂, rfl, h5, h6⟩ := (Cfg.yields_iff.2 h4).split
    have hne : (p.elements.drop d₁).take (d₂ - d₁) ≠ [] := by
      intro h
      have := congrArg List.length h
      simp at this
      omega
    have hv2 : v₂ ≠ [] := fun h => yields_ne_nil hw hs.nonempty hne (h ▸ h6)
    have hcut : p.elements.take d₁ ++ p.elements.drop d₁ = p.elements := List.take_append_drop _ _
    have : v₁ ++ v₂ = v₁ := by
      refine separated_list hw hs.nonempty (r := []) (r' := v₂) (Grammar.Chained.left (fs := p.elements.drop d₁)
        (by rw [hcut]; exact hc)) (Cfg.yields_iff.2 h3) h5 (by simp) (fun e t s _ h => by cases h) ?_
      intro e t s he hr hgo
      obtain ⟨n, hnn⟩ : ∃ n, d₂ - d₁ = n + 1 := ⟨d₂ - d₁ - 1, by omega⟩
      rw [hnn, List.drop_eq_getElem_cons hlt, List.take_succ_cons] at h6
      obtain ⟨a, b, rfl, h7, -⟩ := Cfg.Yields.split (a := [p.elements[d₁]]) h6
      cases a with
      | nil => exact yields_ne_nil hw hs.nonempty (by simp) h7
      | cons t' a =>
        cases hr
        exact hc.last he (List.getElem?_eq_getElem hlt) hgo a h7
    exact hv2 (by simpa using this)

/-- C137: productions divide the input in only one way. -/
theorem separated_splits_once (hg : g.Accepted) (hs : g.SeparatedInside) (w : List T) : g.SplitsOnce w := by
  have hw := hg.valid.toWF
  intro u x y x' y' A β δ d e _ hxy _ hp he h1 hy h2 hy'
  obtain ⟨p, hp', rfl, rfl⟩ := (Grammar.cfg_prod_iff hw).1 hp
  have hc := hs.chained hp'
  have hcut : p.elements.take d ++ p.elements.drop d = p.elements := List.take_append_drop _ _
  refine separated_list hw hs.nonempty (Grammar.Chained.left (fs := p.elements.drop d)
        (by rw [hcut]; exact hc)) (Cfg.yields_iff.2 h1) (Cfg.yields_iff.2 h2) hxy ?_ ?_
  · rintro a t s ha rfl hgo
    exact hc.last ha he hgo s (Cfg.yields_iff.2 hy)
  · rintro a t s ha rfl hgo
    exact hc.last ha he hgo s (Cfg.yields_iff.2 hy')

/-- C137: the grammars of C107 are among them. -/
theorem prefixFree_separated (hf : g.PrefixFreeInside) : g.SeparatedInside := by
  refine ⟨hf.nonempty, ?_⟩
  rintro p hp α e e' β he t ⟨y, z, h1, h2⟩ - -
  cases e with
  | term a =>
    have h3 := Cfg.derives_term h1
    have h4 := Cfg.derives_term h2
    cases y with
    | nil => simp at h3
    | cons b y =>
      cases y <;> simp at h4
  | nonterm B =>
    have := hf.free p hp B (by rw [he]; simp [List.dropLast_append_cons]) y (t :: z) h1 h2
    cases this

/-! ## Factored grammars -/

/-- What an element may go on with. -/
def Grammar.ElemGoesOn (g : Grammar T NT AK AV) : Elem T NT → T → Prop
  | .term _, _ => False
  | .nonterm B, t => g.MayGoOn B t

theorem IsForest.fruitful (hw : g.WF) {es : List (Elem T NT)} {cs : List (DTree T (Prod T NT AK AV))}
    (h : IsForest g id es cs) : g.cfg.Fruitful es := ⟨_, (h.yields hw).derives⟩

theorem IsTree.begins (hw : g.WF) (hn : ∀ p ∈ g.prods, p.elements ≠ []) {e : Elem T NT}
    {d : DTree T (Prod T NT AK AV)} (h : IsTree g id e d) {x s : List T} {t : T}
    (hy : d.yield ++ x = t :: s) : g.cfg.Begins [e] t := by
  have h0 := IsTree.yield_ne_nil hn h
  obtain ⟨t', r, hr⟩ := List.exists_cons_of_ne_nil h0
  rw [hr] at hy
  cases hy
  exact (IsForest.cons h .nil).begins hw (r := r) (by simp [DTree.yields, hr])

theorem Cfg.Fruitful.append {G : Cfg T NT} {a b : List (Elem T NT)} (ha : G.Fruitful a) (hb : G.Fruitful b) :
    G.Fruitful (a ++ b) := by
  obtain ⟨u, hu⟩ := ha
  obtain ⟨v, hv⟩ := hb
  exact ⟨u ++ v, by rw [List.map_append]; exact hu.append hv⟩

mutual
theorem Factored.tree (hw : g.WF) (hl : g.Factored) {e : Elem T NT} : {d d' : DTree T (Prod T NT AK AV)} →
    {x x' : List T} → IsTree g id e d → IsTree g id e d' → d.yield ++ x = d'.yield ++ x' →
    (d.yield = d'.yield ∧ (g.NoRepeats → d = d')) ∨ (∃ t s, x = t :: s ∧ g.ElemGoesOn e t) ∨
      ∃ t s, x' = t :: s ∧ g.ElemGoesOn e t
  | .leaf l, d', x, x', h, h', hy => by
    cases h
    cases h'
    exact Or.inl ⟨rfl, fun _ => rfl⟩
  | .node p cs, d', x, x', h, h', hy => by
    cases h with
    | node _ _ hp hc =>
      generalize he : Elem.nonterm p.head = e' at h'
      cases h' with
      | leaf l => cases he
      | node q cs' hq hc' =>
        have hh : p.head = q.head := by injection he
        rw [DTree.yield, DTree.yield] at hy
        rcases Factored.forest hw hl hp hq hh (α := []) rfl rfl ⟨[], .refl _⟩ hc hc' hy with ⟨h1, h2, h3⟩ | h1 | h1
        · refine Or.inl ⟨by rw [DTree.yield, DTree.yield, h1], fun hd => ?_⟩
          have : p = q := hd p hp q hq hh h2 (hc.fruitful hw)
          subst this
          rw [h3 hd]
        · exact Or.inr (Or.inl (hh ▸ h1))
        · exact Or.inr (Or.inr (hh ▸ h1))
theorem Factored.forest (hw : g.WF) (hl : g.Factored) {p q : Prod T NT AK AV} (hp : p ∈ g.prods) (hq : q ∈ g.prods)
    (hh : p.head = q.head) {α es es' : List (Elem T NT)} :
    {cs cs' : List (DTree T (Prod T NT AK AV))} → {x x' : List T} → p.elements = α ++ es → q.elements = α ++ es' →
    g.cfg.Fruitful α → IsForest g id es cs → IsForest g id es' cs' → DTree.yields cs ++ x = DTree.yields cs' ++ x' →
    (DTree.yields cs = DTree.yields cs' ∧ p.elements = q.elements ∧ (g.NoRepeats → cs = cs')) ∨
      (∃ t s, x = t :: s ∧ g.MayGoOn p.head t) ∨ ∃ t s, x' = t :: s ∧ g.MayGoOn p.head t
  | [], cs', x, x', h1, h2, ha, h, h', hy => by
    cases h
    cases h' with
    | nil => exact Or.inl ⟨rfl, by rw [h1, h2], fun _ => rfl⟩
    | cons hc' hcs' =>
      rename_i Y δ c' cs'
      right; left
      rw [DTree.yields, DTree.yields, List.nil_append, List.append_assoc] at hy
      have h0 := IsTree.yield_ne_nil hl.nonempty hc'
      obtain ⟨t, r, hr⟩ := List.exists_cons_of_ne_nil h0
      rw [List.append_nil] at h1
      refine ⟨t, r ++ (DTree.yields cs' ++ x'), by rw [hy, hr]; rfl, .more hp hq hh.symm (h1 ▸ h2) (h1 ▸ ha)
        (hc'.begins hw hl.nonempty (x := []) (s := r) (by rw [hr]; simp))⟩
  | c :: cs, cs', x, x', h1, h2, ha, h, h', hy => by
    cases h with
    | cons hc hcs =>
      rename_i X β
      cases h' with
      | nil =>
        right; right
        rw [DTree.yields, DTree.yields, List.nil_append, List.append_assoc] at hy
        have h0 := IsTree.yield_ne_nil hl.nonempty hc
        obtain ⟨t, r, hr⟩ := List.exists_cons_of_ne_nil h0
        rw [List.append_nil] at h2
        refine ⟨t, r ++ (DTree.yields cs ++ x), by rw [← hy, hr]; rfl, ?_⟩
        rw [hh]
        exact .more hq hp hh (h2 ▸ h1) (h2 ▸ ha) (hc.begins hw hl.nonempty (x := []) (s := r) (by rw [hr]; simp))
      | cons hc' hcs' =>
        rename_i Y δ c' cs'
        rw [DTree.yields, DTree.yields, List.append_assoc, List.append_assoc] at hy
        by_cases hXY : X = Y
        · subst hXY
          -- what stops the element from going on
          have stop : ∀ {r : Prod T NT AK AV} {γ : List (Elem T NT)} {ds : List (DTree T (Prod T NT AK AV))}
              {y s : List T} {t : T}, r ∈ g.prods → r.elements = α ++ X :: γ → IsForest g id γ ds →
              DTree.yields ds ++ y = t :: s → g.ElemGoesOn X t → y = t :: s ∧ g.MayGoOn r.head t := by
            intro r γ ds y s t hr hre hds hys hgo
            cases X with
            | term a => exact hgo.elim
            | nonterm B =>
              cases hds with
              | nil => exact ⟨by simpa [DTree.yields] using hys, .last hr hre hgo⟩
              | cons hd hds =>
                rw [DTree.yields, List.append_assoc] at hys
                exact absurd (hd.begins hw hl.nonempty hys) (hl.apart r hr _ _ _ _ hre t hgo)
          rcases Factored.tree hw hl hc hc' hy with ⟨h3, h4⟩ | ⟨t, s, h3, h4⟩ | ⟨t, s, h3, h4⟩
          · rw [h3, List.append_cancel_left_eq] at hy
            have hX : g.cfg.Fruitful [X] := (IsForest.cons hc .nil).fruitful hw
            rcases Factored.forest hw hl hp hq hh (α := α ++ [X]) (by simpa using h1) (by simpa using h2)
              (ha.append hX) hcs hcs' hy with ⟨h5, h6, h7⟩ | h5 | h5
            · exact Or.inl ⟨by rw [DTree.yields, DTree.yields, h3, h5], h6, fun hd => by rw [h4 hd, h7 hd]⟩
            · exact Or.inr (Or.inl h5)
            · exact Or.inr (Or.inr h5)
          · obtain ⟨h5, h6⟩ := stop hp h1 hcs h3 h4
            exact Or.inr (Or.inl ⟨t, s, h5, h6⟩)
          · obtain ⟨h5, h6⟩ := stop hq h2 hcs' h3 h4
            exact Or.inr (Or.inr ⟨t, s, h5, hh ▸ h6⟩)
        · exfalso
          obtain ⟨t, r, hr⟩ := List.exists_cons_of_ne_nil (IsTree.yield_ne_nil hl.nonempty hc)
          refine hl.fork p hp q hq hh α X β Y δ h1 h2 hXY ha t
            (hc.begins hw hl.nonempty (x := DTree.yields cs ++ x) (s := r ++ (DTree.yields cs ++ x)) (by rw [hr]; rfl))
            (hc'.begins hw hl.nonempty (x := DTree.yields cs' ++ x') (s := r ++ (DTree.yields cs ++ x))
              (by rw [← hy, hr]; rfl))
end

/-- What a text of an element goes on with can be seen from the productions. -/
theorem Factored.goesOn (hw : g.WF) (hl : g.Factored) {e : Elem T NT} {t : T} (h : g.cfg.GoesOn e t) :
    g.ElemGoesOn e t := by
  obtain ⟨y, z, h1, h2⟩ := h
  obtain ⟨cs, k1, k2⟩ := forest_of_yields (kind := id) hw (Cfg.yields_iff.2 h1) y (by simp)
  obtain ⟨cs', k1', k2'⟩ := forest_of_yields (kind := id) hw (Cfg.yields_iff.2 h2) (y ++ t :: z) (by simp)
  cases k1 with
  | cons k1 k3 =>
    cases k3
    cases k1' with
    | cons k1' k3' =>
      cases k3'
      simp only [DTree.yields, List.append_nil] at k2 k2'
      rcases Factored.tree hw hl (x := t :: z) (x' := []) k1 k1' (by rw [k2, k2', List.append_nil]) with
        ⟨h3, -⟩ | ⟨t', s, h3, h4⟩ | ⟨t', s, h3, -⟩
      · rw [k2, k2'] at h3
        simp at h3
      · cases h3; exact h4
      · cases h3

/-- C137: factored grammars are separated. -/
theorem factored_separated (hg : g.Accepted) (hl : g.Factored) : g.SeparatedInside := by
  have hw := hg.valid.toWF
  refine ⟨hl.nonempty, fun p hp α e e' β he t hgo z hz => ?_⟩
  have h1 := Factored.goesOn hw hl hgo
  cases e with
  | term a => exact h1
  | nonterm B => exact hl.apart p hp α B e' β he t h1 ⟨z.map .term, hz⟩

/-- C137: and unambiguous, unless a production is written twice. -/
theorem factored_unambiguous (hg : g.Accepted) (hl : g.Factored) (hd : g.NoRepeats) : g.Unambiguous := by
  intro t t' h h' hy
  rcases Factored.tree hg.valid.toWF hl (x := []) (x' := []) h h' (by simpa using hy) with
    ⟨-, h3⟩ | ⟨t', s, h3, -⟩ | ⟨t', s, h3, -⟩
  · exact h3 hd
  · cases h3
  · cases h3

/-- C137: grammars whose productions begin with different terminals are factored. -/
theorem ll1_factored (hg : g.Accepted) (hl : g.LL1) : g.Factored ∧ g.NoRepeats := by
  have hw := hg.valid.toWF
  have first : ∀ {es : List (Elem T NT)}, es ≠ [] → g.cfg.Fruitful es → ∃ t, ∀ fs, g.cfg.Begins (es ++ fs) t := by
    rintro es hne ⟨u, hu⟩
    cases u with
    | nil => exact (yields_ne_nil hw hl.nonempty hne (Cfg.yields_iff.2 hu)).elim
    | cons t u => exact ⟨t, fun fs => ⟨u.map Elem.term ++ fs, by
        have := Cfg.Derives.append hu (.refl fs)
        simpa using this⟩⟩
  have same : ∀ p ∈ g.prods, ∀ q ∈ g.prods, p.head = q.head → ∀ α β δ, p.elements = α ++ β → q.elements = α ++ δ →
      α ≠ [] → g.cfg.Fruitful α → p = q := by
    intro p hp q hq hh α β δ h1 h2 hne hf
    obtain ⟨t, ht⟩ := first hne hf
    exact hl.choice p hp q hq hh t (h1 ▸ ht β) (h2 ▸ ht δ)
  have none : ∀ B t, ¬ g.MayGoOn B t := by
    intro B t h
    induction h with
    | last _ _ _ ih => exact ih
    | more hp hq hh he hf hb =>
      have := same _ hp _ hq hh.symm _ [] _ (List.append_nil _).symm he (hl.nonempty _ hp) hf
      subst this
      have := congrArg List.length he
      simp at this
  refine ⟨⟨hl.nonempty, ?_, fun p hp α B Y β _ t h => absurd h (none B t)⟩, ?_⟩
  · intro p hp q hq hh α X β Y δ h1 h2 hXY hf t hX hY
    cases α with
    | nil =>
      have hb : ∀ {Z : Elem T NT} {ζ}, g.cfg.Begins [Z] t → g.cfg.Begins (Z :: ζ) t := by
        rintro Z ζ ⟨γ, hγ⟩
        exact ⟨γ ++ ζ, Cfg.Derives.append (a := [Z]) hγ (.refl ζ)⟩
      have := hl.choice p hp q hq hh t (h1 ▸ hb hX) (h2 ▸ hb hY)
      subst this
      rw [h1] at h2
      exact hXY (by simpa using (List.cons.inj h2).1)
    | cons a α =>
      have := same p hp q hq hh _ _ _ h1 h2 (by simp) hf
      subst this
      rw [h1, List.append_cancel_left_eq] at h2
      exact hXY (List.cons.inj h2).1
  · intro p hp q hq hh he hf
    exact same p hp q hq hh _ [] [] (List.append_nil _).symm (by rw [he, List.append_nil]) (hl.nonempty p hp) hf
end

/-! ## Parsing -/
section
variable {T NT AK AV V : Type}
variable [Ord T] [Ord NT] [Ord AK] [Ord V] [DecidableEq T] [DecidableEq NT]
variable [TransOrd T] [TransOrd NT] [TransOrd AK] [TransOrd V]
variable [LawfulEqOrd T] [LawfulEqOrd NT] [LawfulEqOrd AK] [LawfulEqOrd V]
variable {addr : StartNonTerminal NT → Nat → Nat} {g : Grammar T NT AK AV}

/-- C137: if no production is empty and elements inside productions can be told from what follows them, `parse`
does what one expects of it, for every input.  For a word of the language it returns a node from which
exactly the derivation trees of the input can be read.  If the input could go on to something the
grammar derives, it returns `None`; otherwise the assertion that a state is not empty fails. -/
theorem separated_parse (hg : g.Accepted) (hf : g.SeparatedInside) (ha : AddrInj g.wrapped addr)
    {log : TreeLog T AK V} {w : World T AK V} {held : List Handle} (hist : History log w held)
    (t : Nat) (toks : List (Token T V)) :
    ∃ N, (g.cfg.InLanguage (kinds toks) → ∃ w' n,
        (∀ fuel, N ≤ fuel → parse addr g.wrapped fuel w t toks = .ok (w', some n)) ∧
        ∀ s, Reads w' s n ↔ ∃ d : DTree (Token T V) (Prod T NT AK AV),
          IsTree g (·.kind) (.nonterm g.startSymbol) d ∧ d.yield = toks ∧
          s = d.mapNodes (·.actionKey)) ∧
      (¬ g.cfg.InLanguage (kinds toks) → g.Viable (kinds toks) →
        ∃ w', ∀ fuel, N ≤ fuel → parse addr g.wrapped fuel w t toks = .ok (w', none)) ∧
      (¬ g.Viable (kinds toks) →
        ∀ fuel, N ≤ fuel → parse addr g.wrapped fuel w t toks = .panic .emptyState) := by
  have hself : g.cfg.InLanguage (kinds toks) → g.Viable (kinds toks) :=
    fun h => ⟨[], by rw [List.append_nil]; exact h⟩
  have hpre : ∀ b, g.Viable (kinds toks) → g.Viable (kinds (toks.take b)) := by
    intro b h
    rw [kinds_take]
    rw [← List.take_append_drop b (kinds toks)] at h
    exact h.prefix
  obtain ⟨N, ⟨h1, w', r, h2, h3⟩ | ⟨b, hb, -, ⟨hv, h2⟩ | ⟨-, h, -⟩⟩⟩ := parse_exact hg ha hist t toks
  · have hv := (h1 toks.length (Nat.le_refl _)).1
    rw [List.take_length] at hv
    refine ⟨N, fun hl' => ?_, fun hl' _ => ?_, fun hn => absurd hv hn⟩
    · obtain ⟨n, rfl⟩ := Option.isSome_iff_exists.1 (h3.2 hl')
      have h := h2 N (Nat.le_refl _)
      refine ⟨w', n, h2, fun s => ⟨fun hs => ?_, ?_⟩⟩
      · obtain ⟨d', hd', rfl, -⟩ := parse_trees_grammatical hg ha hist h hs
        have hy' := parse_trees_spell_partial hg ha hist (separated_splits_once hg hf _) h hs
        rw [DTree.yield_mapNodes] at hy'
        exact ⟨d', hd', hy', rfl⟩
      · rintro ⟨d, hc, hy, rfl⟩
        exact parse_all_trees hg ha hist h hc hy
    · cases r with
      | none => exact ⟨w', h2⟩
      | some n => exact absurd (h3.1 rfl) hl'
  · have hnv : ¬ g.Viable (kinds toks) := fun h => hv (hpre b h)
    exact ⟨N, fun h => absurd (hself h) hnv, fun _ h => absurd h hnv, fun _ => h2⟩
  · exact absurd h (separated_no_clash hg hf _)

/-- C137: for a factored grammar without repetitions there is exactly one tree for each word of the language. -/
theorem factored_parse (hg : g.Accepted) (hl : g.Factored) (hd : g.NoRepeats) (ha : AddrInj g.wrapped addr)
    {log : TreeLog T AK V} {w : World T AK V} {held : List Handle} (hist : History log w held) (t : Nat)
    (toks : List (Token T V)) :
    ∃ N, (g.cfg.InLanguage (kinds toks) → ∃ w' n, ∃ d : DTree (Token T V) (Prod T NT AK AV),
        (∀ fuel, N ≤ fuel → parse addr g.wrapped fuel w t toks = .ok (w', some n)) ∧
        IsTree g (·.kind) (.nonterm g.startSymbol) d ∧ d.yield = toks ∧
        ∀ s, Reads w' s n ↔ s = d.mapNodes (·.actionKey)) ∧
      (¬ g.cfg.InLanguage (kinds toks) → g.Viable (kinds toks) →
        ∃ w', ∀ fuel, N ≤ fuel → parse addr g.wrapped fuel w t toks = .ok (w', none)) ∧
      (¬ g.Viable (kinds toks) →
        ∀ fuel, N ≤ fuel → parse addr g.wrapped fuel w t toks = .panic .emptyState) := by
  have hw := hg.valid.toWF
  obtain ⟨N, h1, h2, h3⟩ := separated_parse hg (factored_separated hg hl) ha hist t toks
  refine ⟨N, fun hl' => ?_, h2, h3⟩
  obtain ⟨w', n, h4, h5⟩ := h1 hl'
  obtain ⟨cs, hc, hy⟩ := forest_of_yields (kind := fun x : Token T V => x.kind) hw
    (Cfg.yields_iff.2 hl') toks rfl
  cases hc with
  | cons hc hn =>
    rename_i d cs
    cases hn
    simp only [DTree.yields, List.append_nil] at hy
    refine ⟨w', n, d, h4, hc, hy, fun s => ?_⟩
    rw [h5]
    constructor
    · rintro ⟨d', hd', hy', rfl⟩
      have he := factored_unambiguous hg hl hd _ _ hd'.mapLeaves hc.mapLeaves
        (by rw [DTree.yield_mapLeaves, DTree.yield_mapLeaves, hy, hy'])
      rw [(DTree.eq_of_mapLeaves _ d' d [] [] he (by rw [hy, hy'])).1]
    · rintro rfl
      exact ⟨d, hc, hy, rfl⟩

/-- C137: every walk down from the returned node ends. -/
theorem factored_walk_ends (hg : g.Accepted) (hl : g.Factored) (hd : g.NoRepeats) (ha : AddrInj g.wrapped addr)
    {log : TreeLog T AK V} {w w' : World T AK V} {held : List Handle} (hist : History log w held)
    {t fuel : Nat} {toks : List (Token T V)} {n : Node}
    (h : parse addr g.wrapped fuel w t toks = .ok (w', some n)) : w'.WalkEnds n :=
  parse_walk_ends_partial hg ha hist h (separated_splits_once hg (factored_separated hg hl) _)
    (unambiguous_trees_finite (factored_unambiguous hg hl hd) toks)
end

section
variable {T NT AK AV : Type} [Ord T] [TransOrd T] [LawfulEqOrd T] [Ord NT] [TransOrd NT]
  [LawfulEqOrd NT] {g : Grammar T NT AK AV} {addr : NT → Nat → Nat}

/-- C137: the condition can be checked with the FIRST sets of the crate and a table of the terminals with which
nonterminals may go on. -/
theorem factored_check (hg : g.Accepted) (ha : AddrInj g addr) {fuel : Nat} {f : Firsts T NT}
    (h : firstsPass fuel addr g = .ok (.ok f)) {table : NT → List T} (hc : g.FactoredCheck f table) :
    g.Factored ∧ g.NoRepeats := by
  have hw := hg.valid.toWF
  have key : ∀ (e : Elem T NT) t, g.cfg.Begins [e] t → t ∈ e.starts f := by
    rintro e t ⟨δ, hδ⟩
    cases e with
    | term a =>
      have := Cfg.derives_term hδ
      simp only [List.cons.injEq, Elem.term.injEq] at this
      simp [Elem.starts, this.1]
    | nonterm A =>
      obtain ⟨s, h1, h2⟩ := ((firsts_exact g hg addr ha fuel f h A).1 t).2 ⟨δ, hδ⟩
      simp [Elem.starts, h1, h2]
  have hgo : ∀ B t, g.MayGoOn B t → t ∈ table B := by
    intro B t hm
    induction hm with
    | last hp he _ ih => exact hc.last _ hp _ (by rw [he]; simp) _ ih
    | more hp hq hh he _ hb =>
      exact hc.more _ hp _ hq hh (by rw [he]; simp) _ (by rw [he]; simp) _ (key _ _ hb)
  refine ⟨⟨hc.nonempty, ?_, ?_⟩, fun p hp q hq hh he _ => hc.distinct p hp q hq hh he⟩
  · intro p hp q hq hh α X β Y δ h1 h2 hXY _ t hX hY
    exact hc.fork p hp q hq hh α.length (by rw [h1]; simp) (by rw [h1, h2]; simp) X (by rw [h1]; simp) Y
      (by rw [h2]; simp) hXY t (key X t hX) (key Y t hY)
  · intro p hp α B Y β h1 t hm hY
    exact hc.apart p hp α.length (by rw [h1]; simp) B (by rw [h1]; simp) Y (by rw [h1]; simp) t (hgo B t hm) (key Y t hY)
end

/-! ## Witnesses -/

/-- Sums of products, with brackets: `E → T + E | T`, `T → F * T | F`, `F → ( E ) | n`, where `E, T, F` are `0, 1, 2` and
`+ * ( ) n` are `11, …, 15`. -/
def sumExample : Grammar Nat Nat Nat Unit :=
  ⟨0, [exRule 0 [(1, [.nonterm 1, .term 11, .nonterm 0]), (2, [.nonterm 1])],
    exRule 1 [(3, [.nonterm 2, .term 12, .nonterm 1]), (4, [.nonterm 2])],
    exRule 2 [(5, [.term 13, .nonterm 0, .term 14]), (6, [.term 15])]]⟩

theorem sumExample_accepted : sumExample.Accepted :=
  ⟨20, 0, [⟨0, [.addProd 1 () [.addNonterm 1, .addTerm 11, .addNonterm 0], .addProd 2 () [.addNonterm 1]]⟩,
    ⟨1, [.addProd 3 () [.addNonterm 2, .addTerm 12, .addNonterm 1], .addProd 4 () [.addNonterm 2]]⟩,
    ⟨2, [.addProd 5 () [.addTerm 13, .addNonterm 0, .addTerm 14], .addProd 6 () [.addTerm 15]]⟩], by decide⟩

/-- What may come after a sum, a product or a factor that is not complete. -/
def sumTable : Nat → List Nat
  | 0 => [11, 12]
  | 1 => [12]
  | _ => []

def sumFirsts : Firsts Nat Nat := ⟨[(0, [13, 15]), (1, [13, 15]), (2, [13, 15])]⟩

set_option synthInstance.maxSize 1000 in
set_option synthInstance.maxHeartbeats 400000 in
theorem sumExample_check : sumExample.FactoredCheck sumFirsts sumTable where
  nonempty := by decide
  distinct := by decide
  fork := by decide
  last := by
    have : ∀ p ∈ sumExample.prods, ∀ e ∈ p.elements.getLast?, ∀ X ∈ e.asNonterm, ∀ t ∈ sumTable X,
      t ∈ sumTable p.head := by decide
    exact fun p hp X hX => this p hp _ hX X rfl
  more := by decide
  apart := by
    have : ∀ p ∈ sumExample.prods, ∀ n < p.elements.length, ∀ e ∈ p.elements[n]?, ∀ B ∈ e.asNonterm,
      ∀ Y ∈ p.elements[n + 1]?, ∀ t ∈ sumTable B, t ∉ Y.starts sumFirsts := by decide
    exact fun p hp n hn B hB => this p hp n hn _ hB B rfl

theorem sumExample_factored : sumExample.Factored ∧ sumExample.NoRepeats :=
  factored_check sumExample_accepted (exampleAddr_addrInj _) (fuel := 20) (by rfl) sumExample_check

set_option maxRecDepth 4000 in
-- Hypotheses of the theorems above, with all three outcomes; C107 does not cover this grammar.
example : sumExample.Accepted ∧ sumExample.Factored ∧ sumExample.NoRepeats ∧ sumExample.SeparatedInside ∧
    ¬ sumExample.PrefixFreeInside ∧ AddrInj sumExample.wrapped exampleSAddr ∧
    (∃ I n, parse exampleSAddr sumExample.wrapped 19 (World.new : World Nat Nat Nat) 7
      (exampleToks [15, 12, 13, 15, 11, 15, 14]) = .ok (World.new.set 7 I, some n)) ∧
    (∃ I, parse exampleSAddr sumExample.wrapped 19 (World.new : World Nat Nat Nat) 7
      (exampleToks [15, 12]) = .ok (World.new.set 7 I, none)) ∧
    parse exampleSAddr sumExample.wrapped 19 (World.new : World Nat Nat Nat) 7
      (exampleToks [15, 15]) = .panic .emptyState := by
  refine ⟨sumExample_accepted, sumExample_factored.1, sumExample_factored.2,
    factored_separated sumExample_accepted sumExample_factored.1, fun h => ?_, exampleSAddr_addrInj _,
    ⟨_, _, rfl⟩, ⟨_, rfl⟩, rfl⟩
  -- a sum in brackets can be `n` and `n + n`
  have hp : ∀ p ∈ sumExample.prods, sumExample.cfg.prod p.head p.elements := fun p hp =>
    (Grammar.cfg_prod_iff sumExample_accepted.valid.toWF).2 ⟨p, hp, rfl, rfl⟩
  have hF : sumExample.cfg.Yields [.nonterm 2] [15] :=
    .nonterm (hp ⟨2, 1, ⟨6, (), [⟨none, .term 15⟩]⟩⟩ (by decide)) (.term 15 .nil) .nil
  have hT : sumExample.cfg.Yields [.nonterm 1] [15] :=
    .nonterm (w₁ := [15]) (hp ⟨1, 1, ⟨4, (), [⟨none, .nonterm 2⟩]⟩⟩ (by decide)) hF .nil
  have hE : sumExample.cfg.Yields [.nonterm 0] [15] :=
    .nonterm (w₁ := [15]) (hp ⟨0, 1, ⟨2, (), [⟨none, .nonterm 1⟩]⟩⟩ (by decide)) hT .nil
  have hE' : sumExample.cfg.Yields [.nonterm 0] [15, 11, 15] :=
    .nonterm (w₁ := [15, 11, 15]) (hp ⟨0, 0, ⟨1, (), [⟨none, .nonterm 1⟩, ⟨none, .term 11⟩, ⟨none, .nonterm 0⟩]⟩⟩ (by decide))
      (hT.append (b := [.term 11, .nonterm 0]) (.term 11 hE)) .nil
  have := h.free ⟨2, 0, ⟨5, (), [⟨none, .term 13⟩, ⟨none, .nonterm 0⟩, ⟨none, .term 14⟩]⟩⟩ (by decide) 0
    (by decide) [15] [11, 15] (Cfg.yields_iff.1 hE) (Cfg.yields_iff.1 hE')
  cases this
end Bongo
