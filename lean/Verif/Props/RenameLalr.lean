import Verif.Spec.RenameLalr
import Verif.Props.RenamePasses
import Verif.Props.LalrExamples
/-!
# C132: names and orders do not matter to LALR states
-/
set_option linter.unusedSectionVars false
namespace Bongo
open Std
variable {T NT AK AV T' NT' AK' AV' : Type}
variable {ρ : Renaming T NT AK AV T' NT' AK' AV'}

theorem Renaming.elements_nonterm {p : Prod T NT AK AV} {i : Nat} {B' : NT'} :
    (ρ.prod p).elements[i]? = some (.nonterm B') ↔
      ∃ B, B' = ρ.nonterm B ∧ p.elements[i]? = some (.nonterm B) := by
  rw [ρ.prod_elements, List.getElem?_map, Option.map_eq_some_iff]
  constructor
  · rintro ⟨e, h1, h2⟩
    obtain ⟨B, rfl, rfl⟩ := ρ.elem_nonterm h2
    exact ⟨B, rfl, h1⟩
  · rintro ⟨B, rfl, h⟩
    exact ⟨_, h, rfl⟩

theorem Renaming.elements_term {p : Prod T NT AK AV} {i : Nat} {t' : T'} :
    (ρ.prod p).elements[i]? = some (.term t') ↔
      ∃ t, t' = ρ.term t ∧ p.elements[i]? = some (.term t) := by
  rw [ρ.prod_elements, List.getElem?_map, Option.map_eq_some_iff]
  constructor
  · rintro ⟨e, h1, h2⟩
    obtain ⟨B, rfl, rfl⟩ := ρ.elem_term h2
    exact ⟨B, rfl, h1⟩
  · rintro ⟨B, rfl, h⟩
    exact ⟨_, h, rfl⟩

theorem Renaming.elements_none {p : Prod T NT AK AV} {i : Nat} :
    (ρ.prod p).elements[i]? = none ↔ p.elements[i]? = none := by
  rw [ρ.prod_elements, List.getElem?_map, Option.map_eq_none_iff]

theorem usedContext_get [Ord T] [Ord NT] {g : Grammar T NT AK AV} {addr : NT → Nat → Nat} {fuel : Nat}
    {σ σ' : ParseState.Ctx T NT AK} {p : PassId} {r} (hu : UsedContext fuel addr g σ)
    (h : PassContext.getPass fuel (cratePasses fuel addr g) σ p = .ok (σ', r)) : UsedContext fuel addr g σ' := by
  obtain ⟨ps, hps⟩ := hu
  refine ⟨ps ++ [p], ?_⟩
  generalize (PassContext.new : ParseState.Ctx T NT AK) = σ₀ at hps ⊢
  induction ps generalizing σ₀ with
  | nil =>
    simp only [PassContext.getPasses, Res.ok.injEq] at hps
    subst hps
    simp [PassContext.getPasses, h]
  | cons q ps ih =>
    rw [PassContext.getPasses] at hps
    rw [List.cons_append, PassContext.getPasses]
    cases hg : PassContext.getPass fuel (cratePasses fuel addr g) σ₀ q with
    | panic w => rw [hg] at hps; cases hps
    | oof => rw [hg] at hps; cases hps
    | ok x =>
      obtain ⟨σ₁, r⟩ := x
      rw [hg] at hps
      simp only at hps ⊢
      exact ih σ₁ hps

section facts
variable [Ord T] [Ord NT] [TransOrd NT] [LawfulEqOrd NT] [Ord T'] [Ord NT'] [TransOrd NT'] [LawfulEqOrd NT']
variable {g : Grammar T NT AK AV} {g' : Grammar T' NT' AK' AV'}
variable (hw : g.WF) (hw' : g'.WF) (hρ : ρ.SymInjective) (hr : g.RenamedTo ρ g')
variable {items : List (ProdState T NT AK AV × BSet T)} {items' : List (ProdState T' NT' AK' AV' × BSet T')}
variable (hp : ∀ e ∈ items, e.1.prod ∈ g.prods) (hi : ItemsRenamed ρ items items')
include hw hw' hρ hr hp hi

theorem kernelItem_renamed {q : Prod T NT AK AV} (hq : q ∈ g.prods) {s' : ProdState T' NT' AK' AV'} :
    KernelItem items' (ρ.prod q) s' ↔ ∃ s, s' = ρ.item s ∧ KernelItem items q s := by
  constructor
  · rintro (⟨⟨la, h1⟩, h2⟩ | ⟨rfl, h2⟩)
    · obtain ⟨s, o, rfl, -, la', h3, -⟩ := (hi s' none).1 ⟨la, h1, by simp⟩
      exact ⟨s, rfl, .inl ⟨⟨la', h3⟩, renamed_prod_inj hw hw' hρ hr (hp _ h3) hq h2⟩⟩
    · refine ⟨.fromStart q, rfl, .inr ⟨rfl, ?_⟩⟩
      rintro ⟨s, la⟩ he rfl
      obtain ⟨la', h3, -⟩ := (hi (ρ.item s) none).2 ⟨s, none, rfl, rfl, la, he, by simp⟩
      exact h2 _ h3 rfl
  · rintro ⟨s, rfl, (⟨⟨la, h1⟩, rfl⟩ | ⟨rfl, h2⟩)⟩
    · obtain ⟨la', h3, -⟩ := (hi (ρ.item s) none).2 ⟨s, none, rfl, rfl, la, h1, by simp⟩
      exact .inl ⟨⟨la', h3⟩, rfl⟩
    · refine .inr ⟨rfl, ?_⟩
      rintro ⟨s', la⟩ he h3
      obtain ⟨s, o, rfl, -, la', h4, -⟩ := (hi s' none).1 ⟨la, he, by simp⟩
      exact h2 _ h4 (renamed_prod_inj hw hw' hρ hr (hp _ h4) hq h3)

theorem lalrFact_renamed {s' : ProdState T' NT' AK' AV'} {o' : Option T'} :
    LalrFact g' items' s' o' ↔ ∃ s o, s' = ρ.item s ∧ o' = o.map ρ.term ∧ LalrFact g items s o := by
  constructor
  · intro h
    induction h with
    | item h =>
      obtain ⟨s, o, rfl, -, la, h1, -⟩ := (hi _ none).1 ⟨_, h, by simp⟩
      exact ⟨s, none, rfl, rfl, .item h1⟩
    | @lookahead s' la t' h ht =>
      obtain ⟨s, o, rfl, ho, la, h1, h2⟩ := (hi s' (some t')).1 ⟨_, h, fun t e => by cases e; exact ht⟩
      cases o with
      | none => cases ho
      | some t => exact ⟨s, some t, rfl, ho, .lookahead h1 (h2 t rfl)⟩
    | present _ ih =>
      obtain ⟨s, o, rfl, ho, h1⟩ := ih
      cases o with
      | none => cases ho
      | some t => exact ⟨s, none, rfl, rfl, .present h1⟩
    | @term s' B' t' q' s2' _ hB ht hq hqB hki ih =>
      obtain ⟨s, o, rfl, ho, h1⟩ := ih
      cases o with
      | some t => cases ho
      | none =>
        obtain ⟨B, rfl, hB0⟩ := Renaming.elements_nonterm.1 hB
        obtain ⟨t, rfl, ht0⟩ := Renaming.elements_term.1 ht
        obtain ⟨q, hq0, rfl⟩ := (hr.prods q').1 hq
        obtain ⟨s2, rfl, hki0⟩ := (kernelItem_renamed hw hw' hρ hr hp hi hq0).1 hki
        exact ⟨s2, some t, rfl, rfl, .term h1 hB0 ht0 hq0 (hρ.nonterm _ _ hqB) hki0⟩
    | @first s' B' C' t' q' s2' _ hB hC hf hq hqB hki ih =>
      obtain ⟨s, o, rfl, ho, h1⟩ := ih
      cases o with
      | some t => cases ho
      | none =>
        obtain ⟨B, rfl, hB0⟩ := Renaming.elements_nonterm.1 hB
        obtain ⟨C, rfl, hC0⟩ := Renaming.elements_nonterm.1 hC
        obtain ⟨t, rfl, hf0⟩ := (renamed_derives_term hw hw' hρ hr (s := [.nonterm C])).1 hf
        obtain ⟨q, hq0, rfl⟩ := (hr.prods q').1 hq
        obtain ⟨s2, rfl, hki0⟩ := (kernelItem_renamed hw hw' hρ hr hp hi hq0).1 hki
        exact ⟨s2, some t, rfl, rfl, .first h1 hB0 hC0 hf0 hq0 (hρ.nonterm _ _ hqB) hki0⟩
    | @last s' B' t' q' s2' _ hB hn hq hqB hki ih =>
      obtain ⟨s, o, rfl, ho, h1⟩ := ih
      cases o with
      | none => cases ho
      | some t =>
        cases ho
        obtain ⟨B, rfl, hB0⟩ := Renaming.elements_nonterm.1 hB
        obtain ⟨q, hq0, rfl⟩ := (hr.prods q').1 hq
        obtain ⟨s2, rfl, hki0⟩ := (kernelItem_renamed hw hw' hρ hr hp hi hq0).1 hki
        exact ⟨s2, some t, rfl, rfl, .last h1 hB0 (Renaming.elements_none.1 hn) hq0 (hρ.nonterm _ _ hqB) hki0⟩
  · rintro ⟨s, o, rfl, rfl, h⟩
    induction h with
    | @item s la h =>
      obtain ⟨la', h1, -⟩ := (hi (ρ.item s) none).2 ⟨s, none, rfl, rfl, la, h, by simp⟩
      exact .item h1
    | @lookahead s la t h ht =>
      obtain ⟨la', h1, h2⟩ := (hi (ρ.item s) (some (ρ.term t))).2
        ⟨s, some t, rfl, rfl, la, h, fun t e => by cases e; exact ht⟩
      exact .lookahead h1 (h2 _ rfl)
    | present _ ih => exact .present ih
    | @term s B t q s2 _ hB ht hq hqB hki ih =>
      exact .term ih (Renaming.elements_nonterm.2 ⟨B, rfl, hB⟩) (Renaming.elements_term.2 ⟨t, rfl, ht⟩)
        ((hr.prods _).2 ⟨q, hq, rfl⟩) (congrArg ρ.nonterm hqB)
        ((kernelItem_renamed hw hw' hρ hr hp hi hq).2 ⟨s2, rfl, hki⟩)
    | @first s B C t q s2 _ hB hC hf hq hqB hki ih =>
      exact .first ih (Renaming.elements_nonterm.2 ⟨B, rfl, hB⟩) (Renaming.elements_nonterm.2 ⟨C, rfl, hC⟩)
        ((renamed_derives_term hw hw' hρ hr (s := [.nonterm C])).2 ⟨t, rfl, hf⟩)
        ((hr.prods _).2 ⟨q, hq, rfl⟩) (congrArg ρ.nonterm hqB)
        ((kernelItem_renamed hw hw' hρ hr hp hi hq).2 ⟨s2, rfl, hki⟩)
    | @last s B t q s2 _ hB hn hq hqB hki ih =>
      exact .last ih (Renaming.elements_nonterm.2 ⟨B, rfl, hB⟩) (Renaming.elements_none.2 hn)
        ((hr.prods _).2 ⟨q, hq, rfl⟩) (congrArg ρ.nonterm hqB)
        ((kernelItem_renamed hw hw' hρ hr hp hi hq).2 ⟨s2, rfl, hki⟩)

theorem lalrGap_renamed : LalrGap g' items' ↔ LalrGap g items := by
  constructor
  · rintro ⟨s', B', C', h1, h2, h3, h4⟩
    obtain ⟨s, o, rfl, ho, h1⟩ := (lalrFact_renamed hw hw' hρ hr hp hi).1 h1
    cases o with
    | some t => cases ho
    | none =>
      obtain ⟨B, rfl, h5⟩ := Renaming.elements_nonterm.1 h2
      obtain ⟨C, rfl, h6⟩ := Renaming.elements_nonterm.1 h3
      rw [renamed_key hw hw' hρ hr] at h4
      exact ⟨s, B, C, h1, h5, h6, h4⟩
  · rintro ⟨s, B, C, h1, h2, h3, h4⟩
    refine ⟨ρ.item s, ρ.nonterm B, ρ.nonterm C, (lalrFact_renamed hw hw' hρ hr hp hi).2 ⟨s, none, rfl, rfl, h1⟩,
      Renaming.elements_nonterm.2 ⟨B, rfl, h2⟩, Renaming.elements_nonterm.2 ⟨C, rfl, h3⟩, ?_⟩
    rw [renamed_key hw hw' hρ hr]
    exact h4
end facts

section
variable [Ord T] [TransOrd T] [LawfulEqOrd T] [Ord NT] [TransOrd NT] [LawfulEqOrd NT]
variable [Ord T'] [TransOrd T'] [LawfulEqOrd T'] [Ord NT'] [TransOrd NT'] [LawfulEqOrd NT']
variable {g : Grammar T NT AK AV} {g' : Grammar T' NT' AK' AV'}
variable {addr : NT → Nat → Nat} {addr' : NT' → Nat → Nat}
variable {collect : List (ProdState T NT AK AV × BSet T) → BMap (ProdState T NT AK AV) (BSet T)}
variable {collect' : List (ProdState T' NT' AK' AV' × BSet T') → BMap (ProdState T' NT' AK' AV') (BSet T')}
variable (hg : g.Accepted) (hg' : g'.Accepted) (hρ : ρ.SymInjective) (hr : g.RenamedTo ρ g')
variable (ha : AddrInj g addr) (ha' : AddrInj g' addr')
variable (hc : CollectMapSpec (ProdState.cmp addr) collect) (hc' : CollectMapSpec (ProdState.cmp addr') collect')
include hg hg' hρ hr ha ha' hc hc'

/-- C132 for `from_prod_lookahead`: with the renamed kernel it has the same outcome (the same error, the
same panic or success), and the state has the renamed items with the renamed lookaheads. -/
theorem lalr_state_renamed {items : List (ProdState T NT AK AV × BSet T)}
    {items' : List (ProdState T' NT' AK' AV' × BSet T')} (hk : Kernel g items) (hk' : Kernel g' items')
    (hi : ItemsRenamed ρ items items') :
    ∃ N, ∀ fuel, N ≤ fuel →
      (∃ σ σ', ParseState.fromProdLookahead fuel collect addr g .new items = .ok (σ, .error .ambiguity) ∧
        ParseState.fromProdLookahead fuel collect' addr' g' .new items' = .ok (σ', .error .ambiguity)) ∨
      (ParseState.fromProdLookahead fuel collect addr g .new items = .panic .noFirsts ∧
        ParseState.fromProdLookahead fuel collect' addr' g' .new items' = .panic .noFirsts) ∨
      ∃ σ σ' st st', ParseState.fromProdLookahead fuel collect addr g .new items = .ok (σ, .ok st) ∧
        ParseState.fromProdLookahead fuel collect' addr' g' .new items' = .ok (σ', .ok st') ∧
        st.RenamedTo ρ st' := by
  have hw := hg.valid.toWF
  have hw' := hg'.valid.toWF
  obtain ⟨N1, h1⟩ := nullable_renamed hg hg' hρ hr ha ha'
  obtain ⟨N2, h2⟩ := lalr_outcome g hg addr ha collect hc items hk
  obtain ⟨N3, h3⟩ := lalr_outcome g' hg' addr' ha' collect' hc' items' hk'
  refine ⟨N1 + N2 + N3, fun fuel hf => ?_⟩
  rcases h1 fuel (by omega) with ⟨a1, a2⟩ | ⟨i, i', a1, a2, -⟩
  · left
    rcases h2 fuel (by omega) with ⟨e, b2, σ, b1⟩ | ⟨⟨j, b⟩, -⟩
    swap
    · rw [a1] at b; cases b
    rcases h3 fuel (by omega) with ⟨e', c2, σ', c1⟩ | ⟨⟨j, c⟩, -⟩
    swap
    · rw [a2] at c; cases c
    rw [a1] at b2; cases b2
    rw [a2] at c2; cases c2
    exact ⟨σ, σ', b1, c1⟩
  · right
    rcases h2 fuel (by omega) with ⟨e, b2, -⟩ | ⟨-, b⟩
    · rw [a1] at b2; cases b2
    rcases h3 fuel (by omega) with ⟨e', c2, -⟩ | ⟨-, c⟩
    · rw [a2] at c2; cases c2
    rw [lalrGap_renamed hw hw' hρ hr hk.prods hi] at c
    rcases b with ⟨k, b⟩ | ⟨k, σ, st, b⟩
    · rcases c with ⟨-, c⟩ | ⟨k', -⟩
      · exact .inl ⟨b, c⟩
      · exact absurd k k'
    · rcases c with ⟨k', -⟩ | ⟨-, σ', st', c⟩
      · exact absurd k' k
      · right
        refine ⟨σ, σ', st, st', b, c, fun s' o' => ?_⟩
        obtain ⟨x1, -, -⟩ := lalr_state_exact g hg addr ha collect hc items hk fuel .new σ ⟨[], rfl⟩ st b
        obtain ⟨x2, -, -⟩ := lalr_state_exact g' hg' addr' ha' collect' hc' items' hk' fuel .new σ' ⟨[], rfl⟩ st' c
        refine (x2 s' o').trans ((lalrFact_renamed hw hw' hρ hr hk.prods hi).trans ?_)
        exact exists_congr fun s => exists_congr fun o => and_congr_right fun _ => and_congr_right fun _ =>
          (x1 s o).symm
omit hc hc'

/-- The kernel reached by shifting the same terminal is the same up to names. -/
theorem shiftKernel_renamed {st : ParseState T NT AK AV} {st' : ParseState T' NT' AK' AV'}
    (hs : st.RenamedTo ρ st') {t : T} {items : List (ProdState T NT AK AV × BSet T)}
    {items' : List (ProdState T' NT' AK' AV' × BSet T')}
    (h1 : ∀ s la, (s, la) ∈ items ↔ ∃ s₀, (s₀, la) ∈ st.prods ∧
      s₀.prod.elements[s₀.index]? = some (.term t) ∧ s = ⟨s₀.prod, s₀.index + 1⟩)
    (h2 : ∀ s la, (s, la) ∈ items' ↔ ∃ s₀, (s₀, la) ∈ st'.prods ∧
      s₀.prod.elements[s₀.index]? = some (.term (ρ.term t)) ∧ s = ⟨s₀.prod, s₀.index + 1⟩) :
    ItemsRenamed ρ items items' := by
  intro s' o'
  constructor
  · rintro ⟨la', h3, h4⟩
    obtain ⟨s₀', h5, h6, rfl⟩ := (h2 _ _).1 h3
    obtain ⟨s₀, o, rfl, rfl, la, h7, h8⟩ := (hs s₀' o').1 ⟨la', h5, h4⟩
    obtain ⟨u, hu, h9⟩ := Renaming.elements_term.1 h6
    cases hρ.term _ _ hu
    exact ⟨⟨s₀.prod, s₀.index + 1⟩, o, rfl, rfl, la, (h1 _ _).2 ⟨s₀, h7, h9, rfl⟩, h8⟩
  · rintro ⟨s, o, rfl, rfl, la, h3, h4⟩
    obtain ⟨s₀, h5, h6, rfl⟩ := (h1 _ _).1 h3
    obtain ⟨la', h7, h8⟩ := (hs (ρ.item s₀) (o.map ρ.term)).2 ⟨s₀, o, rfl, rfl, la, h5, h4⟩
    exact ⟨la', (h2 _ _).2 ⟨ρ.item s₀, h7, Renaming.elements_term.2 ⟨t, rfl, h6⟩, rfl⟩, h8⟩

theorem shiftable_renamed {st : ParseState T NT AK AV} {st' : ParseState T' NT' AK' AV'}
    (hs : st.RenamedTo ρ st') {t' : T'} :
    (∃ s, st'.Has s none ∧ s.prod.elements[s.index]? = some (.term t')) ↔
      ∃ t, t' = ρ.term t ∧ ∃ s, st.Has s none ∧ s.prod.elements[s.index]? = some (.term t) := by
  constructor
  · rintro ⟨s', h1, h2⟩
    obtain ⟨s, o, rfl, ho, la, h3, -⟩ := (hs s' none).1 h1
    obtain ⟨t, rfl, h4⟩ := Renaming.elements_term.1 h2
    exact ⟨t, rfl, s, ⟨la, h3, by simp⟩, h4⟩
  · rintro ⟨t, rfl, s, h1, h2⟩
    exact ⟨ρ.item s, (hs _ none).2 ⟨s, none, rfl, rfl, h1⟩, Renaming.elements_term.2 ⟨t, rfl, h2⟩⟩

theorem shiftGap_renamed {st : ParseState T NT AK AV} {st' : ParseState T' NT' AK' AV'}
    (hst : ParseState.Obtained addr g st) (hst' : ParseState.Obtained addr' g' st')
    (hs : st.RenamedTo ρ st') :
    (∃ t items, (∃ e, e ∈ items) ∧ (∀ s la, (s, la) ∈ items ↔ ∃ s₀, (s₀, la) ∈ st'.prods ∧
        s₀.prod.elements[s₀.index]? = some (.term t) ∧ s = ⟨s₀.prod, s₀.index + 1⟩) ∧ LalrGap g' items) ↔
      ∃ t items, (∃ e, e ∈ items) ∧ (∀ s la, (s, la) ∈ items ↔ ∃ s₀, (s₀, la) ∈ st.prods ∧
        s₀.prod.elements[s₀.index]? = some (.term t) ∧ s = ⟨s₀.prod, s₀.index + 1⟩) ∧ LalrGap g items := by
  have hw := hg.valid.toWF
  have hw' := hg'.valid.toWF
  obtain ⟨-, a2, a3⟩ := shiftGroups hw ha (hst.ok hg.valid ha)
  obtain ⟨-, b2, b3⟩ := shiftGroups hw' ha' (hst'.ok hg'.valid ha')
  constructor
  · rintro ⟨t', items', ⟨⟨x, la⟩, hx⟩, h1, h2⟩
    obtain ⟨s₀, k1, k2, -⟩ := (h1 x la).1 hx
    obtain ⟨t, rfl, hsh⟩ := (shiftable_renamed hg hg' hρ hr ha ha' hs).1 ⟨s₀, ⟨la, k1, by simp⟩, k2⟩
    obtain ⟨items, hit⟩ := (a2 t).2 hsh
    obtain ⟨c1, c2⟩ := a3 t items hit
    obtain ⟨s, ⟨la', d1, -⟩, d2⟩ := hsh
    refine ⟨t, items, ⟨_, (c2 _ _).2 ⟨s, d1, d2, rfl⟩⟩, c2, ?_⟩
    exact (lalrGap_renamed hw hw' hρ hr c1.prods (shiftKernel_renamed hg hg' hρ hr ha ha' hs c2 h1)).1 h2
  · rintro ⟨t, items, ⟨⟨x, la⟩, hx⟩, h1, h2⟩
    obtain ⟨s₀, k1, k2, -⟩ := (h1 x la).1 hx
    have hsh := (shiftable_renamed hg hg' hρ hr ha ha' hs).2 ⟨t, rfl, s₀, ⟨la, k1, by simp⟩, k2⟩
    obtain ⟨items', hit⟩ := (b2 _).2 hsh
    obtain ⟨c1, c2⟩ := b3 _ items' hit
    obtain ⟨s, ⟨la', d1, -⟩, d2⟩ := hsh
    refine ⟨ρ.term t, items', ⟨_, (c2 _ _).2 ⟨s, d1, d2, rfl⟩⟩, c2, ?_⟩
    have hp : ∀ e ∈ items, e.1.prod ∈ g.prods := by
      rintro ⟨s, la⟩ he
      obtain ⟨s₀, k1, -, rfl⟩ := (h1 s la).1 he
      exact (hst.ok hg.valid ha).prods (s₀, la) k1
    exact (lalrGap_renamed hw hw' hρ hr hp (shiftKernel_renamed hg hg' hρ hr ha ha' hs h1 c2)).2 h2

include hc hc'

/-- C132 for `shift_actions`, on any contexts that have yielded the FIRST sets: it has the same outcome,
and the states reached by the renamed terminals are the renamed ones. -/
theorem lalr_shift_renamed {st : ParseState T NT AK AV} {st' : ParseState T' NT' AK' AV'}
    (hst : ParseState.Obtained addr g st) (hst' : ParseState.Obtained addr' g' st')
    (hs : st.RenamedTo ρ st') {fuel fuel' : Nat} (hf : 2 * g.prods.length < fuel)
    (hf' : 2 * g'.prods.length < fuel') {σ₀ σ : ParseState.Ctx T NT AK} {σ₀' σ' : ParseState.Ctx T' NT' AK'}
    {v : PassVal T NT AK} {v' : PassVal T' NT' AK'}
    (hu : UsedContext fuel addr g σ₀) (hu' : UsedContext fuel' addr' g' σ₀')
    (hp : PassContext.getPass fuel (cratePasses fuel addr g) σ₀ .firsts = .ok (σ, .ok v))
    (hp' : PassContext.getPass fuel' (cratePasses fuel' addr' g') σ₀' .firsts = .ok (σ', .ok v')) :
    (ParseState.shiftActions fuel collect addr g σ st = .panic .noFirsts ∧
      ParseState.shiftActions fuel' collect' addr' g' σ' st' = .panic .noFirsts) ∨
    ∃ σ₁ σ₁' m m', ParseState.shiftActions fuel collect addr g σ st = .ok (σ₁, .ok m) ∧
      ParseState.shiftActions fuel' collect' addr' g' σ' st' = .ok (σ₁', .ok m') ∧
      (∀ t', (∃ x', (t', x') ∈ m') ↔ ∃ t, t' = ρ.term t ∧ ∃ x, (t, x) ∈ m) ∧
      ∀ t x x', (t, x) ∈ m → (ρ.term t, x') ∈ m' → x.RenamedTo ρ x' := by
  have hw := hg.valid.toWF
  have hw' := hg'.valid.toWF
  have b := lalr_shift_outcome g hg addr ha collect hc st hst fuel hf σ₀ σ v hu hp
  have c := lalr_shift_outcome g' hg' addr' ha' collect' hc' st' hst' fuel' hf' σ₀' σ' v' hu' hp'
  simp only at b c
  rw [shiftGap_renamed hg hg' hρ hr ha ha' hst hst' hs] at c
  rcases b with ⟨k, b⟩ | ⟨k, σ₁, m, b⟩
  · rcases c with ⟨-, c⟩ | ⟨k', -⟩
    · exact .inl ⟨b, c⟩
    · exact absurd k k'
  · rcases c with ⟨k', -⟩ | ⟨-, σ₁', m', c⟩
    · exact absurd k' k
    · right
      have hu1 : UsedContext fuel addr g σ := usedContext_get hu hp
      have hu1' : UsedContext fuel' addr' g' σ' := usedContext_get hu' hp'
      obtain ⟨-, x2, x3⟩ := lalr_shift_exact g hg addr ha collect hc st hst fuel σ σ₁ hu1 m b
      obtain ⟨-, y2, y3⟩ := lalr_shift_exact g' hg' addr' ha' collect' hc' st' hst' fuel' σ' σ₁' hu1' m' c
      refine ⟨σ₁, σ₁', m, m', b, c, fun t' => ?_, fun t x x' hx hx' => ?_⟩
      · rw [y2, shiftable_renamed hg hg' hρ hr ha ha' hs]
        simp only [x2]
      · obtain ⟨items, i1, i2, i3⟩ := x3 t x hx
        obtain ⟨items', j1, j2, j3⟩ := y3 _ x' hx'
        intro s' o'
        refine (j3 s' o').trans ((lalrFact_renamed hw hw' hρ hr i1.prods
          (shiftKernel_renamed hg hg' hρ hr ha ha' hs i2 j2)).trans ?_)
        exact exists_congr fun s => exists_congr fun o => and_congr_right fun _ => and_congr_right fun _ =>
          (i3 s o).symm
omit hc hc'

/-- C132 for `reducable_actions`: the renamed keys, each as often. -/
theorem lalr_reducable_renamed {st : ParseState T NT AK AV} {st' : ParseState T' NT' AK' AV'}
    (hst : ParseState.Obtained addr g st) (hst' : ParseState.Obtained addr' g' st')
    (hs : st.RenamedTo ρ st') :
    st'.reducableActions.Perm (st.reducableActions.map ρ.key) := by
  have hw := hg.valid.toWF
  have hw' := hg'.valid.toWF
  have ok := hst.ok hg.valid ha
  have ok' := hst'.ok hg'.valid ha'
  have nd : (st.prods.map (·.1)).Nodup := by
    rw [List.Nodup, List.pairwise_map]
    refine ok.wf.sorted.imp fun {a b} h e => ?_
    rw [e, cmp_self (cmp := ProdState.cmp addr)] at h
    cases h
  have nd' : (st'.prods.map (·.1)).Nodup := by
    rw [List.Nodup, List.pairwise_map]
    refine ok'.wf.sorted.imp fun {a b} h e => ?_
    rw [e, cmp_self (cmp := ProdState.cmp addr')] at h
    cases h
  have hperm : (st'.prods.map (·.1)).Perm ((st.prods.map (·.1)).map ρ.item) := by
    rw [List.perm_ext_iff_of_nodup nd']
    · intro s'
      simp only [List.mem_map]
      constructor
      · rintro ⟨⟨_, la⟩, h, rfl⟩
        obtain ⟨s, o, rfl, -, la', h1, -⟩ := (hs _ none).1 ⟨la, h, by simp⟩
        exact ⟨s, ⟨_, h1, rfl⟩, rfl⟩
      · rintro ⟨s, ⟨⟨_, la⟩, h, rfl⟩, rfl⟩
        obtain ⟨la', h1, -⟩ := (hs _ none).2 ⟨_, none, rfl, rfl, la, h, by simp⟩
        exact ⟨_, h1, rfl⟩
    · refine List.Nodup.map_on ?_ nd
      intro x hx y hy he
      obtain ⟨ex, hx0, rfl⟩ := List.mem_map.1 hx
      obtain ⟨ey, hy0, rfl⟩ := List.mem_map.1 hy
      have h1 := renamed_prod_inj hw hw' hρ hr (ok.prods _ hx0) (ok.prods _ hy0) (congrArg ProdState.prod he)
      have h2 : (ρ.item ex.1).index = (ρ.item ey.1).index := congrArg ProdState.index he
      obtain ⟨⟨p, i⟩, l⟩ := ex
      obtain ⟨⟨q, j⟩, l'⟩ := ey
      simp only [Renaming.item] at h1 h2
      rw [h1, h2]
  rw [lalr_reducable_exact, lalr_reducable_exact]
  have := (hperm.filter fun s => s.prod.elements.length == s.index).map (·.prod.inner.actionKey)
  refine this.trans (List.Perm.of_eq ?_)
  rw [List.filter_map, List.map_map, List.map_map]
  have hfun : ((fun s : ProdState T' NT' AK' AV' => s.prod.elements.length == s.index) ∘ ρ.item) =
      fun s : ProdState T NT AK AV => s.prod.elements.length == s.index := by
    funext s
    simp only [Function.comp, Renaming.item, ρ.prod_elements, List.length_map]
  rw [hfun]
  rfl
end

/-! ## Example: everything turned around -/

/-- All orders are turned around. -/
def lalrTurn : Renaming Nat Nat Nat Unit Nat Nat Nat Unit := ⟨turn 200, turn 3, turn 40, id⟩

theorem lalrTurn_injective : lalrTurn.SymInjective := ⟨turn_inj 200, turn_inj 3⟩

/-- `lalrExample` with the other names. -/
def lalrTurned : Grammar Nat Nat Nat Unit :=
  ⟨3, [(2, ⟨2, [⟨38, (), [⟨none, .term 100⟩, ⟨none, .nonterm 2⟩]⟩, ⟨37, (), [⟨none, .term 99⟩]⟩]⟩),
       (3, ⟨3, [⟨39, (), [⟨none, .nonterm 2⟩, ⟨none, .nonterm 2⟩]⟩]⟩)]⟩

theorem lalrTurned_accepted : lalrTurned.Accepted :=
  ⟨9, 3, [⟨3, [.addProd 39 () [.addNonterm 2, .addNonterm 2]]⟩,
          ⟨2, [.addProd 38 () [.addTerm 100, .addNonterm 2], .addProd 37 () [.addTerm 99]]⟩],
    by decide⟩

def turnedS : Prod Nat Nat Nat Unit := ⟨3, 0, ⟨39, (), [⟨none, .nonterm 2⟩, ⟨none, .nonterm 2⟩]⟩⟩
def turnedA₁ : Prod Nat Nat Nat Unit := ⟨2, 0, ⟨38, (), [⟨none, .term 100⟩, ⟨none, .nonterm 2⟩]⟩⟩
def turnedA₂ : Prod Nat Nat Nat Unit := ⟨2, 1, ⟨37, (), [⟨none, .term 99⟩]⟩⟩

def turnedKernel : List (ProdState Nat Nat Nat Unit × BSet Nat) := [(⟨turnedS, 0⟩, [101])]

theorem turnedKernel_kernel : Kernel lalrTurned turnedKernel :=
  ⟨by decide, by decide, by unfold BSet.Sorted; decide⟩

theorem turnedKernel_renamed : ItemsRenamed lalrTurn lalrKernel turnedKernel := by
  intro s' o'
  constructor
  · rintro ⟨la, h, hla⟩
    simp only [turnedKernel, List.mem_singleton, _root_.Prod.mk.injEq] at h
    obtain ⟨rfl, rfl⟩ := h
    cases o' with
    | none => exact ⟨⟨lalrS, 0⟩, none, rfl, rfl, [99], by simp [lalrKernel], by simp⟩
    | some t =>
      have := hla t rfl
      simp only [List.mem_singleton] at this
      subst this
      exact ⟨⟨lalrS, 0⟩, some 99, rfl, rfl, [99], by simp [lalrKernel], by simp⟩
  · rintro ⟨s, o, rfl, rfl, la, h, hla⟩
    simp only [lalrKernel, List.mem_singleton, _root_.Prod.mk.injEq] at h
    obtain ⟨rfl, rfl⟩ := h
    refine ⟨[101], List.mem_singleton.2 rfl, ?_⟩
    intro t ht
    cases o with
    | none => cases ht
    | some u =>
      cases ht
      have := hla u rfl
      simp only [List.mem_singleton] at this
      subst this
      decide

/-- The start state of the turned grammar: the items and the lookaheads come in the opposite order. -/
def turnedState : ParseState Nat Nat Nat Unit :=
  ⟨[(⟨turnedA₁, 0⟩, [99, 100]), (⟨turnedA₂, 0⟩, [99, 100]), (⟨turnedS, 0⟩, [101])]⟩

/-- The hypotheses are met: both states are built, and both can be shifted. -/
example : lalrExample.RenamedTo lalrTurn lalrTurned ∧
    Kernel lalrExample lalrKernel ∧ Kernel lalrTurned turnedKernel ∧
    ItemsRenamed lalrTurn lalrKernel turnedKernel ∧
    (∃ σ', ParseState.fromProdLookahead 20 exampleCollect exampleAddr lalrTurned .new turnedKernel =
        .ok (σ', .ok turnedState) ∧ UsedContext 20 exampleAddr lalrTurned σ' ∧
      (∃ σ₂, PassContext.getPass 20 (cratePasses 20 exampleAddr lalrTurned) .new .firsts = .ok (σ₂, .ok
        (.firsts ⟨[(2, [99, 100]), (3, [99, 100])]⟩))) ∧
      ∃ σ₁, ParseState.shiftActions 20 exampleCollect exampleAddr lalrTurned σ' turnedState = .ok (σ₁, .ok
        [(99, ⟨[(⟨turnedA₂, 1⟩, [99, 100])]⟩),
         (100, ⟨[(⟨turnedA₁, 1⟩, [99, 100]), (⟨turnedA₂, 0⟩, [99, 100])]⟩)])) ∧
    lalrState.RenamedTo lalrTurn turnedState ∧
    ParseState.Obtained exampleAddr lalrTurned turnedState := by
  have hb : ∃ σ', ParseState.fromProdLookahead 20 exampleCollect exampleAddr lalrTurned .new turnedKernel =
      .ok (σ', .ok turnedState) := ⟨_, by rfl⟩
  have hren : lalrExample.RenamedTo lalrTurn lalrTurned := renamedTo_of_reverse (by decide) (by decide)
  refine ⟨hren, lalrKernel_kernel, turnedKernel_kernel, turnedKernel_renamed,
    ⟨_, by rfl, ⟨[.firsts], by rfl⟩, ⟨_, by rfl⟩, ⟨_, by rfl⟩⟩, ?_, ?_⟩
  · obtain ⟨σ', hb⟩ := hb
    obtain ⟨x1, -, -⟩ := lalr_state_exact lalrExample lalrExample_accepted exampleAddr (exampleAddr_addrInj _)
      exampleCollect exampleCollect_spec lalrKernel lalrKernel_kernel 20 .new _ ⟨[], rfl⟩ _ lalrState_built
    obtain ⟨x2, -, -⟩ := lalr_state_exact lalrTurned lalrTurned_accepted exampleAddr (exampleAddr_addrInj _)
      exampleCollect exampleCollect_spec turnedKernel turnedKernel_kernel 20 .new _ ⟨[], rfl⟩ _ hb
    intro s' o'
    refine (x2 s' o').trans ((lalrFact_renamed lalrExample_accepted.valid.toWF lalrTurned_accepted.valid.toWF
      lalrTurn_injective hren lalrKernel_kernel.prods turnedKernel_renamed).trans ?_)
    exact exists_congr fun s => exists_congr fun o => and_congr_right fun _ => and_congr_right fun _ =>
      (x1 s o).symm
  · obtain ⟨σ', hb⟩ := hb
    exact .new exampleCollect_spec ⟨[], rfl⟩ turnedKernel_kernel hb
end Bongo
