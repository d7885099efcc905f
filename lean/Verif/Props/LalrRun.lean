import Verif.Spec.LalrRun
import Verif.Props.LalrExamples
import Mathlib.Data.Set.Finite.Powerset
import Mathlib.Data.Set.Finite.Lattice
import Mathlib.Data.Finite.Prod
/-!
# C139: shifting tokens one after another in LALR states
-/
set_option linter.unusedSectionVars false
namespace Bongo
open Std

section
variable {T NT AK AV : Type} {g : Grammar T NT AK AV} {kernel kernel' : List (ProdState T NT AK AV × BSet T)}

theorem LalrFact.sound {P : ProdState T NT AK AV → Prop} (h1 : ∀ s la, (s, la) ∈ kernel → P s)
    (h2 : ∀ s B q, P s → s.prod.elements[s.index]? = some (.nonterm B) → q ∈ g.prods → q.head = B →
      P (ProdState.fromStart q)) {s : ProdState T NT AK AV} {o : Option T} (h : LalrFact g kernel s o) : P s := by
  have key : ∀ {s B q s'}, P s → s.prod.elements[s.index]? = some (.nonterm B) → q ∈ g.prods → q.head = B →
      KernelItem kernel q s' → P s' := by
    rintro s B q s' hs hB hq hh (⟨⟨la, h⟩, -⟩ | ⟨rfl, -⟩)
    · exact h1 _ _ h
    · exact h2 _ _ _ hs hB hq hh
  induction h with
  | item h => exact h1 _ _ h
  | lookahead h _ => exact h1 _ _ h
  | present _ ih => exact ih
  | term _ hB _ hq hh hk ih => exact key ih hB hq hh hk
  | first _ hB _ _ hq hh hk ih => exact key ih hB hq hh hk
  | last _ hB _ hq hh hk ih => exact key ih hB hq hh hk

theorem LalrFact.has (h : ∀ e ∈ kernel, e.2 ≠ []) {s : ProdState T NT AK AV} {o : Option T}
    (hf : LalrFact g kernel s o) : ∃ t, LalrFact g kernel s (some t) := by
  cases hf with
  | @item _ la hm =>
    obtain ⟨t, l, hl⟩ := List.exists_cons_of_ne_nil (h _ hm)
    exact ⟨t, .lookahead hm (by rw [show la = t :: l from hl]; simp)⟩
  | lookahead hm ht => exact ⟨_, .lookahead hm ht⟩
  | present hf => exact ⟨_, hf⟩
  | term a b c d e f => exact ⟨_, .term a b c d e f⟩
  | first a b c d e f g => exact ⟨_, .first a b c d e f g⟩
  | last a b c d e f => exact ⟨_, .last a b c d e f⟩

/-- A lookahead is one of the kernel's, or occurs in the grammar. -/
theorem LalrFact.terminal [Ord NT] [TransOrd NT] [LawfulEqOrd NT] (hw : g.WF) (hk : ∀ e ∈ kernel, e.1.prod ∈ g.prods)
    {s : ProdState T NT AK AV} {o : Option T} (h : LalrFact g kernel s o) :
    s.prod ∈ g.prods ∧ ∀ t, o = some t → (∃ e ∈ kernel, t ∈ e.2) ∨ ∃ p ∈ g.prods, Elem.term t ∈ p.elements := by
  have hpr : ∀ {s o}, LalrFact g kernel s o → s.prod ∈ g.prods := fun h =>
    LalrFact.sound (P := fun s => s.prod ∈ g.prods) (fun s la h => hk _ h) (fun s B q _ _ hq _ => hq) h
  refine ⟨hpr h, ?_⟩
  induction h with
  | item => intro t ht; cases ht
  | lookahead h h' => rintro t ⟨⟩; exact Or.inl ⟨_, h, h'⟩
  | present => intro t ht; cases ht
  | term h1 _ h _ _ _ _ =>
    rintro t ⟨⟩
    exact Or.inr ⟨_, hpr h1, List.mem_of_getElem? h⟩
  | @first s B C t q s' h1 _ h2 hf _ _ _ _ =>
    rintro t' ⟨⟩
    obtain ⟨γ, hγ⟩ := hf
    right
    have : ∀ γ, g.cfg.Derives [.nonterm C] γ → ∀ e ∈ γ, e = .nonterm C ∨ ∃ p ∈ g.prods, e ∈ p.elements := by
      intro γ h
      unfold Cfg.Derives at h
      induction h with
      | refl => intro e he; exact Or.inl (by simpa using he)
      | tail _ hs ih =>
        cases hs with
        | mk u v A β hp =>
          intro e he
          obtain ⟨p, hp', rfl, rfl⟩ := (Grammar.cfg_prod_iff hw).1 hp
          simp only [List.mem_append] at he
          rcases he with (he | he) | he
          · exact ih e (by simp [he])
          · exact Or.inr ⟨p, hp', he⟩
          · exact ih e (by simp [he])
    rcases this _ hγ (.term t) List.mem_cons_self with h | h
    · cases h
    · exact h
  | last _ _ _ _ _ _ ih => exact ih

/-! ## What the items mean -/

theorem ShiftItem.mem (hk : ∀ e ∈ kernel, e.1.prod ∈ g.prods) {w : List T} {p : Prod T NT AK AV} {i : Nat}
    (h : ShiftItem g kernel w p i) : p ∈ g.prods := by
  induction h with
  | kernel h => exact hk _ h
  | shift _ _ ih => exact ih
  | expand _ _ hq _ _ => exact hq

/-- The elements before the position are the last terminals read, and what was read before them can stand before the
nonterminal of the production. -/
theorem ShiftItem.handle [Ord NT] [TransOrd NT] [LawfulEqOrd NT] (hw : g.WF)
    (hk : ∀ e ∈ kernel, e.1.prod ∈ g.prods) (hs : StartKernel g kernel) {w : List T}
    {p : Prod T NT AK AV} {i : Nat} (h : ShiftItem g kernel w p i) : ∃ w₁ α δ, w = w₁ ++ α ∧
      p.elements.take i = α.map .term ∧ g.cfg.Derives [.nonterm g.startSymbol] (w₁.map .term ++ .nonterm p.head :: δ) := by
  induction h with
  | kernel h =>
    obtain ⟨h1, h2⟩ := hs _ h
    exact ⟨[], [], [], rfl, by rw [h2]; rfl, by rw [h1]; exact .refl _⟩
  | @shift w p i t _ he ih =>
    obtain ⟨w₁, α, δ, rfl, h1, h2⟩ := ih
    refine ⟨w₁, α ++ [t], δ, by simp, ?_, h2⟩
    rw [List.take_add_one, he, h1]
    simp
  | @expand w p i B q hp he hq hh ih =>
    obtain ⟨w₁, α, δ, rfl, h1, h2⟩ := ih
    subst hh
    refine ⟨w₁ ++ α, [], p.elements.drop (i + 1) ++ δ, by simp, rfl, h2.trans ?_⟩
    have h3 := Cfg.derives_prod ((Grammar.cfg_prod_iff hw).2 ⟨p, hp.mem hk, rfl, rfl⟩)
    have h4 : p.elements = α.map .term ++ .nonterm q.head :: p.elements.drop (i + 1) := by
      conv => lhs; rw [← List.take_append_drop i p.elements, h1, drop_of_getElem? he]
    rw [h4] at h3
    have := ((Cfg.Derives.refl (G := g.cfg) (w₁.map .term)).append h3).append (.refl δ)
    simpa using this
end

section
variable {T NT AK AV : Type} [Ord T] [TransOrd T] [LawfulEqOrd T]
  [Ord NT] [TransOrd NT] [LawfulEqOrd NT]
variable {g : Grammar T NT AK AV} {addr : NT → Nat → Nat}

theorem ShiftRun.obtained {st st' : ParseState T NT AK AV} {w : List T} (hst : ParseState.Obtained addr g st)
    (h : ShiftRun addr g st w st') : ParseState.Obtained addr g st' := by
  induction h with
  | nil => exact hst
  | snoc _ hc hu h hm ih => exact .shift hc hu ih h hm

theorem mem_unique {l : BMap (ProdState T NT AK AV) (BSet T)} (hl : BMap.Sorted (ProdState.cmp addr) l)
    {s : ProdState T NT AK AV} {la la' : BSet T} (h : (s, la) ∈ l) (h' : (s, la') ∈ l) : la = la' := by
  induction l with
  | nil => cases h
  | cons x l ih =>
    obtain ⟨h1, h2⟩ := List.pairwise_cons.1 hl
    have hno : ∀ {la la'}, (s, la) = x → (s, la') ∈ l → False := by
      rintro la la' rfl hm
      have hab : prodCmp addr s.prod s.prod = .lt := h1 _ hm
      rw [cmp_self (cmp := prodCmp addr)] at hab
      cases hab
    rcases List.mem_cons.1 h with h | h <;> rcases List.mem_cons.1 h' with h' | h'
    · rw [← h'] at h; injection h
    · exact (hno h h').elim
    · exact (hno h' h).elim
    · exact ih h2 h h'

theorem state_mem {st : ParseState T NT AK AV} (hs : StateOk addr g st) {s : ProdState T NT AK AV} {la : BSet T} :
    (s, la) ∈ st.prods ↔ BSet.Sorted compare la ∧ st.Has s none ∧ ∀ t, t ∈ la ↔ st.Has s (some t) := by
  constructor
  · intro h
    refine ⟨hs.wf.sets _ h, ⟨la, h, by simp⟩, fun t => ⟨fun ht => ⟨la, h, by rintro t ⟨⟩; exact ht⟩, ?_⟩⟩
    rintro ⟨la', h', h2⟩
    rw [mem_unique hs.wf.sorted h h']
    exact h2 t rfl
  · rintro ⟨h1, ⟨la', h2, -⟩, h3⟩
    have : la = la' := BSet.ext h1 (hs.wf.sets _ h2) fun t => by
      rw [h3]
      refine ⟨?_, fun ht => ⟨la', h2, by rintro t ⟨⟩; exact ht⟩⟩
      rintro ⟨la'', h4, h5⟩
      rw [mem_unique hs.wf.sorted h2 h4]
      exact h5 t rfl
    rw [this]; exact h2

/-- States with the same items and lookaheads are the same. -/
theorem state_ext {a b : ParseState T NT AK AV} (ha : StateOk addr g a) (hb : StateOk addr g b)
    (h : ∀ e, e ∈ a.prods ↔ e ∈ b.prods) : a = b := by
  have : a.prods = b.prods := by
    refine ext_of_pairwise (r := fun x y => ProdState.cmp addr x.1 y.1 = .lt) ?_ ?_
      (by have := ha.wf.sorted; unfold BMap.Sorted at this; exact this)
      (by have := hb.wf.sorted; unfold BMap.Sorted at this; exact this) h
    · intro x hx
      have hx : prodCmp addr x.1.prod x.1.prod = .lt := hx
      rw [cmp_self (cmp := prodCmp addr)] at hx
      cases hx
    · intro x y h1 h2
      have := TransCmp.lt_trans (cmp := prodCmp addr) (show prodCmp addr x.1.prod y.1.prod = .lt from h1) h2
      rw [cmp_self (cmp := prodCmp addr)] at this
      cases this
  cases a; cases b; exact congrArg _ this

theorem state_ext_has {a b : ParseState T NT AK AV} (ha : StateOk addr g a) (hb : StateOk addr g b)
    (h : ∀ s o, a.Has s o ↔ b.Has s o) : a = b := by
  refine state_ext ha hb ?_
  rintro ⟨s, la⟩
  rw [state_mem ha, state_mem hb]
  simp only [h]

/-! ## Shifting is deterministic -/
variable (hg : g.Accepted) (ha : AddrInj g addr)

include hg ha in
/-- C139.  Two calls of `shift_actions` on a state that succeed return the same map, whatever context each uses and
however each collects. -/
theorem lalr_shift_deterministic (st : ParseState T NT AK AV) (hst : ParseState.Obtained addr g st)
    (collect collect' : List (ProdState T NT AK AV × BSet T) → BMap (ProdState T NT AK AV) (BSet T))
    (hc : CollectMapSpec (ProdState.cmp addr) collect) (hc' : CollectMapSpec (ProdState.cmp addr) collect')
    (fuel fuel' : Nat) (σ σ₁ σ' σ₁' : ParseState.Ctx T NT AK) (hu : UsedContext fuel addr g σ)
    (hu' : UsedContext fuel' addr g σ') (m m' : BMap T (ParseState T NT AK AV))
    (h : ParseState.shiftActions fuel collect addr g σ st = .ok (σ₁, .ok m))
    (h' : ParseState.shiftActions fuel' collect' addr g σ' st = .ok (σ₁', .ok m')) : m = m' := by
  obtain ⟨a1, a2, a3⟩ := lalr_shift_exact g hg addr ha collect hc st hst fuel σ σ₁ hu m h
  obtain ⟨b1, b2, b3⟩ := lalr_shift_exact g hg addr ha collect' hc' st hst fuel' σ' σ₁' hu' m' h'
  have hsame : ∀ {t st₁ st₂}, (t, st₁) ∈ m → (t, st₂) ∈ m' → st₁ = st₂ := by
    intro t st₁ st₂ h1 h2
    obtain ⟨i1, -, j1, k1⟩ := a3 _ _ h1
    obtain ⟨i2, -, j2, k2⟩ := b3 _ _ h2
    have o1 : ParseState.Obtained addr g st₁ := .shift hc hu hst h h1
    have o2 : ParseState.Obtained addr g st₂ := .shift hc' hu' hst h' h2
    refine state_ext_has (o1.ok hg.valid ha) (o2.ok hg.valid ha) fun s o => ?_
    rw [k1, k2]
    have hsm : ∀ e, e ∈ i1 ↔ e ∈ i2 := fun e => by
      obtain ⟨s, la⟩ := e
      rw [j1, j2]
    exact ⟨fun hh => lalrFact_congr (T := T) hsm hh, fun hh => lalrFact_congr (T := T) (fun e => (hsm e).symm) hh⟩
  refine ext_of_pairwise (r := fun x y => compare x.1 y.1 = .lt) ?_ ?_ a1 b1 ?_
  · intro x hx; rw [cmp_self (cmp := (compare : T → T → Ordering))] at hx; cases hx
  · intro x y h1 h2
    have := TransCmp.lt_trans (cmp := (compare : T → T → Ordering)) h1 h2
    rw [cmp_self (cmp := (compare : T → T → Ordering))] at this
    cases this
  · rintro ⟨t, s⟩
    constructor
    · intro hm
      obtain ⟨s', hm'⟩ := (b2 t).2 ((a2 t).1 ⟨s, hm⟩)
      rw [hsame hm hm']; exact hm'
    · intro hm'
      obtain ⟨s', hm⟩ := (a2 t).2 ((b2 t).1 ⟨s, hm'⟩)
      rw [← hsame hm hm']; exact hm

theorem bmap_value_unique {m : BMap T (ParseState T NT AK AV)} (h : m.Pairwise fun a b => compare a.1 b.1 = .lt)
    {t : T} {a b : ParseState T NT AK AV} (h1 : (t, a) ∈ m) (h2 : (t, b) ∈ m) : a = b := by
  induction m with
  | nil => cases h1
  | cons x m ih =>
    obtain ⟨hx, hm⟩ := List.pairwise_cons.1 h
    have hno : ∀ {a b}, (t, a) = x → (t, b) ∈ m → False := by
      rintro a b rfl hb
      have hab : compare t t = .lt := hx _ hb
      rw [cmp_self (cmp := compare)] at hab
      cases hab
    rcases List.mem_cons.1 h1 with h1 | h1 <;> rcases List.mem_cons.1 h2 with h2 | h2
    · rw [← h2] at h1; injection h1
    · exact (hno h1 h2).elim
    · exact (hno h2 h1).elim
    · exact ih hm h1 h2

theorem ShiftRun.snoc_inv {st st' : ParseState T NT AK AV} {w : List T} {t : T}
    (h : ShiftRun addr g st (w ++ [t]) st') : ∃ st₁ collect fuel passes passes' m, ShiftRun addr g st w st₁ ∧
      CollectMapSpec (ProdState.cmp addr) collect ∧ UsedContext fuel addr g passes ∧
      ParseState.shiftActions fuel collect addr g passes st₁ = .ok (passes', .ok m) ∧ (t, st') ∈ m := by
  generalize hv : w ++ [t] = v at h
  cases h with
  | nil => simp at hv
  | @snoc w' st₁ c f p p' m t' _ h1 h2 h3 h4 h5 =>
    obtain ⟨rfl, h6⟩ := List.append_inj' hv rfl
    cases h6
    exact ⟨st₁, c, f, p, p', m, h1, h2, h3, h4, h5⟩

include hg ha in
/-- C139.  So the tokens determine the state. -/
theorem lalr_run_deterministic (st : ParseState T NT AK AV) (hst : ParseState.Obtained addr g st) (w : List T)
    (st₁ st₂ : ParseState T NT AK AV) (h1 : ShiftRun addr g st w st₁) (h2 : ShiftRun addr g st w st₂) : st₁ = st₂ := by
  induction w using List.reverseRecOn generalizing st₁ st₂ with
  | nil =>
    have key : ∀ {v s}, ShiftRun addr g st v s → v = [] → s = st := by
      intro v s h hv
      cases h with
      | nil => rfl
      | snoc => simp at hv
    rw [key h1 rfl, key h2 rfl]
  | append_singleton w t ih =>
    obtain ⟨s₁, c, f, p, p', m, h3, hc, hu, h4, h5⟩ := h1.snoc_inv
    obtain ⟨s₂, c', f', q, q', m', h3', hc', hu', h4', h5'⟩ := h2.snoc_inv
    obtain rfl := ih _ _ h3 h3'
    have ho := h3.obtained hst
    obtain rfl := lalr_shift_deterministic hg ha s₁ ho c c' hc hc' f f' p p' q q' hu hu' m m' h4 h4'
    exact bmap_value_unique (lalr_shift_exact g hg addr ha c hc s₁ ho f p p' hu m h4).1 h5 h5'

/-! ## Only finitely many states -/

include hg ha in
/-- C139.  From a state only finitely many states are reached by shifting, although the inputs are unbounded. -/
theorem lalr_shift_finite (st : ParseState T NT AK AV) (hst : ParseState.Obtained addr g st) :
    {st' | ∃ w, ShiftRun addr g st w st'}.Finite := by
  classical
  let S : Set (ProdState T NT AK AV) := {s | ∃ la, (s, la) ∈ st.prods} ∪
    {s | s.prod ∈ g.prods ∧ s.index ≤ s.prod.elements.length}
  let U : Set T := {t | ∃ e ∈ st.prods, t ∈ e.2} ∪ {t | ∃ p ∈ g.prods, Elem.term t ∈ p.elements}
  have hS : S.Finite := by
    refine Set.Finite.union ?_ ?_
    · refine (List.finite_toSet (st.prods.map (·.1))).subset ?_
      rintro s ⟨la, h⟩
      exact List.mem_map.2 ⟨_, h, rfl⟩
    · refine ((List.finite_toSet g.prods).biUnion (t := fun p => (fun i => (⟨p, i⟩ : ProdState T NT AK AV)) ''
        {i | i ≤ p.elements.length}) fun p _ => (Set.finite_le_nat _).image _).subset ?_
      rintro ⟨p, i⟩ ⟨h1, h2⟩
      exact Set.mem_biUnion (show p ∈ {p | p ∈ g.prods} from h1) ⟨i, h2, rfl⟩
  have hU : U.Finite := by
    refine Set.Finite.union ?_ ?_
    · refine (List.finite_toSet (st.prods.flatMap (·.2))).subset ?_
      rintro t ⟨e, h1, h2⟩
      exact List.mem_flatMap.2 ⟨e, h1, h2⟩
    · refine (List.finite_toSet (g.prods.flatMap fun p => p.elements.filterMap Elem.asTerm)).subset ?_
      rintro t ⟨p, h1, h2⟩
      exact List.mem_flatMap.2 ⟨p, h1, List.mem_filterMap.2 ⟨_, h2, rfl⟩⟩
  let L : Set (BSet T) := {la | BSet.Sorted compare la ∧ ∀ t ∈ la, t ∈ U}
  have hL : L.Finite := by
    refine Set.Finite.of_finite_image (f := fun la : BSet T => {t | t ∈ la}) (hU.finite_subsets.subset ?_) ?_
    · rintro _ ⟨la, ⟨-, h⟩, rfl⟩
      exact h
    · rintro a ⟨h1, -⟩ b ⟨h2, -⟩ h
      exact BSet.ext h1 h2 fun t => by
        have : t ∈ {t | t ∈ a} ↔ t ∈ {t | t ∈ b} := by
          have h' : {t | t ∈ a} = {t | t ∈ b} := h
          rw [h']
        exact this
  have hinv : ∀ w st', ShiftRun addr g st w st' → ∀ e ∈ st'.prods, e.1 ∈ S ∧ e.2 ∈ L := by
    intro w st' h
    have hok := fun w st' (h : ShiftRun addr g st w st') => (h.obtained hst).ok hg.valid ha
    induction h with
    | nil =>
      intro e he
      exact ⟨Or.inl ⟨e.2, he⟩, (hst.ok hg.valid ha).wf.sets _ he, fun t ht => Or.inl ⟨e, he, ht⟩⟩
    | @snoc w s₁ c f p p' m t s₂ h1 hc hu h2 hm ih =>
      obtain ⟨items, k1, k2, k3⟩ := (lalr_shift_exact g hg addr ha c hc s₁ (h1.obtained hst) f p p' hu m h2).2.2 t s₂ hm
      rintro ⟨s, la⟩ he
      have hok₂ := hok _ _ (.snoc h1 hc hu h2 hm)
      have hm' := (state_mem hok₂).1 he
      refine ⟨Or.inr ?_, hm'.1, fun t' ht' => ?_⟩
      · refine LalrFact.sound (P := fun s => s.prod ∈ g.prods ∧ s.index ≤ s.prod.elements.length) ?_ ?_
          ((k3 _ _).1 hm'.2.1)
        · intro s la hs
          obtain ⟨s₀, -, j2, rfl⟩ := (k2 _ _).1 hs
          refine ⟨k1.prods _ hs, ?_⟩
          exact (List.getElem?_eq_some_iff.1 j2).1
        · intro s B q _ _ hq _
          exact ⟨hq, Nat.zero_le _⟩
      · rcases (LalrFact.terminal hg.valid.toWF k1.prods ((k3 _ _).1 ((hm'.2.2 t').1 ht'))).2 t' rfl with
          ⟨⟨s', la'⟩, j1, j2⟩ | h
        · obtain ⟨s₀, j3, -, -⟩ := (k2 _ _).1 j1
          exact (ih _ j3).2.2 _ j2
        · exact Or.inr h
  refine Set.Finite.of_finite_image (f := fun st' : ParseState T NT AK AV => {e | e ∈ st'.prods})
    ((hS.prod hL).finite_subsets.subset ?_) ?_
  · rintro _ ⟨st', ⟨w, h⟩, rfl⟩
    intro e he
    exact hinv w st' h e he
  · rintro a ⟨w, h1⟩ b ⟨w', h2⟩ h
    have h' : {e | e ∈ a.prods} = {e | e ∈ b.prods} := h
    refine state_ext ((h1.obtained hst).ok hg.valid ha) ((h2.obtained hst).ok hg.valid ha) fun e => ?_
    have : e ∈ {e | e ∈ a.prods} ↔ e ∈ {e | e ∈ b.prods} := by rw [h']
    exact this

/-! ## What the items of the states mean -/

variable (items : List (ProdState T NT AK AV × BSet T)) (hk : Kernel g items)
  (collect : List (ProdState T NT AK AV × BSet T) → BMap (ProdState T NT AK AV) (BSet T))
  (hc : CollectMapSpec (ProdState.cmp addr) collect)
  (fuel : Nat) (passes passes' : ParseState.Ctx T NT AK) (hu : UsedContext fuel addr g passes)
  (st : ParseState T NT AK AV)
  (hst : ParseState.fromProdLookahead fuel collect addr g passes items = .ok (passes', .ok st))
  (w : List T) (st' : ParseState T NT AK AV) (hrun : ShiftRun addr g st w st')

include hg ha hk hc hu hst hrun in
/-- C139.  An item of a state reached by reading `w` is a textbook item. -/
theorem lalr_shift_sound (p : Prod T NT AK AV) (i : Nat) (h : st'.Has ⟨p, i⟩ none) : ShiftItem g items w p i := by
  have ho : ParseState.Obtained addr g st := .new hc hu hk hst
  suffices ∀ s : ProdState T NT AK AV, st'.Has s none → ShiftItem g items w s.prod s.index from this _ h
  clear h
  induction hrun with
  | nil =>
    intro s hs
    rw [(lalr_state_exact g hg addr ha collect hc items hk fuel passes passes' hu st hst).1] at hs
    exact LalrFact.sound (P := fun s => ShiftItem g items [] s.prod s.index) (fun s la h => .kernel h)
      (fun s B q h hB hq hh => .expand h hB hq hh) hs
  | @snoc w s₁ c f p p' m t s₂ h1 hc' hu' h2 hm ih =>
    obtain ⟨K, k1, k2, k3⟩ := (lalr_shift_exact g hg addr ha c hc' s₁ (h1.obtained ho) f p p' hu' m h2).2.2 t s₂ hm
    intro s hs
    rw [k3] at hs
    refine LalrFact.sound (P := fun s => ShiftItem g items (w ++ [t]) s.prod s.index) ?_
      (fun s B q h hB hq hh => .expand h hB hq hh) hs
    intro s la hs
    obtain ⟨s₀, j1, j2, rfl⟩ := (k2 _ _).1 hs
    exact .shift (ih _ ⟨la, j1, by simp⟩) j2

include hg ha hk hc hu hst hrun in
/-- C139.  Begin at productions of the start symbol: then every token `shift_actions` lists after `w` continues `w`. -/
theorem lalr_shift_viable (hs : StartKernel g items)
    (collect' : List (ProdState T NT AK AV × BSet T) → BMap (ProdState T NT AK AV) (BSet T))
    (hc' : CollectMapSpec (ProdState.cmp addr) collect') (fuel' : Nat) (σ σ' : ParseState.Ctx T NT AK)
    (hu' : UsedContext fuel' addr g σ) (m : BMap T (ParseState T NT AK AV))
    (h : ParseState.shiftActions fuel' collect' addr g σ st' = .ok (σ', .ok m)) (t : T) (st'' : ParseState T NT AK AV)
    (hm : (t, st'') ∈ m) : g.Viable (w ++ [t]) := by
  have ho : ParseState.Obtained addr g st := .new hc hu hk hst
  obtain ⟨⟨p, i⟩, h1, h2⟩ := ((lalr_shift_exact g hg addr ha collect' hc' st' (hrun.obtained ho) fuel' σ σ' hu' m h).2.1
    t).1 ⟨st'', hm⟩
  have h3 := lalr_shift_sound hg ha items hk collect hc fuel passes passes' hu st hst w st' hrun p i h1
  obtain ⟨w₁, α, δ, rfl, h4, h5⟩ := h3.handle hg.valid.toWF hk.prods hs
  have h6 := Cfg.derives_prod ((Grammar.cfg_prod_iff hg.valid.toWF).2 ⟨p, h3.mem hk.prods, rfl, rfl⟩)
  refine ⟨p.elements.drop (i + 1) ++ δ, h5.trans ?_⟩
  have h7 : p.elements = α.map .term ++ .term t :: p.elements.drop (i + 1) := by
    conv => lhs; rw [← List.take_append_drop i p.elements, h4, drop_of_getElem? h2]
  rw [h7] at h6
  have := ((Cfg.Derives.refl (G := g.cfg) (w₁.map .term)).append h6).append (.refl δ)
  simpa using this

include hg ha hk hc hu hst hrun in
/-- C139.  Every action `reducable_actions` lists after `w` is that of a production whose elements, all of them
terminals, are the end of `w`, and whose nonterminal can follow what is before them. -/
theorem lalr_reduce_sound (hs : StartKernel g items) (k : AK) (h : k ∈ st'.reducableActions) :
    ∃ p ∈ g.prods, p.inner.actionKey = k ∧ ∃ w₁ α δ, w = w₁ ++ α ∧ p.elements = α.map .term ∧
      g.cfg.Derives [.nonterm g.startSymbol] (w₁.map .term ++ .nonterm p.head :: δ) := by
  obtain ⟨⟨p, i⟩, h1, h2, h3⟩ := (lalr_reducable_mem st' k).1 h
  have h4 := lalr_shift_sound hg ha items hk collect hc fuel passes passes' hu st hst w st' hrun p i h1
  obtain ⟨w₁, α, δ, h5, h6, h7⟩ := h4.handle hg.valid.toWF hk.prods hs
  refine ⟨p, h4.mem hk.prods, h3, w₁, α, δ, h5, ?_, h7⟩
  have h2 : i = p.elements.length := h2
  rw [h2, List.take_length] at h6
  exact h6

theorem LalrFact.expand_has {K : List (ProdState T NT AK AV × BSet T)} (hne : ∀ e ∈ K, e.2 ≠ [])
    (hfol : ∀ p ∈ g.prods, ∀ i B C, p.elements[i]? = some (.nonterm B) → p.elements[i + 1]? = some (.nonterm C) →
      ∃ t, g.cfg.First [.nonterm C] t) {s : ProdState T NT AK AV} {B : NT} {q : Prod T NT AK AV}
    (hs : LalrFact g K s none) (hp : s.prod ∈ g.prods) (hB : s.prod.elements[s.index]? = some (.nonterm B))
    (hq : q ∈ g.prods) (hqB : q.head = B) (hcol : ∀ e ∈ K, e.1.prod = q → e.1.index = 0) :
    LalrFact g K ⟨q, 0⟩ none := by
  have hki : KernelItem K q ⟨q, 0⟩ := by
    by_cases hex : ∃ e ∈ K, e.1.prod = q
    · obtain ⟨⟨⟨p, i⟩, la⟩, he, rfl⟩ := hex
      have : i = 0 := hcol _ he rfl
      subst this
      exact Or.inl ⟨⟨la, he⟩, rfl⟩
    · exact Or.inr ⟨rfl, fun e he hp => hex ⟨e, he, hp⟩⟩
  obtain ⟨t, ht⟩ := hs.has hne
  cases hn : s.prod.elements[s.index + 1]? with
  | none => exact (LalrFact.last ht hB hn hq hqB hki).present
  | some e =>
    cases e with
    | term x => exact (LalrFact.term hs hB hn hq hqB hki).present
    | nonterm C =>
      obtain ⟨b, hb⟩ := hfol _ hp _ B C hB hn
      exact (LalrFact.first hs hB hn hb hq hqB hki).present

include hg ha hk hc hu hst hrun in
/-- C139.  If no production can have been read up to two positions, and the lookaheads the code uses are never empty,
the items of the state are exactly the textbook items.  (Without the first condition items are missing:
`lalr_collision`; without the second: `lalr_no_lookahead`.) -/
theorem lalr_shift_items (hcl : NoShiftClash g items w) (hne : ∀ e ∈ items, e.2 ≠ [])
    (hfol : ∀ p ∈ g.prods, ∀ i B C, p.elements[i]? = some (.nonterm B) → p.elements[i + 1]? = some (.nonterm C) →
      ∃ t, g.cfg.First [.nonterm C] t) (p : Prod T NT AK AV) (i : Nat) :
    st'.Has ⟨p, i⟩ none ↔ ShiftItem g items w p i := by
  refine ⟨lalr_shift_sound hg ha items hk collect hc fuel passes passes' hu st hst w st' hrun p i, ?_⟩
  have ho : ParseState.Obtained addr g st := .new hc hu hk hst
  suffices (∀ p i, ShiftItem g items w p i → st'.Has ⟨p, i⟩ none) ∧ ∀ e ∈ st'.prods, e.2 ≠ [] from this.1 p i
  have hnonempty : ∀ {K : List (ProdState T NT AK AV × BSet T)} {s' : ParseState T NT AK AV}, (∀ e ∈ K, e.2 ≠ []) →
      ParseState.Obtained addr g s' → (∀ s o, s'.Has s o ↔ LalrFact g K s o) → ∀ e ∈ s'.prods, e.2 ≠ [] := by
    rintro K s' hK hO hx ⟨s, la⟩ he h0
    have hm := (state_mem (hO.ok hg.valid ha)).1 he
    obtain ⟨t, ht⟩ := ((hx _ _).1 hm.2.1).has hK
    have := (hm.2.2 t).2 ((hx _ _).2 ht)
    rw [show la = [] from h0] at this
    cases this
  clear p i
  induction hrun with
  | nil =>
    have hx := (lalr_state_exact g hg addr ha collect hc items hk fuel passes passes' hu st hst).1
    refine ⟨?_, hnonempty hne ho hx⟩
    intro p i h
    rw [hx]
    generalize hv : ([] : List T) = v at h
    induction h with
    | kernel h => exact .item h
    | shift => simp at hv
    | @expand v p i B q h hB hq hh ih =>
      refine LalrFact.expand_has hne hfol (ih hv) (h.mem hk.prods) hB hq hh ?_
      rintro ⟨⟨q', j⟩, la⟩ he rfl
      subst hv
      exact hcl [] [] rfl q' j 0 (.kernel he) (.expand h hB hq hh)
  | @snoc w s₁ c f σ σ' m t s₂ h1 hc' hu' h2 hm ih =>
    obtain ⟨ih, ihne⟩ := ih fun u v hv => hcl u (v ++ [t]) (by rw [hv]; simp)
    obtain ⟨K, k1, k2, k3⟩ := (lalr_shift_exact g hg addr ha c hc' s₁ (h1.obtained ho) f σ σ' hu' m h2).2.2 t s₂ hm
    have hKne : ∀ e ∈ K, e.2 ≠ [] := by
      rintro ⟨s, la⟩ he
      obtain ⟨s₀, j1, -, -⟩ := (k2 _ _).1 he
      exact ihne (s₀, la) j1
    refine ⟨?_, hnonempty hKne (.shift hc' hu' (h1.obtained ho) h2 hm) k3⟩
    intro p i h
    rw [k3]
    generalize hv : w ++ [t] = v at h
    induction h with
    | kernel => simp at hv
    | @shift v p i t' h he _ =>
      obtain ⟨rfl, h6⟩ := List.append_inj' hv rfl
      cases h6
      obtain ⟨la, h7, -⟩ := ih p i h
      exact .item ((k2 ⟨p, i + 1⟩ la).2 ⟨⟨p, i⟩, h7, he, rfl⟩)
    | @expand v p i B q h hB hq hh ih' =>
      refine LalrFact.expand_has hKne hfol (ih' hv) (h.mem hk.prods) hB hq hh ?_
      rintro ⟨⟨q', j⟩, la⟩ he rfl
      obtain ⟨⟨p₀, i₀⟩, j1, j2, j3⟩ := (k2 _ _).1 he
      cases j3
      subst hv
      have hsn := lalr_shift_sound hg ha items hk collect hc fuel passes passes' hu st hst w s₁ h1 _ _ ⟨la, j1, by simp⟩
      exact hcl (w ++ [t]) [] (by simp) _ (i₀ + 1) 0 (.shift hsn j2) (.expand h hB hq hh)

include hg ha hk hc hu hst hrun in
/-- C139.  Under the same conditions the tokens that `shift_actions` lists, and the actions `reducable_actions` lists,
are exactly those of the textbook items. -/
theorem lalr_shift_offers (hcl : NoShiftClash g items w) (hne : ∀ e ∈ items, e.2 ≠ [])
    (hfol : ∀ p ∈ g.prods, ∀ i B C, p.elements[i]? = some (.nonterm B) → p.elements[i + 1]? = some (.nonterm C) →
      ∃ t, g.cfg.First [.nonterm C] t) :
    (∀ collect', CollectMapSpec (ProdState.cmp addr) collect' → ∀ fuel' σ σ' m, UsedContext fuel' addr g σ →
      ParseState.shiftActions fuel' collect' addr g σ st' = .ok (σ', .ok m) →
      ∀ t, (∃ st'', (t, st'') ∈ m) ↔ ∃ p i, ShiftItem g items w p i ∧ p.elements[i]? = some (.term t)) ∧
    ∀ k, k ∈ st'.reducableActions ↔
      ∃ p, ShiftItem g items w p p.elements.length ∧ p.inner.actionKey = k := by
  have ho : ParseState.Obtained addr g st := .new hc hu hk hst
  have hit := lalr_shift_items hg ha items hk collect hc fuel passes passes' hu st hst w st' hrun hcl hne hfol
  constructor
  · intro collect' hc' fuel' σ σ' m hu' h t
    rw [(lalr_shift_exact g hg addr ha collect' hc' st' (hrun.obtained ho) fuel' σ σ' hu' m h).2.1]
    constructor
    · rintro ⟨⟨p, i⟩, h1, h2⟩
      exact ⟨p, i, (hit p i).1 h1, h2⟩
    · rintro ⟨p, i, h1, h2⟩
      exact ⟨⟨p, i⟩, (hit p i).2 h1, h2⟩
  · intro k
    rw [lalr_reducable_mem]
    constructor
    · rintro ⟨⟨p, i⟩, h1, h2, h3⟩
      refine ⟨p, ?_, h3⟩
      have h2 : i = p.elements.length := h2
      rw [← h2]; exact (hit p i).1 h1
    · rintro ⟨p, h1, h2⟩
      exact ⟨⟨p, _⟩, (hit p _).2 h1, rfl, h2⟩
end

/-! ## Witnesses -/

/-- Reading `b` in the start state of `S → A A`, `A → a A | b`. -/
theorem lalrState_run : ShiftRun exampleAddr lalrExample lalrState [101] lalrStateB := by
  obtain ⟨p, h⟩ := lalrState_shifts
  exact .snoc .nil exampleCollect_spec lalrPasses_used h (by simp)

/-- The hypotheses of `lalr_shift_sound`, `lalr_shift_viable` and `lalr_reduce_sound` are met by reading `a`. -/
example : StartKernel lalrExample lalrKernel ∧ ShiftRun exampleAddr lalrExample lalrState [100] lalrStateA ∧
    lalrStateA.Has ⟨lalrA₁, 1⟩ none := by
  obtain ⟨p, h⟩ := lalrState_shifts
  exact ⟨by unfold StartKernel; decide, .snoc .nil exampleCollect_spec lalrPasses_used h (by simp),
    [100, 101], by decide, by simp⟩

theorem lalrExample_shiftItem {w : List Nat} {p : Prod Nat Nat Nat Unit} {i : Nat}
    (h : ShiftItem lalrExample lalrKernel w p i) :
    p ∈ lalrExample.prods ∧ (w = [] → i = 0) ∧ (w = [101] → p = lalrA₂ ∧ i = 1) := by
  have hps : lalrExample.prods = [lalrS, lalrA₁, lalrA₂] := by rfl
  induction h with
  | kernel h =>
    simp only [lalrKernel, List.mem_singleton, _root_.Prod.mk.injEq] at h
    obtain ⟨rfl, -⟩ := h
    exact ⟨by decide, by simp, by simp⟩
  | @shift w p i t h he ih =>
    refine ⟨ih.1, by simp, ?_⟩
    intro hw
    obtain ⟨hw', ht⟩ := List.append_inj' (show w ++ [t] = [] ++ [101] from hw) rfl
    cases ht
    obtain rfl := ih.2.1 hw'
    have hp := ih.1
    rw [hps] at hp
    simp only [List.mem_cons, List.not_mem_nil, or_false] at hp
    rcases hp with rfl | rfl | rfl
    · cases he
    · cases he
    · exact ⟨rfl, rfl⟩
  | @expand w p i B q h he hq hh ih =>
    refine ⟨hq, fun _ => rfl, ?_⟩
    intro hw
    obtain ⟨rfl, rfl⟩ := ih.2.2 hw
    cases he

/-- The hypotheses of `lalr_shift_items` and `lalr_shift_offers` are met by reading `b`: exactly `A → b •`. -/
example : NoShiftClash lalrExample lalrKernel [101] ∧ (∀ e ∈ lalrKernel, e.2 ≠ []) ∧
    (∀ p ∈ lalrExample.prods, ∀ i B C, p.elements[i]? = some (.nonterm B) →
      p.elements[i + 1]? = some (.nonterm C) → ∃ t, lalrExample.cfg.First [.nonterm C] t) ∧
    ∀ p i, lalrStateB.Has ⟨p, i⟩ none ↔ ShiftItem lalrExample lalrKernel [101] p i := by
  have h1 : NoShiftClash lalrExample lalrKernel [101] := by
    intro u v hv p i j hi hj
    obtain ⟨-, hi0, hi1⟩ := lalrExample_shiftItem hi
    obtain ⟨-, hj0, hj1⟩ := lalrExample_shiftItem hj
    cases u with
    | nil => rw [hi0 rfl, hj0 rfl]
    | cons x u =>
      obtain ⟨rfl, hv'⟩ := List.cons.inj hv
      obtain ⟨rfl, rfl⟩ := List.append_eq_nil_iff.1 hv'.symm
      rw [(hi1 rfl).2, (hj1 rfl).2]
  have h2 : ∀ p ∈ lalrExample.prods, ∀ i B C, p.elements[i]? = some (.nonterm B) →
      p.elements[i + 1]? = some (.nonterm C) → ∃ t, lalrExample.cfg.First [.nonterm C] t := by
    intro p hp i B C _ hC
    have hps : lalrExample.prods = [lalrS, lalrA₁, lalrA₂] := by rfl
    rw [hps] at hp
    simp only [List.mem_cons, List.not_mem_nil, or_false] at hp
    have hmem := List.mem_of_getElem? hC
    have hC : C = 1 := by
      rcases hp with hp | hp | hp <;> rw [hp] at hmem <;>
        simp [Prod.elements, ProdInner.elems, lalrS, lalrA₁, lalrA₂] at hmem <;> exact hmem
    subst hC
    exact ⟨101, [], Cfg.derives_prod ⟨_, _, List.mem_cons_of_mem _ List.mem_cons_self,
      List.mem_cons_of_mem _ List.mem_cons_self, rfl⟩⟩
  exact ⟨h1, by decide, h2, fun p i => lalr_shift_items lalrExample_accepted (exampleAddr_addrInj _) lalrKernel
    lalrKernel_kernel exampleCollect exampleCollect_spec 20 .new lalrPasses ⟨[], rfl⟩ lalrState lalrState_built
    [101] lalrStateB lalrState_run h1 (by decide) h2 p i⟩

/-- Here `NoShiftClash` fails, and the state after `a` lacks the item `A → • a A`. -/
example : ¬ NoShiftClash lalrExample lalrKernel [100] ∧
    ShiftItem lalrExample lalrKernel [100] lalrA₁ 0 ∧ ¬ lalrStateA.Has ⟨lalrA₁, 0⟩ none := by
  have h1 : ShiftItem lalrExample lalrKernel [100] lalrA₁ 1 :=
    .shift (w := []) (.expand (p := lalrS) (.kernel (s := ⟨lalrS, 0⟩) List.mem_cons_self) rfl (by decide) rfl) rfl
  have h2 : ShiftItem lalrExample lalrKernel [100] lalrA₁ 0 := .expand h1 rfl (by decide) rfl
  exact ⟨fun h => absurd (h [100] [] rfl _ _ _ h1 h2) (by decide), h2, lalr_collision.2.2.2.2.2.1⟩
end Bongo
