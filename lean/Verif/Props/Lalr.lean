import Verif.Proof.LalrState
import Verif.Props.Firsts
import Verif.Props.Utils
import Mathlib.Data.List.Nodup
/-!
# C11 (`shuffle_iter`), C51, C52, C63: LALR item sets
-/
set_option linter.unusedSectionVars false
namespace Bongo
open Std

/-- C11.  `shuffle_iter` maps each key to exactly the values paired with it; keys and values come
in increasing order and no group is empty. -/
theorem shuffleIter_exact {K : Type u} {V : Type v} [Ord K] [TransOrd K] [LawfulEqOrd K]
    [Ord V] [TransOrd V] [LawfulEqOrd V] (l : List (K × V)) :
    (shuffleIter compare compare l).Pairwise (fun a b => compare a.1 b.1 = .lt) ∧
    (∀ k, k ∈ (shuffleIter compare compare l).map (·.1) ↔ ∃ v, (k, v) ∈ l) ∧
    (∀ k s, (k, s) ∈ shuffleIter compare compare l →
      s ≠ [] ∧ s.Pairwise (fun a b => compare a b = .lt) ∧ ∀ v, v ∈ s ↔ (k, v) ∈ l) := by
  rw [shuffleIter_eq]
  exact mergeValuePairs_exact l

example : shuffleIter compare compare [(2, 9), (1, 7), (2, 3), (2, 9)] =
    [(1, [7]), (2, [3, 9])] := by decide

section
variable {T NT AK AV : Type} [Ord T] [TransOrd T] [LawfulEqOrd T]
  [Ord NT] [TransOrd NT] [LawfulEqOrd NT]
variable (g : Grammar T NT AK AV) (hg : g.Accepted) (addr : NT → Nat → Nat) (ha : AddrInj g addr)
  (collect : List (ProdState T NT AK AV × BSet T) → BMap (ProdState T NT AK AV) (BSet T))
  (hc : CollectMapSpec (ProdState.cmp addr) collect)

/-! ## C51 the closure -/

include hg ha hc in
/-- C51.  The exact content of every state `from_prod_lookahead` returns, on whatever context: its
items and lookaheads are those of `LalrFact`; there is one item per production, and lookaheads are
sets. -/
theorem lalr_state_exact (items : List (ProdState T NT AK AV × BSet T)) (hk : Kernel g items)
    (fuel : Nat) (passes passes' : ParseState.Ctx T NT AK) (hu : UsedContext fuel addr g passes)
    (st : ParseState T NT AK AV)
    (h : ParseState.fromProdLookahead fuel collect addr g passes items = .ok (passes', .ok st)) :
    (∀ s o, st.Has s o ↔ LalrFact g items s o) ∧
    st.prods.Pairwise (fun a b => a.1.prod ≠ b.1.prod) ∧
    ∀ e ∈ st.prods, BSet.Sorted compare e.2 := by
  obtain ⟨-, h1, h2⟩ := fromProdLookahead_spec hg.valid ha hc hk hu h
  refine ⟨h2, ?_, h1.sets⟩
  have hok := stateOk_of_fact hk h1 h2
  refine List.Pairwise.imp_of_mem ?_ h1.sorted
  intro a b ha1 hb1 hlt he
  rw [(kernel_cmp hg.valid.toWF ha (hok.prods a ha1) (hok.prods b hb1)).2 he] at hlt
  cases hlt

include hg ha hc in
/-- C51, partial.  If the state has an item with the nonterminal `B` after the dot, then it has
every production of `B` at position 0, with every lookahead determined by the element after `B`,
unless the kernel has that production at another position (then it is missing: `lalr_collision`)
or there are no such lookaheads (`lalr_no_lookahead`). -/
theorem lalr_closure_present_partial (items : List (ProdState T NT AK AV × BSet T))
    (hk : Kernel g items) (fuel : Nat) (passes passes' : ParseState.Ctx T NT AK)
    (hu : UsedContext fuel addr g passes) (st : ParseState T NT AK AV)
    (h : ParseState.fromProdLookahead fuel collect addr g passes items = .ok (passes', .ok st))
    (s : ProdState T NT AK AV) (B : NT) (q : Prod T NT AK AV) (t : T)
    (hs : st.Has s none) (hB : s.prod.elements[s.index]? = some (.nonterm B))
    (hq : q ∈ g.prods) (hqB : q.head = B)
    (hcol : ∀ e ∈ items, e.1.prod = q → e.1.index = 0)
    (ht : s.prod.elements[s.index + 1]? = some (.term t) ∨
      (∃ C, s.prod.elements[s.index + 1]? = some (.nonterm C) ∧ g.cfg.First [.nonterm C] t) ∨
      (s.prod.elements[s.index + 1]? = none ∧ st.Has s (some t))) :
    st.Has ⟨q, 0⟩ (some t) := by
  obtain ⟨hx, -, -⟩ := lalr_state_exact g hg addr ha collect hc items hk fuel passes passes' hu st h
  have hki : KernelItem items q ⟨q, 0⟩ := by
    by_cases hex : ∃ e ∈ items, e.1.prod = q
    · obtain ⟨⟨⟨p, i⟩, la⟩, he, rfl⟩ := hex
      have : i = 0 := hcol _ he rfl
      subst this
      exact Or.inl ⟨⟨la, he⟩, rfl⟩
    · exact Or.inr ⟨rfl, fun e he hp => hex ⟨e, he, hp⟩⟩
  rw [hx] at hs ⊢
  rcases ht with ht | ⟨C, ht, hf⟩ | ⟨ht, hf⟩
  · exact .term hs hB ht hq hqB hki
  · exact .first hs hB ht hf hq hqB hki
  · exact .last ((hx _ _).1 hf) hB ht hq hqB hki

theorem first_cons_nonterm {G : Cfg T NT} {C : NT} {rest : List (Elem T NT)} {b : T}
    (hC : ¬ G.Generates C []) (h : G.First (.nonterm C :: rest) b) : G.First [.nonterm C] b := by
  obtain ⟨γ, h⟩ := h
  obtain ⟨c₁, c₂, h1, h2, -⟩ := h.cons_split
  cases c₁ with
  | nil => exact absurd h2 hC
  | cons x c₁ =>
    simp only [List.cons_append, List.cons.injEq] at h1
    exact ⟨c₁, by rw [h1.1]; exact h2⟩

theorem first_append {G : Cfg T NT} {α β : List (Elem T NT)} {b : T} (h : G.First α b) :
    G.First (α ++ β) b := by
  obtain ⟨γ, h⟩ := h
  exact ⟨γ ++ β, by simpa using Cfg.Derives.append h (Cfg.Derives.refl β)⟩

theorem drop_of_getElem? {α : Type} {l : List α} {i : Nat} {x : α} (h : l[i]? = some x) :
    l.drop i = x :: l.drop (i + 1) := by
  obtain ⟨h1, rfl⟩ := List.getElem?_eq_some_iff.1 h
  exact List.drop_eq_getElem_cons h1

theorem drop_of_getElem?_none {α : Type} {l : List α} {i : Nat} (h : l[i]? = none) :
    l.drop i = [] := by
  rw [List.drop_eq_nil_iff]
  exact List.getElem?_eq_none_iff.1 h

/-- The items of a kernel with their lookaheads, as a relation. -/
def KernelHas (items : List (ProdState T NT AK AV × BSet T)) (s : ProdState T NT AK AV) (t : T) :
    Prop := ∃ la, (s, la) ∈ items ∧ t ∈ la

/-- No production of the kernel's items at nonzero positions is expanded by the closure. -/
def CollisionFree (g : Grammar T NT AK AV) (items : List (ProdState T NT AK AV × BSet T)) : Prop :=
  ∀ e ∈ items, ∀ t, Lr1Closure g (KernelHas items) ⟨e.1.prod, 0⟩ t → e.1.index = 0

theorem CollisionFree.item {items : List (ProdState T NT AK AV × BSet T)}
    (hcf : CollisionFree g items) {q : Prod T NT AK AV} {t : T}
    (h : Lr1Closure g (KernelHas items) ⟨q, 0⟩ t) (s : ProdState T NT AK AV) :
    KernelItem items q s ↔ s = ⟨q, 0⟩ := by
  constructor
  · rintro (⟨⟨la, h1⟩, rfl⟩ | ⟨rfl, -⟩)
    · have : s.index = 0 := hcf _ h1 t h
      obtain ⟨p, i⟩ := s
      simp only at this ⊢
      rw [this]
    · rfl
  · rintro rfl
    by_cases hex : ∃ e ∈ items, e.1.prod = q
    · obtain ⟨⟨⟨p, i⟩, la⟩, he, rfl⟩ := hex
      have : i = 0 := hcf _ he t h
      subst this
      exact Or.inl ⟨⟨la, he⟩, rfl⟩
    · exact Or.inr ⟨rfl, fun e he hp => hex ⟨e, he, hp⟩⟩

theorem lalrFact_textbook {items : List (ProdState T NT AK AV × BSet T)}
    (hcf : CollisionFree g items) (hne : ∀ e ∈ items, e.2 ≠ [])
    {s : ProdState T NT AK AV} {o : Option T} (h : LalrFact g items s o) :
    match o with
    | some t => Lr1Closure g (KernelHas items) s t
    | none => ∃ t, Lr1Closure g (KernelHas items) s t := by
  induction h with
  | @item s la h =>
    obtain ⟨t, ht⟩ := List.exists_mem_of_ne_nil _ (hne _ h)
    exact ⟨t, .kernel ⟨la, h, ht⟩⟩
  | lookahead h ht => exact .kernel ⟨_, h, ht⟩
  | present _ ih => exact ⟨_, ih⟩
  | term _ hB hn hq hqB hki ih =>
    obtain ⟨a, ih⟩ := ih
    have h1 := Lr1Closure.expand (b := _) ih hB hq hqB
      (Or.inl (by rw [drop_of_getElem? hn]; exact ⟨_, Cfg.Derives.refl _⟩))
    obtain rfl := (hcf.item g h1 _).1 hki
    exact h1
  | first _ hB hn hf hq hqB hki ih =>
    obtain ⟨a, ih⟩ := ih
    have h1 := Lr1Closure.expand (b := _) ih hB hq hqB
      (Or.inl (by rw [drop_of_getElem? hn]; exact first_append (α := [_]) hf))
    obtain rfl := (hcf.item g h1 _).1 hki
    exact h1
  | last _ hB hn hq hqB hki ih =>
    have h1 := Lr1Closure.expand (b := _) ih hB hq hqB
      (Or.inr ⟨by rw [drop_of_getElem?_none hn]; exact Cfg.Derives.refl _, rfl⟩)
    obtain rfl := (hcf.item g h1 _).1 hki
    exact h1

theorem lalrFact_of_textbook {items : List (ProdState T NT AK AV × BSet T)} (hk : Kernel g items)
    (hcf : CollisionFree g items)
    (hnull : ∀ p ∈ g.prods, ∀ i B C, p.elements[i]? = some (.nonterm B) →
      p.elements[i + 1]? = some (.nonterm C) → ¬ g.cfg.Generates C [])
    {s : ProdState T NT AK AV} {t : T} (h : Lr1Closure g (KernelHas items) s t) :
    LalrFact g items s (some t) ∧ s.prod ∈ g.prods := by
  induction h with
  | kernel h =>
    obtain ⟨la, h1, h2⟩ := h
    exact ⟨.lookahead h1 h2, hk.prods _ h1⟩
  | @expand s a B q b hcl hB hq hqB hf ih =>
    obtain ⟨ih, hp⟩ := ih
    refine ⟨?_, hq⟩
    have hki : KernelItem items q (ProdState.fromStart q) :=
      (hcf.item g (Lr1Closure.expand hcl hB hq hqB hf) _).2 rfl
    cases hn : s.prod.elements[s.index + 1]? with
    | none =>
      rw [drop_of_getElem?_none hn] at hf
      rcases hf with ⟨γ, hf⟩ | ⟨-, rfl⟩
      · cases Cfg.derives_nil hf
      · exact .last ih hB hn hq hqB hki
    | some e =>
      rw [drop_of_getElem? hn] at hf
      cases e with
      | term x =>
        have hx : x = b := by
          rcases hf with ⟨γ, hf⟩ | ⟨hf, -⟩
          · obtain ⟨c₁, c₂, h1, h2, -⟩ := hf.cons_split
            rw [Cfg.derives_term h2] at h1
            simp only [List.cons_append, List.cons.injEq, Elem.term.injEq] at h1
            exact h1.1.symm
          · obtain ⟨c₁, c₂, h1, h2, -⟩ := hf.cons_split
            rw [Cfg.derives_term h2] at h1
            simp at h1
        subst hx
        exact .term ih.present hB hn hq hqB hki
      | nonterm C =>
        have hC := hnull _ hp _ B C hB hn
        rcases hf with hf | ⟨hf, -⟩
        · exact .first ih.present hB hn (first_cons_nonterm hC hf) hq hqB hki
        · obtain ⟨c₁, c₂, h1, h2, -⟩ := hf.cons_split
          have : c₁ = [] := (List.append_eq_nil_iff.1 h1.symm).1
          rw [this] at h2
          exact absurd h2 hC

include hg ha hc in
/-- C51, partial: comparison with the textbook LR(1) closure.  For kernels whose items have
lookaheads and which have no item (at a nonzero position) of a production that the closure would
add at position 0, every item and lookahead of the state is in the textbook closure; and if no
nonterminal that directly follows another one in a production is nullable, conversely.  (False
without the first condition: `lalr_collision`; the second, `lalr_no_lookahead`; the third,
`lalr_ignores_nullable`.) -/
theorem lalr_closure_textbook_partial (items : List (ProdState T NT AK AV × BSet T))
    (hk : Kernel g items) (fuel : Nat) (passes passes' : ParseState.Ctx T NT AK)
    (hu : UsedContext fuel addr g passes) (st : ParseState T NT AK AV)
    (h : ParseState.fromProdLookahead fuel collect addr g passes items = .ok (passes', .ok st))
    (hcf : CollisionFree g items) (hne : ∀ e ∈ items, e.2 ≠ []) :
    (∀ s t, st.Has s (some t) → Lr1Closure g (KernelHas items) s t) ∧
    ((∀ p ∈ g.prods, ∀ i B C, p.elements[i]? = some (.nonterm B) →
        p.elements[i + 1]? = some (.nonterm C) → ¬ g.cfg.Generates C []) →
      ∀ s t, st.Has s (some t) ↔ Lr1Closure g (KernelHas items) s t) := by
  obtain ⟨hx, -, -⟩ := lalr_state_exact g hg addr ha collect hc items hk fuel passes passes' hu st h
  have h1 : ∀ s t, st.Has s (some t) → Lr1Closure g (KernelHas items) s t := fun s t hs =>
    lalrFact_textbook g hcf hne ((hx s (some t)).1 hs)
  exact ⟨h1, fun hnull s t => ⟨h1 s t, fun h' => (hx s (some t)).2
    (lalrFact_of_textbook g hk hcf hnull h').1⟩⟩

/-- The state grown from `items` would need the FIRST set of a nonterminal `C` that has none: `C`
directly follows a nonterminal that is after the dot, and no production of `C` contains an element
other than `C` (after nullable `C`s). -/
def LalrGap (g : Grammar T NT AK AV) (items : List (ProdState T NT AK AV × BSet T)) : Prop :=
  ∃ s B C, LalrFact g items s none ∧ s.prod.elements[s.index]? = some (.nonterm B) ∧
    s.prod.elements[s.index + 1]? = some (.nonterm C) ∧
    ¬ ∃ q ∈ g.prods, q.head = C ∧ ∃ pre e post, q.elements = pre ++ e :: post ∧
      (∀ x ∈ pre, x = .nonterm C ∧ g.cfg.Generates C []) ∧ e ≠ .nonterm C

theorem lalrGap_iff {g : Grammar T NT AK AV} {addr : NT → Nat → Nat} (hw : g.WF)
    (ha : AddrInj g addr) {fuel : Nat} {f : Firsts T NT}
    (hf : firstsPass fuel addr g = .ok (.ok f)) (items : List (ProdState T NT AK AV × BSet T)) :
    LalrGap g items ↔ ∃ s, LalrFact g items s none ∧ LaGap f s := by
  have hkey := (firstsPass_ok hw ha hf).2.2
  unfold LalrGap LaGap
  constructor
  · rintro ⟨s, B, C, h1, h2, h3, h4⟩
    refine ⟨s, h1, B, C, h2, h3, ?_⟩
    rw [← hkey] at h4
    exact not_not.1 h4
  · rintro ⟨s, h1, B, C, h2, h3, h4⟩
    refine ⟨s, B, C, h1, h2, h3, ?_⟩
    rw [← hkey]
    exact not_not.2 h4

/-- Once a context has yielded the FIRST sets it yields them again. -/
theorem getPass_again {fuel : Nat} {σ σ' : ParseState.Ctx T NT AK} {p : PassId} {v}
    (hu : UsedContext fuel addr g σ)
    (h : PassContext.getPass fuel (cratePasses fuel addr g) σ p = .ok (σ', .ok v)) :
    ∃ σ'', PassContext.getPass fuel (cratePasses fuel addr g) σ' p = .ok (σ'', .ok v) := by
  obtain ⟨ps, hps⟩ := hu
  have hi := (PassContext.getPasses_spec hps PassContext.inv_new).1
  obtain ⟨-, -, -, h1, -⟩ := (PassContext.get_run_spec fuel).1 _ _ _ _ h hi
  have h2 := h1 v rfl
  cases fuel with
  | zero => simp [PassContext.getPass] at h
  | succ n =>
    rw [PassContext.getPass, h2]
    exact ⟨_, rfl⟩

/-- A context that has yielded the FIRST sets `f`. -/
def Warm (fuel : Nat) (addr : NT → Nat → Nat) (g : Grammar T NT AK AV) (f : Firsts T NT)
    (σ : ParseState.Ctx T NT AK) : Prop :=
  UsedContext fuel addr g σ ∧
    ∃ σ', PassContext.getPass fuel (cratePasses fuel addr g) σ .firsts = .ok (σ', .ok (.firsts f))

theorem fromProdLookahead_warm {g : Grammar T NT AK AV} {addr : NT → Nat → Nat} (hv : g.Valid)
    (ha : AddrInj g addr) (hc : CollectMapSpec (ProdState.cmp addr) collect)
    {items : List (ProdState T NT AK AV × BSet T)} (hk : Kernel g items) {f : Firsts T NT}
    {fuel : Nat} {σ : ParseState.Ctx T NT AK} (hw : Warm fuel addr g f σ)
    (hf : 2 * g.prods.length < fuel) :
    (LalrGap g items ∧ ParseState.fromProdLookahead fuel collect addr g σ items = .panic .noFirsts) ∨
    (¬ LalrGap g items ∧ ∃ σ' st,
      ParseState.fromProdLookahead fuel collect addr g σ items = .ok (σ', .ok st) ∧
      Warm fuel addr g f σ') := by
  obtain ⟨hu, σ', hg⟩ := hw
  obtain ⟨h1, h2⟩ := hu.firsts hg
  rw [lalrGap_iff hv.toWF ha h1]
  unfold ParseState.fromProdLookahead
  rw [hg]
  simp only
  rcases close_spec hv ha hc hk (fun A t => (firstsPass_ok hv.toWF ha h1).2.1 A t) hf with
    ⟨k1, k2⟩ | ⟨k1, st, k2, -⟩
  · exact Or.inl ⟨k1, by rw [k2]⟩
  · exact Or.inr ⟨k1, σ', st, by rw [k2], h2, getPass_again g addr hu hg⟩

include hg ha hc in
/-- C51, exact outcome on a fresh context.  The call always ends.  When the Nullable pass fails it
returns that error; otherwise it panics (the `unwrap` of a missing FIRST set) exactly when
`LalrGap`, and otherwise returns a state. -/
theorem lalr_outcome (items : List (ProdState T NT AK AV × BSet T)) (hk : Kernel g items) :
    ∃ N, ∀ fuel, N ≤ fuel →
      (∃ e, calculateNullables fuel addr g = .ok (.error e) ∧ ∃ passes',
        ParseState.fromProdLookahead fuel collect addr g .new items = .ok (passes', .error e)) ∨
      ((∃ i, calculateNullables fuel addr g = .ok (.ok i)) ∧
        ((LalrGap g items ∧
          ParseState.fromProdLookahead fuel collect addr g .new items = .panic .noFirsts) ∨
        (¬ LalrGap g items ∧ ∃ passes' st,
          ParseState.fromProdLookahead fuel collect addr g .new items = .ok (passes', .ok st)))) := by
  obtain ⟨N, hN⟩ := firsts_terminates g hg addr ha
  rcases hN N (Nat.le_refl N) with ⟨⟨f, h1⟩, i, h2⟩ | ⟨e, h1, h2⟩
  · refine ⟨max (N + 10) (2 * g.prods.length + 1), fun fuel hfu => Or.inr ?_⟩
    refine ⟨⟨i, calculateNullables_mono (by omega) h2⟩, ?_⟩
    have h3 := firstsPass_mono (show N ≤ fuel by omega) h1
    have h4 := crate_pass_firsts fuel addr g (fuel - 10)
    rw [h3, show fuel - 10 + 10 = fuel by omega] at h4
    obtain ⟨σ, h4⟩ := h4
    have hw : Warm fuel addr g f (.new) := ⟨⟨[], rfl⟩, σ, h4⟩
    rcases fromProdLookahead_warm collect hg.valid ha hc hk hw (by omega) with h | ⟨h5, σ', st, h6, -⟩
    · exact Or.inl h
    · exact Or.inr ⟨h5, σ', st, h6⟩
  · refine ⟨N + 10, fun fuel hfu => Or.inl ⟨e, calculateNullables_mono (by omega) h2, ?_⟩⟩
    have h3 := firstsPass_mono (show N ≤ fuel by omega) h1
    have h4 := crate_pass_firsts fuel addr g (fuel - 10)
    rw [h3, show fuel - 10 + 10 = fuel by omega] at h4
    obtain ⟨σ, h4⟩ := h4
    refine ⟨σ, ?_⟩
    unfold ParseState.fromProdLookahead
    rw [h4]
    rfl

/-! ## C52 shifting -/

include hg ha hc in
/-- C52.  From any state a program can obtain, `shift_actions` lists, in order, exactly the
terminals after a dot; the state listed for `t` is the closure of the items that had `t` after the
dot, advanced over it, with their lookaheads unchanged. -/
theorem lalr_shift_exact (st : ParseState T NT AK AV) (hst : ParseState.Obtained addr g st)
    (fuel : Nat) (passes passes' : ParseState.Ctx T NT AK) (hu : UsedContext fuel addr g passes)
    (m : BMap T (ParseState T NT AK AV))
    (h : ParseState.shiftActions fuel collect addr g passes st = .ok (passes', .ok m)) :
    m.Pairwise (fun a b => compare a.1 b.1 = .lt) ∧
    (∀ t, (∃ st', (t, st') ∈ m) ↔ ∃ s, st.Has s none ∧ s.prod.elements[s.index]? = some (.term t)) ∧
    ∀ t st', (t, st') ∈ m → ∃ items, Kernel g items ∧
      (∀ s la, (s, la) ∈ items ↔ ∃ s₀, (s₀, la) ∈ st.prods ∧
        s₀.prod.elements[s₀.index]? = some (.term t) ∧ s = ⟨s₀.prod, s₀.index + 1⟩) ∧
      ∀ s o, st'.Has s o ↔ LalrFact g items s o := by
  obtain ⟨-, h1, h2, h3⟩ := shiftActions_ok hg.valid ha hc (hst.ok hg.valid ha) hu h
  refine ⟨h1, h2, ?_⟩
  intro t st' hm
  obtain ⟨items, k1, k2, -, k3⟩ := h3 t st' hm
  exact ⟨items, k1, k2, k3⟩

theorem shiftEach_warm {g : Grammar T NT AK AV} {addr : NT → Nat → Nat} (hv : g.Valid)
    (ha : AddrInj g addr) (hc : CollectMapSpec (ProdState.cmp addr) collect) {f : Firsts T NT}
    {fuel : Nat} : ∀ {gs : List (T × BSet (ProdState T NT AK AV × BSet T))}
    {σ : ParseState.Ctx T NT AK}, Warm fuel addr g f σ →
    (∀ e ∈ gs, Kernel g e.2 ∧ 2 * g.prods.length < fuel) →
    ((∃ e ∈ gs, LalrGap g e.2) ∧
      ParseState.shiftEach fuel collect addr g σ gs = .panic .noFirsts) ∨
    ((¬ ∃ e ∈ gs, LalrGap g e.2) ∧ ∃ σ' l,
      ParseState.shiftEach fuel collect addr g σ gs = .ok (σ', .ok l)) := by
  intro gs
  induction gs with
  | nil => intro σ _ _; exact Or.inr ⟨by simp, σ, [], rfl⟩
  | cons x gs ih =>
    obtain ⟨t, items⟩ := x
    intro σ hw hgs
    obtain ⟨k1, k2⟩ := hgs (t, items) List.mem_cons_self
    rw [ParseState.shiftEach]
    rcases fromProdLookahead_warm collect hv ha hc k1 hw k2 with ⟨h1, h2⟩ | ⟨h1, σ', st, h2, h3⟩
    · exact Or.inl ⟨⟨_, List.mem_cons_self, h1⟩, by rw [h2]⟩
    · rw [h2]
      simp only
      rcases ih h3 (fun e he => hgs e (List.mem_cons_of_mem _ he)) with
        ⟨⟨e, he, j1⟩, j2⟩ | ⟨j1, σ'', l, j2⟩
      · exact Or.inl ⟨⟨e, List.mem_cons_of_mem _ he, j1⟩, by rw [j2]⟩
      · refine Or.inr ⟨?_, σ'', (t, st) :: l, by rw [j2]⟩
        rintro ⟨e, he, hgap⟩
        rcases List.mem_cons.1 he with rfl | he
        · exact h1 hgap
        · exact j1 ⟨e, he, hgap⟩

include hg ha hc in
/-- C52, outcome.  On a context that has yielded the FIRST sets, as that of a program that has
built the state has, `shift_actions` always ends; it panics exactly when one of the successor
states would need a missing FIRST set, and otherwise succeeds. -/
theorem lalr_shift_outcome (st : ParseState T NT AK AV) (hst : ParseState.Obtained addr g st) :
    ∀ fuel, 2 * g.prods.length < fuel → ∀ passes₀ passes v, UsedContext fuel addr g passes₀ →
      PassContext.getPass fuel (cratePasses fuel addr g) passes₀ .firsts = .ok (passes, .ok v) →
      let Gap := ∃ t items, (∃ e, e ∈ items) ∧ (∀ s la, (s, la) ∈ items ↔ ∃ s₀, (s₀, la) ∈ st.prods ∧
        s₀.prod.elements[s₀.index]? = some (.term t) ∧ s = ⟨s₀.prod, s₀.index + 1⟩) ∧ LalrGap g items
      (Gap ∧ ParseState.shiftActions fuel collect addr g passes st = .panic .noFirsts) ∨
      (¬ Gap ∧ ∃ passes' m,
        ParseState.shiftActions fuel collect addr g passes st = .ok (passes', .ok m)) := by
  have hv := hg.valid
  obtain ⟨g1, g2, g3⟩ := shiftGroups hv.toWF ha (hst.ok hv ha)
  have key : ∀ {fuel : Nat} {passes₀ passes v}, UsedContext fuel addr g passes₀ →
      PassContext.getPass fuel (cratePasses fuel addr g) passes₀ .firsts = .ok (passes, .ok v) →
      ∃ f, v = .firsts f ∧ firstsPass fuel addr g = .ok (.ok f) ∧ Warm fuel addr g f passes := by
    intro fuel passes₀ passes v hu hp
    have hev : ∃ f, v = .firsts f := by
      obtain ⟨ps, hps⟩ := hu
      have h := pass_value_meaning _ fuel ps passes₀ hps _ _ _ hp
      unfold Eval at h
      rw [cratePasses] at h
      cases h with
      | get h1 h2 =>
        rename_i r'
        cases r' with
        | error e => simp only at h2; cases h2
        | ok w =>
          cases w with
          | nullable i =>
            simp only at h2
            cases hr : Firsts.runPass fuel g (.ok i) with
            | panic w => rw [hr] at h2; cases h2
            | oof => rw [hr] at h2; cases h2
            | ok y =>
              rw [hr] at h2
              cases y with
              | error e => cases h2
              | ok f => cases h2; exact ⟨f, rfl⟩
          | firsts _ => simp only at h2; cases h2
          | follows _ => simp only at h2; cases h2
    obtain ⟨f, rfl⟩ := hev
    obtain ⟨h1, h2⟩ := hu.firsts hp
    exact ⟨f, rfl, h1, h2, getPass_again g addr hu hp⟩
  have hmain : ∀ f, ∀ fuel, 2 * g.prods.length < fuel → ∀ passes, Warm fuel addr g f passes →
      let Gap := ∃ t items, (∃ e, e ∈ items) ∧ (∀ s la, (s, la) ∈ items ↔ ∃ s₀, (s₀, la) ∈ st.prods ∧
        s₀.prod.elements[s₀.index]? = some (.term t) ∧ s = ⟨s₀.prod, s₀.index + 1⟩) ∧ LalrGap g items
      (Gap ∧ ParseState.shiftActions fuel collect addr g passes st = .panic .noFirsts) ∨
      (¬ Gap ∧ ∃ passes' m,
        ParseState.shiftActions fuel collect addr g passes st = .ok (passes', .ok m)) := by
    intro f fuel hfu passes hw
    have hgap : (∃ e ∈ shuffleIter compare (itemCmp addr) st.shiftPairs, LalrGap g e.2) ↔
        ∃ t items, (∃ e, e ∈ items) ∧ (∀ s la, (s, la) ∈ items ↔ ∃ s₀, (s₀, la) ∈ st.prods ∧
        s₀.prod.elements[s₀.index]? = some (.term t) ∧ s = ⟨s₀.prod, s₀.index + 1⟩) ∧
          LalrGap g items := by
      constructor
      · rintro ⟨⟨t, items⟩, h1, h2⟩
        refine ⟨t, items, ?_, (g3 t items h1).2, h2⟩
        obtain ⟨s, ⟨la, j1, -⟩, j2⟩ := (g2 t).1 ⟨items, h1⟩
        exact ⟨_, ((g3 t items h1).2 _ _).2 ⟨s, j1, j2, rfl⟩⟩
      · rintro ⟨t, items, ⟨⟨s, la⟩, he⟩, h1, h2⟩
        obtain ⟨s₀, j1, j2, -⟩ := (h1 s la).1 he
        obtain ⟨items', h3⟩ := (g2 t).2 ⟨s₀, ⟨la, j1, by simp⟩, j2⟩
        refine ⟨(t, items'), h3, ?_⟩
        have hsame : ∀ e, e ∈ items ↔ e ∈ items' := by
          rintro ⟨s, la⟩
          exact (h1 s la).trans ((g3 t items' h3).2 s la).symm
        obtain ⟨s, B, C, i1, i2⟩ := h2
        exact ⟨s, B, C, lalrFact_congr hsame i1, i2⟩
    simp only [← hgap]
    unfold ParseState.shiftActions
    rcases shiftEach_warm collect hv ha hc hw (fun e he => ⟨(g3 e.1 e.2 he).1, hfu⟩) with ⟨h1, h2⟩ | ⟨h1, σ', l, h2⟩
    · exact Or.inl ⟨h1, by rw [h2]⟩
    · exact Or.inr ⟨h1, σ', _, by rw [h2]⟩
  intro fuel hfu passes₀ passes v hu hp
  obtain ⟨f', rfl, -, h2⟩ := key hu hp
  exact hmain f' fuel hfu passes h2

/-- C52.  `reducable_actions` yields the action keys of exactly the items whose dot is at the end,
one per item. -/
theorem lalr_reducable_exact (st : ParseState T NT AK AV) :
    st.reducableActions = ((st.prods.map (·.1)).filter fun s =>
      s.prod.elements.length == s.index).map (·.prod.inner.actionKey) := by
  unfold ParseState.reducableActions BMap.keys
  induction st.prods.map (·.1) with
  | nil => rfl
  | cons s l ih =>
    have hc : s.isComplete = (s.prod.elements.length == s.index) := by
      unfold ProdState.isComplete Prod.numElements Prod.elements ProdInner.elems
      rw [List.length_map]
    rw [List.filterMap_cons, List.filter_cons, ih, hc]
    cases s.prod.elements.length == s.index <;> rfl

/-- C52.  In terms of membership. -/
theorem lalr_reducable_mem (st : ParseState T NT AK AV) (k : AK) :
    k ∈ st.reducableActions ↔
      ∃ s, st.Has s none ∧ s.index = s.prod.elements.length ∧ s.prod.inner.actionKey = k := by
  rw [lalr_reducable_exact]
  simp only [List.mem_map, List.mem_filter, beq_iff_eq]
  constructor
  · rintro ⟨s, ⟨⟨⟨s', la⟩, h1, rfl⟩, h2⟩, h3⟩
    exact ⟨_, ⟨la, h1, by simp⟩, h2.symm, h3⟩
  · rintro ⟨s, ⟨la, h1, -⟩, h2, h3⟩
    exact ⟨s, ⟨⟨(s, la), h1, rfl⟩, h2.symm⟩, h3⟩

/-! ## C63 equality of states -/

theorem compareLex_eq {α : Type} {cmp : α → α → Ordering} : ∀ {a b : List α},
    List.compareLex cmp a b = .eq ↔ List.Forall₂ (fun x y => cmp x y = .eq) a b
  | [], [] => by simp [List.compareLex]
  | [], _ :: _ => by simp [List.compareLex]
  | _ :: _, [] => by simp [List.compareLex]
  | x :: a, y :: b => by
    rw [List.compareLex_cons_cons, Ordering.then_eq_eq, compareLex_eq]
    simp

theorem setCmp_eq {a b : BSet T} : List.compareLex compare a b = .eq ↔ a = b := by
  rw [compareLex_eq]
  constructor
  · intro h
    induction h with
    | nil => rfl
    | cons h _ ih => rw [LawfulEqCmp.eq_of_compare h, ih]
  · rintro rfl
    induction a with
    | nil => exact .nil
    | cons x a ih => exact .cons (cmp_self x) ih

theorem ext_of_pairwise {α : Type} {r : α → α → Prop} (hirr : ∀ a, ¬ r a a)
    (hasy : ∀ a b, r a b → ¬ r b a) {l l' : List α} (h : l.Pairwise r) (h' : l'.Pairwise r)
    (hm : ∀ a, a ∈ l ↔ a ∈ l') : l = l' := by
  have hn : ∀ {l : List α}, l.Pairwise r → l.Nodup := fun h =>
    h.imp (fun {a b} hab he => by subst he; exact hirr _ hab)
  exact ((List.perm_ext_iff_of_nodup (hn h) (hn h')).2 hm).eq_of_pairwise
    (fun a b _ _ h1 h2 => absurd h2 (hasy a b h1)) h h'

include hg ha in
/-- C63, partial: the exact meaning of `==` (and of `cmp` being `Equal`) on the states of a
program: for every production the two states have the same lookaheads, or neither has it; the
positions are not compared.  (So equal states may differ: `lalr_state_eq_ignores_positions`.) -/
theorem lalr_state_eq_partial (a b : ParseState T NT AK AV) (h1 : ParseState.Obtained addr g a)
    (h2 : ParseState.Obtained addr g b) :
    ParseState.cmp addr a b = .eq ↔
      ∀ q la, (∃ i, (⟨q, i⟩, la) ∈ a.prods) ↔ ∃ i, (⟨q, i⟩, la) ∈ b.prods := by
  have ha1 := h1.ok hg.valid ha
  have hb1 := h2.ok hg.valid ha
  have hw := hg.valid.toWF
  have hiff : ParseState.cmp addr a b = .eq ↔
      a.prods.map (fun e => (e.1.prod, e.2)) = b.prods.map (fun e => (e.1.prod, e.2)) := by
    unfold ParseState.cmp
    rw [compareLex_eq]
    have hpa := ha1.prods
    have hpb := hb1.prods
    clear ha1 hb1 h1 h2
    generalize a.prods = l at hpa ⊢
    generalize b.prods = l' at hpb ⊢
    induction l generalizing l' with
    | nil => cases l' <;> simp
    | cons x l ih =>
      cases l' with
      | nil => simp
      | cons y l' =>
        have hih := ih (fun e he => hpa e (List.mem_cons_of_mem _ he)) l'
          (fun e he => hpb e (List.mem_cons_of_mem _ he))
        refine List.forall₂_cons.trans ((and_congr_right fun _ => hih).trans ?_)
        simp only [List.map_cons, List.cons.injEq, _root_.Prod.mk.injEq]
        unfold itemCmp
        rw [Ordering.then_eq_eq, setCmp_eq,
          kernel_cmp hw ha (hpa x List.mem_cons_self) (hpb y List.mem_cons_self)]
  rw [hiff]
  have hmem : ∀ (l : BMap (ProdState T NT AK AV) (BSet T)) q la,
      (q, la) ∈ l.map (fun e => (e.1.prod, e.2)) ↔ ∃ i, (⟨q, i⟩, la) ∈ l := by
    intro l q la
    simp only [List.mem_map, _root_.Prod.mk.injEq]
    constructor
    · rintro ⟨⟨⟨p, i⟩, la'⟩, h1, rfl, rfl⟩
      exact ⟨i, h1⟩
    · rintro ⟨i, h1⟩
      exact ⟨_, h1, rfl, rfl⟩
  constructor
  · intro h q la
    rw [← hmem, ← hmem, h]
  · intro h
    have htr : TransCmp (prodCmp (T := T) (AK := AK) (AV := AV) addr) := inferInstance
    have hpw : ∀ l : BMap (ProdState T NT AK AV) (BSet T), BMap.Sorted (ProdState.cmp addr) l →
        (l.map (fun e => (e.1.prod, e.2))).Pairwise fun x y => prodCmp addr x.1 y.1 = .lt := by
      intro l hl
      rw [List.pairwise_map]
      exact hl
    refine ext_of_pairwise (r := fun x y => prodCmp addr x.1 y.1 = .lt) ?_ ?_
      (hpw _ ha1.wf.sorted) (hpw _ hb1.wf.sorted) ?_
    · intro x hx
      rw [cmp_self (cmp := prodCmp addr)] at hx
      cases hx
    · intro x y h1 h2
      have := TransCmp.lt_trans h1 h2
      rw [cmp_self (cmp := prodCmp addr)] at this
      cases this
    · rintro ⟨q, la⟩
      rw [hmem, hmem]
      exact h q la
end
end Bongo
