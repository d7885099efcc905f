import Verif.Spec.Lalr
import Verif.Proof.State
import Verif.Proof.Follows
import Verif.Proof.Pass
import Verif.Proof.GrammarBuild
/-! LALR item sets: the closure loop. -/
set_option linter.unusedSectionVars false
namespace Bongo
open Std

theorem BMap.mem_insert_sorted {K : Type u} {V : Type v} {cmp : K → K → Ordering} [TransCmp cmp]
    {m : BMap K V} (hs : BMap.Sorted cmp m) (k : K) (v : V) (e : K × V) :
    e ∈ BMap.insert cmp m k v ↔
      e = (((BMap.entry? cmp m k).map (·.1)).getD k, v) ∨ (e ∈ m ∧ cmp k e.1 ≠ .eq) := by
  induction m with
  | nil => simp [BMap.insert]
  | cons x m ih =>
    obtain ⟨k', v'⟩ := x
    have hs' : BMap.Sorted cmp m := (List.pairwise_cons.1 hs).2
    have hlt := (List.pairwise_cons.1 hs).1
    rw [BMap.insert, BMap.entry?_cons]
    cases hc : cmp k k' with
    | lt =>
      have hne : ∀ y ∈ m, cmp k y.1 ≠ .eq := by
        intro y hy he
        have h1 := hlt y hy
        have h2 := TransCmp.lt_trans hc h1
        rw [he] at h2; cases h2
      have hen : BMap.entry? cmp m k = none := by
        cases hq : BMap.entry? cmp m k with
        | none => rfl
        | some y =>
          obtain ⟨h1, h2⟩ := BMap.entry?_mem hq
          exact absurd h2 (hne y h1)
      simp only [List.mem_cons, reduceCtorEq, ↓reduceIte, hen, Option.map_none, Option.getD_none]
      constructor
      · rintro (h | h | h)
        · exact Or.inl h
        · exact Or.inr ⟨Or.inl h, by rw [h]; simp [hc]⟩
        · exact Or.inr ⟨Or.inr h, hne e h⟩
      · rintro (h | ⟨h | h, -⟩)
        · exact Or.inl h
        · exact Or.inr (Or.inl h)
        · exact Or.inr (Or.inr h)
    | eq =>
      have hne : ∀ y ∈ m, cmp k y.1 ≠ .eq := by
        intro y hy he
        have h1 := hlt y hy
        rw [← cmp_congr_left hc] at h1
        rw [he] at h1; cases h1
      simp only [List.mem_cons, ↓reduceIte, Option.map_some, Option.getD_some]
      constructor
      · rintro (h | h)
        · exact Or.inl h
        · exact Or.inr ⟨Or.inr h, hne e h⟩
      · rintro (h | ⟨h | h, h2⟩)
        · exact Or.inl h
        · rw [h] at h2; exact absurd hc h2
        · exact Or.inr h
    | gt =>
      simp only [List.mem_cons, reduceCtorEq, ↓reduceIte, ih hs']
      constructor
      · rintro (h | h | ⟨h, h2⟩)
        · exact Or.inr ⟨Or.inl h, by rw [h]; simp [hc]⟩
        · exact Or.inl h
        · exact Or.inr ⟨Or.inr h, h2⟩
      · rintro (h | ⟨h | h, h2⟩)
        · exact Or.inr (Or.inl h)
        · exact Or.inl h
        · exact Or.inr (Or.inr ⟨h, h2⟩)

theorem changeLoop_panic_spec {S : Type u} {f : S → Res (S × WasChanged)} {P : S → Prop} (μ : S → Nat)
    {w : Panic}
    (hstep : ∀ s, P s → f s = .panic w ∨
      ∃ s' c, f s = .ok (s', c) ∧ P s' ∧ (c = .changed → μ s' < μ s))
    {s : S} (hs : P s) {fuel : Nat} (hfuel : μ s < fuel) :
    (∃ s₁, changeLoop fuel f s = .panic w ∧ P s₁ ∧ f s₁ = .panic w) ∨
    ∃ s₁ s₂, changeLoop fuel f s = .ok s₂ ∧ P s₁ ∧ f s₁ = .ok (s₂, .unchanged) := by
  induction fuel generalizing s with
  | zero => omega
  | succ n ih =>
    rw [changeLoop]
    rcases hstep s hs with he | ⟨s', c, he, hP, hc⟩
    · rw [he]; exact Or.inl ⟨s, rfl, hs, he⟩
    · rw [he]
      cases c with
      | changed => exact ih hP (by have := hc rfl; omega)
      | unchanged => exact Or.inr ⟨s, s', rfl, hs, he⟩

variable {T NT AK AV : Type} [Ord T] [TransOrd T] [LawfulEqOrd T]
  [Ord NT] [TransOrd NT] [LawfulEqOrd NT]

/-! ## `insert_iter` on items -/

/-- The map has the item, with the lookahead. -/
def ItemIn (m : BMap (ProdState T NT AK AV) (BSet T)) (s : ProdState T NT AK AV) (o : Option T) :
    Prop := ∃ la, (s, la) ∈ m ∧ ∀ t, o = some t → t ∈ la

theorem ItemIn.toNone {m : BMap (ProdState T NT AK AV) (BSet T)} {s o} (h : ItemIn m s o) :
    ItemIn m s none := by
  obtain ⟨la, h1, -⟩ := h
  exact ⟨la, h1, by simp⟩

/-- The key under which `k` is stored. -/
def Slot (addr : NT → Nat → Nat) (m : BMap (ProdState T NT AK AV) (BSet T))
    (k s : ProdState T NT AK AV) : Prop :=
  ((∃ la, (s, la) ∈ m) ∧ ProdState.cmp addr k s = .eq) ∨
    (s = k ∧ ∀ e ∈ m, ProdState.cmp addr k e.1 ≠ .eq)

structure ItemWF (addr : NT → Nat → Nat) (m : BMap (ProdState T NT AK AV) (BSet T)) : Prop where
  sorted : BMap.Sorted (ProdState.cmp addr) m
  sets : ∀ e ∈ m, BSet.Sorted compare e.2

section
variable {addr : NT → Nat → Nat} {m : BMap (ProdState T NT AK AV) (BSet T)}

theorem slot_of_some (hm : ItemWF addr m) {k : ProdState T NT AK AV} {e}
    (h : BMap.entry? (ProdState.cmp addr) m k = some e) (s : ProdState T NT AK AV) :
    Slot addr m k s ↔ s = e.1 := by
  obtain ⟨h1, h2⟩ := BMap.entry?_mem h
  constructor
  · rintro (⟨⟨la, h3⟩, h4⟩ | ⟨-, h3⟩)
    · have := BMap.entry?_of_mem hm.sorted h3 h4
      rw [h] at this
      simp at this; rw [this]
    · exact absurd h2 (h3 e h1)
  · rintro rfl
    exact Or.inl ⟨⟨e.2, h1⟩, h2⟩

theorem slot_of_none {k : ProdState T NT AK AV}
    (h : BMap.entry? (ProdState.cmp addr) m k = none) (s : ProdState T NT AK AV) :
    Slot addr m k s ↔ s = k := by
  have hno : ∀ e ∈ m, ProdState.cmp addr k e.1 ≠ .eq := by
    intro e he hc
    have := BMap.entry?_isSome he hc
    rw [h] at this; cases this
  constructor
  · rintro (⟨⟨la, h3⟩, h4⟩ | ⟨h3, -⟩)
    · exact absurd h4 (hno _ h3)
    · exact h3
  · rintro rfl; exact Or.inr ⟨rfl, hno⟩

theorem insertIter_items (hm : ItemWF addr m) (k : ProdState T NT AK AV) (l : List T) :
    ItemWF addr (CollectMap.insertIter (ProdState.cmp addr) compare m k l).1 ∧
    (∀ s t, ItemIn (CollectMap.insertIter (ProdState.cmp addr) compare m k l).1 s (some t) ↔
      ItemIn m s (some t) ∨ (t ∈ l ∧ Slot addr m k s)) ∧
    (∀ s, ItemIn (CollectMap.insertIter (ProdState.cmp addr) compare m k l).1 s none ↔
      ItemIn m s none ∨ (l ≠ [] ∧ Slot addr m k s)) ∧
    ((CollectMap.insertIter (ProdState.cmp addr) compare m k l).2 = .changed ↔
      ∃ t ∈ l, ∃ s, Slot addr m k s ∧ ¬ ItemIn m s (some t)) := by
  unfold CollectMap.insertIter
  cases he : BMap.entry? (ProdState.cmp addr) m k with
  | some e =>
    obtain ⟨k', set⟩ := e
    obtain ⟨hmem, hkk⟩ := BMap.entry?_mem he
    have hset : BSet.Sorted compare set := hm.sets _ hmem
    have hg : BMap.get? (ProdState.cmp addr) m k = some set := by simp [BMap.get?, he]
    have hins := BMap.mem_insert_sorted hm.sorted k (CollectMap.extendSet compare set l).1
    simp only [he, Option.map_some, Option.getD_some] at hins
    obtain ⟨hx1, hx2⟩ := CollectMap.extendSet_spec (cmpV := compare) hset l
    have huniq : ∀ s la, (s, la) ∈ m → ProdState.cmp addr k s = .eq → s = k' ∧ la = set := by
      intro s la h1 h2
      have := BMap.entry?_of_mem hm.sorted h1 h2
      rw [he] at this
      simp at this; exact ⟨this.1.symm, this.2.symm⟩
    simp only [hg]
    refine ⟨⟨BMap.sorted_insert hm.sorted _ _, ?_⟩, ?_, ?_, ?_⟩
    · intro x hx
      rcases (hins x).1 hx with rfl | ⟨h, -⟩
      · simp only [hx1]; exact BSet.sorted_insertAll hset l
      · exact hm.sets x h
    · intro s t
      simp only [slot_of_some hm he]
      constructor
      · rintro ⟨la, h1, h2⟩
        have ht := h2 t rfl
        rcases (hins _).1 h1 with h | ⟨h, -⟩
        · cases h
          rw [hx1, BSet.mem_insertAll] at ht
          rcases ht with ht | ht
          · exact Or.inr ⟨ht, rfl⟩
          · exact Or.inl ⟨set, hmem, by rintro _ ⟨⟩; exact ht⟩
        · exact Or.inl ⟨la, h, h2⟩
      · rintro (⟨la, h1, h2⟩ | ⟨h1, rfl⟩)
        · by_cases hc : ProdState.cmp addr k s = .eq
          · obtain ⟨rfl, rfl⟩ := huniq _ _ h1 hc
            refine ⟨_, (hins _).2 (Or.inl rfl), ?_⟩
            rintro _ ⟨⟩
            rw [hx1, BSet.mem_insertAll]; exact Or.inr (h2 t rfl)
          · exact ⟨la, (hins _).2 (Or.inr ⟨h1, hc⟩), h2⟩
        · refine ⟨_, (hins _).2 (Or.inl rfl), ?_⟩
          rintro _ ⟨⟩
          rw [hx1, BSet.mem_insertAll]; exact Or.inl h1
    · intro s
      simp only [slot_of_some hm he]
      constructor
      · rintro ⟨la, h1, -⟩
        rcases (hins _).1 h1 with h | ⟨h, -⟩
        · cases h; exact Or.inl ⟨set, hmem, by simp⟩
        · exact Or.inl ⟨la, h, by simp⟩
      · rintro (⟨la, h1, -⟩ | ⟨-, rfl⟩)
        · by_cases hc : ProdState.cmp addr k s = .eq
          · obtain ⟨rfl, rfl⟩ := huniq _ _ h1 hc
            exact ⟨_, (hins _).2 (Or.inl rfl), by simp⟩
          · exact ⟨la, (hins _).2 (Or.inr ⟨h1, hc⟩), by simp⟩
        · exact ⟨_, (hins _).2 (Or.inl rfl), by simp⟩
    · rw [hx2]
      constructor
      · rintro ⟨t, h1, h2⟩
        refine ⟨t, h1, k', (slot_of_some hm he _).2 rfl, ?_⟩
        rintro ⟨la, h3, h4⟩
        obtain ⟨-, rfl⟩ := huniq _ _ h3 hkk
        exact h2 (h4 t rfl)
      · rintro ⟨t, h1, s, h2, h3⟩
        have := (slot_of_some hm he _).1 h2
        subst this
        exact ⟨t, h1, fun ht => h3 ⟨set, hmem, by rintro _ ⟨⟩; exact ht⟩⟩
  | none =>
    have hg : BMap.get? (ProdState.cmp addr) m k = none := by simp [BMap.get?, he]
    have hnew : ∀ la, (k, la) ∉ m := by
      intro la h
      have := BMap.entry?_isSome h (cmp_self (cmp := ProdState.cmp addr) k)
      rw [he] at this; cases this
    simp only [hg]
    cases l with
    | nil => simp [hm]
    | cons init rest =>
      have hins := BMap.mem_insert_sorted hm.sorted k
        (BSet.insertAll compare (BSet.insert compare [] init) rest)
      simp only [he, Option.map_none, Option.getD_none] at hins
      have hne : ∀ x ∈ m, ProdState.cmp addr k x.1 ≠ .eq := by
        intro x hx hc
        have := BMap.entry?_isSome hx hc
        rw [he] at this; cases this
      have hset : ∀ t, t ∈ BSet.insertAll compare (BSet.insert compare [] init) rest ↔
          t ∈ init :: rest := by
        intro t
        rw [BSet.mem_insertAll, BSet.mem_insert]
        simp [or_comm]
      simp only
      refine ⟨⟨BMap.sorted_insert hm.sorted _ _, ?_⟩, ?_, ?_, ?_⟩
      · intro x hx
        rcases (hins x).1 hx with rfl | ⟨h, -⟩
        · exact BSet.sorted_insertAll (BSet.sorted_insert List.Pairwise.nil _) _
        · exact hm.sets x h
      · intro s t
        simp only [slot_of_none he]
        constructor
        · rintro ⟨la, h1, h2⟩
          rcases (hins _).1 h1 with h | ⟨h, -⟩
          · cases h; exact Or.inr ⟨(hset t).1 (h2 t rfl), rfl⟩
          · exact Or.inl ⟨la, h, h2⟩
        · rintro (⟨la, h1, h2⟩ | ⟨h1, rfl⟩)
          · exact ⟨la, (hins _).2 (Or.inr ⟨h1, hne _ h1⟩), h2⟩
          · exact ⟨_, (hins _).2 (Or.inl rfl), by rintro _ ⟨⟩; exact (hset t).2 h1⟩
      · intro s
        simp only [slot_of_none he]
        constructor
        · rintro ⟨la, h1, -⟩
          rcases (hins _).1 h1 with h | ⟨h, -⟩
          · cases h; exact Or.inr ⟨by simp, rfl⟩
          · exact Or.inl ⟨la, h, by simp⟩
        · rintro (⟨la, h1, -⟩ | ⟨-, rfl⟩)
          · exact ⟨la, (hins _).2 (Or.inr ⟨h1, hne _ h1⟩), by simp⟩
          · exact ⟨_, (hins _).2 (Or.inl rfl), by simp⟩
      · simp only [true_iff]
        refine ⟨init, by simp, k, (slot_of_none he _).2 rfl, ?_⟩
        rintro ⟨la, h, -⟩
        exact hnew la h
end

/-! ## The facts -/

section facts
variable {g : Grammar T NT AK AV} {addr : NT → Nat → Nat}
  {K : BMap (ProdState T NT AK AV) (BSet T)} {f : Firsts T NT}

theorem LalrFact.kernelItem (hK : ∀ e ∈ K, e.1.prod ∈ g.prods) {s o} (h : LalrFact g K s o) :
    KernelItem K s.prod s ∧ s.prod ∈ g.prods := by
  have hki : ∀ {q s'}, q ∈ g.prods → KernelItem K q s' → KernelItem K s'.prod s' ∧ s'.prod ∈ g.prods := by
    rintro q s' hq (⟨h1, rfl⟩ | ⟨rfl, h2⟩)
    · exact ⟨Or.inl ⟨h1, rfl⟩, hq⟩
    · exact ⟨Or.inr ⟨rfl, h2⟩, hq⟩
  induction h with
  | item h => exact ⟨Or.inl ⟨⟨_, h⟩, rfl⟩, hK _ h⟩
  | lookahead h _ => exact ⟨Or.inl ⟨⟨_, h⟩, rfl⟩, hK _ h⟩
  | present _ ih => exact ih
  | term _ _ _ hq _ hk => exact hki hq hk
  | first _ _ _ _ hq _ hk => exact hki hq hk
  | last _ _ _ hq _ hk => exact hki hq hk

/-- The loop invariant. -/
structure LalrInv (addr : NT → Nat → Nat) (g : Grammar T NT AK AV)
    (K m : BMap (ProdState T NT AK AV) (BSet T)) : Prop where
  wf : ItemWF addr m
  sound : ∀ s o, ItemIn m s o → LalrFact g K s o
  kernel : ∀ s o, ItemIn K s o → ItemIn m s o

theorem LalrInv.start (hw : ItemWF addr K) : LalrInv addr g K K := by
  refine ⟨hw, ?_, fun _ _ h => h⟩
  rintro s o ⟨la, h1, h2⟩
  cases o with
  | none => exact .item h1
  | some t => exact .lookahead h1 (h2 t rfl)

theorem LalrInv.slot_iff (hw : g.WF) (ha : AddrInj g addr) (hK : ∀ e ∈ K, e.1.prod ∈ g.prods)
    {m} (hi : LalrInv addr g K m) {q : Prod T NT AK AV} (hq : q ∈ g.prods)
    (s : ProdState T NT AK AV) :
    Slot addr m (ProdState.fromStart q) s ↔ KernelItem K q s := by
  have hcmp : ∀ s' : ProdState T NT AK AV, s'.prod ∈ g.prods →
      (ProdState.cmp addr (ProdState.fromStart q) s' = .eq ↔ s'.prod = q) := by
    intro s' hs'
    exact (prodCmp_eq hw ha hq hs').trans eq_comm
  have hmem : ∀ {s' la}, (s', la) ∈ m → KernelItem K s'.prod s' ∧ s'.prod ∈ g.prods := by
    intro s' la h
    exact (hi.sound s' none ⟨la, h, by simp⟩).kernelItem hK
  constructor
  · rintro (⟨⟨la, h1⟩, h2⟩ | ⟨rfl, h2⟩)
    · obtain ⟨h3, h4⟩ := hmem h1
      have := (hcmp s h4).1 h2
      rw [this] at h3; exact h3
    · refine Or.inr ⟨rfl, ?_⟩
      intro e he hc
      obtain ⟨la, h5, -⟩ := hi.kernel e.1 none ⟨e.2, he, by simp⟩
      exact h2 _ h5 ((hcmp e.1 (hK e he)).2 hc)
  · rintro (⟨⟨la, h1⟩, h2⟩ | ⟨rfl, h2⟩)
    · obtain ⟨la', h5, -⟩ := hi.kernel s none ⟨la, h1, by simp⟩
      exact Or.inl ⟨⟨la', h5⟩, (hcmp s (hK _ h1)).2 h2⟩
    · by_cases hex : ∃ e ∈ m, ProdState.cmp addr (ProdState.fromStart q) e.1 = .eq
      · obtain ⟨e, he, hc⟩ := hex
        obtain ⟨h3, h4⟩ := hmem (la := e.2) he
        have hq' := (hcmp e.1 h4).1 hc
        rcases h3 with ⟨⟨la, h5⟩, -⟩ | ⟨h5, -⟩
        · exact absurd hq' (h2 (e.1, la) h5)
        · rw [hq'] at h5
          exact Or.inl ⟨⟨e.2, by rw [← h5]; exact he⟩, cmp_self _⟩
      · exact Or.inr ⟨rfl, fun e he hc => hex ⟨e, he, hc⟩⟩

/-! ## One round -/

/-- An item whose expansion panics. -/
def LaGap (f : Firsts T NT) (s : ProdState T NT AK AV) : Prop :=
  ∃ B C, s.prod.elements[s.index]? = some (.nonterm B) ∧
    s.prod.elements[s.index + 1]? = some (.nonterm C) ∧ f.get C = none

theorem offsetElem_eq (s : ProdState T NT AK AV) (i : Nat) :
    s.offsetElem i = s.prod.elements[s.index + i]? := by
  unfold ProdState.offsetElem ProdState.offsetProdElem Prod.elements Prod.prodElements ProdInner.elems
  rw [List.getElem?_map]

theorem nextElem_eq (s : ProdState T NT AK AV) : s.nextElem = s.prod.elements[s.index]? :=
  offsetElem_eq s 0

theorem newExpansions_spec (f : Firsts T NT) (m : List (ProdState T NT AK AV × BSet T)) :
    ((∃ e ∈ m, LaGap f e.1) ∧ ParseState.newExpansions f m = .panic .noFirsts) ∨
    ((¬ ∃ e ∈ m, LaGap f e.1) ∧ ∃ es, ParseState.newExpansions f m = .ok es ∧
      ∀ B l, (B, l) ∈ es ↔ ∃ s la, (s, la) ∈ m ∧
        s.prod.elements[s.index]? = some (.nonterm B) ∧ ParseState.newLa f s la = .ok l) := by
  induction m with
  | nil => exact Or.inr ⟨by simp, [], rfl, by simp⟩
  | cons x m ih =>
    obtain ⟨s, la⟩ := x
    rw [ParseState.newExpansions, nextElem_eq]
    have hskip : (∀ B, s.prod.elements[s.index]? ≠ some (.nonterm B)) →
        ((∃ e ∈ (s, la) :: m, LaGap f e.1) ∧ ParseState.newExpansions f m = .panic .noFirsts) ∨
        ((¬ ∃ e ∈ (s, la) :: m, LaGap f e.1) ∧ ∃ es, ParseState.newExpansions f m = .ok es ∧
          ∀ B l, (B, l) ∈ es ↔ ∃ s' la', (s', la') ∈ (s, la) :: m ∧
            s'.prod.elements[s'.index]? = some (.nonterm B) ∧ ParseState.newLa f s' la' = .ok l) := by
      intro hno
      have hg : ¬ LaGap f s := fun ⟨B, _, h, _⟩ => hno B h
      rcases ih with ⟨⟨e, he, h1⟩, h2⟩ | ⟨h1, es, h2, h3⟩
      · exact Or.inl ⟨⟨e, by simp [he], h1⟩, h2⟩
      · refine Or.inr ⟨?_, es, h2, ?_⟩
        · rintro ⟨e, he, hge⟩
          rcases List.mem_cons.1 he with rfl | he
          · exact hg hge
          · exact h1 ⟨e, he, hge⟩
        · intro B l
          rw [h3]
          constructor
          · rintro ⟨s', la', k1, k2⟩; exact ⟨s', la', by simp [k1], k2⟩
          · rintro ⟨s', la', k1, k2, k3⟩
            rcases List.mem_cons.1 k1 with k1 | k1
            · cases k1; exact absurd k2 (hno B)
            · exact ⟨s', la', k1, k2, k3⟩
    cases hn : s.prod.elements[s.index]? with
    | none => simp only; exact hskip (by simp [hn])
    | some el =>
      cases el with
      | term t => simp only; exact hskip (by simp [hn])
      | nonterm B =>
        simp only
        have hla : (LaGap f s ∧ ParseState.newLa f s la = .panic .noFirsts) ∨
            (¬ LaGap f s ∧ ∃ l, ParseState.newLa f s la = .ok l) := by
          unfold ParseState.newLa
          rw [offsetElem_eq]
          cases h1 : s.prod.elements[s.index + 1]? with
          | none =>
            refine Or.inr ⟨?_, la, rfl⟩
            rintro ⟨_, _, _, h, _⟩; rw [h1] at h; cases h
          | some el =>
            cases el with
            | term t =>
              refine Or.inr ⟨?_, _, rfl⟩
              rintro ⟨_, _, _, h, _⟩; rw [h1] at h; cases h
            | nonterm C =>
              simp only
              cases hC : f.get C with
              | none => exact Or.inl ⟨⟨B, C, hn, h1, hC⟩, rfl⟩
              | some l =>
                refine Or.inr ⟨?_, l, rfl⟩
                rintro ⟨_, C', _, h, h2⟩; rw [h1] at h; cases h; rw [hC] at h2; cases h2
        rcases hla with ⟨h1, h2⟩ | ⟨h1, l, h2⟩
        · rw [h2]; exact Or.inl ⟨⟨(s, la), by simp, h1⟩, rfl⟩
        · rw [h2]
          rcases ih with ⟨⟨e, he, h3⟩, h4⟩ | ⟨h3, es, h4, h5⟩
          · rw [h4]; exact Or.inl ⟨⟨e, by simp [he], h3⟩, rfl⟩
          · rw [h4]
            refine Or.inr ⟨?_, (B, l) :: es, rfl, ?_⟩
            · rintro ⟨e, he, hge⟩
              rcases List.mem_cons.1 he with rfl | he
              · exact h1 hge
              · exact h3 ⟨e, he, hge⟩
            · intro B' l'
              rw [List.mem_cons, h5]
              constructor
              · rintro (k | ⟨s', la', k1, k2⟩)
                · cases k; exact ⟨s, la, by simp, hn, h2⟩
                · exact ⟨s', la', by simp [k1], k2⟩
              · rintro ⟨s', la', k1, k2, k3⟩
                rcases List.mem_cons.1 k1 with k1 | k1
                · cases k1
                  rw [hn] at k2; cases k2
                  rw [h2] at k3; cases k3
                  exact Or.inl rfl
                · exact Or.inr ⟨s', la', k1, k2, k3⟩

/-- The `insert_iter` calls of a round. -/
def lalrOps (g : Grammar T NT AK AV) (es : List (NT × BSet T)) :
    List (ProdState T NT AK AV × BSet T) :=
  es.flatMap fun e => (((g.tryGetRule e.1).map (·.prodRefs)).getD []).map
    fun q => (ProdState.fromStart q, e.2)

/-- One `insert_iter` call. -/
def lalrVisit (addr : NT → Nat → Nat) (m : CollectMap (ProdState T NT AK AV) T)
    (op : ProdState T NT AK AV × BSet T) : CollectMap (ProdState T NT AK AV) T × WasChanged :=
  CollectMap.insertIter (ProdState.cmp addr) compare m op.1 op.2

theorem changeIter_map {ι κ S : Type} (l : List ι) (h : ι → κ) (f : S → κ → S × WasChanged) (s : S) :
    changeIter (l.map h) f s = changeIter l (fun s i => f s (h i)) s := by
  unfold changeIter
  rw [List.foldl_map]

theorem mem_lalrOps (hw : g.WF) {es : List (NT × BSet T)}
    (hr : ∀ e ∈ es, ∃ r, g.tryGetRule e.1 = some r) {k : ProdState T NT AK AV} {l : BSet T} :
    (k, l) ∈ lalrOps g es ↔ ∃ q ∈ g.prods, k = ProdState.fromStart q ∧ (q.head, l) ∈ es := by
  unfold lalrOps
  simp only [List.mem_flatMap, List.mem_map]
  constructor
  · rintro ⟨⟨B, l'⟩, he, q, hq, h⟩
    obtain ⟨r, h1⟩ := hr _ he
    simp only at h1 h hq
    cases h
    rw [h1] at hq
    simp only [Option.map_some, Option.getD_some] at hq
    obtain ⟨h2, h3⟩ := (Grammar.mem_prods_of_rule hw h1).1 hq
    exact ⟨q, h2, rfl, by rw [h3]; exact he⟩
  · rintro ⟨q, hq, rfl, he⟩
    obtain ⟨r, h1⟩ := hr _ he
    refine ⟨_, he, q, ?_, rfl⟩
    simp only at h1 ⊢
    rw [h1]
    exact (Grammar.mem_prods_of_rule hw h1).2 ⟨hq, rfl⟩

theorem closureRound_ok {es : List (NT × BSet T)} {m : CollectMap (ProdState T NT AK AV) T}
    (he : ParseState.newExpansions f m = .ok es)
    (hr : ∀ e ∈ es, ∃ r, g.tryGetRule e.1 = some r) :
    ParseState.closureRound addr g f m = .ok (changeIter (lalrOps g es) (lalrVisit addr) m) := by
  unfold ParseState.closureRound
  rw [he]
  simp only
  rw [changeIterM_ok (f' := fun m e => changeIter ((((g.tryGetRule e.1).map (·.prodRefs)).getD []).map
    fun q => (ProdState.fromStart q, e.2)) (lalrVisit addr) m), WasChanged.unchanged_join]
  · unfold lalrOps
    rw [changeIter_flatMap]
  · intro e hin m'
    obtain ⟨r, h1⟩ := hr e hin
    unfold ParseState.expand Grammar.getRule
    rw [h1]
    simp only [Res.expect_some, Option.map_some, Option.getD_some]
    rw [changeIter_map, changeIter_map]
    rfl

/-! ## The loop -/

theorem newLa_cases (hfe : FirstsExact g f) {s : ProdState T NT AK AV} {la l : BSet T}
    (h : ParseState.newLa f s la = .ok l) (t : T) : t ∈ l ↔
      s.prod.elements[s.index + 1]? = some (.term t) ∨
      (∃ C, s.prod.elements[s.index + 1]? = some (.nonterm C) ∧ g.cfg.First [.nonterm C] t) ∨
      (s.prod.elements[s.index + 1]? = none ∧ t ∈ la) := by
  unfold ParseState.newLa at h
  rw [offsetElem_eq] at h
  cases h1 : s.prod.elements[s.index + 1]? with
  | none => rw [h1] at h; simp only [Res.ok.injEq] at h; subst h; simp
  | some el =>
    rw [h1] at h
    cases el with
    | term t' =>
      simp only [Res.ok.injEq] at h
      subst h
      rw [BSet.mem_ofList]
      simp [eq_comm]
    | nonterm C =>
      simp only at h
      rw [Res.expect_eq_ok] at h
      have := hfe C t
      rw [h] at this
      simp only [Option.some.injEq, exists_eq_left'] at this
      simp [this, Cfg.First]

/-- All items and lookaheads that can occur. -/
def lalrUniverse (g : Grammar T NT AK AV) (K : BMap (ProdState T NT AK AV) (BSet T))
    (f : Firsts T NT) : List (ProdState T NT AK AV × Option T) :=
  (K.map (·.1) ++ g.prods.map ProdState.fromStart).flatMap fun s =>
    (none :: (K.flatMap (·.2) ++ g.prods.flatMap (fun p => p.elements.filterMap Elem.asTerm) ++
      f.map.flatMap (·.2)).map some).map fun o => (s, o)

theorem lalrFact_universe (hK : ∀ e ∈ K, e.1.prod ∈ g.prods) (hfe : FirstsExact g f) {s o}
    (h : LalrFact g K s o) : (s, o) ∈ lalrUniverse g K f := by
  have hs : s ∈ K.map (·.1) ++ g.prods.map ProdState.fromStart := by
    obtain ⟨h1, h2⟩ := h.kernelItem hK
    rcases h1 with ⟨⟨la, h1⟩, -⟩ | ⟨h1, -⟩
    · exact List.mem_append_left _ (List.mem_map.2 ⟨_, h1, rfl⟩)
    · exact List.mem_append_right _ (List.mem_map.2 ⟨_, h2, h1.symm⟩)
  have hterm : ∀ {p : Prod T NT AK AV} {i : Nat} {t : T}, p ∈ g.prods → p.elements[i]? = some (.term t) →
      t ∈ g.prods.flatMap (fun p => p.elements.filterMap Elem.asTerm) := by
    intro p i t hp hi
    refine List.mem_flatMap.2 ⟨p, hp, List.mem_filterMap.2 ⟨_, List.mem_of_getElem? hi, rfl⟩⟩
  have ho : ∀ t, o = some t → t ∈ K.flatMap (·.2) ++
      g.prods.flatMap (fun p => p.elements.filterMap Elem.asTerm) ++ f.map.flatMap (·.2) := by
    clear hs
    induction h with
    | item => simp
    | lookahead h ht =>
      rintro t ⟨⟩
      exact List.mem_append_left _ (List.mem_append_left _ (List.mem_flatMap.2 ⟨_, h, ht⟩))
    | present => simp
    | term h _ h2 _ _ _ _ =>
      rintro t ⟨⟩
      exact List.mem_append_left _ (List.mem_append_right _
        (hterm (h.kernelItem hK).2 h2))
    | first h _ _ hf _ _ _ =>
      rintro t ⟨⟩
      refine List.mem_append_right _ ?_
      obtain ⟨l, h1, h2⟩ := (hfe _ _).2 hf
      obtain ⟨k', h3, -⟩ := BMap.get?_mem h1
      exact List.mem_flatMap.2 ⟨_, h3, h2⟩
    | last _ _ _ _ _ _ ih => exact ih
  refine List.mem_flatMap.2 ⟨s, hs, List.mem_map.2 ⟨o, ?_, rfl⟩⟩
  cases o with
  | none => exact List.mem_cons_self
  | some t => exact List.mem_cons_of_mem _ (List.mem_map.2 ⟨t, ho t rfl, rfl⟩)

/-- A call that only adds what belongs in the closure. -/
def OpOk (g : Grammar T NT AK AV) (K : BMap (ProdState T NT AK AV) (BSet T))
    (op : ProdState T NT AK AV × BSet T) : Prop :=
  ∃ q ∈ g.prods, op.1 = ProdState.fromStart q ∧
    ∀ t ∈ op.2, ∀ s, KernelItem K q s → LalrFact g K s (some t)

theorem lalr_factPass (hw : g.WF) (ha : AddrInj g addr) (hK : ∀ e ∈ K, e.1.prod ∈ g.prods)
    (hfe : FirstsExact g f) {ops : List (ProdState T NT AK AV × BSet T)}
    (hops : ∀ op ∈ ops, OpOk g K op) :
    FactPass ops (lalrVisit addr) (LalrInv addr g K) (fun m x => ItemIn m x.1 x.2)
      (lalrUniverse g K f) := by
  have hinv : ∀ m, ∀ op ∈ ops, LalrInv addr g K m → LalrInv addr g K (lalrVisit addr m op).1 := by
    intro m op hop hi
    obtain ⟨q, hq, hk, hjust⟩ := hops op hop
    obtain ⟨h1, h2, h3, -⟩ := insertIter_items hi.wf op.1 op.2
    refine ⟨h1, ?_, ?_⟩
    · intro s o h
      cases o with
      | some t =>
        rcases (h2 s t).1 h with h | ⟨h, hs⟩
        · exact hi.sound _ _ h
        · rw [hk] at hs
          exact hjust t h s ((hi.slot_iff hw ha hK hq s).1 hs)
      | none =>
        rcases (h3 s).1 h with h | ⟨h, hs⟩
        · exact hi.sound _ _ h
        · rw [hk] at hs
          obtain ⟨t, ht⟩ := List.exists_mem_of_ne_nil _ h
          exact (hjust t ht s ((hi.slot_iff hw ha hK hq s).1 hs)).present
    · intro s o h
      have := hi.kernel s o h
      cases o with
      | some t => exact (h2 s t).2 (Or.inl this)
      | none => exact (h3 s).2 (Or.inl this)
  refine ⟨hinv, ?_, ?_, ?_⟩
  · intro m op hop hi x hx
    obtain ⟨h1, h2, h3, -⟩ := insertIter_items hi.wf op.1 op.2
    obtain ⟨s, o⟩ := x
    cases o with
    | some t => exact (h2 s t).2 (Or.inl hx)
    | none => exact (h3 s).2 (Or.inl hx)
  · intro m op hop hi hc
    obtain ⟨h1, h2, h3, h4⟩ := insertIter_items hi.wf op.1 op.2
    obtain ⟨t, ht, s, hs, hn⟩ := h4.1 hc
    have hnew := (h2 s t).2 (Or.inr ⟨ht, hs⟩)
    exact ⟨(s, some t), lalrFact_universe hK hfe ((hinv m op hop hi).sound _ _ hnew), hn, hnew⟩
  · intro m op hop hi hc x hx
    obtain ⟨h1, h2, h3, h4⟩ := insertIter_items hi.wf op.1 op.2
    have hall : ∀ t ∈ op.2, ∀ s, Slot addr m op.1 s → ItemIn m s (some t) := by
      intro t ht s hs
      by_contra hn
      have := h4.2 ⟨t, ht, s, hs, hn⟩
      have hc' : (CollectMap.insertIter (ProdState.cmp addr) compare m op.1 op.2).2 = .unchanged := hc
      rw [this] at hc'; cases hc'
    obtain ⟨s, o⟩ := x
    cases o with
    | some t =>
      rcases (h2 s t).1 hx with h | ⟨h, hs⟩
      · exact h
      · exact hall t h s hs
    | none =>
      rcases (h3 s).1 hx with h | ⟨h, hs⟩
      · exact h
      · obtain ⟨t, ht⟩ := List.exists_mem_of_ne_nil _ h
        exact (hall t ht s hs).toNone

/-- The rules needed exist. -/
theorem rule_of_next (hv : g.Valid) {s : ProdState T NT AK AV} (hs : s.prod ∈ g.prods) {B : NT}
    {i : Nat} (h : s.prod.elements[i]? = some (.nonterm B)) : ∃ r, g.tryGetRule B = some r := by
  obtain ⟨r, h1, h2⟩ := (Grammar.mem_prods hv.toWF).1 hs
  refine hv.closed s.prod.head B ⟨s.prod.elements, ⟨r, s.prod.inner, ?_, List.mem_of_getElem? h2, rfl⟩,
    List.mem_of_getElem? h⟩
  exact (Grammar.tryGetRule_iff hv.toWF).1 h1

theorem lalr_round (hv : g.Valid) (hK : ∀ e ∈ K, e.1.prod ∈ g.prods)
    (hfe : FirstsExact g f) {m} (hi : LalrInv addr g K m) :
    ((∃ s, ItemIn m s none ∧ LaGap f s) ∧
      ParseState.closureRound addr g f m = .panic .noFirsts) ∨
    ((¬ ∃ s, ItemIn m s none ∧ LaGap f s) ∧ ∃ ops, (∀ op ∈ ops, OpOk g K op) ∧
      ParseState.closureRound addr g f m = .ok (changeIter ops (lalrVisit addr) m) ∧
      ∀ k l, (k, l) ∈ ops ↔ ∃ q ∈ g.prods, k = ProdState.fromStart q ∧ ∃ s la, (s, la) ∈ m ∧
        s.prod.elements[s.index]? = some (.nonterm q.head) ∧ ParseState.newLa f s la = .ok l) := by
  have hgap : (∃ e ∈ m, LaGap f e.1) ↔ ∃ s, ItemIn m s none ∧ LaGap f s := by
    constructor
    · rintro ⟨e, he, h⟩; exact ⟨e.1, ⟨e.2, he, by simp⟩, h⟩
    · rintro ⟨s, ⟨la, h, -⟩, h2⟩; exact ⟨(s, la), h, h2⟩
  rw [← hgap]
  rcases newExpansions_spec f m with ⟨h1, h2⟩ | ⟨h1, es, h2, h3⟩
  · refine Or.inl ⟨h1, ?_⟩
    unfold ParseState.closureRound
    rw [h2]
  · have hfact : ∀ {s la}, (s, la) ∈ m → LalrFact g K s none := fun h =>
      hi.sound _ _ ⟨_, h, by simp⟩
    have hr : ∀ e ∈ es, ∃ r, g.tryGetRule e.1 = some r := by
      rintro ⟨B, l⟩ he
      obtain ⟨s, la, h4, h5, -⟩ := (h3 B l).1 he
      exact rule_of_next hv ((hfact h4).kernelItem hK).2 h5
    refine Or.inr ⟨h1, lalrOps g es, ?_, closureRound_ok h2 hr, ?_⟩
    · rintro ⟨k, l⟩ hop
      obtain ⟨q, hq, hk, he⟩ := (mem_lalrOps hv.toWF hr).1 hop
      obtain ⟨s, la, h4, h5, h6⟩ := (h3 _ _).1 he
      refine ⟨q, hq, hk, ?_⟩
      intro t ht s' hs'
      rcases (newLa_cases hfe h6 t).1 ht with h7 | ⟨C, h7, h8⟩ | ⟨h7, h8⟩
      · exact .term (hfact h4) h5 h7 hq rfl hs'
      · exact .first (hfact h4) h5 h7 h8 hq rfl hs'
      · exact .last (hi.sound s (some t) ⟨la, h4, by rintro _ ⟨⟩; exact h8⟩) h5 h7 hq rfl hs'
    · intro k l
      rw [mem_lalrOps hv.toWF hr]
      constructor
      · rintro ⟨q, hq, hk, he⟩; exact ⟨q, hq, hk, (h3 _ _).1 he⟩
      · rintro ⟨q, hq, hk, he⟩; exact ⟨q, hq, hk, (h3 _ _).2 he⟩

/-- The outcome of the loop. -/
theorem lalr_loop (hv : g.Valid) (ha : AddrInj g addr) (hK : ∀ e ∈ K, e.1.prod ∈ g.prods)
    (hwf : ItemWF addr K) (hfe : FirstsExact g f) {fuel : Nat}
    (hf : (lalrUniverse g K f).length < fuel) :
    ((∃ s, LalrFact g K s none ∧ LaGap f s) ∧
      changeLoop fuel (ParseState.closureRound addr g f) K = .panic .noFirsts) ∨
    ((¬ ∃ s, LalrFact g K s none ∧ LaGap f s) ∧
      ∃ m, changeLoop fuel (ParseState.closureRound addr g f) K = .ok m ∧ ItemWF addr m ∧
        ∀ s o, ItemIn m s o ↔ LalrFact g K s o) := by
  have hstep : ∀ m, LalrInv addr g K m → ParseState.closureRound addr g f m = .panic .noFirsts ∨
      ∃ m' c, ParseState.closureRound addr g f m = .ok (m', c) ∧ LalrInv addr g K m' ∧
        (c = .changed → missing (lalrUniverse g K f) (fun m x => ItemIn m x.1 x.2) m' <
          missing (lalrUniverse g K f) (fun m x => ItemIn m x.1 x.2) m) := by
    intro m hi
    rcases lalr_round hv hK hfe hi with ⟨-, h⟩ | ⟨-, ops, h1, h2, -⟩
    · exact Or.inl h
    · right
      obtain ⟨i1, i2, i3, -⟩ := (lalr_factPass hv.toWF ha hK hfe h1).iter hi
      exact ⟨_, _, h2, i1, fun hc => missing_lt i2 (i3 hc)⟩
  rcases changeLoop_panic_spec (missing (lalrUniverse g K f) (fun m x => ItemIn m x.1 x.2)) hstep
      (LalrInv.start hwf) (Nat.lt_of_le_of_lt (missing_le_length _ _ _) hf) with
    ⟨m, h1, h2, h3⟩ | ⟨m, m', h1, h2, h3⟩
  · refine Or.inl ⟨?_, h1⟩
    rcases lalr_round hv hK hfe h2 with ⟨⟨s, h4, h5⟩, -⟩ | ⟨-, ops, -, h4, -⟩
    · exact ⟨s, h2.sound _ _ h4, h5⟩
    · rw [h3] at h4; cases h4
  · rcases lalr_round hv hK hfe h2 with ⟨-, h⟩ | ⟨hng, ops, h4, h5, h6⟩
    · rw [h3] at h; cases h
    · obtain ⟨i1, -, -, i4⟩ := (lalr_factPass hv.toWF ha hK hfe h4).iter h2
      have heq : changeIter ops (lalrVisit addr) m = (m', .unchanged) := by
        rw [h3] at h5; simpa using h5.symm
      rw [heq] at i1 i4
      obtain ⟨j1, j2⟩ := i4 rfl
      have hop : ∀ {q s la l s' t}, q ∈ g.prods → (s, la) ∈ m →
          s.prod.elements[s.index]? = some (.nonterm q.head) → ParseState.newLa f s la = .ok l →
          t ∈ l → KernelItem K q s' → ItemIn m s' (some t) := by
        intro q s la l s' t hq hs hn hl ht hk
        obtain ⟨m'', k1, k2, k3⟩ := j2 (ProdState.fromStart q, l)
          ((h6 _ _).2 ⟨q, hq, rfl, s, la, hs, hn, hl⟩)
        obtain ⟨-, -, -, c4⟩ := insertIter_items k1.wf (ProdState.fromStart q) l
        by_contra hno
        have := c4.2 ⟨t, ht, s', (k1.slot_iff hv.toWF ha hK hq s').2 hk,
          fun h => hno ((k2 (s', some t)).1 h)⟩
        have k3' : (CollectMap.insertIter (ProdState.cmp addr) compare m''
          (ProdState.fromStart q) l).2 = .unchanged := k3
        rw [this] at k3'; cases k3'
      have hla : ∀ {s la}, (s, la) ∈ m → ∀ B, s.prod.elements[s.index]? = some (.nonterm B) →
          ∃ l, ParseState.newLa f s la = .ok l := by
        intro s la hs B hB
        unfold ParseState.newLa
        rw [offsetElem_eq]
        split
        · rename_i C hC
          cases hfc : f.get C with
          | none => exact absurd ⟨s, ⟨la, hs, by simp⟩, B, C, hB, hC, hfc⟩ hng
          | some l => exact ⟨l, rfl⟩
        · exact ⟨_, rfl⟩
        · exact ⟨_, rfl⟩
      have hcomplete : ∀ s o, LalrFact g K s o → ItemIn m s o := by
        intro s o h
        induction h with
        | item h => exact h2.kernel _ _ ⟨_, h, by simp⟩
        | lookahead h ht => exact h2.kernel _ _ ⟨_, h, by rintro _ ⟨⟩; exact ht⟩
        | present _ ih => exact ih.toNone
        | term _ hn h1 hq hh hk ih =>
          obtain ⟨la, hs, -⟩ := ih
          obtain ⟨l, hl⟩ := hla hs _ hn
          subst hh
          exact hop hq hs hn hl ((newLa_cases hfe hl _).2 (Or.inl h1)) hk
        | first _ hn h1 hC hq hh hk ih =>
          obtain ⟨la, hs, -⟩ := ih
          obtain ⟨l, hl⟩ := hla hs _ hn
          subst hh
          exact hop hq hs hn hl ((newLa_cases hfe hl _).2 (Or.inr (Or.inl ⟨_, h1, hC⟩))) hk
        | last _ hn h1 hq hh hk ih =>
          obtain ⟨la, hs, ht⟩ := ih
          obtain ⟨l, hl⟩ := hla hs _ hn
          subst hh
          exact hop hq hs hn hl ((newLa_cases hfe hl _).2 (Or.inr (Or.inr ⟨h1, ht _ rfl⟩))) hk
      refine Or.inr ⟨?_, m', h1, i1.wf, ?_⟩
      · rintro ⟨s, hs, hgap⟩
        exact hng ⟨s, hcomplete _ _ hs, hgap⟩
      · intro s o
        exact ⟨i1.sound s o, fun h => (j1 (s, o)).2 (hcomplete s o h)⟩

end facts
end Bongo
