import Verif.Proof.Effects
import Verif.Spec.State
import Verif.Proof.Nullable
import Mathlib.Data.List.Induction
/-!
# Lemmas: production states and sets of them
-/
set_option linter.unusedSectionVars false
namespace Bongo
open Std
variable {T NT AK AV : Type}

/-- `ProdElement`'s order is the lexicographic order of (identifier, element). -/
theorem ProdElement.cmp_def [Ord T] [Ord NT] (a b : ProdElement T NT) :
    ProdElement.cmp a b =
      (compare a.identifier b.identifier).then (compare a.element b.element) := by
  obtain ⟨ia, ea⟩ := a; obtain ⟨ib, eb⟩ := b
  cases ia <;> cases ib <;> rfl

instance ProdElement.cmp_trans [Ord T] [Ord NT] [TransOrd T] [TransOrd NT] :
    TransCmp (ProdElement.cmp (T := T) (NT := NT)) := by
  have h : (ProdElement.cmp (T := T) (NT := NT)) =
      compareLex (compareOn (·.identifier)) (compareOn (·.element)) := by
    funext a b; rw [ProdElement.cmp_def]; rfl
  rw [h]; infer_instance

instance ProdElement.cmp_lawful [Ord T] [Ord NT] [LawfulEqOrd T] [LawfulEqOrd NT] :
    LawfulEqCmp (ProdElement.cmp (T := T) (NT := NT)) where
  compare_self := by
    intro a; rw [ProdElement.cmp_def]
    rw [ReflCmp.compare_self (cmp := compare), ReflCmp.compare_self (cmp := compare)]; rfl
  eq_of_compare := by
    intro a b h
    rw [ProdElement.cmp_def, Ordering.then_eq_eq] at h
    obtain ⟨ia, ea⟩ := a; obtain ⟨ib, eb⟩ := b
    have h1 : ia = ib := LawfulEqCmp.eq_of_compare h.1
    have h2 : ea = eb := LawfulEqCmp.eq_of_compare h.2
    rw [h1, h2]

instance ProdState.cmp_trans (addr : NT → Nat → Nat) :
    TransCmp (ProdState.cmp (T := T) (AK := AK) (AV := AV) addr) where
  eq_swap {a b} := (prodCmp_trans (T := T) (AK := AK) (AV := AV) addr).eq_swap
  isLE_trans {a b c} h1 h2 := (prodCmp_trans (T := T) (AK := AK) (AV := AV) addr).isLE_trans h1 h2

/-- `insert` keeps exactly the old elements, and the new one if nothing equal was there. -/
theorem BSet.mem_insert_sorted {K : Type u} {cmp : K → K → Ordering} [TransCmp cmp] {s : BSet K}
    (hs : BSet.Sorted cmp s) {k x : K} :
    x ∈ BSet.insert cmp s k ↔ x ∈ s ∨ (x = k ∧ BSet.contains cmp s k = false) := by
  cases hc : BSet.contains cmp s k with
  | true => rw [BSet.insert_of_contains hs hc]; simp
  | false =>
    constructor
    · intro h
      rcases BSet.mem_insert_imp h with h | h
      · exact Or.inr ⟨h, rfl⟩
      · exact Or.inl h
    · rintro (h | ⟨rfl, -⟩)
      · exact BSet.insert_of_contains_aux h
      · have h1 : BSet.contains cmp (BSet.insert cmp s x) x = true := by
          rw [BSet.contains_insert]; simp [cmp_self]
        obtain ⟨y, hy, hxy⟩ := BSet.contains_iff.1 h1
        rcases BSet.mem_insert_imp hy with rfl | hy
        · exact hy
        · exfalso
          rw [BSet.contains_iff.2 ⟨y, hy, hxy⟩] at hc; cases hc

namespace ProdStateSet
variable {addr : NT → Nat → Nat}

theorem mem_add {s : ProdStateSet T NT AK AV} (hs : BSet.Sorted (ProdState.cmp addr) s)
    (st x : ProdState T NT AK AV) :
    x ∈ add addr s st ↔ x ∈ s ∨ (x = st ∧ ∀ y ∈ s, ProdState.cmp addr st y ≠ .eq) := by
  unfold add
  rw [BSet.mem_insert_sorted hs, BSet.not_contains_iff]

theorem sorted_add {s : ProdStateSet T NT AK AV} (hs : BSet.Sorted (ProdState.cmp addr) s)
    (st : ProdState T NT AK AV) : BSet.Sorted (ProdState.cmp addr) (add addr s st) :=
  BSet.sorted_insert hs st

/-- Elements of a sorted set that are equal under the order are the same element. -/
theorem sorted_unique {s : ProdStateSet T NT AK AV} (hs : BSet.Sorted (ProdState.cmp addr) s)
    {a b : ProdState T NT AK AV} (ha : a ∈ s) (hb : b ∈ s) (h : ProdState.cmp addr a b = .eq) :
    a = b := by
  induction s with
  | nil => cases ha
  | cons x s ih =>
    unfold BSet.Sorted at hs
    rw [List.pairwise_cons] at hs
    rcases List.mem_cons.1 ha with rfl | ha' <;> rcases List.mem_cons.1 hb with rfl | hb'
    · rfl
    · rw [hs.1 b hb'] at h; cases h
    · have := hs.1 a ha'
      rw [OrientedCmp.eq_comm] at h
      rw [h] at this; cases this
    · exact ih hs.2 ha' hb'

theorem nextElemState_some {s s' : ProdState T NT AK AV} {e} :
    s.nextElemState = some (e, s') ↔
      s.prod.prodElements[s.index]? = some e ∧ s' = ⟨s.prod, s.index + 1⟩ := by
  unfold ProdState.nextElemState ProdState.nextProdElem ProdState.offsetProdElem
  cases h : s.prod.prodElements[s.index + 0]? with
  | none => simp at h ⊢
  | some x =>
    simp at h ⊢
    intro _; exact eq_comm

section nexts
variable [Ord T] [Ord NT] [TransOrd T] [TransOrd NT] [LawfulEqOrd T] [LawfulEqOrd NT]

/-- The groups after the loop of `nexts` has gone through `l` (pairwise distinct productions). -/
theorem nexts_fold (l : List (ProdElement T NT × ProdState T NT AK AV))
    (hl : l.Pairwise (fun a b => ProdState.cmp addr a.2 b.2 ≠ .eq)) :
    let m := l.foldl (nextsStep addr) []
    BMap.Sorted ProdElement.cmp m ∧
    (∀ e s, BMap.get? ProdElement.cmp m e = some s → BSet.Sorted (ProdState.cmp addr) s) ∧
    (∀ e, (BMap.get? ProdElement.cmp m e).isSome ↔ ∃ st, (e, st) ∈ l) ∧
    ∀ e s, BMap.get? ProdElement.cmp m e = some s → ∀ st, st ∈ s ↔ (e, st) ∈ l := by
  classical
  induction l using List.reverseRecOn with
  | nil => simp [BMap.sorted_nil]
  | append_singleton l kv ih =>
    rw [List.pairwise_append] at hl
    obtain ⟨h1, h2, h3, h4⟩ := ih hl.1
    have hne := fun a ha => hl.2.2 a ha kv (by simp)
    obtain ⟨k, v⟩ := kv
    simp only [List.foldl_append, List.foldl_cons, List.foldl_nil] at *
    generalize hm : l.foldl (nextsStep addr) [] = m at *
    have hold : BSet.Sorted (ProdState.cmp addr)
        ((BMap.get? ProdElement.cmp m k).getD newEmpty) := by
      cases hg : BMap.get? ProdElement.cmp m k with
      | none => exact List.Pairwise.nil
      | some s => exact h2 k s hg
    have hmem : ∀ st, st ∈ (BMap.get? ProdElement.cmp m k).getD newEmpty ↔ (k, st) ∈ l := by
      intro st
      cases hg : BMap.get? ProdElement.cmp m k with
      | none =>
        have := (h3 k)
        rw [hg] at this
        simp only [Option.isSome_none, Bool.false_eq_true, false_iff, not_exists] at this
        simp [newEmpty, this st]
      | some s => simpa using h4 k s hg st
    have hget : ∀ e, BMap.get? ProdElement.cmp (nextsStep addr m (k, v)) e =
        if e = k then some (add addr ((BMap.get? ProdElement.cmp m k).getD newEmpty) v)
        else BMap.get? ProdElement.cmp m e := by
      intro e
      unfold nextsStep
      rw [BMap.get?_insert]
      simp
    refine ⟨BMap.sorted_insert h1 _ _, ?_, ?_, ?_⟩
    · intro e s hs
      rw [hget] at hs
      split at hs
      · cases hs; exact sorted_add hold v
      · exact h2 e s hs
    · intro e
      rw [hget]
      split
      · next he => subst he; simp only [Option.isSome_some, true_iff]; exact ⟨v, by simp⟩
      · next he =>
        rw [h3]
        constructor
        · rintro ⟨st, h⟩; exact ⟨st, by simp [h]⟩
        · rintro ⟨st, h⟩
          simp only [List.mem_append, List.mem_singleton, _root_.Prod.mk.injEq] at h
          rcases h with h | ⟨rfl, -⟩
          · exact ⟨st, h⟩
          · exact absurd rfl he
    · intro e s hs st
      rw [hget] at hs
      simp only [List.mem_append, List.mem_singleton, _root_.Prod.mk.injEq]
      split at hs
      · next he =>
        subst he
        cases hs
        rw [mem_add hold, hmem]
        constructor
        · rintro (h | ⟨rfl, -⟩)
          · exact Or.inl h
          · exact Or.inr ⟨rfl, rfl⟩
        · rintro (h | ⟨-, rfl⟩)
          · exact Or.inl h
          · refine Or.inr ⟨rfl, fun y hy => ?_⟩
            have := hne _ ((hmem y).1 hy)
            intro h
            rw [OrientedCmp.eq_comm] at h
            exact this h
      · next he =>
        rw [h4 e s hs]
        constructor
        · exact Or.inl
        · rintro (h | ⟨rfl, -⟩)
          · exact h
          · exact absurd rfl he

theorem nexts_spec {s : ProdStateSet T NT AK AV} (hs : BSet.Sorted (ProdState.cmp addr) s) :
    BMap.Sorted ProdElement.cmp (nexts addr s) ∧
    (∀ e s', (e, s') ∈ nexts addr s → BSet.Sorted (ProdState.cmp addr) s') ∧
    (∀ e, (∃ s', (e, s') ∈ nexts addr s) ↔ ∃ st ∈ s, ∃ st', st.nextElemState = some (e, st')) ∧
    ∀ e s', (e, s') ∈ nexts addr s → ∀ st', st' ∈ s' ↔ ∃ st ∈ s, st.nextElemState = some (e, st') := by
  have hl : (s.filterMap ProdState.nextElemState).Pairwise
      (fun a b => ProdState.cmp addr a.2 b.2 ≠ .eq) := by
    rw [List.pairwise_filterMap]
    refine List.Pairwise.imp ?_ hs
    intro a b hab x hx y hy
    obtain ⟨x1, x2⟩ := x
    obtain ⟨y1, y2⟩ := y
    rw [nextElemState_some] at hx hy
    obtain ⟨-, rfl⟩ := hx
    obtain ⟨-, rfl⟩ := hy
    unfold ProdState.cmp at *
    rw [hab]; simp
  obtain ⟨h1, h2, h3, h4⟩ := nexts_fold (addr := addr) _ hl
  have hm : ∀ e s', (e, s') ∈ nexts addr s ↔ BMap.get? ProdElement.cmp (nexts addr s) e = some s' :=
    fun e s' => BMap.mem_iff_get? h1 e s'
  have hmem : ∀ e st', (e, st') ∈ s.filterMap ProdState.nextElemState ↔
      ∃ st ∈ s, st.nextElemState = some (e, st') := by
    intro e st'; rw [List.mem_filterMap]
  refine ⟨h1, fun e s' h => h2 e s' ((hm e s').1 h), ?_, ?_⟩
  · intro e
    have := h3 e
    rw [Option.isSome_iff_exists] at this
    constructor
    · rintro ⟨s', h⟩
      obtain ⟨st', h'⟩ := this.1 ⟨s', (hm e s').1 h⟩
      obtain ⟨st, h5, h6⟩ := (hmem e st').1 h'
      exact ⟨st, h5, st', h6⟩
    · rintro ⟨st, h5, st', h6⟩
      obtain ⟨s', h⟩ := this.2 ⟨st', (hmem e st').2 ⟨st, h5, h6⟩⟩
      exact ⟨s', (hm e s').2 h⟩
  · intro e s' h st'
    rw [h4 e s' ((hm e s').1 h), hmem]
end nexts

/-! ### take_closure -/

/-- One round of the closure: what visiting the list `l` does. -/
theorem closureVisits (l : List (ProdState T NT AK AV)) {seen₀ next seen : ProdStateSet T NT AK AV}
    (hs : BSet.Sorted (ProdState.cmp addr) seen)
    (hsub : ∀ x ∈ seen₀, x ∈ seen) (hn : ∀ x ∈ next, x ∈ seen)
    (hsn : ∀ x ∈ seen, x ∈ seen₀ ∨ x ∈ next)
    (hlen : next.length + seen₀.length = seen.length) :
    let r := l.foldl (closureVisit addr) (next, seen)
    BSet.Sorted (ProdState.cmp addr) r.2 ∧ (∀ x ∈ seen, x ∈ r.2) ∧ (∀ x ∈ r.1, x ∈ r.2) ∧
      (∀ x ∈ r.2, x ∈ seen₀ ∨ x ∈ r.1) ∧ r.1.length + seen₀.length = r.2.length ∧
      (∀ x ∈ l, ∃ y ∈ r.2, ProdState.cmp addr x y = .eq) ∧ ∀ x ∈ r.2, x ∈ seen ∨ x ∈ l := by
  induction l generalizing next seen with
  | nil => exact ⟨hs, fun x h => h, hn, hsn, hlen, by simp, fun x h => Or.inl h⟩
  | cons a l ih =>
    simp only [List.foldl_cons]
    unfold closureVisit
    cases hc : BSet.contains (ProdState.cmp addr) seen a with
    | true =>
      rw [if_pos (by simp [hc])]
      obtain ⟨h1, h2, h3, h4, h5, h6, h7⟩ := ih hs hsub hn hsn hlen
      refine ⟨h1, h2, h3, h4, h5, ?_, ?_⟩
      · intro x hx
        rcases List.mem_cons.1 hx with rfl | hx
        · obtain ⟨y, hy, hxy⟩ := BSet.contains_iff.1 hc
          exact ⟨y, h2 y hy, hxy⟩
        · exact h6 x hx
      · intro x hx
        rcases h7 x hx with h | h
        · exact Or.inl h
        · exact Or.inr (by simp [h])
    | false =>
      rw [if_neg (by simp [hc])]
      have hms : ∀ x, x ∈ BSet.insert (ProdState.cmp addr) seen a ↔ x ∈ seen ∨ x = a := by
        intro x; rw [BSet.mem_insert_sorted hs]; simp [hc]
      have hcn : BSet.contains (ProdState.cmp addr) next a = false := by
        rw [BSet.not_contains_iff] at hc ⊢
        exact fun y hy => hc y (hn y hy)
      have hmn : ∀ x, x ∈ BSet.insert (ProdState.cmp addr) next a → x ∈ next ∨ x = a :=
        fun x h => (BSet.mem_insert_imp h).symm
      have hmn' : a ∈ BSet.insert (ProdState.cmp addr) next a := by
        have h1 : BSet.contains (ProdState.cmp addr) (BSet.insert (ProdState.cmp addr) next a) a
            = true := by
          rw [BSet.contains_insert]; simp [cmp_self]
        obtain ⟨y, hy, hxy⟩ := BSet.contains_iff.1 h1
        rcases BSet.mem_insert_imp hy with rfl | hy
        · exact hy
        · exact absurd hxy (BSet.not_contains_iff.1 hcn y hy)
      obtain ⟨h1, h2, h3, h4, h5, h6, h7⟩ := ih (next := BSet.insert (ProdState.cmp addr) next a)
        (BSet.sorted_insert hs a)
        (fun x hx => (hms x).2 (Or.inl (hsub x hx)))
        (fun x hx => (hms x).2 ((hmn x hx).imp_left (hn x)))
        (fun x hx => by
          rcases (hms x).1 hx with h | rfl
          · rcases hsn x h with h | h
            · exact Or.inl h
            · exact Or.inr (BSet.insert_of_contains_aux h)
          · exact Or.inr hmn')
        (by rw [BSet.length_insert_of_not_contains hcn, BSet.length_insert_of_not_contains hc]; omega)
      refine ⟨h1, fun x hx => h2 x ((hms x).2 (Or.inl hx)), h3, h4, h5, ?_, ?_⟩
      · intro x hx
        rcases List.mem_cons.1 hx with rfl | hx
        · exact ⟨x, h2 x ((hms x).2 (Or.inr rfl)), cmp_self x⟩
        · exact h6 x hx
      · intro x hx
        rcases h7 x hx with h | h
        · rcases (hms x).1 h with h | rfl
          · exact Or.inl h
          · exact Or.inr (by simp)
        · exact Or.inr (by simp [h])

theorem closureRound (f : ProdState T NT AK AV → List (ProdState T NT AK AV))
    (curr seen : ProdStateSet T NT AK AV) (hs : BSet.Sorted (ProdState.cmp addr) seen) :
    let r := (curr.flatMap f).foldl (closureVisit addr) ([], seen)
    BSet.Sorted (ProdState.cmp addr) r.2 ∧ (∀ x ∈ seen, x ∈ r.2) ∧ (∀ x ∈ r.1, x ∈ r.2) ∧
      (∀ x ∈ r.2, x ∈ seen ∨ x ∈ r.1) ∧ r.1.length + seen.length = r.2.length ∧
      (∀ x ∈ curr.flatMap f, ∃ y ∈ r.2, ProdState.cmp addr x y = .eq) ∧
      ∀ x ∈ r.2, x ∈ seen ∨ x ∈ curr.flatMap f :=
  closureVisits (curr.flatMap f) (seen₀ := seen) (next := []) hs (fun x h => h) (by simp)
    (fun x h => Or.inl h) (by simp)

/-- Any answer of the loop. -/
theorem closureLoop_ok {f : ProdState T NT AK AV → List (ProdState T NT AK AV)} {fuel : Nat}
    {curr seen r : ProdStateSet T NT AK AV} (h : closureLoop addr fuel f curr seen = .ok r)
    (P : ProdState T NT AK AV → Prop) (hP : ∀ a, P a → ∀ b ∈ f a, P b)
    (hs : BSet.Sorted (ProdState.cmp addr) seen) (hsP : ∀ x ∈ seen, P x)
    (hcs : ∀ x ∈ curr, x ∈ seen)
    (hcl : ∀ x ∈ seen, x ∈ curr ∨ ∀ y ∈ f x, ∃ z ∈ seen, ProdState.cmp addr y z = .eq) :
    BSet.Sorted (ProdState.cmp addr) r ∧ (∀ x ∈ seen, x ∈ r) ∧ (∀ x ∈ r, P x) ∧
      ∀ x ∈ r, ∀ y ∈ f x, ∃ z ∈ r, ProdState.cmp addr y z = .eq := by
  induction fuel generalizing curr seen with
  | zero => simp [closureLoop] at h
  | succ fuel ih =>
    obtain ⟨h1, h2, h3, h4, -, h6, h7⟩ := closureRound (addr := addr) f curr seen hs
    rw [closureLoop] at h
    generalize hr : (curr.flatMap f).foldl (closureVisit addr) ([], seen) = st at *
    obtain ⟨nx, sn⟩ := st
    simp only at *
    have hPsn : ∀ x ∈ sn, P x := by
      intro x hx
      rcases h7 x hx with h | h
      · exact hsP x h
      · obtain ⟨y, hy, hyx⟩ := List.mem_flatMap.1 h
        exact hP y (hsP y (hcs y hy)) x hyx
    have hclosed : ∀ x ∈ seen, ∀ y ∈ f x, ∃ z ∈ sn, ProdState.cmp addr y z = .eq := by
      intro x hx y hy
      rcases hcl x hx with hc | hc
      · exact h6 y (List.mem_flatMap.2 ⟨x, hc, hy⟩)
      · obtain ⟨z, hz, hyz⟩ := hc y hy
        exact ⟨z, h2 z hz, hyz⟩
    cases nx with
    | nil =>
      simp only [Res.ok.injEq] at h
      subst h
      refine ⟨h1, h2, hPsn, ?_⟩
      intro x hx
      rcases h4 x hx with h | h
      · exact hclosed x h
      · cases h
    | cons c cs =>
      obtain ⟨i1, i2, i3, i4⟩ := ih h h1 hPsn h3 (by
        intro x hx
        rcases h4 x hx with h | h
        · exact Or.inr (hclosed x h)
        · exact Or.inl h)
      exact ⟨i1, fun x hx => i2 x (h2 x hx), i3, i4⟩

/-- The loop ends when all visited states belong to finitely many productions. -/
theorem closureLoop_terminates {f : ProdState T NT AK AV → List (ProdState T NT AK AV)} {fuel : Nat}
    {curr seen : ProdStateSet T NT AK AV} (U : List Nat)
    (hs : BSet.Sorted (ProdState.cmp addr) seen)
    (hsU : ∀ x ∈ seen, addr x.prod.head x.prod.index ∈ U)
    (hcU : ∀ x y, y ∈ f x → addr y.prod.head y.prod.index ∈ U)
    (hf : U.length < fuel + seen.length) (h0 : 0 < fuel) :
    ∃ r, closureLoop addr fuel f curr seen = .ok r := by
  have hbound : ∀ s : ProdStateSet T NT AK AV, BSet.Sorted (ProdState.cmp addr) s →
      (∀ x ∈ s, addr x.prod.head x.prod.index ∈ U) → s.length ≤ U.length := by
    intro s hs hsU
    have : (s.map (fun x => addr x.prod.head x.prod.index)).length ≤ U.length := by
      apply nodup_subset_length
      · unfold List.Nodup
        rw [List.pairwise_map]
        refine List.Pairwise.imp ?_ hs
        intro a b hab he
        unfold ProdState.cmp prodCmp at hab
        rw [he] at hab
        simp at hab
      · intro x hx
        obtain ⟨y, hy, rfl⟩ := List.mem_map.1 hx
        exact hsU y hy
    simpa using this
  induction fuel generalizing curr seen with
  | zero => omega
  | succ fuel ih =>
    obtain ⟨h1, h2, h3, h4, h5, h6, h7⟩ := closureRound (addr := addr) f curr seen hs
    rw [closureLoop]
    generalize hr : (curr.flatMap f).foldl (closureVisit addr) ([], seen) = st at *
    obtain ⟨nx, sn⟩ := st
    simp only at *
    have hsnU : ∀ x ∈ sn, addr x.prod.head x.prod.index ∈ U := by
      intro x hx
      rcases h7 x hx with h | h
      · exact hsU x h
      · obtain ⟨y, -, hyx⟩ := List.mem_flatMap.1 h
        exact hcU y x hyx
    cases nx with
    | nil => exact ⟨_, rfl⟩
    | cons c cs =>
      simp only [List.length_cons] at h5
      have := hbound sn h1 hsnU
      exact ih h1 hsnU (by omega) (by omega)

section effects
variable {σ : Type v}

theorem closureLevelE_eq (f : σ → ProdState T NT AK AV → σ × Res (List (ProdState T NT AK AV)))
    (curr : List (ProdState T NT AK AV)) (s : σ)
    (st : ProdStateSet T NT AK AV × ProdStateSet T NT AK AV) :
    closureLevelE addr f curr s st = bfsLevelE (ProdState.cmp addr) f curr s st := by
  induction curr generalizing s st with
  | nil => rfl
  | cons c curr ih =>
    rw [closureLevelE, bfsLevelE]
    rcases f s c with ⟨s1, r⟩
    cases r with
    | ok l => exact ih _ _
    | panic w => rfl
    | oof => rfl

/-- The loop of `take_closure` is that of the search, entered at the bottom: it checks for an empty
next level after a round rather than before it. -/
theorem closureLoopE_eq (fuel : Nat)
    (f : σ → ProdState T NT AK AV → σ × Res (List (ProdState T NT AK AV))) (s : σ)
    (c : ProdState T NT AK AV) (cs seen : ProdStateSet T NT AK AV) :
    closureLoopE addr fuel f s (c :: cs) seen = bfsLoopE (ProdState.cmp addr) fuel f s (c :: cs) seen := by
  induction fuel generalizing s c cs seen with
  | zero => rfl
  | succ fuel ih =>
    rw [closureLoopE, bfsLoopE, closureLevelE_eq]
    rcases bfsLevelE (ProdState.cmp addr) f (c :: cs) s ([], seen) with ⟨s1, r⟩
    cases r with
    | ok st =>
      obtain ⟨nx, sn⟩ := st
      cases nx with
      | nil => cases fuel <;> rfl
      | cons d ds => exact ih _ _ _ _
    | panic w => rfl
    | oof => rfl

/-- From the empty set nothing is asked. -/
theorem closureLoopE_nil (fuel : Nat)
    (f : σ → ProdState T NT AK AV → σ × Res (List (ProdState T NT AK AV))) (s : σ)
    (seen : ProdStateSet T NT AK AV) :
    closureLoopE addr (fuel + 1) f s [] seen = (s, .ok seen) := by
  rw [closureLoopE]; rfl

theorem closureLevelE_pure {f : σ → ProdState T NT AK AV → σ × Res (List (ProdState T NT AK AV))}
    {g : ProdState T NT AK AV → List (ProdState T NT AK AV)}
    (hfg : ∀ s x, (f s x).2 = .ok (g x)) (curr : List (ProdState T NT AK AV)) (s : σ)
    (st : ProdStateSet T NT AK AV × ProdStateSet T NT AK AV) :
    (closureLevelE addr f curr s st).2 = .ok ((curr.flatMap g).foldl (closureVisit addr) st) := by
  induction curr generalizing s st with
  | nil => rfl
  | cons c curr ih =>
    rw [closureLevelE]
    have := hfg s c
    rcases hf : f s c with ⟨s1, r⟩
    rw [hf] at this
    simp only at this
    subst this
    simp only [List.flatMap_cons, List.foldl_append]
    exact ih _ _

theorem closureLoopE_pure {f : σ → ProdState T NT AK AV → σ × Res (List (ProdState T NT AK AV))}
    {g : ProdState T NT AK AV → List (ProdState T NT AK AV)}
    (hfg : ∀ s x, (f s x).2 = .ok (g x)) (fuel : Nat) (s : σ) (curr seen : ProdStateSet T NT AK AV) :
    (closureLoopE addr fuel f s curr seen).2 = closureLoop addr fuel g curr seen := by
  induction fuel generalizing s curr seen with
  | zero => rfl
  | succ fuel ih =>
    rw [closureLoopE, closureLoop]
    have := closureLevelE_pure (addr := addr) hfg curr s ([], seen)
    rcases hl : closureLevelE addr f curr s ([], seen) with ⟨s1, r⟩
    rw [hl] at this
    simp only at this
    subst this
    generalize (curr.flatMap g).foldl (closureVisit addr) ([], seen) = st
    obtain ⟨nx, sn⟩ := st
    cases nx with
    | nil => rfl
    | cons d ds => exact ih _ _ _

/-- `take_closure` keeps the set sorted, whatever the closure function does. -/
theorem sorted_takeClosureE {f : σ → ProdState T NT AK AV → σ × Res (List (ProdState T NT AK AV))}
    {fuel : Nat} {s : σ} {set : ProdStateSet T NT AK AV}
    (hs : BSet.Sorted (ProdState.cmp addr) set) :
    BSet.Sorted (ProdState.cmp addr) (takeClosureE addr fuel f s set).2.1 := by
  unfold takeClosureE
  rcases hl : closureLoopE addr fuel f s set set with ⟨s', r⟩
  cases r with
  | ok r =>
    cases set with
    | nil =>
      cases fuel with
      | zero => simp [closureLoopE] at hl
      | succ fuel => rw [closureLoopE_nil] at hl; cases hl; exact hs
    | cons c cs =>
      rw [closureLoopE_eq] at hl
      have hi : EInv (ProdState.cmp addr) f (c :: cs) [] (c :: cs) s [] [] s (c :: cs) [] (c :: cs) :=
        ⟨.nil, hs, by simp, by simp, by simp, fun _ h => h, fun _ h => Or.inl h, by simp⟩
      obtain ⟨more, outs, -, h⟩ := loopE_ok hi hl
      exact h.sorted
  | panic w => exact hs
  | oof => exact hs
end effects

theorem Obtained.sorted [Ord T] [Ord NT] [TransOrd T] [TransOrd NT] [LawfulEqOrd T] [LawfulEqOrd NT]
    {s : ProdStateSet T NT AK AV} (h : Obtained addr s) : BSet.Sorted (ProdState.cmp addr) s := by
  induction h with
  | newEmpty => exact List.Pairwise.nil
  | collect l hc => exact hc.sorted l
  | add st _ ih => exact sorted_add ih st
  | nexts _ h ih => exact (nexts_spec ih).2.1 _ _ h
  | takeClosure _ ih => exact sorted_takeClosureE ih
end ProdStateSet
end Bongo
