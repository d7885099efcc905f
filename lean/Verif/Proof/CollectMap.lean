import Verif.Proof.Utils
/-! Lemmas about `CollectMap` and grouping. -/
set_option linter.unusedSectionVars false
namespace Bongo
open Std
open scoped Classical

namespace CollectMap
variable {K : Type u} {V : Type v} {cmpK : K → K → Ordering} {cmpV : V → V → Ordering}
variable [TransCmp cmpK] [LawfulEqCmp cmpK] [TransCmp cmpV] [LawfulEqCmp cmpV]

/-- Well-formed: keys sorted and every stored set sorted. -/
structure WF (cmpK : K → K → Ordering) (cmpV : V → V → Ordering) (m : CollectMap K V) : Prop where
  keys : BMap.Sorted cmpK m
  sets : ∀ k s, BMap.get? cmpK m k = some s → BSet.Sorted cmpV s

/-- `v` is stored under `k`. -/
def Has (cmpK : K → K → Ordering) (m : CollectMap K V) (k : K) (v : V) : Prop :=
  ∃ s, BMap.get? cmpK m k = some s ∧ v ∈ s

theorem wf_nil : WF cmpK cmpV ([] : CollectMap K V) := ⟨BMap.sorted_nil, by simp⟩

theorem wf_insert {m : CollectMap K V} (h : WF cmpK cmpV m) (k : K) {s : BSet V}
    (hs : BSet.Sorted cmpV s) : WF cmpK cmpV (BMap.insert cmpK m k s) := by
  refine ⟨BMap.sorted_insert h.keys _ _, ?_⟩
  intro k' s' hg
  rw [BMap.get?_insert] at hg
  split at hg
  · cases hg; exact hs
  · exact h.sets k' s' hg

theorem wf_remove {m : CollectMap K V} (h : WF cmpK cmpV m) (k : K) :
    WF cmpK cmpV (BMap.remove cmpK m k) := by
  refine ⟨BMap.sorted_remove h.keys _, ?_⟩
  intro k' s' hg
  rw [BMap.get?_remove h.keys] at hg
  split at hg
  · cases hg
  · exact h.sets k' s' hg

theorem extendSet_spec {s : BSet V} (hs : BSet.Sorted cmpV s) (l : List V) :
    (extendSet cmpV s l).1 = BSet.insertAll cmpV s l ∧
      ((extendSet cmpV s l).2 = .changed ↔ ∃ v ∈ l, v ∉ s) := by
  unfold extendSet BSet.insertAll
  refine ⟨changeIter_fst _ _ _, ?_⟩
  induction l generalizing s with
  | nil => simp
  | cons a l ih =>
    rw [changeIter_cons]
    simp only [WasChanged.join_eq_changed, WasChanged.fromChanged_eq_changed, Bool.not_eq_true']
    rw [ih (BSet.sorted_insert hs a)]
    have hc : BSet.contains cmpV s a = false ↔ a ∉ s := by
      rw [← BSet.contains_iff_mem (cmp := cmpV)]; simp
    rw [hc]
    simp only [BSet.mem_insert, List.mem_cons]
    constructor
    · rintro (h | ⟨v, hv, h⟩)
      · exact ⟨a, Or.inl rfl, h⟩
      · exact ⟨v, Or.inr hv, fun h' => h (Or.inr h')⟩
    · rintro ⟨v, rfl | hv, h⟩
      · exact Or.inl h
      · by_cases hva : v = a
        · subst hva; exact Or.inl h
        · exact Or.inr ⟨v, hv, by rintro (h' | h') <;> contradiction⟩

theorem insert_wf {m : CollectMap K V} (h : WF cmpK cmpV m) (k : K) (v : V) :
    WF cmpK cmpV (insert cmpK cmpV m k v).1 := by
  unfold insert
  split
  · rename_i s hs; exact wf_insert h k (BSet.sorted_insert (h.sets k s hs) v)
  · exact wf_insert h k (BSet.sorted_insert List.Pairwise.nil v)

theorem insert_get {m : CollectMap K V} (k : K) (v : V) (k' : K) :
    BMap.get? cmpK (insert cmpK cmpV m k v).1 k' =
      if k' = k then some (BSet.insert cmpV ((BMap.get? cmpK m k).getD []) v)
      else BMap.get? cmpK m k' := by
  unfold insert
  split <;> rename_i h <;> simp [BMap.get?_insert, h]

theorem insert_changed {m : CollectMap K V} (k : K) (v : V) :
    (insert cmpK cmpV m k v).2 = .changed ↔ ¬ Has cmpK m k v := by
  unfold insert Has
  split
  · rename_i s hs
    simp only [WasChanged.fromChanged_eq_changed, Bool.not_eq_true', hs, Option.some.injEq]
    rw [← Bool.not_eq_true, BSet.contains_iff_mem]
    simp
  · rename_i hs; simp [hs]

theorem insertIter_wf {m : CollectMap K V} (h : WF cmpK cmpV m) (k : K) (l : List V) :
    WF cmpK cmpV (insertIter cmpK cmpV m k l).1 := by
  unfold insertIter
  split
  · rename_i s hs
    simp only [(extendSet_spec (h.sets k s hs) l).1]
    exact wf_insert h k (BSet.sorted_insertAll (h.sets k s hs) l)
  · split
    · exact wf_insert h k (BSet.sorted_insertAll (BSet.sorted_insert List.Pairwise.nil _) _)
    · exact h

theorem insertIter_get {m : CollectMap K V} (h : WF cmpK cmpV m) (k : K) (l : List V) (k' : K) :
    BMap.get? cmpK (insertIter cmpK cmpV m k l).1 k' =
      if k' = k then
        (if BMap.get? cmpK m k = none ∧ l = [] then none
          else some (BSet.insertAll cmpV ((BMap.get? cmpK m k).getD []) l))
      else BMap.get? cmpK m k' := by
  unfold insertIter
  split
  · rename_i s hs
    simp [(extendSet_spec (h.sets k s hs) l).1, BMap.get?_insert, hs]
  · rename_i hs
    split
    · simp [BMap.get?_insert, hs, BSet.insertAll]
    · by_cases hk : k' = k
      · subst hk; simp [hs]
      · simp [hk]

theorem insertIter_changed {m : CollectMap K V} (h : WF cmpK cmpV m) (k : K) (l : List V) :
    (insertIter cmpK cmpV m k l).2 = .changed ↔ ∃ v ∈ l, ¬ Has cmpK m k v := by
  unfold insertIter Has
  split
  · rename_i s hs
    simp [(extendSet_spec (h.sets k s hs) l).2, hs]
  · rename_i hs
    cases l with
    | nil => simp
    | cons a l => simp [hs]

theorem insertFromKeySet_wf {m : CollectMap K V} (h : WF cmpK cmpV m) (k src : K) :
    WF cmpK cmpV (insertFromKeySet cmpK cmpV m k src).1 := by
  unfold insertFromKeySet
  split
  · exact h
  · have hv : BSet.Sorted cmpV ((BMap.get? cmpK m k).getD []) := by
      cases hs : BMap.get? cmpK m k with
      | some s => exact h.sets k s hs
      | none => exact List.Pairwise.nil
    apply wf_insert (wf_remove h k)
    split
    · rw [(extendSet_spec hv _).1]; exact BSet.sorted_insertAll hv _
    · exact hv

theorem insertFromKeySet_get {m : CollectMap K V} (h : WF cmpK cmpV m) (k src : K) (k' : K) :
    BMap.get? cmpK (insertFromKeySet cmpK cmpV m k src).1 k' =
      if k = src then BMap.get? cmpK m k'
      else if k' = k then
        some (BSet.insertAll cmpV ((BMap.get? cmpK m k).getD []) ((BMap.get? cmpK m src).getD []))
      else BMap.get? cmpK m k' := by
  unfold insertFromKeySet
  by_cases hk : k = src
  · subst hk; simp [cmp_self]
  · have hc : cmpK k src ≠ .eq := fun h => hk (LawfulEqCmp.eq_of_compare h)
    simp only [hc, ↓reduceIte, hk]
    rw [BMap.get?_insert]
    have hv : BSet.Sorted cmpV ((BMap.get? cmpK m k).getD []) := by
      cases hs : BMap.get? cmpK m k with
      | some s => exact h.sets k s hs
      | none => exact List.Pairwise.nil
    have hsrc : BMap.get? cmpK (BMap.remove cmpK m k) src = BMap.get? cmpK m src := by
      rw [BMap.get?_remove h.keys]
      have : cmpK src k ≠ .eq := fun h => hk (LawfulEqCmp.eq_of_compare h).symm
      simp [this]
    by_cases hkk : k' = k
    · subst hkk
      simp only [cmp_self, ↓reduceIte, hsrc]
      cases h1 : BMap.get? cmpK m src with
      | none => cases h2 : BMap.get? cmpK m k' <;> simp [BSet.insertAll]
      | some ss =>
        simp only [(extendSet_spec hv ss).1]
        cases h2 : BMap.get? cmpK m k' <;> simp
    · have : cmpK k' k ≠ .eq := fun h => hkk (LawfulEqCmp.eq_of_compare h)
      simp only [this, ↓reduceIte, hkk]
      rw [BMap.get?_remove h.keys]; simp [this]

theorem insertFromKeySet_changed {m : CollectMap K V} (h : WF cmpK cmpV m) (k src : K) :
    (insertFromKeySet cmpK cmpV m k src).2 = .changed ↔
      ∃ v, Has cmpK m src v ∧ ¬ Has cmpK m k v := by
  unfold insertFromKeySet
  by_cases hk : k = src
  · subst hk; simp [cmp_self]
  · have hc : cmpK k src ≠ .eq := fun h => hk (LawfulEqCmp.eq_of_compare h)
    simp only [hc, ↓reduceIte]
    have hv : BSet.Sorted cmpV ((BMap.get? cmpK m k).getD []) := by
      cases hs : BMap.get? cmpK m k with
      | some s => exact h.sets k s hs
      | none => exact List.Pairwise.nil
    have hsrc : BMap.get? cmpK (BMap.remove cmpK m k) src = BMap.get? cmpK m src := by
      rw [BMap.get?_remove h.keys]
      have : cmpK src k ≠ .eq := fun h => hk (LawfulEqCmp.eq_of_compare h).symm
      simp [this]
    rw [hsrc]
    cases h1 : BMap.get? cmpK m src with
    | none => simp [Has, h1]
    | some ss =>
      simp only [(extendSet_spec hv ss).2]
      cases h2 : BMap.get? cmpK m k <;> simp [Has, h1, h2]

theorem has_insert {m : CollectMap K V} (k : K) (v : V) (k' : K) (v' : V) :
    Has cmpK (insert cmpK cmpV m k v).1 k' v' ↔ (k' = k ∧ v' = v) ∨ Has cmpK m k' v' := by
  unfold Has
  rw [insert_get]
  by_cases hk : k' = k
  · subst hk
    simp only [↓reduceIte, Option.some.injEq, exists_eq_left', BSet.mem_insert]
    cases h : BMap.get? cmpK m k' <;> simp
  · simp [hk]

theorem has_insertIter {m : CollectMap K V} (h : WF cmpK cmpV m) (k : K) (l : List V) (k' : K)
    (v' : V) :
    Has cmpK (insertIter cmpK cmpV m k l).1 k' v' ↔ (k' = k ∧ v' ∈ l) ∨ Has cmpK m k' v' := by
  unfold Has
  rw [insertIter_get h]
  by_cases hk : k' = k
  · subst hk
    simp only [↓reduceIte]
    split
    · rename_i hn; simp [hn.1, hn.2]
    · simp only [Option.some.injEq, exists_eq_left', BSet.mem_insertAll]
      cases h : BMap.get? cmpK m k' <;> simp
  · simp [hk]

theorem has_insertFromKeySet {m : CollectMap K V} (h : WF cmpK cmpV m) (k src : K) (k' : K)
    (v' : V) :
    Has cmpK (insertFromKeySet cmpK cmpV m k src).1 k' v' ↔
      (k' = k ∧ Has cmpK m src v') ∨ Has cmpK m k' v' := by
  unfold Has
  rw [insertFromKeySet_get h]
  by_cases hks : k = src
  · subst hks
    simp only [↓reduceIte]
    constructor
    · exact Or.inr
    · rintro (⟨rfl, h⟩ | h) <;> exact h
  · simp only [hks, ↓reduceIte]
    by_cases hk : k' = k
    · subst hk
      simp only [↓reduceIte, Option.some.injEq, exists_eq_left', BSet.mem_insertAll]
      cases h1 : BMap.get? cmpK m k' <;> cases h2 : BMap.get? cmpK m src <;> simp
    · simp [hk]
end CollectMap

section group
variable {K : Type u} {V : Type v} {cmpK : K → K → Ordering} {cmpV : V → V → Ordering}
variable [TransCmp cmpK] [LawfulEqCmp cmpK] [TransCmp cmpV] [LawfulEqCmp cmpV]

theorem mergeValuePairs_eq (l : List (K × V)) :
    mergeValuePairs cmpK cmpV l =
      l.foldl (fun m kv => (CollectMap.insert cmpK cmpV m kv.1 kv.2).1) [] := by
  unfold mergeValuePairs CollectMap.insert
  congr 1
  funext m kv
  split <;> rename_i h <;> simp [h]

theorem mergeValuePairs_wf (l : List (K × V)) :
    CollectMap.WF cmpK cmpV (mergeValuePairs cmpK cmpV l) := by
  rw [mergeValuePairs_eq]
  suffices ∀ m, CollectMap.WF cmpK cmpV m → CollectMap.WF cmpK cmpV
      (l.foldl (fun m kv => (CollectMap.insert cmpK cmpV m kv.1 kv.2).1) m) from
    this _ CollectMap.wf_nil
  induction l with
  | nil => intro m h; exact h
  | cons a l ih => intro m h; exact ih _ (CollectMap.insert_wf h _ _)

theorem mergeValuePairs_has (l : List (K × V)) (k : K) (v : V) :
    CollectMap.Has cmpK (mergeValuePairs cmpK cmpV l) k v ↔ (k, v) ∈ l := by
  rw [mergeValuePairs_eq]
  suffices ∀ m, CollectMap.Has cmpK
      (l.foldl (fun m kv => (CollectMap.insert cmpK cmpV m kv.1 kv.2).1) m) k v ↔
        (k, v) ∈ l ∨ CollectMap.Has cmpK m k v by
    rw [this]; simp [CollectMap.Has]
  induction l with
  | nil => simp
  | cons a l ih =>
    intro m
    rw [List.foldl_cons, ih, CollectMap.has_insert, List.mem_cons]
    obtain ⟨a1, a2⟩ := a
    simp only [Prod.mk.injEq]
    grind

theorem mergeValuePairs_nonempty (l : List (K × V)) (k : K) :
    BMap.get? cmpK (mergeValuePairs cmpK cmpV l) k ≠ some [] := by
  rw [mergeValuePairs_eq]
  suffices ∀ m, (BMap.get? cmpK m k ≠ some []) → BMap.get? cmpK
      (l.foldl (fun m kv => (CollectMap.insert cmpK cmpV m kv.1 kv.2).1) m) k ≠ some [] from
    this _ (by simp)
  induction l with
  | nil => intro m h; exact h
  | cons a l ih =>
    intro m h
    apply ih
    rw [CollectMap.insert_get]
    split
    · intro h'
      simp only [Option.some.injEq] at h'
      have : a.2 ∈ BSet.insert cmpV ((BMap.get? cmpK m a.1).getD []) a.2 :=
        BSet.mem_insert.2 (Or.inl rfl)
      rw [h'] at this; simp at this
    · exact h
end group
end Bongo
