import Verif.Model.BTree
/-! Lemmas about the `BTreeMap`/`BTreeSet` model. -/
set_option linter.unusedSectionVars false
namespace Bongo
open Std

section ord
variable {K : Type u} {cmp : K → K → Ordering} [TransCmp cmp]

theorem cmp_congr_left {a b c : K} (h : cmp a b = .eq) : cmp a c = cmp b c :=
  TransCmp.congr_left h

theorem cmp_congr_right {a b c : K} (h : cmp b c = .eq) : cmp a b = cmp a c :=
  TransCmp.congr_right h

theorem cmp_eq_symm {a b : K} (h : cmp a b = .eq) : cmp b a = .eq :=
  OrientedCmp.eq_symm h

theorem cmp_self (a : K) : cmp a a = .eq := ReflCmp.compare_self

end ord

namespace BMap
variable {K : Type u} {V : Type v} {cmp : K → K → Ordering}

@[simp] theorem entry?_nil (k : K) : entry? cmp ([] : BMap K V) k = none := rfl
@[simp] theorem get?_nil (k : K) : get? cmp ([] : BMap K V) k = none := rfl

theorem entry?_cons (k' : K) (v : V) (m : BMap K V) (k : K) :
    entry? cmp ((k', v) :: m) k = if cmp k k' = .eq then some (k', v) else entry? cmp m k := by
  rw [entry?]; cases h : cmp k k' <;> simp

theorem get?_cons (k' : K) (v : V) (m : BMap K V) (k : K) :
    get? cmp ((k', v) :: m) k = if cmp k k' = .eq then some v else get? cmp m k := by
  simp only [get?, entry?_cons]; split <;> simp

theorem entry?_mem {m : BMap K V} {k : K} {e} (h : entry? cmp m k = some e) :
    e ∈ m ∧ cmp k e.1 = .eq := by
  induction m with
  | nil => simp at h
  | cons x m ih =>
    obtain ⟨k', v⟩ := x
    rw [entry?_cons] at h
    split at h
    · cases h; simp_all
    · have := ih h; simp_all

theorem entry?_isSome {m : BMap K V} {k : K} {e} (hm : e ∈ m) (h : cmp k e.1 = .eq) :
    (entry? cmp m k).isSome := by
  induction m with
  | nil => simp at hm
  | cons x m ih =>
    obtain ⟨k', v⟩ := x
    rw [entry?_cons]
    split
    · rfl
    · rcases List.mem_cons.1 hm with rfl | hm
      · contradiction
      · exact ih hm

theorem get?_mem {m : BMap K V} {k : K} {v} (h : get? cmp m k = some v) :
    ∃ k', (k', v) ∈ m ∧ cmp k k' = .eq := by
  simp only [get?, Option.map_eq_some_iff] at h
  obtain ⟨⟨k', v'⟩, h, rfl⟩ := h
  exact ⟨k', entry?_mem h⟩

section
variable [TransCmp cmp]

theorem get?_insert (m : BMap K V) (k : K) (v : V) (a : K) :
    get? cmp (insert cmp m k v) a = if cmp a k = .eq then some v else get? cmp m a := by
  induction m with
  | nil => simp only [insert, get?_cons, get?_nil]
  | cons x m ih =>
    obtain ⟨k', v'⟩ := x
    rw [insert]
    cases h : cmp k k' with
    | lt => simp only [get?_cons]
    | eq =>
      simp only [get?_cons]
      rw [← cmp_congr_right (cmp := cmp) (a := a) h]
      split <;> rfl
    | gt =>
      simp only [get?_cons, ih]
      split
      · rename_i h1
        split
        · rename_i h2
          have h3 : cmp k k' = .eq := by
            rw [← cmp_congr_left (cmp := cmp) (c := k') h2]; exact h1
          simp [h3] at h
        · rfl
      · rfl

theorem contains_insert (m : BMap K V) (k : K) (v : V) (a : K) :
    contains cmp (insert cmp m k v) a = (decide (cmp a k = .eq) || contains cmp m a) := by
  simp only [contains, get?_insert]; split <;> simp [*]

theorem mem_insert_of_vacant {m : BMap K V} {k : K} {v : V} (h : get? cmp m k = none) (e : K × V) :
    e ∈ insert cmp m k v ↔ e = (k, v) ∨ e ∈ m := by
  induction m with
  | nil => simp [insert]
  | cons x m ih =>
    obtain ⟨k', v'⟩ := x
    rw [get?_cons] at h
    rw [insert]
    cases hc : cmp k k' with
    | lt => simp
    | eq => simp [hc] at h
    | gt => simp [hc] at h; simp [ih h]; grind

theorem sorted_insert {m : BMap K V} (h : Sorted cmp m) (k : K) (v : V) :
    Sorted cmp (insert cmp m k v) := by
  have key : ∀ (m : BMap K V) (e : K × V), e ∈ insert cmp m k v →
      cmp e.1 k = .eq ∨ e ∈ m := by
    intro m
    induction m with
    | nil => intro e he; simp [insert] at he; left; subst he; exact cmp_self _
    | cons x m ih =>
      obtain ⟨k', v'⟩ := x
      intro e he
      rw [insert] at he
      cases hc : cmp k k' with
      | lt =>
        simp only [hc, List.mem_cons] at he
        rcases he with rfl | rfl | he
        · left; exact cmp_self _
        · simp
        · simp [he]
      | eq =>
        simp only [hc, List.mem_cons] at he
        rcases he with rfl | he
        · left; exact cmp_eq_symm hc
        · simp [he]
      | gt =>
        simp only [hc, List.mem_cons] at he
        rcases he with rfl | he
        · simp
        · rcases ih e he with h | h <;> simp [h]
  unfold Sorted at *
  induction m with
  | nil => simp [insert]
  | cons x m ih =>
    obtain ⟨k', v'⟩ := x
    rw [List.pairwise_cons] at h
    rw [insert]
    cases hc : cmp k k' with
    | lt =>
      simp only [List.pairwise_cons]
      refine ⟨?_, h.1, h.2⟩
      intro e he
      rcases List.mem_cons.1 he with rfl | he
      · exact hc
      · exact TransCmp.lt_trans hc (h.1 e he)
    | eq =>
      simp only [List.pairwise_cons]
      exact ⟨h.1, h.2⟩
    | gt =>
      simp only [List.pairwise_cons]
      refine ⟨?_, ih h.2⟩
      intro e he
      rcases key m e he with he | he
      · rw [cmp_congr_right (cmp := cmp) (a := k') he]
        exact OrientedCmp.gt_iff_lt.1 hc
      · exact h.1 e he

theorem sorted_remove {m : BMap K V} (h : Sorted cmp m) (k : K) : Sorted cmp (remove cmp m k) := by
  have hs : ∀ m : BMap K V, (remove cmp m k).Sublist m := by
    intro m
    induction m with
    | nil => simp [remove]
    | cons x m ih =>
      obtain ⟨k', v'⟩ := x
      rw [remove]
      cases hc : cmp k k' <;> simp [ih]
  exact List.Pairwise.sublist (hs m) h

theorem sorted_nil : Sorted cmp ([] : BMap K V) := List.Pairwise.nil

theorem entry?_of_mem {m : BMap K V} (h : Sorted cmp m) {e : K × V} (he : e ∈ m) {k : K}
    (hk : cmp k e.1 = .eq) : entry? cmp m k = some e := by
  induction m with
  | nil => simp at he
  | cons x m ih =>
    obtain ⟨k', v'⟩ := x
    rw [Sorted, List.pairwise_cons] at h
    rw [entry?_cons]
    rcases List.mem_cons.1 he with rfl | he
    · simp [hk]
    · have h1 := h.1 e he
      have : cmp k k' ≠ .eq := by
        intro h2
        have h3 : cmp k' e.1 = .eq := by
          rw [← cmp_congr_left (cmp := cmp) (c := e.1) h2]; exact hk
        simp [h3] at h1
      simp [this, ih h.2 he]

theorem get?_of_mem {m : BMap K V} (h : Sorted cmp m) {k' : K} {v : V} (he : (k', v) ∈ m) {k : K}
    (hk : cmp k k' = .eq) : get? cmp m k = some v := by
  simp [get?, entry?_of_mem h he hk]

/-- In a sorted map two entries with equal keys are the same entry. -/
theorem sorted_unique {m : BMap K V} (h : Sorted cmp m) {e e' : K × V} (he : e ∈ m) (he' : e' ∈ m)
    (hk : cmp e.1 e'.1 = .eq) : e = e' := by
  have h1 := entry?_of_mem h he (cmp_self e.1)
  have h2 := entry?_of_mem h he' hk
  simp_all

theorem get?_remove {m : BMap K V} (h : Sorted cmp m) (k a : K) :
    get? cmp (remove cmp m k) a = if cmp a k = .eq then none else get? cmp m a := by
  induction m with
  | nil => simp [remove]
  | cons x m ih =>
    obtain ⟨k', v'⟩ := x
    have h' := h
    rw [Sorted, List.pairwise_cons] at h
    rw [remove]
    have hne : ∀ b, cmp b k' = .eq → get? cmp m b = none := by
      intro b hb
      cases hg : get? cmp m b with
      | none => rfl
      | some v =>
        obtain ⟨k2, hm, hk2⟩ := get?_mem hg
        have := h.1 _ hm
        have h3 : cmp k' k2 = .eq := by
          rw [← cmp_congr_left (cmp := cmp) (c := k2) hb]; exact hk2
        simp_all
    cases hc : cmp k k' with
    | eq =>
      simp only [get?_cons]
      rw [← cmp_congr_right (cmp := cmp) (a := a) hc]
      split
      · rename_i h1
        exact hne a (by rw [← cmp_congr_right (cmp := cmp) (a := a) hc]; exact h1)
      · rfl
    | lt | gt =>
      simp only [get?_cons, ih h.2]
      split
      · rename_i h1
        split
        · rename_i h2
          have h3 : cmp k k' = .eq := by
            rw [← cmp_congr_left (cmp := cmp) (c := k') h2]; exact h1
          simp [h3] at hc
        · rfl
      · rfl

variable [LawfulEqCmp cmp]

theorem get?_insert_self (m : BMap K V) (k : K) (v : V) : get? cmp (insert cmp m k v) k = some v := by
  rw [get?_insert]; simp [cmp_self]

theorem get?_insert_ne {m : BMap K V} {k a : K} (v : V) (h : a ≠ k) :
    get? cmp (insert cmp m k v) a = get? cmp m a := by
  rw [get?_insert]; simp [h]

theorem mem_iff_get? {m : BMap K V} (h : Sorted cmp m) (k : K) (v : V) :
    (k, v) ∈ m ↔ get? cmp m k = some v := by
  constructor
  · intro hm; exact get?_of_mem h hm (cmp_self k)
  · intro hg
    obtain ⟨k', hm, hk⟩ := get?_mem hg
    rw [LawfulEqCmp.eq_of_compare hk]; exact hm

theorem mem_keys {m : BMap K V} (k : K) : k ∈ keys m ↔ contains cmp m k = true := by
  induction m with
  | nil => simp [keys, contains]
  | cons x m ih =>
    obtain ⟨k', v'⟩ := x
    simp only [keys, List.map_cons, List.mem_cons] at *
    simp only [contains, get?_cons] at *
    by_cases hk : k = k'
    · subst hk; simp [cmp_self]
    · have : cmp k k' ≠ .eq := fun h => hk (LawfulEqCmp.eq_of_compare h)
      simp [hk, this, ih]

theorem keys_sorted {m : BMap K V} (h : Sorted cmp m) : BSet.Sorted cmp (keys m) := by
  unfold Sorted at h; unfold BSet.Sorted keys
  rw [List.pairwise_map]; exact h

/-- A sorted map is determined by its lookups. -/
theorem ext {m m' : BMap K V} (h : Sorted cmp m) (h' : Sorted cmp m')
    (hg : ∀ k, get? cmp m k = get? cmp m' k) : m = m' := by
  induction m generalizing m' with
  | nil =>
    cases m' with
    | nil => rfl
    | cons x m' =>
      obtain ⟨k, v⟩ := x
      have := hg k; rw [get?_cons] at this; simp [cmp_self] at this
  | cons x m ih =>
    obtain ⟨k, v⟩ := x
    cases m' with
    | nil => have := hg k; rw [get?_cons] at this; simp [cmp_self] at this
    | cons y m' =>
      obtain ⟨k', v'⟩ := y
      have hs := h; have hs' := h'
      rw [Sorted, List.pairwise_cons] at h h'
      have hk : k = k' := by
        have h1 : (k, v) ∈ (k', v') :: m' := by
          rw [mem_iff_get? hs', ← hg, get?_cons]; simp [cmp_self]
        have h2 : (k', v') ∈ (k, v) :: m := by
          rw [mem_iff_get? hs, hg, get?_cons]; simp [cmp_self]
        rcases List.mem_cons.1 h1 with h1 | h1
        · simp_all
        · rcases List.mem_cons.1 h2 with h2 | h2
          · simp_all
          · have a := h.1 _ h2
            have b := h'.1 _ h1
            have := OrientedCmp.gt_iff_lt.2 a
            simp_all
      subst hk
      have hv : v = v' := by
        have := hg k; simpa [get?_cons, cmp_self] using this
      subst hv
      congr 1
      apply ih h.2 h'.2
      intro a
      have hga := hg a
      simp only [get?_cons] at hga
      by_cases hak : cmp a k = .eq
      · have := LawfulEqCmp.eq_of_compare hak
        subst this
        have n1 : get? cmp m a = none := by
          cases hx : get? cmp m a with
          | none => rfl
          | some w =>
            have := h.1 _ ((mem_iff_get? h.2 _ _).2 hx)
            simp [cmp_self] at this
        have n2 : get? cmp m' a = none := by
          cases hx : get? cmp m' a with
          | none => rfl
          | some w =>
            have := h'.1 _ ((mem_iff_get? h'.2 _ _).2 hx)
            simp [cmp_self] at this
        rw [n1, n2]
      · simpa [hak] using hga

theorem sorted_foldl_insert {α : Type w} (f : α → K × V) (l : List α) {m : BMap K V} (h : Sorted cmp m) :
    Sorted cmp (l.foldl (fun m a => insert cmp m (f a).1 (f a).2) m) := by
  induction l generalizing m with
  | nil => exact h
  | cons a l ih => exact ih (sorted_insert h _ _)

omit [LawfulEqCmp cmp] in
theorem sorted_ofList (l : List (K × V)) : Sorted cmp (ofList cmp l) := by
  unfold ofList
  have : ∀ (l : List (K × V)) (m : BMap K V), Sorted cmp m →
      Sorted cmp (l.foldl (fun m kv => insert cmp m kv.1 kv.2) m) := by
    intro l
    induction l with
    | nil => intro m h; exact h
    | cons a l ih => intro m h; exact ih _ (sorted_insert h _ _)
  exact this l [] sorted_nil

omit [LawfulEqCmp cmp] in
/-- Collecting pairs into a map: the last pair with an equal key wins. -/
theorem get?_ofList (l : List (K × V)) (k : K) :
    get? cmp (ofList cmp l) k = (l.reverse.find? (fun kv => cmp k kv.1 == .eq)).map (·.2) := by
  unfold ofList
  have : ∀ (l : List (K × V)) (m : BMap K V),
      get? cmp (l.foldl (fun m kv => insert cmp m kv.1 kv.2) m) k =
        ((l.reverse.find? (fun kv => cmp k kv.1 == .eq)).map (·.2)).or (get? cmp m k) := by
    intro l
    induction l with
    | nil => intro m; simp
    | cons a l ih =>
      intro m
      simp only [List.foldl_cons, ih, List.reverse_cons, List.find?_append, get?_insert]
      cases h : List.find? (fun kv => cmp k kv.1 == Ordering.eq) l.reverse with
      | some x => simp
      | none =>
        by_cases hk : cmp k a.1 = .eq <;> simp [List.find?_cons, hk]
  rw [this]; simp
end
end BMap

namespace BSet
variable {K : Type u} {cmp : K → K → Ordering}

theorem contains_iff {s : BSet K} {k : K} : contains cmp s k = true ↔ ∃ k' ∈ s, cmp k k' = .eq := by
  simp [contains]

theorem insert_of_contains_aux {s : BSet K} {k : K} {e : K} : e ∈ s → e ∈ insert cmp s k := by
  induction s with
  | nil => simp
  | cons x s ih =>
    intro he
    rw [insert]
    cases h : cmp k x <;> simp_all
    rcases he with h | h
    · simp [h]
    · simp [ih h]

theorem mem_insert_imp {s : BSet K} {k : K} {e : K} : e ∈ insert cmp s k → e = k ∨ e ∈ s := by
  induction s with
  | nil => simp [insert]
  | cons x s ih =>
    intro he
    rw [insert] at he
    cases h : cmp k x <;> simp_all
    rcases he with h | h
    · simp [h]
    · rcases ih h with h | h <;> simp [h]

section
variable [TransCmp cmp]

theorem contains_insert (s : BSet K) (k a : K) :
    contains cmp (insert cmp s k) a = (decide (cmp a k = .eq) || contains cmp s a) := by
  induction s with
  | nil => simp [insert, contains]; rfl
  | cons x s ih =>
    rw [insert]
    cases h : cmp k x with
    | lt => simp [contains]; rfl
    | eq =>
      simp only [contains, List.any_cons]
      rw [← cmp_congr_right (cmp := cmp) (a := a) h]
      cases cmp a k <;> simp
    | gt =>
      simp only [contains, List.any_cons] at *
      rw [ih]
      cases cmp a k <;> cases cmp a x <;> simp

theorem sorted_insert {s : BSet K} (h : Sorted cmp s) (k : K) : Sorted cmp (insert cmp s k) := by
  unfold Sorted at *
  induction s with
  | nil => simp [insert]
  | cons x s ih =>
    rw [List.pairwise_cons] at h
    rw [insert]
    cases hc : cmp k x with
    | lt =>
      simp only [List.pairwise_cons]
      refine ⟨?_, h.1, h.2⟩
      intro e he
      rcases List.mem_cons.1 he with rfl | he
      · exact hc
      · exact TransCmp.lt_trans hc (h.1 e he)
    | eq => simp only [List.pairwise_cons]; exact ⟨h.1, h.2⟩
    | gt =>
      simp only [List.pairwise_cons]
      refine ⟨?_, ih h.2⟩
      intro e he
      rcases mem_insert_imp he with rfl | he
      · exact OrientedCmp.gt_iff_lt.1 hc
      · exact h.1 e he

omit [TransCmp cmp] in
theorem remove_sublist (s : BSet K) (k : K) : (remove cmp s k).Sublist s := by
  induction s with
  | nil => simp [remove]
  | cons x s ih => rw [remove]; cases hc : cmp k x <;> simp [ih]

omit [TransCmp cmp] in
theorem sorted_remove {s : BSet K} (h : Sorted cmp s) (k : K) : Sorted cmp (remove cmp s k) :=
  List.Pairwise.sublist (remove_sublist s k) h

theorem sorted_insertAll {s : BSet K} (h : Sorted cmp s) (l : List K) :
    Sorted cmp (insertAll cmp s l) := by
  unfold insertAll
  induction l generalizing s with
  | nil => exact h
  | cons a l ih => exact ih (sorted_insert h a)

theorem sorted_ofList (l : List K) : Sorted cmp (ofList cmp l) :=
  sorted_insertAll List.Pairwise.nil l

theorem insert_of_contains {s : BSet K} (hs : Sorted cmp s) {k : K} (h : contains cmp s k = true) :
    insert cmp s k = s := by
  induction s with
  | nil => simp [contains] at h
  | cons x s ih =>
    rw [Sorted, List.pairwise_cons] at hs
    rw [insert]
    cases hc : cmp k x with
    | eq => rfl
    | lt =>
      exfalso
      obtain ⟨y, hy, hk⟩ := contains_iff.1 h
      rcases List.mem_cons.1 hy with rfl | hy
      · simp [hc] at hk
      · have := TransCmp.lt_trans hc (hs.1 y hy)
        simp [hk] at this
    | gt =>
      simp only [contains, List.any_cons, hc] at h
      rw [ih hs.2 (by simpa [contains] using h)]

theorem length_insert_of_not_contains {s : BSet K} {k : K} (h : contains cmp s k = false) :
    (insert cmp s k).length = s.length + 1 := by
  induction s with
  | nil => simp [insert]
  | cons x s ih =>
    simp only [contains, List.any_cons] at h
    rw [insert]
    cases hc : cmp k x with
    | eq => simp [hc] at h
    | lt => simp
    | gt => simp [hc] at h; simp [ih (by simpa [contains] using h)]

variable [LawfulEqCmp cmp]

omit [TransCmp cmp] in
theorem contains_iff_mem [TransCmp cmp] {s : BSet K} {k : K} : contains cmp s k = true ↔ k ∈ s := by
  rw [contains_iff]
  constructor
  · rintro ⟨k', h, he⟩; rw [LawfulEqCmp.eq_of_compare he]; exact h
  · intro h; exact ⟨k, h, cmp_self k⟩

theorem mem_insert {s : BSet K} {k e : K} : e ∈ insert cmp s k ↔ e = k ∨ e ∈ s := by
  rw [← contains_iff_mem (cmp := cmp), contains_insert]
  simp [contains_iff_mem]

theorem mem_insertAll {s : BSet K} {l : List K} {e : K} :
    e ∈ insertAll cmp s l ↔ e ∈ l ∨ e ∈ s := by
  unfold insertAll
  induction l generalizing s with
  | nil => simp
  | cons a l ih => simp only [List.foldl_cons, ih, mem_insert, List.mem_cons]; grind

theorem mem_ofList {l : List K} {e : K} : e ∈ ofList cmp l ↔ e ∈ l := by
  simp [ofList, mem_insertAll]

theorem mem_remove {s : BSet K} (hs : Sorted cmp s) {k e : K} :
    e ∈ remove cmp s k ↔ e ≠ k ∧ e ∈ s := by
  induction s with
  | nil => simp [remove]
  | cons x s ih =>
    rw [Sorted, List.pairwise_cons] at hs
    rw [remove]
    have hx : ∀ y ∈ s, y ≠ x := by
      rintro y hy rfl
      have := hs.1 y hy
      simp [cmp_self] at this
    cases hc : cmp k x with
    | eq =>
      have := LawfulEqCmp.eq_of_compare hc
      subst this
      simp only [List.mem_cons]
      constructor
      · intro h; exact ⟨hx e h, Or.inr h⟩
      · rintro ⟨h1, h2 | h2⟩
        · exact absurd h2 h1
        · exact h2
    | lt | gt =>
      have hne : x ≠ k := by rintro rfl; simp [cmp_self] at hc
      simp only [List.mem_cons, ih hs.2]
      constructor
      · rintro (rfl | ⟨h1, h2⟩)
        · exact ⟨hne, Or.inl rfl⟩
        · exact ⟨h1, Or.inr h2⟩
      · rintro ⟨h1, rfl | h2⟩
        · exact Or.inl rfl
        · exact Or.inr ⟨h1, h2⟩

theorem sorted_nodup {s : BSet K} (h : Sorted cmp s) : s.Nodup := by
  unfold Sorted at h
  refine List.Pairwise.imp ?_ h
  rintro a b hab rfl
  simp [cmp_self] at hab

/-- A sorted set is determined by its elements. -/
theorem ext {s t : BSet K} (hs : Sorted cmp s) (ht : Sorted cmp t) (h : ∀ k, k ∈ s ↔ k ∈ t) :
    s = t := by
  induction s generalizing t with
  | nil =>
    cases t with
    | nil => rfl
    | cons y t => have := (h y).2 (by simp); simp at this
  | cons x s ih =>
    cases t with
    | nil => have := (h x).1 (by simp); simp at this
    | cons y t =>
      rw [Sorted, List.pairwise_cons] at hs ht
      have hxy : x = y := by
        rcases List.mem_cons.1 ((h x).1 (by simp)) with h1 | h1
        · exact h1
        · rcases List.mem_cons.1 ((h y).2 (by simp)) with h2 | h2
          · exact h2.symm
          · have a := hs.1 _ h2
            have b := ht.1 _ h1
            have := OrientedCmp.gt_iff_lt.2 a
            simp_all
      subst hxy
      congr 1
      apply ih hs.2 ht.2
      intro k
      have hk := h k
      simp only [List.mem_cons] at hk
      constructor
      · intro hks
        rcases hk.1 (Or.inr hks) with rfl | h'
        · have := hs.1 _ hks; simp [cmp_self] at this
        · exact h'
      · intro hks
        rcases hk.2 (Or.inr hks) with rfl | h'
        · have := ht.1 _ hks; simp [cmp_self] at this
        · exact h'
end
end BSet
end Bongo
