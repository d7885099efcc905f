import Verif.Spec.Buffer
import Mathlib.Data.List.Induction
set_option linter.unusedSectionVars false
/-! Lemmas about buffers. -/
namespace Bongo

@[simp] theorem byteLen_nil : byteLen [] = 0 := rfl
@[simp] theorem byteLen_cons (c : Char) (t : List Char) :
    byteLen (c :: t) = c.utf8Size + byteLen t := rfl
@[simp] theorem byteLen_append (s t : List Char) : byteLen (s ++ t) = byteLen s + byteLen t := by
  simp [byteLen]

theorem dropBytes_append (s t : List Char) : dropBytes (s ++ t) (byteLen s) = some t := by
  induction s with
  | nil => cases t <;> rfl
  | cons c s ih =>
    have hc := c.utf8Size_pos
    obtain ⟨n, hn⟩ : ∃ n, byteLen (c :: s) = n + 1 := ⟨byteLen (c :: s) - 1, by simp; omega⟩
    rw [hn, List.cons_append, dropBytes, if_pos (by rw [← hn]; simp)]
    rw [← hn]
    simpa using ih

theorem takeBytes_append (s t : List Char) : takeBytes (s ++ t) (byteLen s) = some s := by
  induction s with
  | nil => cases t <;> rfl
  | cons c s ih =>
    have hc := c.utf8Size_pos
    obtain ⟨n, hn⟩ : ∃ n, byteLen (c :: s) = n + 1 := ⟨byteLen (c :: s) - 1, by simp; omega⟩
    rw [hn, List.cons_append, takeBytes, if_pos (by rw [← hn]; simp)]
    rw [← hn]
    simp [ih]

theorem slice_append (p s t : List Char) :
    sliceBytes (p ++ (s ++ t)) (byteLen p) (byteLen p + byteLen s) = .ok s := by
  unfold sliceBytes
  rw [if_pos (by omega), dropBytes_append]
  simp [takeBytes_append]

theorem byteLen_eq_zero {s : List Char} : byteLen s = 0 ↔ s = [] := by
  cases s with
  | nil => simp
  | cons c s => have := c.utf8Size_pos; simp; omega

/-! ## Ranges -/
/-- `r` covers the characters `mid` of the text `pre ++ mid ++ post`. -/
structure Covers (alloc : Nat → List Char) (r : BufferRange) (pre mid post : List Char) : Prop where
  buf : r.buf = ⟨r.buf.id, alloc r.buf.id, lineLoop 0 (alloc r.buf.id) (some 0)⟩
  text : alloc r.buf.id = pre ++ (mid ++ post)
  start : r.startIndex = byteLen pre
  stop : r.endIndex = byteLen pre + byteLen mid

namespace Covers
variable {alloc : Nat → List Char} {r : BufferRange} {pre mid post : List Char}

theorem text' (h : Covers alloc r pre mid post) : r.buf.text = pre ++ (mid ++ post) := by
  rw [h.buf]; exact h.text

theorem asStr (h : Covers alloc r pre mid post) : r.asStr = .ok mid := by
  unfold BufferRange.asStr
  rw [h.text', h.start, h.stop, slice_append]

theorem readCharMut_nil (h : Covers alloc r pre [] post) : r.readCharMut = .ok (none, r) := by
  unfold BufferRange.readCharMut
  rw [h.asStr]; rfl

theorem readCharMut_cons {c} (h : Covers alloc r pre (c :: mid) post) :
    ∃ r', r.readCharMut = .ok (some c, r') ∧ Covers alloc r' (pre ++ [c]) mid post ∧
      r'.buf = r.buf := by
  refine ⟨{ r with startIndex := byteLen pre + c.utf8Size }, ?_, ⟨h.buf, ?_, ?_, ?_⟩, rfl⟩
  · unfold BufferRange.readCharMut
    rw [h.asStr]
    cases mid with
    | nil => simp [charIndices, h.stop]
    | cons d mid => simp [charIndices, h.start]
  · rw [h.text]; simp
  · simp
  · rw [h.stop]; simp; omega

theorem advanceLoop (n : Nat) : ∀ {r : BufferRange} {pre mid}, Covers alloc r pre mid post →
    (n ≤ mid.length → ∃ r', r.advanceLoop n = .ok (some r') ∧
      Covers alloc r' (pre ++ mid.take n) (mid.drop n) post ∧ r'.buf = r.buf) ∧
    (mid.length < n → r.advanceLoop n = .ok none) := by
  induction n with
  | zero =>
    intro r pre mid h
    exact ⟨fun _ => ⟨r, rfl, by simpa using h, rfl⟩, fun h => absurd h (by omega)⟩
  | succ n ih =>
    intro r pre mid h
    cases mid with
    | nil =>
      refine ⟨fun h => absurd h (by simp), fun _ => ?_⟩
      unfold BufferRange.advanceLoop
      rw [h.readCharMut_nil]
    | cons c mid =>
      obtain ⟨r1, h1, h2, h3⟩ := h.readCharMut_cons
      obtain ⟨ih1, ih2⟩ := ih h2
      constructor
      · intro hn
        obtain ⟨r', h4, h5, h6⟩ := ih1 (by simpa using hn)
        refine ⟨r', ?_, by simpa using h5, h6.trans h3⟩
        unfold BufferRange.advanceLoop
        rw [h1]; exact h4
      · intro hn
        unfold BufferRange.advanceLoop
        rw [h1]; exact ih2 (by simpa using hn)

theorem advanceNMut (h : Covers alloc r pre mid post) (n : Nat) :
    (n ≤ mid.length → ∃ r', r.advanceNMut n = .ok (some (mid.take n), r') ∧
      Covers alloc r' (pre ++ mid.take n) (mid.drop n) post ∧ r'.buf = r.buf) ∧
    (mid.length < n → r.advanceNMut n = .ok (none, r)) := by
  obtain ⟨h1, h2⟩ := h.advanceLoop n
  constructor
  · intro hn
    obtain ⟨r', h3, h4, h5⟩ := h1 hn
    refine ⟨r', ?_, h4, h5⟩
    unfold BufferRange.advanceNMut
    rw [h3]
    simp only
    have : r'.buf.text = pre ++ (mid.take n ++ (mid.drop n ++ post)) := by
      rw [h4.text']; simp
    rw [this, h.start, h4.start, byteLen_append, slice_append]
  · intro hn
    unfold BufferRange.advanceNMut
    rw [h2 hn]

theorem advanceN (h : Covers alloc r pre mid post) (n : Nat) :
    (n ≤ mid.length → ∃ r', r.advanceN n = .ok (some (mid.take n, r')) ∧
      Covers alloc r' (pre ++ mid.take n) (mid.drop n) post ∧ r'.buf = r.buf) ∧
    (mid.length < n → r.advanceN n = .ok none) := by
  obtain ⟨h1, h2⟩ := h.advanceNMut n
  constructor
  · intro hn
    obtain ⟨r', h3, h4, h5⟩ := h1 hn
    refine ⟨r', ?_, h4, h5⟩
    unfold BufferRange.advanceN
    rw [h3]
    simp only
    have : r.buf.text = pre ++ (mid.take n ++ (mid.drop n ++ post)) := by
      rw [← h5, h4.text']; simp
    rw [this, h.start, h4.start, byteLen_append, slice_append]
  · intro hn
    unfold BufferRange.advanceN
    rw [h2 hn]

theorem new (alloc : Nat → List Char) (id : Nat) :
    Covers alloc (.new id (alloc id)) [] (alloc id) [] :=
  ⟨rfl, by simp [BufferRange.new], rfl, by simp [BufferRange.new]⟩
end Covers

/-- A text prefix of a given byte length is unique. -/
theorem prefix_unique {a b s t : List Char} (h : a ++ s = b ++ t) (hl : byteLen a = byteLen b) :
    a = b ∧ s = t := by
  induction a generalizing b with
  | nil =>
    have : b = [] := byteLen_eq_zero.1 (by simpa using hl.symm)
    subst this
    exact ⟨rfl, by simpa using h⟩
  | cons c a ih =>
    cases b with
    | nil => have := c.utf8Size_pos; simp at hl; omega
    | cons d b =>
      simp only [List.cons_append, List.cons.injEq] at h
      obtain ⟨rfl, h⟩ := h
      have := ih h (by simpa using hl)
      exact ⟨by rw [this.1], this.2⟩

theorem prefix_of_le {a b s t : List Char} (h : a ++ s = b ++ t) (hl : byteLen a ≤ byteLen b) :
    ∃ m, b = a ++ m := by
  induction a generalizing b with
  | nil => exact ⟨b, rfl⟩
  | cons c a ih =>
    cases b with
    | nil => have := c.utf8Size_pos; simp at hl; omega
    | cons d b =>
      simp only [List.cons_append, List.cons.injEq] at h
      obtain ⟨rfl, h⟩ := h
      obtain ⟨m, rfl⟩ := ih h (by simpa using hl)
      exact ⟨m, rfl⟩

theorem Covers.removeSuffix {alloc : Nat → List Char} {r s p : BufferRange} {pre mid post pre' mid' post'}
    (h : Covers alloc r pre mid post) (h' : Covers alloc s pre' mid' post')
    (hp : r.removeSuffix s = .ok p) :
    ∃ m, mid = m ++ mid' ∧ Covers alloc p pre m (mid' ++ post) := by
  unfold BufferRange.removeSuffix at hp
  split at hp
  · rename_i hid
    split at hp
    · rename_i he
      split at hp
      · rename_i hs
        cases hp
        have ht : pre ++ (mid ++ post) = pre' ++ (mid' ++ post') := by
          rw [← h.text, ← h'.text, hid]
        rw [h.start, h'.start] at hs
        obtain ⟨m, rfl⟩ := prefix_of_le ht hs
        rw [h.stop, h'.stop] at he
        have ht2 : mid ++ post = (m ++ mid') ++ post' := by
          simpa using ht
        obtain ⟨rfl, rfl⟩ := prefix_unique ht2 (by simp at he ⊢; omega)
        refine ⟨m, rfl, ⟨h.buf, ?_, h.start, ?_⟩⟩
        · simp [h.text]
        · simp [h'.start]
      · cases hp
    · cases hp
  · cases hp

theorem Obtained.covers {alloc : Nat → List Char} {r : BufferRange} (h : Obtained alloc r) :
    ∃ pre mid post, Covers alloc r pre mid post := by
  induction h with
  | new id => exact ⟨_, _, _, Covers.new alloc id⟩
  | @readChar r c r' _ hr ih =>
    obtain ⟨pre, mid, post, h⟩ := ih
    unfold BufferRange.readChar at hr
    cases mid with
    | nil => rw [h.readCharMut_nil] at hr; cases hr
    | cons c mid =>
      obtain ⟨r', h1, h2, -⟩ := h.readCharMut_cons
      rw [h1] at hr; cases hr
      exact ⟨_, _, _, h2⟩
  | @readCharMut r o r' _ hr ih =>
    obtain ⟨pre, mid, post, h⟩ := ih
    cases mid with
    | nil => rw [h.readCharMut_nil] at hr; cases hr; exact ⟨_, _, _, h⟩
    | cons c mid =>
      obtain ⟨r', h1, h2, -⟩ := h.readCharMut_cons
      rw [h1] at hr; cases hr
      exact ⟨_, _, _, h2⟩
  | @advanceN r n s r' _ hr ih =>
    obtain ⟨pre, mid, post, h⟩ := ih
    obtain ⟨h1, h2⟩ := h.advanceN n
    by_cases hn : n ≤ mid.length
    · obtain ⟨r', h3, h4, -⟩ := h1 hn
      rw [h3] at hr; cases hr; exact ⟨_, _, _, h4⟩
    · rw [h2 (by omega)] at hr; cases hr
  | @advanceNMut r n s r' _ hr ih =>
    obtain ⟨pre, mid, post, h⟩ := ih
    obtain ⟨h1, h2⟩ := h.advanceNMut n
    by_cases hn : n ≤ mid.length
    · obtain ⟨r', h3, h4, -⟩ := h1 hn
      rw [h3] at hr; cases hr; exact ⟨_, _, _, h4⟩
    · rw [h2 (by omega)] at hr; cases hr; exact ⟨_, _, _, h⟩
  | removeSuffix _ _ hp ih1 ih2 =>
    obtain ⟨pre, mid, post, h⟩ := ih1
    obtain ⟨pre', mid', post', h'⟩ := ih2
    obtain ⟨m, -, h⟩ := h.removeSuffix h' hp
    exact ⟨_, _, _, h⟩

/-! ## Lines -/
/-- The lines of a text with their terminators, `cur` being the current line so far. -/
def rows (cur : List Char) (rest : List Char) : List (List Char × List Char) :=
  match rest with
  | [] => [(cur, [])]
  | c :: rest =>
    if c = '\r' then
      match rest with
      | d :: rest' =>
        if d = '\n' then (cur, [c, d]) :: rows [] rest'
        else (cur, [c]) :: rows [] (d :: rest')
      | [] => (cur, [c]) :: rows [] []
    else if c = '\n' then (cur, [c]) :: rows [] rest
    else rows (cur ++ [c]) rest
termination_by rest.length

theorem rows_cons (cur : List Char) (c : Char) (rest : List Char) : rows cur (c :: rest) =
    if c = '\r' then
      match rest with
      | d :: rest' =>
        if d = '\n' then (cur, [c, d]) :: rows [] rest'
        else (cur, [c]) :: rows [] (d :: rest')
      | [] => (cur, [c]) :: rows [] []
    else if c = '\n' then (cur, [c]) :: rows [] rest
    else rows (cur ++ [c]) rest := by
  rw [rows.eq_def]

theorem lineLoop_cons (o : Nat) (c : Char) (rest : List Char) (ls : Option Nat) :
    lineLoop o (c :: rest) ls =
    if c = '\r' then
      (ls.getD o, o) ::
        match rest with
        | d :: rest' =>
          if d = '\n' then lineLoop (o + c.utf8Size + d.utf8Size) rest' none
          else lineLoop (o + c.utf8Size) (d :: rest') none
        | [] => lineLoop (o + c.utf8Size) [] none
    else if c = '\n' then (ls.getD o, o) :: lineLoop (o + c.utf8Size) rest none
    else lineLoop (o + c.utf8Size) rest (some (ls.getD o)) := by
  rw [lineLoop.eq_def]
  cases rest <;> rfl

def rangesOf : Nat → List (List Char × List Char) → List (Nat × Nat)
  | _, [] => []
  | o, (l, t) :: rs => (o, o + byteLen l) :: rangesOf (o + byteLen l + byteLen t) rs

def flat (rs : List (List Char × List Char)) : List Char := rs.flatMap fun r => r.1 ++ r.2

inductive RowsOK : List (List Char × List Char) → Prop where
  | last {l} : (∀ c ∈ l, c ≠ '\r' ∧ c ≠ '\n') → RowsOK [(l, [])]
  | cons {l t rs} : (∀ c ∈ l, c ≠ '\r' ∧ c ≠ '\n') →
      (t = ['\r', '\n'] ∨ t = ['\n'] ∨ (t = ['\r'] ∧ (flat rs).head? ≠ some '\n')) →
      RowsOK rs → RowsOK ((l, t) :: rs)

theorem rows_spec (n : Nat) : ∀ (rest cur : List Char), rest.length ≤ n →
    (∀ c ∈ cur, c ≠ '\r' ∧ c ≠ '\n') →
    flat (rows cur rest) = cur ++ rest ∧ RowsOK (rows cur rest) ∧
    ∀ o ls, (ls = some o ∨ (ls = none ∧ cur = [])) →
      lineLoop (o + byteLen cur) rest ls = rangesOf o (rows cur rest) := by
  induction n with
  | zero =>
    intro rest cur hl hc
    have : rest = [] := List.length_eq_zero_iff.1 (by omega)
    subst this
    rw [rows]
    refine ⟨by simp [flat], .last hc, fun o ls h => ?_⟩
    rw [lineLoop]
    rcases h with rfl | ⟨rfl, rfl⟩ <;> simp [rangesOf]
  | succ n ih =>
    intro rest cur hl hc
    cases rest with
    | nil =>
      rw [rows]
      refine ⟨by simp [flat], .last hc, fun o ls h => ?_⟩
      rw [lineLoop]
      rcases h with rfl | ⟨rfl, rfl⟩ <;> simp [rangesOf]
    | cons c rest =>
      have hgd : ∀ o ls, (ls = some o ∨ (ls = none ∧ cur = [])) →
          Option.getD ls (o + byteLen cur) = o := by
        rintro o ls (rfl | ⟨rfl, rfl⟩) <;> simp
      rw [rows_cons]
      by_cases hr : c = '\r'
      · subst hr
        simp only [if_true]
        cases rest with
        | nil =>
          obtain ⟨h1, h2, h3⟩ := ih [] [] (by simp) (by simp)
          simp only
          refine ⟨?_, ?_, fun o ls h => ?_⟩
          · simp only [flat, List.flatMap_cons] at h1 ⊢
            rw [h1]; simp
          · exact .cons hc (Or.inr (Or.inr ⟨rfl, by rw [h1]; simp⟩)) h2
          · rw [lineLoop_cons, hgd o ls h]
            simp only [if_true, rangesOf]
            rw [← h3 _ none (Or.inr ⟨rfl, rfl⟩)]
            simp
        | cons d rest =>
          by_cases hd : d = '\n'
          · subst hd
            simp only [if_true]
            obtain ⟨h1, h2, h3⟩ := ih rest [] (by simp at hl ⊢; omega) (by simp)
            refine ⟨?_, .cons hc (Or.inl rfl) h2, fun o ls h => ?_⟩
            · simp only [flat, List.flatMap_cons] at h1 ⊢
              rw [h1]; simp
            · rw [lineLoop_cons, hgd o ls h]
              simp only [if_true, rangesOf]
              rw [← h3 _ none (Or.inr ⟨rfl, rfl⟩)]
              simp [Nat.add_assoc]
          · simp only [hd, if_false]
            obtain ⟨h1, h2, h3⟩ := ih (d :: rest) [] (by simp at hl ⊢; omega) (by simp)
            refine ⟨?_, .cons hc (Or.inr (Or.inr ⟨rfl, by rw [h1]; simpa using hd⟩)) h2,
              fun o ls h => ?_⟩
            · simp only [flat, List.flatMap_cons] at h1 ⊢
              rw [h1]; simp
            · rw [lineLoop_cons, hgd o ls h]
              simp only [if_true, hd, if_false, rangesOf]
              rw [← h3 _ none (Or.inr ⟨rfl, rfl⟩)]
              simp
      · by_cases hn : c = '\n'
        · subst hn
          simp only [hr, if_false, if_true]
          obtain ⟨h1, h2, h3⟩ := ih rest [] (by simp at hl ⊢; omega) (by simp)
          refine ⟨?_, .cons hc (Or.inr (Or.inl rfl)) h2, fun o ls h => ?_⟩
          · simp only [flat, List.flatMap_cons] at h1 ⊢
            rw [h1]; simp
          · rw [lineLoop_cons, hgd o ls h]
            simp only [hr, if_false, if_true, rangesOf]
            rw [← h3 _ none (Or.inr ⟨rfl, rfl⟩)]
            simp
        · simp only [hr, hn, if_false]
          obtain ⟨h1, h2, h3⟩ := ih rest (cur ++ [c]) (by simp at hl ⊢; omega) (by
            intro x hx
            rcases List.mem_append.1 hx with hx | hx
            · exact hc x hx
            · simp only [List.mem_singleton] at hx; subst hx; exact ⟨hr, hn⟩)
          refine ⟨by rw [h1]; simp, h2, fun o ls h => ?_⟩
          rw [lineLoop_cons, hgd o ls h]
          simp only [hr, hn, if_false]
          rw [← h3 o (some o) (Or.inl rfl)]
          simp [Nat.add_assoc]

theorem rangesOf_ge {o : Nat} {rs : List (List Char × List Char)} :
    ∀ a ∈ rangesOf o rs, o ≤ a.1 ∧ a.1 ≤ a.2 := by
  induction rs generalizing o with
  | nil => simp [rangesOf]
  | cons r rs ih =>
    obtain ⟨l, t⟩ := r
    intro a ha
    rcases List.mem_cons.1 ha with rfl | ha
    · simp
    · have := ih a ha; omega

theorem rangesOf_sorted {rs : List (List Char × List Char)} (h : RowsOK rs) : ∀ o,
    (rangesOf o rs).Pairwise fun a b => a.2 < b.1 := by
  induction h with
  | last _ => intro o; simp [rangesOf]
  | @cons l t rs _ ht _ ih =>
    intro o
    rw [rangesOf, List.pairwise_cons]
    refine ⟨fun b hb => ?_, ih _⟩
    have := (rangesOf_ge b hb).1
    have : 0 < byteLen t := by
      rcases ht with rfl | rfl | ⟨rfl, -⟩ <;> decide
    simp only at *; omega

/-- The index `binary_search_by` leads to: the last range that starts at or before the offset. -/
theorem search_index {bs} (hbs : BinarySearch bs) {R : List (Nat × Nat)} {off : Nat}
    (hle : ∀ a ∈ R, a.1 ≤ a.2) (hs : R.Pairwise fun a b => a.2 < b.1)
    (h0 : ∃ a, R[0]? = some a ∧ a.1 ≤ off) :
    ∃ i a, lineIndexOf (bs (R.map fun r =>
        if off < r.1 then Ordering.gt else if off > r.2 then .lt else .eq)) = .ok i ∧
      R[i]? = some a ∧ a.1 ≤ off ∧ ∀ b, R[i + 1]? = some b → off < b.1 := by
  have hget : ∀ (i j : Nat) (a b : Nat × Nat), i < j → R[i]? = some a → R[j]? = some b → a.2 < b.1 := by
    intro i j a b hij ha hb
    obtain ⟨hi, rfl⟩ := List.getElem?_eq_some_iff.1 ha
    obtain ⟨hj, rfl⟩ := List.getElem?_eq_some_iff.1 hb
    exact List.pairwise_iff_getElem.1 hs i j hi hj hij
  have hsorted : (R.map fun r =>
        if off < r.1 then Ordering.gt else if off > r.2 then .lt else .eq).Pairwise
        (fun a b => a = .lt ∨ b = .gt ∨ (a = .eq ∧ b = .eq)) := by
    rw [List.pairwise_map]
    refine (List.Pairwise.and_mem.1 hs).imp ?_
    rintro a b ⟨ha, hb, hab⟩
    have := hle a ha
    have := hle b hb
    by_cases h1 : off < a.1
    · right; left; rw [if_pos (by omega)]
    · rw [if_neg h1]
      by_cases h2 : off > a.2
      · left; rw [if_pos h2]
      · right; left; rw [if_pos (by omega)]
  have := hbs _ hsorted
  generalize bs (R.map fun r =>
        if off < r.1 then Ordering.gt else if off > r.2 then .lt else .eq) = res at this
  cases res with
  | ok i =>
    simp only [List.getElem?_map, Option.map_eq_some_iff] at this
    obtain ⟨a, ha, hc⟩ := this
    refine ⟨i, a, rfl, ha, ?_, ?_⟩
    · by_contra h; rw [if_pos (by omega)] at hc; cases hc
    · intro b hb
      have h1 := hget i (i + 1) a b (by omega) ha hb
      have : ¬ off < a.1 := by intro h; rw [if_pos h] at hc; cases hc
      rw [if_neg this] at hc
      have : ¬ off > a.2 := by intro h; rw [if_pos h] at hc; cases hc
      omega
  | error p =>
    simp only [List.length_map, List.getElem?_map, Option.map_eq_some_iff] at this
    obtain ⟨hp, h1, h2⟩ := this
    have hp0 : p ≠ 0 := by
      rintro rfl
      obtain ⟨a, ha, hoff⟩ := h0
      obtain ⟨b, hb, hc⟩ := h2 0 (by omega) (List.getElem?_eq_some_iff.1 ha).1
      rw [ha] at hb; cases hb
      rw [if_neg (by omega)] at hc
      split at hc <;> cases hc
    obtain ⟨a, ha, hc⟩ := h1 (p - 1) (by omega)
    refine ⟨p - 1, a, by simp [lineIndexOf, hp0], ha, ?_, ?_⟩
    · by_contra h; rw [if_pos (by omega)] at hc; cases hc
    · intro b hb
      rw [show p - 1 + 1 = p from by omega] at hb
      obtain ⟨b', hb', hc'⟩ := h2 p (by omega) (List.getElem?_eq_some_iff.1 hb).1
      rw [hb] at hb'; cases hb'
      by_contra h
      rw [if_neg h] at hc'
      split at hc' <;> cases hc'

theorem lineBreaks_zero {off : Nat} (t : List Char) : ∀ o, off < o + 1 → lineBreaksUpTo off o t = 0 := by
  induction t with
  | nil => intro o _; rfl
  | cons c t ih =>
    intro o h
    have := c.utf8Size_pos
    rw [lineBreaksUpTo, ih _ (by omega), if_neg (by omega)]

theorem lineBreaks_plain {off : Nat} (l t : List Char) (hl : ∀ c ∈ l, c ≠ '\r' ∧ c ≠ '\n') : ∀ o,
    lineBreaksUpTo off o (l ++ t) = lineBreaksUpTo off (o + byteLen l) t := by
  induction l with
  | nil => intro o; rfl
  | cons c l ih =>
    intro o
    have hc := hl c (by simp)
    rw [List.cons_append, lineBreaksUpTo, ih (fun d hd => hl d (by simp [hd])),
      if_neg (by rintro ⟨h | ⟨h, -⟩, -⟩ <;> simp_all)]
    simp [Nat.add_assoc]

/-- What the row with index `i` is. -/
theorem rows_index {rs : List (List Char × List Char)} (h : RowsOK rs) : ∀ (o i : Nat) (a : Nat × Nat),
    (rangesOf o rs)[i]? = some a → ∃ pre line post, flat rs = pre ++ (line ++ post) ∧
      IsLine pre line post ∧ a = (o + byteLen pre, o + byteLen pre + byteLen line) ∧
      (∀ b, (rangesOf o rs)[i + 1]? = some b → (b.1 = a.2 + 1 ∧ ['\r', '\n'].take 2 ≠ post.take 2) ∨
        (b.1 = a.2 + 2 ∧ post.take 2 = ['\r', '\n'])) ∧
      ((rangesOf o rs)[i + 1]? = none → post = []) ∧
      ∀ off, a.1 ≤ off → (∀ b, (rangesOf o rs)[i + 1]? = some b → off < b.1) →
        lineBreaksUpTo off o (flat rs) = i := by
  induction h with
  | @last l hl =>
    intro o i a ha
    cases i with
    | succ i => simp [rangesOf] at ha
    | zero =>
      simp only [rangesOf, List.getElem?_cons_zero, Option.some.injEq] at ha
      subst ha
      refine ⟨[], l, [], by simp [flat], ⟨hl, Or.inl rfl, Or.inl rfl⟩, by simp, by simp [rangesOf],
        fun _ => rfl, ?_⟩
      intro off _ _
      have := lineBreaks_plain (off := off) l [] hl o
      simpa [flat, lineBreaksUpTo] using this
  | @cons l t rs hl ht hrs ih =>
    intro o i a ha
    have hflat : flat ((l, t) :: rs) = l ++ (t ++ flat rs) := by simp [flat]
    have htl : 0 < byteLen t := by rcases ht with rfl | rfl | ⟨rfl, -⟩ <;> decide
    have hne : ∃ b, (rangesOf (o + byteLen l + byteLen t) rs)[0]? = some b ∧
        b.1 = o + byteLen l + byteLen t := by
      cases hrs <;> exact ⟨_, rfl, rfl⟩
    have hlb : ∀ off, lineBreaksUpTo off o (flat ((l, t) :: rs)) =
        (if o + byteLen l + byteLen t ≤ off then 1 else 0) +
          lineBreaksUpTo off (o + byteLen l + byteLen t) (flat rs) := by
      intro off
      rw [hflat, lineBreaks_plain _ _ hl]
      rcases ht with rfl | rfl | ⟨rfl, hh⟩
      · simp only [List.cons_append, List.nil_append, lineBreaksUpTo, byteLen_cons, byteLen_nil,
          List.head?_cons]
        simp [Nat.add_assoc]
      · simp only [List.cons_append, List.nil_append, lineBreaksUpTo, byteLen_cons, byteLen_nil]
        simp only [true_or, true_and, Nat.add_zero]
        by_cases hle : o + byteLen l + '\n'.utf8Size ≤ off <;> simp [hle]
      · simp only [List.cons_append, List.nil_append, lineBreaksUpTo, byteLen_cons, byteLen_nil]
        simp only [hh, ne_eq, not_false_iff, and_self, or_true, true_and, Nat.add_zero]
        by_cases hle : o + byteLen l + '\r'.utf8Size ≤ off <;> simp [hle]
    cases i with
    | zero =>
      simp only [rangesOf, List.getElem?_cons_zero, Option.some.injEq] at ha
      subst ha
      obtain ⟨b, hb, hb1⟩ := hne
      refine ⟨[], l, t ++ flat rs, hflat, ⟨hl, Or.inl rfl, ?_⟩, by simp, ?_, ?_, ?_⟩
      · rcases ht with rfl | rfl | ⟨rfl, -⟩ <;> simp
      · intro b' hb'
        simp only [rangesOf, List.getElem?_cons_succ] at hb'
        rw [hb] at hb'; cases hb'
        rw [hb1]
        rcases ht with rfl | rfl | ⟨rfl, hh⟩
        · right
          refine ⟨by simp; rfl, by simp⟩
        · left
          exact ⟨rfl, by simp⟩
        · left
          refine ⟨rfl, ?_⟩
          cases hf : flat rs with
          | nil => simp
          | cons d f => rw [hf] at hh; simp at hh ⊢; exact fun h => hh h.symm
      · intro hn
        simp only [rangesOf, List.getElem?_cons_succ] at hn
        rw [hb] at hn; cases hn
      · intro off h1 h2
        have := h2 b (by simp only [rangesOf, List.getElem?_cons_succ]; exact hb)
        rw [hlb, if_neg (by omega), lineBreaks_zero _ _ (by omega)]
    | succ i =>
      simp only [rangesOf, List.getElem?_cons_succ] at ha ⊢
      obtain ⟨pre, line, post, h1, h2, h3, h4, h5, h6⟩ := ih _ i a ha
      refine ⟨l ++ (t ++ pre), line, post, ?_, ⟨h2.plain, ?_, h2.after⟩, ?_, h4, h5, ?_⟩
      · rw [hflat, h1]; simp
      · right
        rcases h2.before with rfl | hb | hb
        · rcases ht with rfl | rfl | ⟨rfl, hh⟩
          · left; simp
          · left; simp
          · right; refine ⟨by simp, ?_⟩
            rw [h1] at hh; simpa using hh
        · left
          simp [List.getLast?_append, hb]
        · right
          refine ⟨?_, hb.2⟩
          simp [List.getLast?_append, hb.1]
      · rw [h3]; simp [Nat.add_assoc]
      · intro off h7 h8
        have hge := (rangesOf_ge a (List.mem_of_getElem? ha)).1
        rw [hlb, if_pos (by omega), h6 off h7 h8]; omega

theorem getLineStr_spec {bs} (hbs : BinarySearch bs) (id : Nat) (text : List Char) (off : Nat)
    (hoff : off ≤ byteLen text) :
    ∃ pre line post, text = pre ++ (line ++ post) ∧ IsLine pre line post ∧
      byteLen pre ≤ off ∧
      (off ≤ byteLen pre + byteLen line ∨
        (off = byteLen pre + byteLen line + 1 ∧ post.take 2 = ['\r', '\n'])) ∧
      (BufferRange.new id text).buf.getLineStr bs off =
        .ok (line, lineBreaksUpTo off 0 text, min off (byteLen pre + byteLen line) - byteLen pre) := by
  obtain ⟨hflat, hrows, hranges⟩ := rows_spec text.length text [] (by omega) (by simp)
  have hR := hranges 0 (some 0) (Or.inl rfl)
  simp only [byteLen_nil, Nat.add_zero, Nat.zero_add, List.nil_append] at hR hflat
  have hR' : (BufferRange.new id text).buf.lineRanges = rangesOf 0 (rows [] text) := hR
  obtain ⟨i, a, hi, ha, hao, hnext⟩ := search_index (off := off) hbs
    (R := rangesOf 0 (rows [] text)) (fun a ha => (rangesOf_ge a ha).2) (rangesOf_sorted hrows 0)
    (by generalize rows [] text = R at hrows; cases hrows <;> exact ⟨_, rfl, Nat.zero_le _⟩)
  obtain ⟨pre, line, post, h1, h2, h3, h4, h5, h6⟩ := rows_index hrows 0 i a ha
  have htext : text = pre ++ (line ++ post) := by rw [← h1, hflat]
  simp only [Nat.zero_add] at h3
  refine ⟨pre, line, post, htext, h2, by rw [h3] at hao; exact hao, ?_, ?_⟩
  · cases hn : (rangesOf 0 (rows [] text))[i + 1]? with
    | none =>
      left
      rw [htext, h5 hn] at hoff
      simp at hoff; omega
    | some b =>
      have hb := hnext b hn
      rw [h3] at h4
      rcases h4 b hn with ⟨h, -⟩ | ⟨h, hp⟩
      · left; simp only at h; omega
      · simp only at h
        by_cases hle : off ≤ byteLen pre + byteLen line
        · exact Or.inl hle
        · exact Or.inr ⟨by omega, hp⟩
  · unfold Buffer.getLineStr
    rw [if_pos (show off ≤ byteLen (BufferRange.new id text).buf.text from hoff)]
    rw [hR']
    simp only
    rw [hi]
    simp only [ha]
    have hsl : sliceBytes (BufferRange.new id text).buf.text a.1 a.2 = .ok line := by
      show sliceBytes text a.1 a.2 = _
      rw [htext, h3, slice_append]
    simp only [hsl]
    rw [h3] at hao
    simp only at hao
    rw [← hflat, h6 off (by rw [h3]; exact hao) hnext, h3]
    have hmin : (if off ≤ byteLen pre + byteLen line then off else byteLen pre + byteLen line) =
        min off (byteLen pre + byteLen line) := by
      rw [Nat.min_def]
    simp only [hmin]
    rw [if_pos (by omega)]
end Bongo
