import Verif.Proof.Buffer
import Verif.Proof.Utf8
/-!
# C54–C59, C61: text buffers
-/
set_option linter.unusedSectionVars false
namespace Bongo
variable {alloc : Nat → List Char}

/-- Repeated `read_char` until `None`. -/
def BufferRange.readAll : Nat → BufferRange → Res (List Char)
  | 0, _ => .oof
  | fuel + 1, r =>
    match r.readChar with
    | .ok none => .ok []
    | .ok (some (c, r')) =>
      match readAll fuel r' with
      | .ok s => .ok (c :: s)
      | .panic w => .panic w
      | .oof => .oof
    | .panic w => .panic w
    | .oof => .oof

/-- C54.  A range obtained from the API has a text `s`; its byte length is that of `s`, it is
`empty` exactly when `s` is; `read_char` takes the first character off `s`, and `read_char_mut` does
the same in place. -/
theorem buffer_read (r : BufferRange) (h : Obtained alloc r) :
    ∃ s, r.asStr = .ok s ∧ r.byteLen = byteLen s ∧ (r.empty = true ↔ s = []) ∧
      (s = [] → r.readChar = .ok none ∧ r.readCharMut = .ok (none, r)) ∧
      ∀ c s', s = c :: s' → ∃ r', r.readChar = .ok (some (c, r')) ∧
        r.readCharMut = .ok (some c, r') ∧ r'.asStr = .ok s' := by
  obtain ⟨pre, mid, post, hc⟩ := h.covers
  refine ⟨mid, hc.asStr, ?_, ?_, ?_, ?_⟩
  · unfold BufferRange.byteLen
    rw [hc.start, hc.stop]; omega
  · unfold BufferRange.empty
    rw [hc.start, hc.stop, ← byteLen_eq_zero, beq_iff_eq]
    omega
  · rintro rfl
    refine ⟨?_, hc.readCharMut_nil⟩
    unfold BufferRange.readChar
    rw [hc.readCharMut_nil]
  · rintro c s' rfl
    obtain ⟨r', h1, h2, -⟩ := hc.readCharMut_cons
    refine ⟨r', ?_, h1, h2.asStr⟩
    unfold BufferRange.readChar
    rw [h1]

/-- C54.  Reading until `None` yields exactly the text; in particular a new range yields the text
it was made from. -/
theorem buffer_read_all (r : BufferRange) (h : Obtained alloc r) (s : List Char)
    (hs : r.asStr = .ok s) (fuel : Nat) (hf : s.length < fuel) : r.readAll fuel = .ok s := by
  induction fuel generalizing r s with
  | zero => omega
  | succ fuel ih =>
    obtain ⟨s', h1, -, -, h2, h3⟩ := buffer_read r h
    rw [hs] at h1
    cases h1
    unfold BufferRange.readAll
    cases s with
    | nil => rw [(h2 rfl).1]
    | cons c s =>
      obtain ⟨r', h4, h5, h6⟩ := h3 c s rfl
      rw [h4]
      simp only
      rw [ih r' (.readChar h h4) s h6 (by simpa using hf)]

theorem buffer_new_text (id : Nat) : (BufferRange.new id (alloc id)).asStr = .ok (alloc id) :=
  (Covers.new alloc id).asStr

/-- C55.  `advance_n(n)` succeeds exactly when at least `n` characters remain; it then returns the
first `n` and the range of the rest.  `advance_n_mut` does the same in place, and leaves the range
as it was when it fails. -/
theorem buffer_advance (r : BufferRange) (h : Obtained alloc r) (s : List Char)
    (hs : r.asStr = .ok s) (n : Nat) :
    (n ≤ s.length → ∃ r', r.advanceN n = .ok (some (s.take n, r')) ∧
      r.advanceNMut n = .ok (some (s.take n), r') ∧ r'.asStr = .ok (s.drop n)) ∧
    (s.length < n → r.advanceN n = .ok none ∧ r.advanceNMut n = .ok (none, r)) := by
  obtain ⟨pre, mid, post, hc⟩ := h.covers
  have := hc.asStr
  rw [hs] at this
  cases this
  obtain ⟨h1, h2⟩ := hc.advanceN n
  obtain ⟨h3, h4⟩ := hc.advanceNMut n
  refine ⟨fun hn => ?_, fun hn => ⟨h2 hn, h4 hn⟩⟩
  obtain ⟨r', h5, h6, -⟩ := h3 hn
  refine ⟨r', ?_, h5, h6.asStr⟩
  obtain ⟨r'', h7, -, -⟩ := h1 hn
  rw [h7]
  unfold BufferRange.advanceN at h7
  rw [h5] at h7
  simp only at h7
  split at h7 <;> cases h7
  rfl

/-- What remains of a range after reading from it. -/
inductive ReadFrom (r : BufferRange) : BufferRange → Prop where
  | refl : ReadFrom r r
  | readChar {s c s'} : ReadFrom r s → s.readChar = .ok (some (c, s')) → ReadFrom r s'
  | advanceN {s n t s'} : ReadFrom r s → s.advanceN n = .ok (some (t, s')) → ReadFrom r s'

/-- C56.  Removing what remains after reading never panics and gives exactly what was read. -/
theorem buffer_remove_read (r suffix : BufferRange) (h : Obtained alloc r)
    (hs : ReadFrom r suffix) : ∃ p a b, r.removeSuffix suffix = .ok p ∧ p.asStr = .ok a ∧
      suffix.asStr = .ok b ∧ r.asStr = .ok (a ++ b) := by
  obtain ⟨pre, mid, post, hc⟩ := h.covers
  have key : ∃ m mid', mid = m ++ mid' ∧ Covers alloc suffix (pre ++ m) mid' post ∧
      suffix.buf = r.buf := by
    induction hs with
    | refl => exact ⟨[], mid, rfl, by simpa using hc, rfl⟩
    | @readChar s c s' _ hr ih =>
      obtain ⟨m, mid', rfl, h1, h2⟩ := ih
      unfold BufferRange.readChar at hr
      cases mid' with
      | nil => rw [h1.readCharMut_nil] at hr; cases hr
      | cons d mid' =>
        obtain ⟨r', h3, h4, h5⟩ := h1.readCharMut_cons
        rw [h3] at hr; cases hr
        exact ⟨m ++ [c], mid', by simp, by simpa using h4, h5.trans h2⟩
    | @advanceN s n t s' _ hr ih =>
      obtain ⟨m, mid', rfl, h1, h2⟩ := ih
      obtain ⟨h3, h4⟩ := h1.advanceN n
      by_cases hn : n ≤ mid'.length
      · obtain ⟨r', h5, h6, h7⟩ := h3 hn
        rw [h5] at hr; cases hr
        exact ⟨m ++ mid'.take n, mid'.drop n, by simp, by simpa using h6, h7.trans h2⟩
      · rw [h4 (by omega)] at hr; cases hr
  obtain ⟨m, mid', rfl, h1, h2⟩ := key
  have hp : r.removeSuffix suffix =
      .ok { startIndex := r.startIndex, endIndex := suffix.startIndex, buf := r.buf } := by
    unfold BufferRange.removeSuffix
    rw [if_pos (by rw [h2]), if_pos (by rw [hc.stop, h1.stop]; simp [Nat.add_assoc]),
      if_pos (by rw [hc.start, h1.start]; simp)]
  obtain ⟨m', hm, h3⟩ := hc.removeSuffix h1 hp
  have : m = m' := List.append_cancel_right hm
  subst this
  exact ⟨_, _, _, hp, h3.asStr, h1.asStr, hc.asStr⟩

/-- C56.  For any two ranges: `remove_suffix` panics exactly when they are of different buffers, do
not end together, or the second starts before the first; otherwise it splits the text. -/
theorem buffer_remove_suffix (r s : BufferRange) (hr : Obtained alloc r) (hs : Obtained alloc s) :
    (r.removeSuffix s = .panic .removeSuffix ↔
      r.buf.id ≠ s.buf.id ∨ r.endIndex ≠ s.endIndex ∨ s.startIndex < r.startIndex) ∧
    (r.removeSuffix s ≠ .panic .removeSuffix → ∃ p a b, r.removeSuffix s = .ok p ∧
      p.asStr = .ok a ∧ s.asStr = .ok b ∧ r.asStr = .ok (a ++ b)) := by
  have hcases : r.removeSuffix s = .panic .removeSuffix ∨ ∃ p, r.removeSuffix s = .ok p := by
    unfold BufferRange.removeSuffix
    split
    · split
      · split
        · exact Or.inr ⟨_, rfl⟩
        · exact Or.inl rfl
      · exact Or.inl rfl
    · exact Or.inl rfl
  constructor
  · unfold BufferRange.removeSuffix
    split
    · split
      · split
        · simp_all
        · simp_all
      · simp_all
    · simp_all
  · intro hn
    obtain ⟨p, hp⟩ := hcases.resolve_left hn
    obtain ⟨pre, mid, post, hc⟩ := hr.covers
    obtain ⟨pre', mid', post', hc'⟩ := hs.covers
    obtain ⟨m, rfl, h3⟩ := hc.removeSuffix hc' hp
    exact ⟨p, m, mid', hp, h3.asStr, hc'.asStr, hc.asStr⟩

/-- The offsets of an obtained range are within the text and in order (so `byte_len` does not
underflow). -/
theorem range_ordered (r : BufferRange) (h : Obtained alloc r) :
    r.startIndex ≤ r.endIndex ∧ r.endIndex ≤ byteLen r.buf.text := by
  obtain ⟨pre, mid, post, hc⟩ := h.covers
  rw [hc.text', hc.start, hc.stop]
  simp

theorem obtained_buf (r : BufferRange) (h : Obtained alloc r) :
    r.buf = (BufferRange.new r.buf.id (alloc r.buf.id)).buf := by
  obtain ⟨pre, mid, post, hc⟩ := h.covers
  exact hc.buf

/-- C57.  No call on an obtained range panics (`remove_suffix` aside, see `buffer_remove_suffix`),
for any grapheme segmentation and any `binary_search_by` meeting its contract. -/
theorem buffer_no_panic (bs : List Ordering → Except Nat Nat) (hbs : BinarySearch bs)
    (graphemes : List Char → List Nat) (r : BufferRange) (h : Obtained alloc r) (n : Nat) :
    (∃ x, r.asStr = .ok x) ∧ (∃ x, r.readChar = .ok x) ∧ (∃ x, r.readCharMut = .ok x) ∧
    (∃ x, r.advanceN n = .ok x) ∧ (∃ x, r.advanceNMut n = .ok x) ∧
    (∃ x, r.startPos bs graphemes = .ok x) ∧ (∃ x, r.endPos bs graphemes = .ok x) := by
  obtain ⟨s, h1, -, -, h2, h3⟩ := buffer_read r h
  obtain ⟨h4, h5⟩ := buffer_advance r h s h1 n
  have hadv : (∃ x, r.advanceN n = .ok x) ∧ ∃ x, r.advanceNMut n = .ok x := by
    by_cases hn : n ≤ s.length
    · obtain ⟨r', h6, h7, -⟩ := h4 hn
      exact ⟨⟨_, h6⟩, ⟨_, h7⟩⟩
    · obtain ⟨h6, h7⟩ := h5 (by omega)
      exact ⟨⟨_, h6⟩, ⟨_, h7⟩⟩
  have hread : (∃ x, r.readChar = .ok x) ∧ ∃ x, r.readCharMut = .ok x := by
    cases s with
    | nil => exact ⟨⟨_, (h2 rfl).1⟩, ⟨_, (h2 rfl).2⟩⟩
    | cons c s =>
      obtain ⟨r', h6, h7, -⟩ := h3 c s rfl
      exact ⟨⟨_, h6⟩, ⟨_, h7⟩⟩
  have hpos : ∀ off, off ≤ byteLen r.buf.text → ∃ x, r.buf.getTextPos bs graphemes off = .ok x := by
    intro off hoff
    rw [obtained_buf r h] at hoff ⊢
    obtain ⟨pre, line, post, -, -, -, -, h6⟩ :=
      getLineStr_spec hbs r.buf.id (alloc r.buf.id) off hoff
    unfold Buffer.getTextPos
    rw [h6]
    exact ⟨_, rfl⟩
  obtain ⟨ho1, ho2⟩ := range_ordered r h
  exact ⟨⟨_, h1⟩, hread.1, hread.2, hadv.1, hadv.2, hpos _ (by omega), hpos _ ho2⟩

/-- C58.  The line of a position is the number of line terminators (LF, CR, or CRLF counted once)
that end at or before it.  Stated for both ends of any obtained range. -/
theorem buffer_line (bs : List Ordering → Except Nat Nat) (hbs : BinarySearch bs)
    (graphemes : List Char → List Nat) (r : BufferRange) (h : Obtained alloc r) :
    (∃ p, r.startPos bs graphemes = .ok p ∧ p.byteOffset = r.startIndex ∧
      p.line = lineBreaksUpTo r.startIndex 0 r.buf.text) ∧
    (∃ p, r.endPos bs graphemes = .ok p ∧ p.byteOffset = r.endIndex ∧
      p.line = lineBreaksUpTo r.endIndex 0 r.buf.text) := by
  have hpos : ∀ off, off ≤ byteLen r.buf.text → ∃ x, r.buf.getTextPos bs graphemes off = .ok x ∧
      x.byteOffset = off ∧ x.line = lineBreaksUpTo off 0 r.buf.text := by
    intro off hoff
    rw [obtained_buf r h] at hoff ⊢
    obtain ⟨pre, line, post, -, -, -, -, h6⟩ :=
      getLineStr_spec hbs r.buf.id (alloc r.buf.id) off hoff
    unfold Buffer.getTextPos
    rw [h6]
    exact ⟨_, rfl, rfl, rfl⟩
  obtain ⟨ho1, ho2⟩ := range_ordered r h
  exact ⟨hpos _ (by omega), hpos _ ho2⟩

theorem columnLoop_spec (off : Nat) (gs : List Nat) (hgs : gs.Pairwise (· < ·)) (col : Nat) :
    columnLoop off gs col = col + gs.countP (· < off) := by
  induction gs generalizing col with
  | nil => rfl
  | cons g gs ih =>
    obtain ⟨h1, h2⟩ := List.pairwise_cons.1 hgs
    unfold columnLoop
    split
    · rename_i hg
      have : (g :: gs).countP (· < off) = 0 := by
        rw [List.countP_eq_zero]
        intro x hx
        rcases List.mem_cons.1 hx with rfl | hx
        · simpa using hg
        · have := h1 x hx
          simp; omega
      omega
    · rename_i hg
      rw [ih h2, List.countP_cons_of_pos (by simpa using hg)]
      omega

/-- C59.  The column of a position counts the graphemes of its line that start before it.  The line
is the maximal stretch without terminators the position lies in; a position past its end (between
the CR and the LF that end it) counts as its end. -/
theorem buffer_column (bs : List Ordering → Except Nat Nat) (hbs : BinarySearch bs)
    (graphemes : List Char → List Nat) (hg : ∀ l, (graphemes l).Pairwise (· < ·))
    (r : BufferRange) (h : Obtained alloc r) :
    let Column := fun off (p : TextPos) => ∃ pre line post, r.buf.text = pre ++ (line ++ post) ∧
      IsLine pre line post ∧ byteLen pre ≤ off ∧
      (off ≤ byteLen pre + byteLen line ∨
        (off = byteLen pre + byteLen line + 1 ∧ post.take 2 = ['\r', '\n'])) ∧
      p.column = (graphemes line).countP
        (fun g => byteLen pre + g < min off (byteLen pre + byteLen line))
    (∃ p, r.startPos bs graphemes = .ok p ∧ Column r.startIndex p) ∧
    (∃ p, r.endPos bs graphemes = .ok p ∧ Column r.endIndex p) := by
  intro Column
  have hpos : ∀ off, off ≤ byteLen r.buf.text → ∃ x, r.buf.getTextPos bs graphemes off = .ok x ∧
      Column off x := by
    intro off hoff
    have hb := obtained_buf r h
    have ht : r.buf.text = alloc r.buf.id := by rw [hb]; rfl
    rw [ht] at hoff
    obtain ⟨pre, line, post, h1, h2, h3, h4, h6⟩ :=
      getLineStr_spec hbs r.buf.id (alloc r.buf.id) off hoff
    rw [← hb] at h6
    unfold Buffer.getTextPos
    rw [h6]
    refine ⟨_, rfl, pre, line, post, by rw [ht]; exact h1, h2, h3, h4, ?_⟩
    simp only
    rw [columnLoop_spec _ _ (hg line), Nat.zero_add]
    apply List.countP_congr
    intro g _
    simp only [decide_eq_true_eq]
    omega
  obtain ⟨ho1, ho2⟩ := range_ordered r h
  exact ⟨hpos _ (by omega), hpos _ ho2⟩

/-- C61.  Comparing two `BufferRangeKey`s never panics and depends only on the two texts: it compares
their bytes, which is to compare them character by character; they are equal exactly when the texts
are. -/
theorem range_key_cmp (a b : BufferRange) (ha : Obtained alloc a) (hb : Obtained alloc b)
    (s t : List Char) (hs : a.asStr = .ok s) (ht : b.asStr = .ok t) :
    rangeKeyCmp a b = .ok (strCmp s t) ∧
    rangeKeyCmp a b = .ok (List.compareLex (fun (x y : Char) => compare x.toNat y.toNat) s t) ∧
    (rangeKeyCmp a b = .ok .eq ↔ s = t) := by
  have h1 : rangeKeyCmp a b = .ok (strCmp s t) := by
    unfold rangeKeyCmp
    rw [hs, ht]
  refine ⟨h1, by rw [h1, utf8_order], ?_⟩
  rw [h1, Res.ok.injEq, utf8_order]
  exact (charLex s t).2.symm

/-! ## Witnesses -/
/-- A `binary_search_by`: the first `Equal`, else the number of `Less`. -/
def linearSearch (l : List Ordering) : Except Nat Nat :=
  match l.findIdx? (· == .eq) with
  | some i => .ok i
  | none => .error (l.countP (· == .lt))

/-- The contract is met by a search, so the theorems are about something. -/
theorem linearSearch_spec : BinarySearch linearSearch := by
  intro l hl
  unfold linearSearch
  cases hf : l.findIdx? (· == .eq) with
  | some i =>
    simp only
    obtain ⟨hi, h1, -⟩ := List.findIdx?_eq_some_iff_getElem.1 hf
    rw [List.getElem?_eq_getElem hi]
    simpa using h1
  | none =>
    simp only
    rw [List.findIdx?_eq_none_iff] at hf
    refine ⟨List.countP_le_length, ?_⟩
    induction l with
    | nil => simp
    | cons a l ih =>
      obtain ⟨h1, h2⟩ := List.pairwise_cons.1 hl
      have ih' := ih h2 (fun x hx => hf x (by simp [hx]))
      have ha := hf a (by simp)
      cases a with
      | eq => simp at ha
      | lt =>
        rw [List.countP_cons_of_pos (by rfl)]
        constructor
        · intro i hi
          cases i with
          | zero => rfl
          | succ i => simpa using ih'.1 i (by omega)
        · intro i hi hi'
          cases i with
          | zero => omega
          | succ i => simpa using ih'.2 i (by omega) (by simpa using hi')
      | gt =>
        have hall : ∀ x ∈ l, x = .gt := by
          intro x hx
          rcases h1 x hx with h | h | h
          · cases h
          · exact h
          · cases h.1
        have h0 : (Ordering.gt :: l).countP (· == .lt) = 0 := by
          rw [List.countP_eq_zero]
          intro x hx
          rcases List.mem_cons.1 hx with rfl | hx
          · simp
          · rw [hall x hx]; simp
        rw [h0]
        refine ⟨fun i hi => by omega, fun i _ hi => ?_⟩
        rw [List.getElem?_eq_getElem hi]
        congr 1
        rcases List.mem_cons.1 (List.getElem_mem hi) with h | h
        · exact h
        · exact hall _ h

/-- Graphemes of single-byte characters. -/
def everyByte (l : List Char) : List Nat := List.range l.length

/-- Positions in a text with LF, CRLF and CR terminators: the end of `"ab\r\nc\rd"` after reading
`"ab\r"` (inside the CRLF) is still on line 0, at column 2; the end of the text is on line 2. -/
example :
    let r := BufferRange.new 0 ['a', 'b', '\r', '\n', 'c', '\r', 'd']
    Obtained (fun _ => ['a', 'b', '\r', '\n', 'c', '\r', 'd']) r ∧
    r.buf.lineRanges = [(0, 2), (4, 5), (6, 7)] ∧
    r.endPos linearSearch everyByte = .ok ⟨2, 1, 7⟩ ∧
    ∃ r', r.advanceN 3 = .ok (some (['a', 'b', '\r'], r')) ∧
      r'.startPos linearSearch everyByte = .ok ⟨0, 2, 3⟩ := by
  exact ⟨Obtained.new (alloc := fun _ => _) 0, by decide, by decide, _, rfl, by decide⟩
end Bongo
