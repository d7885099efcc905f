import Verif.Props.Buffer
import Verif.Spec.Strings
/-!
# C105: strings are compared, measured and cut by their bytes
-/
set_option linter.unusedSectionVars false
namespace Bongo
open Std
variable {alloc : Nat → List Char}

/-- C105.  `Name`s are ordered by their UTF-8 bytes. -/
theorem name_order (a b : Name) :
    compare a b = List.compareLex compare (utf8 a.toList) (utf8 b.toList) := by
  change _ = strCmp _ _
  rw [utf8_order]
  have h : compare a b = compareOfLessAndEq a b := rfl
  rw [h, compareOfLessAndEq]
  have h0 := String.lt_iff (s := a) (t := b)
  obtain ⟨h1, h2⟩ := charLex a.toList b.toList
  have h3 : a = b ↔ a.toList = b.toList := String.toList_inj.symm
  split_ifs <;>
    rcases hc : List.compareLex (fun x y : Char => compare x.toNat y.toNat) a.toList b.toList <;>
    simp_all

/-- C105.  The order of strings is a total order that agrees with equality: it can be used for the keys
of a map. -/
theorem strCmp_lawful : TransCmp strCmp ∧ ∀ s t, strCmp s t = .eq ↔ s = t :=
  ⟨{ eq_swap := fun {a b} => OrientedCmp.eq_swap (cmp := List.compareLex (compare (α := UInt8)))
     isLE_trans := fun {a b c} => TransCmp.isLE_trans (cmp := List.compareLex (compare (α := UInt8))) },
   fun s t => by rw [utf8_order]; exact (charLex s t).2.symm⟩

/-- C105.  A `BufferRangeKey` and a `Name` made of its text compare alike. -/
theorem range_key_name (a b : BufferRange) (ha : Obtained alloc a) (hb : Obtained alloc b)
    (s t : List Char) (hs : a.asStr = .ok s) (ht : b.asStr = .ok t) :
    rangeKeyCmp a b = .ok (compare (String.ofList s : Name) (String.ofList t : Name)) := by
  rw [name_order, (range_key_cmp a b ha hb s t hs ht).1]
  simp [strCmp]

/-- C105.  Slicing a string at byte offsets panics exactly if they are in the wrong order, beyond the end
or inside a character; otherwise it yields the bytes between them. -/
theorem slice_bytes (t : List Char) (a b : Nat) :
    ((∃ s, sliceBytes t a b = .ok s) ↔ a ≤ b ∧ CharBoundary (utf8 t) a ∧ CharBoundary (utf8 t) b) ∧
    (∀ s, sliceBytes t a b = .ok s → utf8 s = ((utf8 t).take b).drop a) ∧
    sliceBytes t a b ≠ .oof := by
  refine ⟨⟨?_, ?_⟩, ?_, ?_⟩
  · rintro ⟨s, hs⟩
    obtain ⟨p, q, rfl, rfl, rfl⟩ := sliceBytes_ok_iff.1 hs
    refine ⟨by omega, (dropBytes_boundary _ _).1 (by rw [dropBytes_append]; rfl),
      (dropBytes_boundary _ _).1 ?_⟩
    rw [← List.append_assoc, ← byteLen_append, dropBytes_append]; rfl
  · rintro ⟨hab, ha, hb⟩
    have ha' := (dropBytes_boundary _ _).2 ha
    have hb' := (dropBytes_boundary _ _).2 hb
    rw [Option.isSome_iff_exists] at ha' hb'
    obtain ⟨r, hr⟩ := ha'
    obtain ⟨r', hr'⟩ := hb'
    obtain ⟨p, rfl, rfl⟩ := dropBytes_some hr
    obtain ⟨p', h', rfl⟩ := dropBytes_some hr'
    have h1 : p <+: p ++ r := List.prefix_append _ _
    have h2 : p' <+: p ++ r := h' ▸ List.prefix_append _ _
    rcases List.prefix_or_prefix_of_prefix h1 h2 with ⟨s, hs⟩ | ⟨s, hs⟩
    · refine ⟨s, sliceBytes_ok_iff.2 ⟨p, r', ?_, rfl, by rw [← hs, byteLen_append]⟩⟩
      rw [h', ← hs, List.append_assoc]
    · have h0 : s = [] := by
        rw [← byteLen_eq_zero]
        have := congrArg byteLen hs
        rw [byteLen_append] at this
        omega
      subst h0
      rw [List.append_nil] at hs
      subst hs
      exact ⟨[], sliceBytes_ok_iff.2 ⟨p', r, rfl, rfl, by simp [byteLen]⟩⟩
  · intro s hs
    obtain ⟨p, q, rfl, rfl, rfl⟩ := sliceBytes_ok_iff.1 hs
    rw [utf8_append, utf8_append, ← List.append_assoc, List.take_append_of_le_length (by simp [utf8_length]),
      List.take_of_length_le (by simp [utf8_length]), ← utf8_length p, List.drop_left]
  · unfold sliceBytes
    split_ifs
    · split <;> simp
    · simp

/-- C105.  The text of a range is the bytes of the buffer between its two offsets, and `byte_len` is their
number; both offsets lie between characters. -/
theorem range_bytes (r : BufferRange) (h : Obtained alloc r) : ∃ s, r.asStr = .ok s ∧
    utf8 s = ((utf8 (alloc r.buf.id)).take r.endIndex).drop r.startIndex ∧
    r.byteLen = (utf8 s).length ∧
    CharBoundary (utf8 (alloc r.buf.id)) r.startIndex ∧ CharBoundary (utf8 (alloc r.buf.id)) r.endIndex := by
  have ht : r.buf.text = alloc r.buf.id := by rw [obtained_buf r h]; rfl
  obtain ⟨s, hs, -⟩ := buffer_read r h
  have hs' := hs
  rw [BufferRange.asStr, ht] at hs'
  obtain ⟨h1, h2, -⟩ := slice_bytes (alloc r.buf.id) r.startIndex r.endIndex
  obtain ⟨p, q, h3, h4, h5⟩ := sliceBytes_ok_iff.1 hs'
  refine ⟨s, hs, h2 s hs', ?_, (h1.1 ⟨s, hs'⟩).2.1, (h1.1 ⟨s, hs'⟩).2.2⟩
  rw [utf8_length, BufferRange.byteLen]
  omega

/-- Three characters of two, three and one bytes: it can be cut at 0, 2, 5 and 6, not inside a character;
`ß` (0xC3 0x9F) comes after `z` and before `あ`. -/
example :
    utf8 ['ß', 'あ', 'z'] = [0xC3, 0x9F, 0xE3, 0x81, 0x82, 0x7A] ∧
    sliceBytes ['ß', 'あ', 'z'] 2 5 = .ok ['あ'] ∧
    sliceBytes ['ß', 'あ', 'z'] 1 5 = .panic .slice ∧
    sliceBytes ['ß', 'あ', 'z'] 2 4 = .panic .slice ∧
    sliceBytes ['ß', 'あ', 'z'] 2 7 = .panic .slice ∧
    CharBoundary (utf8 ['ß', 'あ', 'z']) 5 ∧ ¬ CharBoundary (utf8 ['ß', 'あ', 'z']) 3 ∧
    strCmp ['z'] ['ß'] = .lt ∧ strCmp ['ß'] ['あ'] = .lt ∧ strCmp ['a', 'b'] ['a'] = .gt := by
  refine ⟨by decide, by decide, by decide, by decide, by decide, .inr ⟨0x7A, by decide, by decide⟩, ?_,
    by decide, by decide, by decide⟩
  rintro (h | ⟨b, hb, h⟩)
  · revert h; decide
  · have hb' : (utf8 ['ß', 'あ', 'z'])[3]? = some 0x81 := by decide
    rw [hb'] at hb
    cases hb
    revert h; decide

/-- The hypotheses of `range_key_name` and `range_bytes` are met by two ranges of different buffers. -/
example :
    let alloc : Nat → List Char := fun i => if i = 0 then ['ß', 'あ'] else ['あ']
    ∃ r s, BufferRange.readChar (.new 0 (alloc 0)) = .ok (some ('ß', r)) ∧ Obtained alloc r ∧
      Obtained alloc (.new 1 (alloc 1)) ∧ r.asStr = .ok s ∧ (BufferRange.new 1 (alloc 1)).asStr = .ok s ∧
      r.startIndex = 2 ∧ rangeKeyCmp r (.new 1 (alloc 1)) = .ok .eq := by
  intro alloc
  have h0 : Obtained alloc (.new 0 (alloc 0)) := .new 0
  have h1 : BufferRange.readChar (.new 0 (alloc 0)) =
      .ok (some ('ß', ⟨2, 5, (BufferRange.new 0 (alloc 0)).buf⟩)) := by decide
  exact ⟨_, ['あ'], h1, .readChar h0 h1, .new 1, by decide, by decide, rfl, by decide⟩
end Bongo
