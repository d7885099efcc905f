import Verif.Model.Res
/-!
# src/utils/buffer.rs

A text is the list of its characters; byte offsets are sums of the characters' UTF-8 sizes.
`source_name` is never read by the modelled code and left out.  Two library functions are
parameters: `bs`, the result of `<[T]>::binary_search_by` as a function of the comparator's answers
(any function meeting std's contract, see `Verif.Spec.Buffer`), and `graphemes`, the offsets
`UnicodeSegmentation::grapheme_indices(true)` yields for a line (any function).
-/
namespace Bongo

/-- The UTF-8 length of a text (std `str::len`). -/
def byteLen (t : List Char) : Nat := (t.map Char.utf8Size).sum

/-- The part of the text from byte `n` on, if that is a character boundary (std `str` slicing). -/
def dropBytes : List Char → Nat → Option (List Char)
  | t, 0 => some t
  | [], _ + 1 => none
  | c :: t, n + 1 => if c.utf8Size ≤ n + 1 then dropBytes t (n + 1 - c.utf8Size) else none

/-- The part of the text before byte `n`, if that is a character boundary (std `str` slicing). -/
def takeBytes : List Char → Nat → Option (List Char)
  | _, 0 => some []
  | [], _ + 1 => none
  | c :: t, n + 1 =>
    if c.utf8Size ≤ n + 1 then (takeBytes t (n + 1 - c.utf8Size)).map (c :: ·) else none

/-- `&text[a..b]` (std): panics unless `a ≤ b` and both are character boundaries. -/
def sliceBytes (t : List Char) (a b : Nat) : Res (List Char) :=
  if a ≤ b then
    match (dropBytes t a).bind fun r => takeBytes r (b - a) with
    | some s => .ok s
    | none => .panic .slice
  else .panic .slice

/-- `str::char_indices` (std), for a text that starts at byte `o`. -/
def charIndices : Nat → List Char → List (Nat × Char)
  | _, [] => []
  | o, c :: t => (o, c) :: charIndices (o + c.utf8Size) t

/-- src/utils/buffer.rs:21 `struct Buffer` and 256-260 `struct BufferInner`.  `id` is the address of the
shared allocation, by which `ref_eq` (199-201) compares. -/
structure Buffer where
  id : Nat
  text : List Char
  lineRanges : List (Nat × Nat)
  deriving DecidableEq, Repr

/-- src/utils/buffer.rs:24-28 `struct BufferRange`. -/
structure BufferRange where
  startIndex : Nat
  endIndex : Nat
  buf : Buffer
  deriving DecidableEq, Repr

/-- src/utils/buffer.rs:38-77, the loop that finds the lines: the ranges pushed when the iterator is at
byte `o` with `rest` to come and `line_start` is `ls`. -/
def lineLoop (o : Nat) (rest : List Char) (ls : Option Nat) : List (Nat × Nat) :=
  match rest with
  | [] => [(ls.getD o, o)]
  | c :: rest =>
    if c = '\r' then
      (ls.getD o, o) ::
        match rest with
        | d :: rest' =>
          if d = '\n' then lineLoop (o + c.utf8Size + d.utf8Size) rest' none
          else lineLoop (o + c.utf8Size) (d :: rest') none
        | [] => lineLoop (o + c.utf8Size) [] none
    else if c = '\n' then (ls.getD o, o) :: lineLoop (o + c.utf8Size) rest none
    else lineLoop (o + c.utf8Size) rest (some (ls.getD o))
termination_by structural rest

/-- src/utils/buffer.rs:219-220, `search_result.unwrap_or_else(|insert_pos| insert_pos - 1)`. -/
def lineIndexOf : Except Nat Nat → Res Nat
  | .ok i => .ok i
  | .error p => if p = 0 then .panic .lineIndex else .ok (p - 1)

/-- src/utils/buffer.rs:203-232 `get_line_str_from_byte_offset`: the line, its number and the offset
within it. -/
def Buffer.getLineStr (bs : List Ordering → Except Nat Nat) (b : Buffer) (off : Nat) :
    Res (List Char × Nat × Nat) :=
  if off ≤ byteLen b.text then
    let found := bs (b.lineRanges.map fun r =>
      if off < r.1 then .gt else if off > r.2 then .lt else .eq)
    match lineIndexOf found with
    | .ok i =>
      match b.lineRanges[i]? with
      | some (s, e) =>
        match sliceBytes b.text s e with
        | .ok line =>
          let clamped := if off ≤ e then off else e
          if s ≤ clamped then .ok (line, i, clamped - s) else .panic .lineIndex
        | .panic w => .panic w
        | .oof => .oof
      | none => .panic .lineIndex
    | .panic w => .panic w
    | .oof => .oof
  else .panic .lineIndex

/-- src/utils/buffer.rs:240-246, the loop that finds the column. -/
def columnLoop (lineOff : Nat) : List Nat → Nat → Nat
  | [], col => col
  | g :: gs, col => if g ≥ lineOff then col else columnLoop lineOff gs (col + 1)

/-- src/utils/buffer.rs:263-267 `struct TextPos`. -/
structure TextPos where
  line : Nat
  column : Nat
  byteOffset : Nat
  deriving DecidableEq, Repr

/-- src/utils/buffer.rs:234-253 `get_text_pos_from_byte_offset`. -/
def Buffer.getTextPos (bs : List Ordering → Except Nat Nat) (graphemes : List Char → List Nat)
    (b : Buffer) (off : Nat) : Res TextPos :=
  match b.getLineStr bs off with
  | .ok (line, lineNumber, lineOff) => .ok ⟨lineNumber, columnLoop lineOff (graphemes line) 0, off⟩
  | .panic w => .panic w
  | .oof => .oof

namespace BufferRange
/-- src/utils/buffer.rs:31-91 `BufferRange::new`. -/
def new (id : Nat) (text : List Char) : BufferRange :=
  let buffer : Buffer := ⟨id, text, lineLoop 0 text (some 0)⟩
  ⟨0, byteLen buffer.text, buffer⟩

/-- src/utils/buffer.rs:92-94 `BufferRange::as_str`. -/
def asStr (r : BufferRange) : Res (List Char) := sliceBytes r.buf.text r.startIndex r.endIndex

/-- src/utils/buffer.rs:95-97 `BufferRange::byte_len` (a subtraction of `usize`s, which panics or wraps below
zero; ranges always have `start ≤ end`, see `range_ordered`). -/
def byteLen (r : BufferRange) : Nat := r.endIndex - r.startIndex

/-- src/utils/buffer.rs:98-100 `BufferRange::empty`. -/
def empty (r : BufferRange) : Bool := r.startIndex == r.endIndex

/-- src/utils/buffer.rs:102-115 `BufferRange::read_char_mut`: the result and the updated range. -/
def readCharMut (r : BufferRange) : Res (Option Char × BufferRange) :=
  match r.asStr with
  | .ok s =>
    match charIndices 0 s with
    | [] => .ok (none, r)
    | (_, ch) :: chars =>
      let start := match chars with
        | [] => r.endIndex
        | (o, _) :: _ => r.startIndex + o
      .ok (some ch, { r with startIndex := start })
  | .panic w => .panic w
  | .oof => .oof

/-- src/utils/buffer.rs:117-120 `BufferRange::read_char`. -/
def readChar (r : BufferRange) : Res (Option (Char × BufferRange)) :=
  match r.readCharMut with
  | .ok (some ch, copy) => .ok (some (ch, copy))
  | .ok (none, _) => .ok none
  | .panic w => .panic w
  | .oof => .oof

/-- src/utils/buffer.rs:124-129, the loop of `advance_n_mut`: `none` when a read failed. -/
def advanceLoop : Nat → BufferRange → Res (Option BufferRange)
  | 0, r => .ok (some r)
  | n + 1, r =>
    match r.readCharMut with
    | .ok (some _, r') => advanceLoop n r'
    | .ok (none, _) => .ok none
    | .panic w => .panic w
    | .oof => .oof

/-- src/utils/buffer.rs:122-131 `BufferRange::advance_n_mut`: the result and the updated range. -/
def advanceNMut (r : BufferRange) (n : Nat) : Res (Option (List Char) × BufferRange) :=
  match advanceLoop n r with
  | .ok (some r') =>
    match sliceBytes r'.buf.text r.startIndex r'.startIndex with
    | .ok s => .ok (some s, r')
    | .panic w => .panic w
    | .oof => .oof
  | .ok none => .ok (none, r)
  | .panic w => .panic w
  | .oof => .oof

/-- src/utils/buffer.rs:133-142 `BufferRange::advance_n`. -/
def advanceN (r : BufferRange) (n : Nat) : Res (Option (List Char × BufferRange)) :=
  match r.advanceNMut n with
  | .ok (some _, copy) =>
    match sliceBytes r.buf.text r.startIndex copy.startIndex with
    | .ok s => .ok (some (s, copy))
    | .panic w => .panic w
    | .oof => .oof
  | .ok (none, _) => .ok none
  | .panic w => .panic w
  | .oof => .oof

/-- src/utils/buffer.rs:146-155 `BufferRange::remove_suffix`. -/
def removeSuffix (r suffix : BufferRange) : Res BufferRange :=
  if r.buf.id = suffix.buf.id then
    if r.endIndex = suffix.endIndex then
      if r.startIndex ≤ suffix.startIndex then
        .ok { startIndex := r.startIndex, endIndex := suffix.startIndex, buf := r.buf }
      else .panic .removeSuffix
    else .panic .removeSuffix
  else .panic .removeSuffix

/-- src/utils/buffer.rs:157-159 `BufferRange::start_pos`. -/
def startPos (bs : List Ordering → Except Nat Nat) (graphemes : List Char → List Nat)
    (r : BufferRange) : Res TextPos := r.buf.getTextPos bs graphemes r.startIndex

/-- src/utils/buffer.rs:161-163 `BufferRange::end_pos`. -/
def endPos (bs : List Ordering → Except Nat Nat) (graphemes : List Char → List Nat)
    (r : BufferRange) : Res TextPos := r.buf.getTextPos bs graphemes r.endIndex
end BufferRange

/-- The UTF-8 bytes of a text (std `str::as_bytes`; the encoding of a character is Lean's). -/
def utf8 (t : List Char) : List UInt8 := t.flatMap String.utf8EncodeChar

/-- `Ord for str` (std): the bytes, lexicographically.  Used by src/utils/buffer.rs:180 and by the derived
`Ord` of src/utils.rs:73-74 `struct Name`. -/
def strCmp (s t : List Char) : Ordering := List.compareLex compare (utf8 s) (utf8 t)

/-- src/utils/buffer.rs:179-181 `BufferRangeKey::cmp` (`PartialOrd` and `PartialEq` go through it):
the texts are compared. -/
def rangeKeyCmp (a b : BufferRange) : Res Ordering :=
  match a.asStr, b.asStr with
  | .ok s, .ok t => .ok (strCmp s t)
  | .ok _, .panic w => .panic w
  | .ok _, .oof => .oof
  | .panic w, _ => .panic w
  | .oof, _ => .oof
end Bongo
