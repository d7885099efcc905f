import Verif.Model.Buffer
/-!
# Specification: buffers, lines and columns
-/
namespace Bongo

/-- std's contract of `binary_search_by`, on the comparator's answers for the elements in order:
when these are sorted (`Less`, then `Equal`, then `Greater`), the result is an index that answers
`Equal`, or the insertion point between `Less` and `Greater`. -/
def BinarySearch (bs : List Ordering → Except Nat Nat) : Prop :=
  ∀ l : List Ordering, l.Pairwise (fun a b => a = .lt ∨ b = .gt ∨ (a = .eq ∧ b = .eq)) →
    match bs l with
    | .ok i => l[i]? = some .eq
    | .error p => p ≤ l.length ∧ (∀ i, i < p → l[i]? = some .lt) ∧
        ∀ i, p ≤ i → i < l.length → l[i]? = some .gt

/-- The number of line terminators of `text` (which starts at byte `o`) that end at or before byte
`off`.  A terminator is LF, CR or CRLF: it ends with an LF, or with a CR that no LF follows. -/
def lineBreaksUpTo (off : Nat) : Nat → List Char → Nat
  | _, [] => 0
  | o, c :: rest =>
    (if (c = '\n' ∨ (c = '\r' ∧ rest.head? ≠ some '\n')) ∧ o + c.utf8Size ≤ off then 1 else 0) +
      lineBreaksUpTo off (o + c.utf8Size) rest

/-- `line` is a whole line of `pre ++ line ++ post`: it contains no CR or LF, begins at the start or
after a terminator, and ends at the end or before a terminator. -/
structure IsLine (pre line post : List Char) : Prop where
  plain : ∀ c ∈ line, c ≠ '\r' ∧ c ≠ '\n'
  before : pre = [] ∨ pre.getLast? = some '\n' ∨
    (pre.getLast? = some '\r' ∧ (line ++ post).head? ≠ some '\n')
  after : post = [] ∨ post.head? = some '\r' ∨ post.head? = some '\n'

/-- The ranges a program obtains from buffers `alloc` (the text of the buffer with each identity)
through the API; the `_mut` calls update a range to one of these. -/
inductive Obtained (alloc : Nat → List Char) : BufferRange → Prop where
  | new (id : Nat) : Obtained alloc (.new id (alloc id))
  | readChar {r c r'} : Obtained alloc r → r.readChar = .ok (some (c, r')) → Obtained alloc r'
  | readCharMut {r o r'} : Obtained alloc r → r.readCharMut = .ok (o, r') → Obtained alloc r'
  | advanceN {r n s r'} : Obtained alloc r → r.advanceN n = .ok (some (s, r')) → Obtained alloc r'
  | advanceNMut {r n o r'} : Obtained alloc r → r.advanceNMut n = .ok (o, r') → Obtained alloc r'
  | removeSuffix {r s r'} : Obtained alloc r → Obtained alloc s → r.removeSuffix s = .ok r' →
      Obtained alloc r'
end Bongo
