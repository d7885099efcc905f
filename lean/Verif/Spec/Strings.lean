import Verif.Model.Buffer
/-!
# Specification: where a string can be cut
-/
namespace Bongo

/-- std's `str::is_char_boundary`: the end of the bytes, or a byte that does not continue a character
(continuation bytes are 0x80–0xBF). -/
def CharBoundary (bytes : List UInt8) (n : Nat) : Prop :=
  n = bytes.length ∨ ∃ b, bytes[n]? = some b ∧ (b.toNat < 0x80 ∨ 0xC0 ≤ b.toNat)
end Bongo
