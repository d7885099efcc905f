import Verif.Model.Buffer
import Verif.Model.Name
import Verif.Model.Pretty
import Verif.Model.Utils
/-!
# Derived `Hash`

A value is hashed by feeding bytes to a hasher; modelled is what is fed, in order.  std: a string feeds its
UTF-8 bytes and then the byte 0xFF (`str::hash`, with the default `Hasher::write_str`); `Rc` feeds its
content; a derived implementation feeds the fields in order, and for an enum first the number of the
variant, as an `isize` (here: 64 bits, little endian).
-/
namespace Bongo

/-- std's `Hash for str`, as used by the derived `Hash` at src/utils.rs:73-74. -/
def hashStr (s : List Char) : List UInt8 := utf8 s ++ [0xFF]

/-- src/utils.rs:73-74 `Name`, derived `Hash`. -/
def Name.hashFeed (n : Name) : List UInt8 := hashStr n.toList

/-- src/grammar/base/element_types.rs:6-7 `Terminal`, derived `Hash`. -/
def Terminal.hashFeed (t : Terminal) : List UInt8 := Name.hashFeed t.name

/-- src/grammar/base/element_types.rs:24-25 `NonTerminal`, derived `Hash`. -/
def NonTerminal.hashFeed (t : NonTerminal) : List UInt8 := Name.hashFeed t.name

/-- src/utils.rs:205-209 `WasChanged`, derived `Hash`. -/
def WasChanged.hashFeed : WasChanged → List UInt8
  | .changed => [0, 0, 0, 0, 0, 0, 0, 0]
  | .unchanged => [1, 0, 0, 0, 0, 0, 0, 0]

/-- src/utils.rs:73-74: hashing the `Name` in a slot of a program's memory (`Verif.Model.Name`). -/
def NameState.hashFeed (st : NameState) (i : Nat) : Option (List UInt8) := (st.str i).map Name.hashFeed
end Bongo
