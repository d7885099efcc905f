import Verif.Model.Res
/-!
# src/parsers/mod.rs: token streams
-/
namespace Bongo
variable {K V : Type}

/-- src/parsers/mod.rs:22-25 `struct Token`. -/
structure Token (K V : Type) where
  kind : K
  value : V
  deriving DecidableEq, Repr

/-- src/parsers/mod.rs:39-42 `struct VecTokenStream` (the `Arc` is shared, immutable data). -/
structure VecTokenStream (K V : Type) where
  tokens : List (Token K V)
  position : Nat
  deriving DecidableEq, Repr

namespace VecTokenStream
/-- src/parsers/mod.rs:45-52 `VecTokenStream::from_into_iter`. -/
def fromIntoIter (l : List (Token K V)) : VecTokenStream K V := ⟨l, 0⟩

/-- src/parsers/mod.rs:60-73 `VecTokenStream::next`. -/
def next (s : VecTokenStream K V) : Res (Option (Token K V × VecTokenStream K V)) :=
  if s.tokens.length < s.position then
    match s.tokens[s.position]? with
    | some t => .ok (some (t, ⟨s.tokens, s.position + 1⟩))
    | none => .panic .tokenIndex
  else if s.tokens.length = s.position then .ok none
  else .panic .tokenStream
end VecTokenStream
end Bongo
