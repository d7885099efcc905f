import Verif.Model.State
import Verif.Model.TokenStream
/-!
# Machine integers

The other files of the model use unbounded integers.  Here the additions on `usize` in /repo
(src/state.rs:90 and 115, src/parsers/mod.rs:66; the only other arithmetic is in src/utils/buffer.rs,
where subtractions that fail are panics in `Verif.Model.Buffer` and line 245 counts the characters of a
line) are modelled for a machine with `w`-bit addresses, in builds with and without overflow checks.
-/
namespace Bongo
set_option linter.unusedSectionVars false
variable {T NT AK AV K V : Type}

/-- How a build treats integer overflow (rustc's `overflow-checks`: on for debug builds, off for
release builds); src/state.rs:90. -/
inductive Overflow where
  | checked
  | wrapping
  deriving DecidableEq, Repr

/-- `a + b` on `usize`, as at src/state.rs:90. -/
def usizeAdd (w : Nat) (o : Overflow) (a b : Nat) : Res Nat :=
  if a + b < 2 ^ w then .ok (a + b)
  else match o with
    | .checked => .panic .overflow
    | .wrapping => .ok ((a + b) % 2 ^ w)

namespace ProdState
variable (w : Nat) (o : Overflow)

/-- src/state.rs:89-91 `ProdState::offset_prod_elem` on a `w`-bit machine. -/
def offsetProdElemW (s : ProdState T NT AK AV) (i : Nat) : Res (Option (ProdElement T NT)) :=
  match usizeAdd w o s.index i with
  | .ok k => .ok s.prod.prodElements[k]?
  | .panic x => .panic x
  | .oof => .oof

/-- src/state.rs:93-95 `ProdState::offset_elem` on a `w`-bit machine. -/
def offsetElemW (s : ProdState T NT AK AV) (i : Nat) : Res (Option (Elem T NT)) :=
  match s.offsetProdElemW w o i with
  | .ok e => .ok (e.map (·.element))
  | .panic x => .panic x
  | .oof => .oof

/-- src/state.rs:107-119 `ProdState::next_elem_state` on a `w`-bit machine. -/
def nextElemStateW (s : ProdState T NT AK AV) :
    Res (Option (ProdElement T NT × ProdState T NT AK AV)) :=
  match s.offsetProdElemW w o 0 with
  | .ok none => .ok none
  | .ok (some e) =>
    match usizeAdd w o s.index 1 with
    | .ok k => .ok (some (e, ⟨s.prod, k⟩))
    | .panic x => .panic x
    | .oof => .oof
  | .panic x => .panic x
  | .oof => .oof

/-- src/state.rs:137-145 `ProdState::advance_if` on a `w`-bit machine. -/
def advanceIfW [DecidableEq T] [DecidableEq NT] (s : ProdState T NT AK AV) (elem : Elem T NT) :
    Res (Option (ProdState T NT AK AV)) :=
  match s.nextElemStateW w o with
  | .ok r => .ok ((r.filter (fun en => en.1.element == elem)).map (·.2))
  | .panic x => .panic x
  | .oof => .oof
end ProdState

/-- src/parsers/mod.rs:60-73 `VecTokenStream::next` on a `w`-bit machine. -/
def VecTokenStream.nextW (w : Nat) (o : Overflow) (s : VecTokenStream K V) :
    Res (Option (Token K V × VecTokenStream K V)) :=
  if s.tokens.length < s.position then
    match s.tokens[s.position]? with
    | some t =>
      match usizeAdd w o s.position 1 with
      | .ok k => .ok (some (t, ⟨s.tokens, k⟩))
      | .panic x => .panic x
      | .oof => .oof
    | none => .panic .tokenIndex
  else if s.tokens.length = s.position then .ok none
  else .panic .tokenStream
end Bongo
