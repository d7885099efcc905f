import Verif.Model.Res
/-!
# src/utils.rs: `Name`

`Name` is an `Rc<String>`.  The heap of reference-counted strings is explicit: `heap a` is the
string and the strong count of the allocation at address `a`, if it is live.  `Name` never makes
`Weak` references, so there is no weak count.  A program's `Name` variables are numbered slots,
holding the address of an allocation, or nothing once dropped.  Deref of a dead allocation is
`none` (it cannot happen in Rust; `name_str` in Props shows it cannot happen here).
-/
namespace Bongo

/-- The state of all `Name`s of a program. -/
structure NameState where
  heap : Nat → Option (String × Nat)
  slots : List (Option Nat)

namespace NameState
/-- A program before it has any `Name`. -/
def init : NameState := ⟨fun _ => none, []⟩

def write (h : Nat → Option (String × Nat)) (a : Nat) (x : Option (String × Nat)) :
    Nat → Option (String × Nat) := fun b => if b = a then x else h b

/-- `Rc::drop` (std): decrement the count, free at zero. -/
def release (h : Nat → Option (String × Nat)) (a : Nat) : Nat → Option (String × Nat) :=
  match h a with
  | some (s, n + 2) => write h a (some (s, n + 1))
  | _ => write h a none

/-- src/utils.rs:78-80 `Name::new`: a new allocation at `a` (chosen by the allocator) and a new
slot for it. -/
def new (st : NameState) (a : Nat) (s : String) : NameState :=
  ⟨write st.heap a (some (s, 1)), st.slots ++ [some a]⟩

/-- The derived `Clone` of src/utils.rs:74-74 `struct Name`: `Rc::clone` (std), one more reference
to the same allocation, in a new slot. -/
def clone (st : NameState) (i : Nat) : NameState :=
  match st.slots[i]? with
  | some (some a) =>
    match st.heap a with
    | some (s, n) => ⟨write st.heap a (some (s, n + 1)), st.slots ++ [some a]⟩
    | none => st
  | _ => st

/-- src/utils.rs:83-85 `Name::str`. -/
def str (st : NameState) (i : Nat) : Option String :=
  match st.slots[i]? with
  | some (some a) => (st.heap a).map (·.1)
  | _ => none

/-- src/utils.rs:89-91 `Name::make_mut`, and the caller's use of the `&mut String` it returns: the
string becomes `f` of itself.  `Rc::make_mut` (std) gives access in place when the count is 1, and
otherwise clones the string into a new allocation `b`, which replaces this name's reference. -/
def makeMut (st : NameState) (i b : Nat) (f : String → String) : NameState :=
  match st.slots[i]? with
  | some (some a) =>
    match st.heap a with
    | some (s, 1) => ⟨write st.heap a (some (f s, 1)), st.slots⟩
    | some (s, _) => ⟨write (release st.heap a) b (some (f s, 1)), st.slots.set i (some b)⟩
    | none => st
  | _ => st

/-- Dropping a `Name`. -/
def drop (st : NameState) (i : Nat) : NameState :=
  match st.slots[i]? with
  | some (some a) => ⟨release st.heap a, st.slots.set i none⟩
  | _ => st
end NameState
end Bongo
