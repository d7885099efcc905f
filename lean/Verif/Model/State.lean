import Verif.Model.Nullable
/-!
# src/state.rs

Production states ("dotted productions") and sets of them.  `addr A i` is the address of the `i`-th
production of the rule of `A` (see `prodCmp`).
-/
namespace Bongo
set_option linter.unusedSectionVars false
variable {T NT AK AV : Type}

/-- `ProdElement`'s `#[derive(Ord)]`, src/grammar/base.rs:97-101: by identifier (`None` first), then
by element. -/
def ProdElement.cmp [Ord T] [Ord NT] (a b : ProdElement T NT) : Ordering :=
  match a.identifier, b.identifier with
  | none, none => compare a.element b.element
  | none, some _ => .lt
  | some _, none => .gt
  | some x, some y => (compare x y).then (compare a.element b.element)

/-- src/state.rs:39-46 `struct ProdState`. -/
structure ProdState (T NT AK AV : Type) where
  prod : Prod T NT AK AV
  index : Nat
  deriving DecidableEq, Repr

namespace ProdState
/-- `Ord`/`PartialOrd`/`PartialEq`/`Eq for ProdState`, src/state.rs:48-75: the position is not
compared. -/
def cmp (addr : NT → Nat → Nat) (a b : ProdState T NT AK AV) : Ordering :=
  prodCmp addr a.prod b.prod

/-- src/state.rs:81-83 `ProdState::from_start`. -/
def fromStart (prod : Prod T NT AK AV) : ProdState T NT AK AV := ⟨prod, 0⟩

/-- src/state.rs:89-91 `ProdState::offset_prod_elem`. -/
def offsetProdElem (s : ProdState T NT AK AV) (i : Nat) : Option (ProdElement T NT) :=
  s.prod.prodElements[s.index + i]?

/-- src/state.rs:93-95 `ProdState::offset_elem`. -/
def offsetElem (s : ProdState T NT AK AV) (i : Nat) : Option (Elem T NT) :=
  (s.offsetProdElem i).map (·.element)

/-- src/state.rs:97-99 `ProdState::next_prod_elem`. -/
def nextProdElem (s : ProdState T NT AK AV) : Option (ProdElement T NT) := s.offsetProdElem 0

/-- src/state.rs:101-103 `ProdState::next_elem`. -/
def nextElem (s : ProdState T NT AK AV) : Option (Elem T NT) := s.offsetElem 0

/-- src/state.rs:107-119 `ProdState::next_elem_state`. -/
def nextElemState (s : ProdState T NT AK AV) : Option (ProdElement T NT × ProdState T NT AK AV) :=
  s.nextProdElem.map fun e => (e, ⟨s.prod, s.index + 1⟩)

/-- src/state.rs:121-123 `ProdState::is_complete`. -/
def isComplete (s : ProdState T NT AK AV) : Bool := s.prod.numElements == s.index

/-- src/state.rs:125-127 `ProdState::action_key`. -/
def actionKey (s : ProdState T NT AK AV) : AK := s.prod.actionKey

/-- src/state.rs:137-145 `ProdState::advance_if`. -/
def advanceIf [DecidableEq T] [DecidableEq NT] (s : ProdState T NT AK AV) (elem : Elem T NT) :
    Option (ProdState T NT AK AV) :=
  (s.nextElemState.filter (fun en => en.1.element == elem)).map (·.2)
end ProdState

/-- src/state.rs:151-153 `struct ProdStateSet`. -/
abbrev ProdStateSet (T NT AK AV : Type) := BSet (ProdState T NT AK AV)

namespace ProdStateSet
variable (addr : NT → Nat → Nat)

/-- src/state.rs:199-203 `ProdStateSet::new_empty`. -/
def newEmpty : ProdStateSet T NT AK AV := []

/-- src/state.rs:206-214 `ProdStateSet::complete`. -/
def complete (s : ProdStateSet T NT AK AV) : List (ProdState T NT AK AV) := s.filter (·.isComplete)

/-- src/state.rs:222-224 `ProdStateSet::add`. -/
def add (s : ProdStateSet T NT AK AV) (st : ProdState T NT AK AV) : ProdStateSet T NT AK AV :=
  BSet.insert (ProdState.cmp addr) s st

/-- src/state.rs:234-239, one iteration of the loop of `nexts`. -/
def nextsStep [Ord T] [Ord NT] (m : BMap (ProdElement T NT) (ProdStateSet T NT AK AV))
    (kv : ProdElement T NT × ProdState T NT AK AV) :
    BMap (ProdElement T NT) (ProdStateSet T NT AK AV) :=
  BMap.insert ProdElement.cmp m kv.1
    (add addr ((BMap.get? ProdElement.cmp m kv.1).getD newEmpty) kv.2)

/-- src/state.rs:228-242 `ProdStateSet::nexts`. -/
def nexts [Ord T] [Ord NT] (s : ProdStateSet T NT AK AV) :
    BMap (ProdElement T NT) (ProdStateSet T NT AK AV) :=
  (s.filterMap ProdState.nextElemState).foldl (nextsStep addr) []

/-- src/state.rs:255-259, the innermost loop body of `take_closure`; the state is
`(next_states, seen_states)`. -/
def closureVisit (st : ProdStateSet T NT AK AV × ProdStateSet T NT AK AV)
    (new : ProdState T NT AK AV) : ProdStateSet T NT AK AV × ProdStateSet T NT AK AV :=
  if BSet.contains (ProdState.cmp addr) st.2 new then st
  else (BSet.insert (ProdState.cmp addr) st.1 new, BSet.insert (ProdState.cmp addr) st.2 new)

/-- src/state.rs:253-269, the `loop` of `take_closure`. -/
def closureLoop (fuel : Nat) (f : ProdState T NT AK AV → List (ProdState T NT AK AV))
    (curr seen : ProdStateSet T NT AK AV) : Res (ProdStateSet T NT AK AV) :=
  match fuel with
  | 0 => .oof
  | fuel + 1 =>
    let st := (curr.flatMap f).foldl (closureVisit addr) ([], seen)
    match st.1 with
    | [] => .ok st.2
    | c :: cs => closureLoop fuel f (c :: cs) st.2

/-- src/state.rs:245-270 `ProdStateSet::take_closure`, for a closure function that does not panic
and whose answers depend only on its argument. -/
def takeClosure (fuel : Nat) (f : ProdState T NT AK AV → List (ProdState T NT AK AV))
    (s : ProdStateSet T NT AK AV) : Res (ProdStateSet T NT AK AV) := closureLoop addr fuel f s s
end ProdStateSet
end Bongo
