import Verif.Model.State
/-!
# User functions with effects

`breadth_first_search`, `ProdStateSet::take_closure` and `fixed_point` take an `FnMut`: the function
handed to them may keep state, answer the same question differently the second time, and panic.
`Verif.Model.Utils` and `Verif.Model.State` model them for functions whose answers depend on the
argument only; here the state `σ` of the user's function is threaded explicitly.  A call
`f s x = (s', r)` is: called on `x` in state `s`, it leaves state `s'` behind and returns
(`r = .ok l`), panics, or does not return (`.oof`).

Simplification: the iterator a call returns is the list of what it yields.  (An iterator that has
effects of its own while it is being drained has them before the next call, as here.)
-/
namespace Bongo

section bfs
variable {A : Type u} {σ : Type v} (cmp : A → A → Ordering)

/-- src/utils.rs:166-173 `for next_item in &curr_set`, with the state of `f`. -/
def bfsLevelE (f : σ → A → σ × Res (List A)) (curr : List A) (s : σ) (st : BSet A × BSet A) :
    σ × Res (BSet A × BSet A) :=
  match curr with
  | [] => (s, .ok st)
  | item :: curr =>
    match f s item with
    | (s', .ok steps) => bfsLevelE f curr s' (steps.foldl (bfsVisit cmp) st)
    | (s', .panic w) => (s', .panic w)
    | (s', .oof) => (s', .oof)

/-- src/utils.rs:165-177 `while !curr_set.is_empty()`, with the state of `f`. -/
def bfsLoopE (fuel : Nat) (f : σ → A → σ × Res (List A)) (s : σ) (curr seen : BSet A) :
    σ × Res (BSet A) :=
  match curr with
  | [] => (s, .ok seen)
  | c :: cs =>
    match fuel with
    | 0 => (s, .oof)
    | fuel + 1 =>
      match bfsLevelE cmp f (c :: cs) s ([], seen) with
      | (s', .ok (next, seen')) => bfsLoopE fuel f s' next seen'
      | (s', .panic w) => (s', .panic w)
      | (s', .oof) => (s', .oof)

/-- src/utils.rs:151-180 `breadth_first_search` with an `FnMut` that keeps state; the state it is
left in, and the answer. -/
def breadthFirstSearchE (fuel : Nat) (initial : List A) (f : σ → A → σ × Res (List A)) (s : σ) :
    σ × Res (BSet A) :=
  bfsLoopE cmp fuel f s (BSet.ofList cmp initial) []
end bfs

namespace ProdStateSet
variable {T NT AK AV : Type} {σ : Type v} (addr : NT → Nat → Nat)

/-- src/state.rs:254-260 `for state in curr_states.iter()`, with the state of `close_func`; the
sets are `(next_states, seen_states)`. -/
def closureLevelE (f : σ → ProdState T NT AK AV → σ × Res (List (ProdState T NT AK AV)))
    (curr : List (ProdState T NT AK AV)) (s : σ)
    (st : ProdStateSet T NT AK AV × ProdStateSet T NT AK AV) :
    σ × Res (ProdStateSet T NT AK AV × ProdStateSet T NT AK AV) :=
  match curr with
  | [] => (s, .ok st)
  | state :: curr =>
    match f s state with
    | (s', .ok news) => closureLevelE f curr s' (news.foldl (closureVisit addr) st)
    | (s', .panic w) => (s', .panic w)
    | (s', .oof) => (s', .oof)

/-- src/state.rs:253-269, the `loop` of `take_closure`, with the state of `close_func`; the answer
is what is assigned to `self.states` at line 263. -/
def closureLoopE (fuel : Nat)
    (f : σ → ProdState T NT AK AV → σ × Res (List (ProdState T NT AK AV))) (s : σ)
    (curr seen : ProdStateSet T NT AK AV) : σ × Res (ProdStateSet T NT AK AV) :=
  match fuel with
  | 0 => (s, .oof)
  | fuel + 1 =>
    match closureLevelE addr f curr s ([], seen) with
    | (s', .ok ([], seen')) => (s', .ok seen')
    | (s', .ok (c :: cs, seen')) => closureLoopE fuel f s' (c :: cs) seen'
    | (s', .panic w) => (s', .panic w)
    | (s', .oof) => (s', .oof)

/-- src/state.rs:245-270 `ProdStateSet::take_closure` with an `FnMut` that keeps state and may
panic: the state the function is left in, the set afterwards (`self.states` is assigned only at
line 263, just before returning), and whether the call returned. -/
def takeClosureE (fuel : Nat)
    (f : σ → ProdState T NT AK AV → σ × Res (List (ProdState T NT AK AV))) (s : σ)
    (set : ProdStateSet T NT AK AV) : σ × ProdStateSet T NT AK AV × Res Unit :=
  match closureLoopE addr fuel f s set set with
  | (s', .ok r) => (s', r, .ok ())
  | (s', .panic w) => (s', set, .panic w)
  | (s', .oof) => (s', set, .oof)
end ProdStateSet

/-- src/utils.rs:23-32 `fixed_point` with an `FnMut` that keeps state and may panic. -/
def fixedPointE {A : Type u} {σ : Type v} [DecidableEq A] (fuel : Nat) (start : A)
    (apply : σ → A → σ × Res A) (s : σ) : σ × Res A :=
  match fuel with
  | 0 => (s, .oof)
  | fuel + 1 =>
    match apply s start with
    | (s', .ok next) => if next = start then (s', .ok start) else fixedPointE fuel next apply s'
    | (s', .panic w) => (s', .panic w)
    | (s', .oof) => (s', .oof)

end Bongo
