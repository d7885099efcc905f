import Verif.Model.State
import Verif.Model.Effects
import Verif.Spec.Api
/-!
# Specification: positions in a production, and sets of production states
-/
namespace Bongo
variable {T NT AK AV : Type}

/-- Starting from `ProdState::from_start(p)`, successive `next_elem_state` calls returned the
elements `es` and led to the state `s`. -/
inductive Visits (p : Prod T NT AK AV) : List (ProdElement T NT) → ProdState T NT AK AV → Prop where
  | start : Visits p [] (ProdState.fromStart p)
  | next {es s e s'} : Visits p es s → s.nextElemState = some (e, s') → Visits p (es ++ [e]) s'

/-- What every version of the standard library guarantees of collecting into a `BTreeSet`: the
result is strictly increasing, its elements are among those collected, and for every collected
element it has one that is `Ord`-equal.  (Which of several `Ord`-equal elements survives differs
between versions.) -/
structure CollectSpec {K : Type} (cmp : K → K → Ordering) (collect : List K → BSet K) : Prop where
  sorted : ∀ l, BSet.Sorted cmp (collect l)
  sub : ∀ l, ∀ x ∈ collect l, x ∈ l
  all : ∀ l, ∀ x ∈ l, ∃ y ∈ collect l, cmp x y = .eq

/-- The sets of states a program can obtain through the API. -/
inductive ProdStateSet.Obtained [Ord T] [Ord NT] (addr : NT → Nat → Nat) :
    ProdStateSet T NT AK AV → Prop where
  | newEmpty : Obtained addr ProdStateSet.newEmpty
  | collect {c} (l : List (ProdState T NT AK AV)) : CollectSpec (ProdState.cmp addr) c →
      Obtained addr (c l)
  | add {s} (st : ProdState T NT AK AV) : Obtained addr s → Obtained addr (ProdStateSet.add addr s st)
  | nexts {s e s'} : Obtained addr s → (e, s') ∈ ProdStateSet.nexts addr s → Obtained addr s'
  /-- The set after `take_closure` with a function that may keep state `x` and may panic. -/
  | takeClosure {s fuel} {σ : Type} {f} {x : σ} : Obtained addr s →
      Obtained addr (ProdStateSet.takeClosureE addr fuel f x s).2.1

end Bongo
