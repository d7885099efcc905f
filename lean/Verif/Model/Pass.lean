import Verif.Model.Firsts
/-!
# src/grammar/passes/mod.rs

`PassContext::get_pass`: memoisation and dependency resolution.

A pass type is an element of `P` (its `TypeId`).  Its `run_pass` is arbitrary code that may call
`get_pass` on the context any number of times and inspect the results; it is represented by the
tree of its possible requests, `PassProg`.  Values of all pass types live in one type `V` and
errors in `E`: the `downcast` at src/grammar/passes/mod.rs:124 cannot fail because the map is
keyed by the `TypeId` of the stored type, and this is not modelled further.
-/
namespace Bongo
universe u

/-- What `Pass::run_pass` (src/grammar/passes/mod.rs:54-58) does with its context: return, panic,
run out of fuel in a loop of its own, or request a pass and go on with the result. -/
inductive PassProg (P V E : Type) where
  | ret (r : Except E V)
  | fail (w : Panic)
  | stuck
  | get (p : P) (k : Except E V → PassProg P V E)

/-- Observable events, recorded for the statements only: `run_pass` of a pass was entered; a
`get_pass` call returned a result to its caller. -/
inductive PassEvent (P V E : Type) where
  | ran (p : P)
  | got (p : P) (r : Except E V)

/-- src/grammar/passes/mod.rs:62-65 `struct PassContext`.  In `passes`, `none` is the
`NoCurrentValue` marker.  `log` is not in the code. -/
structure PassContext (P V E : Type) where
  passes : BMap P (Option V)
  log : List (PassEvent P V E)

namespace PassContext
variable {P V E : Type} [Ord P]

/-- src/grammar/passes/mod.rs:69-74 `PassContext::new`. -/
def new : PassContext P V E := ⟨[], []⟩

mutual
/-- src/grammar/passes/mod.rs:83-126 `PassContext::get_pass`. -/
def getPass (fuel : Nat) (prog : P → PassProg P V E) (σ : PassContext P V E) (p : P) :
    Res (PassContext P V E × Except E V) :=
  match fuel with
  | 0 => .oof
  | fuel + 1 =>
    match BMap.get? compare σ.passes p with
    | some none => .panic .passRecursion
    | some (some v) => .ok (⟨σ.passes, σ.log ++ [.got p (.ok v)]⟩, .ok v)
    | none =>
      match runProg fuel prog ⟨BMap.insert compare σ.passes p none, σ.log ++ [.ran p]⟩ (prog p) with
      | .ok (σ', .error e) => .ok (⟨σ'.passes, σ'.log ++ [.got p (.error e)]⟩, .error e)
      | .ok (σ', .ok v) =>
        match BMap.get? compare (BMap.insert compare σ'.passes p (some v)) p with
        | some (some v') =>
          .ok (⟨BMap.insert compare σ'.passes p (some v), σ'.log ++ [.got p (.ok v')]⟩, .ok v')
        | _ => .panic .passMissing
      | .panic w => .panic w
      | .oof => .oof
/-- Running the body of a `run_pass`. -/
def runProg (fuel : Nat) (prog : P → PassProg P V E) (σ : PassContext P V E) :
    PassProg P V E → Res (PassContext P V E × Except E V)
  | .ret r => .ok (σ, r)
  | .fail w => .panic w
  | .stuck => .oof
  | .get q k =>
    match fuel with
    | 0 => .oof
    | fuel + 1 =>
      match getPass fuel prog σ q with
      | .ok (σ', r) => runProg fuel prog σ' (k r)
      | .panic w => .panic w
      | .oof => .oof
end

/-- A history of `get_pass` calls by the owner of the context. -/
def getPasses (fuel : Nat) (prog : P → PassProg P V E) :
    PassContext P V E → List P → Res (PassContext P V E)
  | σ, [] => .ok σ
  | σ, p :: ps =>
    match getPass fuel prog σ p with
    | .ok (σ', _) => getPasses fuel prog σ' ps
    | .panic w => .panic w
    | .oof => .oof
end PassContext

/-! ## The passes of the crate -/

/-- The three `Pass` implementations of the crate. -/
inductive PassId where
  | nullable | firsts | follows
  deriving DecidableEq, Repr

/-- The order of `TypeId`s is unspecified; any fixed order will do. -/
def PassId.rank : PassId → Nat
  | .nullable => 0 | .firsts => 1 | .follows => 2
instance : Ord PassId := ⟨fun a b => compare a.rank b.rank⟩

/-- The results of the three passes. -/
inductive PassVal (T NT AK : Type) where
  | nullable (i : GrammarNullableInfo NT AK)
  | firsts (f : Firsts T NT)
  | follows (f : Follows T NT)

/-- The end of a `run_pass` body. -/
def PassProg.ofRes {P V E α : Type} (f : α → V) : Res (Except E α) → PassProg P V E
  | .ok (.ok a) => .ret (.ok (f a))
  | .ok (.error e) => .ret (.error e)
  | .panic w => .fail w
  | .oof => .stuck

/-- The `run_pass` of each pass: src/grammar/passes/nullable.rs:40-44,
src/grammar/passes/firsts.rs:34-70, src/grammar/passes/follows.rs:25-64.  Requesting a pass yields
a value of its own type (the `downcast` in `get_pass`); the impossible case is `stuck`. -/
def cratePasses {T NT AK AV : Type} [Ord T] [Ord NT] (fuel : Nat) (addr : NT → Nat → Nat)
    (g : Grammar T NT AK AV) : PassId → PassProg PassId (PassVal T NT AK) NullableError
  | .nullable => .ofRes .nullable (calculateNullables fuel addr g)
  | .firsts => .get .nullable fun r =>
    match r with
    | .error e => .ofRes .firsts (Firsts.runPass fuel g (.error e))
    | .ok (.nullable i) => .ofRes .firsts (Firsts.runPass fuel g (.ok i))
    | .ok _ => .stuck
  | .follows => .get .firsts fun r =>
    match r with
    | .error e => .ofRes .follows (Follows.runPass fuel g (.error e))
    | .ok (.firsts f) => .ofRes .follows (Follows.runPass fuel g (.ok f))
    | .ok _ => .stuck

end Bongo
