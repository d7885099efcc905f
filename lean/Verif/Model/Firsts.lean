import Verif.Model.Nullable
/-!
# src/grammar/passes/firsts.rs and src/grammar/passes/follows.rs
-/
namespace Bongo
variable {T NT AK AV : Type} [Ord T] [Ord NT]

/-- src/grammar/passes/firsts.rs:48-60, the loop over `prod.elements()` in the closure passed to
`change_iter` (`changed` is the accumulator). -/
def firstsVisitElems (nullables : GrammarNullableInfo NT AK) (head : NT) :
    List (Elem T NT) → CollectMap NT T → WasChanged → CollectMap NT T × WasChanged
  | [], m, changed => (m, changed)
  | .term t :: _, m, changed =>
    let r := CollectMap.insert compare compare m head t
    (r.1, changed.join r.2)
  | .nonterm nt :: es, m, changed =>
    let r := CollectMap.insertFromKeySet compare compare m head nt
    if nullables.isNullable nt then firstsVisitElems nullables head es r.1 (changed.join r.2)
    else (r.1, changed.join r.2)

/-- src/grammar/passes/firsts.rs:46-63, the closure passed to `change_iter`. -/
def firstsVisit (nullables : GrammarNullableInfo NT AK) (m : CollectMap NT T)
    (prod : Prod T NT AK AV) : CollectMap NT T × WasChanged :=
  firstsVisitElems nullables prod.head prod.elements m .unchanged

/-- src/grammar/passes/firsts.rs:15 `struct Firsts`. -/
structure Firsts (T NT : Type) where
  map : BMap NT (BSet T)

namespace Firsts
/-- src/grammar/passes/firsts.rs:21-23 `Firsts::get`. -/
def get (f : Firsts T NT) (nt : NT) : Option (BSet T) := BMap.get? compare f.map nt

/-- src/grammar/passes/firsts.rs:34-72 `Firsts::run_pass`, given the result of the Nullable pass
(line 39); the `PassContext` is modelled in `Verif.Model.Pass`.  The final `map`/`collect` copies
the map. -/
def runPass (fuel : Nat) (g : Grammar T NT AK AV)
    (nullables : Except NullableError (GrammarNullableInfo NT AK)) :
    Res (Except NullableError (Firsts T NT)) :=
  match nullables with
  | .error e => .ok (.error e)
  | .ok info =>
    match changeLoop fuel (fun m => .ok (changeIter g.prods (firstsVisit info) m))
        CollectMap.new with
    | .ok m => .ok (.ok ⟨m⟩)
    | .panic w => .panic w
    | .oof => .oof
end Firsts

/-- src/grammar/passes/follows.rs:38-48, the loop over `elems.windows(2)`. -/
def followsVisitPairs (firsts : Firsts T NT) :
    List (Elem T NT) → CollectMap NT T → WasChanged → Res (CollectMap NT T × WasChanged)
  | a :: b :: es, m, changed =>
    match a with
    | .nonterm first =>
      match b with
      | .term t =>
        let r := CollectMap.insert compare compare m first t
        followsVisitPairs firsts (b :: es) r.1 (changed.join r.2)
      | .nonterm second =>
        match firsts.get second with
        | none => .panic .noFirsts
        | some s =>
          let r := CollectMap.insertIter compare compare m first s
          followsVisitPairs firsts (b :: es) r.1 (changed.join r.2)
    | .term _ => followsVisitPairs firsts (b :: es) m changed
  | _, m, changed => .ok (m, changed)

/-- src/grammar/passes/follows.rs:35-55, the closure passed to `change_iter`. -/
def followsVisit (firsts : Firsts T NT) (m : CollectMap NT T) (prod : Prod T NT AK AV) :
    Res (CollectMap NT T × WasChanged) :=
  match followsVisitPairs firsts prod.elements m .unchanged with
  | .ok (m', changed) =>
    match prod.elements.getLast? with
    | some (.nonterm last) =>
      let r := CollectMap.insertFromKeySet compare compare m' last prod.head
      .ok (r.1, changed.join r.2)
    | _ => .ok (m', changed)
  | .panic w => .panic w
  | .oof => .oof

/-- src/grammar/passes/follows.rs:15 `struct Follows`. -/
structure Follows (T NT : Type) where
  map : BMap NT (BSet T)

/-- src/grammar/passes/follows.rs:25-65 `Follows::run_pass`, given the result of the Firsts pass. -/
def Follows.runPass (fuel : Nat) (g : Grammar T NT AK AV)
    (firsts : Except NullableError (Firsts T NT)) : Res (Except NullableError (Follows T NT)) :=
  match firsts with
  | .error e => .ok (.error e)
  | .ok firsts =>
    match changeLoop fuel (fun m => changeIterM g.prods (followsVisit firsts) m) CollectMap.new with
    | .ok m => .ok (.ok ⟨m⟩)
    | .panic w => .panic w
    | .oof => .oof

/-- `get_pass::<Firsts>()` on a fresh context: src/grammar/passes/firsts.rs:39 runs the Nullable
pass, and its error is returned by `?`. -/
def firstsPass (fuel : Nat) (addr : NT → Nat → Nat) (g : Grammar T NT AK AV) :
    Res (Except NullableError (Firsts T NT)) :=
  match calculateNullables fuel addr g with
  | .ok r => Firsts.runPass fuel g r
  | .panic w => .panic w
  | .oof => .oof

/-- `get_pass::<Follows>()` on a fresh context: src/grammar/passes/follows.rs:30 runs the Firsts
pass, and its error is returned by `?`. -/
def followsPass (fuel : Nat) (addr : NT → Nat → Nat) (g : Grammar T NT AK AV) :
    Res (Except NullableError (Follows T NT)) :=
  match firstsPass fuel addr g with
  | .ok r => Follows.runPass fuel g r
  | .panic w => .panic w
  | .oof => .oof

end Bongo
