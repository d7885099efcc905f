import Verif.Model.State
import Verif.Model.Pass
/-!
# src/parsers/lalr.rs

LALR item sets: closure, shifting and reducible actions.  `addr` is the memory layout (see
`prodCmp`); `collect` stands for collecting pairs into a `BTreeMap` whose keys are `ProdState`s:
several of them may be equal under `Ord` although they differ, and which one survives as the key
depends on the version of the standard library.
-/
namespace Bongo
set_option linter.unusedSectionVars false

section shuffle
variable {K : Type u} {V : Type v} (cmpK : K → K → Ordering) (cmpV : V → V → Ordering)
/-- src/parsers/lalr.rs:20-29, one iteration of the loop of `shuffle_iter`. -/
def shuffleStep (result : BMap K (BSet V)) (kv : K × V) : BMap K (BSet V) :=
  match BMap.get? cmpK result kv.1 with
  | none => BMap.insert cmpK result kv.1 (BSet.ofList cmpV [kv.2])
  | some s => BMap.insert cmpK result kv.1 (BSet.insert cmpV s kv.2)

/-- src/parsers/lalr.rs:12-32 `shuffle_iter`. -/
def shuffleIter (l : List (K × V)) : BMap K (BSet V) := l.foldl (shuffleStep cmpK cmpV) []
end shuffle

variable {T NT AK AV : Type}

/-- src/parsers/lalr.rs:35-37 `struct ParseState`. -/
structure ParseState (T NT AK AV : Type) where
  prods : BMap (ProdState T NT AK AV) (BSet T)

/-- The `Ord` of `(ProdState, BTreeSet<T>)` pairs, used by src/parsers/lalr.rs:45 and by the sets
of src/parsers/lalr.rs:131-133: first the production state, then the set, lexicographically. -/
def itemCmp [Ord T] (addr : NT → Nat → Nat) (a b : ProdState T NT AK AV × BSet T) : Ordering :=
  (ProdState.cmp addr a.1 b.1).then (List.compareLex compare a.2 b.2)

variable [Ord T] [Ord NT]

namespace ParseState

/-- `Ord`/`PartialOrd`/`PartialEq`/`Eq for ParseState`, src/parsers/lalr.rs:39-74: `BTreeMap`s
compare as the sequences of their entries. -/
def cmp (addr : NT → Nat → Nat) (a b : ParseState T NT AK AV) : Ordering :=
  List.compareLex (itemCmp addr) a.prods b.prods

/-- src/parsers/lalr.rs:93-97, the `match prod.offset_elem(1)`. -/
def newLa (firsts : Firsts T NT) (prod : ProdState T NT AK AV) (la : BSet T) : Res (BSet T) :=
  match prod.offsetElem 1 with
  | some (.nonterm nt) => Res.expect .noFirsts (firsts.get nt)
  | some (.term t) => .ok (BSet.ofList compare [t])
  | none => .ok la

/-- src/parsers/lalr.rs:90-101, the loop collecting `new_expansions`. -/
def newExpansions (firsts : Firsts T NT) :
    List (ProdState T NT AK AV × BSet T) → Res (List (NT × BSet T))
  | [] => .ok []
  | (prod, la) :: rest =>
    match prod.nextElem with
    | some (.nonterm nt) =>
      match newLa firsts prod la with
      | .ok l =>
        match newExpansions firsts rest with
        | .ok r => .ok ((nt, l) :: r)
        | .panic w => .panic w
        | .oof => .oof
      | .panic w => .panic w
      | .oof => .oof
    | _ => newExpansions firsts rest

/-- src/parsers/lalr.rs:103-112, the closure passed to the outer `change_iter`. -/
def expand (addr : NT → Nat → Nat) (g : Grammar T NT AK AV)
    (m : CollectMap (ProdState T NT AK AV) T) (e : NT × BSet T) :
    Res (CollectMap (ProdState T NT AK AV) T × WasChanged) :=
  match g.getRule e.1 with
  | .ok rule =>
    .ok (changeIter (rule.prodRefs.map ProdState.fromStart)
      (fun m ps => CollectMap.insertIter (ProdState.cmp addr) compare m ps e.2) m)
  | .panic w => .panic w
  | .oof => .oof

/-- src/parsers/lalr.rs:89-113, the closure passed to `change_loop`. -/
def closureRound (addr : NT → Nat → Nat) (g : Grammar T NT AK AV) (firsts : Firsts T NT)
    (m : CollectMap (ProdState T NT AK AV) T) :
    Res (CollectMap (ProdState T NT AK AV) T × WasChanged) :=
  match newExpansions firsts m with
  | .ok es => changeIterM es (expand addr g) m
  | .panic w => .panic w
  | .oof => .oof

/-- src/parsers/lalr.rs:87-117, the rest of `from_prod_lookahead` once it has the FIRST sets. -/
def close (fuel : Nat) (collect : List (ProdState T NT AK AV × BSet T) →
      BMap (ProdState T NT AK AV) (BSet T))
    (addr : NT → Nat → Nat) (g : Grammar T NT AK AV) (firsts : Firsts T NT)
    (items : List (ProdState T NT AK AV × BSet T)) : Res (ParseState T NT AK AV) :=
  match changeLoop fuel (closureRound addr g firsts) (collect items) with
  | .ok m => .ok ⟨m⟩
  | .panic w => .panic w
  | .oof => .oof

/-- The pass context of the crate. -/
abbrev Ctx (T NT AK : Type) := PassContext PassId (PassVal T NT AK) NullableError

/-- src/parsers/lalr.rs:82-118 `ParseState::from_prod_lookahead`.  The context is an explicit
argument and result; that `get_pass` returns a value of the requested type is its `downcast`
(see `PassContext`), and the impossible case is `oof`. -/
def fromProdLookahead (fuel : Nat) (collect : List (ProdState T NT AK AV × BSet T) →
      BMap (ProdState T NT AK AV) (BSet T))
    (addr : NT → Nat → Nat) (g : Grammar T NT AK AV) (passes : Ctx T NT AK)
    (items : List (ProdState T NT AK AV × BSet T)) :
    Res (Ctx T NT AK × Except NullableError (ParseState T NT AK AV)) :=
  match PassContext.getPass fuel (cratePasses fuel addr g) passes .firsts with
  | .ok (passes', .ok (.firsts f)) =>
    match close fuel collect addr g f items with
    | .ok st => .ok (passes', .ok st)
    | .panic w => .panic w
    | .oof => .oof
  | .ok (passes', .error e) => .ok (passes', .error e)
  | .ok (_, .ok _) => .oof
  | .panic w => .panic w
  | .oof => .oof

/-- src/parsers/lalr.rs:124-130, the two `filter_map`s of `shift_actions`. -/
def shiftPairs (s : ParseState T NT AK AV) : List (T × (ProdState T NT AK AV × BSet T)) :=
  (s.prods.filterMap fun pl => pl.1.nextElemState.map fun en => (en.1, en.2, pl.2)).filterMap
    fun epl => epl.1.element.asTerm.map fun t => (t, (epl.2.1, epl.2.2))

/-- src/parsers/lalr.rs:131-136: building the successor states in order of their terminals and
collecting them; the first error ends it. -/
def shiftEach (fuel : Nat) (collect : List (ProdState T NT AK AV × BSet T) →
      BMap (ProdState T NT AK AV) (BSet T))
    (addr : NT → Nat → Nat) (g : Grammar T NT AK AV) :
    Ctx T NT AK → List (T × BSet (ProdState T NT AK AV × BSet T)) →
    Res (Ctx T NT AK × Except NullableError (List (T × ParseState T NT AK AV)))
  | passes, [] => .ok (passes, .ok [])
  | passes, (t, items) :: rest =>
    match fromProdLookahead fuel collect addr g passes items with
    | .ok (passes', .ok ps) =>
      match shiftEach fuel collect addr g passes' rest with
      | .ok (passes'', .ok r) => .ok (passes'', .ok ((t, ps) :: r))
      | .ok (passes'', .error e) => .ok (passes'', .error e)
      | .panic w => .panic w
      | .oof => .oof
    | .ok (passes', .error e) => .ok (passes', .error e)
    | .panic w => .panic w
    | .oof => .oof

/-- src/parsers/lalr.rs:120-137 `ParseState::shift_actions`. -/
def shiftActions (fuel : Nat) (collect : List (ProdState T NT AK AV × BSet T) →
      BMap (ProdState T NT AK AV) (BSet T))
    (addr : NT → Nat → Nat) (g : Grammar T NT AK AV) (passes : Ctx T NT AK)
    (s : ParseState T NT AK AV) :
    Res (Ctx T NT AK × Except NullableError (BMap T (ParseState T NT AK AV))) :=
  match shiftEach fuel collect addr g passes (shuffleIter compare (itemCmp addr) s.shiftPairs) with
  | .ok (passes', .ok l) => .ok (passes', .ok (BMap.ofList compare l))
  | .ok (passes', .error e) => .ok (passes', .error e)
  | .panic w => .panic w
  | .oof => .oof

/-- src/parsers/lalr.rs:139-147 `ParseState::reducable_actions`. -/
def reducableActions (s : ParseState T NT AK AV) : List AK :=
  (BMap.keys s.prods).filterMap fun prod =>
    if prod.isComplete then some prod.actionKey else none

end ParseState
end Bongo
