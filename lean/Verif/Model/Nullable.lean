import Verif.Model.Grammar
/-!
# src/grammar/passes/nullable/nullables.rs and src/grammar/passes/nullable.rs
-/
namespace Bongo
variable {T NT AK AV : Type}

/-- `Prod`'s `Ord`, src/grammar/base.rs:641-644: by the address of the production
(src/grammar/base/cmp_wrappers.rs:7-9, 120-124).  `addr A i` is the address of the `i`-th
production of the rule of `A`. -/
def prodCmp (addr : NT → Nat → Nat) (p q : Prod T NT AK AV) : Ordering :=
  compare (addr p.head p.index) (addr q.head q.index)

/-- src/grammar/passes/nullable/nullables.rs:21-24 `struct InternalNullableInfo`, by its only
field. -/
abbrev InternalNullableInfo (T NT AK AV : Type) := BSet (Prod T NT AK AV)

variable [Ord NT]

/-- src/grammar/passes/nullable/nullables.rs:225-243, free function `is_prod_nullable`. -/
def isProdNullable {V : Type} (nullables : BMap NT V) (p : Prod T NT AK AV) : Bool :=
  p.elements.all fun e =>
    match e with
    | .term _ => false
    | .nonterm nt => BMap.contains compare nullables nt

/-- src/grammar/passes/nullable/nullables.rs:85-94, the body of `for prod in &prods`. -/
def nullableVisit (addr : NT → Nat → Nat) (m : BMap NT (InternalNullableInfo T NT AK AV))
    (prod : Prod T NT AK AV) : BMap NT (InternalNullableInfo T NT AK AV) × WasChanged :=
  if isProdNullable m prod then
    let info := (BMap.get? compare m prod.head).getD []
    (BMap.insert compare m prod.head (BSet.insert (prodCmp addr) info prod),
      .fromChanged (!BSet.contains (prodCmp addr) info prod))
  else (m, .unchanged)

/-- src/grammar/passes/nullable/nullables.rs:70-100 `inner_calculate_nullables`.  Its `loop` with a `changed` flag has the
shape of `change_loop` around `change_iter` and is modelled by them. -/
def innerCalculateNullables (fuel : Nat) (addr : NT → Nat → Nat) (g : Grammar T NT AK AV) :
    Res (BMap NT (InternalNullableInfo T NT AK AV)) :=
  changeLoop fuel (fun m => .ok (changeIter g.prods (nullableVisit addr) m)) []

/-- src/grammar/passes/nullable/nullables.rs:103-105 `struct GrammarNullableInfo`; `NonTermNullableInfo` (136-138) by its
only field. -/
structure GrammarNullableInfo (NT AK : Type) where
  nontermInfo : BMap NT (TreeNode (ProdKey NT AK))

/-- src/grammar/passes/nullable/nullables.rs:147-150 `enum NullableError`. -/
inductive NullableError where
  | ambiguity
  deriving DecidableEq, Repr

namespace GrammarNullableInfo
/-- src/grammar/passes/nullable/nullables.rs:115-117 `is_nullable`. -/
def isNullable (i : GrammarNullableInfo NT AK) (nt : NT) : Bool :=
  BMap.contains compare i.nontermInfo nt
/-- src/grammar/passes/nullable/nullables.rs:119-121, method `is_prod_nullable`. -/
def prodNullable (i : GrammarNullableInfo NT AK) (p : Prod T NT AK AV) : Bool :=
  isProdNullable i.nontermInfo p
/-- src/grammar/passes/nullable/nullables.rs:123-128 `get_nullable_action`. -/
def getNullableAction (i : GrammarNullableInfo NT AK) (nt : NT) :
    Option (TreeNode (ProdKey NT AK)) := BMap.get? compare i.nontermInfo nt
/-- src/grammar/passes/nullable/nullables.rs:130-132 `get_nullable_set`. -/
def getNullableSet (i : GrammarNullableInfo NT AK) : BSet NT :=
  BSet.ofList compare (BMap.keys i.nontermInfo)
end GrammarNullableInfo

/-- src/grammar/passes/nullable/nullables.rs:163-170, the sanity check over `inner_info.values()`. -/
def nullableSanity : List (InternalNullableInfo T NT AK AV) → Res (Except NullableError Unit)
  | [] => .ok (.ok ())
  | info :: rest =>
    if info.length = 0 then .panic .emptyNullable
    else if info.length > 1 then .ok (.error .ambiguity)
    else nullableSanity rest

/-- src/grammar/passes/nullable/nullables.rs:247-255 `get_only`. -/
def getOnly {α : Type} : List α → Res α
  | [] => .panic .getOnly
  | [a] => .ok a
  | _ :: _ :: _ => .panic .getOnly

/-- src/grammar/passes/nullable/nullables.rs:175-177 `for (nt, info) in &inner_info { nullable_action_map.insert(..) }`. -/
def buildActionMap (acc : BMap NT (Prod T NT AK AV)) :
    BMap NT (InternalNullableInfo T NT AK AV) → Res (BMap NT (Prod T NT AK AV))
  | [] => .ok acc
  | (nt, info) :: rest =>
    match getOnly info with
    | .ok p => buildActionMap (BMap.insert compare acc nt p) rest
    | .panic w => .panic w
    | .oof => .oof

/-- src/grammar/passes/nullable/nullables.rs:189-201, the loop over `prod.prod_elements()`; `none` is `continue 'outer`. -/
def nullTreeFields (infos : BMap NT (TreeNode (ProdKey NT AK))) :
    List (ProdElement T NT) → BMap Name (TreeNode (ProdKey NT AK)) →
      Option (BMap Name (TreeNode (ProdKey NT AK)))
  | [], acc => some acc
  | ⟨some id, .nonterm nt⟩ :: es, acc =>
    match BMap.get? compare infos nt with
    | none => none
    | some s => nullTreeFields infos es (BMap.insert compare acc id s)
  | ⟨_, _⟩ :: es, acc => nullTreeFields infos es acc

/-- src/grammar/passes/nullable/nullables.rs:184-209, `'outer: for null_nt in &remaining_nullables`. -/
def nullTreeRound (actionMap : BMap NT (Prod T NT AK AV)) :
    List NT → BMap NT (TreeNode (ProdKey NT AK)) → Res (BMap NT (TreeNode (ProdKey NT AK)))
  | [], infos => .ok infos
  | nt :: rest, infos =>
    match BMap.get? compare actionMap nt with
    | none => .panic .noNullableAction
    | some prod =>
      match nullTreeFields infos prod.prodElements [] with
      | none => nullTreeRound actionMap rest infos
      | some fields =>
        nullTreeRound actionMap rest (BMap.insert compare infos nt (.mk prod.prodKey fields))

/-- src/grammar/passes/nullable/nullables.rs:183-218, the second `loop`. -/
def nullTreeLoop (fuel : Nat) (actionMap : BMap NT (Prod T NT AK AV)) (remaining : BSet NT)
    (infos : BMap NT (TreeNode (ProdKey NT AK))) : Res (BMap NT (TreeNode (ProdKey NT AK))) :=
  match fuel with
  | 0 => .oof
  | fuel + 1 =>
    match nullTreeRound actionMap remaining infos with
    | .ok infos' =>
      let remaining' := (BMap.keys infos').foldl (BSet.remove compare) remaining
      match remaining' with
      | [] => .ok infos'
      | r :: rs => nullTreeLoop fuel actionMap (r :: rs) infos'
    | .panic w => .panic w
    | .oof => .oof

/-- src/grammar/passes/nullable/nullables.rs:152-223 `calculate_nullables` (which is also `Nullable::run_pass`,
src/grammar/passes/nullable.rs:40-44). -/
def calculateNullables (fuel : Nat) (addr : NT → Nat → Nat) (g : Grammar T NT AK AV) :
    Res (Except NullableError (GrammarNullableInfo NT AK)) :=
  match innerCalculateNullables fuel addr g with
  | .panic w => .panic w
  | .oof => .oof
  | .ok innerInfo =>
    match nullableSanity (BMap.values innerInfo) with
    | .panic w => .panic w
    | .oof => .oof
    | .ok (.error e) => .ok (.error e)
    | .ok (.ok _) =>
      match buildActionMap [] innerInfo with
      | .panic w => .panic w
      | .oof => .oof
      | .ok actionMap =>
        match nullTreeLoop fuel actionMap (BSet.ofList compare (BMap.keys innerInfo)) [] with
        | .panic w => .panic w
        | .oof => .oof
        | .ok infos => .ok (.ok ⟨infos⟩)

end Bongo
