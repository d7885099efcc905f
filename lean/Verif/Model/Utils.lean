import Verif.Model.BTree
/-!
# src/utils.rs

Loops, change tracking, breadth-first search, grouping and `CollectMap`.
-/
namespace Bongo

/-- src/utils.rs:206-209 `enum WasChanged`. -/
inductive WasChanged where
  | changed
  | unchanged
  deriving DecidableEq, Repr

namespace WasChanged
/-- src/utils.rs:212-218 `WasChanged::from_changed`. -/
def fromChanged (b : Bool) : WasChanged := if b then .changed else .unchanged

/-- src/utils.rs:220-227 `WasChanged::join` (`merge`, 229-231, assigns the join to `self`). -/
def join : WasChanged → WasChanged → WasChanged
  | .changed, _ => .changed
  | _, .changed => .changed
  | _, _ => .unchanged
end WasChanged

/-- src/utils.rs:234-239 `change_loop`: `while let Changed = func() {}`.  The closure's captured
state `S` is threaded explicitly. -/
def changeLoop {S : Type u} (fuel : Nat) (f : S → Res (S × WasChanged)) (s : S) : Res S :=
  match fuel with
  | 0 => .oof
  | fuel + 1 =>
    match f s with
    | .ok (s', .changed) => changeLoop fuel f s'
    | .ok (s', .unchanged) => .ok s'
    | .panic w => .panic w
    | .oof => .oof

/-- src/utils.rs:241-252 `change_iter`, for a closure that cannot panic. -/
def changeIter {ι : Type u} {S : Type v} (l : List ι) (f : S → ι → S × WasChanged) (s : S) :
    S × WasChanged :=
  l.foldl (fun acc i => let r := f acc.1 i; (r.1, acc.2.join r.2)) (s, .unchanged)

/-- src/utils.rs:241-252 `change_iter`, for a closure that may panic. -/
def changeIterM {ι : Type u} {S : Type v} (l : List ι) (f : S → ι → Res (S × WasChanged)) (s : S)
    (acc : WasChanged := .unchanged) : Res (S × WasChanged) :=
  match l with
  | [] => .ok (s, acc)
  | i :: l =>
    match f s i with
    | .ok (s', c) => changeIterM l f s' (acc.join c)
    | .panic w => .panic w
    | .oof => .oof

/-- src/utils.rs:23-32 `fixed_point`. -/
def fixedPoint {S : Type u} [DecidableEq S] (fuel : Nat) (start : S) (apply : S → S) : Res S :=
  match fuel with
  | 0 => .oof
  | fuel + 1 =>
    let next := apply start
    if next = start then .ok start else fixedPoint fuel next apply

/-- src/utils.rs:65-69 `take_only`. -/
def takeOnly {α : Type u} : List α → Option α
  | [] => none
  | v :: rest => match rest with
    | [] => some v
    | _ :: _ => none

section bfs
variable {T : Type u} (cmp : T → T → Ordering)

/-- src/utils.rs:167-172, the innermost loop body for one `step_item`;
the state is `(next_set, seen_set)`. -/
def bfsVisit (st : BSet T × BSet T) (item : T) : BSet T × BSet T :=
  if BSet.contains cmp st.2 item then st
  else (BSet.insert cmp st.1 item, BSet.insert cmp st.2 item)

/-- src/utils.rs:166-173 `for next_item in &curr_set`. -/
def bfsLevel (f : T → Res (List T)) (curr : List T) (st : BSet T × BSet T) :
    Res (BSet T × BSet T) :=
  match curr with
  | [] => .ok st
  | item :: curr =>
    match f item with
    | .ok steps => bfsLevel f curr (steps.foldl (bfsVisit cmp) st)
    | .panic w => .panic w
    | .oof => .oof

/-- src/utils.rs:165-177 `while !curr_set.is_empty()`. -/
def bfsLoop (fuel : Nat) (f : T → Res (List T)) (curr seen : BSet T) : Res (BSet T) :=
  match curr with
  | [] => .ok seen
  | c :: cs =>
    match fuel with
    | 0 => .oof
    | fuel + 1 =>
      match bfsLevel cmp f (c :: cs) ([], seen) with
      | .ok (next, seen') => bfsLoop fuel f next seen'
      | .panic w => .panic w
      | .oof => .oof

/-- src/utils.rs:151-180 `breadth_first_search`.  Note that `seen_set` starts empty (line 163),
so the initial items are not marked as seen. -/
def breadthFirstSearch (fuel : Nat) (initial : List T) (f : T → Res (List T)) : Res (BSet T) :=
  bfsLoop cmp fuel f (BSet.ofList cmp initial) []
end bfs

section group
variable {K : Type u} {V : Type v} (cmpK : K → K → Ordering) (cmpV : V → V → Ordering)

/-- src/utils.rs:182-203 `merge_value_pairs`. -/
def mergeValuePairs (l : List (K × V)) : BMap K (BSet V) :=
  l.foldl (fun result kv =>
    match BMap.get? cmpK result kv.1 with
    | none => BMap.insert cmpK result kv.1 (BSet.insert cmpV [] kv.2)
    | some s => BMap.insert cmpK result kv.1 (BSet.insert cmpV s kv.2)) []
end group

/-- src/utils.rs:254 `struct CollectMap<K, V>(BTreeMap<K, BTreeSet<V>>)`. -/
abbrev CollectMap (K : Type u) (V : Type v) := BMap K (BSet V)

namespace CollectMap
variable {K : Type u} {V : Type v} (cmpK : K → K → Ordering) (cmpV : V → V → Ordering)

/-- src/utils.rs:271-273 `CollectMap::new`. -/
def new : CollectMap K V := []

/-- src/utils.rs:279-281 `CollectMap::get`. -/
def get (m : CollectMap K V) (key : K) : Option (BSet V) := BMap.get? cmpK m key

/-- src/utils.rs:283-295 `CollectMap::insert`. -/
def insert (m : CollectMap K V) (key : K) (value : V) : CollectMap K V × WasChanged :=
  match BMap.get? cmpK m key with
  | some set =>
    (BMap.insert cmpK m key (BSet.insert cmpV set value),
      .fromChanged (!BSet.contains cmpV set value))
  | none => (BMap.insert cmpK m key (BSet.insert cmpV [] value), .changed)

/-- `WasChanged::from_changed(set.insert(val))` threaded through `change_iter`,
src/utils.rs:308-310 and 343-345. -/
def extendSet (set : BSet V) (values : List V) : BSet V × WasChanged :=
  changeIter values
    (fun s v => (BSet.insert cmpV s v, .fromChanged (!BSet.contains cmpV s v))) set

/-- src/utils.rs:297-327 `CollectMap::insert_iter`. -/
def insertIter (m : CollectMap K V) (key : K) (values : List V) : CollectMap K V × WasChanged :=
  match BMap.get? cmpK m key with
  | some set =>
    let r := extendSet cmpV set values
    (BMap.insert cmpK m key r.1, r.2)
  | none =>
    match values with
    | init :: rest =>
      (BMap.insert cmpK m key (BSet.insertAll cmpV (BSet.insert cmpV [] init) rest), .changed)
    | [] => (m, .unchanged)

/-- src/utils.rs:329-353 `CollectMap::insert_from_key_set`: the entry of `key` is taken out of
the map, the set of `src_key` is added to it, and it is put back (so an absent key becomes
present, with an empty set, even when nothing is added). -/
def insertFromKeySet (m : CollectMap K V) (key srcKey : K) : CollectMap K V × WasChanged :=
  if cmpK key srcKey = .eq then (m, .unchanged)
  else
    let value := (BMap.get? cmpK m key).getD []
    let m' := BMap.remove cmpK m key
    let r := match BMap.get? cmpK m' srcKey with
      | some srcSet => extendSet cmpV value srcSet
      | none => (value, .unchanged)
    (BMap.insert cmpK m' key r.1, r.2)
end CollectMap

section applyFixedPoint
variable {K : Type u} {V : Type v} (cmp : K → K → Ordering)

/-- src/utils.rs:364-367 `trait FixedPointProcessor`. -/
structure FixedPointProcessor (K : Type u) (V : Type v) where
  next : K → V → List (K × V)
  merge : V → V → V × WasChanged

/-- src/utils.rs:384-395, one `(next_k, next_v)`; the state is `(target, nexts)`. -/
def applyFixedPointMerge (proc : FixedPointProcessor K V) (st : BMap K V × BSet K)
    (kv : K × V) : BMap K V × BSet K :=
  match BMap.get? cmp st.1 kv.1 with
  | none => (BMap.insert cmp st.1 kv.1 kv.2, BSet.insert cmp st.2 kv.1)
  | some old =>
    let r := proc.merge old kv.2
    (BMap.insert cmp st.1 kv.1 r.1,
      match r.2 with
      | .changed => BSet.insert cmp st.2 kv.1
      | .unchanged => st.2)

/-- src/utils.rs:379-397 `for curr in &currs`. -/
def applyFixedPointRound (proc : FixedPointProcessor K V) (currs : List K)
    (st : BMap K V × BSet K) : Res (BMap K V × BSet K) :=
  match currs with
  | [] => .ok st
  | curr :: currs =>
    match BMap.get? cmp st.1 curr with
    | none => .panic .noCurr
    | some val =>
      applyFixedPointRound proc currs
        ((proc.next curr val).foldl (applyFixedPointMerge cmp proc) st)

/-- src/utils.rs:378-398 `while !currs.is_empty()`.  `currs` is bound immutably at line 375 and
never updated, and `nexts` is never read. -/
def applyFixedPointLoop (fuel : Nat) (proc : FixedPointProcessor K V) (currs : List K)
    (st : BMap K V × BSet K) : Res (BMap K V) :=
  match currs with
  | [] => .ok st.1
  | c :: cs =>
    match fuel with
    | 0 => .oof
    | fuel + 1 =>
      match applyFixedPointRound cmp proc (c :: cs) st with
      | .ok st' => applyFixedPointLoop fuel proc (c :: cs) st'
      | .panic w => .panic w
      | .oof => .oof

/-- src/utils.rs:369-399 `apply_fixed_point`. -/
def applyFixedPoint (fuel : Nat) (proc : FixedPointProcessor K V) (target : BMap K V) :
    Res (BMap K V) :=
  applyFixedPointLoop cmp fuel proc (BSet.ofList cmp (BMap.keys target)) (target, [])
end applyFixedPoint

/-! ## Trees of actions -/

/-- src/utils.rs:71-92 `struct Name(Rc<String>)`: by value it is its string (ordering, equality
and `Display` all go through the string).  The reference-counted sharing is modelled in
`Verif.Model.Name`. -/
abbrev Name := String

/-- src/utils.rs:128-131 `TreeNode<L, Void>` / `TreeValue<L, Void>`.  `Void` has no values
(src/utils.rs:148-149), so `TreeValue::Leaf` cannot occur and a `TreeValue<L, Void>` is a boxed
`TreeNode<L, Void>`.  `params` is the `BTreeMap<Name, TreeValue<L, Void>>`. -/
inductive TreeNode (L : Type u) where
  | mk (action : L) (params : List (Name × TreeNode L))
  deriving Repr

namespace TreeNode
variable {L : Type u}
/-- field `action_name`, src/utils.rs:129. -/
def action : TreeNode L → L | .mk a _ => a
/-- field `params`, src/utils.rs:130. -/
def params : TreeNode L → BMap Name (TreeNode L) | .mk _ p => p
end TreeNode

end Bongo
