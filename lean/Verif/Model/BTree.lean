import Verif.Model.Res
/-!
# `std::collections::{BTreeMap, BTreeSet}`

Not a file of /repo: the model of the two standard containers used throughout /repo.  A map is
the list of its entries in iteration order (increasing keys), a set the list of its elements.
Every operation takes the comparison function `cmp` that the key's Rust `Ord` implements,
because some of the repository's `Ord`s are coarser than equality (src/state.rs:48-55).
-/
namespace Bongo

abbrev BMap (K : Type u) (V : Type v) := List (K × V)
abbrev BSet (K : Type u) := List K

namespace BMap
variable {K : Type u} {V : Type v} (cmp : K → K → Ordering)

/-- `BTreeMap::get_key_value` (linear search is equivalent to the tree search on sorted keys). -/
def entry? (m : BMap K V) (k : K) : Option (K × V) :=
  match m with
  | [] => none
  | (k', v) :: m => match cmp k k' with
    | .eq => some (k', v)
    | _ => entry? m k

/-- `BTreeMap::get`. -/
def get? (m : BMap K V) (k : K) : Option V := (entry? cmp m k).map (·.2)

/-- `BTreeMap::contains_key`. -/
def contains (m : BMap K V) (k : K) : Bool := (get? cmp m k).isSome

/-- `BTreeMap::insert`: an existing equal key is kept, its value is replaced. -/
def insert (m : BMap K V) (k : K) (v : V) : BMap K V :=
  match m with
  | [] => [(k, v)]
  | (k', v') :: m => match cmp k k' with
    | .lt => (k, v) :: (k', v') :: m
    | .eq => (k', v) :: m
    | .gt => (k', v') :: insert m k v

/-- `BTreeMap::remove` / `OccupiedEntry::remove_entry`. -/
def remove (m : BMap K V) (k : K) : BMap K V :=
  match m with
  | [] => []
  | (k', v') :: m => match cmp k k' with
    | .eq => m
    | _ => (k', v') :: remove m k

/-- `FromIterator for BTreeMap`: a later equal key replaces the value.  (The standard library
sorts stably and keeps the last of equal keys; with keys that are equal under `Ord` but
distinguishable, which *key* object survives is the last one, unlike `insert`.  `ofList` below
is only used with keys for which `cmp` is lawful, where this makes no difference: see
`Verif.Model.Collect` and `collect_map_lawful`.) -/
def ofList (l : List (K × V)) : BMap K V := l.foldl (fun m kv => insert cmp m kv.1 kv.2) []

/-- `BTreeMap::keys`. -/
def keys (m : BMap K V) : List K := m.map (·.1)
/-- `BTreeMap::values`. -/
def values (m : BMap K V) : List V := m.map (·.2)

/-- Keys strictly increase: the invariant of a `BTreeMap`. -/
def Sorted (m : BMap K V) : Prop := m.Pairwise (fun a b => cmp a.1 b.1 = .lt)
end BMap

namespace BSet
variable {K : Type u} (cmp : K → K → Ordering)

/-- `BTreeSet::contains`. -/
def contains (s : BSet K) (k : K) : Bool := s.any (fun k' => cmp k k' == .eq)

/-- `BTreeSet::insert` (the new set; the Rust return value is `!contains`). An existing equal
element is kept. -/
def insert (s : BSet K) (k : K) : BSet K :=
  match s with
  | [] => [k]
  | k' :: s => match cmp k k' with
    | .lt => k :: k' :: s
    | .eq => k' :: s
    | .gt => k' :: insert s k

/-- `BTreeSet::remove`. -/
def remove (s : BSet K) (k : K) : BSet K :=
  match s with
  | [] => []
  | k' :: s => match cmp k k' with
    | .eq => s
    | _ => k' :: remove s k

/-- `BTreeSet::extend` / `FromIterator`. -/
def insertAll (s : BSet K) (l : List K) : BSet K := l.foldl (insert cmp) s
def ofList (l : List K) : BSet K := insertAll cmp [] l

/-- Elements strictly increase: the invariant of a `BTreeSet`. -/
def Sorted (s : BSet K) : Prop := s.Pairwise (fun a b => cmp a b = .lt)
end BSet
end Bongo
