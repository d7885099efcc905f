import Verif.Model.State
/-!
# Collecting into `BTreeSet` and `BTreeMap`

/repo collects iterators into sets and maps (`FromIterator`) in several places.  The standard library has
done this in two ways: versions up to 1.56 insert one item after the other; later versions sort the items
(stably), drop every item that is followed by an equal one, and build the tree from the rest.  The two differ
where keys can be equal under `Ord` and still be told apart, as `ProdState`s can (src/state.rs:48-75).
-/
namespace Bongo
set_option linter.unusedSectionVars false
variable {K : Type u} {V : Type v} {T NT AK AV : Type}

/-- The two implementations of `FromIterator` in std. -/
inductive StdCollect where
  | inserting
  | bulk
  deriving DecidableEq, Repr

section
variable (cmp : K → K → Ordering)

/-- One step of a stable sort (std `sort_by`): `x` comes before the items that are not less. -/
def stableInsert (x : K) : List K → List K
  | [] => [x]
  | y :: l => match cmp x y with
    | .gt => y :: stableInsert x l
    | _ => x :: y :: l

/-- A stable sort (std `sort_by`; all stable sorts have the same result). -/
def stableSort : List K → List K
  | [] => []
  | x :: l => stableInsert cmp x (stableSort l)

/-- std `DedupSortedIter`: an item that is followed by an equal one is dropped.  (std compares with `==`,
which agrees with `cmp` for the keys of /repo.) -/
def dedupLast : List K → List K
  | [] => []
  | [x] => [x]
  | x :: y :: l => if cmp x y = .eq then dedupLast (y :: l) else x :: dedupLast (y :: l)

/-- `FromIterator for BTreeSet`, in both versions; used e.g. at src/state.rs:193. -/
def BSet.collect : StdCollect → List K → BSet K
  | .inserting, l => BSet.ofList cmp l
  | .bulk, l => dedupLast cmp (stableSort cmp l)

/-- `FromIterator for BTreeMap`, in both versions; used e.g. at src/parsers/lalr.rs:87. -/
def BMap.collect : StdCollect → List (K × V) → BMap K V
  | .inserting, l => BMap.ofList cmp l
  | .bulk, l => dedupLast (fun a b => cmp a.1 b.1) (stableSort (fun a b => cmp a.1 b.1) l)
end

/-- src/state.rs:184-196 `FromIterator for ProdStateSet`. -/
def ProdStateSet.fromIter (std : StdCollect) (addr : NT → Nat → Nat) (l : List (ProdState T NT AK AV)) :
    ProdStateSet T NT AK AV := BSet.collect (ProdState.cmp addr) std l
end Bongo
