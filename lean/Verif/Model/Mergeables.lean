import Verif.Model.Utils
/-!
# src/utils/mergeables.rs

`MergableMap` and the owned/borrowed values it takes.  References are modelled by what they refer
to, so `ValueRef` and `Value` have the same contents.
-/
namespace Bongo
variable {K : Type u} {V : Type v}

/-- src/utils/mergeables.rs:10-13 `struct Value`. -/
structure MValue (K : Type u) (V : Type v) where
  key : K
  value : V

/-- src/utils/mergeables.rs:28-31 `struct ValueRef`. -/
structure ValueRef (K : Type u) (V : Type v) where
  key : K
  value : V

/-- src/utils/mergeables.rs:47-52 `ValueRef::to_value`. -/
def ValueRef.toValue (r : ValueRef K V) : MValue K V := ⟨r.key, r.value⟩

/-- src/utils/mergeables.rs:67-70 `enum ValueCow`. -/
inductive ValueCow (K : Type u) (V : Type v) where
  | owned (v : MValue K V)
  | borrowed (r : ValueRef K V)

namespace ValueCow
/-- src/utils/mergeables.rs:73-84 `ValueCow::as_ref`. -/
def asRef : ValueCow K V → ValueRef K V
  | .owned v => ⟨v.key, v.value⟩
  | .borrowed r => r

/-- src/utils/mergeables.rs:113-118 `ValueCow::into_owned` (`to_owned`, 104-109, is the same
with a clone). -/
def intoOwned : ValueCow K V → MValue K V
  | .owned v => v
  | .borrowed r => r.toValue
end ValueCow

/-- src/utils/mergeables.rs:153-155 `struct MergableMap`. -/
abbrev MergableMap (K : Type u) (V : Type v) := BMap K V

namespace MergableMap
variable (cmp : K → K → Ordering) (merge : V → V → V × WasChanged)

/-- src/utils/mergeables.rs:170-174 `MergableMap::new`. -/
def new : MergableMap K V := []

/-- src/utils/mergeables.rs:176-184 `MergableMap::insert`.  `merge old new` is the value type's
`Mergable::merge` (5-7): the updated `self` and the returned `WasChanged`. -/
def insert (m : MergableMap K V) (val : MValue K V) : MergableMap K V × WasChanged :=
  match BMap.get? cmp m val.key with
  | some old =>
    let r := merge old val.value
    (BMap.insert cmp m val.key r.1, r.2)
  | none => (BMap.insert cmp m val.key val.value, .changed)

/-- src/utils/mergeables.rs:186-191 `MergableMap::get_entry`. -/
def getEntry (m : MergableMap K V) (key : K) : Option (ValueRef K V) :=
  (BMap.entry? cmp m key).map fun kv => ⟨kv.1, kv.2⟩

/-- src/utils/mergeables.rs:199-211 `MergableMap::insert_cow`. -/
def insertCow (m : MergableMap K V) (cow : ValueCow K V) : MergableMap K V × WasChanged :=
  match BMap.get? cmp m cow.asRef.key with
  | some old =>
    let r := merge old cow.asRef.value
    (BMap.insert cmp m cow.asRef.key r.1, r.2)
  | none =>
    let val := cow.intoOwned
    (BMap.insert cmp m val.key val.value, .changed)
end MergableMap
end Bongo
