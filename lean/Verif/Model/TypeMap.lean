import Verif.Model.BTree
/-!
# src/utils/type_map.rs

The `'static` types of the program are a type `U` of codes (their `TypeId`s), each with its values
`El u`.  A `Box<dyn Any>` or `Box<dyn TypeKeyObjectTrait>` is a code with a value of that type.
`keyOrd u` is the `Ord` of `u` and `valueType u` its associated `ValueType`; they are only used for
types that implement `TypeKey`.
-/
namespace Bongo

/-- The family of `TypeKey` types, src/utils/type_map.rs:7-10 `trait TypeKey`. -/
structure TypeKeys (U : Type) (El : U → Type) where
  keyOrd : (u : U) → El u → El u → Ordering
  valueType : U → U

/-- A `Box<dyn Any + 'static>` (std), and src/utils/type_map.rs:66-66 `struct TypeKeyObject`. -/
abbrev AnyBox (U : Type) (El : U → Type) := (u : U) × El u

/-- `<dyn Any>::downcast_ref::<T>()` (std): the value if its type is the one asked for. -/
def AnyBox.downcast {U : Type} {El : U → Type} [DecidableEq U] (b : AnyBox U El) (u : U) :
    Option (El u) :=
  if h : b.1 = u then some (h ▸ b.2) else none

variable {U : Type} {El : U → Type} [DecidableEq U] [Ord U] (ks : TypeKeys U El)

/-- src/utils/type_map.rs:30-43 `TypeKeyObjectTrait::cmp_concrete`. -/
def cmpConcrete (a b : AnyBox U El) : Res Ordering :=
  match compare a.1 b.1 with
  | .eq =>
    match b.downcast a.1 with
    | some other => .ok (ks.keyOrd a.1 a.2 other)
    | none => .panic .downcast
  | o => .ok o

/-- The `Ord` of `TypeKeyObject`, src/utils/type_map.rs:46-50 and 69-73, as a comparison function
for the map.  `cmpConcrete_ok` (in Props) shows that the panicking case does not exist, so the
value chosen for it here does not matter. -/
def typeKeyCmp (a b : AnyBox U El) : Ordering :=
  match cmpConcrete ks a b with
  | .ok o => o
  | _ => .eq

/-- src/utils/type_map.rs:97-97 `struct TypeMap`. -/
abbrev TypeMap (U : Type) (El : U → Type) := BMap (AnyBox U El) (AnyBox U El)

namespace TypeMap
/-- src/utils/type_map.rs:101-103 `TypeMap::new`. -/
def new : TypeMap U El := []

/-- src/utils/type_map.rs:106-108 `TypeMap::insert`. -/
def insert (m : TypeMap U El) (u : U) (key : El u) (value : El (ks.valueType u)) : TypeMap U El :=
  BMap.insert (typeKeyCmp ks) m ⟨u, key⟩ ⟨ks.valueType u, value⟩

/-- src/utils/type_map.rs:111-117 `TypeMap::get`. -/
def get (m : TypeMap U El) (u : U) (key : El u) : Res (Option (El (ks.valueType u))) :=
  match BMap.get? (typeKeyCmp ks) m ⟨u, key⟩ with
  | none => .ok none
  | some v =>
    match v.downcast (ks.valueType u) with
    | some x => .ok (some x)
    | none => .panic .downcast

/-- src/utils/type_map.rs:120-126 `TypeMap::get_mut`, and the caller's use of the reference it
returns: the value is replaced by `f` of it.  Also returns what the reference showed. -/
def getMut (m : TypeMap U El) (u : U) (key : El u) (f : El (ks.valueType u) → El (ks.valueType u)) :
    Res (TypeMap U El × Option (El (ks.valueType u))) :=
  match BMap.get? (typeKeyCmp ks) m ⟨u, key⟩ with
  | none => .ok (m, none)
  | some v =>
    match v.downcast (ks.valueType u) with
    | some x =>
      .ok (BMap.insert (typeKeyCmp ks) m ⟨u, key⟩ ⟨ks.valueType u, f x⟩, some x)
    | none => .panic .downcast

/-- src/utils/type_map.rs:129-131 `TypeMap::merge`, through `BTreeMap::append` (std): every entry
of the other map is inserted here, and the other map is left empty. -/
def merge (m other : TypeMap U El) : TypeMap U El × TypeMap U El :=
  (other.foldl (fun m kv => BMap.insert (typeKeyCmp ks) m kv.1 kv.2) m, [])
end TypeMap
end Bongo
