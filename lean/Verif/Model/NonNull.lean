import Verif.Model.Nullable
/-!
# src/grammar/transform/nonnull.rs

The transform that removes nullable nonterminals.  The `ToDoc` and `Debug` implementations are in
`Verif.Model.DebugActions`.
-/
namespace Bongo
variable {T NT AK AV : Type}

/-- src/grammar/transform/nonnull.rs:64-67 `struct ActionKey`. -/
structure NNActionKey (AK : Type) where
  action : AK
  ntNullableStates : List Bool
  deriving DecidableEq, Repr

/-- src/grammar/transform/nonnull.rs:63 `derive(PartialOrd, Ord)` for `ActionKey`: the action first,
then the nullable states, lexicographically. -/
def NNActionKey.cmp [Ord AK] (a b : NNActionKey AK) : Ordering :=
  (compare a.action b.action).then (compare a.ntNullableStates b.ntNullableStates)
/-- src/grammar/transform/nonnull.rs:63 `derive(Ord)`. -/
instance [Ord AK] : Ord (NNActionKey AK) := ⟨NNActionKey.cmp⟩

/-- src/grammar/transform/nonnull.rs:85-88 `struct ActionValue`. -/
structure NNActionValue (NT AK AV : Type) where
  parentValue : AV
  nullableArguments : BMap Name (TreeNode (ProdKey NT AK))

/-- src/grammar/transform/nonnull.rs:105-106 `type NonNullGrammar`. -/
abbrev NonNullGrammar (T NT AK AV : Type) :=
  Grammar T NT (NNActionKey AK) (NNActionValue NT AK AV)

/-- src/grammar/transform/nonnull.rs:139-143 `struct ProdBuildState`. -/
structure ProdBuildState (T NT AK : Type) where
  elems : List (ProdElement T NT)
  ntNullableStates : List Bool
  actionArgs : BMap Name (TreeNode (ProdKey NT AK))

namespace ProdBuildState
/-- src/grammar/transform/nonnull.rs:171-172 and 190-191, the non-null version of an element. -/
def keepNt (s : ProdBuildState T NT AK) (e : ProdElement T NT) : ProdBuildState T NT AK :=
  { s with elems := s.elems ++ [e], ntNullableStates := s.ntNullableStates ++ [false] }
/-- src/grammar/transform/nonnull.rs:169,175-182, the null version of an element. -/
def dropNt (s : ProdBuildState T NT AK) (e : ProdElement T NT) (action : TreeNode (ProdKey NT AK)) :
    ProdBuildState T NT AK :=
  { s with
    actionArgs := match e.identifier with
      | some id => BMap.insert compare s.actionArgs id action
      | none => s.actionArgs
    ntNullableStates := s.ntNullableStates ++ [true] }
/-- src/grammar/transform/nonnull.rs:197-199, a terminal. -/
def keepTerm (s : ProdBuildState T NT AK) (e : ProdElement T NT) : ProdBuildState T NT AK :=
  { s with elems := s.elems ++ [e] }
end ProdBuildState

variable [Ord NT]

/-- src/grammar/transform/nonnull.rs:161-202, one iteration of the loop over the elements.  The in-place
update of the existing states and the appended clones are the two halves of the new list. -/
def nonnullStep (info : GrammarNullableInfo NT AK) (states : List (ProdBuildState T NT AK))
    (e : ProdElement T NT) : List (ProdBuildState T NT AK) :=
  match e.element with
  | .nonterm nt =>
    match info.getNullableAction nt with
    | some action => states.map (·.keepNt e) ++ states.map (·.dropNt e action)
    | none => states.map (·.keepNt e)
  | .term _ => states.map (·.keepTerm e)

/-- src/grammar/transform/nonnull.rs:145-223 `build_nonnull_prods`: the calls it makes on the rule
builder. -/
def buildNonnullProds (info : GrammarNullableInfo NT AK) (prod : Prod T NT AK AV) :
    List (RuleOp T NT (NNActionKey AK) (NNActionValue NT AK AV)) :=
  (prod.prodElements.foldl (nonnullStep info) [⟨[], [], []⟩]).map fun s =>
    .addProdWithElems ⟨prod.actionKey, s.ntNullableStates⟩ ⟨prod.actionValue, s.actionArgs⟩ s.elems

/-- The builder calls made by src/grammar/transform/nonnull.rs:122-134. -/
def nonnullCalls (info : GrammarNullableInfo NT AK) (g : Grammar T NT AK AV) :
    List (GrammarOp T NT (NNActionKey AK) (NNActionValue NT AK AV)) :=
  g.ruleSet.map fun kr => ⟨kr.1, kr.2.prodRefs.flatMap fun prod =>
    if info.prodNullable prod then [] else buildNonnullProds info prod⟩

/-- The two ways `transform_to_nonnull` fails: the nullable pass failed (120) or the result is
not a valid grammar (135). -/
inductive NonNullError where
  | nullable (e : NullableError)
  | build
  deriving DecidableEq, Repr

/-- src/grammar/transform/nonnull.rs:110-136 `transform_to_nonnull`.  The pass context is fresh, so
`get_pass::<Nullable>()` is `calculate_nullables`. -/
def transformToNonnull (fuel : Nat) (addr : NT → Nat → Nat) (g : Grammar T NT AK AV) :
    Res (Except NonNullError (NonNullGrammar T NT AK AV)) :=
  match calculateNullables fuel addr g with
  | .panic w => .panic w
  | .oof => .oof
  | .ok (.error e) => .ok (.error (.nullable e))
  | .ok (.ok info) =>
    match buildGrammar fuel g.startSymbol (nonnullCalls info g) with
    | .ok (.ok g') => .ok (.ok g')
    | .ok (.error _) => .ok (.error .build)
    | .panic w => .panic w
    | .oof => .oof
end Bongo
