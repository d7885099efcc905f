import Verif.Model.Debug
/-!
# `Debug` and `ToDoc` of action keys, action values and null trees; texts of errors

The fields of `ActionKey`, `ActionValue` (src/grammar/transform/nonnull.rs) and `TreeNode` (src/utils.rs)
are private and have no accessors: outside the crate they can only be printed (and keys and trees
compared).
-/
namespace Bongo
set_option linter.unusedSectionVars false
open Fmt

/-- `Formatter::debug_map` with its entries, as used by `Debug for BTreeMap` for the fields at
src/utils.rs:130, src/grammar/transform/nonnull.rs:87 and src/grammar/passes/nullable/nullables.rs:104:
key, colon, value as one entry. -/
def Fmt.debugMap (alt : Bool) (entries : List (List Char × List Char)) : List Char :=
  debugSet alt (entries.map fun kv => kv.1 ++ [':', ' '] ++ kv.2)

/-- src/utils.rs:100-104 `Debug for Name`. -/
instance : Dbg Name := ⟨fun _ n => nameFmt n⟩

/-- `Debug for ()`, the action values of src/grammar/examples.rs:19-149. -/
instance : Dbg Unit := ⟨fun _ _ => ['(', ')']⟩

/-- `Debug for bool`, for the field at src/grammar/transform/nonnull.rs:66. -/
instance : Dbg Bool := ⟨fun _ b => if b then "true".toList else "false".toList⟩

section
variable {NT AK AV L : Type} [Dbg NT] [Dbg AK] [Dbg AV] [Dbg L]

/-- The derived `Debug` of src/grammar/base.rs:245-249 for `ProdKey`. -/
instance : Dbg (ProdKey NT AK) := ⟨fun alt k => debugStruct alt "ProdKey".toList
  [("head".toList, Dbg.fmt alt k.head), ("action_key".toList, Dbg.fmt alt k.actionKey)]⟩

/-- The derived `Debug` of src/grammar/transform/nonnull.rs:63-67 for `ActionKey`. -/
instance : Dbg (NNActionKey AK) := ⟨fun alt k => debugStruct alt "ActionKey".toList
  [("action".toList, Dbg.fmt alt k.action), ("nt_nullable_states".toList, listFmt alt k.ntNullableStates)]⟩

mutual
/-- The derived `Debug` of src/utils.rs:127-131 for `TreeNode`. -/
def TreeNode.fmt (alt : Bool) : TreeNode L → List Char
  | .mk a ps => debugStruct alt "TreeNode".toList
    [("action_name".toList, Dbg.fmt alt a), ("params".toList, debugMap alt (TreeNode.fmtParams alt ps))]
/-- The entries of the map at src/utils.rs:130. -/
def TreeNode.fmtParams (alt : Bool) : List (Name × TreeNode L) → List (List Char × List Char)
  | [] => []
  | e :: ps => TreeNode.fmtEntry alt e :: TreeNode.fmtParams alt ps
/-- One entry; the value is a `TreeValue::Node` (src/utils.rs:121-125, derived `Debug`), and a `Box`
shows what it holds. -/
def TreeNode.fmtEntry (alt : Bool) : Name × TreeNode L → List Char × List Char
  | (n, t) => (nameFmt n, debugTuple alt "Node".toList [TreeNode.fmt alt t])
end

/-- The derived `Debug` of src/utils.rs:127 for `TreeNode`. -/
instance : Dbg (TreeNode L) := ⟨TreeNode.fmt⟩

/-- The derived `Debug` of src/grammar/transform/nonnull.rs:84-88 for `ActionValue`. -/
instance : Dbg (NNActionValue NT AK AV) := ⟨fun alt v => debugStruct alt "ActionValue".toList
  [("parent_value".toList, Dbg.fmt alt v.parentValue),
    ("nullable_arguments".toList, debugMap alt (v.nullableArguments.map fun e => (nameFmt e.1, Dbg.fmt alt e.2)))]⟩

/-- The derived `Debug` of src/grammar/passes/nullable/nullables.rs:102-105 for `GrammarNullableInfo`,
with that of `NonTermNullableInfo` (135-138). -/
instance : Dbg (GrammarNullableInfo NT AK) := ⟨fun alt i => debugStruct alt "GrammarNullableInfo".toList
  [("nonterm_info".toList, debugMap alt (i.nontermInfo.map fun e => (Dbg.fmt alt e.1,
    debugStruct alt "NonTermNullableInfo".toList [("nullable_action".toList, Dbg.fmt alt e.2)])))]⟩

/-- The derived `Debug` of src/start_grammar.rs:81-85 for `StartActionKey`. -/
instance : Dbg (StartActionKey AK) := ⟨fun alt k => match k with
  | .start => "Start".toList
  | .actionKey k => debugTuple alt "ActionKey".toList [Dbg.fmt alt k]⟩

/-- The derived `Debug` of src/start_grammar.rs:114-118 for `StartActionValue`. -/
instance : Dbg (StartActionValue AV) := ⟨fun alt v => match v with
  | .start => "Start".toList
  | .actionValue v => debugTuple alt "ActionValue".toList [Dbg.fmt alt v]⟩
end

/-! ## `ToDoc` -/
section
variable {NT AK AV : Type} [ToDoc AK] [ToDoc AV]

/-- src/grammar/transform/nonnull.rs:69-82 `impl ToDoc for ActionKey`. -/
instance : ToDoc (NNActionKey AK) := ⟨fun k => .append .nil (toDoc k.action)⟩

/-- src/grammar/transform/nonnull.rs:90-103 `impl ToDoc for ActionValue`. -/
instance : ToDoc (NNActionValue NT AK AV) := ⟨fun v => .append .nil (toDoc v.parentValue)⟩

/-- src/start_grammar.rs:96-112 `impl ToDoc for StartActionKey`. -/
instance : ToDoc (StartActionKey AK) := ⟨fun
  | .start => .text "<START>"
  | .actionKey k => toDoc k⟩

/-- src/start_grammar.rs:120-136 `impl ToDoc for StartActionValue`. -/
instance : ToDoc (StartActionValue AV) := ⟨fun
  | .start => .text "<START>"
  | .actionValue v => toDoc v⟩
end

/-! ## Errors -/

/-- src/grammar/passes/nullable/nullables.rs:146-150, the `Display` made by `thiserror`. -/
def NullableError.display : NullableError → String
  | .ambiguity => "found nullable ambiguities in grammar"

/-- The `Display` of the `anyhow::Error` that src/grammar/transform/nonnull.rs:110-136 returns: that of
the error of the pass (120), or the message at 135. -/
def NonNullError.display : NonNullError → String
  | .nullable e => e.display
  | .build => "Grammar failed to build"
end Bongo
