import Verif.Model.Pretty
import Verif.Model.Earley
/-!
# `Debug`: src/utils/fmt.rs and the implementations in the other modules

A `Debug` implementation is the text it writes with `{:?}` (`alt = false`) and with `{:#?}`
(`alt = true`).  Other format options (width, precision, hexadecimal) are not modelled.  The builders
of `std::fmt` are transcribed from their documentation and source; writing never fails.
-/
namespace Bongo
set_option linter.unusedSectionVars false

/-- `std::fmt::Debug` (the bound used throughout src/grammar/base.rs and src/utils/fmt.rs). -/
class Dbg (α : Type) where
  fmt : (alt : Bool) → α → List Char

namespace Fmt
/-- `std`'s `PadAdapter`, through which the builders used in src/utils/fmt.rs:12-70 write nested values
with `{:#?}`: four blanks at the beginning of every line. -/
def pad : (onNewline : Bool) → List Char → List Char
  | _, [] => []
  | nl, c :: s => (if nl then [' ', ' ', ' ', ' '] else []) ++ c :: pad (c == '\n') s

/-- `DebugStruct::field`, used at src/utils/fmt.rs:64 (`value` is what the value writes). -/
def structField (alt has : Bool) (name : List Char) (value : List Char) : List Char :=
  if alt then (if has then [] else [' ', '{', '\n']) ++ pad true (name ++ [':', ' '] ++ value ++ [',', '\n'])
  else (if has then [',', ' '] else [' ', '{', ' ']) ++ name ++ [':', ' '] ++ value

/-- `DebugStruct::finish`, used at src/utils/fmt.rs:66. -/
def structFinish (alt has : Bool) : List Char :=
  if has then if alt then ['}'] else [' ', '}'] else []

/-- A sequence of calls of `field`, then `finish`, as at src/utils/fmt.rs:63-66. -/
def structFields (alt : Bool) : (has : Bool) → List (List Char × List Char) → List Char
  | has, [] => structFinish alt has
  | has, f :: fs => structField alt has f.1 f.2 ++ structFields alt true fs

/-- `Formatter::debug_struct` with its fields, as at src/utils/fmt.rs:61-67. -/
def debugStruct (alt : Bool) (name : List Char) (fields : List (List Char × List Char)) : List Char :=
  name ++ structFields alt false fields

/-- `DebugTuple::field`, used at src/utils/fmt.rs:45. -/
def tupleField (alt has : Bool) (value : List Char) : List Char :=
  if alt then (if has then [] else ['(', '\n']) ++ pad true (value ++ [',', '\n'])
  else (if has then [',', ' '] else ['(']) ++ value

/-- `DebugTuple::finish`, used at src/utils/fmt.rs:47, after `n` fields: a tuple without a name and with
one field gets a comma with `{:?}`. -/
def tupleFinish (alt emptyName : Bool) (n : Nat) : List Char :=
  if n = 0 then [] else if n = 1 ∧ emptyName ∧ alt = false then [',', ')'] else [')']

/-- The calls of `field`, as at src/utils/fmt.rs:44-46. -/
def tupleFields (alt : Bool) : (has : Bool) → List (List Char) → List Char
  | _, [] => []
  | has, v :: vs => tupleField alt has v ++ tupleFields alt true vs

/-- `Formatter::debug_tuple` with its fields, as at src/utils/fmt.rs:42-48. -/
def debugTuple (alt : Bool) (name : List Char) (fields : List (List Char)) : List Char :=
  name ++ tupleFields alt false fields ++ tupleFinish alt name.isEmpty fields.length

/-- `DebugList::entry` and `DebugSet::entry`, used at src/utils/fmt.rs:14 and 28. -/
def entry (alt has : Bool) (value : List Char) : List Char :=
  if alt then (if has then [] else ['\n']) ++ pad true (value ++ [',', '\n'])
  else (if has then [',', ' '] else []) ++ value

/-- `entries`, as at src/utils/fmt.rs:14 and 28. -/
def entries (alt : Bool) : (has : Bool) → List (List Char) → List Char
  | _, [] => []
  | has, v :: vs => entry alt has v ++ entries alt true vs

/-- `Formatter::debug_list` with its entries, as at src/utils/fmt.rs:12-16. -/
def debugList (alt : Bool) (values : List (List Char)) : List Char :=
  ['['] ++ entries alt false values ++ [']']

/-- `Formatter::debug_set` with its entries, as at src/utils/fmt.rs:26-30. -/
def debugSet (alt : Bool) (values : List (List Char)) : List Char :=
  ['{'] ++ entries alt false values ++ ['}']
end Fmt

open Fmt

section
variable {α : Type} [Dbg α]

/-- src/utils/fmt.rs:70-76 `list_fmt` (and `Debug for Vec`). -/
def listFmt (alt : Bool) (items : List α) : List Char := debugList alt (items.map (Dbg.fmt alt))

/-- src/utils/fmt.rs:78-84 `set_fmt` (and `Debug for BTreeSet`). -/
def setFmt (alt : Bool) (items : List α) : List Char := debugSet alt (items.map (Dbg.fmt alt))

/-- src/utils/fmt.rs:86-93 `tuple_fmt`. -/
def tupleFmt (alt : Bool) (name : Name) (items : List α) : List Char :=
  debugTuple alt name.toList (items.map (Dbg.fmt alt))

/-- src/utils/fmt.rs:95-103 `struct_fmt`. -/
def structFmt (alt : Bool) (name : Name) (items : List (Name × α)) : List Char :=
  debugStruct alt name.toList (items.map fun kv => (kv.1.toList, Dbg.fmt alt kv.2))
end

/-- `Debug for usize`, used for `index`, `origin_index` and `value_len`
(src/parsers/earley/state.rs:218-224). -/
instance : Dbg Nat := ⟨fun _ n => Nat.toDigits 10 n⟩

/-- src/utils.rs:100-104 `Debug for Name`: the name without quotes.  (A function, because names are
strings in the model.) -/
def nameFmt (n : Name) : List Char := n.toList

/-- The derived `Debug` of src/grammar/base/element_types.rs:6 for `struct Terminal(Name)`. -/
instance : Dbg Terminal := ⟨fun alt t => debugTuple alt "Terminal".toList [nameFmt t.name]⟩

/-- The derived `Debug` of src/grammar/base/element_types.rs:24 for `struct NonTerminal(Name)`. -/
instance : Dbg NonTerminal := ⟨fun alt t => debugTuple alt "NonTerminal".toList [nameFmt t.name]⟩

section
variable {T NT AK AV : Type} [Dbg T] [Dbg NT]

/-- The derived `Debug` of src/start_grammar.rs:17 for `StreamTerminal`. -/
instance : Dbg (StreamTerminal T) := ⟨fun alt t => match t with
  | .endOfStream => "EndOfStream".toList
  | .term t => debugTuple alt "Term".toList [Dbg.fmt alt t]⟩

/-- The derived `Debug` of src/start_grammar.rs:57 for `StartNonTerminal`. -/
instance : Dbg (StartNonTerminal NT) := ⟨fun alt t => match t with
  | .start => "Start".toList
  | .nterm t => debugTuple alt "NTerm".toList [Dbg.fmt alt t]⟩

/-- src/grammar/base.rs:83-94 `Debug for Elem`: always with `{:?}` inside. -/
instance : Dbg (Elem T NT) := ⟨fun _ e => match e with
  | .term t => Dbg.fmt false t
  | .nonterm nt => ['<'] ++ Dbg.fmt false nt ++ ['>']⟩

/-- src/grammar/base.rs:161-172 `Debug for ProdElement`. -/
instance : Dbg (ProdElement T NT) := ⟨fun alt e =>
  (match e.identifier with
    | some name => nameFmt name ++ [':']
    | none => []) ++ Dbg.fmt alt e.element⟩

/-- src/grammar/base.rs:755-766 `Debug for Prod`. -/
instance : Dbg (Prod T NT AK AV) := ⟨fun alt p => debugStruct alt "Prod".toList
  [("head".toList, Dbg.fmt alt p.head), ("elems".toList, listFmt alt p.prodElements)]⟩

/-- src/grammar/base.rs:611-622 `Debug for Rule`.  (`RuleInner` stands for the `Rule` that refers to
it.) -/
instance : Dbg (RuleInner T NT AK AV) := ⟨fun alt r => debugStruct alt "Rule".toList
  [("head".toList, Dbg.fmt alt r.head), ("prods".toList, listFmt alt r.prodRefs)]⟩

/-- src/grammar/base.rs:329-343 `Debug for Grammar`. -/
instance : Dbg (Grammar T NT AK AV) := ⟨fun alt g => debugStruct alt "Grammar".toList
  [("Terms".toList, listFmt alt g.getTerminals), ("NonTerms".toList, listFmt alt g.getNonterminals),
    ("Rules".toList, listFmt alt g.rules)]⟩

/-- The derived `Debug` of src/grammar/base.rs:471 for `GrammarErrors`. -/
instance : Dbg (GrammarErrors NT) := ⟨fun alt e => debugStruct alt "GrammarErrors".toList
  [("unreachable_nonterms".toList, setFmt alt e.unreachableNonterms),
    ("nonterms_without_rules".toList, setFmt alt e.nontermsWithoutRules),
    ("rules_without_prods".toList, setFmt alt e.rulesWithoutProds)]⟩

/-- The derived `Debug` of src/state.rs:33-37 for `ProdState`. -/
instance : Dbg (ProdState T NT AK AV) := ⟨fun alt s => debugStruct alt "ProdState".toList
  [("prod".toList, Dbg.fmt alt s.prod), ("index".toList, Dbg.fmt alt s.index)]⟩

/-- src/parsers/earley/state.rs:213-225 `Debug for EarleyState`. -/
instance : Dbg (EarleyState T NT AK AV) := ⟨fun alt s => debugStruct alt "EarleyState".toList
  [("prod_state".toList, Dbg.fmt alt s.key.prodState), ("origin_index".toList, Dbg.fmt alt s.key.originIndex),
    ("value_len".toList, Dbg.fmt alt s.value.length)]⟩

/-- src/parsers/earley/state.rs:334-343 `Debug for EarleyStateSet`.  (A function, because the set is a
map in the model.) -/
def earleySetFmt (alt : Bool) (s : EarleyStateSet T NT AK AV) : List Char := setFmt alt s.states
end
end Bongo
