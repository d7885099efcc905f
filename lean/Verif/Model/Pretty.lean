import Verif.Model.Start
import Verif.Model.NonNull
/-!
# Printing: `ToDoc` (src/utils.rs and the implementations in the grammar modules), `to_pretty`

The documents of the `pretty` crate, as far as this crate uses them.  The crate's choice of line
breaks (width 80) is not modelled: `Doc.Layout` relates a document to every text a printer may make
of it, so what is proved of all of them holds of the one `to_pretty` returns.
-/
namespace Bongo
set_option linter.unusedSectionVars false

/-- `pretty::Doc`, the constructors used in src/utils.rs:45-62, src/grammar/base.rs:62-546 and
src/start_grammar.rs:38-138. -/
inductive Doc where
  | nil
  | text (s : String)
  | line
  | lineOrNothing
  | append (a b : Doc)
  | nest (n : Nat) (d : Doc)
  | group (d : Doc)

namespace Doc
/-- `DocAllocator::softline` (used at src/grammar/base.rs:234, 300, 303, 533, 536, 539, 549): a blank
or a line break. -/
def softline : Doc := .group .line
/-- `DocAllocator::softline_` (used at src/grammar/base.rs:152): nothing or a line break. -/
def softlineOrNothing : Doc := .group .lineOrNothing
/-- `DocAllocator::concat` (used at src/grammar/base.rs:538, 546). -/
def concat : List Doc → Doc
  | [] => .nil
  | d :: ds => .append d (concat ds)
/-- `DocAllocator::intersperse` (used at src/grammar/base.rs:234, 301). -/
def intersperse (sep : Doc) : List Doc → Doc
  | [] => .nil
  | [d] => d
  | d :: ds => .append d (.append sep (intersperse sep ds))
/-- `DocBuilder::braces` (used at src/grammar/base.rs:543). -/
def braces (d : Doc) : Doc := .append (.text "{") (.append d (.text "}"))

/-- The texts a printer may make of a document (`pretty(80)` at src/grammar/base.rs:467 makes one of
them).  In a `flat` part a line is a blank or nothing; a group may be made flat or not, a group in a
flat part is flat. -/
inductive Prints : Bool → Nat → Doc → List Char → Prop where
  | nil {f i} : Prints f i .nil []
  | text {f i s} : Prints f i (.text s) s.toList
  | lineFlat {i} : Prints true i .line [' ']
  | lineBreak {i} : Prints false i .line ('\n' :: List.replicate i ' ')
  | nothingFlat {i} : Prints true i .lineOrNothing []
  | nothingBreak {i} : Prints false i .lineOrNothing ('\n' :: List.replicate i ' ')
  | append {f i a b s t} : Prints f i a s → Prints f i b t → Prints f i (.append a b) (s ++ t)
  | nest {f i n d s} : Prints f (i + n) d s → Prints f i (.nest n d) s
  | groupFlat {f i d s} : Prints true i d s → Prints f i (.group d) s
  | groupBreak {i d s} : Prints false i d s → Prints false i (.group d) s

/-- The texts of a whole document, src/grammar/base.rs:467. -/
def Layout (d : Doc) (s : List Char) : Prop := Prints false 0 d s
end Doc

/-- src/utils.rs:45-52 `trait ToDoc`. -/
class ToDoc (α : Type) where
  toDoc : α → Doc

export ToDoc (toDoc)

/-- src/utils.rs:54-61 `impl ToDoc for ()`. -/
instance : ToDoc Unit := ⟨fun _ => .text "()"⟩

/-- src/utils.rs:115-122 `impl ToDoc for Name`. -/
instance : ToDoc Name := ⟨fun n => .text n⟩

/-- src/grammar/base/element_types.rs:7 `struct Terminal(Name)`. -/
structure Terminal where
  name : Name
  deriving DecidableEq, Repr

/-- src/grammar/base/element_types.rs:26 `struct NonTerminal(Name)`. -/
structure NonTerminal where
  name : Name
  deriving DecidableEq, Repr

/-- src/grammar/base/element_types.rs:15-22 `impl ToDoc for Terminal`. -/
instance : ToDoc Terminal := ⟨fun t => .text t.name⟩

/-- src/grammar/base/element_types.rs:33-40 `impl ToDoc for NonTerminal`. -/
instance : ToDoc NonTerminal := ⟨fun t => .text t.name⟩

/-- src/grammar/base/element_types.rs:6 `#[derive(Ord)]` of `Terminal`: by name. -/
instance : Ord Terminal := ⟨fun a b => compare a.name b.name⟩

/-- src/grammar/base/element_types.rs:25 `#[derive(Ord)]` of `NonTerminal`: by name. -/
instance : Ord NonTerminal := ⟨fun a b => compare a.name b.name⟩

section
variable {T NT AK AV : Type}

/-- src/start_grammar.rs:38-54 `impl ToDoc for StreamTerminal`. -/
instance [ToDoc T] : ToDoc (StreamTerminal T) := ⟨fun
  | .endOfStream => .text "<EOS>"
  | .term t => toDoc t⟩

/-- src/start_grammar.rs:63-79 `impl ToDoc for StartNonTerminal`. -/
instance [ToDoc NT] : ToDoc (StartNonTerminal NT) := ⟨fun
  | .start => .text "<START>"
  | .nterm nt => toDoc nt⟩

variable [ToDoc T] [ToDoc NT]

/-- src/grammar/base.rs:62-81 `impl ToDoc for Elem`. -/
instance : ToDoc (Elem T NT) := ⟨fun
  | .nonterm nt => .append (.append (.text "<") (toDoc nt)) (.text ">")
  | .term t => toDoc t⟩

/-- src/grammar/base.rs:139-159 `impl ToDoc for ProdElement`. -/
instance : ToDoc (ProdElement T NT) := ⟨fun e =>
  .append
    (match e.identifier with
      | some id => .append (toDoc id) (.append (.text ":") .softlineOrNothing)
      | none => .nil)
    (toDoc e.element)⟩

/-- src/grammar/base.rs:219-237 `impl ToDoc for ProdInner`. -/
instance : ToDoc (ProdInner T NT AK AV) := ⟨fun p =>
  if p.elements.isEmpty then .text "ε" else .intersperse .softline (p.elements.map toDoc)⟩

/-- src/grammar/base.rs:284-306 `impl ToDoc for RuleInner`. -/
instance : ToDoc (RuleInner T NT AK AV) := ⟨fun r =>
  .append (.append (.append (toDoc r.head) (.text " =>")) .softline)
    (.intersperse (.append (.text " |") .softline) (r.prods.map toDoc))⟩

/-- src/grammar/base.rs:518-552 `impl ToDoc for Grammar`. -/
instance : ToDoc (Grammar T NT AK AV) := ⟨fun g =>
  let startEntry : Doc := .append (.append (.group (.text "Start =")) .softline) (toDoc g.startSymbol)
  let rulesEntry : Doc := .append (.text "Rules ")
    (.braces (.append .softline (.nest 2 (.concat
      (g.ruleSet.map fun rule => .append (.append (toDoc rule.2) (.text ";")) .softline)))))
  .concat ([startEntry, rulesEntry].map fun doc => .append (.append doc (.text ",")) .softline)⟩
end
end Bongo
