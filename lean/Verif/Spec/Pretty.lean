import Verif.Model.Pretty
/-!
# Specification: printed grammars
-/
namespace Bongo
variable {T NT AK AV : Type}

/-- Symbols that print as one text. -/
class PrintsWord (α : Type) [ToDoc α] where
  word : α → Name
  prints : ∀ a, toDoc a = .text (word a)

/-- Different symbols print as different texts. -/
class Word (α : Type) [ToDoc α] extends PrintsWord α where
  inj : ∀ a b, word a = word b → a = b

instance : Word Terminal where
  word := Terminal.name
  prints _ := rfl
  inj a b h := by cases a; cases b; cases h; rfl
instance : Word NonTerminal where
  word := NonTerminal.name
  prints _ := rfl
  inj a b h := by cases a; cases b; cases h; rfl

open PrintsWord (word)

instance [ToDoc T] [PrintsWord T] : PrintsWord (StreamTerminal T) := ⟨fun
  | .endOfStream => "<EOS>"
  | .term t => word t, fun a => by cases a with
    | endOfStream => rfl
    | term t => exact PrintsWord.prints t⟩

instance [ToDoc NT] [PrintsWord NT] : PrintsWord (StartNonTerminal NT) := ⟨fun
  | .start => "<START>"
  | .nterm A => word A, fun a => by cases a with
    | start => rfl
    | nterm A => exact PrintsWord.prints A⟩

/-- The characters with a meaning in the printed form. -/
def reservedChars : List Char := [' ', '\n', '<', '>', ':', '|', ';', ',', '{', '}', '=']

/-- A name that cannot be confused with anything else in the printed form. -/
def PlainName (n : Name) : Prop := n ≠ "" ∧ n ≠ "ε" ∧ ∀ c ∈ n.toList, c ∉ reservedChars

section
variable [ToDoc T] [ToDoc NT] [PrintsWord T] [PrintsWord NT]

/-- All names in the grammar are plain. -/
structure Grammar.PlainNames (g : Grammar T NT AK AV) : Prop where
  start : PlainName (word g.startSymbol)
  heads : ∀ r ∈ g.rules, PlainName (word r.head)
  terms : ∀ r ∈ g.rules, ∀ p ∈ r.prods, ∀ e ∈ p.elements, ∀ t, e.element = .term t → PlainName (word t)
  nonterms : ∀ r ∈ g.rules, ∀ p ∈ r.prods, ∀ e ∈ p.elements, ∀ A, e.element = .nonterm A →
    PlainName (word A)
  identifiers : ∀ r ∈ g.rules, ∀ p ∈ r.prods, ∀ e ∈ p.elements, ∀ n, e.identifier = some n → PlainName n

/-- Put `sep` between. -/
def joinWith (sep : List Char) : List (List Char) → List Char
  | [] => []
  | [a] => a
  | a :: l => a ++ sep ++ joinWith sep l

/-- An element, as it is printed on one line. -/
def ProdElement.listing (e : ProdElement T NT) : List Char :=
  (match e.identifier with
    | some n => n.toList ++ [':']
    | none => []) ++
  match e.element with
  | .term t => (word t).toList
  | .nonterm A => ['<'] ++ (word A).toList ++ ['>']

/-- A production, as it is printed on one line. -/
def ProdInner.listing (p : ProdInner T NT AK AV) : List Char :=
  if p.elements = [] then ['ε'] else joinWith [' '] (p.elements.map (·.listing))

/-- A rule, as it is printed on one line. -/
def RuleInner.listing (r : RuleInner T NT AK AV) : List Char :=
  (word r.head).toList ++ [' ', '=', '>', ' '] ++ joinWith [' ', '|', ' '] (r.prods.map (·.listing))

/-- A grammar, as it is printed on one line: `Start = S, Rules { A => a <B> | ε; … }, `. -/
def Grammar.listing (g : Grammar T NT AK AV) : List Char :=
  "Start = ".toList ++ (word g.startSymbol).toList ++ ", Rules { ".toList ++
    g.rules.flatMap (fun r => r.listing ++ [';', ' ']) ++ "}, ".toList

/-- The text without blanks and line breaks. -/
def ink (s : List Char) : List Char := s.filter fun c => c ≠ ' ' ∧ c ≠ '\n'
end

/-- What is printed of a grammar: not the actions. -/
def Grammar.shape (g : Grammar T NT AK AV) : NT × List (NT × List (List (ProdElement T NT))) :=
  (g.startSymbol, g.rules.map fun r => (r.head, r.prods.map (·.elements)))
end Bongo
