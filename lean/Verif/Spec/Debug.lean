import Verif.Model.Debug
import Verif.Spec.Pretty
/-!
# Specification: what `Debug` shows
-/
namespace Bongo
variable {T NT AK AV : Type}

/-- Closing brackets. -/
def closers : List Char := [')', ']', '}']

/-- Read one more character, from the right: blanks and line breaks are left out, and commas before a
closing bracket. -/
def tidyStep (c : Char) (rest : List Char) : List Char :=
  if c = ' ' ∨ c = '\n' then rest
  else if c = ',' ∧ ∃ d ∈ closers, rest.head? = some d then rest
  else c :: rest

/-- The text without blanks, line breaks and commas before closing brackets. -/
def tidy (s : List Char) : List Char := s.foldr tidyStep []

/-- The characters with a meaning in `Debug` of a grammar. -/
def debugReserved : List Char := [' ', '\n', ',', ':', '<', '>', '[', ']', '{', '}']

/-- Types of symbols whose `Debug` can be read back: for the values that are `Plain`, the text of `{:?}`
has no reserved characters and says which value it is; and `{:#?}` is the same up to layout. -/
class PlainDbg (α : Type) [Dbg α] where
  Plain : α → Prop
  chars : ∀ a, Plain a → ∀ c ∈ Dbg.fmt false a, c ∉ debugReserved
  first : ∀ a, Plain a → ∃ c l, Dbg.fmt false a = c :: l ∧ c ≠ ')'
  inj : ∀ a b, Plain a → Plain b → Dbg.fmt false a = Dbg.fmt false b → a = b
  layout : ∀ a, Plain a → ∀ r, (Dbg.fmt true a).foldr tidyStep r = (Dbg.fmt false a).foldr tidyStep r

/-- A name without characters that have a meaning in `Debug` of a grammar. -/
def PlainIdent (n : Name) : Prop := ∀ c ∈ n.toList, c ∉ ')' :: debugReserved

/-- All names in the rules are plain. -/
structure Grammar.PlainDebug [Dbg T] [Dbg NT] [PlainDbg T] [PlainDbg NT] (g : Grammar T NT AK AV) : Prop where
  heads : ∀ r ∈ g.rules, PlainDbg.Plain r.head
  terms : ∀ r ∈ g.rules, ∀ p ∈ r.prods, ∀ e ∈ p.elements, ∀ t, e.element = .term t → PlainDbg.Plain t
  nonterms : ∀ r ∈ g.rules, ∀ p ∈ r.prods, ∀ e ∈ p.elements, ∀ A, e.element = .nonterm A → PlainDbg.Plain A
  identifiers : ∀ r ∈ g.rules, ∀ p ∈ r.prods, ∀ e ∈ p.elements, ∀ n, e.identifier = some n → PlainIdent n
end Bongo
