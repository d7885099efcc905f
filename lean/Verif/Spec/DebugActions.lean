import Verif.Model.DebugActions
import Verif.Spec.Debug
/-!
# Specification: what `Debug` shows of actions and null trees

Plain values, as in `Verif.Spec.Debug`: those in whose names no character has a meaning in the text.
-/
namespace Bongo
variable {NT AK AV : Type} [Dbg NT] [Dbg AK] [Dbg AV] [PlainDbg NT] [PlainDbg AK] [PlainDbg AV]

/-- The key of a production, with plain names. -/
def ProdKey.PlainKey (k : ProdKey NT AK) : Prop := PlainDbg.Plain k.head ∧ PlainDbg.Plain k.actionKey

/-- A null tree of plain keys and plain names of parameters. -/
inductive TreeNode.PlainTree : TreeNode (ProdKey NT AK) → Prop where
  | mk {k : ProdKey NT AK} {ps : List (Name × TreeNode (ProdKey NT AK))} : k.PlainKey →
      (∀ e ∈ ps, PlainIdent e.1) → (∀ e ∈ ps, PlainTree e.2) → PlainTree (.mk k ps)

/-- The value of an action of a transformed grammar, with plain names. -/
structure NNActionValue.PlainValue (v : NNActionValue NT AK AV) : Prop where
  parent : PlainDbg.Plain v.parentValue
  names : ∀ e ∈ v.nullableArguments, PlainIdent e.1
  trees : ∀ e ∈ v.nullableArguments, e.2.PlainTree

/-- The result of the nullable pass, with plain names. -/
structure GrammarNullableInfo.PlainInfo (i : GrammarNullableInfo NT AK) : Prop where
  heads : ∀ e ∈ i.nontermInfo, PlainDbg.Plain e.1
  trees : ∀ e ∈ i.nontermInfo, e.2.PlainTree

/-- A grammar whose heads, action keys, action values and names of elements are plain. -/
structure Grammar.PlainActions {T : Type} (g : Grammar T NT AK AV) : Prop where
  heads : ∀ p ∈ g.prods, PlainDbg.Plain p.head
  keys : ∀ p ∈ g.prods, PlainDbg.Plain p.actionKey
  values : ∀ p ∈ g.prods, PlainDbg.Plain p.actionValue
  names : ∀ p ∈ g.prods, ∀ e ∈ p.prodElements, ∀ n, e.identifier = some n → PlainIdent n
end Bongo
