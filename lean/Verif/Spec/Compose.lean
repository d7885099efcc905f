import Verif.Model.NonNull
/-!
# Specification: a grammar with every nonterminal marked as not null
-/
namespace Bongo
variable {T NT AK AV : Type}

/-- The same production; its key records that no nonterminal is null, and its value no null arguments. -/
def ProdInner.tagged (p : ProdInner T NT AK AV) :
    ProdInner T NT (NNActionKey AK) (NNActionValue NT AK AV) :=
  ⟨⟨p.actionKey, (p.elements.filterMap (·.element.asNonterm)).map fun _ => false⟩,
    ⟨p.actionValue, []⟩, p.elements⟩

/-- The same grammar with tagged productions. -/
def Grammar.tagged (g : Grammar T NT AK AV) : NonNullGrammar T NT AK AV where
  startSymbol := g.startSymbol
  ruleSet := g.ruleSet.map fun kr => (kr.1, ⟨kr.2.head, kr.2.prods.map ProdInner.tagged⟩)
end Bongo
