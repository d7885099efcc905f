import Verif.Model.Start
/-!
# Specification: the wrapped grammar, written out
-/
namespace Bongo
variable {T NT AK AV : Type}

/-- An original production inside the wrapped grammar: same names, key, value and elements. -/
def ProdInner.lifted (p : ProdInner T NT AK AV) :
    ProdInner (StreamTerminal T) (StartNonTerminal NT) (StartActionKey AK) (StartActionValue AV) :=
  { actionKey := .actionKey p.actionKey
    actionValue := .actionValue p.actionValue
    elements := p.elements.map fun e => ⟨e.identifier, match e.element with
      | .term t => .term (.term t)
      | .nonterm nt => .nonterm (.nterm nt)⟩ }

/-- An original rule inside the wrapped grammar. -/
def RuleInner.lifted (r : RuleInner T NT AK AV) :
    RuleInner (StreamTerminal T) (StartNonTerminal NT) (StartActionKey AK) (StartActionValue AV) :=
  ⟨.nterm r.head, r.prods.map ProdInner.lifted⟩

/-- `Start => start:<s> EOS`. -/
def startProduction (s : NT) :
    ProdInner (StreamTerminal T) (StartNonTerminal NT) (StartActionKey AK) (StartActionValue AV) :=
  ⟨.start, .start, [⟨some "start", .nonterm (.nterm s)⟩, ⟨none, .term .endOfStream⟩]⟩

/-- The wrapped grammar: the start rule, then the original rules in the original order. -/
def Grammar.wrapped (g : Grammar T NT AK AV) : StartGrammar T NT AK AV where
  startSymbol := .start
  ruleSet := (.start, ⟨.start, [startProduction g.startSymbol]⟩) ::
    g.ruleSet.map fun kr => (.nterm kr.1, kr.2.lifted)

end Bongo
