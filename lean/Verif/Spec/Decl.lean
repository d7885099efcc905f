import Verif.Model.Grammar
/-!
# Specification: what a sequence of builder calls declares
-/
namespace Bongo
variable {T NT AK AV : Type}

/-- The element one `ProductionBuilder` call adds. -/
def ProdOp.declares : ProdOp T NT → ProdElement T NT
  | .addTerm t => ⟨none, .term t⟩
  | .addNamedTerm n t => ⟨some n, .term t⟩
  | .addNonterm nt => ⟨none, .nonterm nt⟩
  | .addNamedNonterm n nt => ⟨some n, .nonterm nt⟩

/-- The production one `RuleBuilder` call adds. -/
def RuleOp.declares : RuleOp T NT AK AV → ProdInner T NT AK AV
  | .addProd k v calls => ⟨k, v, calls.map ProdOp.declares⟩
  | .addProdWithElems k v es => ⟨k, v, es⟩

/-- The rule one `add_rule` call adds. -/
def GrammarOp.declares (op : GrammarOp T NT AK AV) : RuleInner T NT AK AV :=
  ⟨op.head, op.buildFn.map RuleOp.declares⟩

/-- `r` is the last declared rule with head `A`. -/
def LastRule (rules : List (RuleInner T NT AK AV)) (A : NT) (r : RuleInner T NT AK AV) : Prop :=
  ∃ pre post, rules = pre ++ r :: post ∧ r.head = A ∧ ∀ r' ∈ post, r'.head ≠ A

/-- `B` is written in a body of the (last) rule of `A`. -/
def Writes (rules : List (RuleInner T NT AK AV)) (A B : NT) : Prop :=
  ∃ r, LastRule rules A r ∧ ∃ p ∈ r.prods, ∃ e ∈ p.elements, e.element = .nonterm B

/-- `A` has a rule. -/
def HasRule (rules : List (RuleInner T NT AK AV)) (A : NT) : Prop := ∃ r ∈ rules, r.head = A

end Bongo
