import Verif.Model.Utils
/-!
# src/grammar/base.rs and src/grammar/base/builder.rs

Grammars, rules, productions, the builders and the validity check.
-/
namespace Bongo
set_option linter.unusedSectionVars false

/-- src/grammar/base.rs:31-34 `enum Elem<T, NT>`. -/
inductive Elem (T NT : Type) where
  | term (t : T)
  | nonterm (nt : NT)
  deriving DecidableEq, Repr

namespace Elem
variable {T NT : Type}

/-- src/grammar/base.rs:39-44 `Elem::as_term`. -/
def asTerm : Elem T NT → Option T
  | .term t => some t
  | .nonterm _ => none

/-- src/grammar/base.rs:47-52 `Elem::as_nonterm`. -/
def asNonterm : Elem T NT → Option NT
  | .nonterm nt => some nt
  | .term _ => none

/-- src/grammar/base.rs:30 `#[derive(Ord)]`: by variant (`Term < NonTerm`), then by content. -/
protected def cmp [Ord T] [Ord NT] : Elem T NT → Elem T NT → Ordering
  | .term a, .term b => compare a b
  | .term _, .nonterm _ => .lt
  | .nonterm _, .term _ => .gt
  | .nonterm a, .nonterm b => compare a b

instance [Ord T] [Ord NT] : Ord (Elem T NT) := ⟨Elem.cmp⟩
end Elem

/-- src/grammar/base.rs:98-101 `struct ProdElement`. -/
structure ProdElement (T NT : Type) where
  identifier : Option Name
  element : Elem T NT
  deriving DecidableEq, Repr

/-- src/grammar/base.rs:184-188 `struct ProdInner`. -/
structure ProdInner (T NT AK AV : Type) where
  actionKey : AK
  actionValue : AV
  elements : List (ProdElement T NT)
  deriving DecidableEq, Repr

namespace ProdInner
variable {T NT AK AV : Type}
/-- src/grammar/base.rs:207-209 `ProdInner::elements_iter` (and `Prod::elements`, 693-695). -/
def elems (p : ProdInner T NT AK AV) : List (Elem T NT) := p.elements.map (·.element)
end ProdInner

/-- src/grammar/base.rs:246-249 `struct ProdKey` (fields `head`, `action_key`). -/
structure ProdKey (NT AK : Type) where
  head : NT
  actionKey : AK
  deriving DecidableEq, Repr

/-- src/grammar/base.rs:265-268 `struct RuleInner`. -/
structure RuleInner (T NT AK AV : Type) where
  head : NT
  prods : List (ProdInner T NT AK AV)
  deriving DecidableEq, Repr

/-- src/grammar/base.rs:324-327 `struct Grammar`. -/
structure Grammar (T NT AK AV : Type) where
  startSymbol : NT
  ruleSet : BMap NT (RuleInner T NT AK AV)
  deriving DecidableEq, Repr

/-- src/grammar/base.rs:632-636 `struct Prod`: a reference to one production of a grammar.  The
Rust value holds `&ProdInner` and is compared by that address (638-665); here the reference is
the head of the rule together with the index in the rule's `Vec`, and `inner` is what it points
to. -/
structure Prod (T NT AK AV : Type) where
  head : NT
  index : Nat
  inner : ProdInner T NT AK AV
  deriving DecidableEq, Repr

namespace Prod
variable {T NT AK AV : Type}
/-- src/grammar/base.rs:693-695 `Prod::elements`. -/
def elements (p : Prod T NT AK AV) : List (Elem T NT) := p.inner.elems
/-- src/grammar/base.rs:688-690 `Prod::prod_elements`. -/
def prodElements (p : Prod T NT AK AV) : List (ProdElement T NT) := p.inner.elements
/-- src/grammar/base.rs:697-699 `Prod::num_elements`. -/
def numElements (p : Prod T NT AK AV) : Nat := p.inner.elements.length
/-- src/grammar/base.rs:702-704 `Prod::action_key`. -/
def actionKey (p : Prod T NT AK AV) : AK := p.inner.actionKey
/-- src/grammar/base.rs:726-728 `Prod::action_value`. -/
def actionValue (p : Prod T NT AK AV) : AV := p.inner.actionValue
/-- src/grammar/base.rs:713-718 `Prod::prod_element_at`. -/
def prodElementAt (p : Prod T NT AK AV) (i : Nat) : Option (ProdElement T NT) := p.prodElements[i]?
/-- src/grammar/base.rs:721-723 `Prod::element_at`. -/
def elementAt (p : Prod T NT AK AV) (i : Nat) : Option (Elem T NT) := p.elements[i]?
/-- src/grammar/base.rs:731-736 `Prod::prod_key`. -/
def prodKey (p : Prod T NT AK AV) : ProdKey NT AK := ⟨p.head, p.actionKey⟩
/-- src/grammar/base.rs:740-742 `Prod::first_elem`. -/
def firstElem (p : Prod T NT AK AV) : Option (Elem T NT) := p.elements.head?
end Prod

namespace RuleInner
variable {T NT AK AV : Type}
/-- src/grammar/base.rs:585-592 `Rule::prods`. -/
def prodRefs (r : RuleInner T NT AK AV) : List (Prod T NT AK AV) :=
  r.prods.zipIdx.map (fun pi => ⟨r.head, pi.2, pi.1⟩)
end RuleInner

/-- src/grammar/base.rs:472-476 `struct GrammarErrors`. -/
structure GrammarErrors (NT : Type) where
  unreachableNonterms : BSet NT
  nontermsWithoutRules : BSet NT
  rulesWithoutProds : BSet NT
  deriving DecidableEq, Repr

namespace GrammarErrors
variable {NT : Type}
/-- src/grammar/base.rs:479-488 `GrammarErrors::into_result`. -/
def intoResult (e : GrammarErrors NT) : Except (GrammarErrors NT) Unit :=
  if e.unreachableNonterms.isEmpty && e.nontermsWithoutRules.isEmpty && e.rulesWithoutProds.isEmpty
  then .ok () else .error e
end GrammarErrors

namespace Grammar
variable {T NT AK AV : Type}

/-- src/grammar/base.rs:350-356 `Grammar::get_elements`. -/
def getElements (g : Grammar T NT AK AV) : List (Elem T NT) :=
  ((BMap.values g.ruleSet).flatMap (·.prods)).flatMap (·.elems)

/-- src/grammar/base.rs:358-360 `Grammar::get_terminals`. -/
def getTerminals (g : Grammar T NT AK AV) : List T := g.getElements.filterMap Elem.asTerm

/-- src/grammar/base.rs:362-364 `Grammar::get_nonterminals`. -/
def getNonterminals (g : Grammar T NT AK AV) : List NT := g.getElements.filterMap Elem.asNonterm

/-- src/grammar/base.rs:367-372 `Grammar::rules`. -/
def rules (g : Grammar T NT AK AV) : List (RuleInner T NT AK AV) := BMap.values g.ruleSet

/-- src/grammar/base.rs:375-377 `Grammar::prods`. -/
def prods (g : Grammar T NT AK AV) : List (Prod T NT AK AV) := g.rules.flatMap (·.prodRefs)

variable [Ord NT]

/-- src/grammar/base.rs:410-415 `Grammar::try_get_rule`. -/
def tryGetRule (g : Grammar T NT AK AV) (nt : NT) : Option (RuleInner T NT AK AV) :=
  BMap.get? compare g.ruleSet nt

/-- src/grammar/base.rs:418-422 `Grammar::get_rule`. -/
def getRule (g : Grammar T NT AK AV) (nt : NT) : Res (RuleInner T NT AK AV) :=
  Res.expect .noRule (g.tryGetRule nt)

/-- src/grammar/base.rs:424-429 `Grammar::nonterminals_without_rules`. -/
def nonterminalsWithoutRules (g : Grammar T NT AK AV) : BSet NT :=
  BSet.ofList compare (g.getNonterminals.filter (fun nt => !BMap.contains compare g.ruleSet nt))

/-- src/grammar/base.rs:431-438 `Grammar::rules_without_prods`. -/
def rulesWithoutProds (g : Grammar T NT AK AV) : BSet NT :=
  BSet.ofList compare ((g.rules.filter (fun r => r.prodRefs.isEmpty)).map (·.head))

/-- src/grammar/base.rs:441-448, the closure passed to `breadth_first_search`. -/
def bodyNonterms (g : Grammar T NT AK AV) (nt : NT) : Res (List NT) :=
  match g.getRule nt with
  | .ok r => .ok (BSet.ofList compare ((r.prodRefs.flatMap (·.elements)).filterMap Elem.asNonterm))
  | .panic w => .panic w
  | .oof => .oof

/-- src/grammar/base.rs:440-449 `Grammar::reachable_nonterms`. -/
def reachableNonterms (fuel : Nat) (g : Grammar T NT AK AV) : Res (BSet NT) :=
  breadthFirstSearch compare fuel [g.startSymbol] g.bodyNonterms

/-- src/grammar/base.rs:451-457 `Grammar::unreachable_nonterms`. -/
def unreachableNonterms (fuel : Nat) (g : Grammar T NT AK AV) : Res (BSet NT) :=
  match g.reachableNonterms fuel with
  | .ok reach =>
    .ok (BSet.ofList compare (g.getNonterminals.filter (fun nt => !BSet.contains compare reach nt)))
  | .panic w => .panic w
  | .oof => .oof

/-- src/grammar/base.rs:496-515 `Grammar::check_grammar`. -/
def checkGrammar (fuel : Nat) (g : Grammar T NT AK AV) : Res (Except (GrammarErrors NT) Unit) :=
  match g.unreachableNonterms fuel with
  | .ok u =>
    .ok (GrammarErrors.intoResult
      { unreachableNonterms := u
        nontermsWithoutRules := g.nonterminalsWithoutRules
        rulesWithoutProds := g.rulesWithoutProds })
  | .panic w => .panic w
  | .oof => .oof

/-- The grammar built at src/grammar/base.rs:388-394, before the check. -/
def ofRules (start : NT) (rules : List (RuleInner T NT AK AV)) : Grammar T NT AK AV :=
  { startSymbol := start
    ruleSet := BMap.ofList compare (rules.map (fun r => (r.head, r))) }

/-- src/grammar/base.rs:385-398 `Grammar::new`. -/
def new (fuel : Nat) (start : NT) (rules : List (RuleInner T NT AK AV)) :
    Res (Except (GrammarErrors NT) (Grammar T NT AK AV)) :=
  let g := ofRules start rules
  match g.checkGrammar fuel with
  | .ok (.ok _) => .ok (.ok g)
  | .ok (.error e) => .ok (.error e)
  | .panic w => .panic w
  | .oof => .oof
end Grammar

/-! ## Builders

A builder closure is a sequence of calls on the builder it is handed; the model represents it by
the list of those calls. -/

/-- The methods of `ProductionBuilder`, src/grammar/base/builder.rs:69-104.  `BuilderInto`
(18-44) only clones or converts its argument. -/
inductive ProdOp (T NT : Type) where
  | addTerm (t : T)
  | addNamedTerm (name : Name) (t : T)
  | addNonterm (nt : NT)
  | addNamedNonterm (name : Name) (nt : NT)
  deriving DecidableEq, Repr

/-- src/grammar/base/builder.rs:47-51 `struct ProductionBuilder`. -/
structure ProductionBuilder (T NT AK AV : Type) where
  actionKey : AK
  actionValue : AV
  elems : List (ProdElement T NT)

namespace ProductionBuilder
variable {T NT AK AV : Type}
/-- src/grammar/base/builder.rs:54-60 `ProductionBuilder::new`. -/
def new (k : AK) (v : AV) : ProductionBuilder T NT AK AV := ⟨k, v, []⟩
/-- src/grammar/base/builder.rs:62-69 `ProductionBuilder::build`. -/
def build (b : ProductionBuilder T NT AK AV) : ProdInner T NT AK AV :=
  ⟨b.actionKey, b.actionValue, b.elems⟩
/-- src/grammar/base/builder.rs:70-103 the four `add_*` methods (each pushes one element). -/
def call (b : ProductionBuilder T NT AK AV) : ProdOp T NT → ProductionBuilder T NT AK AV
  | .addTerm t => { b with elems := b.elems ++ [⟨none, .term t⟩] }
  | .addNamedTerm n t => { b with elems := b.elems ++ [⟨some n, .term t⟩] }
  | .addNonterm nt => { b with elems := b.elems ++ [⟨none, .nonterm nt⟩] }
  | .addNamedNonterm n nt => { b with elems := b.elems ++ [⟨some n, .nonterm nt⟩] }
end ProductionBuilder

/-- The methods of `RuleBuilder`, src/grammar/base/builder.rs:130-160. -/
inductive RuleOp (T NT AK AV : Type) where
  | addProd (key : AK) (value : AV) (buildFn : List (ProdOp T NT))
  | addProdWithElems (key : AK) (value : AV) (elems : List (ProdElement T NT))

/-- src/grammar/base/builder.rs:112-115 `struct RuleBuilder`. -/
structure RuleBuilder (T NT AK AV : Type) where
  head : NT
  prods : List (ProdInner T NT AK AV)

namespace RuleBuilder
variable {T NT AK AV : Type}
/-- src/grammar/base/builder.rs:121-126 `RuleBuilder::new`. -/
def new (head : NT) : RuleBuilder T NT AK AV := ⟨head, []⟩
/-- src/grammar/base/builder.rs:128-131 `RuleBuilder::build`. -/
def build (b : RuleBuilder T NT AK AV) : RuleInner T NT AK AV := ⟨b.head, b.prods⟩
/-- src/grammar/base/builder.rs:133-145 `add_prod` and `add_prod_with_elems`. -/
def call (b : RuleBuilder T NT AK AV) : RuleOp T NT AK AV → RuleBuilder T NT AK AV
  | .addProd k v f =>
    { b with prods := b.prods ++ [(f.foldl ProductionBuilder.call (.new k v)).build] }
  | .addProdWithElems k v es => { b with prods := b.prods ++ [⟨k, v, es⟩] }
end RuleBuilder

/-- One `add_rule(head, build_fn)` call, src/grammar/base/builder.rs:185-198. -/
structure GrammarOp (T NT AK AV : Type) where
  head : NT
  buildFn : List (RuleOp T NT AK AV)

/-- src/grammar/base/builder.rs:166-169 `struct GrammarBuilder`. -/
structure GrammarBuilder (T NT AK AV : Type) where
  start : NT
  rules : List (RuleInner T NT AK AV)

namespace GrammarBuilder
variable {T NT AK AV : Type}
/-- src/grammar/base/builder.rs:176-181 `GrammarBuilder::new`. -/
def new (start : NT) : GrammarBuilder T NT AK AV := ⟨start, []⟩
/-- src/grammar/base/builder.rs:188-200 `GrammarBuilder::add_rule`. -/
def addRule (b : GrammarBuilder T NT AK AV) (op : GrammarOp T NT AK AV) :
    GrammarBuilder T NT AK AV :=
  { b with rules := b.rules ++ [(op.buildFn.foldl RuleBuilder.call (.new op.head)).build] }
/-- src/grammar/base/builder.rs:183-186 `GrammarBuilder::build`. -/
def build [Ord NT] (fuel : Nat) (b : GrammarBuilder T NT AK AV) :
    Res (Except (GrammarErrors NT) (Grammar T NT AK AV)) := Grammar.new fuel b.start b.rules
end GrammarBuilder

/-- src/grammar/base/builder.rs:225-236 `build`. -/
def buildGrammar {T NT AK AV : Type} [Ord NT] (fuel : Nat) (start : NT)
    (buildFn : List (GrammarOp T NT AK AV)) :
    Res (Except (GrammarErrors NT) (Grammar T NT AK AV)) :=
  (buildFn.foldl GrammarBuilder.addRule (.new start)).build fuel

end Bongo
