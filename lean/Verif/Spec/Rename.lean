import Verif.Spec.Forest
import Verif.Spec.Earley
import Verif.Spec.Start
import Verif.Model.NonNull
/-!
# Specification: the same grammar with other names

A renaming gives every terminal, nonterminal, action key and action value of one set of types its
counterpart in another set of types.  The types may be ordered in any way on both sides: nothing here
speaks of the orders.
-/
namespace Bongo
set_option linter.unusedSectionVars false
variable {T NT AK AV V T' NT' AK' AV' V' : Type}

/-- What everything is called on the other side. -/
structure Renaming (T NT AK AV T' NT' AK' AV' : Type) where
  term : T → T'
  nonterm : NT → NT'
  key : AK → AK'
  value : AV → AV'

namespace Renaming
variable (ρ : Renaming T NT AK AV T' NT' AK' AV')

/-- Different terminals and different nonterminals stay different. -/
structure SymInjective : Prop where
  term : ∀ a b, ρ.term a = ρ.term b → a = b
  nonterm : ∀ a b, ρ.nonterm a = ρ.nonterm b → a = b

/-- Different terminals, nonterminals and action keys stay different.  (Action values are only carried
along.) -/
structure Injective : Prop extends ρ.SymInjective where
  key : ∀ a b, ρ.key a = ρ.key b → a = b

def elem : Elem T NT → Elem T' NT'
  | .term t => .term (ρ.term t)
  | .nonterm nt => .nonterm (ρ.nonterm nt)

def prodElement (e : ProdElement T NT) : ProdElement T' NT' := ⟨e.identifier, ρ.elem e.element⟩

def prodInner (p : ProdInner T NT AK AV) : ProdInner T' NT' AK' AV' :=
  ⟨ρ.key p.actionKey, ρ.value p.actionValue, p.elements.map ρ.prodElement⟩

def rule (r : RuleInner T NT AK AV) : RuleInner T' NT' AK' AV' :=
  ⟨ρ.nonterm r.head, r.prods.map ρ.prodInner⟩

def prod (p : Prod T NT AK AV) : Prod T' NT' AK' AV' := ⟨ρ.nonterm p.head, p.index, ρ.prodInner p.inner⟩

/-- The renaming of the symbols of the wrapped grammars: the end of the stream and the added start
symbol, action key and action value keep their names. -/
def start : Renaming (StreamTerminal T) (StartNonTerminal NT) (StartActionKey AK) (StartActionValue AV)
    (StreamTerminal T') (StartNonTerminal NT') (StartActionKey AK') (StartActionValue AV') where
  term
    | .endOfStream => .endOfStream
    | .term t => .term (ρ.term t)
  nonterm
    | .start => .start
    | .nterm nt => .nterm (ρ.nonterm nt)
  key
    | .start => .start
    | .actionKey ak => .actionKey (ρ.key ak)
  value
    | .start => .start
    | .actionValue av => .actionValue (ρ.value av)
end Renaming

/-- `g'` is `g` with the other names: it has the renamed start symbol and the renamed rules (listed in
whatever order its own nonterminals have). -/
def Grammar.RenamedTo (ρ : Renaming T NT AK AV T' NT' AK' AV') (g : Grammar T NT AK AV)
    (g' : Grammar T' NT' AK' AV') : Prop :=
  g'.startSymbol = ρ.nonterm g.startSymbol ∧ ∀ r', r' ∈ g'.rules ↔ ∃ r ∈ g.rules, r' = ρ.rule r

/-- The token with the other names. -/
def Token.renamed (fT : T → T') (fV : V → V') (tok : Token T V) : Token T' V' :=
  ⟨fT tok.kind, fV tok.value⟩

/-! ## Forests -/

/-- The same call, with the other names. -/
def TreeOp.renamed (fT : T → T') (fA : AK → AK') (fV : V → V') : TreeOp T AK V → TreeOp T' AK' V'
  | .makeNode t => .makeNode t
  | .makeLeafAlt t k v => .makeLeafAlt t (fT k) (fV v)
  | .makeBranchAlt t a ns => .makeBranchAlt t (fA a) ns
  | .addAlt n a => .addAlt n a
  | .addAll n m => .addAll n m
  | .alts n => .alts n
  | .content a => .content a
  | .kind l => .kind l
  | .value l => .value l
  | .action b => .action b
  | .nodes b => .nodes b

/-- The same answer, with the other names. -/
def TreeOut.renamed (fT : T → T') (fA : AK → AK') (fV : V → V') : TreeOut T AK V → TreeOut T' AK' V'
  | .node n => .node n
  | .alt a => .alt a
  | .changed c => .changed c
  | .alts l => .alts l
  | .view v => .view v
  | .kind k => .kind (fT k)
  | .value v => .value (fV v)
  | .action a => .action (fA a)
  | .nodes l => .nodes l

/-- The log with the other names: every handle in it is the same. -/
def TreeLog.renamed (fT : T → T') (fA : AK → AK') (fV : V → V') (log : TreeLog T AK V) :
    TreeLog T' AK' V' :=
  log.map fun c => (c.1.renamed fT fA fV, c.2.mapOut (TreeOut.renamed fT fA fV))

/-- Every call has the same outcome on both sides, up to names. -/
def World.AnswersAs [Ord T] [Ord AK] [Ord V] [Ord T'] [Ord AK'] [Ord V'] (fT : T → T') (fA : AK → AK')
    (fV : V → V') (w : World T AK V) (w' : World T' AK' V') : Prop :=
  ∀ op : TreeOp T AK V,
    ((op.renamed fT fA fV).exec w').2 = (op.exec w).2.mapOut (TreeOut.renamed fT fA fV)

mutual
/-- The tree with the other names. -/
def DTree.renamed (fT : T → T') (fA : AK → AK') (fV : V → V') :
    DTree (Token T V) AK → DTree (Token T' V') AK'
  | .leaf tok => .leaf (tok.renamed fT fV)
  | .node a cs => .node (fA a) (DTree.renameds fT fA fV cs)
def DTree.renameds (fT : T → T') (fA : AK → AK') (fV : V → V') :
    List (DTree (Token T V) AK) → List (DTree (Token T' V') AK')
  | [] => []
  | c :: cs => c.renamed fT fA fV :: DTree.renameds fT fA fV cs
end

/-! ## Builder calls and null trees -/

/-- The same call on a `ProductionBuilder`, with the other names. -/
def ProdOp.renamed (ρ : Renaming T NT AK AV T' NT' AK' AV') : ProdOp T NT → ProdOp T' NT'
  | .addTerm t => .addTerm (ρ.term t)
  | .addNamedTerm n t => .addNamedTerm n (ρ.term t)
  | .addNonterm nt => .addNonterm (ρ.nonterm nt)
  | .addNamedNonterm n nt => .addNamedNonterm n (ρ.nonterm nt)

/-- The same call on a `RuleBuilder`, with the other names. -/
def RuleOp.renamed (ρ : Renaming T NT AK AV T' NT' AK' AV') : RuleOp T NT AK AV → RuleOp T' NT' AK' AV'
  | .addProd k v calls => .addProd (ρ.key k) (ρ.value v) (calls.map (ProdOp.renamed ρ))
  | .addProdWithElems k v es => .addProdWithElems (ρ.key k) (ρ.value v) (es.map ρ.prodElement)

/-- The same `add_rule` call, with the other names. -/
def GrammarOp.renamed (ρ : Renaming T NT AK AV T' NT' AK' AV') (op : GrammarOp T NT AK AV) :
    GrammarOp T' NT' AK' AV' :=
  ⟨ρ.nonterm op.head, op.buildFn.map (RuleOp.renamed ρ)⟩

/-- The production key with the other names. -/
def ProdKey.renamed (ρ : Renaming T NT AK AV T' NT' AK' AV') (k : ProdKey NT AK) : ProdKey NT' AK' :=
  ⟨ρ.nonterm k.head, ρ.key k.actionKey⟩

mutual
/-- The null tree with the other names; the parameters keep theirs, and so their order. -/
def TreeNode.renamed (ρ : Renaming T NT AK AV T' NT' AK' AV') :
    TreeNode (ProdKey NT AK) → TreeNode (ProdKey NT' AK')
  | .mk k ps => .mk (k.renamed ρ) (TreeNode.renamedAll ρ ps)
def TreeNode.renamedAll (ρ : Renaming T NT AK AV T' NT' AK' AV') :
    List (Name × TreeNode (ProdKey NT AK)) → List (Name × TreeNode (ProdKey NT' AK'))
  | [] => []
  | (n, t) :: ps => (n, t.renamed ρ) :: TreeNode.renamedAll ρ ps
end

/-- The renaming of the symbols of the grammars made by `transform_to_nonnull`: keys keep their choices,
values have the renamed null trees under the same argument names. -/
def Renaming.nonnull (ρ : Renaming T NT AK AV T' NT' AK' AV') :
    Renaming T NT (NNActionKey AK) (NNActionValue NT AK AV) T' NT' (NNActionKey AK')
      (NNActionValue NT' AK' AV') where
  term := ρ.term
  nonterm := ρ.nonterm
  key k := ⟨ρ.key k.action, k.ntNullableStates⟩
  value v := ⟨ρ.value v.parentValue, TreeNode.renamedAll ρ v.nullableArguments⟩
end Bongo
