import Verif.Model.Grammar
/-!
# src/start_grammar.rs

The wrapper that adds a start rule `Start => start:<s> EOS`.  Printing is in `Verif.Model.Pretty`.
-/
namespace Bongo

/-- src/start_grammar.rs:18-21 `enum StreamTerminal`. -/
inductive StreamTerminal (T : Type) where
  | endOfStream
  | term (t : T)
  deriving DecidableEq, Repr

namespace StreamTerminal
variable {T : Type}
/-- src/start_grammar.rs:17 `#[derive(Ord)]`: `EndOfStream < Term(_)`, then by content. -/
protected def cmp [Ord T] : StreamTerminal T → StreamTerminal T → Ordering
  | .endOfStream, .endOfStream => .eq
  | .endOfStream, .term _ => .lt
  | .term _, .endOfStream => .gt
  | .term a, .term b => compare a b
instance [Ord T] : Ord (StreamTerminal T) := ⟨StreamTerminal.cmp⟩

/-- src/start_grammar.rs:27-32 `StreamTerminal::has_kind`. -/
def hasKind [DecidableEq T] (s : StreamTerminal T) (kind : T) : Bool :=
  match s with
  | .term t => t == kind
  | .endOfStream => false

/-- src/start_grammar.rs:34-36 `StreamTerminal::is_eos`. -/
def isEos : StreamTerminal T → Bool
  | .endOfStream => true
  | .term _ => false
end StreamTerminal

/-- src/start_grammar.rs:58-61 `enum StartNonTerminal`. -/
inductive StartNonTerminal (NT : Type) where
  | start
  | nterm (nt : NT)
  deriving DecidableEq, Repr

namespace StartNonTerminal
variable {NT : Type}
/-- src/start_grammar.rs:57 `#[derive(Ord)]`: `Start < NTerm(_)`, then by content. -/
protected def cmp [Ord NT] : StartNonTerminal NT → StartNonTerminal NT → Ordering
  | .start, .start => .eq
  | .start, .nterm _ => .lt
  | .nterm _, .start => .gt
  | .nterm a, .nterm b => compare a b
instance [Ord NT] : Ord (StartNonTerminal NT) := ⟨StartNonTerminal.cmp⟩
end StartNonTerminal

/-- src/start_grammar.rs:82-85 `enum StartActionKey`. -/
inductive StartActionKey (AK : Type) where
  | start
  | actionKey (ak : AK)
  deriving DecidableEq, Repr

/-- src/start_grammar.rs:88-93 `StartActionKey::as_base`. -/
def StartActionKey.asBase {AK : Type} : StartActionKey AK → Option AK
  | .start => none
  | .actionKey ak => some ak

/-- src/start_grammar.rs:115-118 `enum StartActionValue`. -/
inductive StartActionValue (AV : Type) where
  | start
  | actionValue (av : AV)
  deriving DecidableEq, Repr

/-- src/start_grammar.rs:138-143 `type StartGrammar`. -/
abbrev StartGrammar (T NT AK AV : Type) :=
  Grammar (StreamTerminal T) (StartNonTerminal NT) (StartActionKey AK) (StartActionValue AV)

section
variable {T NT AK AV : Type}

/-- src/start_grammar.rs:150-159 `start_rule`. -/
def StartGrammar.startRule [Ord NT] (g : StartGrammar T NT AK AV) :
    Res (RuleInner (StreamTerminal T) (StartNonTerminal NT) (StartActionKey AK)
      (StartActionValue AV)) := Grammar.getRule g .start

/-- src/start_grammar.rs:161-171 `start_prod`. -/
def StartGrammar.startProd [Ord NT] (g : StartGrammar T NT AK AV) :
    Res (Prod (StreamTerminal T) (StartNonTerminal NT) (StartActionKey AK)
      (StartActionValue AV)) :=
  match StartGrammar.startRule g with
  | .ok r => Res.expect .startProd (takeOnly r.prodRefs)
  | .panic w => .panic w
  | .oof => .oof

/-- src/start_grammar.rs:174-181 `base_elem_to_start_elem`. -/
def baseElemToStartElem : Elem T NT → Elem (StreamTerminal T) (StartNonTerminal NT)
  | .term t => .term (.term t)
  | .nonterm nt => .nonterm (.nterm nt)

/-- The builder calls made by src/start_grammar.rs:190-222. -/
def wrapCalls (g : Grammar T NT AK AV) :
    List (GrammarOp (StreamTerminal T) (StartNonTerminal NT) (StartActionKey AK)
      (StartActionValue AV)) :=
  ⟨.start, [.addProd .start .start
    [.addNamedNonterm "start" (.nterm g.startSymbol), .addTerm .endOfStream]]⟩ ::
  g.rules.map fun rule =>
    ⟨.nterm rule.head, rule.prodRefs.map fun prod =>
      .addProdWithElems (.actionKey prod.actionKey) (.actionValue prod.actionValue)
        (prod.prodElements.map fun e => ⟨e.identifier, baseElemToStartElem e.element⟩)⟩

/-- src/start_grammar.rs:183-224 `wrap_grammar_with_start`. -/
def wrapGrammarWithStart [Ord NT] (fuel : Nat) (g : Grammar T NT AK AV) :
    Res (Except (GrammarErrors (StartNonTerminal NT)) (StartGrammar T NT AK AV)) :=
  buildGrammar fuel .start (wrapCalls g)
end
end Bongo
