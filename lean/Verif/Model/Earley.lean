import Verif.Model.Start
import Verif.Model.State
import Verif.Model.Tree
import Verif.Model.TokenStream
/-!
# src/parsers/earley.rs and src/parsers/earley/state.rs

The Earley parser.  It uses one tree: all nodes it handles were made by the `tree_handle` it is
given, so a `Node` is modelled by its index and the tree by its `Inner`; `Proof/EarleyTree.lean`
proves that the operations used here are those of `Verif.Model.Tree` on that tree (in particular the
`is_same` assertions succeed).  `im::Vector` is a list.  Logging is not modelled; `Debug` is in `Verif.Model.Debug`.
-/
namespace Bongo
set_option linter.unusedSectionVars false
variable {T NT AK AV V : Type}

/-- A production of a start grammar. -/
abbrev SProd (T NT AK AV : Type) :=
  Prod (StreamTerminal T) (StartNonTerminal NT) (StartActionKey AK) (StartActionValue AV)

/-- A production state of a start grammar. -/
abbrev SProdState (T NT AK AV : Type) :=
  ProdState (StreamTerminal T) (StartNonTerminal NT) (StartActionKey AK) (StartActionValue AV)

/-! ## The tree operations used -/
namespace Inner
variable [Ord T] [Ord AK] [Ord V]

/-- src/parsers/tree.rs:286-291 `TreeHandle::make_leaf_node`, on the handle's own tree. -/
def makeLeafNode (i : Inner T AK V) (kind : T) (value : V) : Res (Inner T AK V × Nat) :=
  let r1 := i.makeNode
  let r2 := r1.1.makeAlt (.leaf kind value)
  match r2.1.addNodeAlt r1.2 r2.2 with
  | .ok (i', _) => .ok (i', r1.2)
  | .panic p => .panic p
  | .oof => .oof

/-- src/parsers/tree.rs:293-302 `TreeHandle::make_branch_node`, for nodes of the handle's own
tree. -/
def makeBranchNode (i : Inner T AK V) (action : AK) (nodes : List Nat) : Res (Inner T AK V × Nat) :=
  let r1 := i.makeNode
  let r2 := r1.1.makeAlt (.branch action nodes)
  match r2.1.addNodeAlt r1.2 r2.2 with
  | .ok (i', _) => .ok (i', r1.2)
  | .panic p => .panic p
  | .oof => .oof
end Inner

/-! ## States -/

/-- src/parsers/earley/state.rs:33-42 `struct EarleyStateKey`. -/
structure EarleyStateKey (T NT AK AV : Type) where
  prodState : SProdState T NT AK AV
  originIndex : Nat
  deriving DecidableEq, Repr

namespace EarleyStateKey
/-- The derived `Ord` of src/parsers/earley/state.rs:25-32: field by field (and `ProdState`'s `Ord`
does not look at the position). -/
def cmp (addr : StartNonTerminal NT → Nat → Nat) (a b : EarleyStateKey T NT AK AV) : Ordering :=
  (ProdState.cmp addr a.prodState b.prodState).then (compare a.originIndex b.originIndex)

/-- src/parsers/earley/state.rs:48-54 `EarleyStateKey::is_final_key`. -/
def isFinalKey (k : EarleyStateKey T NT AK AV) : Bool :=
  match k.prodState.nextElem.bind Elem.asTerm with
  | some t => t.isEos
  | none => false
end EarleyStateKey

/-- src/parsers/earley/state.rs:65-69 `struct EarleyState`. -/
structure EarleyState (T NT AK AV : Type) where
  key : EarleyStateKey T NT AK AV
  value : List Nat
  deriving DecidableEq, Repr

/-- src/parsers/earley/state.rs:227-230 `struct EarleyStateSet`. -/
abbrev EarleyStateSet (T NT AK AV : Type) := BMap (EarleyStateKey T NT AK AV) (List Nat)

/-- src/parsers/earley/state.rs:250-257 `EarleyStateSet::states`. -/
def EarleyStateSet.states (s : EarleyStateSet T NT AK AV) : List (EarleyState T NT AK AV) :=
  s.map fun kv => ⟨kv.1, kv.2⟩

namespace EarleyState
/-- src/parsers/earley/state.rs:71-88 `EarleyState::from_prod_start`. -/
def fromProdStart (prod : SProd T NT AK AV) (index : Nat) : EarleyState T NT AK AV :=
  ⟨⟨ProdState.fromStart prod, index⟩, []⟩

/-- src/parsers/earley/state.rs:90-100 `EarleyState::prod_state`. -/
def prodState (s : EarleyState T NT AK AV) : SProdState T NT AK AV := s.key.prodState

/-- src/parsers/earley/state.rs:102-109 `EarleyState::create_next_value`. -/
def createNextValue (s : EarleyState T NT AK AV) (node : Nat) : List Nat := s.value ++ [node]

/-- src/parsers/earley/state.rs:119-139 `EarleyState::scan`. -/
def scan [Ord T] [Ord AK] [Ord V] [DecidableEq T] (s : EarleyState T NT AK AV) (i : Inner T AK V)
    (tok : Token T V) : Res (Inner T AK V × Option (EarleyState T NT AK AV)) :=
  match s.prodState.nextElemState with
  | none => .ok (i, none)
  | some (e, ps) =>
    match e.element.asTerm with
    | none => .ok (i, none)
    | some t =>
      if t.hasKind tok.kind then
        match i.makeLeafNode tok.kind tok.value with
        | .ok (i', node) => .ok (i', some ⟨⟨ps, s.key.originIndex⟩, s.createNextValue node⟩)
        | .panic w => .panic w
        | .oof => .oof
      else .ok (i, none)

/-- src/parsers/earley/state.rs:149-169 `EarleyState::predict`; `prevLen` is
`prev_states.len()`. -/
def predict [Ord NT] (s : EarleyState T NT AK AV) (g : StartGrammar T NT AK AV) (prevLen : Nat) :
    List (EarleyState T NT AK AV) :=
  match s.prodState.nextElem.bind Elem.asNonterm with
  | none => []
  | some nt =>
    match g.tryGetRule nt with
    | none => []
    | some r => r.prodRefs.map fun p => ⟨⟨ProdState.fromStart p, prevLen⟩, []⟩

/-- src/parsers/earley/state.rs:186-206, the iterator chain of `complete` over the states of the
origin set. -/
def completeLoop [Ord T] [Ord AK] [Ord V] [DecidableEq NT] (s : EarleyState T NT AK AV) :
    List (EarleyState T NT AK AV) → Inner T AK V →
    Res (Inner T AK V × List (EarleyState T NT AK AV))
  | [], i => .ok (i, [])
  | st :: sts, i =>
    match st.prodState.nextElemState with
    | none => completeLoop s sts i
    | some (e, ps) =>
      match e.element.asNonterm with
      | none => completeLoop s sts i
      | some nt =>
        if nt = s.prodState.prod.head then
          match s.prodState.actionKey.asBase with
          | none => .panic .startActionKey
          | some ak =>
            match i.makeBranchNode ak s.value with
            | .ok (i', node) =>
              match completeLoop s sts i' with
              | .ok (i'', rest) =>
                .ok (i'', ⟨⟨ps, st.key.originIndex⟩, st.createNextValue node⟩ :: rest)
              | .panic w => .panic w
              | .oof => .oof
            | .panic w => .panic w
            | .oof => .oof
        else completeLoop s sts i

/-- src/parsers/earley/state.rs:171-210 `EarleyState::complete`. -/
def complete [Ord T] [Ord AK] [Ord V] [DecidableEq NT] (s : EarleyState T NT AK AV)
    (prev : List (EarleyStateSet T NT AK AV)) (curr : EarleyStateSet T NT AK AV)
    (i : Inner T AK V) : Res (Inner T AK V × List (EarleyState T NT AK AV)) :=
  if s.prodState.isComplete then
    if s.key.originIndex = prev.length then completeLoop s (EarleyStateSet.states curr) i
    else
      match prev[s.key.originIndex]? with
      | some origin => completeLoop s (EarleyStateSet.states origin) i
      | none => .panic .badOrigin
  else .ok (i, [])
end EarleyState

namespace EarleyStateSet
variable (addr : StartNonTerminal NT → Nat → Nat)

/-- src/parsers/earley/state.rs:288-307 `EarleyStateSet::insert`.  The key already in the set is
kept; the nodes of its value are the same nodes afterwards, with more alternatives. -/
def insert (st : Inner T AK V × EarleyStateSet T NT AK AV) (s : EarleyState T NT AK AV) :
    Res ((Inner T AK V × EarleyStateSet T NT AK AV) × WasChanged) :=
  match BMap.get? (EarleyStateKey.cmp addr) st.2 s.key with
  | none => .ok ((st.1, BMap.insert (EarleyStateKey.cmp addr) st.2 s.key s.value), .changed)
  | some existing =>
    if existing.length = s.value.length then
      match changeIterM (existing.zip s.value) (fun (i : Inner T AK V) en => i.addAll en.1 en.2)
          st.1 with
      | .ok (i', c) => .ok ((i', st.2), c)
      | .panic w => .panic w
      | .oof => .oof
    else .panic .lenMismatch

/-- src/parsers/earley/state.rs:277-286 `EarleyStateSet::from_states`, for states that are ready. -/
def fromStates (l : List (EarleyState T NT AK AV)) (st : Inner T AK V × EarleyStateSet T NT AK AV) :
    Res (Inner T AK V × EarleyStateSet T NT AK AV) :=
  match l with
  | [] => .ok st
  | s :: l =>
    match insert addr st s with
    | .ok (st', _) => fromStates l st'
    | .panic w => .panic w
    | .oof => .oof

/-- src/parsers/earley/state.rs:267-275 `EarleyStateSet::new_start`. -/
def newStart [Ord NT] (g : StartGrammar T NT AK AV) (i : Inner T AK V) :
    Res (Inner T AK V × EarleyStateSet T NT AK AV) :=
  match g.getRule g.startSymbol with
  | .ok r => fromStates addr (r.prodRefs.map fun p => EarleyState.fromProdStart p 0) (i, [])
  | .panic w => .panic w
  | .oof => .oof

/-- src/parsers/earley/state.rs:309-320 `EarleyStateSet::shift`: `from_states` (277-286) over an
iterator that scans each state when it is asked for it. -/
def shift [Ord T] [Ord AK] [Ord V] [DecidableEq T] (tok : Token T V)
    (l : List (EarleyState T NT AK AV)) (st : Inner T AK V × EarleyStateSet T NT AK AV) :
    Res (Inner T AK V × EarleyStateSet T NT AK AV) :=
  match l with
  | [] => .ok st
  | s :: l =>
    match s.scan st.1 tok with
    | .ok (i', none) => shift tok l (i', st.2)
    | .ok (i', some s') =>
      match insert addr (i', st.2) s' with
      | .ok (st', _) => shift tok l st'
      | .panic w => .panic w
      | .oof => .oof
    | .panic w => .panic w
    | .oof => .oof

/-- src/parsers/earley/state.rs:322-331 `EarleyStateSet::get_final`. -/
def getFinal : EarleyStateSet T NT AK AV → Res (Option Nat)
  | [] => .ok none
  | (k, v) :: s =>
    if k.isFinalKey then
      match v with
      | [n] => .ok (some n)
      | _ => .panic .finalLen
    else getFinal s
end EarleyStateSet

/-! ## The parser -/
section parser
variable [Ord T] [Ord NT] [Ord AK] [Ord V] [DecidableEq T] [DecidableEq NT]
variable (addr : StartNonTerminal NT → Nat → Nat) (g : StartGrammar T NT AK AV)

/-- src/parsers/earley.rs:47-54, the states one pass of `close_state` produces. -/
def closureStates (prev : List (EarleyStateSet T NT AK AV)) (curr : EarleyStateSet T NT AK AV) :
    List (EarleyState T NT AK AV) → Inner T AK V →
    Res (Inner T AK V × List (EarleyState T NT AK AV))
  | [], i => .ok (i, [])
  | s :: l, i =>
    match s.complete prev curr i with
    | .ok (i', completed) =>
      match closureStates prev curr l i' with
      | .ok (i'', rest) => .ok (i'', s.predict g prev.length ++ completed ++ rest)
      | .panic w => .panic w
      | .oof => .oof
    | .panic w => .panic w
    | .oof => .oof

/-- src/parsers/earley.rs:46-57, the closure given to `change_loop`. -/
def closePass (prev : List (EarleyStateSet T NT AK AV))
    (st : Inner T AK V × EarleyStateSet T NT AK AV) :
    Res ((Inner T AK V × EarleyStateSet T NT AK AV) × WasChanged) :=
  match closureStates g prev st.2 (EarleyStateSet.states st.2) st.1 with
  | .ok (i', closure) => changeIterM closure (EarleyStateSet.insert addr) (i', st.2)
  | .panic w => .panic w
  | .oof => .oof

/-- src/parsers/earley.rs:34-58 `close_state`. -/
def closeState (fuel : Nat) (prev : List (EarleyStateSet T NT AK AV))
    (st : Inner T AK V × EarleyStateSet T NT AK AV) :
    Res (Inner T AK V × EarleyStateSet T NT AK AV) :=
  if st.2.isEmpty then .panic .emptyState else changeLoop fuel (closePass addr g prev) st

/-- src/parsers/earley.rs:78-84, the loop over the tokens.  The `states` of the code are `before`
and then `last`. -/
def parseLoop (fuel : Nat) (before : List (EarleyStateSet T NT AK AV))
    (last : EarleyStateSet T NT AK AV) (i : Inner T AK V) :
    List (Token T V) → Res (Inner T AK V × EarleyStateSet T NT AK AV)
  | [] => .ok (i, last)
  | tok :: toks =>
    match EarleyStateSet.shift addr tok (EarleyStateSet.states last) (i, []) with
    | .ok st =>
      match closeState addr g fuel (before ++ [last]) st with
      | .ok (i', new) => parseLoop fuel (before ++ [last]) new i' toks
      | .panic w => .panic w
      | .oof => .oof
    | .panic w => .panic w
    | .oof => .oof

/-- src/parsers/earley.rs:60-88 `parse`, on the contents of the tree: the new contents and the
returned node. -/
def parseInner (fuel : Nat) (i : Inner T AK V) (toks : List (Token T V)) :
    Res (Inner T AK V × Option Nat) :=
  match EarleyStateSet.newStart addr g i with
  | .ok st =>
    match closeState addr g fuel [] st with
    | .ok (i', init) =>
      match parseLoop addr g fuel [] init i' toks with
      | .ok (i'', last) =>
        match EarleyStateSet.getFinal last with
        | .ok n => .ok (i'', n)
        | .panic w => .panic w
        | .oof => .oof
      | .panic w => .panic w
      | .oof => .oof
    | .panic w => .panic w
    | .oof => .oof
  | .panic w => .panic w
  | .oof => .oof

/-- src/parsers/earley.rs:60-88 `parse` with the handle of tree `t`. -/
def parse (fuel : Nat) (w : World T AK V) (t : Nat) (toks : List (Token T V)) :
    Res (World T AK V × Option Node) :=
  match parseInner addr g fuel (w t) toks with
  | .ok (i, n) => .ok (w.set t i, n.map (⟨·, t⟩))
  | .panic w => .panic w
  | .oof => .oof
end parser
end Bongo
