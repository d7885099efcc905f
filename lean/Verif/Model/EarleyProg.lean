import Verif.Model.Earley
import Verif.Spec.Forest
/-!
# src/parsers/earley.rs, as the calls it makes on a tree that others use too

`Verif.Model.Earley` runs the parser on the contents of a tree that nobody else uses.  Here the same
code is the sequence of the calls it makes on the tree, each answered by the memory as it is at that
moment; between two calls other threads may have used the tree.  (A call itself behaves as if it were
atomic: `concurrent_calls_linearize`.)  The definitions follow those of `Verif.Model.Earley` line by
line; `parseProg_run` proves that without other threads they are the same.
-/
namespace Bongo
set_option linter.unusedSectionVars false
variable {T NT AK AV V : Type}

/-- Code that calls tree operations: it has returned, panicked or run out of fuel, or makes a call and
goes on with its result.  The operations are those of src/parsers/tree.rs:276-411. -/
inductive TreeProg (T AK V α : Type) where
  | ret (a : α)
  | panic (p : Panic)
  | oof
  | call (op : TreeOp T AK V) (k : TreeOut T AK V → TreeProg T AK V α)

namespace TreeProg
/-- Go on with the result; a panic ends it (vocabulary, not a file of /repo). -/
protected def bind {α β : Type} (p : TreeProg T AK V α) (f : α → TreeProg T AK V β) :
    TreeProg T AK V β :=
  match p with
  | .ret a => f a
  | .panic w => .panic w
  | .oof => .oof
  | .call op k => .call op fun o => (k o).bind f

instance : Monad (TreeProg T AK V) where
  pure := .ret
  bind := TreeProg.bind

/-- A call that returns a node, src/parsers/tree.rs:276-284.  (No other result is possible.) -/
def callNode (op : TreeOp T AK V) : TreeProg T AK V Nat :=
  .call op fun
    | .node n => .ret n.index
    | _ => .oof

/-- A call that returns an alternative, src/parsers/tree.rs:318-345.  (No other result is
possible.) -/
def callAlt (op : TreeOp T AK V) : TreeProg T AK V Nat :=
  .call op fun
    | .alt a => .ret a.index
    | _ => .oof

/-- A call that returns a `WasChanged`, src/parsers/tree.rs:379-385, 402-411.  (No other result is
possible.) -/
def callChanged (op : TreeOp T AK V) : TreeProg T AK V WasChanged :=
  .call op fun
    | .changed c => .ret c
    | _ => .oof

/-- src/parsers/tree.rs:286-291 `TreeHandle::make_leaf_node`. -/
def makeLeafNode (t : Nat) (kind : T) (value : V) : TreeProg T AK V Nat := do
  let n ← callNode (.makeNode t)
  let a ← callAlt (.makeLeafAlt t kind value)
  let _ ← callChanged (.addAlt ⟨n, t⟩ ⟨a, t⟩)
  pure n

/-- src/parsers/tree.rs:293-302 `TreeHandle::make_branch_node`, for nodes of the handle's own tree. -/
def makeBranchNode (t : Nat) (action : AK) (nodes : List Nat) : TreeProg T AK V Nat := do
  let n ← callNode (.makeNode t)
  let a ← callAlt (.makeBranchAlt t action (nodes.map (⟨·, t⟩)))
  let _ ← callChanged (.addAlt ⟨n, t⟩ ⟨a, t⟩)
  pure n

/-- src/parsers/tree.rs:402-411 `Node::add_all`. -/
def addAll (t n other : Nat) : TreeProg T AK V WasChanged := callChanged (.addAll ⟨n, t⟩ ⟨other, t⟩)

/-- src/utils.rs:241-252 `change_iter`. -/
def changeIter {ι S : Type} (l : List ι) (f : S → ι → TreeProg T AK V (S × WasChanged)) (s : S)
    (acc : WasChanged := .unchanged) : TreeProg T AK V (S × WasChanged) :=
  match l with
  | [] => .ret (s, acc)
  | i :: l => f s i >>= fun r => changeIter l f r.1 (acc.join r.2)

/-- src/utils.rs:234-239 `change_loop`. -/
def changeLoop {S : Type} (fuel : Nat) (f : S → TreeProg T AK V (S × WasChanged)) (s : S) :
    TreeProg T AK V S :=
  match fuel with
  | 0 => .oof
  | fuel + 1 => f s >>= fun r =>
    match r.2 with
    | .changed => changeLoop fuel f r.1
    | .unchanged => .ret r.1
end TreeProg

namespace EarleyState
/-- src/parsers/earley/state.rs:119-139 `EarleyState::scan`. -/
def scanProg [DecidableEq T] (t : Nat) (s : EarleyState T NT AK AV) (tok : Token T V) :
    TreeProg T AK V (Option (EarleyState T NT AK AV)) :=
  match s.prodState.nextElemState with
  | none => .ret none
  | some (e, ps) =>
    match e.element.asTerm with
    | none => .ret none
    | some tm =>
      if tm.hasKind tok.kind then do
        let node ← TreeProg.makeLeafNode t tok.kind tok.value
        pure (some ⟨⟨ps, s.key.originIndex⟩, s.createNextValue node⟩)
      else .ret none

/-- src/parsers/earley/state.rs:186-206, the iterator chain of `complete` over the states of the
origin set. -/
def completeLoopProg [DecidableEq NT] (t : Nat) (s : EarleyState T NT AK AV) :
    List (EarleyState T NT AK AV) → TreeProg T AK V (List (EarleyState T NT AK AV))
  | [] => .ret []
  | st :: sts =>
    match st.prodState.nextElemState with
    | none => completeLoopProg t s sts
    | some (e, ps) =>
      match e.element.asNonterm with
      | none => completeLoopProg t s sts
      | some nt =>
        if nt = s.prodState.prod.head then
          match s.prodState.actionKey.asBase with
          | none => .panic .startActionKey
          | some ak => do
            let node ← TreeProg.makeBranchNode t ak s.value
            let rest ← completeLoopProg t s sts
            pure (⟨⟨ps, st.key.originIndex⟩, st.createNextValue node⟩ :: rest)
        else completeLoopProg t s sts

/-- src/parsers/earley/state.rs:171-210 `EarleyState::complete`. -/
def completeProg [DecidableEq NT] (t : Nat) (s : EarleyState T NT AK AV)
    (prev : List (EarleyStateSet T NT AK AV)) (curr : EarleyStateSet T NT AK AV) :
    TreeProg T AK V (List (EarleyState T NT AK AV)) :=
  if s.prodState.isComplete then
    if s.key.originIndex = prev.length then completeLoopProg t s (EarleyStateSet.states curr)
    else
      match prev[s.key.originIndex]? with
      | some origin => completeLoopProg t s (EarleyStateSet.states origin)
      | none => .panic .badOrigin
  else .ret []
end EarleyState

namespace EarleyStateSet
variable (addr : StartNonTerminal NT → Nat → Nat)

/-- src/parsers/earley/state.rs:288-307 `EarleyStateSet::insert`. -/
def insertProg (t : Nat) (set : EarleyStateSet T NT AK AV) (s : EarleyState T NT AK AV) :
    TreeProg T AK V (EarleyStateSet T NT AK AV × WasChanged) :=
  match BMap.get? (EarleyStateKey.cmp addr) set s.key with
  | none => .ret (BMap.insert (EarleyStateKey.cmp addr) set s.key s.value, .changed)
  | some existing =>
    if existing.length = s.value.length then do
      let r ← TreeProg.changeIter (existing.zip s.value)
        (fun (_ : Unit) en => do let c ← TreeProg.addAll t en.1 en.2; pure ((), c)) ()
      pure (set, r.2)
    else .panic .lenMismatch

/-- src/parsers/earley/state.rs:277-286 `EarleyStateSet::from_states`, for states that are ready. -/
def fromStatesProg (t : Nat) (l : List (EarleyState T NT AK AV)) (set : EarleyStateSet T NT AK AV) :
    TreeProg T AK V (EarleyStateSet T NT AK AV) :=
  match l with
  | [] => .ret set
  | s :: l => insertProg addr t set s >>= fun r => fromStatesProg t l r.1

/-- src/parsers/earley/state.rs:267-275 `EarleyStateSet::new_start`. -/
def newStartProg [Ord NT] (t : Nat) (g : StartGrammar T NT AK AV) :
    TreeProg T AK V (EarleyStateSet T NT AK AV) :=
  match g.getRule g.startSymbol with
  | .ok r => fromStatesProg addr t (r.prodRefs.map fun p => EarleyState.fromProdStart p 0) []
  | .panic w => .panic w
  | .oof => .oof

/-- src/parsers/earley/state.rs:309-320 `EarleyStateSet::shift`. -/
def shiftProg [DecidableEq T] (t : Nat) (tok : Token T V) (l : List (EarleyState T NT AK AV))
    (set : EarleyStateSet T NT AK AV) : TreeProg T AK V (EarleyStateSet T NT AK AV) :=
  match l with
  | [] => .ret set
  | s :: l => s.scanProg t tok >>= fun r =>
    match r with
    | none => shiftProg t tok l set
    | some s' => insertProg addr t set s' >>= fun r => shiftProg t tok l r.1
end EarleyStateSet

section parser
variable [Ord T] [Ord NT] [DecidableEq T] [DecidableEq NT]
variable (addr : StartNonTerminal NT → Nat → Nat) (g : StartGrammar T NT AK AV)

/-- src/parsers/earley.rs:47-54, the states one pass of `close_state` produces. -/
def closureStatesProg (t : Nat) (prev : List (EarleyStateSet T NT AK AV))
    (curr : EarleyStateSet T NT AK AV) :
    List (EarleyState T NT AK AV) → TreeProg T AK V (List (EarleyState T NT AK AV))
  | [] => .ret []
  | s :: l => do
    let completed ← s.completeProg t prev curr
    let rest ← closureStatesProg t prev curr l
    pure (s.predict g prev.length ++ completed ++ rest)

/-- src/parsers/earley.rs:46-57, the closure given to `change_loop`. -/
def closePassProg (t : Nat) (prev : List (EarleyStateSet T NT AK AV))
    (set : EarleyStateSet T NT AK AV) : TreeProg T AK V (EarleyStateSet T NT AK AV × WasChanged) := do
  let closure ← closureStatesProg g t prev set (EarleyStateSet.states set)
  TreeProg.changeIter closure (EarleyStateSet.insertProg addr t) set

/-- src/parsers/earley.rs:34-58 `close_state`. -/
def closeStateProg (t fuel : Nat) (prev : List (EarleyStateSet T NT AK AV))
    (set : EarleyStateSet T NT AK AV) : TreeProg T AK V (EarleyStateSet T NT AK AV) :=
  if set.isEmpty then .panic .emptyState
  else TreeProg.changeLoop fuel (closePassProg addr g t prev) set

/-- src/parsers/earley.rs:78-84, the loop over the tokens. -/
def parseLoopProg (t fuel : Nat) (before : List (EarleyStateSet T NT AK AV))
    (last : EarleyStateSet T NT AK AV) :
    List (Token T V) → TreeProg T AK V (EarleyStateSet T NT AK AV)
  | [] => .ret last
  | tok :: toks => do
    let shifted ← EarleyStateSet.shiftProg addr t tok (EarleyStateSet.states last) []
    let new ← closeStateProg addr g t fuel (before ++ [last]) shifted
    parseLoopProg t fuel (before ++ [last]) new toks

/-- src/parsers/earley.rs:60-88 `parse` with the handle of tree `t`. -/
def parseProg (t fuel : Nat) (toks : List (Token T V)) : TreeProg T AK V (Option Node) := do
  let start ← EarleyStateSet.newStartProg addr t g
  let init ← closeStateProg addr g t fuel [] start
  let last ← parseLoopProg addr g t fuel [] init toks
  match EarleyStateSet.getFinal last with
  | .ok n => .ret (n.map (⟨·, t⟩))
  | .panic w => .panic w
  | .oof => .oof
end parser

/-! ## Running it -/

/-- Code running in one thread, the memory, and the handles the other threads have. -/
structure Running (T AK V α : Type) where
  prog : TreeProg T AK V α
  world : World T AK V
  others : List Handle

/-- The thread makes its next call (src/parsers/tree.rs:276-561); a panicking call ends it. -/
inductive OwnStep [Ord T] [Ord AK] [Ord V] {α : Type} : Running T AK V α → Running T AK V α → Prop where
  | call {op : TreeOp T AK V} {k : TreeOut T AK V → TreeProg T AK V α} {w w' : World T AK V}
      {others : List Handle} {o : TreeOut T AK V} : op.exec w = (w', .ok o) →
      OwnStep ⟨.call op k, w, others⟩ ⟨k o, w', others⟩
  | panic {op : TreeOp T AK V} {k : TreeOut T AK V → TreeProg T AK V α} {w w' : World T AK V}
      {others : List Handle} {p : Panic} : op.exec w = (w', .panic p) →
      OwnStep ⟨.call op k, w, others⟩ ⟨.panic p, w', others⟩

/-- Another thread makes a call with handles the other threads have, or creates a tree owner
(src/parsers/tree.rs:190-217, 276-561). -/
inductive OtherStep [Ord T] [Ord AK] [Ord V] {α : Type} :
    Running T AK V α → Running T AK V α → Prop where
  | call {prog : TreeProg T AK V α} {w : World T AK V} {others : List Handle} (op : TreeOp T AK V) :
      op.Allowed others →
      OtherStep ⟨prog, w, others⟩ ⟨prog, (op.exec w).1, TreeOut.gives (op.exec w).2 ++ others⟩
  | newOwner {prog : TreeProg T AK V α} {w : World T AK V} {others : List Handle} (t : Nat) :
      (∀ h ∈ others, h.owner ≠ t) → OtherStep ⟨prog, w, others⟩ ⟨prog, w, .tree t :: others⟩

/-- Any schedule (a step at a time, from src/parsers/tree.rs:253-267: one thread has the lock);
`n` counts the steps of the thread itself. -/
inductive SharedRuns [Ord T] [Ord AK] [Ord V] {α : Type} (c : Running T AK V α) :
    Nat → Running T AK V α → Prop where
  | start : SharedRuns c 0 c
  | own {n : Nat} {d e : Running T AK V α} : SharedRuns c n d → OwnStep d e → SharedRuns c (n + 1) e
  | other {n : Nat} {d e : Running T AK V α} : SharedRuns c n d → OtherStep d e → SharedRuns c n e

/-- Run alone: the memory afterwards, also after a panic, and the result (src/parsers/tree.rs:253-267:
each call sees what the previous ones wrote). -/
def TreeProg.run [Ord T] [Ord AK] [Ord V] {α : Type} (w : World T AK V) :
    TreeProg T AK V α → World T AK V × Res α
  | .ret a => (w, .ok a)
  | .panic p => (w, .panic p)
  | .oof => (w, .oof)
  | .call op k =>
    match op.exec w with
    | (w', .ok o) => (k o).run w'
    | (w', .panic p) => (w', .panic p)
    | (w', .oof) => (w', .oof)

/-- Run alone: the number of calls made (src/parsers/tree.rs:276-561). -/
def TreeProg.calls [Ord T] [Ord AK] [Ord V] {α : Type} (w : World T AK V) : TreeProg T AK V α → Nat
  | .call op k =>
    match op.exec w with
    | (w', .ok o) => (k o).calls w' + 1
    | _ => 1
  | _ => 0
end Bongo
