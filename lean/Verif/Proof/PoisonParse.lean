import Verif.Model.Poison
import Verif.Proof.EarleyProg
/-!
# The calls of the parser are on one tree
-/
set_option linter.unusedSectionVars false
namespace Bongo
open Std
variable {T NT AK AV V : Type}

/-- All calls are on the tree: they write to it, and it is the only one whose lock they take. -/
inductive OnTree (t : Nat) {α : Type} : TreeProg T AK V α → Prop where
  | ret (a : α) : OnTree t (.ret a)
  | panic (p : Panic) : OnTree t (.panic p)
  | oof : OnTree t .oof
  | call {op : TreeOp T AK V} {k} : op.target = some t → (∀ t' ∈ op.locks, t' = t) →
      (∀ o, OnTree t (k o)) → OnTree t (.call op k)

namespace OnTree
variable {t : Nat}

theorem bind {α β : Type} {p : TreeProg T AK V α} {f : α → TreeProg T AK V β} (hp : OnTree t p)
    (hf : ∀ a, OnTree t (f a)) : OnTree t (p >>= f) := by
  show OnTree t (p.bind f)
  induction hp with
  | ret a => exact hf a
  | panic p => exact .panic p
  | oof => exact .oof
  | call h1 h2 _ ih => exact .call h1 h2 ih

theorem pure {α : Type} (a : α) : OnTree t (Pure.pure a : TreeProg T AK V α) := .ret a

theorem locks_makeNode : ∀ t' ∈ (TreeOp.makeNode t : TreeOp T AK V).locks, t' = t := by
  simp [TreeOp.locks, TreeOp.lockCall, LockCall.acts, lockWithMut, LockAct.acquires]

theorem locks_leafAlt {k : T} {v : V} :
    ∀ t' ∈ (TreeOp.makeLeafAlt t k v : TreeOp T AK V).locks, t' = t := by
  simp [TreeOp.locks, TreeOp.lockCall, LockCall.acts, lockWithMut, LockAct.acquires]

theorem locks_check (ns : List Nat) :
    ∀ t' ∈ (lockCheckNodes t (ns.map fun _ => (t, []))).1.filterMap LockAct.acquires, t' = t := by
  induction ns with
  | nil => simp [lockCheckNodes]
  | cons n ns ih =>
    have e : (lockCheckNodes t ((n :: ns).map fun _ => (t, []))).1 =
        [.acqR t, .relR t] ++ (lockCheckNodes t (ns.map fun _ => (t, []))).1 := by
      simp [lockCheckNodes, World.isSame, lockIsSame, lockWith]
    intro t' h
    rw [e, List.filterMap_append, List.mem_append] at h
    rcases h with h | h
    · simpa [LockAct.acquires] using h
    · exact ih t' h

theorem locks_branchAlt {a : AK} {ns : List Nat} :
    ∀ t' ∈ (TreeOp.makeBranchAlt t a (ns.map (⟨·, t⟩)) : TreeOp T AK V).locks, t' = t := by
  intro t' h
  have hc := locks_check (t := t) ns t'
  simp only [TreeOp.locks, TreeOp.lockCall, LockCall.acts, lockBranchAlt, lockWith, lockWithMut,
    List.map_map, Function.comp_def, List.filterMap_append, List.mem_append] at h
  rcases h with ((h | h) | h) | h
  · simpa [LockAct.acquires] using h
  · exact hc ‹_›
  · simp [LockAct.acquires] at h
  · split at h <;> simp [LockAct.acquires] at h
    exact h

theorem locks_addAlt {n a : Nat} :
    ∀ t' ∈ (TreeOp.addAlt ⟨n, t⟩ ⟨a, t⟩ : TreeOp T AK V).locks, t' = t := by
  simp [TreeOp.locks, TreeOp.lockCall, LockCall.acts, lockAdd, lockIsSame, lockWith, lockWithMut,
    LockAct.acquires, World.isSame]

theorem locks_addAll {n a : Nat} :
    ∀ t' ∈ (TreeOp.addAll ⟨n, t⟩ ⟨a, t⟩ : TreeOp T AK V).locks, t' = t := by
  simp [TreeOp.locks, TreeOp.lockCall, LockCall.acts, lockAdd, lockIsSame, lockWith, lockWithMut,
    LockAct.acquires, World.isSame]

theorem callNode {op : TreeOp T AK V} (h1 : op.target = some t) (h2 : ∀ t' ∈ op.locks, t' = t) :
    OnTree t (TreeProg.callNode op) := by
  refine .call h1 h2 fun o => ?_
  cases o <;> first | exact .ret _ | exact .oof

theorem callAlt {op : TreeOp T AK V} (h1 : op.target = some t) (h2 : ∀ t' ∈ op.locks, t' = t) :
    OnTree t (TreeProg.callAlt op) := by
  refine .call h1 h2 fun o => ?_
  cases o <;> first | exact .ret _ | exact .oof

theorem callChanged {op : TreeOp T AK V} (h1 : op.target = some t) (h2 : ∀ t' ∈ op.locks, t' = t) :
    OnTree t (TreeProg.callChanged op) := by
  refine .call h1 h2 fun o => ?_
  cases o <;> first | exact .ret _ | exact .oof

theorem leafNode (k : T) (v : V) : OnTree t (TreeProg.makeLeafNode (AK := AK) t k v) :=
  bind (callNode rfl locks_makeNode) fun _ => bind (callAlt rfl locks_leafAlt) fun _ =>
    bind (callChanged rfl locks_addAlt) fun _ => pure _

theorem branchNode (a : AK) (ns : List Nat) :
    OnTree t (TreeProg.makeBranchNode (T := T) (V := V) t a ns) :=
  bind (callNode rfl locks_makeNode) fun _ => bind (callAlt rfl locks_branchAlt) fun _ =>
    bind (callChanged rfl locks_addAlt) fun _ => pure _

theorem addAll (n m : Nat) : OnTree t (TreeProg.addAll (T := T) (AK := AK) (V := V) t n m) :=
  callChanged rfl locks_addAll

theorem changeIter {ι S : Type} {f : S → ι → TreeProg T AK V (S × WasChanged)}
    (hf : ∀ s i, OnTree t (f s i)) (l : List ι) :
    ∀ s acc, OnTree t (TreeProg.changeIter l f s acc) := by
  induction l with
  | nil => exact fun _ _ => .ret _
  | cons i l ih => exact fun s acc => bind (hf s i) fun r => ih _ _

theorem changeLoop {S : Type} {f : S → TreeProg T AK V (S × WasChanged)}
    (hf : ∀ s, OnTree t (f s)) (fuel : Nat) : ∀ s, OnTree t (TreeProg.changeLoop fuel f s) := by
  induction fuel with
  | zero => exact fun _ => .oof
  | succ fuel ih =>
    intro s
    refine bind (hf s) fun r => ?_
    cases h : r.2 with
    | changed => simp only; exact ih _
    | unchanged => exact .ret _

variable [Ord T] [Ord NT] [DecidableEq T] [DecidableEq NT]
variable {addr : StartNonTerminal NT → Nat → Nat} {g : StartGrammar T NT AK AV}

theorem scan (s : EarleyState T NT AK AV) (tok : Token T V) : OnTree t (s.scanProg t tok) := by
  unfold EarleyState.scanProg
  split
  · exact .ret _
  · split
    · exact .ret _
    · split
      · exact bind (leafNode _ _) fun _ => pure _
      · exact .ret _

theorem completeLoop (s : EarleyState T NT AK AV) (l : List (EarleyState T NT AK AV)) :
    OnTree t (EarleyState.completeLoopProg (V := V) t s l) := by
  induction l with
  | nil => exact .ret _
  | cons st l ih =>
    unfold EarleyState.completeLoopProg
    split
    · exact ih
    · split
      · exact ih
      · split
        · split
          · exact .panic _
          · exact bind (branchNode _ _) fun _ => bind ih fun _ => pure _
        · exact ih

theorem complete (s : EarleyState T NT AK AV) (prev : List (EarleyStateSet T NT AK AV))
    (curr : EarleyStateSet T NT AK AV) : OnTree t (s.completeProg (V := V) t prev curr) := by
  unfold EarleyState.completeProg
  split
  · split
    · exact completeLoop _ _
    · split
      · exact completeLoop _ _
      · exact .panic _
  · exact .ret _

theorem insert (set : EarleyStateSet T NT AK AV) (s : EarleyState T NT AK AV) :
    OnTree t (EarleyStateSet.insertProg (V := V) addr t set s) := by
  unfold EarleyStateSet.insertProg
  split
  · exact .ret _
  · split
    · exact bind (changeIter (fun _ _ => bind (addAll _ _) fun _ => pure _) _ _ _) fun _ => pure _
    · exact .panic _

theorem fromStates (l : List (EarleyState T NT AK AV)) : ∀ set,
    OnTree t (EarleyStateSet.fromStatesProg (V := V) addr t l set) := by
  induction l with
  | nil => exact fun _ => .ret _
  | cons s l ih => exact fun set => bind (insert _ _) fun _ => ih _

theorem newStart : OnTree t (EarleyStateSet.newStartProg (V := V) addr t g) := by
  unfold EarleyStateSet.newStartProg
  split
  · exact fromStates _ _
  · exact .panic _
  · exact .oof

theorem shift (tok : Token T V) (l : List (EarleyState T NT AK AV)) : ∀ set,
    OnTree t (EarleyStateSet.shiftProg addr t tok l set) := by
  induction l with
  | nil => exact fun _ => .ret _
  | cons s l ih =>
    intro set
    refine bind (scan _ _) fun r => ?_
    cases r with
    | none => exact ih _
    | some s' => exact bind (insert _ _) fun _ => ih _

theorem closureStates (prev : List (EarleyStateSet T NT AK AV)) (curr : EarleyStateSet T NT AK AV)
    (l : List (EarleyState T NT AK AV)) : OnTree t (closureStatesProg (V := V) g t prev curr l) := by
  induction l with
  | nil => exact .ret _
  | cons s l ih => exact bind (complete _ _ _) fun _ => bind ih fun _ => pure _

theorem closePass (prev : List (EarleyStateSet T NT AK AV)) (set : EarleyStateSet T NT AK AV) :
    OnTree t (closePassProg (V := V) addr g t prev set) :=
  bind (closureStates _ _ _) fun _ => changeIter (fun _ _ => insert _ _) _ _ _

theorem closeState (fuel : Nat) (prev : List (EarleyStateSet T NT AK AV))
    (set : EarleyStateSet T NT AK AV) : OnTree t (closeStateProg (V := V) addr g t fuel prev set) := by
  unfold closeStateProg
  split
  · exact .panic _
  · exact changeLoop (fun _ => closePass _ _) _ _

theorem parseLoop (fuel : Nat) (toks : List (Token T V)) : ∀ before last,
    OnTree t (parseLoopProg addr g t fuel before last toks) := by
  induction toks with
  | nil => exact fun _ _ => .ret _
  | cons tok toks ih => exact fun _ _ => bind (shift _ _ _) fun _ => bind (closeState _ _ _) fun _ => ih _ _

theorem parse (fuel : Nat) (toks : List (Token T V)) : OnTree t (parseProg addr g t fuel toks) := by
  refine bind newStart fun _ => bind (closeState _ _ _) fun _ => bind (parseLoop _ _ _ _) fun _ => ?_
  split
  · exact .ret _
  · exact .panic _
  · exact .oof
end OnTree
end Bongo
