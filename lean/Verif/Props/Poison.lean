import Verif.Model.Poison
import Verif.Props.Shared
import Verif.Proof.PoisonParse
/-!
# C117: functions of the user that panic inside calls on trees
-/
set_option linter.unusedSectionVars false
namespace Bongo
open Std
variable {T AK V : Type} [Ord T] [Ord AK] [Ord V]

/-! ## Locks -/

theorem mem_locks_branch {t : Nat} {a : AK} {ns : List Node} :
    t ∈ (TreeOp.makeBranchAlt t a ns : TreeOp T AK V).locks := by
  simp [TreeOp.locks, TreeOp.lockCall, LockCall.acts, lockBranchAlt, lockWith, LockAct.acquires]

theorem locks_branch_head {t : Nat} {a : AK} {ns : List Node} :
    (TreeOp.makeBranchAlt t a ns : TreeOp T AK V).locks.head? = some t := by
  simp [TreeOp.locks, TreeOp.lockCall, LockCall.acts, lockBranchAlt, lockWith, LockAct.acquires]

/-- The trees of the objects of a call that mixes no trees: their locks are the ones it takes. -/
theorem target_mem_locks {op : TreeOp T AK V} {t : Nat} (h : op.target = some t) : t ∈ op.locks := by
  cases op <;> simp only [TreeOp.target, Option.some.injEq, reduceCtorEq] at h <;> subst h
  case makeBranchAlt => exact mem_locks_branch
  all_goals simp [TreeOp.locks, TreeOp.lockCall, LockCall.acts, lockAdd, lockIsSame, lockWith,
    lockWithMut, LockAct.acquires]

/-- What a call does depends on the trees whose locks it takes only, and it changes no others. -/
theorem exec_congr {w w' : World T AK V} {op : TreeOp T AK V} (h : ∀ t ∈ op.locks, w t = w' t) :
    (op.exec w).2 = (op.exec w').2 ∧ ∀ t, w t = w' t → (op.exec w).1 t = (op.exec w').1 t := by
  cases op with
  | makeNode t =>
    have ht : w t = w' t := h t (target_mem_locks rfl)
    simp only [TreeOp.exec, World.makeNode, ht, World.set, true_and]
    intro t' h'; split <;> simp_all
  | makeLeafAlt t k v =>
    have ht : w t = w' t := h t (target_mem_locks rfl)
    simp only [TreeOp.exec, World.makeLeafAlt, World.makeAlt, ht, World.set, true_and]
    intro t' h'; split <;> simp_all
  | makeBranchAlt t a ns =>
    have ht : w t = w' t := h t mem_locks_branch
    simp only [TreeOp.exec, World.makeBranchAlt, World.makeAlt, ht]
    split
    · simp only [World.set, true_and]
      intro t' h'; split <;> simp_all
    · exact ⟨rfl, fun _ h => h⟩
  | addAlt n a =>
    have ht : w n.tree = w' n.tree := h _ (target_mem_locks rfl)
    simp only [TreeOp.exec, World.addAlt, ht]
    split
    · cases (w' n.tree).addNodeAlt n.index a.index <;> simp only [World.update, World.set, true_and]
      · intro t' h'; split <;> simp_all
      · exact fun _ h => h
      · exact fun _ h => h
    · exact ⟨rfl, fun _ h => h⟩
  | addAll n m =>
    have ht : w n.tree = w' n.tree := h _ (target_mem_locks rfl)
    simp only [TreeOp.exec, World.addAll, ht]
    split
    · cases (w' n.tree).addAll n.index m.index <;> simp only [World.update, World.set, true_and]
      · intro t' h'; split <;> simp_all
      · exact fun _ h => h
      · exact fun _ h => h
    · exact ⟨rfl, fun _ h => h⟩
  | alts n =>
    have ht : w n.tree = w' n.tree := h _ (by simp [TreeOp.locks, TreeOp.lockCall, LockCall.acts, lockWith, LockAct.acquires])
    exact ⟨by simp only [TreeOp.exec, World.alts, ht], fun _ h => h⟩
  | content n =>
    have ht : w n.tree = w' n.tree := h _ (by simp [TreeOp.locks, TreeOp.lockCall, LockCall.acts, lockWith, LockAct.acquires])
    exact ⟨by simp only [TreeOp.exec, World.content, ht], fun _ h => h⟩
  | kind n =>
    have ht : w n.tree = w' n.tree := h _ (by simp [TreeOp.locks, TreeOp.lockCall, LockCall.acts, lockWith, LockAct.acquires])
    exact ⟨by simp only [TreeOp.exec, World.kind, World.withLeaf, ht], fun _ h => h⟩
  | value n =>
    have ht : w n.tree = w' n.tree := h _ (by simp [TreeOp.locks, TreeOp.lockCall, LockCall.acts, lockWith, LockAct.acquires])
    exact ⟨by simp only [TreeOp.exec, World.value, World.withLeaf, ht], fun _ h => h⟩
  | action n =>
    have ht : w n.tree = w' n.tree := h _ (by simp [TreeOp.locks, TreeOp.lockCall, LockCall.acts, lockWith, LockAct.acquires])
    exact ⟨by simp only [TreeOp.exec, World.action, World.withBranch, ht], fun _ h => h⟩
  | nodes n =>
    have ht : w n.tree = w' n.tree := h _ (by simp [TreeOp.locks, TreeOp.lockCall, LockCall.acts, lockWith, LockAct.acquires])
    exact ⟨by simp only [TreeOp.exec, World.branchNodes, World.withBranch, ht], fun _ h => h⟩

/-- The calls that ended without the help of the user's functions and of poisoned locks. -/
def normalCall (c : TreeOp T AK V × Outcome (TreeOut T AK V)) :
    Option (TreeOp T AK V × Res (TreeOut T AK V)) :=
  match c.2 with
  | .normal r => some (c.1, r)
  | _ => none

/-- C117: panics of the user's functions have no effect but to poison trees.  The calls that end
normally, before and after, return what they would return if the others had not been made, and the
trees that are not poisoned are as if they had not been made. -/
theorem user_panics_isolated {log} {pw : PWorld T AK V} {held : List Handle}
    (h : PHistory log pw held) : ∃ w, History (log.filterMap normalCall) w held ∧
      ∀ t, pw.poisoned t = false → pw.world t = w t := by
  induction h with
  | start => exact ⟨_, .start, fun _ _ => rfl⟩
  | newOwner t _ ht ih =>
    obtain ⟨w, h1, h2⟩ := ih
    exact ⟨w, .newOwner t h1 ht, h2⟩
  | @call log pw pw' held o op _ hop hs ih =>
    obtain ⟨w, h1, h2⟩ := ih
    cases hs with
    | poisoned => exact ⟨w, h1, h2⟩
    | normal hl =>
      have hc := exec_congr (op := op) (w := pw.world) (w' := w) (fun t ht => h2 t (hl t ht))
      refine ⟨(op.exec w).1, ?_, fun t ht => hc.2 t (h2 t ht)⟩
      simp only [List.filterMap_cons, normalCall, Outcome.gives, hc.1]
      exact .call op h1 hop
    | read => exact ⟨w, h1, h2⟩
    | @write t c s hl ha hb =>
      refine ⟨w, h1, fun t' ht' => ?_⟩
      simp only at ht'
      by_cases e : t' = t
      · simp [e] at ht'
      · simp only [e, if_false] at ht'
        simp only [World.set, e, if_false]
        exact h2 t' ht'

/-- C117: so no call ever panics for another reason than before: if no lock is poisoned and no function
of the user panics, it panics only if it combines different trees. -/
theorem user_panics_only [TransOrd T] [TransOrd AK] [TransOrd V] [LawfulEqOrd T] [LawfulEqOrd AK]
    [LawfulEqOrd V] {log} {pw pw' : PWorld T AK V} {held : List Handle} {op : TreeOp T AK V}
    {r : Res (TreeOut T AK V)} (h : PHistory log pw held) (hop : op.Allowed held)
    (hs : PStep pw op pw' (.normal r)) (hm : ¬ op.Mixes) : ∃ o, r = .ok o := by
  obtain ⟨w, h1, h2⟩ := user_panics_isolated h
  obtain ⟨o, ho⟩ := calls_never_fail h1 hop hm
  cases hs with
  | normal hl =>
    refine ⟨o, ?_⟩
    rw [(exec_congr (op := op) (w := pw.world) (w' := w) (fun t ht => h2 t (hl t ht))).1]
    exact ho

theorem adds_target {op : TreeOp T AK V} {t : Nat} {c : NodeContent T AK V}
    (h : op.adds = some (t, c)) : op.target = some t := by
  cases op <;> simp only [TreeOp.adds, reduceCtorEq, Option.some.injEq, _root_.Prod.mk.injEq,
    Option.ite_none_right_eq_some] at h
  · simp [TreeOp.target, h.1]
  · simp [TreeOp.target, h.2.1]

/-- C117: exactly the trees are poisoned in which a comparison has panicked. -/
theorem poisoned_iff {log} {pw : PWorld T AK V} {held : List Handle} (h : PHistory log pw held)
    (t : Nat) : pw.poisoned t = true ↔ ∃ op, (op, .user .compare) ∈ log ∧ op.target = some t := by
  induction h with
  | start => simp [PWorld.new]
  | newOwner _ _ _ ih => exact ih
  | @call log pw pw' held o op _ hop hs ih =>
    have key : ∀ o, o ≠ .user .compare → ((∃ op', (op', .user .compare) ∈ (op, o) :: log ∧
        op'.target = some t) ↔ ∃ op', (op', .user .compare) ∈ log ∧ op'.target = some t) := by
      intro o ho
      constructor
      · rintro ⟨op', h1, h2⟩
        rcases List.mem_cons.1 h1 with h1 | h1
        · exact absurd (_root_.Prod.mk.inj h1).2.symm ho
        · exact ⟨op', h1, h2⟩
      · rintro ⟨op', h1, h2⟩
        exact ⟨op', List.mem_cons_of_mem _ h1, h2⟩
    cases hs with
    | poisoned => rw [key _ (by simp)]; exact ih
    | normal => rw [key _ (by simp)]; exact ih
    | @read _ f _ _ hf =>
      rw [key _ (by cases op <;> simp [TreeOp.readUser] at hf <;> simp [← hf])]; exact ih
    | @write t' c s hl ha hb =>
      simp only
      constructor
      · intro hp
        by_cases e : t = t'
        · exact ⟨op, List.mem_cons_self .., by rw [adds_target ha, e]⟩
        · simp only [e, if_false] at hp
          obtain ⟨op', h1, h2⟩ := ih.1 hp
          exact ⟨op', List.mem_cons_of_mem _ h1, h2⟩
      · rintro ⟨op', h1, h2⟩
        rcases List.mem_cons.1 h1 with h1 | h1
        · obtain ⟨rfl, -⟩ := _root_.Prod.mk.inj h1
          rw [adds_target ha] at h2
          simp_all
        · split
          · rfl
          · exact ih.2 ⟨op', h1, h2⟩

/-- C117: a poisoned tree is lost: every call that takes its lock panics and changes nothing, and the
tree stays poisoned.  If it is the first lock the call takes, no function of the user is called. -/
theorem poisoned_forever {pw pw' : PWorld T AK V} {op : TreeOp T AK V} {o : Outcome (TreeOut T AK V)}
    {t : Nat} (hp : pw.poisoned t = true) (hs : PStep pw op pw' o) :
    pw'.poisoned t = true ∧ (t ∈ op.locks → pw' = pw ∧ ∀ r, o ≠ .normal r) ∧
      (op.locks.head? = some t → o = .poisoned) := by
  have hmem : op.locks.head? = some t → t ∈ op.locks := fun h => List.mem_of_mem_head? h
  cases hs with
  | poisoned => exact ⟨hp, fun _ => ⟨rfl, by simp⟩, fun _ => rfl⟩
  | normal hl =>
    exact ⟨hp, fun h => absurd (hl t h) (by simp [hp]), fun h => absurd (hl t (hmem h)) (by simp [hp])⟩
  | read h1 h2 h3 =>
    refine ⟨hp, fun _ => ⟨rfl, by simp⟩, fun h => ?_⟩
    rw [h1] at h
    cases h
    rw [hp] at h2; cases h2
  | write hl ha hb =>
    refine ⟨by simp only; split <;> simp [hp], fun h => absurd (hl t h) (by simp [hp]),
      fun h => absurd (hl t (hmem h)) (by simp [hp])⟩

/-- The calls that take the lock of `t` first: all calls on objects of the tree. -/
theorem first_lock (t : Nat) :
    (∀ op : TreeOp T AK V, op.target = some t → op.locks.head? = some t) ∧
    (∀ n : Node, n.tree = t → (TreeOp.alts n : TreeOp T AK V).locks.head? = some t) ∧
    (∀ a : Alternative, a.tree = t → (TreeOp.content a : TreeOp T AK V).locks.head? = some t) ∧
    (∀ l : Leaf, l.tree = t → (TreeOp.kind l : TreeOp T AK V).locks.head? = some t ∧
      (TreeOp.value l : TreeOp T AK V).locks.head? = some t) ∧
    (∀ b : Branch, b.tree = t → (TreeOp.action b : TreeOp T AK V).locks.head? = some t ∧
      (TreeOp.nodes b : TreeOp T AK V).locks.head? = some t) := by
  refine ⟨?_, ?_, ?_, ?_, ?_⟩
  · intro op h
    cases op <;> simp only [TreeOp.target, Option.some.injEq, reduceCtorEq] at h <;> subst h
    case makeBranchAlt => exact locks_branch_head
    all_goals simp [TreeOp.locks, TreeOp.lockCall, LockCall.acts, lockAdd, lockIsSame, lockWith,
      lockWithMut, LockAct.acquires]
  all_goals
    intro x hx
    subst hx
    simp [TreeOp.locks, TreeOp.lockCall, LockCall.acts, lockWith, LockAct.acquires]

/-- C117: a call changes and poisons at most the tree it is made on. -/
theorem pstep_other [TransOrd T] [TransOrd AK] [TransOrd V] [LawfulEqOrd T] [LawfulEqOrd AK]
    [LawfulEqOrd V] {pw pw' : PWorld T AK V} {op : TreeOp T AK V} {o : Outcome (TreeOut T AK V)}
    {t : Nat} (hs : PStep pw op pw' o) (ht : op.target ≠ some t) :
    pw'.world t = pw.world t ∧ pw'.poisoned t = pw.poisoned t := by
  cases hs with
  | poisoned => exact ⟨rfl, rfl⟩
  | normal => exact ⟨other_trees_unchanged _ op t ht, rfl⟩
  | read => exact ⟨rfl, rfl⟩
  | write hl ha hb =>
    rw [adds_target ha] at ht
    have e : ¬ t = _ := fun e => ht (by rw [e])
    simp [World.set, e]

/-! ## Parsing -/

/-- Code that calls operations on one tree: how it ends when functions of the user may panic. -/
theorem OnTree.prun {α : Type} [TransOrd T] [TransOrd AK] [TransOrd V] [LawfulEqOrd T] [LawfulEqOrd AK]
    [LawfulEqOrd V] {t : Nat} {p : TreeProg T AK V α} {pw pw' : PWorld T AK V} {o : Outcome α}
    (hr : PRun p pw pw' o) (hp : OnTree t p) :
    (∀ t', t' ≠ t → pw'.world t' = pw.world t' ∧ pw'.poisoned t' = pw.poisoned t') ∧
    match (generalizing := false) o with
    | .normal r => p.run pw.world = (pw'.world, r) ∧ pw'.poisoned = pw.poisoned
    | .poisoned => pw.poisoned t = true ∧ pw' = pw
    | .user f => pw.poisoned t = false ∧ (pw'.poisoned t = true ↔ f = .compare) ∧ f ≠ .clone := by
  induction hr with
  | ret => exact ⟨fun _ _ => ⟨rfl, rfl⟩, rfl, rfl⟩
  | panic => exact ⟨fun _ _ => ⟨rfl, rfl⟩, rfl, rfl⟩
  | oof => exact ⟨fun _ _ => ⟨rfl, rfl⟩, rfl, rfl⟩
  | @call op k pw pw' pw'' o r hs _ ih =>
    cases hp with
    | call h1 h2 h3 =>
      obtain ⟨i1, i2⟩ := ih (h3 o)
      have ho : ∀ t', t' ≠ t → pw'.world t' = pw.world t' ∧ pw'.poisoned t' = pw.poisoned t' :=
        fun t' e => pstep_other hs (by rw [h1]; simpa using fun h => e h.symm)
      refine ⟨fun t' e => ⟨(i1 t' e).1.trans (ho t' e).1, (i1 t' e).2.trans (ho t' e).2⟩, ?_⟩
      generalize hout : Outcome.normal (Res.ok o) = out at hs
      cases hs <;> try cases hout
      rename_i hl _
      cases hx : op.exec pw.world with
      | mk w' res =>
        rw [hx] at hout
        simp only [Outcome.normal.injEq] at hout
        subst hout
        rw [hx] at i2
        cases r with
        | normal r => exact ⟨by simp only [TreeProg.run, hx]; exact i2.1, i2.2⟩
        | poisoned =>
          have := hl t (target_mem_locks h1)
          simp only at i2
          rw [this] at i2
          exact absurd i2.1 (by simp)
        | user f => exact i2
  | @callPanics op k pw pw' p hs =>
    cases hp with
    | call h1 h2 h3 =>
      refine ⟨fun t' e => pstep_other hs (by rw [h1]; simpa using fun h => e h.symm), ?_⟩
      generalize hout : Outcome.normal (Res.panic p) = out at hs
      cases hs <;> try cases hout
      cases hx : op.exec pw.world with
      | mk w' res =>
        rw [hx] at hout
        simp only [Outcome.normal.injEq] at hout
        subst hout
        exact ⟨by simp only [TreeProg.run, hx], rfl⟩
  | @callPoisoned op k pw pw' hs =>
    cases hp with
    | call h1 h2 h3 =>
      cases hs with
      | poisoned ht hb => exact ⟨fun _ _ => ⟨rfl, rfl⟩, by rw [← h2 _ ht]; exact hb, rfl⟩
  | @callUser op k pw pw' f hs =>
    cases hp with
    | call h1 h2 h3 =>
      refine ⟨fun t' e => pstep_other hs (by rw [h1]; simpa using fun h => e h.symm), ?_⟩
      cases hs with
      | read ht hb hf =>
        have e := h2 _ (List.mem_of_mem_head? ht)
        subst e
        have : f = .iterator := by
          cases op <;> simp [TreeOp.readUser, TreeOp.target] at hf h1 <;> exact hf.symm
        subst this
        exact ⟨hb, by simp [hb], by simp⟩
      | write hl ha hb =>
        have := adds_target ha
        rw [h1] at this
        cases this
        exact ⟨hl t (target_mem_locks h1), by simp, by simp⟩

theorem OnTree.prun_ok {α : Type} {t : Nat} {p : TreeProg T AK V α} {pw : PWorld T AK V}
    {w' : World T AK V} {a : α} (hp : OnTree t p) (hb : pw.poisoned t = false)
    (hr : p.run pw.world = (w', .ok a)) : PRun p pw ⟨w', pw.poisoned⟩ (.normal (.ok a)) := by
  obtain ⟨w, b⟩ := pw
  simp only at hb hr ⊢
  induction hp generalizing w with
  | ret a => cases hr; exact .ret
  | panic p => cases hr
  | oof => cases hr
  | @call op k h1 h2 h3 ih =>
    simp only [TreeProg.run] at hr
    cases hx : op.exec w with
    | mk w₁ res =>
      rw [hx] at hr
      cases res with
      | ok o =>
        have := PStep.normal (pw := (⟨w, b⟩ : PWorld T AK V)) (op := op) (fun t' h => by rw [h2 t' h]; exact hb)
        rw [hx] at this
        exact .call this (ih o w₁ hr)
      | panic p => cases hr
      | oof => cases hr

section
variable {NT AV : Type} [Ord NT] [DecidableEq T] [DecidableEq NT] [DecidableEq AK]
variable [TransOrd T] [TransOrd AK] [TransOrd V] [LawfulEqOrd T] [LawfulEqOrd AK] [LawfulEqOrd V]
variable {addr : StartNonTerminal NT → Nat → Nat} {g : StartGrammar T NT AK AV}

/-- C117: `parse` on a tree, when comparisons of the user may panic and locks may be poisoned: it uses no
other tree.  If it ends without them, it ends as ever.  If it finds the lock poisoned, this was so
before, and nothing has changed.  If a comparison panics, the tree is poisoned afterwards. -/
theorem parse_with_panics {t fuel : Nat} {toks : List (Token T V)} {pw pw' : PWorld T AK V}
    {o : Outcome (Option Node)} (hr : PRun (parseProg addr g t fuel toks) pw pw' o) :
    (∀ t', t' ≠ t → pw'.world t' = pw.world t' ∧ pw'.poisoned t' = pw.poisoned t') ∧
    match (generalizing := false) o with
    | .normal (.ok n) => parse addr g fuel pw.world t toks = .ok (pw'.world, n) ∧
        pw'.poisoned = pw.poisoned
    | .normal (.panic p) => parse addr g fuel pw.world t toks = .panic p ∧ pw'.poisoned = pw.poisoned
    | .normal .oof => parse addr g fuel pw.world t toks = .oof ∧ pw'.poisoned = pw.poisoned
    | .poisoned => pw.poisoned t = true ∧ pw' = pw
    | .user f => pw.poisoned t = false ∧ (pw'.poisoned t = true ↔ f = .compare) ∧ f ≠ .clone := by
  obtain ⟨h1, h2⟩ := OnTree.prun hr (OnTree.parse fuel toks)
  refine ⟨h1, ?_⟩
  cases o with
  | poisoned => exact h2
  | user f => exact h2
  | normal r =>
    have hrun := parseProg_run (addr := addr) (g := g) fuel pw.world t toks
    simp only at h2
    cases hp : parse addr g fuel pw.world t toks with
    | ok x =>
      obtain ⟨w', n⟩ := x
      rw [hp] at hrun
      simp only at hrun
      rw [hrun] at h2
      obtain ⟨e, h2⟩ := h2
      obtain ⟨e1, e2⟩ := _root_.Prod.mk.inj e
      subst e2
      exact ⟨by rw [e1], h2⟩
    | panic p =>
      rw [hp] at hrun
      simp only at hrun
      rw [h2.1] at hrun
      simp only at hrun
      subst hrun
      exact ⟨rfl, h2.2⟩
    | oof =>
      rw [hp] at hrun
      simp only at hrun
      rw [h2.1] at hrun
      simp only at hrun
      subst hrun
      exact ⟨rfl, h2.2⟩

/-- C117: a parse that returns can return whatever happened to other trees. -/
theorem parse_with_panics_ok {t fuel : Nat} {toks : List (Token T V)} {pw : PWorld T AK V}
    (hb : pw.poisoned t = false) {w' : World T AK V} {n : Option Node}
    (hp : parse addr g fuel pw.world t toks = .ok (w', n)) :
    PRun (parseProg addr g t fuel toks) pw ⟨w', pw.poisoned⟩ (.normal (.ok n)) := by
  have hrun := parseProg_run (addr := addr) (g := g) fuel pw.world t toks
  rw [hp] at hrun
  exact OnTree.prun_ok (OnTree.parse fuel toks) hb hrun
end

/-! ## Examples -/

-- A comparison panics in tree 7, after two calls that return: later calls on tree 7 panic, calls on
-- tree 8 do not.
example : ∃ pw held, PHistory (T := Nat) (AK := Nat) (V := Nat)
      [(.makeNode 8, .normal (.ok (.node ⟨0, 8⟩))), (.alts ⟨0, 7⟩, .poisoned),
       (.makeLeafAlt 7 2 2, .user .compare), (.makeLeafAlt 7 1 1, .normal (.ok (.alt ⟨0, 7⟩))),
       (.makeNode 7, .normal (.ok (.node ⟨0, 7⟩)))] pw held ∧
    pw.poisoned 7 = true ∧ pw.poisoned 8 = false := by
  refine ⟨_, _, .call _ (.call _ (.call _ (.call _ (.call _ (.newOwner 8 (.newOwner 7 .start
    (by simp)) (by simp [Handle.owner])) ?_ (.normal ?_)) ?_ (.normal ?_)) ?_
    (.write (t := 7) (c := .leaf 2 2) ?_ rfl (.insert ?_))) ?_ (.poisoned (t := 7) ?_ rfl)) ?_
    (.normal ?_), rfl, rfl⟩
  all_goals first | decide | exact ⟨_, by decide, rfl⟩ | skip

-- A comparison panics at the first token of a parse of tree 7; the parse on tree 8 returns.
example : ∃ pw pw' : PWorld Nat Nat Nat,
    PRun (parseProg exampleSAddr rightExample.wrapped 7 9 (exampleToks [1, 1, 2])) PWorld.new pw
      (.user .compare) ∧
    PRun (parseProg exampleSAddr rightExample.wrapped 7 9 (exampleToks [1, 1, 2])) pw pw .poisoned ∧
    PRun (parseProg exampleSAddr rightExample.wrapped 8 9 (exampleToks [1, 1, 2])) pw pw'
      (.normal (.ok (some ⟨6, 8⟩))) := by
  refine ⟨_, _, .call (.normal (by decide)) (.callUser (.write (by decide) rfl (.lookup))),
    .callPoisoned (.poisoned (t := 7) (by decide) rfl), parse_with_panics_ok (by decide) rfl⟩
end Bongo
