import Verif.Model.Lock
import Verif.Props.Forest
import Mathlib.Logic.Relation
/-!
# C38 and C62: threads that share trees
-/
set_option linter.unusedSectionVars false
namespace Bongo
open Std

/-! ## C62: concurrent calls take effect one at a time -/
section
variable {T AK V : Type} [Ord T] [Ord AK] [Ord V]
variable [TransOrd T] [TransOrd AK] [TransOrd V] [LawfulEqOrd T] [LawfulEqOrd AK] [LawfulEqOrd V]

theorem TreeOp.Allowed.mono {held held' : List Handle} (h : ∀ x ∈ held, x ∈ held')
    {op : TreeOp T AK V} (ha : op.Allowed held) : op.Allowed held' := by
  cases op <;> simp only [TreeOp.Allowed] at ha ⊢
  case makeNode => obtain ⟨x, hx, he⟩ := ha; exact ⟨x, h x hx, he⟩
  case makeLeafAlt => obtain ⟨x, hx, he⟩ := ha; exact ⟨x, h x hx, he⟩
  case makeBranchAlt =>
    obtain ⟨⟨x, hx, he⟩, hn⟩ := ha
    exact ⟨⟨x, h x hx, he⟩, fun n hn' => h _ (hn n hn')⟩
  case addAlt => exact ⟨h _ ha.1, h _ ha.2⟩
  case addAll => exact ⟨h _ ha.1, h _ ha.2⟩
  all_goals exact h _ ha

theorem TreeOp.commit_eq (w : World T AK V) (op : TreeOp T AK V)
    (h : op.check = some true ∨ op.check = none) : op.commit w = op.exec w := by
  cases op <;> simp [TreeOp.check] at h <;> simp [TreeOp.commit, TreeOp.exec]
  case makeBranchAlt t a ns =>
    have : ns.all (fun n => World.isSame t n.tree) = true := by
      rw [List.all_eq_true]; exact h
    simp [World.makeBranchAlt, this, Res.mapOut]
  case addAlt n a => simp [World.addAlt, h]
  case addAll n a => simp [World.addAll, h]

theorem TreeOp.check_false (w : World T AK V) (op : TreeOp T AK V) (h : op.check = some false) :
    op.exec w = (w, .panic .otherTree) := by
  cases op <;> simp only [TreeOp.check, Option.some.injEq, reduceCtorEq] at h
  case makeBranchAlt t a ns => simp [TreeOp.exec, World.makeBranchAlt, h, Res.mapOut]
  case addAlt n a => simp [TreeOp.exec, World.addAlt, h, Res.mapOut]
  case addAll n a => simp [TreeOp.exec, World.addAll, h, Res.mapOut]

theorem shared_inv {s : SharedState T AK V} (h : Relation.ReflTransGen SharedStep .start s) :
    History (s.log.map (·.2)) s.world s.held ∧
    (∀ i op, s.cur i = some (.called op) → op.Allowed s.held) ∧
    (∀ i op, s.cur i = some (.checked op) → op.Allowed s.held ∧ op.check = some true) := by
  induction h with
  | refl => exact ⟨.start, by simp [SharedState.start], by simp [SharedState.start]⟩
  | @tail s₀ _ _ hs ih =>
    obtain ⟨h1, h2, h3⟩ := ih
    cases hs with
    | newOwner t ht =>
      refine ⟨.newOwner t h1 ht, ?_, ?_⟩
      · intro i op hi; exact (h2 i op hi).mono (by simp +contextual)
      · intro i op hi; exact ⟨(h3 i op hi).1.mono (by simp +contextual), (h3 i op hi).2⟩
    | call i op hi hop =>
      refine ⟨h1, ?_, ?_⟩
      · intro j op' hj
        simp only [setPhase] at hj
        split at hj
        · cases hj; exact hop
        · exact h2 j op' hj
      · intro j op' hj
        simp only [setPhase] at hj
        split at hj
        · cases hj
        · exact h3 j op' hj
    | checkPass i op hi hc =>
      refine ⟨h1, ?_, ?_⟩
      · intro j op' hj
        simp only [setPhase] at hj
        split at hj
        · cases hj
        · exact h2 j op' hj
      · intro j op' hj
        simp only [setPhase] at hj
        split at hj
        · cases hj; exact ⟨h2 i op hi, hc⟩
        · exact h3 j op' hj
    | checkFail i op hi hc =>
      refine ⟨?_, ?_, ?_⟩
      · have := History.call op h1 (h2 i op hi)
        rw [TreeOp.check_false _ _ hc] at this
        simpa [TreeOut.gives] using this
      · intro j op' hj
        simp only [setPhase] at hj
        split at hj
        · cases hj
        · exact h2 j op' hj
      · intro j op' hj
        simp only [setPhase] at hj
        split at hj
        · cases hj
        · exact h3 j op' hj
    | @commit i op hi =>
      have hop : op.Allowed s₀.held ∧ (op.check = some true ∨ op.check = none) := by
        rcases hi with hi | ⟨hi, hc⟩
        · exact ⟨(h3 i op hi).1, Or.inl (h3 i op hi).2⟩
        · exact ⟨h2 i op hi, Or.inr hc⟩
      refine ⟨?_, ?_, ?_⟩
      · have := History.call op h1 hop.1
        rw [← TreeOp.commit_eq _ op hop.2] at this
        simpa using this
      · intro j op' hj
        simp only [setPhase] at hj
        split at hj
        · cases hj
        · exact (h2 j op' hj).mono (by simp +contextual)
      · intro j op' hj
        simp only [setPhase] at hj
        split at hj
        · cases hj
        · exact ⟨(h3 j op' hj).1.mono (by simp +contextual), (h3 j op' hj).2⟩

/-- C62: however the critical sections of the threads' calls are interleaved, the memory and all
results are those of the same calls made one at a time, in the order in which they finished. -/
theorem concurrent_calls_linearize {s : SharedState T AK V}
    (h : Relation.ReflTransGen SharedStep .start s) :
    History (s.log.map (·.2)) s.world s.held := (shared_inv h).1

/-- C62: whenever a thread is inside a call, it can take a step of it (the locks aside). -/
theorem concurrent_call_can_continue {s : SharedState T AK V}
    {i : Nat} {p : Phase T AK V} (hi : s.cur i = some p) : ∃ s', SharedStep s s' := by
  cases p with
  | checked op => exact ⟨_, .commit i op (Or.inl hi)⟩
  | called op =>
    cases hc : op.check with
    | none => exact ⟨_, .commit i op (Or.inr ⟨hi, hc⟩)⟩
    | some b => cases b with
      | true => exact ⟨_, .checkPass i op hi hc⟩
      | false => exact ⟨_, .checkFail i op hi hc⟩

-- Two threads: while thread 1 is between the two sections of its `add_alt`, thread 0 adds a node.
example : ∃ s : SharedState Nat Nat Nat, Relation.ReflTransGen SharedStep .start s ∧
    s.log.map (·.1) = [1, 0, 0, 0] ∧ s.world.alts ⟨0, 3⟩ = .ok [⟨0, 3⟩] := by
  have h : Relation.ReflTransGen SharedStep (SharedState.start : SharedState Nat Nat Nat) _ :=
      .tail (.tail (.tail (.tail (.tail (.tail (.tail (.tail (.tail (.tail .refl
      (.newOwner 3 (by simp [SharedState.start])))
      (.call 0 (.makeNode 3) rfl (by simp [TreeOp.Allowed, SharedState.start, Handle.owner])))
      (.commit 0 (.makeNode 3) (Or.inr ⟨rfl, rfl⟩)))
      (.call 0 (.makeLeafAlt 3 1 10) rfl ⟨.tree 3, by decide, rfl⟩))
      (.commit 0 (.makeLeafAlt 3 1 10) (Or.inr ⟨rfl, rfl⟩)))
      (.call 1 (.addAlt ⟨0, 3⟩ ⟨0, 3⟩) rfl ⟨by decide, by decide⟩))
      (.checkPass 1 (.addAlt ⟨0, 3⟩ ⟨0, 3⟩) rfl rfl))
      (.call 0 (.makeNode 3) rfl ⟨.tree 3, by decide, rfl⟩))
      (.commit 0 (.makeNode 3) (Or.inr ⟨rfl, rfl⟩)))
      (.commit 1 (.addAlt ⟨0, 3⟩ ⟨0, 3⟩) (Or.inl rfl))
  exact ⟨_, h, rfl, by decide⟩
end

/-! ## C38: progress -/

/-- The shape of the lock operations of a call: guards are dropped in the reverse order, and `write`
is only called with no guard in hand.  `rs` are the read guards held. -/
def WellLocked : List Nat → List LockAct → Prop
  | rs, [] => rs = []
  | rs, .acqR t :: p => WellLocked (t :: rs) p
  | r :: rs, .relR t :: p => r = t ∧ WellLocked rs p
  | [], .relR _ :: _ => False
  | rs, .acqW t :: .relW t' :: p => rs = [] ∧ t = t' ∧ WellLocked [] p
  | _, .acqW _ :: _ => False
  | _, .relW _ :: _ => False

/-- The calls whose iterators have their nodes ready. -/
def LockCall.Eager : LockCall → Prop
  | .branchAlt _ ns => ∀ n ∈ ns, n.2 = []
  | .branchNode _ ns => ∀ n ∈ ns, n.2 = []
  | _ => True

theorem wellLocked_with {t : Nat} {rs : List Nat} {p : List LockAct}
    (h : WellLocked rs p) : WellLocked rs (lockWith t [] ++ p) := by
  simp [lockWith, WellLocked, h]

theorem wellLocked_withMut {t : Nat} {p : List LockAct}
    (h : WellLocked [] p) : WellLocked [] (lockWithMut t ++ p) := by
  simp [lockWithMut, WellLocked, h]

theorem wellLocked_add {t t' : Nat} {p : List LockAct}
    (h : WellLocked [] p) : WellLocked [] (lockAdd t t' ++ p) := by
  unfold lockAdd lockIsSame lockWith
  split
  · simp [lockWithMut, WellLocked, h]
  · simp [WellLocked, h]

theorem wellLocked_check {t : Nat} {ns : List (Nat × List LockAct)} (hns : ∀ n ∈ ns, n.2 = [])
    {rs : List Nat} {p : List LockAct} (h : WellLocked rs p) :
    WellLocked rs ((lockCheckNodes t ns).1 ++ p) := by
  induction ns with
  | nil => simpa [lockCheckNodes] using h
  | cons n ns ih =>
    obtain ⟨n, pre⟩ := n
    have hpre : pre = [] := hns (n, pre) (by simp)
    subst hpre
    have := ih (fun m hm => hns m (by simp [hm]))
    unfold lockCheckNodes
    split
    · simpa [lockWith, WellLocked] using this
    · simpa [lockWith, WellLocked] using h

theorem wellLocked_branchAlt {t : Nat} {ns : List (Nat × List LockAct)} (hns : ∀ n ∈ ns, n.2 = [])
    {p : List LockAct} (h : WellLocked [] p) : WellLocked [] (lockBranchAlt t ns ++ p) := by
  unfold lockBranchAlt
  have h1 : WellLocked [t] (.relR t :: ((if (lockCheckNodes t ns).2 then lockWithMut t else []) ++ p)) := by
    refine ⟨rfl, ?_⟩
    split
    · exact wellLocked_withMut h
    · exact h
  have := wellLocked_check (t := t) hns h1
  simpa [lockWith, WellLocked] using this

theorem wellLocked_call {c : LockCall} (hc : c.Eager) {p : List LockAct} (h : WellLocked [] p) :
    WellLocked [] (c.acts ++ p) := by
  cases c with
  | write t => exact wellLocked_withMut h
  | read t => exact wellLocked_with h
  | isSame t t' =>
    simp [LockCall.acts, lockIsSame, lockWith, WellLocked, h]
  | add t t' => exact wellLocked_add h
  | leafNode t =>
    simp only [LockCall.acts, List.append_assoc]
    exact wellLocked_withMut (wellLocked_withMut (wellLocked_add h))
  | branchAlt t ns => exact wellLocked_branchAlt hc h
  | branchNode t ns =>
    simp only [LockCall.acts, List.append_assoc]
    refine wellLocked_withMut (wellLocked_branchAlt hc ?_)
    split
    · exact wellLocked_add h
    · exact h
  | dot t k =>
    simp only [LockCall.acts]
    clear hc
    induction k with
    | zero => simpa using h
    | succ k ih =>
      rw [List.replicate_succ, List.flatten_cons, List.append_assoc]
      exact wellLocked_with ih

theorem wellLocked_calls {cs : List LockCall} (hcs : ∀ c ∈ cs, c.Eager) :
    WellLocked [] (cs.map LockCall.acts).flatten := by
  induction cs with
  | nil => rfl
  | cons c cs ih =>
    rw [List.map_cons, List.flatten_cons]
    exact wellLocked_call (hcs c (by simp)) (ih (fun d hd => hcs d (by simp [hd])))

/-- The invariant of a thread. -/
def ThreadOk (th : LockThread) : Prop :=
  match th.write with
  | none => WellLocked th.reads th.todo
  | some t => th.reads = [] ∧ ∃ p, th.todo = .relW t :: p ∧ WellLocked [] p

theorem ThreadOk.step {policy : LockState → Nat → Prop} {s : LockState} {th th' : LockThread}
    (h : ThreadOk th) (hs : ThreadStep policy s th th') : ThreadOk th' := by
  cases hs with
  | @read t p rs w q =>
    cases w with
    | none => simpa [ThreadOk, WellLocked] using h
    | some w => simp [ThreadOk] at h
  | @dropRead t p rs w q hm =>
    cases w with
    | none =>
      cases rs with
      | nil => cases hm
      | cons r rs =>
        simp only [ThreadOk, WellLocked] at h
        obtain ⟨rfl, h⟩ := h
        simpa [ThreadOk] using h
    | some w => simp [ThreadOk] at h
  | @queue t p rs w =>
    cases w with
    | none => simpa [ThreadOk] using h
    | some w => simp [ThreadOk] at h
  | @write t p rs w =>
    cases w with
    | none =>
      simp only [ThreadOk] at h ⊢
      cases p with
      | nil => simp [WellLocked] at h
      | cons a p =>
        cases a with
        | relW t' =>
          simp only [WellLocked] at h
          obtain ⟨rfl, rfl, h⟩ := h
          exact ⟨rfl, p, rfl, h⟩
        | acqR _ => simp [WellLocked] at h
        | relR _ => simp [WellLocked] at h
        | acqW _ => simp [WellLocked] at h
    | some w => simp [ThreadOk] at h
  | @dropWrite t p rs q =>
    simp only [ThreadOk] at h ⊢
    obtain ⟨rfl, p', hp, h⟩ := h
    simp only [List.cons.injEq, true_and] at hp
    subst hp
    exact h

theorem lockInit_ok {progs : List (List LockCall)} (h : ∀ cs ∈ progs, ∀ c ∈ cs, c.Eager) :
    ∀ th ∈ lockInit progs, ThreadOk th := by
  intro th hth
  obtain ⟨cs, hcs, rfl⟩ := List.mem_map.1 hth
  exact wellLocked_calls (h cs hcs)

theorem reachable_ok {policy : LockState → Nat → Prop} {progs : List (List LockCall)}
    (h : ∀ cs ∈ progs, ∀ c ∈ cs, c.Eager) {s : LockState}
    (hr : Relation.ReflTransGen (LockStep policy) (lockInit progs) s) : ∀ th ∈ s, ThreadOk th := by
  induction hr with
  | refl => exact lockInit_ok h
  | tail _ hs ih =>
    obtain ⟨l, r, hst⟩ := hs
    intro th hth
    simp only [List.mem_append, List.mem_cons] at hth
    rcases hth with hth | rfl | hth
    · exact ih th (by simp [hth])
    · exact (ih _ (by simp)).step hst
    · exact ih th (by simp [hth])

theorem step_of_mem {policy : LockState → Nat → Prop} {s : LockState} {th th' : LockThread}
    (hm : th ∈ s) (h : ThreadStep policy s th th') : ∃ s', LockStep policy s s' := by
  obtain ⟨l, r, rfl⟩ := List.append_of_mem hm
  exact ⟨_, .mk l r h⟩

/-- A thread that holds a write guard can go on. -/
theorem write_holder_steps {policy : LockState → Nat → Prop} {s : LockState}
    {th : LockThread} (hm : th ∈ s) (hok : ThreadOk th) {t : Nat} (hw : th.write = some t) :
    ∃ s', LockStep policy s s' := by
  obtain ⟨todo, reads, write, queued⟩ := th
  cases hw
  simp only [ThreadOk] at hok
  obtain ⟨rfl, p, rfl, -⟩ := hok
  exact step_of_mem hm .dropWrite

/-- When no thread can go on, every unfinished thread wants a lock; those that want the write lock
hold nothing. -/
theorem stuck_cases {policy : LockState → Nat → Prop} {s : LockState}
    (hok : ∀ th ∈ s, ThreadOk th) (hstuck : ¬ ∃ s', LockStep policy s s') :
    (∀ th ∈ s, th.write = none) ∧
    (∀ th ∈ s, th.todo = [] ∨ (∃ t p, th.todo = .acqR t :: p) ∨
      (∃ t p, th.todo = .acqW t :: p ∧ th.reads = [] ∧ th.queued = true)) ∧
    (∀ th ∈ s, th.todo = [] → th.reads = []) := by
  have hw : ∀ th ∈ s, th.write = none := by
    intro th hth
    cases hw : th.write with
    | none => rfl
    | some t => exact absurd (write_holder_steps hth (hok th hth) hw) hstuck
  refine ⟨hw, ?_, ?_⟩
  · intro th hth
    have h1 := hw th hth
    have h2 := hok th hth
    obtain ⟨todo, reads, write, queued⟩ := th
    cases h1
    simp only [ThreadOk] at h2
    cases todo with
    | nil => exact Or.inl rfl
    | cons a p =>
      cases a with
      | acqR t => exact Or.inr (Or.inl ⟨t, p, rfl⟩)
      | relR t =>
        exfalso
        cases reads with
        | nil => simp [WellLocked] at h2
        | cons r rs =>
          simp only [WellLocked] at h2
          obtain ⟨rfl, -⟩ := h2
          exact hstuck (step_of_mem hth (.dropRead (by simp)))
      | acqW t =>
        right; right
        refine ⟨t, p, rfl, ?_, ?_⟩
        · cases p with
          | nil => simp [WellLocked] at h2
          | cons b p =>
            cases b <;> simp [WellLocked] at h2
            exact h2.1
        · cases queued with
          | true => rfl
          | false => exact absurd (step_of_mem hth .queue) hstuck
      | relW t => simp [WellLocked] at h2
  · intro th hth he
    have h1 := hw th hth
    have h2 := hok th hth
    obtain ⟨todo, reads, write, queued⟩ := th
    cases h1
    cases he
    simpa [ThreadOk, WellLocked] using h2

/-- C38 as far as it holds (1): if the lock grants every read request that no writer's guard stands
against, then in every reachable state of any number of threads making any public calls, either all
have finished or some thread can go on.  Missing: other lock policies (see
`add_alt_can_deadlock`), and iterators that use the tree (see `lazy_branch_deadlocks`). -/
theorem locks_progress_partial {policy : LockState → Nat → Prop} (hpolicy : ∀ s t, policy s t)
    {progs : List (List LockCall)} (h : ∀ cs ∈ progs, ∀ c ∈ cs, c.Eager) {s : LockState}
    (hr : Relation.ReflTransGen (LockStep policy) (lockInit progs) s) :
    s.Done ∨ ∃ s', LockStep policy s s' := by
  classical
  by_contra hno
  rw [not_or] at hno
  obtain ⟨hnd, hstuck⟩ := hno
  obtain ⟨hw, hc, hd⟩ := stuck_cases (reachable_ok h hr) hstuck
  have hwh : ∀ t, ¬ s.WriteHeld t := by
    rintro t ⟨th, hth, he⟩; rw [hw th hth] at he; cases he
  have hc' : ∀ th ∈ s, th.todo = [] ∨
      (∃ t p, th.todo = .acqW t :: p ∧ th.reads = [] ∧ th.queued = true) := by
    intro th hth
    rcases hc th hth with h | ⟨t, p, h⟩ | h
    · exact Or.inl h
    · exfalso
      obtain ⟨todo, reads, write, queued⟩ := th
      cases h
      exact hstuck (step_of_mem hth (.read (hwh t) (hpolicy s t)))
    · exact Or.inr h
  have hrh : ∀ t, ¬ s.ReadHeld t := by
    rintro t ⟨th, hth, he⟩
    rcases hc' th hth with h | ⟨_, _, -, h, -⟩
    · rw [hd th hth h] at he; cases he
    · rw [h] at he; cases he
  apply hnd
  intro th hth
  rcases hc' th hth with h | ⟨t, p, h1, h2, h3⟩
  · exact h
  · exfalso
    obtain ⟨todo, reads, write, queued⟩ := th
    cases h1; cases h3
    exact hstuck (step_of_mem hth (.write (hwh t) (hrh t)))

/-- A thread never nests read guards. -/
def FlatReads : List LockAct → Prop
  | [] => True
  | .acqR _ :: .relR _ :: p => FlatReads p
  | .acqR _ :: _ => False
  | .relR _ :: _ => False
  | .acqW _ :: .relW _ :: p => FlatReads p
  | .acqW _ :: _ => False
  | .relW _ :: _ => False

/-- The calls that take one lock at a time. -/
def LockCall.Flat : LockCall → Prop
  | .write _ => True
  | .read _ => True
  | .dot _ _ => True
  | .branchAlt _ ns => ns = []
  | _ => False

theorem flatReads_call {c : LockCall} (hc : c.Flat) {p : List LockAct} (h : FlatReads p) :
    FlatReads (c.acts ++ p) := by
  cases c with
  | write t => simpa [LockCall.acts, lockWithMut, FlatReads] using h
  | read t => simpa [LockCall.acts, lockWith, FlatReads] using h
  | isSame t t' => exact hc.elim
  | add t t' => exact hc.elim
  | leafNode t => exact hc.elim
  | branchAlt t ns =>
    simp only [LockCall.Flat] at hc
    subst hc
    simpa [LockCall.acts, lockBranchAlt, lockCheckNodes, lockWith, lockWithMut, FlatReads] using h
  | branchNode t ns => exact hc.elim
  | dot t k =>
    simp only [LockCall.acts]
    clear hc
    induction k with
    | zero => simpa using h
    | succ k ih =>
      rw [List.replicate_succ, List.flatten_cons, List.append_assoc]
      simpa [lockWith, FlatReads] using ih

theorem flatReads_calls {cs : List LockCall} (hcs : ∀ c ∈ cs, c.Flat) :
    FlatReads (cs.map LockCall.acts).flatten := by
  induction cs with
  | nil => trivial
  | cons c cs ih =>
    rw [List.map_cons, List.flatten_cons]
    exact flatReads_call (hcs c (by simp)) (ih (fun d hd => hcs d (by simp [hd])))

/-- The invariant of a thread that takes one lock at a time. -/
def FlatOk (th : LockThread) : Prop :=
  (∀ r ∈ th.reads, ∃ p, th.todo = .relR r :: p ∧ th.reads = [r] ∧ FlatReads p ∧ th.write = none) ∧
  (∀ t, th.write = some t → ∃ p, th.todo = .relW t :: p ∧ FlatReads p) ∧
  (th.reads = [] → th.write = none → FlatReads th.todo)

theorem FlatReads.of_wellLocked {p : List LockAct} (hf : FlatReads p) (h : WellLocked [] p) :
    ∀ t q, p = .acqR t :: q → ∃ q', q = .relR t :: q' ∧ FlatReads q' := by
  rintro t q rfl
  cases q with
  | nil => simp [FlatReads] at hf
  | cons a q =>
    cases a with
    | relR t' =>
      simp only [WellLocked] at h
      obtain ⟨rfl, -⟩ := h
      exact ⟨q, rfl, by simpa [FlatReads] using hf⟩
    | acqR _ => simp [FlatReads] at hf
    | acqW _ => simp [FlatReads] at hf
    | relW _ => simp [FlatReads] at hf

theorem FlatOk.step {policy : LockState → Nat → Prop} {s : LockState} {th th' : LockThread}
    (h : FlatOk th) (hok : ThreadOk th) (hs : ThreadStep policy s th th') : FlatOk th' := by
  cases hs with
  | @read t p rs w q =>
    cases w with
    | some w => simp [ThreadOk] at hok
    | none =>
      cases rs with
      | cons r rs =>
        obtain ⟨p', hp, -⟩ := h.1 r (by simp)
        simp at hp
      | nil =>
        have hf := h.2.2 rfl rfl
        obtain ⟨q', rfl, hq'⟩ := hf.of_wellLocked (by simpa [ThreadOk] using hok) t p rfl
        refine ⟨?_, by simp, by simp⟩
        intro r hr
        simp only [List.mem_singleton] at hr
        subst hr
        exact ⟨q', rfl, rfl, hq', rfl⟩
  | @dropRead t p rs w q hm =>
    obtain ⟨p', hp, hrs, hf, hw⟩ := h.1 t hm
    simp only at hp hrs hw
    subst hrs hw
    simp only [List.cons.injEq, true_and] at hp
    subst hp
    exact ⟨by simp, by simp, fun _ _ => hf⟩
  | queue => exact h
  | @write t p rs w =>
    cases w with
    | some w => simp [ThreadOk] at hok
    | none =>
      have hrs : rs = [] := by
        cases rs with
        | nil => rfl
        | cons r rs =>
          obtain ⟨p', hp, -⟩ := h.1 r (by simp)
          simp at hp
      subst hrs
      have hf := h.2.2 rfl rfl
      refine ⟨by simp, ?_, by simp⟩
      intro t' ht'
      cases ht'
      simp only [ThreadOk] at hok
      cases p with
      | nil => simp [WellLocked] at hok
      | cons a p =>
        cases a with
        | relW t' =>
          simp only [WellLocked] at hok
          obtain ⟨-, rfl, -⟩ := hok
          exact ⟨p, rfl, by simpa [FlatReads] using hf⟩
        | acqR _ => simp [FlatReads] at hf
        | relR _ => simp [FlatReads] at hf
        | acqW _ => simp [FlatReads] at hf
  | @dropWrite t p rs q =>
    obtain ⟨p', hp, hf⟩ := h.2.1 t rfl
    simp only [List.cons.injEq, true_and] at hp
    subst hp
    have hrs : rs = [] := by
      simp only [ThreadOk] at hok
      exact hok.1
    subst hrs
    exact ⟨by simp, by simp, fun _ _ => hf⟩

theorem LockCall.Flat.eager {c : LockCall} (h : c.Flat) : c.Eager := by
  cases c <;> simp_all [LockCall.Flat, LockCall.Eager]

/-- C38 as far as it holds (2): calls that take one lock at a time make progress also when readers
have to wait for waiting writers.  Missing: the other calls. -/
theorem flat_calls_progress_partial {progs : List (List LockCall)}
    (h : ∀ cs ∈ progs, ∀ c ∈ cs, c.Flat) {s : LockState}
    (hr : Relation.ReflTransGen (LockStep writersFirst) (lockInit progs) s) :
    s.Done ∨ ∃ s', LockStep writersFirst s s' := by
  classical
  have hok := reachable_ok (fun cs hcs c hc => (h cs hcs c hc).eager) hr
  have hflat : ∀ th ∈ s, FlatOk th := by
    clear hok
    induction hr with
    | refl =>
      intro th hth
      obtain ⟨cs, hcs, rfl⟩ := List.mem_map.1 hth
      exact ⟨by simp, by simp, fun _ _ => flatReads_calls (h cs hcs)⟩
    | tail hr' hs ih =>
      have hok' := reachable_ok (fun cs hcs c hc => (h cs hcs c hc).eager) hr'
      obtain ⟨l, r, hst⟩ := hs
      intro th hth
      simp only [List.mem_append, List.mem_cons] at hth
      rcases hth with hth | rfl | hth
      · exact ih th (by simp [hth])
      · exact (ih _ (by simp)).step (hok' _ (by simp)) hst
      · exact ih th (by simp [hth])
  by_contra hno
  rw [not_or] at hno
  obtain ⟨hnd, hstuck⟩ := hno
  obtain ⟨hw, hc, hd⟩ := stuck_cases hok hstuck
  have hwh : ∀ t, ¬ s.WriteHeld t := by
    rintro t ⟨th, hth, he⟩; rw [hw th hth] at he; cases he
  have hrh : ∀ t, ¬ s.ReadHeld t := by
    rintro t ⟨th, hth, he⟩
    obtain ⟨p, hp, -, -, -⟩ := (hflat th hth).1 t he
    obtain ⟨todo, reads, write, queued⟩ := th
    cases hp
    exact hstuck (step_of_mem hth (.dropRead he))
  have hnw : ∀ th ∈ s, ∀ t p, th.todo ≠ .acqW t :: p := by
    intro th hth t p he
    rcases hc th hth with h | ⟨t, p, h⟩ | ⟨t', p', h1, h2, h3⟩
    · rw [h] at he; cases he
    · rw [h] at he; cases he
    · obtain ⟨todo, reads, write, queued⟩ := th
      cases h1; cases h3
      exact hstuck (step_of_mem hth (.write (hwh t') (hrh t')))
  apply hnd
  intro th hth
  rcases hc th hth with h | ⟨t, p, h⟩ | ⟨t', p', h1, -⟩
  · exact h
  · exfalso
    obtain ⟨todo, reads, write, queued⟩ := th
    cases h
    refine hstuck (step_of_mem hth (.read (hwh t) ?_))
    rintro ⟨th', hth', -, he⟩
    cases htodo : th'.todo with
    | nil => rw [htodo] at he; cases he
    | cons a q =>
      rw [htodo] at he
      simp only [List.head?_cons, Option.some.injEq] at he
      subst he
      exact hnw th' hth' t q htodo
  · exact absurd h1 (hnw th hth t' p')

/-- C38 as far as it holds (3): a program with one thread never blocks, whichever of the two
policies the lock has.  Missing: iterators that use the tree. -/
theorem single_thread_progress_partial {cs : List LockCall} (h : ∀ c ∈ cs, c.Eager) {s : LockState}
    (hr : Relation.ReflTransGen (LockStep writersFirst) (lockInit [cs]) s) :
    s.Done ∨ ∃ s', LockStep writersFirst s s' := by
  classical
  have hok := reachable_ok (progs := [cs]) (by simpa using h) hr
  have hlen : s.length = 1 := by
    clear hok
    induction hr with
    | refl => rfl
    | tail _ hs ih => obtain ⟨l, r, -⟩ := hs; simpa using ih
  obtain ⟨th, rfl⟩ := List.length_eq_one_iff.1 hlen
  by_contra hno
  rw [not_or] at hno
  obtain ⟨hnd, hstuck⟩ := hno
  obtain ⟨hw, hc, hd⟩ := stuck_cases hok hstuck
  have hw' := hw th (by simp)
  have hwh : ∀ t, ¬ LockState.WriteHeld [th] t := by
    rintro t ⟨th', hth', he⟩; rw [hw th' hth'] at he; cases he
  rcases hc th (by simp) with h | ⟨t, p, h⟩ | ⟨t, p, h1, h2, h3⟩
  · exact hnd (by intro th' hth'; simp only [List.mem_singleton] at hth'; subst hth'; exact h)
  · obtain ⟨todo, reads, write, queued⟩ := th
    cases h
    refine hstuck (step_of_mem (List.mem_singleton.2 rfl) (.read (hwh t) ?_))
    rintro ⟨th', hth', -, he⟩
    simp only [List.mem_singleton] at hth'
    subst hth'
    simp at he
  · obtain ⟨todo, reads, write, queued⟩ := th
    cases h1; cases h2; cases h3
    refine hstuck (step_of_mem (List.mem_singleton.2 rfl) (.write (hwh t) ?_))
    rintro ⟨th', hth', he⟩
    simp only [List.mem_singleton] at hth'
    subst hth'
    cases he

/-- The number of lock operations (and waits) still to do goes down with every step, so a system
that can always go on finishes. -/
theorem lock_steps_terminate {policy : LockState → Nat → Prop} {s s' : LockState}
    (h : LockStep policy s s') :
    (s'.map (fun th => 2 * th.todo.length - (if th.queued then 1 else 0))).sum <
      (s.map (fun th => 2 * th.todo.length - (if th.queued then 1 else 0))).sum := by
  obtain ⟨l, r, hst⟩ := h
  have key : ∀ a b : Nat, a < b →
      ∀ x y : Nat, x + (a + y) < x + (b + y) := by omega
  simp only [List.map_append, List.map_cons, List.sum_append, List.sum_cons]
  apply key
  cases hst <;> simp <;> (try split) <;> omega

-- Calls of every kind, on two trees, by three threads.
example : ∀ cs ∈ [[LockCall.write 0, .leafNode 0, .branchNode 0 [(0, []), (0, [])]],
    [.add 0 1, .isSame 1 0, .dot 1 4], [.read 0]], ∀ c ∈ cs, c.Eager := by
  simp [LockCall.Eager]
example : ∀ cs ∈ [[LockCall.write 0, .read 1], [.dot 1 4], [.read 0, .branchAlt 1 []]],
    ∀ c ∈ cs, c.Flat := by simp [LockCall.Flat]

/-- C38 is false (1): `make_branch_alt` consumes its iterator under the read lock, so an iterator
that itself makes the nodes (`tree.make_branch_alt(a, kinds.map(|k| tree.make_node()))`) blocks
forever, in a program of one thread, whatever the policy of the lock. -/
theorem lazy_branch_deadlocks (policy : LockState → Nat → Prop)
    (hpolicy : ∀ s t, ¬ s.WriterWaits t → policy s t) :
    ∃ s, Relation.ReflTransGen (LockStep policy)
      (lockInit [[.branchAlt 0 [(0, (LockCall.write 0).acts)]]]) s ∧ ¬ s.Done ∧
      ¬ ∃ s', LockStep policy s s' := by
  refine ⟨[⟨[.acqW 0, .relW 0, .acqR 0, .relR 0, .relR 0, .acqW 0, .relW 0], [0], none, true⟩],
    ?_, ?_, ?_⟩
  · have s1 : LockStep policy
        [⟨[.acqR 0, .acqW 0, .relW 0, .acqR 0, .relR 0, .relR 0, .acqW 0, .relW 0], [], none, false⟩]
        [⟨[.acqW 0, .relW 0, .acqR 0, .relR 0, .relR 0, .acqW 0, .relW 0], [0], none, false⟩] := by
      refine LockStep.mk [] [] (.read ?_ (hpolicy _ _ ?_))
      · simp [LockState.WriteHeld]
      · simp [LockState.WriterWaits]
    exact .tail (.tail .refl s1) (LockStep.mk [] [] .queue)
  · simp [LockState.Done]
  · rintro ⟨s', hs⟩
    generalize hg : [(⟨[.acqW 0, .relW 0, .acqR 0, .relR 0, .relR 0, .acqW 0, .relW 0], [0], none,
      true⟩ : LockThread)] = s at hs
    obtain ⟨l, r, hst⟩ := hs
    have hl : l = [] ∧ r = [] := by
      have := congrArg List.length hg
      simp at this
      exact ⟨List.eq_nil_of_length_eq_zero (by omega), List.eq_nil_of_length_eq_zero (by omega)⟩
    obtain ⟨rfl, rfl⟩ := hl
    simp only [List.nil_append, List.cons.injEq, and_true] at hg
    subst hg
    cases hst with
    | write h1 h2 => exact h2 ⟨_, List.mem_singleton.2 rfl, by simp⟩

/-- C38 is false (2): if the lock makes readers wait while a writer waits, two threads that each
call `add_alt` on the same tree can block each other forever (the first has the outer read guard of
`is_same` and wants the inner one, the second waits for the write guard). -/
theorem add_alt_can_deadlock :
    ∃ s, Relation.ReflTransGen (LockStep writersFirst) (lockInit [[.add 0 0], [.add 0 0]]) s ∧
      ¬ s.Done ∧ ¬ ∃ s', LockStep writersFirst s s' := by
  refine ⟨[⟨[.acqR 0, .relR 0, .relR 0, .acqW 0, .relW 0], [0], none, false⟩,
    ⟨[.acqW 0, .relW 0], [], none, true⟩], ?_, ?_, ?_⟩
  · have nw : ∀ (t1 t2 : LockThread), t1.queued = false → t2.queued = false →
        writersFirst [t1, t2] 0 := by
      rintro t1 t2 h1 h2 ⟨th, hth, hq, -⟩
      simp only [List.mem_cons, List.not_mem_nil, or_false] at hth
      rcases hth with rfl | rfl
      · rw [h1] at hq; cases hq
      · rw [h2] at hq; cases hq
    have nh : ∀ (t1 t2 : LockThread), t1.write = none → t2.write = none →
        ¬ LockState.WriteHeld [t1, t2] 0 := by
      rintro t1 t2 h1 h2 ⟨th, hth, hq⟩
      simp only [List.mem_cons, List.not_mem_nil, or_false] at hth
      rcases hth with rfl | rfl
      · rw [h1] at hq; cases hq
      · rw [h2] at hq; cases hq
    let th0 : LockThread := ⟨[.acqR 0, .acqR 0, .relR 0, .relR 0, .acqW 0, .relW 0], [], none, false⟩
    let th1 : LockThread := ⟨[.acqR 0, .relR 0, .relR 0, .acqW 0, .relW 0], [0], none, false⟩
    -- thread 2 performs its `is_same` and then thread 1 starts its own
    have s1 : LockStep writersFirst [th0, th0] [th0, th1] :=
      .mk [th0] [] (.read (nh _ _ rfl rfl) (nw _ _ rfl rfl))
    have s2 : LockStep writersFirst [th0, th1]
        [th0, ⟨[.relR 0, .relR 0, .acqW 0, .relW 0], [0, 0], none, false⟩] :=
      .mk [th0] [] (.read (nh _ _ rfl rfl) (nw _ _ rfl rfl))
    have s3 : LockStep writersFirst [th0, ⟨[.relR 0, .relR 0, .acqW 0, .relW 0], [0, 0], none, false⟩]
        [th0, ⟨[.relR 0, .acqW 0, .relW 0], [0], none, false⟩] :=
      .mk [th0] [] (.dropRead (by simp))
    have s4 : LockStep writersFirst [th0, ⟨[.relR 0, .acqW 0, .relW 0], [0], none, false⟩]
        [th0, ⟨[.acqW 0, .relW 0], [], none, false⟩] :=
      .mk [th0] [] (.dropRead (by simp))
    have s5 : LockStep writersFirst [th0, ⟨[.acqW 0, .relW 0], [], none, false⟩]
        [th1, ⟨[.acqW 0, .relW 0], [], none, false⟩] :=
      .mk [] [_] (.read (nh _ _ rfl rfl) (nw _ _ rfl rfl))
    have s6 : LockStep writersFirst [th1, ⟨[.acqW 0, .relW 0], [], none, false⟩]
        [th1, ⟨[.acqW 0, .relW 0], [], none, true⟩] :=
      .mk [th1] [] .queue
    exact .tail (.tail (.tail (.tail (.tail (.tail .refl s1) s2) s3) s4) s5) s6
  · simp [LockState.Done]
  · rintro ⟨s', hs⟩
    generalize hg : [(⟨[.acqR 0, .relR 0, .relR 0, .acqW 0, .relW 0], [0], none, false⟩ : LockThread),
      ⟨[.acqW 0, .relW 0], [], none, true⟩] = s at hs
    obtain ⟨l, r, hst⟩ := hs
    match l, hg with
    | [], hg =>
      simp only [List.nil_append, List.cons.injEq] at hg
      obtain ⟨rfl, rfl⟩ := hg
      cases hst with
      | read h1 h2 => exact h2 ⟨_, by simp; right; rfl, rfl, rfl⟩
    | [x], hg =>
      simp only [List.cons_append, List.nil_append, List.cons.injEq] at hg
      obtain ⟨rfl, rfl, rfl⟩ := hg
      cases hst with
      | write h1 h2 => exact h2 ⟨_, by simp; left; rfl, by simp⟩
    | x :: y :: l, hg =>
      have := congrArg List.length hg
      simp at this
end Bongo
