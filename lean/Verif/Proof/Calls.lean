import Verif.Proof.EarleyProg
/-! # How many calls on the tree the parts of the parser make -/
set_option linter.unusedSectionVars false
namespace Bongo
open Std
variable {T NT AK AV V : Type}
variable [Ord T] [Ord NT] [Ord AK] [Ord V] [DecidableEq T] [DecidableEq NT]
variable [TransOrd T] [TransOrd AK] [TransOrd V] [LawfulEqOrd T] [LawfulEqOrd AK] [LawfulEqOrd V]

namespace TreeProg
variable {α β : Type}

theorem calls_bind (p : TreeProg T AK V α) (f : α → TreeProg T AK V β) (w : World T AK V) :
    (p.bind f).calls w = p.calls w + match p.run w with
      | (w', .ok a) => (f a).calls w'
      | _ => 0 := by
  induction p generalizing w with
  | ret a => simp [TreeProg.bind, calls, run]
  | panic s => rfl
  | oof => rfl
  | call op k ih =>
    simp only [TreeProg.bind, run, calls]
    rcases op.exec w with ⟨w', r⟩
    cases r with
    | ok o => simp only [ih o w']; omega
    | panic s => rfl
    | oof => rfl

/-- In any memory the program makes at most `n` calls. -/
def AtMost (n : Nat) (p : TreeProg T AK V α) : Prop := ∀ w, p.calls w ≤ n

theorem AtMost.mono {n m : Nat} {p : TreeProg T AK V α} (h : AtMost n p) (hm : n ≤ m) : AtMost m p :=
  fun w => Nat.le_trans (h w) hm

theorem atMost_ret (a : α) : AtMost 0 (.ret a : TreeProg T AK V α) := fun _ => Nat.le_refl _
theorem atMost_panic (a : Panic) : AtMost 0 (.panic a : TreeProg T AK V α) := fun _ => Nat.le_refl _
theorem atMost_oof : AtMost 0 (.oof : TreeProg T AK V α) := fun _ => Nat.le_refl _

theorem AtMost.bind {n m : Nat} {p : TreeProg T AK V α} {f : α → TreeProg T AK V β}
    (h : AtMost n p) (hf : ∀ a, AtMost m (f a)) : AtMost (n + m) (p.bind f) := by
  intro w
  rw [calls_bind]
  have h1 := h w
  rcases p.run w with ⟨w', r⟩
  cases r with
  | ok a => have := hf a w'; simp only; omega
  | panic s => simp only; omega
  | oof => simp only; omega

theorem atMost_call {op : TreeOp T AK V} {k : TreeOut T AK V → TreeProg T AK V α} {n : Nat}
    (h : ∀ o, AtMost n (k o)) : AtMost (n + 1) (.call op k) := by
  intro w
  simp only [calls]
  rcases op.exec w with ⟨w', r⟩
  cases r with
  | ok o => have := h o w'; simp only; omega
  | panic s => simp only; omega
  | oof => simp only; omega

theorem atMost_callNode (op : TreeOp T AK V) : AtMost 1 (callNode op) :=
  atMost_call (n := 0) fun o => by cases o <;> intro w <;> exact Nat.le_refl _
theorem atMost_callAlt (op : TreeOp T AK V) : AtMost 1 (callAlt op) :=
  atMost_call (n := 0) fun o => by cases o <;> intro w <;> exact Nat.le_refl _
theorem atMost_callChanged (op : TreeOp T AK V) : AtMost 1 (callChanged op) :=
  atMost_call (n := 0) fun o => by cases o <;> intro w <;> exact Nat.le_refl _

theorem atMost_leaf (t : Nat) (k : T) (v : V) : AtMost 3 (makeLeafNode (AK := AK) t k v) :=
  ((atMost_callNode _).bind fun _ => (atMost_callAlt _).bind fun _ => (atMost_callChanged _).bind
    fun _ => atMost_ret _).mono (by omega)
theorem atMost_branch (t : Nat) (ak : AK) (ns : List Nat) :
    AtMost 3 (makeBranchNode (T := T) (V := V) t ak ns) :=
  ((atMost_callNode _).bind fun _ => (atMost_callAlt _).bind fun _ => (atMost_callChanged _).bind
    fun _ => atMost_ret _).mono (by omega)

theorem atMost_changeIter {ι S : Type} (l : List ι) {f : S → ι → TreeProg T AK V (S × WasChanged)}
    {n : Nat} (hf : ∀ s, ∀ i ∈ l, AtMost n (f s i)) (s : S) (acc : WasChanged) :
    AtMost (l.length * n) (changeIter l f s acc) := by
  induction l generalizing s acc with
  | nil => exact (atMost_ret _).mono (Nat.zero_le _)
  | cons i l ih =>
    refine ((hf s i (by simp)).bind fun r => ih (fun s i hi => hf s i (by simp [hi])) r.1
      (acc.join r.2)).mono ?_
    rw [List.length_cons, Nat.succ_mul]; omega
end TreeProg

open TreeProg
variable {addr : StartNonTerminal NT → Nat → Nat} {g : StartGrammar T NT AK AV} {t : Nat}

theorem atMost_scan (s : EarleyState T NT AK AV) (tok : Token T V) : AtMost 3 (s.scanProg t tok) := by
  unfold EarleyState.scanProg
  split
  · exact (atMost_ret _).mono (by omega)
  · split
    · exact (atMost_ret _).mono (by omega)
    · split
      · exact ((atMost_leaf t _ _).bind fun _ => atMost_ret _).mono (by omega)
      · exact (atMost_ret _).mono (by omega)

theorem atMost_completeLoop (s : EarleyState T NT AK AV) (l : List (EarleyState T NT AK AV)) :
    AtMost (3 * l.length) (s.completeLoopProg (V := V) t l) := by
  induction l with
  | nil => exact atMost_ret _
  | cons st l ih =>
    have ih' : AtMost (3 * (st :: l).length) (s.completeLoopProg (V := V) t l) :=
      ih.mono (by simp; omega)
    unfold EarleyState.completeLoopProg
    split
    · exact ih'
    · split
      · exact ih'
      · split
        · split
          · exact (atMost_panic _).mono (Nat.zero_le _)
          · exact ((atMost_branch t _ _).bind fun _ => ih.bind fun _ => atMost_ret _).mono
              (by simp; omega)
        · exact ih'

theorem atMost_complete (s : EarleyState T NT AK AV) {prev : List (EarleyStateSet T NT AK AV)}
    {curr : EarleyStateSet T NT AK AV} {M : Nat} (hM : ∀ Z ∈ prev ++ [curr], Z.length ≤ M) :
    AtMost (3 * M) (s.completeProg (V := V) t prev curr) := by
  unfold EarleyState.completeProg
  split
  · split
    · refine (atMost_completeLoop s _).mono (Nat.mul_le_mul_left 3 ?_)
      simpa [EarleyStateSet.states] using hM curr (by simp)
    · split
      · next o ho =>
        refine (atMost_completeLoop s _).mono (Nat.mul_le_mul_left 3 ?_)
        simpa [EarleyStateSet.states] using
          hM o (List.mem_append_left _ (List.mem_iff_getElem?.2 ⟨_, ho⟩))
      · exact (atMost_panic _).mono (Nat.zero_le _)
  · exact (atMost_ret _).mono (Nat.zero_le _)

theorem atMost_closureStates {prev : List (EarleyStateSet T NT AK AV)}
    {curr : EarleyStateSet T NT AK AV} {M : Nat} (hM : ∀ Z ∈ prev ++ [curr], Z.length ≤ M)
    (l : List (EarleyState T NT AK AV)) :
    AtMost (l.length * (3 * M)) (closureStatesProg (V := V) g t prev curr l) := by
  induction l with
  | nil => exact (atMost_ret _).mono (Nat.zero_le _)
  | cons s l ih =>
    refine ((atMost_complete s hM).bind fun _ => ih.bind fun _ => atMost_ret _).mono ?_
    generalize 3 * M = q
    rw [List.length_cons, Nat.add_one_mul]; omega

theorem atMost_insert (set : EarleyStateSet T NT AK AV) (s : EarleyState T NT AK AV) :
    AtMost s.value.length (EarleyStateSet.insertProg (V := V) addr t set s) := by
  unfold EarleyStateSet.insertProg
  split
  · exact (atMost_ret _).mono (Nat.zero_le _)
  · next existing _ =>
    split
    · next h =>
      have := atMost_changeIter (T := T) (AK := AK) (V := V) (existing.zip s.value) (n := 1)
        (f := fun (_ : Unit) en => (TreeProg.addAll t en.1 en.2).bind fun c => .ret ((), c))
        (fun _ en _ => ((atMost_callChanged _).bind fun _ => atMost_ret _).mono (by omega)) () .unchanged
      refine (this.bind fun _ => atMost_ret _).mono ?_
      simp [h]
    · exact (atMost_panic _).mono (Nat.zero_le _)

theorem completeLoop_length (s : EarleyState T NT AK AV) (l : List (EarleyState T NT AK AV))
    {I I' : Inner T AK V} {out} (h : s.completeLoop l I = .ok (I', out)) : out.length ≤ l.length := by
  induction l generalizing I I' out with
  | nil => simp only [EarleyState.completeLoop, Res.ok.injEq, _root_.Prod.mk.injEq] at h; simp [← h.2]
  | cons st l ih =>
    unfold EarleyState.completeLoop at h
    split at h
    · have := ih h; simp; omega
    · split at h
      · have := ih h; simp; omega
      · split at h
        · split at h
          · cases h
          · split at h
            · split at h
              · next h' =>
                have := ih h'
                simp only [Res.ok.injEq, _root_.Prod.mk.injEq] at h
                rw [← h.2]; simp; omega
              · cases h
              · cases h
            · cases h
            · cases h
        · have := ih h; simp; omega

theorem complete_length (s : EarleyState T NT AK AV) {prev : List (EarleyStateSet T NT AK AV)}
    {curr : EarleyStateSet T NT AK AV} {M : Nat} (hM : ∀ Z ∈ prev ++ [curr], Z.length ≤ M)
    {I I' : Inner T AK V} {out} (h : s.complete prev curr I = .ok (I', out)) : out.length ≤ M := by
  unfold EarleyState.complete at h
  split at h
  · split at h
    · have := completeLoop_length s _ h
      have h2 := hM curr (by simp)
      simp only [EarleyStateSet.states, List.length_map] at this
      omega
    · split at h
      · next o ho =>
        have := completeLoop_length s _ h
        have h2 := hM o (List.mem_append_left _ (List.mem_iff_getElem?.2 ⟨_, ho⟩))
        simp only [EarleyStateSet.states, List.length_map] at this
        omega
      · cases h
  · simp only [Res.ok.injEq, _root_.Prod.mk.injEq] at h; simp [← h.2]

theorem closureStates_length {prev : List (EarleyStateSet T NT AK AV)}
    {curr : EarleyStateSet T NT AK AV} {M P : Nat} (hM : ∀ Z ∈ prev ++ [curr], Z.length ≤ M)
    (hP : ∀ s : EarleyState T NT AK AV, (s.predict g prev.length).length ≤ P)
    (l : List (EarleyState T NT AK AV)) {I I' : Inner T AK V} {out}
    (h : closureStates g prev curr l I = .ok (I', out)) : out.length ≤ l.length * (P + M) := by
  induction l generalizing I I' out with
  | nil => simp only [closureStates, Res.ok.injEq, _root_.Prod.mk.injEq] at h; simp [← h.2]
  | cons s l ih =>
    unfold closureStates at h
    split at h
    · next h1 =>
      split at h
      · next h2 =>
        have a1 := complete_length s hM h1
        have a2 := ih h2
        have a3 := hP s
        simp only [Res.ok.injEq, _root_.Prod.mk.injEq] at h
        rw [← h.2]
        simp only [List.length_append, List.length_cons, Nat.succ_mul]
        omega
      · cases h
      · cases h
    · cases h
    · cases h

end Bongo
