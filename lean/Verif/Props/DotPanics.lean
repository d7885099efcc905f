import Verif.Model.DotPanics
import Verif.Spec.DotPanics
import Verif.Props.DotShared
import Verif.Props.Poison
/-!
# C146: drawing a forest when locks may be poisoned and `Debug` may panic
-/
set_option linter.unusedSectionVars false
namespace Bongo
open Std

section
variable {I α β : Type} {mem : Nat → I} {lost : Nat → Bool}

theorem DotProg.run_bind (f : α → DotProg I β) (p : DotProg I α) (k : Nat) :
    (p.bind f).run mem lost k = match p.run mem lost k with
      | (.ok a, k') => (f a).run mem lost k'
      | (.panic e, k') => (.panic e, k')
      | (.oof, k') => (.oof, k')
      | (.debug, k') => (.debug, k')
      | (.poisoned, k') => (.poisoned, k') := by
  induction p generalizing k with
  | read g ih =>
    simp only [DotProg.bind, DotProg.run]
    split
    · rfl
    · exact ih _ _
  | _ => rfl

/-- What happens if the lock is poisoned at some of the reads: nothing else, if it is at none of the reads made; a panic at
the first of those at which it is. -/
theorem DotProg.run_lost (p : DotProg I α) (k : Nat) :
    k ≤ (p.run mem (fun _ => false) k).2 ∧
    ((∀ j, k ≤ j → j < (p.run mem (fun _ => false) k).2 → lost j = false) →
      p.run mem lost k = p.run mem (fun _ => false) k) ∧
    (∀ j, k ≤ j → j < (p.run mem (fun _ => false) k).2 → lost j = true → (∀ i, k ≤ i → i < j → lost i = false) →
      p.run mem lost k = (.poisoned, j)) := by
  induction p generalizing k with
  | read g ih =>
    simp only [DotProg.run, Bool.false_eq_true, if_false]
    obtain ⟨h1, h2, h3⟩ := ih (mem k) (k + 1)
    refine ⟨by omega, fun h => ?_, fun j hj1 hj2 hj3 hj4 => ?_⟩
    · rw [h k (Nat.le_refl _) (by omega)]
      exact h2 fun j hj => h j (by omega)
    · rcases Nat.eq_or_lt_of_le hj1 with rfl | hlt
      · rw [hj3]; rfl
      · rw [hj4 k (Nat.le_refl _) hlt]
        exact h3 j hlt hj2 hj3 fun i hi => hj4 i (by omega)
  | _ => exact ⟨Nat.le_refl _, fun _ => rfl, fun j h1 h2 => absurd h2 (by simp only [DotProg.run]; omega)⟩
end

/-- A run and the result of the same without panics of locks and `Debug`. -/
def DotAgrees {α : Type} (e : DotEnd α × Nat) : Res (α × Nat) → Prop
  | .ok (a, k) => e = (.ok a, k)
  | .panic p => e.1 = .panic p
  | .oof => e.1 = .oof

section
variable {T AK V : Type} (ws : Nat → World T AK V) (t : Nat)

theorem dotLevelProg_run (curr : List DotNode) (st : BSet DotNode × BSet DotNode) (k : Nat) :
    DotAgrees ((dotLevelProg curr st).run (fun k => ws k t) (fun _ => false) k) (dotLevelAmong ws t curr st k) := by
  induction curr generalizing st k with
  | nil => rfl
  | cons c cs ih =>
    simp only [dotLevelProg, dotLevelAmong, DotProg.run, Bool.false_eq_true, if_false]
    cases dotStep (ws k t) c with
    | ok l => exact ih _ _
    | panic p => rfl
    | oof => rfl

theorem dotLoopProg_run (fuel : Nat) (curr seen : BSet DotNode) (k : Nat) :
    DotAgrees ((dotLoopProg fuel curr seen).run (fun k => ws k t) (fun _ => false) k)
      (dotLoopAmong fuel ws t curr seen k) := by
  induction fuel generalizing curr seen k with
  | zero => cases curr <;> rfl
  | succ fuel ih =>
    cases curr with
    | nil => rfl
    | cons c cs =>
      have h := dotLevelProg_run ws t (c :: cs) ([], seen) k
      simp only [dotLoopProg, dotLoopAmong, DotProg.run_bind]
      generalize (dotLevelProg (c :: cs) ([], seen)).run (fun k => ws k t) (fun _ => false) k = e at h
      obtain ⟨e, k'⟩ := e
      cases hr : dotLevelAmong ws t (c :: cs) ([], seen) k with
      | ok r => obtain ⟨⟨a, b⟩, k'⟩ := r; rw [hr] at h; cases h; exact ih _ _ _
      | panic p => rw [hr] at h; cases h; rfl
      | oof => rw [hr] at h; cases h; rfl

theorem dotNodeEdgesProg_run (l : List Nat) (k : Nat) :
    DotAgrees ((dotNodeEdgesProg l).run (fun k => ws k t) (fun _ => false) k) (dotNodeEdgesAmong ws t l k) := by
  induction l generalizing k with
  | nil => rfl
  | cons n l ih =>
    simp only [dotNodeEdgesProg, dotNodeEdgesAmong, DotProg.run, Bool.false_eq_true, if_false]
    cases (ws k t).getNode n with
    | panic p => rfl
    | oof => rfl
    | ok s =>
      have h := ih (k + 1)
      simp only [DotProg.run_bind]
      generalize (dotNodeEdgesProg l).run (fun k => ws k t) (fun _ => false) (k + 1) = e at h
      obtain ⟨e, k'⟩ := e
      cases hr : dotNodeEdgesAmong ws t l (k + 1) with
      | ok r => obtain ⟨a, k'⟩ := r; rw [hr] at h; cases h; rfl
      | panic p => rw [hr] at h; cases h; rfl
      | oof => rw [hr] at h; cases h; rfl

theorem dotAltEdgesProg_run (l : List Nat) (k : Nat) :
    DotAgrees ((dotAltEdgesProg l).run (fun k => ws k t) (fun _ => false) k) (dotAltEdgesAmong ws t l k) := by
  induction l generalizing k with
  | nil => rfl
  | cons n l ih =>
    simp only [dotAltEdgesProg, dotAltEdgesAmong, DotProg.run, Bool.false_eq_true, if_false]
    cases (ws k t).getAlt n with
    | panic p => rfl
    | oof => rfl
    | ok s =>
      have h := ih (k + 1)
      simp only [DotProg.run_bind]
      generalize (dotAltEdgesProg l).run (fun k => ws k t) (fun _ => false) (k + 1) = e at h
      obtain ⟨e, k'⟩ := e
      cases hr : dotAltEdgesAmong ws t l (k + 1) with
      | ok r => obtain ⟨a, k'⟩ := r; rw [hr] at h; cases h; cases s <;> rfl
      | panic p => rw [hr] at h; cases h; rfl
      | oof => rw [hr] at h; cases h; rfl

variable (dbgT : T → Option String) (dbgAK : AK → Option String) (dbgV : V → Option String)

/-- Making the label of `x` panics in `Debug`. -/
def labelFails (i : Inner T AK V) : DotNode → Prop
  | .node _ => False
  | .alt a => match i.getAlt a with
    | .ok (.branch action _) => dbgAK action = none
    | .ok (.leaf kind value) => dbgT kind = none ∨ dbgV value = none
    | _ => False

theorem dotLabelProg_run (x : DotNode) (k : Nat) :
    (labelFails dbgT dbgAK dbgV (ws k t) x → ((dotLabelProg dbgT dbgAK dbgV x).run (fun k => ws k t) (fun _ => false) k).1 = .debug) ∧
    (¬ labelFails dbgT dbgAK dbgV (ws k t) x →
      DotAgrees ((dotLabelProg dbgT dbgAK dbgV x).run (fun k => ws k t) (fun _ => false) k)
        (match dotNodeLabel (fun a => (dbgT a).getD "") (fun a => (dbgAK a).getD "") (fun a => (dbgV a).getD "") (ws k t) x with
          | .ok s => .ok (s, k + dotLabelReads x)
          | .panic p => .panic p
          | .oof => .oof)) := by
  cases x with
  | node n => exact ⟨False.elim, fun _ => rfl⟩
  | alt a =>
    simp only [dotLabelProg, DotProg.run, Bool.false_eq_true, if_false, labelFails, dotNodeLabel, dotLabelReads]
    cases (ws k t).getAlt a with
    | panic p => exact ⟨False.elim, fun _ => rfl⟩
    | oof => exact ⟨False.elim, fun _ => rfl⟩
    | ok c =>
      cases c with
      | branch action ns =>
        simp only
        cases h : dbgAK action with
        | none => simp [DotProg.run]
        | some s => simp [DotProg.run, DotAgrees]
      | leaf kd v =>
        simp only
        cases h : dbgT kd with
        | none => simp [DotProg.run]
        | some s =>
          cases h' : dbgV v with
          | none => simp [DotProg.run]
          | some s' => simp [DotProg.run, DotAgrees]

theorem dotVerticesProg_run (l : List DotNode) (k : Nat) :
    (((dotVerticesProg dbgT dbgAK dbgV l).run (fun k => ws k t) (fun _ => false) k).1 = .debug ∧
      ∃ x ∈ l, ∃ j, labelFails dbgT dbgAK dbgV (ws j t) x) ∨
    (DotAgrees ((dotVerticesProg dbgT dbgAK dbgV l).run (fun k => ws k t) (fun _ => false) k)
      (dotVerticesAmong (fun a => (dbgT a).getD "") (fun a => (dbgAK a).getD "") (fun a => (dbgV a).getD "") ws t l k) ∧
    ∀ out, ((dotVerticesProg dbgT dbgAK dbgV l).run (fun k => ws k t) (fun _ => false) k).1 = .ok out →
      ∀ x ∈ l, ∃ j, ¬ labelFails dbgT dbgAK dbgV (ws j t) x) := by
  induction l generalizing k with
  | nil => exact Or.inr ⟨rfl, by simp⟩
  | cons x l ih =>
    simp only [dotVerticesProg, dotVerticesAmong, dotNodeId_eq, DotProg.run_bind]
    obtain ⟨h1, h2⟩ := dotLabelProg_run ws t dbgT dbgAK dbgV x k
    by_cases hf : labelFails dbgT dbgAK dbgV (ws k t) x
    · have h1 := h1 hf
      generalize (dotLabelProg dbgT dbgAK dbgV x).run (fun k => ws k t) (fun _ => false) k = e at h1
      obtain ⟨e, k'⟩ := e
      cases h1
      exact Or.inl ⟨rfl, x, by simp, k, hf⟩
    · have h2 := h2 hf
      generalize (dotLabelProg dbgT dbgAK dbgV x).run (fun k => ws k t) (fun _ => false) k = e at h2
      obtain ⟨e, k'⟩ := e
      cases hl : dotNodeLabel (fun a => (dbgT a).getD "") (fun a => (dbgAK a).getD "") (fun a => (dbgV a).getD "") (ws k t) x with
      | panic p => rw [hl] at h2; cases h2; exact Or.inr ⟨rfl, by simp⟩
      | oof => rw [hl] at h2; cases h2; exact Or.inr ⟨rfl, by simp⟩
      | ok s =>
        rw [hl] at h2
        cases h2
        simp only [DotProg.run_bind]
        rcases ih (k + dotLabelReads x) with ⟨h3, y, hy, j, hj⟩ | ⟨h3, h4⟩
        · generalize (dotVerticesProg dbgT dbgAK dbgV l).run (fun k => ws k t) (fun _ => false) (k + dotLabelReads x) = e at h3
          obtain ⟨e, k'⟩ := e
          cases h3
          exact Or.inl ⟨rfl, y, by simp [hy], j, hj⟩
        · right
          generalize (dotVerticesProg dbgT dbgAK dbgV l).run (fun k => ws k t) (fun _ => false) (k + dotLabelReads x) = e at h3 h4
          obtain ⟨e, k'⟩ := e
          cases hr : dotVerticesAmong (fun a => (dbgT a).getD "") (fun a => (dbgAK a).getD "") (fun a => (dbgV a).getD "")
              ws t l (k + dotLabelReads x) with
          | panic p => rw [hr] at h3; cases h3; exact ⟨rfl, by simp⟩
          | oof => rw [hr] at h3; cases h3; exact ⟨rfl, by simp⟩
          | ok r =>
            obtain ⟨vs, k2⟩ := r
            rw [hr] at h3
            cases h3
            refine ⟨rfl, fun out _ y hy => ?_⟩
            rcases List.mem_cons.1 hy with rfl | hy
            · exact ⟨k, hf⟩
            · exact h4 vs rfl y hy

theorem toDotProg_run (fuel : Nat) (n : Node) :
    ((toDotPanics dbgT dbgAK dbgV fuel ws (fun _ _ => false) n).1 = .debug ∧
      ∃ seen k₁, dotLoopAmong fuel ws n.tree [.node n.index] [] 0 = .ok (seen, k₁) ∧
        ∃ x ∈ dotNodes (seen.filterMap DotNode.nodeId) (seen.filterMap DotNode.altId), ∃ j,
          labelFails dbgT dbgAK dbgV (ws j n.tree) x) ∨
    (DotAgrees (toDotPanics dbgT dbgAK dbgV fuel ws (fun _ _ => false) n)
      (toDotAmong (fun a => (dbgT a).getD "") (fun a => (dbgAK a).getD "") (fun a => (dbgV a).getD "") fuel ws n) ∧
    ∀ out, (toDotPanics dbgT dbgAK dbgV fuel ws (fun _ _ => false) n).1 = .ok out →
      ∀ seen k₁, dotLoopAmong fuel ws n.tree [.node n.index] [] 0 = .ok (seen, k₁) →
        ∀ x ∈ dotNodes (seen.filterMap DotNode.nodeId) (seen.filterMap DotNode.altId), ∃ j,
          ¬ labelFails dbgT dbgAK dbgV (ws j n.tree) x) := by
  have hG : dotGraphId = .ok ['G'] := by decide
  simp only [toDotPanics, toDotProg, DotProg.run_bind, toDotAmong, collectAmong, hG]
  have h0 := dotLoopProg_run ws n.tree fuel [.node n.index] [] 0
  generalize (dotLoopProg fuel [.node n.index] []).run (fun k => ws k n.tree) (fun _ => false) 0 = e at h0
  obtain ⟨e, k⟩ := e
  cases hl : dotLoopAmong fuel ws n.tree [.node n.index] [] 0 with
  | panic p => rw [hl] at h0; cases h0; exact Or.inr ⟨rfl, by simp⟩
  | oof => rw [hl] at h0; cases h0; exact Or.inr ⟨rfl, by simp⟩
  | ok r =>
    obtain ⟨seen, k0⟩ := r
    rw [hl] at h0
    cases h0
    simp only
    rcases dotVerticesProg_run ws n.tree dbgT dbgAK dbgV
      (dotNodes (seen.filterMap DotNode.nodeId) (seen.filterMap DotNode.altId)) k with ⟨h1, h2⟩ | ⟨h1, h2⟩
    · generalize (dotVerticesProg dbgT dbgAK dbgV (dotNodes (seen.filterMap DotNode.nodeId)
        (seen.filterMap DotNode.altId))).run (fun k => ws k n.tree) (fun _ => false) k = e at h1
      obtain ⟨e, k'⟩ := e
      cases h1
      exact Or.inl ⟨rfl, seen, k, rfl, h2⟩
    · right
      generalize (dotVerticesProg dbgT dbgAK dbgV (dotNodes (seen.filterMap DotNode.nodeId)
        (seen.filterMap DotNode.altId))).run (fun k => ws k n.tree) (fun _ => false) k = e at h1 h2
      obtain ⟨e, k1⟩ := e
      cases hv : dotVerticesAmong (fun a => (dbgT a).getD "") (fun a => (dbgAK a).getD "") (fun a => (dbgV a).getD "") ws
          n.tree (dotNodes (seen.filterMap DotNode.nodeId) (seen.filterMap DotNode.altId)) k with
      | panic p => rw [hv] at h1; cases h1; exact ⟨rfl, by simp⟩
      | oof => rw [hv] at h1; cases h1; exact ⟨rfl, by simp⟩
      | ok r =>
        obtain ⟨vs, k1'⟩ := r
        rw [hv] at h1
        cases h1
        constructor
        · simp only
          have h3 := dotNodeEdgesProg_run ws n.tree (seen.filterMap DotNode.nodeId) k1
          generalize (dotNodeEdgesProg (seen.filterMap DotNode.nodeId)).run (fun k => ws k n.tree) (fun _ => false) k1 = e at h3
          obtain ⟨e, k2⟩ := e
          cases he : dotNodeEdgesAmong ws n.tree (seen.filterMap DotNode.nodeId) k1 with
          | panic p => rw [he] at h3; cases h3; rfl
          | oof => rw [he] at h3; cases h3; rfl
          | ok r =>
            obtain ⟨e1, k2'⟩ := r
            rw [he] at h3
            cases h3
            simp only
            have h4 := dotAltEdgesProg_run ws n.tree (seen.filterMap DotNode.altId) k2
            generalize (dotAltEdgesProg (seen.filterMap DotNode.altId)).run (fun k => ws k n.tree) (fun _ => false) k2 = e at h4
            obtain ⟨e, k'⟩ := e
            cases hx : dotAltEdgesAmong ws n.tree (seen.filterMap DotNode.altId) k2 with
            | panic p => rw [hx] at h4; cases h4; rfl
            | oof => rw [hx] at h4; cases h4; rfl
            | ok r =>
              obtain ⟨e2, k3⟩ := r
              rw [hx] at h4
              cases h4
              simp only
              cases dotEdgeIds (e1 ++ e2) <;> rfl
        · intro out _ seen' k' hs
          cases hs
          exact h2 vs rfl
end

section
variable {T AK V : Type}
variable [Ord T] [Ord AK] [Ord V] [TransOrd T] [TransOrd AK] [TransOrd V]
variable [LawfulEqOrd T] [LawfulEqOrd AK] [LawfulEqOrd V]
variable (dbgT : T → Option String) (dbgAK : AK → Option String) (dbgV : V → Option String)

theorem debugPanics_iff {w : World T AK V} {t : Nat} {x : DotNode} :
    DebugPanics dbgT dbgAK dbgV w t x ↔ labelFails dbgT dbgAK dbgV (w t) x := by
  constructor
  · rintro (⟨h1, h2, h3⟩ | ⟨h1, h2, h3⟩ | ⟨h1, h2, h3⟩) <;> rename_i a b k <;> unfold World.content at h1 <;>
      simp only at h1 <;>
      (cases hg : (w t).getAlt a with
      | panic p => simp [hg] at h1
      | oof => simp [hg] at h1
      | ok c =>
        cases c <;>
          simp only [hg, Res.ok.injEq, NodeView.branch.injEq, NodeView.leaf.injEq, reduceCtorEq] at h1 <;> subst h1 <;>
          simp [World.action, World.withBranch, World.kind, World.value, World.withLeaf, hg, NodeContent.asBranch,
            NodeContent.asLeaf, Res.expect] at h2 <;> subst h2 <;> simp [labelFails, hg, h3])
  · intro h
    cases x with
    | node n => exact h.elim
    | alt a =>
      simp only [labelFails] at h
      cases hg : (w t).getAlt a with
      | panic p => simp [hg] at h
      | oof => simp [hg] at h
      | ok c =>
        cases c with
        | branch act ns =>
          simp only [hg] at h
          refine .action (b := ⟨a, t⟩) ?_ ?_ h <;>
            simp [World.content, World.action, World.withBranch, hg, NodeContent.asBranch, Res.expect]
        | leaf kd v =>
          simp only [hg] at h
          rcases h with h | h
          · refine .kind (l := ⟨a, t⟩) ?_ ?_ h <;>
              simp [World.content, World.kind, World.withLeaf, hg, NodeContent.asLeaf, Res.expect]
          · refine .value (l := ⟨a, t⟩) ?_ ?_ h <;>
              simp [World.content, World.value, World.withLeaf, hg, NodeContent.asLeaf, Res.expect]

/-- C146.  Without panics of locks and of `Debug`, these are the drawings of C131. -/
theorem to_dot_no_panics (f : T → String) (g : AK → String) (h : V → String) (fuel : Nat) (ws : Nat → World T AK V)
    (n : Node) : DotAgrees (toDotPanics (fun a => some (f a)) (fun a => some (g a)) (fun a => some (h a)) fuel ws
      (fun _ _ => false) n) (toDotAmong f g h fuel ws n) := by
  rcases toDotProg_run ws (fun a => some (f a)) (fun a => some (g a)) (fun a => some (h a)) fuel n with
    ⟨-, -, -, -, x, -, j, hj⟩ | ⟨h1, -⟩
  · cases x with
    | node m => exact hj.elim
    | alt a =>
      simp only [labelFails] at hj
      split at hj <;> simp at hj
  · exact h1

/-- C146.  Poisoned locks, at whatever moments: if the lock is poisoned at none of the reads `to_dot` makes, nothing is
different; otherwise it panics at the first of those at which it is. -/
theorem to_dot_locks (fuel : Nat) (ws : Nat → World T AK V) (lost : Nat → Nat → Bool) (n : Node) :
    ((∀ j < (toDotPanics dbgT dbgAK dbgV fuel ws (fun _ _ => false) n).2, lost j n.tree = false) →
      toDotPanics dbgT dbgAK dbgV fuel ws lost n = toDotPanics dbgT dbgAK dbgV fuel ws (fun _ _ => false) n) ∧
    ∀ j < (toDotPanics dbgT dbgAK dbgV fuel ws (fun _ _ => false) n).2, lost j n.tree = true →
      (∀ i < j, lost i n.tree = false) → toDotPanics dbgT dbgAK dbgV fuel ws lost n = (.poisoned, j) := by
  obtain ⟨-, h1, h2⟩ := (toDotProg dbgT dbgAK dbgV fuel n).run_lost (mem := fun k => ws k n.tree)
    (lost := fun k => lost k n.tree) 0
  exact ⟨fun h => h1 fun j _ => h j, fun j hj hl hi => h2 j (Nat.zero_le _) hj hl fun i _ => hi i⟩

/-- C146.  If the lock is poisoned when it begins, it panics at once. -/
theorem to_dot_poisoned {fuel : Nat} (hf : 1 ≤ fuel) (ws : Nat → World T AK V) {lost : Nat → Nat → Bool} {n : Node}
    (hl : lost 0 n.tree = true) : toDotPanics dbgT dbgAK dbgV fuel ws lost n = (.poisoned, 0) := by
  obtain ⟨m, rfl⟩ : ∃ m, fuel = m + 1 := ⟨fuel - 1, by omega⟩
  simp [toDotPanics, toDotProg, DotProg.run_bind, dotLoopProg, dotLevelProg, DotProg.run, hl]

/-- C146.  Whatever other threads do in the meantime, `to_dot` panics for no other reason; and if it returns, it has drawn
what C131 says. -/
theorem to_dot_debug_among_others {log : TreeLog T AK V} {ws : Nat → World T AK V} {held : Nat → List Handle}
    (h : History log (ws 0) (held 0)) (hm : Moments ws held) {n : Node} (hn : .node n ∈ held 0) (fuel : Nat) :
    (toDotPanics dbgT dbgAK dbgV fuel ws (fun _ _ => false) n).1 = .oof ∨
    (toDotPanics dbgT dbgAK dbgV fuel ws (fun _ _ => false) n).1 = .debug ∨
    ∃ out k m drawn, toDotPanics dbgT dbgAK dbgV fuel ws (fun _ _ => false) n = (.ok out, k) ∧
      DrawnBetween (fun a => (dbgT a).getD "") (fun a => (dbgAK a).getD "") (fun a => (dbgV a).getD "") ws n m k drawn out := by
  rcases toDotProg_run ws dbgT dbgAK dbgV fuel n with ⟨h1, -⟩ | ⟨h1, -⟩
  · exact Or.inr (Or.inl h1)
  · rcases to_dot_among_others (fun a => (dbgT a).getD "") (fun a => (dbgAK a).getD "") (fun a => (dbgV a).getD "")
      h hm hn fuel with h2 | ⟨out, k, m, drawn, h2, h3⟩
    · rw [h2] at h1
      exact Or.inl h1
    · rw [h2] at h1
      exact Or.inr (Or.inr ⟨out, k, m, drawn, h1, h3⟩)

/-- C146.  If nobody changes the tree: `to_dot` panics exactly if printing some alternative that can be reached does. -/
theorem to_dot_debug_exact {log : TreeLog T AK V} {w : World T AK V} {held : List Handle}
    (h : History log w held) {n : Node} (hn : .node n ∈ held) :
    ∃ N, ∀ fuel, N ≤ fuel →
      ((∀ x, Relation.TransGen (ForestArrow w n.tree) (.node n.index) x → ¬ DebugPanics dbgT dbgAK dbgV w n.tree x) →
        ∃ out k, toDotPanics dbgT dbgAK dbgV fuel (fun _ => w) (fun _ _ => false) n = (.ok out, k) ∧
          toDot (fun a => (dbgT a).getD "") (fun a => (dbgAK a).getD "") (fun a => (dbgV a).getD "") fuel w n = .ok out) ∧
      ((∃ x, Relation.TransGen (ForestArrow w n.tree) (.node n.index) x ∧ DebugPanics dbgT dbgAK dbgV w n.tree x) →
        (toDotPanics dbgT dbgAK dbgV fuel (fun _ => w) (fun _ _ => false) n).1 = .debug) := by
  obtain ⟨N₁, ns, es, h1, h2, h3, h4⟩ := dotGraph_ok (h.inv.wf n.tree) (h.inv.handles _ hn)
  obtain ⟨N₂, out, k1, -⟩ := to_dot_exact (fun a => (dbgT a).getD "") (fun a => (dbgAK a).getD "")
    (fun a => (dbgV a).getD "") h hn
  refine ⟨max N₁ N₂, fun fuel hf => ?_⟩
  have k2 := k1 fuel (by omega)
  obtain ⟨k, k3⟩ := (to_dot_undisturbed (ws := fun _ => w) (fun a => (dbgT a).getD "") (fun a => (dbgAK a).getD "")
    (fun a => (dbgV a).getD "") (fun _ => rfl) fuel out).2 k2
  have hs : ∀ seen k₁, dotLoopAmong fuel (fun _ => w) n.tree [.node n.index] [] 0 = .ok (seen, k₁) →
      dotNodes (seen.filterMap DotNode.nodeId) (seen.filterMap DotNode.altId) = ns := by
    intro seen k₁ hl
    have e1 := dotLoopAmong_alone (ws := fun _ => w) (i := w n.tree) (fun _ => rfl) fuel [.node n.index] [] 0
    rw [hl] at e1
    have e2 := h1 fuel (by omega)
    unfold dotGraph collectNodesAndAlts at e2
    rw [← e1] at e2
    simp only [Res.mapOut] at e2
    split at e2 <;> simp at e2
    exact e2.1
  rcases toDotProg_run (fun _ => w) dbgT dbgAK dbgV fuel n with ⟨h5, seen, k', hl, x, hx, j, hj⟩ | ⟨h5, h6⟩
  · refine ⟨fun hno => ?_, fun _ => h5⟩
    rw [hs _ _ hl] at hx
    exact absurd ((debugPanics_iff dbgT dbgAK dbgV).2 hj) (hno x ((h3 x).1 hx))
  · rw [k3] at h5
    refine ⟨fun _ => ⟨out, k, h5, k2⟩, ?_⟩
    rintro ⟨x, hx, hx'⟩
    obtain ⟨seen, k', hl⟩ : ∃ seen k', dotLoopAmong fuel (fun _ => w) n.tree [.node n.index] [] 0 = .ok (seen, k') := by
      unfold toDotAmong collectAmong at k3
      cases hl : dotLoopAmong fuel (fun _ => w) n.tree [.node n.index] [] 0 with
      | ok r => exact ⟨_, _, rfl⟩
      | panic p => simp [hl] at k3
      | oof => simp [hl] at k3
    obtain ⟨j, hj⟩ := h6 out (by rw [h5]) seen k' hl x (by rw [hs _ _ hl]; exact (h3 x).2 hx)
    exact absurd ((debugPanics_iff dbgT dbgAK dbgV).1 hx') hj

/-- C146.  The same after any history of calls in which functions of the user may have panicked: on a poisoned tree `to_dot`
panics at its first read; on others it panics exactly if printing some alternative that can be reached does, and else
draws what it always draws. -/
theorem to_dot_after_panics {log} {pw : PWorld T AK V} {held : List Handle} (h : PHistory log pw held) {n : Node}
    (hn : .node n ∈ held) :
    ∃ N, ∀ fuel, N ≤ fuel →
      (pw.poisoned n.tree = true →
        toDotPanics dbgT dbgAK dbgV fuel (fun _ => pw.world) (fun _ => pw.poisoned) n = (.poisoned, 0)) ∧
      (pw.poisoned n.tree = false →
        ((∀ x, Relation.TransGen (ForestArrow pw.world n.tree) (.node n.index) x →
            ¬ DebugPanics dbgT dbgAK dbgV pw.world n.tree x) →
          ∃ out k, toDotPanics dbgT dbgAK dbgV fuel (fun _ => pw.world) (fun _ => pw.poisoned) n = (.ok out, k) ∧
            toDot (fun a => (dbgT a).getD "") (fun a => (dbgAK a).getD "") (fun a => (dbgV a).getD "") fuel pw.world n =
              .ok out) ∧
        ((∃ x, Relation.TransGen (ForestArrow pw.world n.tree) (.node n.index) x ∧
            DebugPanics dbgT dbgAK dbgV pw.world n.tree x) →
          (toDotPanics dbgT dbgAK dbgV fuel (fun _ => pw.world) (fun _ => pw.poisoned) n).1 = .debug)) := by
  obtain ⟨w, hw, hsame⟩ := user_panics_isolated h
  obtain ⟨N, hN⟩ := to_dot_debug_exact dbgT dbgAK dbgV hw hn
  refine ⟨max N 1, fun fuel hf => ⟨fun hp => to_dot_poisoned dbgT dbgAK dbgV (by omega) _ hp, fun hp => ?_⟩⟩
  have he := hsame _ hp
  have ha : ForestArrow pw.world n.tree = ForestArrow w n.tree := by
    funext x y
    exact propext ⟨fun k => k.mono (by rw [he]; exact .refl _), fun k => k.mono (by rw [he]; exact .refl _)⟩
  have hd : DebugPanics dbgT dbgAK dbgV pw.world n.tree = DebugPanics dbgT dbgAK dbgV w n.tree := by
    funext x
    rw [eq_iff_iff, debugPanics_iff, debugPanics_iff, he]
  have hl := (to_dot_locks dbgT dbgAK dbgV fuel (fun _ => pw.world) (fun _ => pw.poisoned) n).1 fun _ _ => hp
  have ht : toDotPanics dbgT dbgAK dbgV fuel (fun _ => pw.world) (fun _ _ => false) n =
      toDotPanics dbgT dbgAK dbgV fuel (fun _ => w) (fun _ _ => false) n := by
    simp only [toDotPanics, he]
  have hq : toDot (fun a => (dbgT a).getD "") (fun a => (dbgAK a).getD "") (fun a => (dbgV a).getD "") fuel pw.world n =
      toDot (fun a => (dbgT a).getD "") (fun a => (dbgAK a).getD "") (fun a => (dbgV a).getD "") fuel w n := by
    simp only [toDot, dotGraph, collectNodesAndAlts, he]
  rw [ha, hd, hl, ht, hq]
  exact hN fuel (by omega)
end

/-! ## Witnesses: the cyclic forest of C37 -/

-- The search makes the reads 0 to 4, the labels 5 and 6, the edges 7 to 10.  `Debug` of a value, or of an action, panics; nothing
-- panics; the lock is poisoned from read 5 on.
example : History forestExample.1 forestExample.2.1 forestExample.2.2 ∧ .node ⟨0, 7⟩ ∈ forestExample.2.2 ∧
    (toDotPanics (fun _ => some "T") (fun _ => some "K") (fun _ => none) 10 (fun _ => forestExample.2.1)
      (fun _ _ => false) ⟨0, 7⟩).1 = .debug ∧
    (toDotPanics (fun _ => some "T") (fun _ => none) (fun _ => some "V") 10 (fun _ => forestExample.2.1)
      (fun _ _ => false) ⟨0, 7⟩).1 = .debug ∧
    (∃ out, toDotPanics (fun _ => some "T") (fun _ => some "K") (fun _ => some "V") 10 (fun _ => forestExample.2.1)
      (fun _ _ => false) ⟨0, 7⟩ = (.ok out, 11)) ∧
    toDotPanics (fun _ => some "T") (fun _ => some "K") (fun _ => some "V") 10 (fun _ => forestExample.2.1)
      (fun k t => t = 7 ∧ 5 ≤ k) ⟨0, 7⟩ = (.poisoned, 5) :=
  ⟨forestExample_history, by decide, by decide, by decide, ⟨_, rfl⟩, by decide⟩

-- A node of a poisoned tree, one of another tree.
example : ∃ (log : List (TreeOp Nat Nat Nat × Outcome (TreeOut Nat Nat Nat))) (pw : PWorld Nat Nat Nat)
    (held : List Handle), PHistory log pw held ∧ .node ⟨0, 7⟩ ∈ held ∧ .node ⟨0, 8⟩ ∈ held ∧
    pw.poisoned 7 = true ∧ pw.poisoned 8 = false := by
  refine ⟨[(.makeNode 8, .normal (.ok (.node ⟨0, 8⟩))),
       (.makeLeafAlt 7 2 2, .user .compare), (.makeLeafAlt 7 1 1, .normal (.ok (.alt ⟨0, 7⟩))),
       (.makeNode 7, .normal (.ok (.node ⟨0, 7⟩)))], _, _, .call _ (.call _ (.call _ (.call _ (.newOwner 8 (.newOwner 7 .start
    (by simp)) (by simp [Handle.owner])) ?_ (.normal ?_)) ?_ (.normal ?_)) ?_
    (.write (t := 7) (c := .leaf 2 2) ?_ rfl (.insert ?_))) ?_ (.normal ?_), by decide, by decide, rfl, rfl⟩
  all_goals first | decide | exact ⟨_, by decide, rfl⟩ | skip
end Bongo
