import Verif.Proof.WorkBound
import Verif.Proof.Replay
import Verif.Props.EarleyExamples
/-!
# C102: what a parse costs

The cost is counted in calls on the tree (`Verif.Model.EarleyProg`): the parser makes no other
allocations that outlive it, and all its loops are around such calls or over the states of its sets.
-/
set_option linter.unusedSectionVars false
namespace Bongo
open Std TreeProg
variable {T NT AK AV V : Type}
variable [Ord T] [Ord NT] [Ord AK] [Ord V] [DecidableEq T] [DecidableEq NT]
variable [TransOrd T] [TransOrd NT] [TransOrd AK] [TransOrd V]
variable [LawfulEqOrd T] [LawfulEqOrd NT] [LawfulEqOrd AK] [LawfulEqOrd V]
variable {addr : StartNonTerminal NT → Nat → Nat}

theorem wrapped_prods_length (g : Grammar T NT AK AV) : g.wrapped.prods.length = g.prods.length + 1 := by
  rw [wrapped_prods_eq]; simp

theorem wrapped_elements_le {g : Grammar T NT AK AV} (hw : g.WF) {e : Nat}
    (he : ∀ p ∈ g.prods, p.elements.length ≤ e) : ∀ p ∈ g.wrapped.prods, p.numElements ≤ max e 2 := by
  intro p hp
  rcases (mem_wrapped_prods hw).1 hp with rfl | ⟨q, hq, rfl⟩
  · exact Nat.le_max_right _ _
  · refine Nat.le_trans ?_ (Nat.le_max_left _ _)
    have := he q hq
    rw [Prod.elements_length] at this
    have e : (liftProd q).numElements = q.numElements := by
      rw [← Prod.elements_length, ← Prod.elements_length, liftProd_elements, List.length_map]
    omega

/-- C102: what is in the tree, or in others, has no influence on the number of calls. -/
theorem parse_work_any_memory {g : StartGrammar T NT AK AV} {log : TreeLog T AK V} {w : World T AK V}
    {held : List Handle} (hist : History log w held) (t fuel : Nat) (toks : List (Token T V)) :
    (parseProg addr g t fuel toks).calls w = (parseProg addr g t fuel toks).calls World.new := by
  have h0 : History [] (World.new : World T AK V) [.tree t] := .newOwner t .start (by simp)
  have ht : ∃ h ∈ [Handle.tree t], h.owner = t := ⟨.tree t, by simp, rfl⟩
  obtain ⟨others, h1, -, -⟩ := hist.replay t (parseProg addr g t fuel toks)
  obtain ⟨c, h2, h3, -⟩ := SharedRuns.finish (c₀ := ⟨parseProg addr g t fuel toks, World.new, [.tree t]⟩)
    (fun n c hc => (parse_among_others h0 ht hc).2.2.2) _ _ _ _ h1
  rw [Nat.zero_add] at h2
  rcases (parse_work_among_others h0 ht h2).2 with ⟨op, k, h⟩ | h
  · exact absurd h (h3 op k)
  · exact h

/-- C102: the number of calls is at most a constant of the grammar times the sixth power of the number
of tokens plus one, whatever the tree has been used for before. -/
theorem parse_work_polynomial {g : Grammar T NT AK AV} (hg : g.Accepted) (ha : AddrInj g.wrapped addr)
    {e : Nat} (he : ∀ p ∈ g.prods, p.elements.length ≤ e) {log : TreeLog T AK V} {w : World T AK V}
    {held : List Handle} (hist : History log w held) (t fuel : Nat) (toks : List (Token T V)) :
    (parseProg addr g.wrapped t fuel toks).calls w ≤
      workFactor (g.prods.length + 1) (max e 2) * (toks.length + 1) ^ 6 := by
  have hP := wrapped_prods_length g
  have hE := wrapped_elements_le hg.valid.toWF he
  rw [parse_work_any_memory hist]
  refine Nat.le_trans (parse_calls_new hg.valid.toWF ha hE toks t fuel
    (M := g.wrapped.prods.length * (toks.length + 1)) (Nat.le_refl _)).1 ?_
  rw [hP]
  exact work_le _ _ _

/-- C102: no closing loop makes more passes than a constant of the grammar times the third power of the
number of tokens plus one: with that much fuel the model never runs out of it, whatever the tree has
been used for before. -/
theorem parse_passes_polynomial {g : Grammar T NT AK AV} (hg : g.Accepted)
    (ha : AddrInj g.wrapped addr) {e : Nat} (he : ∀ p ∈ g.prods, p.elements.length ≤ e)
    {log : TreeLog T AK V} {w : World T AK V} {held : List Handle} (hist : History log w held) (t : Nat)
    (toks : List (Token T V)) {fuel : Nat}
    (hf : passFactor (g.prods.length + 1) (max e 2) * (toks.length + 1) ^ 3 ≤ fuel) :
    parse addr g.wrapped fuel w t toks ≠ .oof := by
  intro hoof
  have h0 : History [] (World.new : World T AK V) [.tree t] := .newOwner t .start (by simp)
  have ht : ∃ h ∈ [Handle.tree t], h.owner = t := ⟨.tree t, by simp, rfl⟩
  obtain ⟨others, h1, -, -⟩ := hist.replay t (parseProg addr g.wrapped t fuel toks)
  obtain ⟨c, h2, -, h3⟩ := SharedRuns.finish
    (c₀ := ⟨parseProg addr g.wrapped t fuel toks, World.new, [.tree t]⟩)
    (fun n c hc => (parse_among_others h0 ht hc).2.2.2) _ _ _ _ h1
  have hrun := parseProg_run (addr := addr) (g := g.wrapped) fuel w t toks
  rw [hoof] at hrun
  have := (parse_among_others h0 ht h2).2.2.1 (h3 hrun)
  refine (parse_calls_new hg.valid.toWF ha (wrapped_elements_le hg.valid.toWF he) toks t fuel
    (M := g.wrapped.prods.length * (toks.length + 1)) (Nat.le_refl _)).2 ?_ this
  rw [wrapped_prods_length]
  exact Nat.le_trans (pass_le _ _ _) hf

/-- C102: the same bound holds at every point of every schedule with other threads. -/
theorem parse_work_polynomial_shared {g : Grammar T NT AK AV} (hg : g.Accepted)
    (ha : AddrInj g.wrapped addr) {e : Nat} (he : ∀ p ∈ g.prods, p.elements.length ≤ e)
    {log : TreeLog T AK V} {w : World T AK V} {held : List Handle} (hist : History log w held)
    {t fuel : Nat} (ht : ∃ h ∈ held, h.owner = t) {toks : List (Token T V)} {n : Nat}
    {c : Running T AK V (Option Node)}
    (hr : SharedRuns ⟨parseProg addr g.wrapped t fuel toks, w, held⟩ n c) :
    n ≤ workFactor (g.prods.length + 1) (max e 2) * (toks.length + 1) ^ 6 :=
  Nat.le_trans (parse_work_among_others hist ht hr).1 (parse_work_polynomial hg ha he hist t fuel toks)

/-! ### Memory -/

theorem addNodeAlt_size {i j : Inner T AK V} {n a : Nat} {c} (h : i.addNodeAlt n a = .ok (j, c)) :
    j.size = i.size := by
  unfold Inner.addNodeAlt at h
  split at h
  · simp only [Res.ok.injEq, _root_.Prod.mk.injEq] at h
    rw [← h.1]
    simp [Inner.size]
  · cases h
  · cases h

theorem addAll_size {i j : Inner T AK V} {n m : Nat} {c} (h : i.addAll n m = .ok (j, c)) :
    j.size = i.size := by
  unfold Inner.addAll at h
  split at h
  · next l _ =>
    clear * - h
    revert h
    generalize WasChanged.unchanged = acc
    induction l generalizing i acc with
    | nil => intro h; simp only [changeIterM, Res.ok.injEq, _root_.Prod.mk.injEq] at h; rw [h.1]
    | cons a l ih =>
      intro h
      unfold changeIterM at h
      split at h
      · next h1 => rw [ih _ h, addNodeAlt_size h1]
      · cases h
      · cases h
  · cases h
  · cases h

theorem makeAlt_size (i : Inner T AK V) (c : NodeContent T AK V) : (i.makeAlt c).1.size ≤ i.size + 1 := by
  unfold Inner.makeAlt AltSet.add
  cases BMap.get? NodeContent.cmp i.alternatives.valueToId c with
  | some x => simp [Inner.size]
  | none => simp [Inner.size]; omega

theorem set_size (w : World T AK V) (t t' : Nat) (i : Inner T AK V) (h : i.size ≤ (w t).size + 1) :
    (w.set t i t').size ≤ (w t').size + 1 := by
  unfold World.set
  split
  · next e => rw [e]; exact h
  · omega

theorem exec_size (w : World T AK V) (op : TreeOp T AK V) (t : Nat) :
    ((op.exec w).1 t).size ≤ (w t).size + 1 := by
  have hupd : ∀ (t' : Nat) (r : Res (Inner T AK V × WasChanged)),
      (∀ j c, r = .ok (j, c) → j.size = (w t').size) → ((w.update t' r).1 t).size ≤ (w t).size + 1 := by
    intro t' r h
    cases r with
    | ok x => exact set_size _ _ _ _ (by rw [h x.1 x.2 rfl]; omega)
    | panic p => simp [World.update]
    | oof => simp [World.update]
  cases op with
  | makeNode t' =>
    simp only [TreeOp.exec, World.makeNode]
    refine set_size _ _ _ _ ?_
    simp [Inner.makeNode, Inner.size]
    omega
  | makeLeafAlt t' k v => exact set_size _ _ _ _ (makeAlt_size _ _)
  | makeBranchAlt t' a ns =>
    simp only [TreeOp.exec, World.makeBranchAlt]
    split
    · exact set_size _ _ _ _ (makeAlt_size _ _)
    · exact Nat.le_succ _
  | addAlt n a =>
    simp only [TreeOp.exec, World.addAlt]
    split
    · exact hupd _ _ fun j c h => addNodeAlt_size h
    · exact Nat.le_succ _
  | addAll n a =>
    simp only [TreeOp.exec, World.addAll]
    split
    · exact hupd _ _ fun j c h => addAll_size h
    · exact Nat.le_succ _
  | _ => exact Nat.le_succ _

theorem run_size {α : Type} (p : TreeProg T AK V α) (w : World T AK V) (t : Nat) :
    ((p.run w).1 t).size ≤ (w t).size + p.calls w := by
  induction p generalizing w with
  | ret a => exact Nat.le_refl _
  | panic a => exact Nat.le_refl _
  | oof => exact Nat.le_refl _
  | call op k ih =>
    have h := exec_size w op t
    unfold TreeProg.run TreeProg.calls
    rcases hx : op.exec w with ⟨w', r⟩
    rw [hx] at h
    cases r with
    | ok o => have := ih o w'; simp only at h ⊢; omega
    | panic p => exact h
    | oof => exact h

/-- C102: a parse that returns has made at most so many nodes and alternatives. -/
theorem parse_memory_polynomial {g : Grammar T NT AK AV} (hg : g.Accepted)
    (ha : AddrInj g.wrapped addr) {e : Nat} (he : ∀ p ∈ g.prods, p.elements.length ≤ e)
    {log : TreeLog T AK V} {w w' : World T AK V} {held : List Handle} (hist : History log w held)
    {t fuel : Nat} {toks : List (Token T V)} {r : Option Node}
    (h : parse addr g.wrapped fuel w t toks = .ok (w', r)) :
    (w' t).size ≤ (w t).size + workFactor (g.prods.length + 1) (max e 2) * (toks.length + 1) ^ 6 := by
  have h1 := parseProg_run (addr := addr) (g := g.wrapped) fuel w t toks
  rw [h] at h1
  simp only at h1
  have h2 := run_size (parseProg addr g.wrapped t fuel toks) w t
  rw [h1] at h2
  exact Nat.le_trans h2 (Nat.add_le_add_left (parse_work_polynomial hg ha he hist t fuel toks) _)

/-- A right-recursive grammar of two productions with at most two elements, three tokens, a tree that
has been used before and one that has not: 47 calls in both, and 9 passes are enough. -/
example : rightExample.Accepted ∧ AddrInj rightExample.wrapped exampleSAddr ∧
    (∀ p ∈ rightExample.prods, p.elements.length ≤ 2) ∧
    History forestExample.1 forestExample.2.1 forestExample.2.2 ∧
    (∃ h ∈ forestExample.2.2, h.owner = 7) ∧
    (parseProg exampleSAddr rightExample.wrapped 7 9 (exampleToks [1, 1, 2])).calls
      (World.new : World Nat Nat Nat) = 47 ∧
    (parseProg exampleSAddr rightExample.wrapped 7 9 (exampleToks [1, 1, 2])).calls forestExample.2.1 = 47 ∧
    ∃ w' n, parse exampleSAddr rightExample.wrapped 9 forestExample.2.1 7 (exampleToks [1, 1, 2]) =
      .ok (w', some n) :=
  ⟨rightExample_accepted, exampleSAddr_addrInj _, by rw [rightExample_prods]; decide,
    forestExample_history, by decide, by decide, by decide, _, _, rfl⟩
end Bongo
