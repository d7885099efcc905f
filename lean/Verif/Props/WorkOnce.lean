import Verif.Proof.WorkOnce
import Verif.Props.Work
import Verif.Props.Right
/-!
# C142: what a parse costs if the input is divided in one way only
-/
set_option linter.unusedSectionVars false
namespace Bongo
open Std TreeProg

theorem pass_once_le (P E n : Nat) : passBoundOnce P E (P * (n + 1)) ≤ passFactorOnce P E * (n + 1) := by
  have hN : 1 ≤ n + 1 := by omega
  generalize n + 1 = N at hN
  unfold passBoundOnce passFactorOnce
  calc P * N + P * N * (E * (P + 1)) + 1 ≤ P * N + P * N * (E * (P + 1)) + N := by gcongr
    _ = (P + P * E * (P + 1) + 1) * N := by ring

theorem work_once_le (P E n : Nat) :
    (n + 1) * setWorkOnce P E (P * (n + 1)) ≤ workFactorOnce P E * (n + 1) ^ 4 := by
  have hp := pass_once_le P E n
  have hN : 1 ≤ n + 1 := by omega
  generalize n + 1 = N at hN hp
  have hpass : passWork P E (P * N) ≤ (3 * P * P + 2 * P * P * E) * N ^ 2 := by
    unfold passWork
    have : P * N * (P + P * N) * E ≤ 2 * P * P * E * N ^ 2 := by
      have a : P ≤ P * N := Nat.le_mul_of_pos_right _ hN
      calc P * N * (P + P * N) * E ≤ P * N * (P * N + P * N) * E := by gcongr
        _ = 2 * P * P * E * N ^ 2 := by ring
    calc P * N * (3 * (P * N)) + P * N * (P + P * N) * E
        ≤ P * N * (3 * (P * N)) + 2 * P * P * E * N ^ 2 := by omega
      _ = (3 * P * P + 2 * P * P * E) * N ^ 2 := by ring
  have b3 : N ≤ N ^ 3 := Nat.le_self_pow (by omega) _
  unfold setWorkOnce workFactorOnce
  calc N * (P * N * (E + 4) + passBoundOnce P E (P * N) * passWork P E (P * N))
      ≤ N * (P * N ^ 3 * (E + 4) + passFactorOnce P E * N * ((3 * P * P + 2 * P * P * E) * N ^ 2)) := by gcongr
    _ = _ := by ring

section
variable {T NT AK AV V : Type}
variable [Ord T] [Ord NT] [Ord AK] [Ord V] [DecidableEq T] [DecidableEq NT]
variable [TransOrd T] [TransOrd NT] [TransOrd AK] [TransOrd V]
variable [LawfulEqOrd T] [LawfulEqOrd NT] [LawfulEqOrd AK] [LawfulEqOrd V]
variable {addr : StartNonTerminal NT → Nat → Nat} {g : Grammar T NT AK AV}

/-- C142.  If no production can divide its part of the input in two ways, the number of calls is at most a constant
of the grammar times the fourth power of the number of tokens plus one, whatever the tree has been used for. -/
theorem parse_work_once (hg : g.Accepted) (ha : AddrInj g.wrapped addr)
    {e : Nat} (he : ∀ p ∈ g.prods, p.elements.length ≤ e) {log : TreeLog T AK V} {w : World T AK V}
    {held : List Handle} (hist : History log w held) (t fuel : Nat) {toks : List (Token T V)}
    (hs : g.SplitsOnce (kinds toks)) :
    (parseProg addr g.wrapped t fuel toks).calls w ≤
      workFactorOnce (g.prods.length + 1) (max e 2) * (toks.length + 1) ^ 4 := by
  have hP := wrapped_prods_length g
  have hE := wrapped_elements_le hg.valid.toWF he
  rw [parse_work_any_memory hist]
  refine Nat.le_trans (parse_calls_once hg.valid.toWF ha hE (eunique_of_splits hg.valid.toWF hs) t fuel
    (M := g.wrapped.prods.length * (toks.length + 1)) (Nat.le_refl _)).1 ?_
  rw [hP]
  exact work_once_le _ _ _

/-- C142.  No closing loop makes more passes than a constant of the grammar times the number of tokens plus one. -/
theorem parse_passes_once (hg : g.Accepted)
    (ha : AddrInj g.wrapped addr) {e : Nat} (he : ∀ p ∈ g.prods, p.elements.length ≤ e)
    {log : TreeLog T AK V} {w : World T AK V} {held : List Handle} (hist : History log w held) (t : Nat)
    {toks : List (Token T V)} (hs : g.SplitsOnce (kinds toks)) {fuel : Nat}
    (hf : passFactorOnce (g.prods.length + 1) (max e 2) * (toks.length + 1) ≤ fuel) :
    parse addr g.wrapped fuel w t toks ≠ .oof := by
  intro hoof
  have h0 : History [] (World.new : World T AK V) [.tree t] := .newOwner t .start (by simp)
  have ht : ∃ h ∈ [Handle.tree t], h.owner = t := ⟨.tree t, by simp, rfl⟩
  obtain ⟨others, h1, -, -⟩ := hist.replay t (parseProg addr g.wrapped t fuel toks)
  obtain ⟨c, h2, -, h3⟩ := SharedRuns.finish
    (c₀ := ⟨parseProg addr g.wrapped t fuel toks, World.new, [.tree t]⟩)
    (fun n c hc => (parse_among_others h0 ht hc).2.2.2) _ _ _ _ h1
  have hrun := parseProg_run (addr := addr) (g := g.wrapped) fuel w t toks
  rw [hoof] at hrun
  have := (parse_among_others h0 ht h2).2.2.1 (h3 hrun)
  refine (parse_calls_once hg.valid.toWF ha (wrapped_elements_le hg.valid.toWF he)
    (eunique_of_splits hg.valid.toWF hs) t fuel
    (M := g.wrapped.prods.length * (toks.length + 1)) (Nat.le_refl _)).2 ?_ this
  rw [wrapped_prods_length]
  exact Nat.le_trans (pass_once_le _ _ _) hf

/-- C142.  The bound on the calls holds at every point of every schedule with other threads. -/
theorem parse_work_once_shared (hg : g.Accepted)
    (ha : AddrInj g.wrapped addr) {e : Nat} (he : ∀ p ∈ g.prods, p.elements.length ≤ e)
    {log : TreeLog T AK V} {w : World T AK V} {held : List Handle} (hist : History log w held)
    {t fuel : Nat} (ht : ∃ h ∈ held, h.owner = t) {toks : List (Token T V)} (hs : g.SplitsOnce (kinds toks)) {n : Nat}
    {c : Running T AK V (Option Node)}
    (hr : SharedRuns ⟨parseProg addr g.wrapped t fuel toks, w, held⟩ n c) :
    n ≤ workFactorOnce (g.prods.length + 1) (max e 2) * (toks.length + 1) ^ 4 :=
  Nat.le_trans (parse_work_among_others hist ht hr).1 (parse_work_once hg ha he hist t fuel hs)

/-- C142.  A parse that returns has made at most so many nodes and alternatives. -/
theorem parse_memory_once (hg : g.Accepted)
    (ha : AddrInj g.wrapped addr) {e : Nat} (he : ∀ p ∈ g.prods, p.elements.length ≤ e)
    {log : TreeLog T AK V} {w w' : World T AK V} {held : List Handle} (hist : History log w held)
    {t fuel : Nat} {toks : List (Token T V)} (hs : g.SplitsOnce (kinds toks)) {r : Option Node}
    (h : parse addr g.wrapped fuel w t toks = .ok (w', r)) :
    (w' t).size ≤ (w t).size + workFactorOnce (g.prods.length + 1) (max e 2) * (toks.length + 1) ^ 4 := by
  have h1 := parseProg_run (addr := addr) (g := g.wrapped) fuel w t toks
  rw [h] at h1
  simp only at h1
  have h2 := run_size (parseProg addr g.wrapped t fuel toks) w t
  rw [h1] at h2
  exact Nat.le_trans h2 (Nat.add_le_add_left (parse_work_once hg ha he hist t fuel hs) _)

/-- C142.  For grammars for which `parse` is right (C141), and for unambiguous grammars whose nonterminals all derive
something, this is so for every input. -/
theorem parse_work_grammar (hg : g.Accepted) (ha : AddrInj g.wrapped addr)
    (hc : ¬ g.Divides ∨ g.Unambiguous ∧ g.NoDeadEnds)
    {e : Nat} (he : ∀ p ∈ g.prods, p.elements.length ≤ e) {log : TreeLog T AK V} {w : World T AK V}
    {held : List Handle} (hist : History log w held) (t fuel : Nat) (toks : List (Token T V)) :
    (parseProg addr g.wrapped t fuel toks).calls w ≤
      workFactorOnce (g.prods.length + 1) (max e 2) * (toks.length + 1) ^ 4 := by
  refine parse_work_once hg ha he hist t fuel ?_
  rcases hc with h | ⟨h1, h2⟩
  · exact splitsOnce_of_not_divides h _
  · exact splits_of_unambiguous hg.valid.toWF h1 h2 _
end

/-- `S → X Y`, `X → 1 | 1 2`, `Y → 2 3`: the hypotheses of `parse_work_grammar` and `parse_work_once` are met. -/
example : ¬ lateExample.Divides ∧ (∀ p ∈ lateExample.prods, p.elements.length ≤ 2) ∧
    History forestExample.1 forestExample.2.1 forestExample.2.2 ∧
    (∃ h ∈ forestExample.2.2, h.owner = 7) ∧
    ∃ w' n, parse exampleSAddr lateExample.wrapped 9 forestExample.2.1 7 (exampleToks [1, 2, 2, 3]) =
      .ok (w', some n) :=
  ⟨lateExample_no_faults.2.2, by decide, forestExample_history, by decide, _, _, rfl⟩
end Bongo
