import Verif.Proof.SharedRun
import Verif.Proof.Fleet
/-!
# A history as the first part of a schedule

A parse in a tree with a history, run alone, is a parse in an empty tree whose other threads have made
that history before its first call.
-/
set_option linter.unusedSectionVars false
namespace Bongo
open Std
variable {T NT AK AV V α : Type}
variable [Ord T] [Ord NT] [Ord AK] [Ord V] [DecidableEq T] [DecidableEq NT]
variable [TransOrd T] [TransOrd AK] [TransOrd V] [LawfulEqOrd T] [LawfulEqOrd AK] [LawfulEqOrd V]

/-- The other threads make the history. -/
theorem History.replay {log : TreeLog T AK V} {w : World T AK V} {held : List Handle}
    (h : History log w held) (t : Nat) (p : TreeProg T AK V α) :
    ∃ others, SharedRuns ⟨p, World.new, [.tree t]⟩ 0 ⟨p, w, others⟩ ∧
      (∀ x ∈ held, x ∈ others) ∧ ∀ x ∈ others, x ∈ held ∨ x = .tree t := by
  induction h with
  | start => exact ⟨_, .start, by simp, by simp⟩
  | @newOwner log w held t' _ ht' ih =>
    obtain ⟨others, h1, h2, h3⟩ := ih
    by_cases e : t' = t
    · subst e
      by_cases hm : (.tree t' : Handle) ∈ others
      · refine ⟨others, h1, ?_, fun x hx => (h3 x hx).imp (List.mem_cons_of_mem _) id⟩
        intro x hx
        rcases List.mem_cons.1 hx with rfl | hx
        · exact hm
        · exact h2 x hx
      · refine ⟨.tree t' :: others, h1.other (.newOwner t' ?_), ?_, ?_⟩
        · intro x hx
          rcases h3 x hx with h | rfl
          · exact ht' x h
          · exact absurd hx hm
        · intro x hx
          rcases List.mem_cons.1 hx with rfl | hx
          · simp
          · exact List.mem_cons_of_mem _ (h2 x hx)
        · intro x hx
          rcases List.mem_cons.1 hx with rfl | hx
          · exact Or.inr rfl
          · exact (h3 x hx).imp (List.mem_cons_of_mem _) id
    · refine ⟨.tree t' :: others, h1.other (.newOwner t' ?_), ?_, ?_⟩
      · intro x hx
        rcases h3 x hx with h | rfl
        · exact ht' x h
        · exact fun h => e h.symm
      · intro x hx
        rcases List.mem_cons.1 hx with rfl | hx
        · simp
        · exact List.mem_cons_of_mem _ (h2 x hx)
      · intro x hx
        rcases List.mem_cons.1 hx with rfl | hx
        · exact Or.inl (by simp)
        · exact (h3 x hx).imp (List.mem_cons_of_mem _) id
  | @call log w held op _ hop ih =>
    obtain ⟨others, h1, h2, h3⟩ := ih
    refine ⟨_, h1.other (.call op (hop.weaken h2)), ?_, ?_⟩
    · intro x hx
      rcases List.mem_append.1 hx with hx | hx
      · exact List.mem_append_left _ hx
      · exact List.mem_append_right _ (h2 x hx)
    · intro x hx
      rcases List.mem_append.1 hx with hx | hx
      · exact Or.inl (List.mem_append_left _ hx)
      · exact (h3 x hx).imp (List.mem_append_right _) id

/-- From a point of a schedule, the thread alone goes on to its end. -/
theorem SharedRuns.finish {c₀ : Running T AK V α}
    (hok : ∀ n c, SharedRuns c₀ n c → ∀ op k, c.prog = .call op k →
      ∃ w' o, op.exec c.world = (w', .ok o)) (p : TreeProg T AK V α) :
    ∀ (n : Nat) (w : World T AK V) (others : List Handle), SharedRuns c₀ n ⟨p, w, others⟩ →
    ∃ c, SharedRuns c₀ (n + p.calls w) c ∧ (∀ op k, c.prog ≠ .call op k) ∧
      ((p.run w).2 = .oof → c.prog = .oof) := by
  induction p with
  | ret a => intro n w others h; exact ⟨_, h, by simp, by simp [TreeProg.run]⟩
  | panic a => intro n w others h; exact ⟨_, h, by simp, by simp [TreeProg.run]⟩
  | oof => intro n w others h; exact ⟨_, h, by simp, by simp [TreeProg.run]⟩
  | call op k ih =>
    intro n w others h
    obtain ⟨w', o, ho⟩ := hok _ _ h op k rfl
    simp only at ho
    obtain ⟨c, h1, h2, h3⟩ := ih o _ _ _ (h.own (.call ho))
    refine ⟨c, ?_, h2, by simpa only [TreeProg.run, ho] using h3⟩
    have : (TreeProg.call op k).calls w = (k o).calls w' + 1 := by
      simp only [TreeProg.calls, ho]
    rw [this]
    have e : n + ((k o).calls w' + 1) = n + 1 + (k o).calls w' := by omega
    rw [e]
    exact h1
end Bongo
