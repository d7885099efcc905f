import Verif.Proof.EarleyWork
import Verif.Spec.Work
import Mathlib.Tactic.Ring
import Mathlib.Tactic.GCongr
import Mathlib.Algebra.Order.Ring.Nat
/-! # The bound as a polynomial -/
namespace Bongo

theorem pass_le (P E n : Nat) :
    passBound E (P * (n + 1)) ((n + 1) * (P * (n + 1) + 1)) ≤ passFactor P E * (n + 1) ^ 3 := by
  have hN : 1 ≤ n + 1 := by omega
  generalize n + 1 = N at hN
  unfold passBound passFactor
  have a1 : N * (P * N + 1) + P * N ≤ (2 * P + 1) * N ^ 2 := by
    have b1 : N ≤ N ^ 2 := Nat.le_self_pow (by omega) _
    calc N * (P * N + 1) + P * N = P * N ^ 2 + N + P * N := by ring
      _ ≤ P * N ^ 2 + N ^ 2 + P * N ^ 2 := by gcongr
      _ = (2 * P + 1) * N ^ 2 := by ring
  have b2 : N ≤ N ^ 3 := Nat.le_self_pow (by omega) _
  have b3 : 1 ≤ N ^ 3 := Nat.one_le_pow _ _ hN
  calc P * N + P * N * (E * (N * (P * N + 1) + P * N)) + 1
      ≤ P * N ^ 3 + P * N * (E * ((2 * P + 1) * N ^ 2)) + N ^ 3 := by gcongr
    _ = (P + P * E * (2 * P + 1) + 1) * N ^ 3 := by ring

theorem work_le (P E n : Nat) :
    (n + 1) * setWork P E (P * (n + 1)) ((n + 1) * (P * (n + 1) + 1)) ≤ workFactor P E * (n + 1) ^ 6 := by
  obtain ⟨N, rfl⟩ : ∃ N, N = n + 1 := ⟨_, rfl⟩
  have hN : 1 ≤ n + 1 := by omega
  generalize n + 1 = N at hN
  have h1 : P * N * (P * N) = P * P * N ^ 2 := by ring
  have hpass : passWork P E (P * N) ≤ (3 * P * P + 2 * P * P * E) * N ^ 2 := by
    unfold passWork
    have : P * N * (P + P * N) * E ≤ 2 * P * P * E * N ^ 2 := by
      have a : P ≤ P * N := Nat.le_mul_of_pos_right _ hN
      calc P * N * (P + P * N) * E ≤ P * N * (P * N + P * N) * E := by gcongr
        _ = 2 * P * P * E * N ^ 2 := by ring
    calc P * N * (3 * (P * N)) + P * N * (P + P * N) * E
        ≤ P * N * (3 * (P * N)) + 2 * P * P * E * N ^ 2 := by omega
      _ = (3 * P * P + 2 * P * P * E) * N ^ 2 := by ring
  have hF : P * N + P * N * (E * (N * (P * N + 1) + P * N)) + 1 ≤
      (P + P * E * (2 * P + 1) + 1) * N ^ 3 := by
    obtain ⟨m, rfl⟩ : ∃ m, N = m + 1 := ⟨N - 1, by omega⟩
    exact pass_le P E m
  have hset : setWork P E (P * N) (N * (P * N + 1)) ≤ workFactor P E * N ^ 5 := by
    unfold setWork workFactor
    have b5 : N ≤ N ^ 5 := Nat.le_self_pow (by omega) _
    calc P * N * (E + 4) + (P * N + P * N * (E * (N * (P * N + 1) + P * N)) + 1) * passWork P E (P * N)
        ≤ P * N ^ 5 * (E + 4) + (P + P * E * (2 * P + 1) + 1) * N ^ 3 *
          ((3 * P * P + 2 * P * P * E) * N ^ 2) := by gcongr
      _ = _ := by ring
  calc N * setWork P E (P * N) (N * (P * N + 1)) ≤ N * (workFactor P E * N ^ 5) := by gcongr
    _ = workFactor P E * N ^ 6 := by ring
end Bongo
