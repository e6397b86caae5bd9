import Mathlib.Order.Basic
import Mathlib.Tactic.Common

/-!
Schedules that try all turns between two steps of an execution.
-/

namespace Hycu

/-- At time `m` it is tried for state `n` to make a step of turn `j < n`; if `j = n`, the execution goes on. -/
def pos : Nat → Nat × Nat
  | 0 => (0, 0)
  | m + 1 => if (pos m).2 < (pos m).1 then ((pos m).1, (pos m).2 + 1) else ((pos m).1 + 1, 0)

theorem pos_add {m n : Nat} (h : pos m = (n, 0)) : ∀ j, j ≤ n → pos (m + j) = (n, j) := by
  intro j hj
  induction j with
  | zero => exact h
  | succ j ih =>
    rw [← Nat.add_assoc, pos, ih (by omega)]
    simp only
    rw [if_pos (by omega)]

theorem pos_start (n : Nat) : ∃ m, n ≤ m ∧ pos m = (n, 0) := by
  induction n with
  | zero => exact ⟨0, (Nat.le_refl _), rfl⟩
  | succ n ih =>
    obtain ⟨m, h1, h2⟩ := ih
    refine ⟨m + n + 1, by omega, ?_⟩
    rw [pos, pos_add h2 n (Nat.le_refl _)]
    simp

theorem pos_at {n j : Nat} (hj : j ≤ n) : ∃ m, n ≤ m ∧ pos m = (n, j) := by
  obtain ⟨m, h1, h2⟩ := pos_start n
  exact ⟨m + j, by omega, pos_add h2 j hj⟩

end Hycu
