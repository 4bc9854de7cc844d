import Verif.Lib.Bits
import Mathlib.Algebra.Order.Ring.Nat
import Mathlib.Algebra.Ring.Parity
import Mathlib.Data.Nat.Factorization.Basic
import Mathlib.Data.Nat.Log
import Mathlib.Tactic.Ring
import Mathlib.Tactic.Linarith

/-! The lowest set bit, and `x & (x - 1)`. -/

namespace Verif.Bits

theorem two_pow_mul_odd {x : ℕ} (hx : x ≠ 0) : ∃ l k, x = 2 ^ (l + 1) * k + 2 ^ l := by
  obtain ⟨l, m, hm, rfl⟩ := Nat.exists_eq_two_pow_mul_odd hx
  obtain ⟨k, rfl⟩ := hm
  exact ⟨l, k, by ring⟩

theorem testBit_low (l k j : ℕ) : (2 ^ (l + 1) * k + 2 ^ l).testBit j =
    if j < l + 1 then decide (j = l) else k.testBit (j - (l + 1)) := by
  rw [Nat.testBit_two_pow_mul_add _ (Nat.pow_lt_pow_right (by norm_num) (by omega))]
  split_ifs
  · rw [Nat.testBit_two_pow]; simp [eq_comm]
  · rfl

theorem testBit_low_pred (l k j : ℕ) : (2 ^ (l + 1) * k + 2 ^ l - 1).testBit j =
    if j < l + 1 then decide (j < l) else k.testBit (j - (l + 1)) := by
  have h : 0 < 2 ^ l := by positivity
  have e : 2 ^ (l + 1) * k + 2 ^ l - 1 = 2 ^ (l + 1) * k + (2 ^ l - 1) := by omega
  have hlt : 2 ^ l < 2 ^ (l + 1) := Nat.pow_lt_pow_right (by norm_num) (by omega)
  rw [e, Nat.testBit_two_pow_mul_add _ (by omega)]
  split_ifs
  · rw [Nat.testBit_two_pow_sub_one]
  · rfl

/-- `x & (x-1)` clears exactly the lowest set bit, and `x ^ (x & (x-1))` is that bit. -/
theorem and_pred {x : ℕ} (hx : x ≠ 0) : ∃ l, x.testBit l = true ∧ (∀ j < l, x.testBit j = false) ∧
    (∀ j, (x &&& (x - 1)).testBit j = (x.testBit j && decide (j ≠ l))) ∧
    x ^^^ (x &&& (x - 1)) = 2 ^ l := by
  obtain ⟨l, k, rfl⟩ := two_pow_mul_odd hx
  have h1 : ∀ j, ((2 ^ (l + 1) * k + 2 ^ l) &&& (2 ^ (l + 1) * k + 2 ^ l - 1)).testBit j =
      ((2 ^ (l + 1) * k + 2 ^ l).testBit j && decide (j ≠ l)) := by
    intro j
    rw [Nat.testBit_and, testBit_low, testBit_low_pred]
    split_ifs with h
    · by_cases hj : j = l
      · simp [hj]
      · simp [hj]
    · have : j ≠ l := by omega
      simp [this]
  refine ⟨l, ?_, ?_, h1, ?_⟩
  · rw [testBit_low]; simp
  · intro j hj; rw [testBit_low]; simp [show j < l + 1 by omega]; omega
  · apply Nat.eq_of_testBit_eq
    intro j
    rw [Nat.testBit_xor, h1, Nat.testBit_two_pow]
    by_cases hj : j = l
    · subst hj; simp [testBit_low]
    · simp [hj, Ne.symm hj]

theorem log2_two_pow (l : ℕ) : Nat.log2 (2 ^ l) = l := by
  rw [Nat.log2_eq_log_two, Nat.log_pow (by norm_num)]

end Verif.Bits
