import Mathlib.Data.Nat.Bitwise
import Mathlib.Data.List.Basic
import Mathlib.Tactic.Ring
import Mathlib.Tactic.Linarith

/-!
Helper lemmas about the bits of natural numbers (no model content).
-/

namespace Verif.Bits

/-- Bit `k` of `a + b` when `a` and `b` share no set bit: addition is bitwise or. -/
theorem add_eq_or_of_disjoint : ∀ {a b : ℕ}, a &&& b = 0 → a + b = a ||| b := by
  intro a
  induction a using Nat.strongRecOn with
  | _ a ih =>
    intro b h
    rcases Nat.eq_zero_or_pos a with rfl | ha
    · simp
    have hdiv : (a / 2) &&& (b / 2) = 0 := by
      have := congrArg (· / 2) h
      simpa [Nat.and_div_two] using this
    have hrec := ih (a / 2) (Nat.div_lt_self ha (by norm_num)) hdiv
    have hor : (a ||| b) / 2 = a / 2 ||| b / 2 := Nat.or_div_two
    have hmod : (a ||| b) % 2 = (a % 2 ||| b % 2) := by
      have h1 := Nat.or_mod_two_pow (a := a) (b := b) (n := 1)
      simpa using h1
    have hmand : (a % 2 &&& b % 2) = 0 := by
      have h1 := Nat.and_mod_two_pow (a := a) (b := b) (n := 1)
      simp [h] at h1
      simpa using h1.symm
    have e1 := Nat.div_add_mod (a ||| b) 2
    have e2 := Nat.div_add_mod a 2
    have e3 := Nat.div_add_mod b 2
    have : (a % 2 ||| b % 2) = a % 2 + b % 2 := by
      rcases Nat.mod_two_eq_zero_or_one a with x | x <;>
        rcases Nat.mod_two_eq_zero_or_one b with y | y <;> simp_all
    omega

theorem and_eq_zero_of_testBit {a b : ℕ} (h : ∀ k, ¬ (a.testBit k = true ∧ b.testBit k = true)) :
    a &&& b = 0 := by
  apply Nat.eq_of_testBit_eq
  intro k
  have := h k
  cases ha : a.testBit k <;> cases hb : b.testBit k <;> simp_all [Nat.testBit_and]

theorem testBit_add_of_disjoint {a b : ℕ} (h : ∀ k, ¬ (a.testBit k = true ∧ b.testBit k = true))
    (k : ℕ) : (a + b).testBit k = (a.testBit k || b.testBit k) := by
  rw [add_eq_or_of_disjoint (and_eq_zero_of_testBit h), Nat.testBit_or]

theorem lt_two_pow_iff_testBit {n x : ℕ} : x < 2 ^ n ↔ ∀ k, n ≤ k → x.testBit k = false := by
  constructor
  · intro h k hk
    exact Nat.testBit_lt_two_pow (lt_of_lt_of_le h (Nat.pow_le_pow_right (by norm_num) hk))
  · intro h
    exact Nat.lt_pow_two_of_testBit _ (fun i hi => h i hi)

/-- Insert a zero bit at position `p`. -/
def insZero (p i : ℕ) : ℕ := 2 ^ (p + 1) * (i / 2 ^ p) + i % 2 ^ p

/-- Delete the bit at position `p`. -/
def delBit (p i : ℕ) : ℕ := 2 ^ p * (i / 2 ^ (p + 1)) + i % 2 ^ p

theorem mod_lt_succ (p i : ℕ) : i % 2 ^ p < 2 ^ (p + 1) :=
  lt_of_lt_of_le (Nat.mod_lt _ (by positivity)) (Nat.pow_le_pow_right (by norm_num) (by omega))

theorem testBit_insZero (p i k : ℕ) :
    (insZero p i).testBit k =
      if k < p then i.testBit k else if k = p then false else i.testBit (k - 1) := by
  unfold insZero
  rw [Nat.testBit_two_pow_mul_add _ (mod_lt_succ p i)]
  simp only [Nat.testBit_mod_two_pow, Nat.testBit_div_two_pow]
  by_cases h1 : k < p
  · simp [h1, show k < p + 1 by omega]
  · by_cases h2 : k = p
    · subst h2; simp
    · have : ¬ k < p + 1 := by omega
      simp only [this, h1, h2, if_false]
      congr 1; omega

theorem testBit_delBit (p i k : ℕ) :
    (delBit p i).testBit k = if k < p then i.testBit k else i.testBit (k + 1) := by
  unfold delBit
  rw [Nat.testBit_two_pow_mul_add _ (Nat.mod_lt _ (by positivity))]
  simp only [Nat.testBit_mod_two_pow, Nat.testBit_div_two_pow]
  by_cases h1 : k < p
  · simp [h1]
  · simp only [h1, if_false]
    congr 1; omega

theorem delBit_insZero (p i : ℕ) : delBit p (insZero p i) = i := by
  apply Nat.eq_of_testBit_eq
  intro k
  rw [testBit_delBit]
  by_cases h : k < p
  · simp [h, testBit_insZero]
  · simp only [h, if_false, testBit_insZero]
    simp [show ¬ k + 1 < p by omega, show ¬ k + 1 = p by omega]

theorem insZero_delBit {p i : ℕ} (h : i.testBit p = false) : insZero p (delBit p i) = i := by
  apply Nat.eq_of_testBit_eq
  intro k
  rw [testBit_insZero]
  by_cases h1 : k < p
  · simp [h1, testBit_delBit]
  · by_cases h2 : k = p
    · subst h2; simp [h]
    · simp only [h1, h2, if_false, testBit_delBit]
      simp only [show ¬ k - 1 < p by omega, if_false]
      congr 1; omega

theorem insZero_injective (p : ℕ) : Function.Injective (insZero p) :=
  Function.LeftInverse.injective (delBit_insZero p)

theorem insZero_lt {p i n : ℕ} (h : i < 2 ^ n) : insZero p i < 2 ^ (n + 1) := by
  rw [lt_two_pow_iff_testBit] at h ⊢
  intro k hk
  rw [testBit_insZero]
  split_ifs with h1 h2
  · exact h k (by omega)
  · rfl
  · exact h (k - 1) (by omega)

theorem delBit_lt {p i n : ℕ} (hp : p ≤ n) (h : i < 2 ^ (n + 1)) : delBit p i < 2 ^ n := by
  rw [lt_two_pow_iff_testBit] at h ⊢
  intro k hk
  rw [testBit_delBit]
  simp only [show ¬ k < p by omega, if_false]
  exact h (k + 1) (by omega)

end Verif.Bits
