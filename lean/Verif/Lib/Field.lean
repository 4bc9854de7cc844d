import Verif.Spec.Field
import Verif.Lib.Bits

/-!
Helper lemmas about register fields.
-/

namespace Verif.Spec

open Verif.Bits

theorem field_lt (s l i : ℕ) : field s l i < 2 ^ l := Nat.mod_lt _ (by positivity)

theorem testBit_field (s l i k : ℕ) : (field s l i).testBit k = (decide (k < l) && i.testBit (s + k)) := by
  unfold field
  rw [Nat.testBit_mod_two_pow, Nat.testBit_div_two_pow, Nat.add_comm]

theorem testBit_setField (s l v i k : ℕ) : (setField s l v i).testBit k =
    if k < s then i.testBit k else if k < s + l then v.testBit (k - s) else i.testBit k := by
  unfold setField
  have h1 : i % 2 ^ s < 2 ^ s := Nat.mod_lt _ (by positivity)
  have h2 : v % 2 ^ l < 2 ^ l := Nat.mod_lt _ (by positivity)
  have h3 : 2 ^ s * (v % 2 ^ l) + i % 2 ^ s < 2 ^ (s + l) := by
    rw [pow_add]
    have : 2 ^ s * (v % 2 ^ l + 1) ≤ 2 ^ s * 2 ^ l := Nat.mul_le_mul_left _ h2
    rw [Nat.mul_add] at this; omega
  rw [Nat.testBit_two_pow_mul_add _ h3, Nat.testBit_two_pow_mul_add _ h1]
  simp only [Nat.testBit_mod_two_pow, Nat.testBit_div_two_pow]
  by_cases a : k < s
  · simp [a, show k < s + l by omega]
  · by_cases b : k < s + l
    · simp [a, b, show k - s < l by omega]
    · simp only [a, b, if_false]
      congr 1; omega

theorem field_setField (s l v i : ℕ) : field s l (setField s l v i) = v % 2 ^ l := by
  apply Nat.eq_of_testBit_eq
  intro k
  rw [testBit_field, testBit_setField, Nat.testBit_mod_two_pow]
  by_cases h : k < l
  · simp [h]
  · simp [h]

theorem setField_setField (s l v w i : ℕ) : setField s l v (setField s l w i) = setField s l v i := by
  apply Nat.eq_of_testBit_eq
  intro k
  simp only [testBit_setField]
  split_ifs <;> rfl

theorem setField_field (s l i : ℕ) : setField s l (field s l i) i = i := by
  apply Nat.eq_of_testBit_eq
  intro k
  rw [testBit_setField, testBit_field]
  split_ifs with h1 h2
  · rfl
  · simp [show k - s < l by omega, show s + (k - s) = k by omega]
  · rfl

theorem setField_mod (s l v i : ℕ) : setField s l (v % 2 ^ l) i = setField s l v i := by
  simp [setField]

theorem setField_lt {s l n v i : ℕ} (h : s + l ≤ n) (hi : i < 2 ^ n) : setField s l v i < 2 ^ n := by
  rw [lt_two_pow_iff_testBit] at hi ⊢
  intro k hk
  rw [testBit_setField, if_neg (by omega), if_neg (by omega), hi k hk]

theorem setField_congr {s l v w i : ℕ} (h : v % 2 ^ l = w % 2 ^ l) : setField s l v i = setField s l w i := by
  rw [← setField_mod, h, setField_mod]

/-- A basis state is determined by a field and the bits outside it. -/
theorem eq_setField {s l v i j : ℕ} (h1 : field s l j = v % 2 ^ l)
    (h2 : ∀ k, k < s ∨ s + l ≤ k → j.testBit k = i.testBit k) : j = setField s l v i := by
  apply Nat.eq_of_testBit_eq
  intro k
  rw [testBit_setField]
  split_ifs with a b
  · exact h2 k (Or.inl a)
  · have := congrArg (fun x => x.testBit (k - s)) h1
    simp only [testBit_field, Nat.testBit_mod_two_pow, show k - s < l by omega, decide_true, Bool.true_and,
      show s + (k - s) = k by omega] at this
    exact this
  · exact h2 k (Or.inr (by omega))

theorem field_zero_len (s i : ℕ) : field s 0 i = 0 := by simp [field, Nat.mod_one]

theorem setField_zero_len (s v i : ℕ) : setField s 0 v i = i := by
  apply Nat.eq_of_testBit_eq
  intro k
  rw [testBit_setField]
  split_ifs with a b
  · rfl
  · omega
  · rfl

/-- Fields that do not overlap are independent. -/
theorem field_setField_disjoint {s l s' l' v i : ℕ} (h : s + l ≤ s' ∨ s' + l' ≤ s) :
    field s l (setField s' l' v i) = field s l i := by
  apply Nat.eq_of_testBit_eq
  intro k
  rw [testBit_field, testBit_field, testBit_setField]
  by_cases hk : k < l
  · rcases h with h | h
    · simp [hk, show s + k < s' by omega]
    · simp [hk, show ¬ s + k < s' by omega, show ¬ s + k < s' + l' by omega]
  · simp [hk]

theorem setField_comm {s l s' l' v w i : ℕ} (h : s + l ≤ s' ∨ s' + l' ≤ s) :
    setField s l v (setField s' l' w i) = setField s' l' w (setField s l v i) := by
  apply Nat.eq_of_testBit_eq
  intro k
  simp only [testBit_setField]
  split_ifs <;> first | rfl | omega

/-- Addition in a field is addition to the whole number, cut at the end of the field. -/
theorem setField_add (s l v i : ℕ) : setField s l (field s l i + v) i =
    2 ^ (s + l) * (i / 2 ^ (s + l)) + (i + 2 ^ s * v) % 2 ^ (s + l) := by
  have h1 : (i + 2 ^ s * v) % 2 ^ (s + l) = 2 ^ s * ((i / 2 ^ s + v) % 2 ^ l) + i % 2 ^ s := by
    rw [pow_add, Nat.mod_mul, Nat.add_mul_mod_self_left, Nat.add_mul_div_left _ _ (by positivity)]
    exact Nat.add_comm _ _
  rw [h1]
  unfold setField field
  rw [Nat.mod_add_mod]

theorem setField_add_add (s l a b i : ℕ) :
    setField s l (field s l (setField s l (field s l i + a) i) + b) (setField s l (field s l i + a) i) =
      setField s l (field s l i + (a + b)) i := by
  rw [setField_setField, field_setField]
  apply setField_congr
  rw [Nat.mod_add_mod, Nat.add_assoc]

end Verif.Spec
