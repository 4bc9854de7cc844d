import Verif.Spec.Tensor
import Verif.Lib.Field
import Mathlib.Algebra.BigOperators.Ring.Finset
import Mathlib.Algebra.BigOperators.Group.Finset.Sigma

/-!
Helper lemmas about taking qubits out of a basis state and putting them back.
-/

namespace Verif.Spec

open Verif.Bits

theorem testBit_rest (s l i k : ℕ) : (rest s l i).testBit k = if k < s then i.testBit k else i.testBit (k + l) := by
  unfold rest
  have h1 : i % 2 ^ s < 2 ^ s := Nat.mod_lt _ (by positivity)
  rw [Nat.add_comm, Nat.testBit_two_pow_mul_add _ h1]
  simp only [Nat.testBit_mod_two_pow, Nat.testBit_div_two_pow]
  by_cases a : k < s
  · simp [a]
  · simp only [a, if_false]; congr 1; omega

theorem testBit_insertAt {s l v i : ℕ} (hv : v < 2 ^ l) (k : ℕ) : (insertAt s l v i).testBit k =
    if k < s then i.testBit k else if k < s + l then v.testBit (k - s) else i.testBit (k - l) := by
  unfold insertAt
  have h1 : i % 2 ^ s < 2 ^ s := Nat.mod_lt _ (by positivity)
  have h3 : 2 ^ s * v + i % 2 ^ s < 2 ^ (s + l) := by
    rw [pow_add]
    have : 2 ^ s * (v + 1) ≤ 2 ^ s * 2 ^ l := Nat.mul_le_mul_left _ hv
    rw [Nat.mul_add] at this; omega
  rw [Nat.add_assoc, Nat.testBit_two_pow_mul_add _ h3, Nat.testBit_two_pow_mul_add _ h1]
  simp only [Nat.testBit_mod_two_pow, Nat.testBit_div_two_pow]
  by_cases a : k < s
  · simp [a, show k < s + l by omega]
  · by_cases b : k < s + l
    · simp [a, b]
    · simp only [a, b, if_false]
      congr 1; omega

theorem rest_insertAt {s l v : ℕ} (hv : v < 2 ^ l) (i : ℕ) : rest s l (insertAt s l v i) = i := by
  apply Nat.eq_of_testBit_eq
  intro k
  rw [testBit_rest, testBit_insertAt hv, testBit_insertAt hv]
  by_cases a : k < s
  · simp [a]
  · simp only [a, if_false]
    rw [if_neg (by omega), if_neg (by omega)]
    congr 1; omega

theorem field_insertAt {s l v : ℕ} (hv : v < 2 ^ l) (i : ℕ) : field s l (insertAt s l v i) = v := by
  apply Nat.eq_of_testBit_eq
  intro k
  rw [testBit_field, testBit_insertAt hv]
  by_cases a : k < l
  · simp [a]
  · simp [a, lt_two_pow_iff_testBit.1 hv k (by omega)]

theorem insertAt_field_rest (s l i : ℕ) : insertAt s l (field s l i) (rest s l i) = i := by
  apply Nat.eq_of_testBit_eq
  intro k
  rw [testBit_insertAt (field_lt _ _ _), testBit_rest, testBit_rest, testBit_field]
  by_cases a : k < s
  · simp [a]
  · by_cases b : k < s + l
    · simp [a, b, show k - s < l by omega, show s + (k - s) = k by omega]
    · simp only [a, b, if_false]
      rw [if_neg (by omega)]
      congr 1; omega

theorem insertAt_lt {s l v i n : ℕ} (hv : v < 2 ^ l) (hs : s + l ≤ n) (hi : i < 2 ^ (n - l)) : insertAt s l v i < 2 ^ n := by
  rw [lt_two_pow_iff_testBit]
  intro k hk
  rw [testBit_insertAt hv, if_neg (by omega), if_neg (by omega)]
  exact lt_two_pow_iff_testBit.1 hi _ (by omega)

theorem rest_lt {s l i n : ℕ} (hs : s + l ≤ n) (hi : i < 2 ^ n) : rest s l i < 2 ^ (n - l) := by
  rw [lt_two_pow_iff_testBit]
  intro k hk
  rw [testBit_rest, if_neg (by omega)]
  exact lt_two_pow_iff_testBit.1 hi _ (by omega)

/-- Summing over all basis states is summing over the two parts. -/
theorem sum_insertAt {α : Type*} [AddCommMonoid α] {s l n : ℕ} (hs : s + l ≤ n) (f : ℕ → α) :
    ∑ j ∈ Finset.range (2 ^ n), f j =
      ∑ i ∈ Finset.range (2 ^ (n - l)), ∑ k ∈ Finset.range (2 ^ l), f (insertAt s l k i) := by
  rw [← Finset.sum_product']
  refine Finset.sum_nbij' (fun j => (rest s l j, field s l j)) (fun p => insertAt s l p.2 p.1) ?_ ?_ ?_ ?_ ?_
  · intro j hj
    rw [Finset.mem_range] at hj
    exact Finset.mem_product.2 ⟨Finset.mem_range.2 (rest_lt hs hj), Finset.mem_range.2 (field_lt _ _ _)⟩
  · intro p hp
    have hp := Finset.mem_product.1 hp
    exact Finset.mem_range.2 (insertAt_lt (Finset.mem_range.1 hp.2) hs (Finset.mem_range.1 hp.1))
  · intro j _; exact insertAt_field_rest _ _ _
  · intro p hp
    have hp := Finset.mem_product.1 hp
    have h2 := Finset.mem_range.1 hp.2
    exact Prod.ext (rest_insertAt h2 _) (field_insertAt h2 _)
  · intro j _; dsimp only; rw [insertAt_field_rest]

/-- The total probability of a tensor product is the product of the total probabilities. -/
theorem totalProb_tensorAt {s l n : ℕ} (hs : s ≤ n) (A B : ℕ → ℂ) :
    totalProb (n + l) (tensorAt s l A B) = totalProb n A * totalProb l B := by
  unfold totalProb
  rw [sum_insertAt (s := s) (l := l) (by omega), Nat.add_sub_cancel, Finset.sum_mul_sum]
  apply Finset.sum_congr rfl
  intro i _
  apply Finset.sum_congr rfl
  intro k hk
  have hk := Finset.mem_range.1 hk
  unfold tensorAt
  rw [rest_insertAt hk, field_insertAt hk, Complex.normSq_mul]

end Verif.Spec
