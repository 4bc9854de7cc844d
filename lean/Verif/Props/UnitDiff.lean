import Verif.Model.UnitDiff
import Verif.Lib.Bits
import Mathlib.Algebra.Order.BigOperators.Group.Finset
import Mathlib.Analysis.Complex.Norm
import Mathlib.Tactic.Linarith
import Mathlib.Tactic.NormNum

/-!
# C91: the difference of two `QUnit`s is one minus their squared overlap

The specification: `overlap`, the squared modulus of the inner product, for two registers of the same size and norm one. (It does not
depend on a global phase.)
-/

namespace Verif.UDiff

open Complex

noncomputable def overlap (n : ℕ) (a b : ℕ → ℂ) : ℝ := normSq (∑ k ∈ Finset.range (2 ^ n), (starRingEnd ℂ) (a k) * b k)

/-- Norm one, and the cached values are those of the state. -/
structure Good (U : Unit) : Prop where
  norm : ∑ k ∈ Finset.range (2 ^ U.n), normSq (U.amp k) = 1
  known : ∀ q < U.n, ∀ v, U.known q = some v → ∀ k < 2 ^ U.n, k.testBit q ≠ v → U.amp k = 0

theorem fold_testBit (known : ℕ → Option Bool) (l : List ℕ) : ∀ (r i : ℕ),
    (l.foldl (fun r q => if known q = some true then r ||| 2 ^ q else r) r).testBit i =
      (r.testBit i || decide (i ∈ l ∧ known i = some true)) := by
  induction l with
  | nil => simp
  | cons q l ih =>
    intro r i
    rw [List.foldl_cons, ih]
    by_cases hq : known q = some true
    · rw [if_pos hq, Nat.testBit_or, Nat.testBit_two_pow]
      by_cases hi : q = i
      · subst hi; simp [hq]
      · simp [hi, Ne.symm hi]
    · rw [if_neg hq]
      by_cases hi : i = q
      · subst hi; simp [hq]
      · simp [hi]

theorem cachedPerm_testBit (U : Unit) (i : ℕ) : (cachedPerm U).testBit i = decide (i < U.n ∧ U.known i = some true) := by
  unfold cachedPerm
  rw [fold_testBit]
  simp

theorem cachedPerm_lt (U : Unit) : cachedPerm U < 2 ^ U.n := by
  rw [Verif.Bits.lt_two_pow_iff_testBit]
  intro k hk
  rw [cachedPerm_testBit]
  simp [not_lt.2 hk]

/-- A register of known qubits has no other amplitude than the one at its permutation. -/
theorem amp_zero {U : Unit} (hU : Good U) (hc : checkPerm U = true) {k : ℕ} (hk : k < 2 ^ U.n) (hne : k ≠ cachedPerm U) : U.amp k = 0 := by
  by_contra h0
  apply hne
  apply Nat.eq_of_testBit_eq
  intro q
  rw [cachedPerm_testBit]
  by_cases hq : q < U.n
  · unfold checkPerm at hc
    rw [List.all_eq_true] at hc
    obtain ⟨v, hv⟩ := Option.isSome_iff_exists.1 (hc q (List.mem_range.2 hq))
    have : k.testBit q = v := by
      by_contra h
      exact h0 (hU.known q hq v hv k hk h)
    rw [this, hv]
    cases v <;> simp [hq]
  · rw [Verif.Bits.lt_two_pow_iff_testBit.1 hk q (not_lt.1 hq)]
    simp [hq]

theorem amp_norm {U : Unit} (hU : Good U) (hc : checkPerm U = true) : normSq (U.amp (cachedPerm U)) = 1 := by
  rw [← hU.norm]
  symm
  apply Finset.sum_eq_single_of_mem _ (Finset.mem_range.2 (cachedPerm_lt U))
  intro k hk hne
  rw [amp_zero hU hc (Finset.mem_range.1 hk) hne, map_zero]

/-- Two registers of more than one qubit (or none): one minus the overlap, also when it is read from the cached values. -/
theorem sumSqrDiff_is {a b : Unit} (ha : Good a) (hb : Good b) (hn : a.n = b.n) (h1 : a.n ≠ 1) :
    sumSqrDiff a b = 1 - overlap a.n a.amp b.amp := by
  unfold sumSqrDiff
  rw [if_neg (not_not.2 hn), if_neg h1]
  split_ifs with hc he
  · rw [Bool.and_eq_true] at hc
    have : (∑ k ∈ Finset.range (2 ^ a.n), (starRingEnd ℂ) (a.amp k) * b.amp k) =
        (starRingEnd ℂ) (a.amp (cachedPerm a)) * b.amp (cachedPerm a) := by
      apply Finset.sum_eq_single_of_mem _ (Finset.mem_range.2 (cachedPerm_lt a))
      intro k hk hne
      rw [amp_zero ha hc.1 (Finset.mem_range.1 hk) hne, map_zero, zero_mul]
    unfold overlap
    rw [this, map_mul, normSq_conj, amp_norm ha hc.1, he, amp_norm hb hc.2]
    norm_num
  · rw [Bool.and_eq_true] at hc
    have : (∑ k ∈ Finset.range (2 ^ a.n), (starRingEnd ℂ) (a.amp k) * b.amp k) = 0 := by
      apply Finset.sum_eq_zero
      intro k hk
      by_cases hk1 : k = cachedPerm a
      · rw [amp_zero hb hc.2 (hn ▸ Finset.mem_range.1 hk) (hk1 ▸ he), mul_zero]
      · rw [amp_zero ha hc.1 (Finset.mem_range.1 hk) hk1, map_zero, zero_mul]
    unfold overlap
    rw [this, map_zero, sub_zero]
  · rfl

/-- One qubit: what is returned is not below one minus the overlap, so two states that are found close are close.

Partial: it is not equal to it, see `sumSqrDiff_one_wrong`. -/
theorem sumSqrDiff_one_partial {a b : Unit} (ha : Good a) (hb : Good b) (h1 : a.n = 1) (hn : b.n = 1) :
    1 - overlap 1 a.amp b.amp ≤ sumSqrDiff a b ∧ (sumSqrDiff a b = 0 ↔ a.amp 0 = b.amp 0 ∧ a.amp 1 = b.amp 1) := by
  have hna := ha.norm
  have hnb := hb.norm
  rw [h1] at hna
  rw [hn] at hnb
  simp only [pow_one, Finset.sum_range_succ, Finset.sum_range_zero, zero_add] at hna hnb
  unfold sumSqrDiff overlap
  rw [if_neg (by simp [h1, hn]), if_pos h1]
  simp only [pow_one, Finset.sum_range_succ, Finset.sum_range_zero, zero_add]
  constructor
  · generalize hz : (starRingEnd ℂ) (a.amp 0) * b.amp 0 + (starRingEnd ℂ) (a.amp 1) * b.amp 1 = z
    have e : normSq (a.amp 0 - b.amp 0) + normSq (a.amp 1 - b.amp 1) = 2 - 2 * z.re := by
      rw [← hz]
      simp only [normSq_apply, sub_re, sub_im, add_re, mul_re, conj_re, conj_im] at hna hnb ⊢
      linarith
    rw [e, normSq_apply]
    nlinarith [sq_nonneg (z.re - 1), sq_nonneg z.im]
  · constructor
    · intro h
      have p0 := normSq_nonneg (a.amp 0 - b.amp 0)
      have p1 := normSq_nonneg (a.amp 1 - b.amp 1)
      exact ⟨sub_eq_zero.1 (normSq_eq_zero.1 (by linarith)), sub_eq_zero.1 (normSq_eq_zero.1 (by linarith))⟩
    · rintro ⟨h0, h1⟩
      rw [h0, h1]
      simp

/-- Different numbers of qubits count as the greatest difference. -/
theorem sumSqrDiff_size {a b : Unit} (h : a.n ≠ b.n) : sumSqrDiff a b = 1 := if_pos h

/-- A state and its negative are the same state, and differ by 4 when there is one qubit. -/
theorem sumSqrDiff_one_wrong {a b : Unit} (ha : Good a) (h1 : a.n = 1) (hn : b.n = 1) (hneg : ∀ k, b.amp k = -a.amp k) :
    overlap 1 a.amp b.amp = 1 ∧ sumSqrDiff a b = 4 := by
  have hna := ha.norm
  rw [h1] at hna
  simp only [pow_one, Finset.sum_range_succ, Finset.sum_range_zero, zero_add] at hna
  constructor
  · unfold overlap
    simp only [pow_one, Finset.sum_range_succ, Finset.sum_range_zero, zero_add, hneg]
    have : (starRingEnd ℂ) (a.amp 0) * -a.amp 0 + (starRingEnd ℂ) (a.amp 1) * -a.amp 1 = -((1 : ℝ) : ℂ) := by
      rw [← hna, ofReal_add, normSq_eq_conj_mul_self, normSq_eq_conj_mul_self]
      ring
    rw [this, normSq_neg, normSq_ofReal, one_mul]
  · unfold sumSqrDiff
    rw [if_neg (by simp [h1, hn]), if_pos h1, hneg, hneg]
    have e : ∀ z : ℂ, normSq (z - -z) = 4 * normSq z := by
      intro z
      simp only [normSq_apply, sub_re, sub_im, neg_re, neg_im]
      ring
    rw [e, e]
    linarith

/-- `|q⟩` of `n` qubits with a sign, and cached values. -/
noncomputable def ket (n q : ℕ) (c : ℂ) : Unit := ⟨n, fun k => if k = q then c else 0, fun i => some (q.testBit i)⟩

theorem ket_good {n q : ℕ} {c : ℂ} (hq : q < 2 ^ n) (hc : normSq c = 1) : Good (ket n q c) where
  norm := by
    unfold ket
    rw [Finset.sum_eq_single_of_mem q (Finset.mem_range.2 hq)]
    · simp [hc]
    · intro k _ hne; simp [hne]
  known := by
    intro i _ v hv k _ hne
    unfold ket at hv ⊢
    simp only [Option.some.injEq] at hv
    have : k ≠ q := by rintro rfl; exact hne hv
    simp [this]

example : sumSqrDiff (ket 3 5 1) (ket 3 5 (-1)) = 1 - overlap 3 (ket 3 5 1).amp (ket 3 5 (-1)).amp :=
  sumSqrDiff_is (ket_good (by norm_num) (by simp)) (ket_good (by norm_num) (by simp)) rfl (by simp [ket])
example : overlap 1 (ket 1 0 1).amp (ket 1 0 (-1)).amp = 1 ∧ sumSqrDiff (ket 1 0 1) (ket 1 0 (-1)) = 4 :=
  sumSqrDiff_one_wrong (ket_good (by norm_num) (by simp)) rfl rfl (by intro k; unfold ket; dsimp only; split_ifs <;> simp)
example : 1 - overlap 1 (ket 1 0 1).amp (ket 1 1 I).amp ≤ sumSqrDiff (ket 1 0 1) (ket 1 1 I) :=
  (sumSqrDiff_one_partial (ket_good (by norm_num) (by simp)) (ket_good (by norm_num) (by simp)) rfl rfl).1

end Verif.UDiff
