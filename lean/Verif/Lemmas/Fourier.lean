import Verif.Spec.Fourier
import Verif.Lib.Bits
import Mathlib.Tactic.Ring
import Mathlib.Tactic.FieldSimp
import Mathlib.Tactic.LinearCombination
import Mathlib.Algebra.Field.GeomSum
import Mathlib.Analysis.SpecialFunctions.Complex.Log

/-! Helper lemmas: reading and writing lists of qubits, phases in turns, and the Fourier sums. -/

namespace Verif.Spec

open Verif.Bits

theorem turn_add (s : ℤ) (x y : ℝ) : turn s (x + y) = turn s x * turn s y := by
  unfold turn
  rw [← Complex.exp_add]
  congr 1
  push_cast
  ring

theorem turn_nat (s : ℤ) (k : ℕ) : turn s (k : ℝ) = 1 := by
  unfold turn
  rw [Complex.exp_eq_one_iff]
  exact ⟨s * k, by push_cast; ring⟩

theorem turn_zero (s : ℤ) : turn s 0 = 1 := by
  have := turn_nat s 0
  simpa using this

theorem turn_neg (s : ℤ) (x : ℝ) : turn (-s) x = turn s (-x) := by
  unfold turn
  congr 1
  push_cast
  ring

theorem turn_half {s : ℤ} (hs : s = 1 ∨ s = -1) : turn s (1 / 2) = -1 := by
  unfold turn
  rcases hs with rfl | rfl
  · rw [show (((2 * Real.pi * (((1 : ℤ) : ℝ) * (1 / 2)) : ℝ)) : ℂ) * Complex.I = Real.pi * Complex.I by push_cast; ring,
      Complex.exp_pi_mul_I]
  · rw [show (((2 * Real.pi * (((-1 : ℤ) : ℝ) * (1 / 2)) : ℝ)) : ℂ) * Complex.I = -(Real.pi * Complex.I) by push_cast; ring,
      Complex.exp_neg, Complex.exp_pi_mul_I]
    norm_num

/-! ## Bits -/

theorem testBit_flipBit (q i k : ℕ) : (flipBit q i).testBit k = (i.testBit k ^^ decide (q = k)) := by
  unfold flipBit
  rw [Nat.testBit_xor, Nat.testBit_two_pow]

theorem testBit_setBit (q : ℕ) (b : Bool) (i k : ℕ) : (setBit q b i).testBit k = if k = q then b else i.testBit k := by
  unfold setBit
  by_cases h : i.testBit q = b
  · rw [if_pos h]
    by_cases hk : k = q
    · rw [if_pos hk, hk, h]
    · rw [if_neg hk]
  · rw [if_neg h, testBit_flipBit]
    by_cases hk : k = q
    · subst hk
      rw [if_pos rfl]
      revert h; cases i.testBit k <;> cases b <;> simp
    · rw [if_neg hk]
      simp [Ne.symm hk]

theorem testBit_writeBits_of_notMem {qs : List ℕ} {k : ℕ} (hk : k ∉ qs) (x i : ℕ) :
    (writeBits qs x i).testBit k = i.testBit k := by
  induction qs generalizing x i with
  | nil => rfl
  | cons q qs ih =>
    rw [List.mem_cons, not_or] at hk
    rw [writeBits, ih hk.2, testBit_setBit, if_neg hk.1]

theorem testBit_writeBits {qs : List ℕ} (hnd : qs.Nodup) (x i : ℕ) {j : ℕ} (hj : j < qs.length) :
    (writeBits qs x i).testBit qs[j] = x.testBit j := by
  induction qs generalizing x i j with
  | nil => simp at hj
  | cons q qs ih =>
    rw [List.nodup_cons] at hnd
    cases j with
    | zero =>
      rw [writeBits, List.getElem_cons_zero, testBit_writeBits_of_notMem hnd.1, testBit_setBit, if_pos rfl]
    | succ j =>
      rw [writeBits, List.getElem_cons_succ, ih hnd.2, Nat.testBit_div_two]

theorem testBit_readBits (qs : List ℕ) (i j : ℕ) : (readBits qs i).testBit j = if h : j < qs.length then i.testBit qs[j] else false := by
  induction qs generalizing j with
  | nil => simp [readBits]
  | cons q qs ih =>
    cases j with
    | zero =>
      simp only [readBits, List.length_cons, Nat.zero_lt_succ, dite_true, List.getElem_cons_zero, Nat.testBit_zero]
      cases i.testBit q <;> simp
    | succ j =>
      rw [Nat.testBit_succ]
      have : (readBits (q :: qs) i) / 2 = readBits qs i := by
        rw [readBits]
        cases i.testBit q <;> simp <;> omega
      rw [this, ih]
      simp [Nat.succ_lt_succ_iff]

theorem readBits_lt (qs : List ℕ) (i : ℕ) : readBits qs i < 2 ^ qs.length := by
  induction qs with
  | nil => simp [readBits]
  | cons q qs ih =>
    rw [readBits, List.length_cons, pow_succ]
    cases i.testBit q <;> simp <;> omega

theorem readBits_writeBits {qs : List ℕ} (hnd : qs.Nodup) {x : ℕ} (hx : x < 2 ^ qs.length) (i : ℕ) :
    readBits qs (writeBits qs x i) = x := by
  apply Nat.eq_of_testBit_eq
  intro j
  rw [testBit_readBits]
  by_cases hj : j < qs.length
  · rw [dif_pos hj, testBit_writeBits hnd x i hj]
  · rw [dif_neg hj]
    exact (Nat.testBit_lt_two_pow (lt_of_lt_of_le hx (Nat.pow_le_pow_right (by norm_num) (by omega)))).symm

theorem writeBits_readBits {qs : List ℕ} (hnd : qs.Nodup) (i : ℕ) : writeBits qs (readBits qs i) i = i := by
  apply Nat.eq_of_testBit_eq
  intro k
  by_cases hk : k ∈ qs
  · obtain ⟨j, hj, rfl⟩ := List.getElem_of_mem hk
    rw [testBit_writeBits hnd _ _ hj, testBit_readBits, dif_pos hj]
  · rw [testBit_writeBits_of_notMem hk]

theorem writeBits_writeBits {qs rs : List ℕ} (hq : qs.Nodup) (hp : ∀ k, k ∈ rs → k ∈ qs) (x y i : ℕ) :
    writeBits qs x (writeBits rs y i) = writeBits qs x i := by
  apply Nat.eq_of_testBit_eq
  intro k
  by_cases hk : k ∈ qs
  · obtain ⟨j, hj, rfl⟩ := List.getElem_of_mem hk
    rw [testBit_writeBits hq _ _ hj, testBit_writeBits hq _ _ hj]
  · rw [testBit_writeBits_of_notMem hk, testBit_writeBits_of_notMem hk, testBit_writeBits_of_notMem (fun h => hk (hp k h))]

theorem writeBits_lt {n : ℕ} {qs : List ℕ} (hb : ∀ q ∈ qs, q < n) (x : ℕ) {i : ℕ} (hi : i < 2 ^ n) : writeBits qs x i < 2 ^ n := by
  apply Nat.lt_pow_two_of_testBit
  intro k hk
  rw [testBit_writeBits_of_notMem (fun h => by have := hb k h; omega)]
  exact Nat.testBit_lt_two_pow (lt_of_lt_of_le hi (Nat.pow_le_pow_right (by norm_num) hk))

theorem setBit_lt {n q : ℕ} (hq : q < n) (b : Bool) {i : ℕ} (hi : i < 2 ^ n) : setBit q b i < 2 ^ n := by
  apply Nat.lt_pow_two_of_testBit
  intro k hk
  rw [testBit_setBit, if_neg (by omega)]
  exact Nat.testBit_lt_two_pow (lt_of_lt_of_le hi (Nat.pow_le_pow_right (by norm_num) hk))

/-- Reading qubits that are not written. -/
theorem readBits_congr {qs : List ℕ} {i j : ℕ} (h : ∀ q ∈ qs, i.testBit q = j.testBit q) : readBits qs i = readBits qs j := by
  induction qs with
  | nil => rfl
  | cons q qs ih =>
    rw [readBits, readBits, h q (by simp), ih fun q hq => h q (by simp [hq])]

theorem readBits_append (qs rs : List ℕ) (i : ℕ) : readBits (qs ++ rs) i = readBits qs i + 2 ^ qs.length * readBits rs i := by
  induction qs with
  | nil => simp [readBits]
  | cons q qs ih =>
    rw [List.cons_append, readBits, readBits, ih, List.length_cons, pow_succ]
    ring

/-- Writing a list with one more, most significant, qubit. -/
theorem writeBits_concat {qs : List ℕ} {q : ℕ} (hnd : (qs ++ [q]).Nodup) {x : ℕ} (hx : x < 2 ^ qs.length) (b : Bool) (i : ℕ) :
    writeBits (qs ++ [q]) (x + 2 ^ qs.length * b.toNat) i = setBit q b (writeBits qs x i) := by
  apply Nat.eq_of_testBit_eq
  intro k
  have hq : q ∉ qs := by
    have := List.nodup_append.1 hnd
    intro h
    exact this.2.2 q h q (by simp) rfl
  have hbit : ∀ j, (x + 2 ^ qs.length * b.toNat).testBit j = if j < qs.length then x.testBit j else b.toNat.testBit (j - qs.length) := by
    intro j
    rw [add_comm, Nat.testBit_two_pow_mul_add _ hx]
  by_cases hk : k ∈ qs ++ [q]
  · obtain ⟨j, hj, rfl⟩ := List.getElem_of_mem hk
    rw [testBit_writeBits hnd _ _ hj, hbit, testBit_setBit]
    by_cases hjl : j < qs.length
    · rw [if_pos hjl, List.getElem_append_left hjl, if_neg (fun h : qs[j] = q => hq (h ▸ List.getElem_mem hjl)),
        testBit_writeBits (List.nodup_append.1 hnd).1 _ _ hjl]
    · have hj' : j = qs.length := by simp at hj; omega
      subst hj'
      rw [if_neg hjl, Nat.sub_self]
      cases b <;> simp
  · rw [testBit_writeBits_of_notMem hk, testBit_setBit]
    simp only [List.mem_append, List.mem_singleton, not_or] at hk
    rw [if_neg hk.2, testBit_writeBits_of_notMem hk.1]

/-! ## Sums -/

theorem sum_range_low {M : Type*} [AddCommMonoid M] (L : ℕ) (f : ℕ → M) :
    ∑ x ∈ Finset.range (2 ^ (L + 1)), f x = ∑ x ∈ Finset.range (2 ^ L), (f (2 * x) + f (2 * x + 1)) := by
  have : ∀ N, ∑ x ∈ Finset.range (2 * N), f x = ∑ x ∈ Finset.range N, (f (2 * x) + f (2 * x + 1)) := by
    intro N
    induction N with
    | zero => simp
    | succ N ih =>
      rw [show 2 * (N + 1) = 2 * N + 1 + 1 by ring, Finset.sum_range_succ, Finset.sum_range_succ, Finset.sum_range_succ, ih, add_assoc]
  rw [pow_succ, mul_comm, this]

theorem sum_range_high {M : Type*} [AddCommMonoid M] (L : ℕ) (f : ℕ → M) :
    ∑ x ∈ Finset.range (2 ^ (L + 1)), f x = ∑ x ∈ Finset.range (2 ^ L), (f x + f (x + 2 ^ L)) := by
  rw [pow_succ, mul_two, Finset.sum_range_add, Finset.sum_add_distrib]
  congr 1
  exact Finset.sum_congr rfl fun x _ => by rw [add_comm]

/-- The characters of the cyclic group are orthogonal. -/
theorem sum_turn {s : ℤ} (hs : s = 1 ∨ s = -1) {L a b : ℕ} (ha : a < 2 ^ L) (hb : b < 2 ^ L) :
    ∑ x ∈ Finset.range (2 ^ L), turn (-s) ((x : ℝ) * a / 2 ^ L) * turn s ((x : ℝ) * b / 2 ^ L) = if a = b then (2 : ℂ) ^ L else 0 := by
  have hN : (0 : ℝ) < 2 ^ L := by positivity
  have key : ∀ x : ℕ, turn (-s) ((x : ℝ) * a / 2 ^ L) * turn s ((x : ℝ) * b / 2 ^ L) = (turn s (((b : ℝ) - a) / 2 ^ L)) ^ x := by
    intro x
    rw [turn_neg, ← turn_add]
    unfold turn
    rw [← Complex.exp_nat_mul]
    congr 1
    push_cast
    ring
  rw [Finset.sum_congr rfl fun x _ => key x]
  by_cases h : a = b
  · subst h
    rw [if_pos rfl, sub_self, zero_div, turn_zero]
    simp
  · rw [if_neg h]
    have hne : turn s (((b : ℝ) - a) / 2 ^ L) ≠ 1 := by
      intro h1
      unfold turn at h1
      rw [Complex.exp_eq_one_iff] at h1
      obtain ⟨n, hn⟩ := h1
      have h2 : (2 * Real.pi * (s * (((b : ℝ) - a) / 2 ^ L)) : ℝ) = n * (2 * Real.pi) := by
        have h' : ((2 * Real.pi * (s * (((b : ℝ) - a) / 2 ^ L)) : ℝ) : ℂ) * Complex.I = ((n * (2 * Real.pi) : ℝ) : ℂ) * Complex.I := by
          rw [hn]; push_cast; ring
        exact Complex.ofReal_injective (mul_right_cancel₀ Complex.I_ne_zero h')
      have h3 : (s : ℝ) * ((b : ℝ) - a) = n * 2 ^ L := by
        have hpi := Real.pi_pos
        field_simp at h2
        nlinarith [h2]
      have h4 : s * ((b : ℤ) - a) = n * 2 ^ L := by exact_mod_cast h3
      have h5 : (2 ^ L : ℤ) ∣ s * ((b : ℤ) - a) := ⟨n, by rw [h4]; ring⟩
      have h6 : (2 ^ L : ℤ) ∣ ((b : ℤ) - a) := by
        rcases hs with rfl | rfl
        · simpa using h5
        · have : (2 ^ L : ℤ) ∣ -((b : ℤ) - a) := by simpa using h5
          exact (Int.dvd_neg).1 this
      have ha' : (a : ℤ) < 2 ^ L := by exact_mod_cast ha
      have hb' : (b : ℤ) < 2 ^ L := by exact_mod_cast hb
      have h7 := Int.eq_zero_of_abs_lt_dvd h6 (by rw [abs_lt]; constructor <;> omega)
      omega
    rw [geom_sum_eq hne]
    have : turn s (((b : ℝ) - a) / 2 ^ L) ^ (2 ^ L) = 1 := by
      unfold turn
      rw [← Complex.exp_nat_mul, Complex.exp_eq_one_iff]
      refine ⟨s * ((b : ℤ) - a), ?_⟩
      have h2 : (2 : ℂ) ^ L ≠ 0 := pow_ne_zero _ two_ne_zero
      push_cast
      field_simp
    rw [this, sub_self, zero_div]

/-- The transform between two orders of the same qubits is undone by the transform of opposite sign in the other direction. -/
theorem dft_dft {s : ℤ} (hs : s = 1 ∨ s = -1) {src dst : List ℕ} (hnd : src.Nodup) (hp : dst.Perm src) (ψ : ℕ → ℂ) (i : ℕ) :
    dft (-s) dst src (dft s src dst ψ) i = ψ i := by
  have hlen : dst.length = src.length := hp.length_eq
  have hnd' : dst.Nodup := hp.nodup_iff.2 hnd
  unfold dft
  rw [hlen]
  have h1 : ∀ x ∈ Finset.range (2 ^ src.length),
      turn (-s) ((x : ℝ) * (readBits src i : ℝ) / 2 ^ src.length) *
        (((1 / Real.sqrt (2 ^ src.length) : ℝ) : ℂ) * ∑ z ∈ Finset.range (2 ^ src.length),
          turn s ((z : ℝ) * (readBits dst (writeBits dst x i) : ℝ) / 2 ^ src.length) * ψ (writeBits src z (writeBits dst x i)))
      = ((1 / Real.sqrt (2 ^ src.length) : ℝ) : ℂ) * ∑ z ∈ Finset.range (2 ^ src.length),
          (turn (-s) ((x : ℝ) * (readBits src i : ℝ) / 2 ^ src.length) * turn s ((x : ℝ) * z / 2 ^ src.length)) * ψ (writeBits src z i) := by
    intro x hx
    rw [readBits_writeBits hnd' (by rw [hlen]; exact Finset.mem_range.1 hx), mul_left_comm, Finset.mul_sum]
    congr 1
    refine Finset.sum_congr rfl fun z _ => ?_
    rw [writeBits_writeBits hnd (fun k hk => hp.mem_iff.1 hk), mul_comm (z : ℝ) x, mul_assoc]
  rw [Finset.sum_congr rfl h1, ← Finset.mul_sum, Finset.sum_comm]
  have h2 : ∀ z ∈ Finset.range (2 ^ src.length), (∑ x ∈ Finset.range (2 ^ src.length),
      (turn (-s) ((x : ℝ) * (readBits src i : ℝ) / 2 ^ src.length) * turn s ((x : ℝ) * z / 2 ^ src.length)) * ψ (writeBits src z i))
      = if z = readBits src i then (2 : ℂ) ^ src.length * ψ i else 0 := by
    intro z hz
    rw [← Finset.sum_mul, sum_turn hs (readBits_lt src i) (Finset.mem_range.1 hz)]
    by_cases h : readBits src i = z
    · rw [if_pos h, if_pos h.symm, ← h, writeBits_readBits hnd]
    · rw [if_neg h, if_neg (Ne.symm h), zero_mul]
  rw [Finset.sum_congr rfl h2, Finset.sum_ite_eq' (Finset.range (2 ^ src.length)) (readBits src i), if_pos (Finset.mem_range.2 (readBits_lt src i))]
  have h3 : (((1 / Real.sqrt (2 ^ src.length) : ℝ) : ℂ)) * (((1 / Real.sqrt (2 ^ src.length) : ℝ) : ℂ)) * (2 : ℂ) ^ src.length = 1 := by
    have hp : (0 : ℝ) < 2 ^ src.length := by positivity
    have : ((1 / Real.sqrt (2 ^ src.length)) * (1 / Real.sqrt (2 ^ src.length)) * 2 ^ src.length : ℝ) = 1 := by
      rw [div_mul_div_comm, one_mul, Real.mul_self_sqrt hp.le]
      field_simp
    exact_mod_cast this
  linear_combination (ψ i) * h3

end Verif.Spec
