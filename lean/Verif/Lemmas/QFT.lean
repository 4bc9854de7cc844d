import Verif.Lemmas.Fourier
import Verif.Lemmas.Pager
import Verif.Model.QFT

/-! Helper lemmas for the quantum Fourier transform: the recursions of the transform, and the gates as operators. -/

namespace Verif.Engine

open Verif.ParFor Verif.Bits Verif.Spec Classical

/-- The Hadamard gate as an operator. -/
noncomputable def hOp (q : ℕ) (ψ : ℕ → ℂ) (i : ℕ) : ℂ :=
  (1 / Real.sqrt 2 : ℝ) * (ψ (setBit q false i) + (if i.testBit q then -1 else 1) * ψ (setBit q true i))

/-- A controlled phase gate as an operator. -/
noncomputable def cpOp (c t : ℕ) (w : ℂ) (ψ : ℕ → ℂ) (i : ℕ) : ℂ := (if i.testBit c && i.testBit t then w else 1) * ψ i

theorem sqrt_pow_succ (L : ℕ) : ((1 / Real.sqrt (2 ^ (L + 1)) : ℝ) : ℂ) =
    ((1 / Real.sqrt (2 ^ L) : ℝ) : ℂ) * ((1 / Real.sqrt 2 : ℝ) : ℂ) := by
  rw [← Complex.ofReal_mul, div_mul_div_comm, one_mul, pow_succ, Real.sqrt_mul (by positivity)]

theorem sign_turn {s : ℤ} (hs : s = 1 ∨ s = -1) (b : Bool) : (if b then (-1 : ℂ) else 1) = turn s ((b.toNat : ℝ) / 2) := by
  cases b
  · simp [turn_zero]
  · simp only [if_true, Bool.toNat_true, Nat.cast_one]
    exact (turn_half hs).symm

/-- The transform with one more qubit, least significant in the source and most significant in the destination. -/
theorem dft_low {s : ℤ} (hs : s = 1 ∨ s = -1) {src dst : List ℕ} {q : ℕ} (hlen : dst.length = src.length)
    (hq' : q ∉ dst) (ψ : ℕ → ℂ) (i : ℕ) :
    dft s (q :: src) (dst ++ [q]) ψ i =
      hOp q (fun j => turn s (((j.testBit q).toNat : ℝ) * (readBits dst j : ℝ) / 2 ^ (src.length + 1)) * dft s src dst ψ j) i := by
  unfold hOp
  have hD : ∀ b, readBits dst (setBit q b i) = readBits dst i := fun b =>
    readBits_congr fun k hk => by rw [Spec.testBit_setBit, if_neg (fun h : k = q => hq' (h ▸ hk))]
  have hb : ∀ b, (setBit q b i).testBit q = b := fun b => by rw [Spec.testBit_setBit, if_pos rfl]
  have hp : (0 : ℝ) < 2 ^ src.length := by positivity
  simp only [hD, hb, sign_turn hs, Bool.toNat_false, Bool.toNat_true, Nat.cast_zero, zero_mul, zero_div, turn_zero, one_mul,
    Nat.cast_one]
  unfold dft
  rw [List.length_cons, sum_range_low, sqrt_pow_succ, Finset.sum_add_distrib]
  simp only [hD]
  have h1 : ∀ x, turn s (((2 * x : ℕ) : ℝ) * (readBits (dst ++ [q]) i : ℝ) / 2 ^ (src.length + 1)) *
      ψ (writeBits (q :: src) (2 * x) i) = turn s ((x : ℝ) * (readBits dst i : ℝ) / 2 ^ src.length) * ψ (writeBits src x (setBit q false i)) := by
    intro x
    have e1 : writeBits (q :: src) (2 * x) i = writeBits src x (setBit q false i) := by
      rw [writeBits, Nat.mul_div_cancel_left _ (by norm_num), Nat.testBit_zero]
      congr 2
      simp
    have e2 : ((2 * x : ℕ) : ℝ) * (readBits (dst ++ [q]) i : ℝ) / 2 ^ (src.length + 1) =
        (x : ℝ) * (readBits dst i : ℝ) / 2 ^ src.length + ((x * (i.testBit q).toNat : ℕ) : ℝ) := by
      rw [readBits_append, hlen]
      simp only [readBits]
      push_cast
      field_simp
      ring
    rw [e1, e2, turn_add, turn_nat, mul_one]
  have h2 : ∀ x, turn s (((2 * x + 1 : ℕ) : ℝ) * (readBits (dst ++ [q]) i : ℝ) / 2 ^ (src.length + 1)) *
      ψ (writeBits (q :: src) (2 * x + 1) i) =
      (turn s (((i.testBit q).toNat : ℝ) / 2) * turn s ((readBits dst i : ℝ) / 2 ^ (src.length + 1))) *
        (turn s ((x : ℝ) * (readBits dst i : ℝ) / 2 ^ src.length) * ψ (writeBits src x (setBit q true i))) := by
    intro x
    have e1 : writeBits (q :: src) (2 * x + 1) i = writeBits src x (setBit q true i) := by
      rw [writeBits, show (2 * x + 1) / 2 = x by omega, Nat.testBit_zero]
      congr 2
      simp
    have e2 : ((2 * x + 1 : ℕ) : ℝ) * (readBits (dst ++ [q]) i : ℝ) / 2 ^ (src.length + 1) =
        (((i.testBit q).toNat : ℝ) / 2 + (readBits dst i : ℝ) / 2 ^ (src.length + 1)) +
        ((x : ℝ) * (readBits dst i : ℝ) / 2 ^ src.length + ((x * (i.testBit q).toNat : ℕ) : ℝ)) := by
      rw [readBits_append, hlen]
      simp only [readBits]
      push_cast
      field_simp
      ring
    rw [e1, e2, turn_add, turn_add, turn_add, turn_nat, mul_one, mul_assoc]
  rw [Finset.sum_congr rfl fun x _ => h1 x, Finset.sum_congr rfl fun x _ => h2 x, ← Finset.mul_sum]
  ring

/-- The transform with one more qubit, most significant in the source and least significant in the destination. -/
theorem dft_high {s : ℤ} (hs : s = 1 ∨ s = -1) {src dst : List ℕ} {q : ℕ} (hnd : (src ++ [q]).Nodup) (ψ : ℕ → ℂ) (i : ℕ) :
    dft s (src ++ [q]) (q :: dst) ψ i =
      dft s src dst (fun j => turn s (((j.testBit q).toNat : ℝ) * (readBits src j : ℝ) / 2 ^ (src.length + 1)) * hOp q ψ j) i := by
  have hq : q ∉ src := by
    have := List.nodup_append.1 hnd
    intro h
    exact this.2.2 q h q (by simp) rfl
  have hns := (List.nodup_append.1 hnd).1
  have hp : (0 : ℝ) < 2 ^ src.length := by positivity
  unfold dft
  rw [List.length_append, List.length_singleton, sum_range_high, sqrt_pow_succ, mul_assoc, Finset.mul_sum]
  congr 1
  refine Finset.sum_congr rfl fun x hx => ?_
  have hx' := Finset.mem_range.1 hx
  unfold hOp
  dsimp only
  rw [readBits_writeBits hns hx', testBit_writeBits_of_notMem hq, sign_turn hs]
  have w0 : writeBits (src ++ [q]) x i = setBit q false (writeBits src x i) := by
    have := writeBits_concat hnd hx' false i
    simpa using this
  have w1 : writeBits (src ++ [q]) (x + 2 ^ src.length) i = setBit q true (writeBits src x i) := by
    have := writeBits_concat hnd hx' true i
    simpa using this
  rw [w0, w1]
  have t0 : (x : ℝ) * (readBits (q :: dst) i : ℝ) / 2 ^ (src.length + 1) = (x : ℝ) * (readBits dst i : ℝ) / 2 ^ src.length +
      ((i.testBit q).toNat : ℝ) * (x : ℝ) / 2 ^ (src.length + 1) := by
    rw [readBits]
    push_cast
    field_simp
    ring
  have t1 : ((x + 2 ^ src.length : ℕ) : ℝ) * (readBits (q :: dst) i : ℝ) / 2 ^ (src.length + 1) = ((x : ℝ) * (readBits dst i : ℝ) / 2 ^ src.length +
      ((i.testBit q).toNat : ℝ) * (x : ℝ) / 2 ^ (src.length + 1)) + (((i.testBit q).toNat : ℝ) / 2 + (readBits dst i : ℕ)) := by
    rw [readBits]
    push_cast
    field_simp
    ring
  rw [t0, t1, turn_add, turn_add, turn_add, turn_add, turn_nat]
  ring

/-! ## Runs of controlled phase gates -/

theorem rootN_turn (s : ℤ) (j : ℕ) : rootN s (j + 2) = turn s (1 / 2 ^ (j + 2)) := by
  unfold rootN turn
  congr 3
  rw [show j + 2 - 1 = j + 1 by omega, pow_succ 2 (j + 1)]
  field_simp

theorem irootN_turn (s : ℤ) (j : ℕ) : irootN s (j + 2) = turn (-s) (1 / 2 ^ (j + 2)) := by
  unfold irootN turn
  congr 3
  rw [show j + 2 - 1 = j + 1 by omega, pow_succ 2 (j + 1)]
  push_cast
  field_simp

theorem run_turn (s : ℤ) (k : ℕ) (c t : ℕ → ℕ) (ψ : ℕ → ℂ) :
    (List.range k).foldl (fun ψ j => cpOp (c j) (t j) (turn s (1 / 2 ^ (j + 2))) ψ) ψ =
      fun i => turn s (∑ j ∈ Finset.range k, ((i.testBit (c j)).toNat * (i.testBit (t j)).toNat : ℝ) / 2 ^ (j + 2)) * ψ i := by
  induction k with
  | zero => funext i; simp [turn_zero]
  | succ k ih =>
    rw [List.range_succ, List.foldl_append, ih]
    funext i
    simp only [List.foldl_cons, List.foldl_nil, cpOp]
    rw [Finset.sum_range_succ, turn_add]
    cases i.testBit (c k) <;> cases i.testBit (t k) <;> simp [turn_zero]
    ring

/-- The phases with a register read from its most significant qubit down. -/
theorem sum_down (qs : List ℕ) (i : ℕ) :
    ∑ j ∈ Finset.range qs.length, ((i.testBit (qs.getD (qs.length - 1 - j) 0)).toNat : ℝ) / 2 ^ (j + 2) =
      (readBits qs i : ℝ) / 2 ^ (qs.length + 1) := by
  induction qs with
  | nil => simp [readBits]
  | cons q qs ih =>
    rw [List.length_cons, Finset.sum_range_succ, readBits]
    have : ∀ j ∈ Finset.range qs.length, ((i.testBit ((q :: qs).getD (qs.length + 1 - 1 - j) 0)).toNat : ℝ) / 2 ^ (j + 2) =
        ((i.testBit (qs.getD (qs.length - 1 - j) 0)).toNat : ℝ) / 2 ^ (j + 2) := by
      intro j hj
      have := Finset.mem_range.1 hj
      rw [show qs.length + 1 - 1 - j = (qs.length - 1 - j) + 1 by omega, List.getD_cons_succ]
    rw [Finset.sum_congr rfl this, ih, show qs.length + 1 - 1 - qs.length = 0 by omega, List.getD_cons_zero]
    push_cast
    rw [pow_succ 2 (qs.length + 1)]
    field_simp
    ring

end Verif.Engine
