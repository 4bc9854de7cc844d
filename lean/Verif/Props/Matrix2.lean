import Verif.Model.Matrix2
import Mathlib.Analysis.Normed.Algebra.MatrixExponential
import Mathlib.Analysis.SpecialFunctions.Exponential
import Mathlib.LinearAlgebra.Matrix.Adjugate
import Mathlib.LinearAlgebra.Matrix.NonsingularInverse
import Mathlib.LinearAlgebra.UnitaryGroup
import Mathlib.Tactic.LinearCombination
import Mathlib.Tactic.FieldSimp
import Mathlib.Tactic.FinCases

/-!
# C42: the 2x2 matrix functions

Stated with Mathlib's matrices, product, inverse and exponential. The product and the inverse are right. The exponential and
the logarithm pair the eigenvalues with the wrong eigenvectors: on a matrix that is not diagonal they are those of the adjugate.
-/

namespace Verif.Matrix2

open Complex

/-- The matrix stored in four numbers. -/
def Mtrx.mat (m : Mtrx) : Matrix (Fin 2) (Fin 2) ℂ := !![m.m0, m.m1; m.m2, m.m3]

/-- `mul2x2` with four-lane arithmetic is the matrix product. -/
theorem mul2x2_mat (l r : Mtrx) : (mul2x2 l r).mat = l.mat * r.mat := by
  obtain ⟨a, b, c, d⟩ := l
  obtain ⟨a', b', c', d'⟩ := r
  ext i j
  fin_cases i <;> fin_cases j <;>
    (simp [Mtrx.mat, mul2x2, matrixMul, lane, pack, colShuff, shuffle, flipSign, addL, mulL, Matrix.mul_apply]
     apply Complex.ext <;> simp <;> ring)

theorem mul2x2Plain_mat (l r : Mtrx) : (mul2x2Plain l r).mat = l.mat * r.mat := by
  ext i j
  fin_cases i <;> fin_cases j <;> simp [Mtrx.mat, mul2x2Plain, Matrix.mul_apply]

/-- `inv2x2` is the inverse on both sides, and fails only without one. -/
theorem inv2x2_inverse (m : Mtrx) (h : m.mat.det ≠ 0) :
    ∃ o, inv2x2 m = some o ∧ o.mat * m.mat = 1 ∧ m.mat * o.mat = 1 := by
  have hd : m.m0 * m.m3 - m.m1 * m.m2 ≠ 0 := by simpa [Mtrx.mat, Matrix.det_fin_two] using h
  have hk : 1 / (m.m0 * m.m3 - m.m1 * m.m2) * (m.m0 * m.m3 - m.m1 * m.m2) = 1 := by field_simp
  refine ⟨_, by unfold inv2x2; rw [if_neg hd], ?_⟩
  generalize 1 / (m.m0 * m.m3 - m.m1 * m.m2) = k at *
  have h1 : (⟨k * m.m3, k * -m.m1, k * -m.m2, k * m.m0⟩ : Mtrx).mat * m.mat = 1 := by
    ext i j
    fin_cases i <;> fin_cases j <;> simp [Mtrx.mat, Matrix.mul_apply]
    · linear_combination hk
    · ring
    · ring
    · linear_combination hk
  exact ⟨h1, mul_eq_one_comm.mp h1⟩

theorem inv2x2_none (m : Mtrx) : inv2x2 m = none ↔ m.mat.det = 0 := by
  unfold inv2x2
  simp only [Mtrx.mat, Matrix.det_fin_two_of]
  split_ifs with h <;> simp [h]

/-- On a unitary matrix the result is the conjugate transpose. -/
theorem inv2x2_unitary (m : Mtrx) (h : m.mat ∈ Matrix.unitaryGroup (Fin 2) ℂ) :
    ∃ o, inv2x2 m = some o ∧ o.mat = m.mat.conjTranspose := by
  have h1 : m.mat.conjTranspose * m.mat = 1 := Matrix.mem_unitaryGroup_iff'.mp h
  have hd : m.mat.det ≠ 0 := by
    intro h0
    have := congrArg Matrix.det h1
    rw [Matrix.det_mul, h0, mul_zero, Matrix.det_one] at this
    exact zero_ne_one this
  obtain ⟨o, ho, -, h3⟩ := inv2x2_inverse m hd
  refine ⟨o, ho, ?_⟩
  calc o.mat = (m.mat.conjTranspose * m.mat) * o.mat := by rw [h1, one_mul]
    _ = m.mat.conjTranspose := by rw [mul_assoc, h3, mul_one]

theorem root_sq (m : Mtrx) : root m * root m = (m.m0 + m.m3) * (m.m0 + m.m3) - 4 * (m.m0 * m.m3 - m.m1 * m.m2) := by
  unfold root
  rw [← pow_two, ← Complex.cpow_nat_mul]
  norm_num

/-- What the routine computes on a matrix that is not diagonal: the function of the *adjugate*, by diagonalising it. -/
theorem expLog_diagonalises {f : ℂ → Option ℂ} {m o : Mtrx} (hnd : ¬(m.m1 = 0 ∧ m.m2 = 0)) (h : expLog2x2 f m = some o) :
    ∃ (J : Matrix (Fin 2) (Fin 2) ℂ) (x y : ℂ), IsUnit J ∧ f (eig1 m) = some x ∧ f (eig2 m) = some y ∧
      o.mat = J * Matrix.diagonal ![x, y] * J⁻¹ ∧ m.mat.adjugate = J * Matrix.diagonal ![eig1 m, eig2 m] * J⁻¹ := by
  unfold expLog2x2 at h
  rw [if_neg hnd] at h
  dsimp only at h
  split at h
  · cases h
  rename_i hn
  rw [not_or] at hn
  obtain ⟨hn0, hn1⟩ := hn
  split at h
  · cases h
  rename_i hdet
  split at h
  case h_2 => cases h
  rename_i x y hx hy
  rw [Option.some.injEq] at h
  generalize hn0' : Real.sqrt (normSq (m.m0 - eig1 m) + normSq m.m2) = n0 at *
  generalize hn1' : Real.sqrt (normSq m.m1 + normSq (m.m3 - eig2 m)) = n1 at *
  have c0 : (n0 : ℂ) ≠ 0 := by exact_mod_cast hn0
  have c1 : (n1 : ℂ) ≠ 0 := by exact_mod_cast hn1
  set j : Mtrx := ⟨(m.m0 - eig1 m) / n0, m.m1 / n1, m.m2 / n0, (m.m3 - eig2 m) / n1⟩ with hj
  set δ := (m.m0 - eig1 m) / n0 * ((m.m3 - eig2 m) / n1) - m.m1 / n1 * (m.m2 / n0) with hδ
  set ji : Mtrx := ⟨(m.m3 - eig2 m) / n1 / δ, -(m.m1 / n1) / δ, -(m.m2 / n0) / δ, (m.m0 - eig1 m) / n0 / δ⟩ with hji
  have hinv : j.mat * ji.mat = 1 := by
    have hδ' : δ = j.m0 * j.m3 - j.m1 * j.m2 := hδ
    have hji' : ji = ⟨j.m3 / δ, -j.m1 / δ, -j.m2 / δ, j.m0 / δ⟩ := hji
    rw [hji']
    clear_value j
    ext i k
    fin_cases i <;> fin_cases k <;> simp [Mtrx.mat, Matrix.mul_apply] <;> field_simp <;> rw [hδ'] <;> ring
  have hunit : IsUnit j.mat := by
    rw [Matrix.isUnit_iff_isUnit_det]
    exact Matrix.isUnit_det_of_right_inverse hinv
  have hJi : j.mat⁻¹ = ji.mat := Matrix.inv_eq_right_inv hinv
  refine ⟨j.mat, x, y, hunit, hx, hy, ?_, ?_⟩
  · rw [← h, mul2x2_mat, mul2x2_mat, hJi, mul_assoc]
    congr 2
    ext i k
    fin_cases i <;> fin_cases k <;> simp [Mtrx.mat]
  · have hr := root_sq m
    have hAJ : m.mat.adjugate * j.mat = j.mat * Matrix.diagonal ![eig1 m, eig2 m] := by
      have e1 : eig1 m * eig1 m = (m.m0 + m.m3) * eig1 m - (m.m0 * m.m3 - m.m1 * m.m2) := by
        unfold eig1; linear_combination hr / 4
      have e2 : eig2 m * eig2 m = (m.m0 + m.m3) * eig2 m - (m.m0 * m.m3 - m.m1 * m.m2) := by
        unfold eig2; linear_combination hr / 4
      generalize eig1 m = l1 at *
      generalize eig2 m = l2 at *
      ext i k
      fin_cases i <;> fin_cases k <;>
        simp [Mtrx.mat, Matrix.mul_apply, Matrix.adjugate_fin_two, hj] <;> field_simp
      · linear_combination e1
      · ring
      · ring
      · linear_combination e2
    calc m.mat.adjugate = m.mat.adjugate * (j.mat * j.mat⁻¹) := by
          rw [hJi, hinv, mul_one]
      _ = _ := by rw [← mul_assoc, hAJ]

theorem expEntry_eq (z : ℂ) : expEntry z = some (Complex.exp z) := by
  unfold expEntry
  rw [Option.some.injEq]
  conv_rhs => rw [← re_add_im z, Complex.exp_add, Complex.exp_mul_I]
  rw [← Complex.ofReal_exp]
  congr 1
  apply Complex.ext <;> simp [Complex.cos_ofReal_re, Complex.sin_ofReal_re]

theorem exp_logEntry {z x : ℂ} (h : logEntry z = some x) : Complex.exp x = z := by
  unfold logEntry at h
  split_ifs at h with hz
  rw [Option.some.injEq] at h
  have e : (⟨Real.log ‖z‖, Complex.arg z⟩ : ℂ) = Complex.log z := by
    apply Complex.ext <;> simp [Complex.log_re, Complex.log_im]
  rw [← h, e]
  exact Complex.exp_log hz

theorem exp_diag2 (x y : ℂ) :
    NormedSpace.exp (Matrix.diagonal ![x, y] : Matrix (Fin 2) (Fin 2) ℂ) = Matrix.diagonal ![Complex.exp x, Complex.exp y] := by
  rw [Matrix.exp_diagonal]
  congr 1
  funext i
  rw [Pi.coe_exp]
  fin_cases i <;> simp [Complex.exp_eq_exp_ℂ]

/-- Diagonal matrices: the exponential is right. Missing for the full claim (`exp2x2 m = some o → o.mat = exp m.mat`): it is
false for other matrices, see `exp2x2_adjugate` and `exp2x2_wrong`. -/
theorem exp2x2_diag_partial (m : Mtrx) (h : m.m1 = 0 ∧ m.m2 = 0) :
    ∃ o, exp2x2 m = some o ∧ o.mat = NormedSpace.exp m.mat := by
  refine ⟨⟨Complex.exp m.m0, 0, 0, Complex.exp m.m3⟩, ?_, ?_⟩
  · unfold exp2x2 expLog2x2
    rw [if_pos h, expEntry_eq, expEntry_eq]
  · have e : m.mat = Matrix.diagonal ![m.m0, m.m3] := by
      ext i k; fin_cases i <;> fin_cases k <;> simp [Mtrx.mat, h.1, h.2]
    rw [e, exp_diag2]
    ext i k; fin_cases i <;> fin_cases k <;> simp [Mtrx.mat]

/-- Any other matrix: the result is the exponential of the adjugate. -/
theorem exp2x2_adjugate {m o : Mtrx} (hnd : ¬(m.m1 = 0 ∧ m.m2 = 0)) (h : exp2x2 m = some o) :
    o.mat = NormedSpace.exp m.mat.adjugate := by
  obtain ⟨J, x, y, hJ, hx, hy, ho, ha⟩ := expLog_diagonalises hnd h
  rw [expEntry_eq, Option.some.injEq] at hx hy
  rw [ho, ha, Matrix.exp_conj _ _ hJ, exp_diag2, hx, hy]

/-- Diagonal matrices: the result is a logarithm. -/
theorem log2x2_diag_partial {m o : Mtrx} (hd : m.m1 = 0 ∧ m.m2 = 0) (h : log2x2 m = some o) :
    NormedSpace.exp o.mat = m.mat := by
  unfold log2x2 expLog2x2 at h
  rw [if_pos hd] at h
  split at h
  case h_2 => cases h
  rename_i x y hx hy
  rw [Option.some.injEq] at h
  subst h
  have e : (⟨x, 0, 0, y⟩ : Mtrx).mat = Matrix.diagonal ![x, y] := by
    ext i k; fin_cases i <;> fin_cases k <;> simp [Mtrx.mat]
  rw [e, exp_diag2, exp_logEntry hx, exp_logEntry hy]
  ext i k; fin_cases i <;> fin_cases k <;> simp [Mtrx.mat, hd.1, hd.2]

/-- Any other matrix: the result is a logarithm of the adjugate. -/
theorem log2x2_adjugate {m o : Mtrx} (hnd : ¬(m.m1 = 0 ∧ m.m2 = 0)) (h : log2x2 m = some o) :
    NormedSpace.exp o.mat = m.mat.adjugate := by
  obtain ⟨J, x, y, hJ, hx, hy, ho, ha⟩ := expLog_diagonalises hnd h
  rw [ho, ha, Matrix.exp_conj _ _ hJ, exp_diag2, exp_logEntry hx, exp_logEntry hy]

/-- When the routine yields numbers at all on a matrix that is not diagonal. -/
theorem exp2x2_defined {m : Mtrx} (hnd : ¬(m.m1 = 0 ∧ m.m2 = 0)) (h1 : eig1 m ≠ m.m0) (h2 : root m ≠ 0) :
    ∃ o, exp2x2 m = some o := by
  have hr := root_sq m
  have e12 : eig1 m + eig2 m = m.m0 + m.m3 := by unfold eig1 eig2; ring
  have hd : m.m3 - eig2 m ≠ 0 := by
    intro h; apply h1; linear_combination e12 + h
  have pos0 : Real.sqrt (normSq (m.m0 - eig1 m) + normSq m.m2) ≠ 0 := by
    rw [Real.sqrt_ne_zero']
    have := normSq_pos.mpr (sub_ne_zero.mpr h1.symm)
    have := normSq_nonneg m.m2
    linarith
  have pos1 : Real.sqrt (normSq m.m1 + normSq (m.m3 - eig2 m)) ≠ 0 := by
    rw [Real.sqrt_ne_zero']
    have := normSq_pos.mpr hd
    have := normSq_nonneg m.m1
    linarith
  have c0 : ((Real.sqrt (normSq (m.m0 - eig1 m) + normSq m.m2) : ℝ) : ℂ) ≠ 0 := by exact_mod_cast pos0
  have c1 : ((Real.sqrt (normSq m.m1 + normSq (m.m3 - eig2 m)) : ℝ) : ℂ) ≠ 0 := by exact_mod_cast pos1
  unfold exp2x2 expLog2x2
  rw [if_neg hnd]
  dsimp only
  rw [if_neg (not_or.mpr ⟨pos0, pos1⟩), if_neg]
  · rw [expEntry_eq, expEntry_eq]; exact ⟨_, rfl⟩
  · generalize ((Real.sqrt (normSq (m.m0 - eig1 m) + normSq m.m2) : ℝ) : ℂ) = n0 at *
    generalize ((Real.sqrt (normSq m.m1 + normSq (m.m3 - eig2 m)) : ℝ) : ℂ) = n1 at *
    intro h0
    have h3 : (m.m0 - eig1 m) * (m.m3 - eig2 m) - m.m1 * m.m2 = 0 := by
      field_simp at h0
      linear_combination h0
    have h4 : (eig1 m - m.m0) * root m = 0 := by
      unfold eig1 eig2 at *; linear_combination -h3 + hr / 4
    rcases mul_eq_zero.mp h4 with h5 | h5
    · exact h1 (sub_eq_zero.mp h5)
    · exact h2 h5

theorem root_x : root ⟨0, 1, 1, 0⟩ = 2 ∨ root ⟨0, 1, 1, 0⟩ = -2 := by
  have h := root_sq ⟨0, 1, 1, 0⟩
  have h2 : (root ⟨0, 1, 1, 0⟩ - 2) * (root ⟨0, 1, 1, 0⟩ + 2) = 0 := by linear_combination h
  rcases mul_eq_zero.mp h2 with h3 | h3
  · exact Or.inl (sub_eq_zero.mp h3)
  · exact Or.inr (eq_neg_of_add_eq_zero_left h3)

theorem diag_fin_two (x y : ℂ) : Matrix.diagonal ![x, y] = !![x, 0; 0, y] := by
  ext i k; fin_cases i <;> fin_cases k <;> simp

theorem exp_x_sq : NormedSpace.exp (⟨0, 1, 1, 0⟩ : Mtrx).mat * NormedSpace.exp (⟨0, 1, 1, 0⟩ : Mtrx).mat ≠ 1 := by
  intro h
  have hinv : (!![1, 1; 1, -1] : Matrix (Fin 2) (Fin 2) ℂ) * !![1 / 2, 1 / 2; 1 / 2, -1 / 2] = 1 := by
    ext i k; fin_cases i <;> fin_cases k <;> norm_num [Matrix.mul_apply]
  have hu : IsUnit (!![1, 1; 1, -1] : Matrix (Fin 2) (Fin 2) ℂ) := by
    rw [Matrix.isUnit_iff_isUnit_det]; exact Matrix.isUnit_det_of_right_inverse hinv
  have hJ := Matrix.inv_eq_right_inv hinv
  have hX : (⟨0, 1, 1, 0⟩ : Mtrx).mat =
      !![1, 1; 1, -1] * Matrix.diagonal ![1, -1] * (!![1, 1; 1, -1] : Matrix (Fin 2) (Fin 2) ℂ)⁻¹ := by
    rw [hJ, diag_fin_two, Matrix.mul_fin_two, Matrix.mul_fin_two, Mtrx.mat]
    norm_num
  rw [hX, Matrix.exp_conj _ _ hu, exp_diag2, hJ, diag_fin_two] at h
  simp only [Matrix.mul_fin_two] at h
  have h00 := congrFun (congrFun h 0) 0
  have h01 := congrFun (congrFun h 0) 1
  simp at h00 h01
  have hsq : Complex.exp 1 * Complex.exp 1 = 1 := by linear_combination h00 + h01
  rw [← Complex.exp_add] at hsq
  have := congrArg Complex.re hsq
  rw [show (1 : ℂ) + 1 = ((2 : ℝ) : ℂ) by norm_num, Complex.exp_ofReal_re, Complex.one_re] at this
  have h2 := Real.one_lt_exp_iff.mpr (show (0 : ℝ) < 2 by norm_num)
  linarith

/-- The claim fails for the Pauli `X` matrix: its exponential is `[cosh 1, sinh 1; sinh 1, cosh 1]`, but the routine gives the
exponential of `-X`. -/
theorem exp2x2_wrong : ∃ o, exp2x2 ⟨0, 1, 1, 0⟩ = some o ∧ o.mat ≠ NormedSpace.exp (⟨0, 1, 1, 0⟩ : Mtrx).mat := by
  have hnd : ¬((⟨0, 1, 1, 0⟩ : Mtrx).m1 = 0 ∧ (⟨0, 1, 1, 0⟩ : Mtrx).m2 = 0) := by simp
  obtain ⟨o, ho⟩ := exp2x2_defined hnd (by rcases root_x with h | h <;> simp [eig1, h])
    (by rcases root_x with h | h <;> simp [h])
  refine ⟨o, ho, fun he => ?_⟩
  have ha := exp2x2_adjugate hnd ho
  have hadj : (⟨0, 1, 1, 0⟩ : Mtrx).mat.adjugate = -(⟨0, 1, 1, 0⟩ : Mtrx).mat := by
    ext i k; fin_cases i <;> fin_cases k <;> simp [Mtrx.mat, Matrix.adjugate_fin_two]
  rw [hadj, Matrix.exp_neg, he] at ha
  apply exp_x_sq
  conv_lhs => arg 2; rw [ha]
  exact Matrix.mul_nonsing_inv _ ((Matrix.isUnit_iff_isUnit_det _).mp (Matrix.isUnit_exp _))

/-- The hypotheses of the theorems about other matrices are met by `X`; those about unitary matrices by `iX`. -/
example : ¬((⟨0, 1, 1, 0⟩ : Mtrx).m1 = 0 ∧ (⟨0, 1, 1, 0⟩ : Mtrx).m2 = 0) ∧ ∃ o, exp2x2 ⟨0, 1, 1, 0⟩ = some o := by
  obtain ⟨o, ho, -⟩ := exp2x2_wrong
  exact ⟨by simp, o, ho⟩

example : (⟨0, I, I, 0⟩ : Mtrx).mat ∈ Matrix.unitaryGroup (Fin 2) ℂ ∧ (⟨0, I, I, 0⟩ : Mtrx).mat.det ≠ 0 := by
  refine ⟨?_, by simp [Mtrx.mat, Matrix.det_fin_two]⟩
  rw [Matrix.mem_unitaryGroup_iff]
  ext i k; fin_cases i <;> fin_cases k <;> simp [Mtrx.mat, Matrix.mul_apply, Matrix.star_apply]

end Verif.Matrix2
