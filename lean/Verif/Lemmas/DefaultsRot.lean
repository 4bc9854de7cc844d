import Verif.Lemmas.DefaultsExec
import Verif.Props.Matrix2
import Verif.Spec.Rotation

/-!
The exponentials of the Pauli matrices, and products of one-qubit gates.
-/

namespace Verif.Defaults

open Verif.Engine Verif.Spec Verif.Spec.Rotation Verif.Bits Complex Classical

/-- The matrix of a call. -/
def mat (m : M2) : Matrix (Fin 2) (Fin 2) ℂ := !![m.a, m.b; m.c, m.d]

theorem act_mat (m : M2) (q : ℕ) (s : ℕ → ℂ) : act (mat m) q s = gate (fun _ => True) q m.a m.b m.c m.d s := rfl

theorem actIf_mat (v : Bool) (cs : List ℕ) (m : M2) (q : ℕ) (s : ℕ → ℂ) :
    actIf v cs (mat m) q s = gate (AllAre v cs) q m.a m.b m.c m.d s := rfl

theorem gate_mul (p : ℕ → Prop) [DecidablePred p] {q : ℕ} (hp : ∀ i, p (flipBit q i) ↔ p i) (a b c d a' b' c' d' : ℂ) (s : ℕ → ℂ) :
    gate p q a b c d (gate p q a' b' c' d' s) =
      gate p q (a * a' + b * c') (a * b' + b * d') (c * a' + d * c') (c * b' + d * d') s := by
  funext i
  by_cases h : p i
  · have h' : p (flipBit q i) := (hp i).2 h
    simp only [gate, if_pos h, if_pos h', Engine.flip_flip]
    have e : (flipBit q i).testBit q = !i.testBit q := by rw [testBit_flip]; simp
    cases hb : i.testBit q <;> simp [e, hb] <;> ring
  · simp only [gate, if_neg h]

theorem act_act (M N : Matrix (Fin 2) (Fin 2) ℂ) (q : ℕ) (s : ℕ → ℂ) : act M q (act N q s) = act (M * N) q s := by
  unfold act
  rw [gate_mul _ (fun _ => Iff.rfl)]
  simp [Matrix.mul_apply, Fin.sum_univ_two]

theorem actIf_actIf (v : Bool) {cs : List ℕ} {q : ℕ} (hq : q ∉ cs) (M N : Matrix (Fin 2) (Fin 2) ℂ) (s : ℕ → ℂ) :
    actIf v cs M q (actIf v cs N q s) = actIf v cs (M * N) q s := by
  unfold actIf
  rw [gate_mul]
  · simp [Matrix.mul_apply, Fin.sum_univ_two]
  · intro i
    unfold AllAre
    refine forall₂_congr fun c hc => ?_
    have : c ≠ q := fun h => hq (h ▸ hc)
    rw [testBit_flip]; simp [this]

theorem act_one (q : ℕ) (s : ℕ → ℂ) : act 1 q s = s := by funext i; unfold act; simp [gate_id]
theorem actIf_one (v : Bool) (cs : List ℕ) (q : ℕ) (s : ℕ → ℂ) : actIf v cs 1 q s = s := by
  funext i; unfold actIf; simp [gate_id]

/-! ## Exponentials -/

theorem exp_conj_z {J P : Matrix (Fin 2) (Fin 2) ℂ} (hJ : IsUnit J) (hP : P = J * Matrix.diagonal ![1, -1] * J⁻¹) (w : ℂ) :
    NormedSpace.exp (w • P) = Complex.cosh w • (1 : Matrix (Fin 2) (Fin 2) ℂ) + Complex.sinh w • P := by
  have hJJ : J * J⁻¹ = 1 := Matrix.mul_nonsing_inv _ ((Matrix.isUnit_iff_isUnit_det _).mp hJ)
  have e1 : w • P = J * Matrix.diagonal ![w, -w] * J⁻¹ := by
    rw [hP, ← Matrix.smul_mul, ← Matrix.mul_smul]
    congr 2
    ext i k; fin_cases i <;> fin_cases k <;> simp
  have e2 : (Matrix.diagonal ![Complex.exp w, Complex.exp (-w)] : Matrix (Fin 2) (Fin 2) ℂ) =
      Complex.cosh w • (1 : Matrix (Fin 2) (Fin 2) ℂ) + Complex.sinh w • Matrix.diagonal ![1, -1] := by
    ext i k
    fin_cases i <;> fin_cases k <;> simp [Complex.cosh_add_sinh, ← sub_eq_add_neg, Complex.cosh_sub_sinh]
  rw [e1, Matrix.exp_conj _ _ hJ, Matrix2.exp_diag2, e2, Matrix.mul_add, Matrix.add_mul, Matrix.mul_smul, Matrix.mul_one,
    Matrix.smul_mul, hJJ, Matrix.mul_smul, Matrix.smul_mul, ← hP]

theorem isUnit_of_det {J K : Matrix (Fin 2) (Fin 2) ℂ} (h : J * K = 1) : IsUnit J ∧ J⁻¹ = K :=
  ⟨by rw [Matrix.isUnit_iff_isUnit_det]; exact Matrix.isUnit_det_of_right_inverse h, Matrix.inv_eq_right_inv h⟩

theorem exp_pauliX (w : ℂ) : NormedSpace.exp (w • σx) = Complex.cosh w • (1 : Matrix (Fin 2) (Fin 2) ℂ) + Complex.sinh w • σx := by
  have h : (!![1, 1; 1, -1] : Matrix (Fin 2) (Fin 2) ℂ) * !![1 / 2, 1 / 2; 1 / 2, -1 / 2] = 1 := by
    ext i k; fin_cases i <;> fin_cases k <;> norm_num [Matrix.mul_apply]
  obtain ⟨h1, h2⟩ := isUnit_of_det h
  refine exp_conj_z h1 ?_ w
  rw [h2, Matrix2.diag_fin_two, Matrix.mul_fin_two, Matrix.mul_fin_two, σx]
  norm_num

theorem exp_pauliY (w : ℂ) : NormedSpace.exp (w • σy) = Complex.cosh w • (1 : Matrix (Fin 2) (Fin 2) ℂ) + Complex.sinh w • σy := by
  have hI : I * I = -1 := I_mul_I
  have h : (!![1, 1; I, -I] : Matrix (Fin 2) (Fin 2) ℂ) * !![1 / 2, -I / 2; 1 / 2, I / 2] = 1 := by
    ext i k; fin_cases i <;> fin_cases k <;> simp [Matrix.mul_apply] <;> ring_nf <;> simp <;> norm_num
  obtain ⟨h1, h2⟩ := isUnit_of_det h
  refine exp_conj_z h1 ?_ w
  rw [h2, Matrix2.diag_fin_two, Matrix.mul_fin_two, Matrix.mul_fin_two, σy]
  ext i k; fin_cases i <;> fin_cases k <;> simp <;> ring_nf <;> simp

theorem exp_pauliZ (w : ℂ) : NormedSpace.exp (w • σz) = Complex.cosh w • (1 : Matrix (Fin 2) (Fin 2) ℂ) + Complex.sinh w • σz := by
  refine exp_conj_z (J := 1) isUnit_one ?_ w
  rw [inv_one, Matrix.mul_one, Matrix.one_mul, Matrix2.diag_fin_two, σz]

theorem cosh_half (θ : ℝ) : Complex.cosh (-(θ / 2 : ℂ) * I) = (Real.cos (θ / 2) : ℂ) := by
  rw [Complex.cosh_mul_I, Complex.cos_neg]; push_cast; rfl

theorem sinh_half (θ : ℝ) : Complex.sinh (-(θ / 2 : ℂ) * I) = -(Real.sin (θ / 2) : ℂ) * I := by
  rw [Complex.sinh_mul_I, Complex.sin_neg]; push_cast; rfl

theorem rot_x (θ : ℝ) : rot σx θ = mat (rxM θ) := by
  rw [rot, exp_pauliX, cosh_half, sinh_half]
  ext i k; fin_cases i <;> fin_cases k <;> apply Complex.ext <;> simp [mat, rxM, σx, -ofReal_cos, -ofReal_sin]

theorem rot_y (θ : ℝ) : rot σy θ = mat (ryM θ) := by
  rw [rot, exp_pauliY, cosh_half, sinh_half]
  ext i k; fin_cases i <;> fin_cases k <;> apply Complex.ext <;> simp [mat, ryM, σy, -ofReal_cos, -ofReal_sin]

theorem rot_z (θ : ℝ) : rot σz θ = mat ⟨⟨Real.cos (θ / 2), -Real.sin (θ / 2)⟩, 0, 0, ⟨Real.cos (θ / 2), Real.sin (θ / 2)⟩⟩ := by
  rw [rot, exp_pauliZ, cosh_half, sinh_half]
  ext i k; fin_cases i <;> fin_cases k <;> apply Complex.ext <;> simp [mat, σz, -ofReal_cos, -ofReal_sin]

/-! ## Unitarity -/

theorem unitary_of_mat {m : M2} (h : (mat m).conjTranspose * mat m = 1) : m.IsUnitary := by
  have e := fun i j => congrFun (congrFun h i) j
  have e1 := e 0 0
  have e2 := e 1 1
  have e3 := e 0 1
  simp [mat, Matrix.mul_apply, Fin.sum_univ_two, Matrix.conjTranspose_apply] at e1 e2 e3
  exact ⟨e1, e2, e3⟩

theorem unitary_ryM (θ : ℝ) : (ryM θ).IsUnitary := by
  have h := Real.cos_sq_add_sin_sq (θ / 2)
  have hc : ((Real.cos (θ / 2) : ℝ) : ℂ) ^ 2 + ((Real.sin (θ / 2) : ℝ) : ℂ) ^ 2 = 1 := by exact_mod_cast h
  refine ⟨?_, ?_, ?_⟩ <;> simp only [ryM, map_neg, Complex.conj_ofReal]
  · linear_combination hc
  · linear_combination hc
  · ring

theorem unitary_rxM (θ : ℝ) : (rxM θ).IsUnitary := by
  have h := Real.cos_sq_add_sin_sq (θ / 2)
  refine ⟨?_, ?_, ?_⟩ <;> apply Complex.ext <;> simp [rxM, -ofReal_cos, -ofReal_sin] <;> nlinarith

theorem norm_mk_cos (θ : ℝ) : ‖(⟨Real.cos θ, Real.sin θ⟩ : ℂ)‖ = 1 := by
  have : (⟨Real.cos θ, Real.sin θ⟩ : ℂ) = Complex.exp (θ * I) := by
    rw [Complex.exp_mul_I, ← ofReal_cos, ← ofReal_sin]
    apply Complex.ext <;> simp [-ofReal_cos, -ofReal_sin]
  rw [this, Complex.norm_exp_ofReal_mul_I]

theorem norm_mk_cos' (θ : ℝ) : ‖(⟨Real.cos θ, -Real.sin θ⟩ : ℂ)‖ = 1 := by
  have := norm_mk_cos (-θ)
  rwa [Real.cos_neg, Real.sin_neg] at this


/-! ## Matrix identities -/

theorem mk_exp (θ : ℝ) : (⟨Real.cos θ, Real.sin θ⟩ : ℂ) = Complex.exp (θ * I) := by
  rw [Complex.exp_mul_I, ← ofReal_cos, ← ofReal_sin]
  apply Complex.ext <;> simp [-ofReal_cos, -ofReal_sin]

theorem mk_exp_cn (θ : ℝ) : (⟨Real.cos θ, -Real.sin θ⟩ : ℂ) = Complex.exp (-(θ * I)) := by
  have := mk_exp (-θ)
  rw [Real.cos_neg, Real.sin_neg] at this
  rw [this]; push_cast; ring_nf

theorem mk_exp_nn (θ : ℝ) : (⟨-Real.cos θ, -Real.sin θ⟩ : ℂ) = -Complex.exp (θ * I) := by
  rw [← mk_exp]; rfl

theorem mk_exp_nc (θ : ℝ) : (⟨-Real.cos θ, Real.sin θ⟩ : ℂ) = -Complex.exp (-(θ * I)) := by
  rw [← mk_exp_cn]; apply Complex.ext <;> simp

theorem mk_real (a : ℝ) : (⟨a, 0⟩ : ℂ) = (a : ℂ) := rfl

theorem mat_mul (m m' : M2) : mat m * mat m' =
    !![m.a * m'.a + m.b * m'.c, m.a * m'.b + m.b * m'.d; m.c * m'.a + m.d * m'.c, m.c * m'.b + m.d * m'.d] := by
  rw [mat, mat, Matrix.mul_fin_two]

theorem mat_smul (w : ℂ) (m : M2) : w • mat m = !![w * m.a, w * m.b; w * m.c, w * m.d] := by
  ext i k; fin_cases i <;> fin_cases k <;> simp [mat]

/-- A rotation about `Z`. -/
noncomputable def rzM (θ : ℝ) : M2 := ⟨⟨Real.cos (θ / 2), -Real.sin (θ / 2)⟩, 0, 0, ⟨Real.cos (θ / 2), Real.sin (θ / 2)⟩⟩

theorem rot_z' (θ : ℝ) : rot σz θ = mat (rzM θ) := rot_z θ

theorem zyz (a b c : ℝ) : rot σz a * rot σy b * rot σz c =
    !![Complex.exp (-((a / 2 : ℝ) * I)) * Real.cos (b / 2) * Complex.exp (-((c / 2 : ℝ) * I)),
      -(Complex.exp (-((a / 2 : ℝ) * I)) * Real.sin (b / 2) * Complex.exp ((c / 2 : ℝ) * I));
      Complex.exp ((a / 2 : ℝ) * I) * Real.sin (b / 2) * Complex.exp (-((c / 2 : ℝ) * I)),
      Complex.exp ((a / 2 : ℝ) * I) * Real.cos (b / 2) * Complex.exp ((c / 2 : ℝ) * I)] := by
  rw [rot_z', rot_z', rot_y, mat_mul, rzM, ryM, rzM, mk_exp, mk_exp, mk_exp_cn, mk_exp_cn, mat, Matrix.mul_fin_two]
  simp only [zero_mul, mul_zero, add_zero, zero_add, mul_neg, neg_mul, neg_zero]

/-- The three angles of `U`. -/
theorem uM_rot (θ φ l : ℝ) :
    mat (uM θ φ l) = Complex.exp ((φ + l) / 2 * I) • (rot σz φ * rot σy θ * rot σz l) := by
  rw [zyz, uM, mk_exp, mk_exp_nn, mk_exp, mk_real, mat]
  have key : ∀ x y z u : ℂ, x + y + z = u → ∀ c : ℂ, Complex.exp x * (Complex.exp y * c * Complex.exp z) = c * Complex.exp u := by
    intro x y z u h c; rw [← h, Complex.exp_add, Complex.exp_add]; ring
  rw [Matrix.smul_of, Matrix.smul_cons, Matrix.smul_cons, Matrix.smul_cons, Matrix.smul_cons, Matrix.smul_cons, Matrix.smul_cons,
    Matrix.smul_empty, Matrix.smul_empty, smul_eq_mul, smul_eq_mul, smul_eq_mul, smul_eq_mul, mul_neg, mul_neg, key _ _ _ 0 (by push_cast; ring),
    key _ _ _ (l * I) (by push_cast; ring), key _ _ _ (φ * I) (by push_cast; ring), key _ _ _ ((φ + l : ℝ) * I) (by push_cast; ring)]
  simp

theorem aiM_rot (az inc : ℝ) : mat (aiM az inc) = rot σz az * rot σy inc * rot σz (-az) := by
  rw [zyz, aiM, mk_exp, mk_exp_nc, mat]
  have key : ∀ x z u : ℂ, x + z = u → ∀ c : ℂ, Complex.exp x * c * Complex.exp z = Complex.exp u * c := by
    intro x z u h c; rw [← h, Complex.exp_add]; ring
  rw [key _ _ 0 (by push_cast; ring), key _ _ (-(az * I)) (by push_cast; ring), key _ _ (az * I) (by push_cast; ring),
    key _ _ 0 (by push_cast; ring)]
  simp

theorem unitary_mat {m : M2} : m.IsUnitary ↔ (mat m).conjTranspose * mat m = 1 := by
  constructor
  · intro h
    have h1 := h.col0
    have h2 := h.col1
    have h3 := h.orth
    have h4 := congrArg (starRingEnd ℂ) h3
    simp only [map_add, map_mul, Complex.conj_conj, map_zero] at h4
    ext i k
    fin_cases i <;> fin_cases k <;> simp [mat, Matrix.mul_apply, Fin.sum_univ_two, Matrix.conjTranspose_apply]
    · exact h1
    · exact h3
    · linear_combination h4
    · exact h2
  · exact unitary_of_mat

theorem unitary_rzM (θ : ℝ) : (rzM θ).IsUnitary := unitary_diag (norm_mk_cos' _) (norm_mk_cos _)

theorem rot_y_unitary (θ : ℝ) : (rot σy θ).conjTranspose * rot σy θ = 1 := by rw [rot_y]; exact unitary_mat.1 (unitary_ryM θ)
theorem rot_z_unitary (θ : ℝ) : (rot σz θ).conjTranspose * rot σz θ = 1 := by rw [rot_z']; exact unitary_mat.1 (unitary_rzM θ)

theorem mul_unitary {A B : Matrix (Fin 2) (Fin 2) ℂ} (hA : A.conjTranspose * A = 1) (hB : B.conjTranspose * B = 1) :
    (A * B).conjTranspose * (A * B) = 1 := by
  rw [Matrix.conjTranspose_mul, Matrix.mul_assoc, ← Matrix.mul_assoc _ A B, hA, Matrix.one_mul, hB]

theorem unitary_aiM (az inc : ℝ) : (aiM az inc).IsUnitary := by
  rw [unitary_mat, aiM_rot]
  exact mul_unitary (mul_unitary (rot_z_unitary _) (rot_y_unitary _)) (rot_z_unitary _)

theorem unitary_uM (θ φ l : ℝ) : (uM θ φ l).IsUnitary := by
  rw [unitary_mat, uM_rot, Matrix.conjTranspose_smul, Matrix.smul_mul, Matrix.mul_smul, smul_smul,
    mul_unitary (mul_unitary (rot_z_unitary _) (rot_y_unitary _)) (rot_z_unitary _)]
  have : star (Complex.exp ((φ + l) / 2 * I)) * Complex.exp ((φ + l) / 2 * I) = 1 := by
    have h : ‖Complex.exp ((φ + l) / 2 * I)‖ = 1 := by
      have := Complex.norm_exp_ofReal_mul_I ((φ + l) / 2)
      push_cast at this; exact this
    exact conj_mul_of_norm h
  rw [this, one_smul]

/-- `inv2x2` on a unitary matrix. -/
theorem inv_unitary {m : M2} (h : m.IsUnitary) : ∃ m', inv m = some m' ∧ mat m' * mat m = 1 ∧ mat m * mat m' = 1 ∧ m'.IsUnitary := by
  have hu := unitary_mat.1 h
  obtain ⟨o, h1, h2⟩ := Matrix2.inv2x2_unitary ⟨m.a, m.b, m.c, m.d⟩ (Matrix.mem_unitaryGroup_iff'.mpr hu)
  have e : mat ⟨o.m0, o.m1, o.m2, o.m3⟩ = (mat m).conjTranspose := h2
  have hu' : mat m * (mat m).conjTranspose = 1 := mul_eq_one_comm.mp hu
  refine ⟨⟨o.m0, o.m1, o.m2, o.m3⟩, by rw [inv, h1]; rfl, by rw [e, hu], by rw [e, hu'], ?_⟩
  rw [unitary_mat, e, Matrix.conjTranspose_conjTranspose, hu']

theorem norm_col {x y : ℂ} (h : (starRingEnd ℂ) x * x + (starRingEnd ℂ) y * y = 1) : ‖x‖ ^ 2 + ‖y‖ ^ 2 = 1 := by
  rw [mul_comm, Complex.mul_conj, mul_comm _ y, Complex.mul_conj, Complex.normSq_eq_norm_sq, Complex.normSq_eq_norm_sq] at h
  exact_mod_cast h

/-- Every unitary matrix has the three angles, up to a phase. -/
theorem exists_uM {m : M2} (h : m.IsUnitary) : ∃ (w : ℂ) (θ φ l : ℝ), ‖w‖ = 1 ∧ mat m = w • mat (uM θ φ l) := by
  obtain ⟨a, b, c, d⟩ := m
  obtain ⟨h0, h1, h2⟩ := h
  dsimp only at h0 h1 h2
  obtain ⟨D, hD⟩ : ∃ D, D = a * d - b * c := ⟨_, rfl⟩
  have ed : d = D * (starRingEnd ℂ) a := by rw [hD]; linear_combination -d * h0 + c * h2
  have eb : b = -D * (starRingEnd ℂ) c := by rw [hD]; linear_combination -b * h0 + a * h2
  have n0 := norm_col h0
  have n1 := norm_col h1
  have nD : ‖D‖ = 1 := by
    have e1 : ‖b‖ = ‖D‖ * ‖c‖ := by conv_lhs => rw [eb]
                                    simp
    have e2 : ‖d‖ = ‖D‖ * ‖a‖ := by conv_lhs => rw [ed]
                                    simp
    rw [e1, e2] at n1
    have : ‖D‖ ^ 2 = 1 := by linear_combination n1 - ‖D‖ ^ 2 * n0
    nlinarith [norm_nonneg D]
  have hca : Real.cos (Real.arccos ‖a‖) = ‖a‖ := Real.cos_arccos (by linarith [norm_nonneg a]) (by nlinarith [norm_nonneg a, sq_nonneg ‖c‖])
  have hsa : Real.sin (Real.arccos ‖a‖) = ‖c‖ := by
    rw [Real.sin_arccos, show 1 - ‖a‖ ^ 2 = ‖c‖ ^ 2 by linarith, Real.sqrt_sq (norm_nonneg c)]
  have pa := Complex.norm_mul_exp_arg_mul_I a
  have pc := Complex.norm_mul_exp_arg_mul_I c
  have pD := Complex.norm_mul_exp_arg_mul_I D
  rw [nD, ofReal_one, one_mul] at pD
  have conj_polar : ∀ x : ℂ, (starRingEnd ℂ) x = (‖x‖ : ℂ) * Complex.exp (-(x.arg * I)) := by
    intro x
    conv_lhs => rw [← Complex.norm_mul_exp_arg_mul_I x]
    rw [map_mul, Complex.conj_ofReal, ← Complex.exp_conj]; simp
  refine ⟨Complex.exp (a.arg * I), 2 * Real.arccos ‖a‖, c.arg - a.arg, D.arg - a.arg - c.arg,
    Complex.norm_exp_ofReal_mul_I _, ?_⟩
  rw [mat_smul, mat, uM, mk_exp, mk_exp_nn, mk_exp, mk_real, show 2 * Real.arccos ‖a‖ / 2 = Real.arccos ‖a‖ by ring, hca, hsa]
  dsimp only
  have ea : Complex.exp (a.arg * I) * ‖a‖ = a := by rw [mul_comm, pa]
  have ec : Complex.exp (a.arg * I) * (‖c‖ * Complex.exp ((c.arg - a.arg : ℝ) * I)) = c := by
    rw [mul_left_comm, ← Complex.exp_add]
    refine Eq.trans ?_ pc
    congr 2; push_cast; ring
  have eb' : Complex.exp (a.arg * I) * (‖c‖ * -Complex.exp ((D.arg - a.arg - c.arg : ℝ) * I)) = b := by
    have e : b = -(‖c‖ * (Complex.exp (D.arg * I) * Complex.exp (-(c.arg * I)))) := by
      rw [eb, conj_polar c]; conv_lhs => rw [← pD]
      ring
    rw [e, mul_neg, mul_neg, mul_left_comm, ← Complex.exp_add, ← Complex.exp_add]
    congr 3; push_cast; ring
  have ed' : Complex.exp (a.arg * I) * (‖a‖ * Complex.exp ((c.arg - a.arg + (D.arg - a.arg - c.arg) : ℝ) * I)) = d := by
    have e : d = ‖a‖ * (Complex.exp (D.arg * I) * Complex.exp (-(a.arg * I))) := by
      rw [ed, conj_polar a]; conv_lhs => rw [← pD]
      ring
    rw [e, mul_left_comm, ← Complex.exp_add, ← Complex.exp_add]
    congr 2; push_cast; ring
  rw [ea, ec, eb', ed']

end Verif.Defaults
