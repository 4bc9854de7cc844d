import Verif.Lemmas.DefaultsRot
import Verif.Props.Defaults

/-!
# C64: named gates and rotations

Named gates, their controlled forms, and rotations are the operators their documentation names: roots square to what they
are roots of, inverses undo, rotations are exponentials of Pauli matrices. Four calls differ from their documentation.
-/

namespace Verif.Defaults

open Verif.Engine Verif.Spec Verif.Spec.Rotation Verif.Bits Complex Classical

section
variable {S : Type} {B : Backend S} {Adm : M2 → Prop} {size : S → ℕ} {view : S → ℕ → ℂ} {Good : S → Prop}

theorem one_call (L : Lawful B Adm size view Good) {s : S} (hs : Good s) {m : M2} (hm : m.IsUnitary) {q : ℕ} (hq : q < size s) :
    Performs B size view Good [.mtrx m q] (act (mat m) q) s :=
  performs_eq L hs (fine_mtrx (L.unitary _ hm) hq) rfl

theorem two_calls (L : Lawful B Adm size view Good) {s : S} (hs : Good s) {m m' : M2} (hm : m.IsUnitary) (hm' : m'.IsUnitary) {q : ℕ}
    (hq : q < size s) : Performs B size view Good [.mtrx m q, .mtrx m' q] (act (mat m' * mat m) q) s :=
  performs_eq L hs (fine_append.2 ⟨fine_mtrx (L.unitary _ hm) hq, fine_mtrx (L.unitary _ hm') hq⟩) (act_act (mat m') (mat m) q _)

theorem control_call (L : Lawful B Adm size view Good) {s : S} (hs : Good s) {m : M2} (hm : m.IsUnitary) {cs : List ℕ} {q : ℕ}
    (hnd : (cs ++ [q]).Nodup) (hb : ∀ k ∈ cs ++ [q], k < size s) : Performs B size view Good [.mc cs m q] (actIf true cs (mat m) q) s :=
  performs_eq L hs (fine_mc (L.unitary _ hm) hnd hb) rfl

theorem anti_call (L : Lawful B Adm size view Good) {s : S} (hs : Good s) {m : M2} (hm : m.IsUnitary) {cs : List ℕ} {q : ℕ}
    (hnd : (cs ++ [q]).Nodup) (hb : ∀ k ∈ cs ++ [q], k < size s) : Performs B size view Good (macMtrx cs m q) (actIf false cs (mat m) q) s :=
  macMtrx_spec L hs (L.unitary _ hm) hnd hb

/-! ## Rotations -/

/-- `RX`, `RY`, `RZ`: `exp(-iθ/2 σ)`. -/
theorem rotations_spec (L : Lawful B Adm size view Good) {s : S} (hs : Good s) (θ : ℝ) {q : ℕ} (hq : q < size s) :
    Performs B size view Good (rx θ q) (act (rot σx θ) q) s ∧ Performs B size view Good (ry θ q) (act (rot σy θ) q) s ∧
    Performs B size view Good (rz (B.rgp s) θ q) (act (rot σz θ) q) s := by
  refine ⟨?_, ?_, ?_⟩
  · rw [rot_x]; exact one_call L hs (unitary_rxM θ) hq
  · rw [rot_y]; exact one_call L hs (unitary_ryM θ) hq
  · rw [rot_z']; exact phase_spec L hs (norm_mk_cos' _) (L.unitary _ (unitary_rzM θ)) hq

/-- `CRY`, `CRZ`: the rotation, where the control is set. -/
theorem controlled_rotations_spec (L : Lawful B Adm size view Good) {s : S} (hs : Good s) (θ : ℝ) {c q : ℕ} (h : c ≠ q)
    (hc : c < size s) (hq : q < size s) :
    Performs B size view Good (cry θ c q) (actIf true [c] (rot σy θ) q) s ∧
    Performs B size view Good (crz θ c q) (actIf true [c] (rot σz θ) q) s := by
  refine ⟨?_, ?_⟩
  · rw [rot_y]; exact control_call L hs (unitary_ryM θ) (nodup_pair h) (lt_pair hc hq)
  · rw [rot_z']; exact mcPhase_spec L hs (L.unitary _ (unitary_rzM θ)) (nodup_pair h) (lt_pair hc hq)

theorem matrixIndex_none (v : ℕ) : IsMatrixIndex [] 0 v v := by
  intro k; simp [Utils.below]

/-- `UniformlyControlledRY`, `UniformlyControlledRZ`: where the controls read `v`, the rotation by the angle at `v`. -/
theorem uniform_rotations_spec (L : Lawful B Adm size view Good) {s : S} (hs : Good s) {cs : List ℕ} {q : ℕ} (angles : ℕ → ℝ)
    (hnd : (cs ++ [q]).Nodup) (hb : ∀ k ∈ cs ++ [q], k < size s) (hw : cs.length ≤ 128) :
    (∃ s', exec B (uniformRY cs q angles) s = some s' ∧ Good s' ∧ size s' = size s ∧ B.rgp s' = B.rgp s ∧
      ∃ w : ℂ, ‖w‖ = 1 ∧ (B.rgp s = false → w = 1) ∧ ∀ i < 2 ^ size s, ∀ v, IsCtrlValue cs i v →
        w * view s' i = act (rot σy (angles v)) q (view s) i) ∧
    ∃ s', exec B (uniformRZ cs q angles) s = some s' ∧ Good s' ∧ size s' = size s ∧ B.rgp s' = B.rgp s ∧
      ∃ w : ℂ, ‖w‖ = 1 ∧ (B.rgp s = false → w = 1) ∧ ∀ i < 2 ^ size s, ∀ v, IsCtrlValue cs i v →
        w * view s' i = act (rot σz (angles v)) q (view s) i := by
  constructor
  · obtain ⟨s', h1, h2, h3, h4, w, w1, w2, w3⟩ := uniform_spec L hs (ms := fun i => ryM (angles i)) (fun i => L.unitary _ (unitary_ryM _))
      hnd hb (ps := []) (by simp) (by simpa using hw) 0
    refine ⟨s', h1, h2, h3, h4, w, w1, w2, fun i hi v hv => ?_⟩
    rw [w3 i hi v v hv (matrixIndex_none v), rot_y]; rfl
  · obtain ⟨s', h1, h2, h3, h4, w, w1, w2, w3⟩ := uniform_spec L hs (ms := fun i => rzM (angles i)) (fun i => L.unitary _ (unitary_rzM _))
      hnd hb (ps := []) (by simp) (by simpa using hw) 0
    refine ⟨s', h1, h2, h3, h4, w, w1, w2, fun i hi v hv => ?_⟩
    rw [w3 i hi v v hv (matrixIndex_none v), rot_z']; rfl

/-- `U`, `CU`, `AntiCU`: rotations about `Z`, `Y`, `Z`, with the phase that makes the upper left entry real. -/
theorem u_spec (L : Lawful B Adm size view Good) {s : S} (hs : Good s) (θ φ l : ℝ) {cs : List ℕ} {q : ℕ}
    (hnd : (cs ++ [q]).Nodup) (hb : ∀ k ∈ cs ++ [q], k < size s) :
    Performs B size view Good (u q θ φ l) (act (Complex.exp ((φ + l) / 2 * I) • (rot σz φ * rot σy θ * rot σz l)) q) s ∧
    Performs B size view Good (cu cs q θ φ l) (actIf true cs (Complex.exp ((φ + l) / 2 * I) • (rot σz φ * rot σy θ * rot σz l)) q) s ∧
    Performs B size view Good (antiCu cs q θ φ l)
      (actIf false cs (Complex.exp ((φ + l) / 2 * I) • (rot σz φ * rot σy θ * rot σz l)) q) s := by
  rw [← uM_rot]
  exact ⟨one_call L hs (unitary_uM ..) (hb q (by simp)), control_call L hs (unitary_uM ..) hnd hb, anti_call L hs (unitary_uM ..) hnd hb⟩

/-- `U` spans all one-qubit gates, up to a phase. -/
theorem u_spans {m : M2} (h : m.IsUnitary) : ∃ (w : ℂ) (θ φ l : ℝ), ‖w‖ = 1 ∧
    mat m = w • (Complex.exp ((φ + l) / 2 * I) • (rot σz φ * rot σy θ * rot σz l)) := by
  obtain ⟨w, θ, φ, l, h1, h2⟩ := exists_uM h
  exact ⟨w, θ, φ, l, h1, by rw [h2, uM_rot]⟩

/-- `IU2` undoes `U2`, and the other way round. -/
theorem u2_inverse (L : Lawful B Adm size view Good) {s : S} (hs : Good s) (φ l : ℝ) {q : ℕ} (hq : q < size s) :
    Performs B size view Good (u2 q φ l ++ iu2 q φ l) (fun ψ => ψ) s ∧ Performs B size view Good (iu2 q φ l ++ u2 q φ l) (fun ψ => ψ) s := by
  have h : mat (uM (Real.pi / 2) (-l - Real.pi) (-φ + Real.pi)) * mat (uM (Real.pi / 2) φ l) = 1 := by
    have e : Real.cos (Real.pi / 2 / 2) = Real.sin (Real.pi / 2 / 2) := by
      rw [show Real.pi / 2 / 2 = Real.pi / 4 by ring, Real.cos_pi_div_four, Real.sin_pi_div_four]
    have e2 : (Real.sin (Real.pi / 2 / 2) : ℂ) * Real.sin (Real.pi / 2 / 2) = 1 / 2 := by
      rw [show Real.pi / 2 / 2 = Real.pi / 4 by ring, Real.sin_pi_div_four, ← ofReal_mul]
      norm_num [div_mul_div_comm]
    have x1 : Complex.exp (((-φ + Real.pi : ℝ) : ℂ) * I) = -Complex.exp (-(φ * I)) := by
      push_cast; rw [add_mul, Complex.exp_add, Complex.exp_pi_mul_I]; ring_nf
    have x2 : Complex.exp (((-l - Real.pi : ℝ) : ℂ) * I) = -Complex.exp (-(l * I)) := by
      push_cast; rw [sub_mul, Complex.exp_sub, Complex.exp_pi_mul_I, neg_mul, div_neg, div_one]
    have x3 : Complex.exp (((-l - Real.pi + (-φ + Real.pi) : ℝ) : ℂ) * I) = Complex.exp (-(l * I)) * Complex.exp (-(φ * I)) := by
      rw [← Complex.exp_add]; congr 1; push_cast; ring
    have x4 : Complex.exp (((φ + l : ℝ) : ℂ) * I) = Complex.exp (φ * I) * Complex.exp (l * I) := by
      rw [← Complex.exp_add]; congr 1; push_cast; ring
    have y1 : Complex.exp (-(φ * I)) * Complex.exp (φ * I) = 1 := by rw [← Complex.exp_add]; simp
    have y2 : Complex.exp (-(l * I)) * Complex.exp (l * I) = 1 := by rw [← Complex.exp_add]; simp
    rw [mat_mul]
    simp only [uM, mk_exp, mk_exp_nn, mk_real, x1, x2, x3, x4, e]
    generalize Complex.exp (-(φ * I)) = A at *
    generalize Complex.exp (φ * I) = A' at *
    generalize Complex.exp (-(l * I)) = C at *
    generalize Complex.exp (l * I) = C' at *
    generalize (Real.sin (Real.pi / 2 / 2) : ℂ) = k at *
    ext i j
    fin_cases i <;> fin_cases j <;> simp
    · linear_combination 2 * e2 + k * k * y1
    · linear_combination k * k * C' * y1
    · linear_combination k * k * C * y1
    · linear_combination 2 * e2 + k * k * y2 + k * k * A * A' * y2 + k * k * y1
  have h' := mul_eq_one_comm.mp h
  constructor
  · have := two_calls L hs (unitary_uM (Real.pi / 2) φ l) (unitary_uM (Real.pi / 2) (-l - Real.pi) (-φ + Real.pi)) hq
    rw [h] at this
    obtain ⟨s', h1, h2, h3, h4, h5⟩ := this
    exact ⟨s', h1, h2, h3, h4, by rwa [act_one] at h5⟩
  · have := two_calls L hs (unitary_uM (Real.pi / 2) (-l - Real.pi) (-φ + Real.pi)) (unitary_uM (Real.pi / 2) φ l) hq
    rw [h'] at this
    obtain ⟨s', h1, h2, h3, h4, h5⟩ := this
    exact ⟨s', h1, h2, h3, h4, by rwa [act_one] at h5⟩

/-- `AI`, `CAI`, `AntiCAI`: the Bloch vector is turned by the inclination about the axis of the azimuth. -/
theorem ai_spec (L : Lawful B Adm size view Good) {s : S} (hs : Good s) (az inc : ℝ) {c q : ℕ} (h : c ≠ q) (hc : c < size s)
    (hq : q < size s) :
    Performs B size view Good (ai q az inc) (act (rot σz az * rot σy inc * rot σz (-az)) q) s ∧
    Performs B size view Good (cai c q az inc) (actIf true [c] (rot σz az * rot σy inc * rot σz (-az)) q) s ∧
    Performs B size view Good (antiCai c q az inc) (actIf false [c] (rot σz az * rot σy inc * rot σz (-az)) q) s := by
  rw [← aiM_rot]
  exact ⟨one_call L hs (unitary_aiM ..) hq, control_call L hs (unitary_aiM ..) (nodup_pair h) (lt_pair hc hq),
    anti_call L hs (unitary_aiM ..) (nodup_pair h) (lt_pair hc hq)⟩

/-- `AI` on `|0⟩`: the state whose Pauli averages are `sin(inc) cos(az)`, `sin(inc) sin(az)` and `cos(inc)`. -/
theorem ai_sets (az inc : ℝ) :
    let v := fun i => (rot σz az * rot σy inc * rot σz (-az)) i 0
    star v ⬝ᵥ σx.mulVec v = (Real.sin inc * Real.cos az : ℝ) ∧ star v ⬝ᵥ σy.mulVec v = (Real.sin inc * Real.sin az : ℝ) ∧
    star v ⬝ᵥ σz.mulVec v = (Real.cos inc : ℝ) := by
  have h0 := Real.cos_sq_add_sin_sq (inc / 2)
  have hc : Real.cos inc = Real.cos (inc / 2) ^ 2 - Real.sin (inc / 2) ^ 2 := by
    have := Real.cos_two_mul (inc / 2)
    rw [mul_div_cancel₀ _ (by norm_num)] at this; linarith
  have hs : Real.sin inc = 2 * Real.sin (inc / 2) * Real.cos (inc / 2) := by
    have := Real.sin_two_mul (inc / 2)
    rwa [mul_div_cancel₀ _ (by norm_num)] at this
  have ha := Real.cos_sq_add_sin_sq az
  rw [← aiM_rot, hc, hs, aiM]
  dsimp only
  generalize Real.cos (inc / 2) = c at *
  generalize Real.sin (inc / 2) = k at *
  generalize Real.cos az = x at *
  generalize Real.sin az = y at *
  refine ⟨?_, ?_, ?_⟩ <;> apply Complex.ext <;>
    simp [mat, σx, σy, σz, dotProduct, Matrix.mulVec, Fin.sum_univ_two, pow_two] <;>
    first | ring1 | linear_combination -k * k * ha

/-- `IAI`, `CIAI`, `AntiCIAI` succeed and undo `AI`, `CAI`, `AntiCAI`. -/
theorem iai_undoes (L : Lawful B Adm size view Good) {s : S} (hs : Good s) (az inc : ℝ) {c q : ℕ} (h : c ≠ q) (hc : c < size s)
    (hq : q < size s) :
    (∃ p, iai q az inc = some p ∧ Performs B size view Good (ai q az inc ++ p) (fun ψ => ψ) s ∧
      Performs B size view Good (p ++ ai q az inc) (fun ψ => ψ) s) ∧
    (∃ p, ciai c q az inc = some p ∧ Performs B size view Good (cai c q az inc ++ p) (fun ψ => ψ) s ∧
      Performs B size view Good (p ++ cai c q az inc) (fun ψ => ψ) s) ∧
    ∃ p, antiCiai c q az inc = some p ∧ Performs B size view Good (antiCai c q az inc ++ p) (fun ψ => ψ) s ∧
      Performs B size view Good (p ++ antiCai c q az inc) (fun ψ => ψ) s := by
  obtain ⟨m', e, i1, i2, hu⟩ := inv_unitary (unitary_aiM az inc)
  have hu0 := unitary_aiM az inc
  have hq' : q ∉ [c] := by simpa using Ne.symm h
  have nd := nodup_pair h
  have lt := lt_pair hc hq
  have step : ∀ {p p' : List Prim}, Fine Adm (size s) p → Fine Adm (size s) p' → (∀ ψ, sem p' (sem p ψ) = ψ) →
      Performs B size view Good (p ++ p') (fun ψ => ψ) s := fun hp hp' hid =>
    performs_eq L hs (fine_append.2 ⟨hp, hp'⟩) (by rw [sem_append, hid])
  refine ⟨⟨[.mtrx m' q], by rw [iai, e]; rfl, ?_, ?_⟩, ⟨[.mc [c] m' q], by rw [ciai, e]; rfl, ?_, ?_⟩,
    ⟨macMtrx [c] m' q, by rw [antiCiai, e]; rfl, ?_, ?_⟩⟩
  · exact step (fine_mtrx (L.unitary _ hu0) hq) (fine_mtrx (L.unitary _ hu) hq)
      fun ψ => (act_act (mat m') (mat (aiM az inc)) q ψ).trans (by rw [i1, act_one])
  · exact step (fine_mtrx (L.unitary _ hu) hq) (fine_mtrx (L.unitary _ hu0) hq)
      fun ψ => (act_act (mat (aiM az inc)) (mat m') q ψ).trans (by rw [i2, act_one])
  · exact step (fine_mc (L.unitary _ hu0) nd lt) (fine_mc (L.unitary _ hu) nd lt)
      fun ψ => (actIf_actIf true hq' (mat m') (mat (aiM az inc)) ψ).trans (by rw [i1, actIf_one])
  · exact step (fine_mc (L.unitary _ hu) nd lt) (fine_mc (L.unitary _ hu0) nd lt)
      fun ψ => (actIf_actIf true hq' (mat (aiM az inc)) (mat m') ψ).trans (by rw [i2, actIf_one])
  · refine step (fine_macMtrx L.unitary (L.unitary _ hu0) nd lt) (fine_macMtrx L.unitary (L.unitary _ hu) nd lt) fun ψ => ?_
    rw [antiCai, sem_macMtrx hq', sem_macMtrx hq']
    exact (actIf_actIf false hq' (mat m') (mat (aiM az inc)) ψ).trans (by rw [i1, actIf_one])
  · refine step (fine_macMtrx L.unitary (L.unitary _ hu) nd lt) (fine_macMtrx L.unitary (L.unitary _ hu0) nd lt) fun ψ => ?_
    rw [antiCai, sem_macMtrx hq', sem_macMtrx hq']
    exact (actIf_actIf false hq' (mat (aiM az inc)) (mat m') ψ).trans (by rw [i2, actIf_one])

/-! ## Named gates -/

/-- The Hadamard matrix, and the axis between `X` and `Y`. -/
noncomputable def hadamard : Matrix (Fin 2) (Fin 2) ℂ := ((1 / Real.sqrt 2 : ℝ) : ℂ) • (σx + σz)
noncomputable def wAxis : Matrix (Fin 2) (Fin 2) ℂ := ((1 / Real.sqrt 2 : ℝ) : ℂ) • (σx + σy)

theorem s12_eq : s12 = 1 / Real.sqrt 2 := by rw [s12, Real.sqrt_div (by norm_num), Real.sqrt_one]

theorem hadamard_mat : hadamard = mat hM := by
  rw [hadamard, ← s12_eq]
  ext i k; fin_cases i <;> fin_cases k <;> simp [mat, hM, σx, σz]

/-- `H`. -/
theorem h_spec (L : Lawful B Adm size view Good) {s : S} (hs : Good s) {q : ℕ} (hq : q < size s) :
    Performs B size view Good (h q) (act hadamard q) s := by
  rw [hadamard_mat]; exact one_call L hs unitary_hM hq

theorem pair_of_calls (L : Lawful B Adm size view Good) {s : S} (hs : Good s) {m m' : M2} (hm : m.IsUnitary) (hm' : m'.IsUnitary) {q : ℕ}
    (hq : q < size s) {M : Matrix (Fin 2) (Fin 2) ℂ} (h : mat m' * mat m = M) :
    Performs B size view Good [.mtrx m q, .mtrx m' q] (act M q) s := h ▸ two_calls L hs hm hm' hq

theorem undo_of_calls (L : Lawful B Adm size view Good) {s : S} (hs : Good s) {m m' : M2} (hm : m.IsUnitary) (hm' : m'.IsUnitary) {q : ℕ}
    (hq : q < size s) (h : mat m' * mat m = 1) :
    Performs B size view Good [.mtrx m q, .mtrx m' q] (fun ψ => ψ) s := by
  obtain ⟨s', h1, h2, h3, h4, h5⟩ := pair_of_calls L hs hm hm' hq h
  exact ⟨s', h1, h2, h3, h4, by rwa [act_one] at h5⟩

theorem unitary_sqrtXM : sqrtXM.IsUnitary ∧ isqrtXM.IsUnitary := by
  refine ⟨⟨?_, ?_, ?_⟩, ⟨?_, ?_, ?_⟩⟩ <;> apply Complex.ext <;> simp [sqrtXM, isqrtXM] <;> norm_num
theorem unitary_sqrtYM : sqrtYM.IsUnitary ∧ isqrtYM.IsUnitary := by
  refine ⟨⟨?_, ?_, ?_⟩, ⟨?_, ?_, ?_⟩⟩ <;> apply Complex.ext <;> simp [sqrtYM, isqrtYM] <;> norm_num
theorem unitary_sqrtWM : sqrtWM.IsUnitary ∧ isqrtWM.IsUnitary := by
  have e := s12_sq
  refine ⟨⟨?_, ?_, ?_⟩, ⟨?_, ?_, ?_⟩⟩ <;> apply Complex.ext <;> simp [sqrtWM, isqrtWM] <;> linarith
theorem unitary_shM : shM.IsUnitary ∧ hisM.IsUnitary := by
  have e := s12_sq
  refine ⟨⟨?_, ?_, ?_⟩, ⟨?_, ?_, ?_⟩⟩ <;> apply Complex.ext <;> simp [shM, hisM] <;> linarith

theorem s2_sq : s2 * s2 = 2 := Real.mul_self_sqrt (by norm_num)
theorem s12_s2 : s12 = s2 / 2 := by
  have h : s12 * s2 = 1 := by rw [s12, s2, ← Real.sqrt_mul (by norm_num)]; norm_num
  have h2 := s2_sq
  have : s12 * (s2 * s2) = s2 := by rw [← mul_assoc, h, one_mul]
  rw [h2] at this; linarith
theorem sqrtHM_eq : sqrtHM = ⟨⟨(s2 + 2) / 4, (2 - s2) / 4⟩, ⟨s2 / 4, -s2 / 4⟩, ⟨s2 / 4, -s2 / 4⟩, ⟨(2 - s2) / 4, (s2 + 2) / 4⟩⟩ := by
  have h2 := s2_sq
  have hne : s2 ≠ 0 := fun h => by rw [h] at h2; norm_num at h2
  have e1 : (1 + s2) / (2 * s2) = (s2 + 2) / 4 := by field_simp; linarith
  have e2 : (-1 + s2) / (2 * s2) = (2 - s2) / 4 := by field_simp; linarith
  have e3 : s2 / 2 / 2 = s2 / 4 := by ring
  have e4 : -(s2 / 2) / 2 = -s2 / 4 := by ring
  rw [sqrtHM, e1, e2, s12_s2, e3, e4]
theorem unitary_sqrtHM : sqrtHM.IsUnitary := by
  have h2 := s2_sq
  rw [sqrtHM_eq]
  refine ⟨?_, ?_, ?_⟩ <;> apply Complex.ext <;> simp <;> nlinarith

/-- `SqrtX`, `SqrtY`, `SqrtH` twice are `X`, `Y`, `H`. -/
theorem roots_square (L : Lawful B Adm size view Good) {s : S} (hs : Good s) {q : ℕ} (hq : q < size s) :
    Performs B size view Good (sqrtX q ++ sqrtX q) (act σx q) s ∧ Performs B size view Good (sqrtY q ++ sqrtY q) (act σy q) s ∧
    Performs B size view Good (sqrtH q ++ sqrtH q) (act hadamard q) s := by
  refine ⟨pair_of_calls L hs unitary_sqrtXM.1 unitary_sqrtXM.1 hq ?_, pair_of_calls L hs unitary_sqrtYM.1 unitary_sqrtYM.1 hq ?_,
    pair_of_calls L hs unitary_sqrtHM unitary_sqrtHM hq ?_⟩
  · rw [mat_mul]; ext i k; fin_cases i <;> fin_cases k <;> apply Complex.ext <;> simp [sqrtXM, σx] <;> norm_num
  · rw [mat_mul]; ext i k; fin_cases i <;> fin_cases k <;> apply Complex.ext <;> simp [sqrtYM, σy] <;> norm_num
  · have h2 := s2_sq
    rw [mat_mul, hadamard_mat, hM, sqrtHM_eq, s12_s2, mat]
    ext i k; fin_cases i <;> fin_cases k <;> apply Complex.ext <;> simp <;> nlinarith

/-- `ISqrtX`, `ISqrtY`, `ISqrtW`, `HIS` undo `SqrtX`, `SqrtY`, `SqrtW`, `SH`, and the other way round. -/
theorem roots_undo (L : Lawful B Adm size view Good) {s : S} (hs : Good s) {q : ℕ} (hq : q < size s) :
    (Performs B size view Good (sqrtX q ++ isqrtX q) (fun ψ => ψ) s ∧ Performs B size view Good (isqrtX q ++ sqrtX q) (fun ψ => ψ) s) ∧
    (Performs B size view Good (sqrtY q ++ isqrtY q) (fun ψ => ψ) s ∧ Performs B size view Good (isqrtY q ++ sqrtY q) (fun ψ => ψ) s) ∧
    (Performs B size view Good (sqrtW q ++ isqrtW q) (fun ψ => ψ) s ∧ Performs B size view Good (isqrtW q ++ sqrtW q) (fun ψ => ψ) s) ∧
    Performs B size view Good (sh q ++ his q) (fun ψ => ψ) s ∧ Performs B size view Good (his q ++ sh q) (fun ψ => ψ) s := by
  have e := s12_sq
  have hx : mat isqrtXM * mat sqrtXM = 1 := by
    rw [mat_mul]; ext i k; fin_cases i <;> fin_cases k <;> apply Complex.ext <;> simp [sqrtXM, isqrtXM] <;> norm_num
  have hy : mat isqrtYM * mat sqrtYM = 1 := by
    rw [mat_mul]; ext i k; fin_cases i <;> fin_cases k <;> apply Complex.ext <;> simp [sqrtYM, isqrtYM] <;> norm_num
  have hw : mat isqrtWM * mat sqrtWM = 1 := by
    rw [mat_mul]; ext i k; fin_cases i <;> fin_cases k <;> apply Complex.ext <;> simp [sqrtWM, isqrtWM] <;> linarith
  have hh : mat hisM * mat shM = 1 := by
    rw [mat_mul]; ext i k; fin_cases i <;> fin_cases k <;> apply Complex.ext <;> simp [shM, hisM] <;> linarith
  exact ⟨⟨undo_of_calls L hs unitary_sqrtXM.1 unitary_sqrtXM.2 hq hx,
      undo_of_calls L hs unitary_sqrtXM.2 unitary_sqrtXM.1 hq (mul_eq_one_comm.mp hx)⟩,
    ⟨undo_of_calls L hs unitary_sqrtYM.1 unitary_sqrtYM.2 hq hy,
      undo_of_calls L hs unitary_sqrtYM.2 unitary_sqrtYM.1 hq (mul_eq_one_comm.mp hy)⟩,
    ⟨undo_of_calls L hs unitary_sqrtWM.1 unitary_sqrtWM.2 hq hw,
      undo_of_calls L hs unitary_sqrtWM.2 unitary_sqrtWM.1 hq (mul_eq_one_comm.mp hw)⟩,
    undo_of_calls L hs unitary_shM.1 unitary_shM.2 hq hh, undo_of_calls L hs unitary_shM.2 unitary_shM.1 hq (mul_eq_one_comm.mp hh)⟩

theorem exp_w (w : ℂ) : NormedSpace.exp (w • wAxis) = Complex.cosh w • (1 : Matrix (Fin 2) (Fin 2) ℂ) + Complex.sinh w • wAxis := by
  have h1 : sqrtI * sqrtNI = 1 := by
    have e := s12_sq
    apply Complex.ext <;> simp [sqrtI, sqrtNI] <;> linarith
  have h : (!![1, 1; sqrtI, -sqrtI] : Matrix (Fin 2) (Fin 2) ℂ) * !![1 / 2, sqrtNI / 2; 1 / 2, -sqrtNI / 2] = 1 := by
    rw [Matrix.mul_fin_two, Matrix.one_fin_two]
    congr 1
    ext i k; fin_cases i <;> fin_cases k <;> simp <;> ring_nf <;> first | ring1 | linear_combination h1 | linear_combination -h1
  obtain ⟨hu, hi⟩ := isUnit_of_det h
  refine exp_conj_z hu ?_ w
  rw [hi, Matrix2.diag_fin_two, Matrix.mul_fin_two, Matrix.mul_fin_two, wAxis, ← s12_eq]
  ext i k; fin_cases i <;> fin_cases k <;> apply Complex.ext <;> simp [σx, σy, sqrtI, sqrtNI] <;> ring

/-- `SqrtW`: a quarter turn about the axis between `X` and `Y`. -/
theorem sqrtW_spec (L : Lawful B Adm size view Good) {s : S} (hs : Good s) {q : ℕ} (hq : q < size s) :
    Performs B size view Good (sqrtW q) (act (rot wAxis (Real.pi / 2)) q) s := by
  have e : rot wAxis (Real.pi / 2) = mat sqrtWM := by
    have e2 := s12_sq
    have e3 : Real.sqrt 2 / 2 = s12 := by rw [s12_s2]; rfl
    rw [rot, exp_w, cosh_half, sinh_half, show Real.pi / 2 / 2 = Real.pi / 4 by ring, Real.cos_pi_div_four, Real.sin_pi_div_four, wAxis,
      ← s12_eq, e3]
    ext i k; fin_cases i <;> fin_cases k <;> apply Complex.ext <;> simp [mat, sqrtWM, σx, σy] <;> linarith
  rw [e]; exact one_call L hs unitary_sqrtWM.1 hq

/-- The phase matrix. -/
def diag (w : ℂ) : Matrix (Fin 2) (Fin 2) ℂ := !![1, 0; 0, w]

theorem sem_phase_diag (r : Bool) (w : ℂ) (q : ℕ) (ψ : ℕ → ℂ) : sem (phase r 1 w q) ψ = act (diag w) q ψ := sem_phase_one r w q ψ

theorem diag_mul (w w' : ℂ) : diag w * diag w' = diag (w * w') := by
  rw [diag, diag, diag, Matrix.mul_fin_two]; simp

theorem two_phases (L : Lawful B Adm size view Good) {s : S} (hs : Good s) (r : Bool) {w w' : ℂ} (h : ‖w‖ = 1) (h' : ‖w'‖ = 1) {q : ℕ}
    (hq : q < size s) : Performs B size view Good (phase r 1 w q ++ phase r 1 w' q) (act (diag (w' * w)) q) s :=
  performs_eq L hs (fine_append.2 ⟨fine_phaseU L.unitary r (by simp) h hq, fine_phaseU L.unitary r (by simp) h' hq⟩)
    (by rw [sem_append, sem_phase_diag, sem_phase_diag, act_act, diag_mul])

theorem diag_one : diag 1 = 1 := Matrix.one_fin_two.symm
theorem diag_neg : diag (-1) = σz := rfl

theorem sqrtI_sq : sqrtI * sqrtI = I := by
  have e := s12_sq
  apply Complex.ext <;> simp [sqrtI] <;> linarith
theorem sqrtI_sqrtNI : sqrtNI * sqrtI = 1 := by
  have e := s12_sq
  apply Complex.ext <;> simp [sqrtI, sqrtNI] <;> linarith

/-- `S`, `T` are roots of `Z`, `S`; `IS`, `IT` undo them; `S` is a quarter, `T` an eighth of a turn. -/
theorem phases_spec (L : Lawful B Adm size view Good) {s : S} (hs : Good s) {q : ℕ} (hq : q < size s) :
    Performs B size view Good (z (B.rgp s) q) (act σz q) s ∧
    Performs B size view Good (Defaults.s (B.rgp s) q) (act (diag (Complex.exp (2 * Real.pi / 4 * I))) q) s ∧
    Performs B size view Good (t (B.rgp s) q) (act (diag (Complex.exp (2 * Real.pi / 8 * I))) q) s ∧
    Performs B size view Good (Defaults.s (B.rgp s) q ++ is (B.rgp s) q) (fun ψ => ψ) s ∧
    Performs B size view Good (t (B.rgp s) q ++ it (B.rgp s) q) (fun ψ => ψ) s := by
  have e4 : Complex.exp (2 * Real.pi / 4 * I) = I := by
    rw [show (2 * Real.pi / 4 * I : ℂ) = ((Real.pi / 2 : ℝ) : ℂ) * I by push_cast; ring, ← mk_exp, Real.cos_pi_div_two, Real.sin_pi_div_two]
    rfl
  have e8 : Complex.exp (2 * Real.pi / 8 * I) = sqrtI := by
    have e3 : Real.sqrt 2 / 2 = s12 := by rw [s12_s2]; rfl
    rw [show (2 * Real.pi / 8 * I : ℂ) = ((Real.pi / 4 : ℝ) : ℂ) * I by push_cast; ring, ← mk_exp, Real.cos_pi_div_four, Real.sin_pi_div_four,
      e3]
    rfl
  rw [e4, e8]
  have one : ∀ {w : ℂ}, ‖w‖ = 1 → Performs B size view Good (phase (B.rgp s) 1 w q) (act (diag w) q) s := fun h =>
    performs_eq L hs (fine_phaseU L.unitary _ (by simp) h hq) (sem_phase_diag ..)
  have undo : ∀ {w w' : ℂ}, ‖w‖ = 1 → ‖w'‖ = 1 → w' * w = 1 →
      Performs B size view Good (phase (B.rgp s) 1 w q ++ phase (B.rgp s) 1 w' q) (fun ψ => ψ) s := by
    intro w w' h h' hw
    have := two_phases L hs (B.rgp s) h h' hq
    rw [hw, diag_one] at this
    obtain ⟨s', h1, h2, h3, h4, h5⟩ := this
    exact ⟨s', h1, h2, h3, h4, by rwa [act_one] at h5⟩
  exact ⟨diag_neg ▸ one (by simp), one (by simp), one norm_sqrtI, undo (by simp) (by simp) (by simp),
    undo norm_sqrtI norm_sqrtNI sqrtI_sqrtNI⟩

/-- `SH` is `H`, then `S`; `HIS` is `IS`, then `H`. -/
theorem sh_spec (L : Lawful B Adm size view Good) {s : S} (hs : Good s) {q : ℕ} (hq : q < size s) :
    Performs B size view Good (sh q) (fun ψ => act (diag I) q (act hadamard q ψ)) s ∧
    Performs B size view Good (his q) (fun ψ => act hadamard q (act (diag (-I)) q ψ)) s := by
  refine ⟨performs_eq L hs (fine_mtrx (L.unitary _ unitary_shM.1) hq) ?_, performs_eq L hs (fine_mtrx (L.unitary _ unitary_shM.2) hq) ?_⟩
  · rw [act_act, hadamard_mat]
    show act (mat shM) q _ = _
    congr 1
    rw [diag, mat, mat, Matrix.mul_fin_two]
    ext i k; fin_cases i <;> fin_cases k <;> apply Complex.ext <;> simp [shM, hM]
  · rw [act_act, hadamard_mat]
    show act (mat hisM) q _ = _
    congr 1
    rw [diag, mat, mat, Matrix.mul_fin_two]
    ext i k; fin_cases i <;> fin_cases k <;> apply Complex.ext <;> simp [hisM, hM]

theorem rootN_eq (sg : ℤ) {k : ℕ} (hk : k ≠ 0) : rootN sg k = Complex.exp ((sg * (2 * Real.pi / 2 ^ k) : ℝ) * I) := by
  obtain ⟨j, rfl⟩ := Nat.exists_eq_succ_of_ne_zero hk
  rw [rootN, Nat.succ_sub_one, Nat.succ_eq_add_one, pow_succ]
  congr 3; field_simp

theorem irootN_eq (sg : ℤ) {k : ℕ} (hk : k ≠ 0) : irootN sg k = Complex.exp (-((sg * (2 * Real.pi / 2 ^ k) : ℝ) * I)) := by
  obtain ⟨j, rfl⟩ := Nat.exists_eq_succ_of_ne_zero hk
  rw [irootN, Nat.succ_sub_one, Nat.succ_eq_add_one, pow_succ, ← neg_mul, ← ofReal_neg]
  congr 3; field_simp

theorem norm_irootN (sg : ℤ) (k : ℕ) : ‖irootN sg k‖ = 1 := Complex.norm_exp_ofReal_mul_I _

/-- `PhaseRootN(n)`: the fraction `1/2^n` of a turn, in the direction `sg` in which `std::pow` takes the root of minus one. -/
theorem phaseRootN_spec (L : Lawful B Adm size view Good) {s : S} (hs : Good s) (sg : ℤ) {k : ℕ} (hk : k ≠ 0) {q : ℕ} (hq : q < size s) :
    Performs B size view Good (phaseRootN sg (B.rgp s) k q) (act (diag (Complex.exp ((sg * (2 * Real.pi / 2 ^ k) : ℝ) * I))) q) s := by
  rw [phaseRootN, if_neg hk, ← rootN_eq sg hk]
  exact performs_eq L hs (fine_phaseU L.unitary _ (by simp) (norm_rootN ..) hq) (sem_phase_diag ..)

/-! ## Controlled named gates -/

/-- The operator of a controlled or anti-controlled gate of the given matrix. -/
def Acts (B : Backend S) (size : S → ℕ) (view : S → ℕ → ℂ) (Good : S → Prop) (s : S) (v : Bool) (cs : List ℕ) (q : ℕ)
    (M : Matrix (Fin 2) (Fin 2) ℂ) (p : List Prim) : Prop := Performs B size view Good p (actIf v cs M q) s

theorem unitary_y : M2.IsUnitary ⟨0, -I, I, 0⟩ := unitary_anti (by simp) (by simp)

/-- Gates with one control: `CNOT`, `CY`, `CZ`, `CH`, `CS`, `CIS`, `CT`, `CIT`. -/
theorem controlled_spec (L : Lawful B Adm size view Good) {s : S} (hs : Good s) {c q : ℕ} (h : c ≠ q) (hc : c < size s) (hq : q < size s) :
    Acts B size view Good s true [c] q σx (cnot c q) ∧ Acts B size view Good s true [c] q σy (cy c q) ∧
    Acts B size view Good s true [c] q σz (cz c q) ∧ Acts B size view Good s true [c] q hadamard (ch c q) ∧
    Acts B size view Good s true [c] q (diag I) (cs c q) ∧ Acts B size view Good s true [c] q (diag (-I)) (cis c q) ∧
    Acts B size view Good s true [c] q (diag sqrtI) (ct c q) ∧ Acts B size view Good s true [c] q (diag sqrtNI) (cit c q) := by
  have nd := nodup_pair h
  have lt := lt_pair hc hq
  have ph : ∀ {w : ℂ}, ‖w‖ = 1 → Acts B size view Good s true [c] q (diag w) (mcPhase [c] 1 w q) := fun hw =>
    mcPhase_spec L hs (L.unitary _ (unitary_diag (by simp) hw)) nd lt
  exact ⟨mcInvert_spec L hs (L.unitary _ unitary_x) nd lt, mcInvert_spec L hs (L.unitary _ unitary_y) nd lt, ph (by simp),
    hadamard_mat ▸ control_call L hs unitary_hM nd lt, ph (by simp), ph (by simp), ph norm_sqrtI, ph norm_sqrtNI⟩

/-- Gates with one anti-control: `AntiCNOT`, `AntiCY`, `AntiCZ`, `AntiCH`, `AntiCS`, `AntiCIS`. -/
theorem anti_controlled_spec (L : Lawful B Adm size view Good) {s : S} (hs : Good s) {c q : ℕ} (h : c ≠ q) (hc : c < size s)
    (hq : q < size s) :
    Acts B size view Good s false [c] q σx (antiCnot c q) ∧ Acts B size view Good s false [c] q σy (antiCy c q) ∧
    Acts B size view Good s false [c] q σz (antiCz c q) ∧ Acts B size view Good s false [c] q hadamard (antiCh c q) ∧
    Acts B size view Good s false [c] q (diag I) (antiCs c q) ∧ Acts B size view Good s false [c] q (diag (-I)) (antiCis c q) := by
  have nd := nodup_pair h
  have lt := lt_pair hc hq
  have ph : ∀ {w : ℂ}, ‖w‖ = 1 → Acts B size view Good s false [c] q (diag w) (macPhase [c] 1 w q) := fun hw =>
    macPhase_spec L hs (L.unitary _ (unitary_diag (by simp) hw)) nd lt
  exact ⟨macInvert_spec L hs (L.unitary _ unitary_x) nd lt, macInvert_spec L hs (L.unitary _ unitary_y) nd lt, ph (by simp),
    hadamard_mat ▸ anti_call L hs unitary_hM nd lt, ph (by simp), ph (by simp)⟩

/-- Gates with two controls: `CCNOT`, `CCY`, `CCZ` and their anti-controlled forms. -/
theorem twice_controlled_spec (L : Lawful B Adm size view Good) {s : S} (hs : Good s) {c1 c2 q : ℕ} (h12 : c1 ≠ c2) (h1 : c1 ≠ q)
    (h2 : c2 ≠ q) (hc1 : c1 < size s) (hc2 : c2 < size s) (hq : q < size s) :
    (Acts B size view Good s true [c1, c2] q σx (ccnot c1 c2 q) ∧ Acts B size view Good s true [c1, c2] q σy (ccy c1 c2 q) ∧
      Acts B size view Good s true [c1, c2] q σz (ccz c1 c2 q)) ∧
    Acts B size view Good s false [c1, c2] q σx (antiCcnot c1 c2 q) ∧ Acts B size view Good s false [c1, c2] q σy (antiCcy c1 c2 q) ∧
      Acts B size view Good s false [c1, c2] q σz (antiCcz c1 c2 q) := by
  have nd : ([c1, c2] ++ [q]).Nodup := by simp [h12, h1, h2]
  have lt : ∀ k ∈ [c1, c2] ++ [q], k < size s := by
    intro k hk; simp at hk; rcases hk with rfl | rfl | rfl <;> assumption
  exact ⟨⟨mcInvert_spec L hs (L.unitary _ unitary_x) nd lt, mcInvert_spec L hs (L.unitary _ unitary_y) nd lt,
      mcPhase_spec L hs (L.unitary _ (unitary_diag (by simp) (by simp))) nd lt⟩,
    macInvert_spec L hs (L.unitary _ unitary_x) nd lt, macInvert_spec L hs (L.unitary _ unitary_y) nd lt,
      macPhase_spec L hs (L.unitary _ (unitary_diag (by simp) (by simp))) nd lt⟩

/-- `CPhaseRootN`, `AntiCPhaseRootN` and their inverses. -/
theorem controlled_roots_spec (L : Lawful B Adm size view Good) {s : S} (hs : Good s) (sg : ℤ) {k : ℕ} (hk : k ≠ 0) {c q : ℕ} (h : c ≠ q)
    (hc : c < size s) (hq : q < size s) :
    Acts B size view Good s true [c] q (diag (Complex.exp ((sg * (2 * Real.pi / 2 ^ k) : ℝ) * I))) (cPhaseRootN sg k c q) ∧
    Acts B size view Good s false [c] q (diag (Complex.exp ((sg * (2 * Real.pi / 2 ^ k) : ℝ) * I))) (antiCPhaseRootN sg k c q) ∧
    Acts B size view Good s true [c] q (diag (Complex.exp (-((sg * (2 * Real.pi / 2 ^ k) : ℝ) * I)))) (ciPhaseRootN sg k c q) ∧
    Acts B size view Good s false [c] q (diag (Complex.exp (-((sg * (2 * Real.pi / 2 ^ k) : ℝ) * I)))) (antiCIPhaseRootN sg k c q) := by
  have nd := nodup_pair h
  have lt := lt_pair hc hq
  rw [← rootN_eq sg hk, ← irootN_eq sg hk, cPhaseRootN, antiCPhaseRootN, ciPhaseRootN, antiCIPhaseRootN, if_neg hk, if_neg hk, if_neg hk,
    if_neg hk]
  exact ⟨mcPhase_spec L hs (L.unitary _ (unitary_diag (by simp) (norm_rootN ..))) nd lt,
    macPhase_spec L hs (L.unitary _ (unitary_diag (by simp) (norm_rootN ..))) nd lt,
    mcPhase_spec L hs (L.unitary _ (unitary_diag (by simp) (norm_irootN ..))) nd lt,
    macPhase_spec L hs (L.unitary _ (unitary_diag (by simp) (norm_irootN ..))) nd lt⟩

/-! ## Where a call differs from its documentation -/

/-- `RT` and `CRT` turn `|1⟩` by `e^{+iθ/2}`, although documented with `e^{-iθ/2}`. -/
theorem rt_partial (L : Lawful B Adm size view Good) {s : S} (hs : Good s) (θ : ℝ) {c q : ℕ} (h : c ≠ q) (hc : c < size s)
    (hq : q < size s) :
    Performs B size view Good (rt (B.rgp s) θ q) (act (diag (Complex.exp (θ / 2 * I))) q) s ∧
    Acts B size view Good s true [c] q (diag (Complex.exp (θ / 2 * I))) (crt θ c q) := by
  have e : (⟨Real.cos (θ / 2), Real.sin (θ / 2)⟩ : ℂ) = Complex.exp (θ / 2 * I) := by rw [mk_exp]; push_cast; rfl
  have hn : ‖Complex.exp (θ / 2 * I)‖ = 1 := by rw [← e]; exact norm_mk_cos _
  refine ⟨?_, ?_⟩
  · rw [rt, e]; exact performs_eq L hs (fine_phaseU L.unitary _ (by simp) hn hq) (sem_phase_diag ..)
  · rw [crt, e]; exact mcPhase_spec L hs (L.unitary _ (unitary_diag (by simp) hn)) (nodup_pair h) (lt_pair hc hq)

/-- `CRX` turns by the negative angle. -/
theorem crx_partial (L : Lawful B Adm size view Good) {s : S} (hs : Good s) (θ : ℝ) {c q : ℕ} (h : c ≠ q) (hc : c < size s)
    (hq : q < size s) : Acts B size view Good s true [c] q (rot σx (-θ)) (crx θ c q) := by
  have e : rxM (-θ) = ⟨⟨Real.cos (θ / 2), 0⟩, ⟨0, Real.sin (θ / 2)⟩, ⟨0, Real.sin (θ / 2)⟩, ⟨Real.cos (θ / 2), 0⟩⟩ := by
    rw [rxM, neg_div, Real.cos_neg, Real.sin_neg, neg_neg]
  rw [rot_x, crx, ← e]
  exact control_call L hs (unitary_rxM _) (nodup_pair h) (lt_pair hc hq)

/-- `Exp`, `ExpX`, `ExpY`, `ExpZ`: the phase `e^{iθ}` times the identity or the Pauli matrix. -/
theorem exp_partial (L : Lawful B Adm size view Good) {s : S} (hs : Good s) (θ : ℝ) {q : ℕ} (hq : q < size s) :
    Performs B size view Good (expI (B.rgp s) θ q) (act (Complex.exp (θ * I) • 1) q) s ∧
    Performs B size view Good (expX θ q) (act (Complex.exp (θ * I) • σx) q) s ∧
    Performs B size view Good (expY θ q) (act (Complex.exp (θ * I) • σy) q) s ∧
    Performs B size view Good (expZ (B.rgp s) θ q) (act (Complex.exp (θ * I) • σz) q) s := by
  have e : phaseFac θ = Complex.exp (θ * I) := mk_exp θ
  have hn : ‖Complex.exp (θ * I)‖ = 1 := Complex.norm_exp_ofReal_mul_I θ
  rw [expI, expX, expY, expZ, e]
  generalize Complex.exp (θ * I) = w at hn
  have ex : ∀ {m : M2} {M : Matrix (Fin 2) (Fin 2) ℂ}, M = mat m → ∀ ψ, gate (fun _ => True) q m.a m.b m.c m.d ψ = act M q ψ := by
    rintro m M rfl ψ; rfl
  refine ⟨?_, ?_, ?_, ?_⟩
  · have := phase_spec L hs hn (L.unitary _ (unitary_diag hn hn)) hq
    have e1 : (w • 1 : Matrix (Fin 2) (Fin 2) ℂ) = mat ⟨w, 0, 0, w⟩ := by
      ext i k; fin_cases i <;> fin_cases k <;> simp [mat]
    rw [e1]; exact this
  · have := invert_spec L hs (L.unitary _ (unitary_anti hn hn)) hq
    have e1 : (w • σx : Matrix (Fin 2) (Fin 2) ℂ) = mat ⟨0, w, w, 0⟩ := by
      ext i k; fin_cases i <;> fin_cases k <;> simp [mat, σx]
    rw [e1]; exact this
  · have := invert_spec L hs (tr := w * -I) (bl := w * I) (L.unitary _ (unitary_anti (by simp [hn]) (by simp [hn]))) hq
    have e1 : (w • σy : Matrix (Fin 2) (Fin 2) ℂ) = mat ⟨0, w * -I, w * I, 0⟩ := by
      ext i k; fin_cases i <;> fin_cases k <;> simp [mat, σy]
    rw [e1]; exact this
  · have := phase_spec L hs hn (br := -w) (L.unitary _ (unitary_diag hn (by simp [hn]))) hq
    have e1 : (w • σz : Matrix (Fin 2) (Fin 2) ℂ) = mat ⟨w, 0, 0, -w⟩ := by
      ext i k; fin_cases i <;> fin_cases k <;> simp [mat, σz]
    rw [e1]; exact this

end

theorem act_eq_iff (M N : Matrix (Fin 2) (Fin 2) ℂ) (q : ℕ) (w : ℂ) :
    (∀ ψ i, act M q ψ i = w * act N q ψ i) ↔ M = w • N := by
  constructor
  · intro h
    have f0 : flipBit q 0 = 2 ^ q := by simp [flipBit]
    have f1 : flipBit q (2 ^ q) = 0 := by simp [flipBit]
    have b1 : (2 ^ q).testBit q = true := by simp
    have ne : (2 ^ q : ℕ) ≠ 0 := by positivity
    have a := h (fun i => if i = 0 then 1 else 0) 0
    have b := h (fun i => if i = 2 ^ q then 1 else 0) 0
    have c := h (fun i => if i = 0 then 1 else 0) (2 ^ q)
    have d := h (fun i => if i = 2 ^ q then 1 else 0) (2 ^ q)
    simp [act, gate, f0, f1, b1, ne, Ne.symm ne] at a b c d
    ext i k; fin_cases i <;> fin_cases k <;> simp [a, b, c, d]
  · rintro rfl ψ i
    simp only [act, gate, if_true, Matrix.smul_apply, smul_eq_mul]
    split_ifs <;> ring

theorem actIf_eq_iff (c q : ℕ) (h : c ≠ q) (M N : Matrix (Fin 2) (Fin 2) ℂ) (w : ℂ) :
    (∀ ψ i, actIf true [c] M q ψ i = w * actIf true [c] N q ψ i) ↔ w = 1 ∧ M = N := by
  constructor
  · intro hh
    have f0 : flipBit q (2 ^ c) = 2 ^ c ^^^ 2 ^ q := rfl
    have f1 : flipBit q (2 ^ c ^^^ 2 ^ q) = 2 ^ c := by simp [flipBit, Nat.xor_assoc]
    have b0 : (2 ^ c).testBit q = false := by rw [Nat.testBit_two_pow]; simpa using h
    have b1 : (2 ^ c ^^^ 2 ^ q).testBit q = true := by rw [Nat.testBit_xor, b0]; simp
    have c0 : (2 ^ c).testBit c = true := by simp
    have c1 : (2 ^ c ^^^ 2 ^ q).testBit c = true := by
      rw [Nat.testBit_xor, c0, Nat.testBit_two_pow]; simpa using Ne.symm h
    have c2 : (2 ^ q).testBit c = false := by rw [Nat.testBit_two_pow]; simpa using Ne.symm h
    have ne : (2 ^ c ^^^ 2 ^ q : ℕ) ≠ 2 ^ c := fun e => by rw [e, b0] at b1; cases b1
    have w1 := hh (fun _ => 1) 0
    simp [actIf, gate, AllAre] at w1
    have a := hh (fun i => if i = 2 ^ c then 1 else 0) (2 ^ c)
    have b := hh (fun i => if i = 2 ^ c ^^^ 2 ^ q then 1 else 0) (2 ^ c)
    have c' := hh (fun i => if i = 2 ^ c then 1 else 0) (2 ^ c ^^^ 2 ^ q)
    have d := hh (fun i => if i = 2 ^ c ^^^ 2 ^ q then 1 else 0) (2 ^ c ^^^ 2 ^ q)
    obtain rfl : w = 1 := w1.symm
    simp [actIf, gate, AllAre, f0, f1, b0, b1, c0, c1, c2, ne, Ne.symm ne] at a b c' d
    refine ⟨rfl, ?_⟩
    ext i k; fin_cases i <;> fin_cases k <;> simp [a, b, c', d]
  · rintro ⟨rfl, rfl⟩ ψ i; rw [one_mul]

theorem exp_sub_exp (x : ℂ) : Complex.exp (x * I) = Complex.exp (-(x * I)) ↔ Complex.sin x = 0 := by
  rw [Complex.exp_mul_I, ← neg_mul, Complex.exp_mul_I, Complex.cos_neg, Complex.sin_neg]
  constructor
  · intro h
    have : 2 * I * Complex.sin x = 0 := by linear_combination h
    simpa using this
  · intro h; rw [h]; ring

/-- The action of `RT` is the documented one, even up to a phase, only if both are the identity up to sign. -/
theorem rt_wrong (θ : ℝ) (q : ℕ) :
    (∃ w, ∀ ψ i, act (diag (Complex.exp (θ / 2 * I))) q ψ i = w * act (diag (Complex.exp (-(θ / 2 * I)))) q ψ i) ↔
      Real.sin (θ / 2) = 0 := by
  have key : Complex.sin (θ / 2) = 0 ↔ Real.sin (θ / 2) = 0 := by
    rw [← ofReal_ofNat, ← ofReal_div, ← ofReal_sin, ofReal_eq_zero]
  rw [← key, ← exp_sub_exp]
  constructor
  · rintro ⟨w, h⟩
    have e := (act_eq_iff _ _ _ _).1 h
    have e0 := congrFun (congrFun e 0) 0
    have e1 := congrFun (congrFun e 1) 1
    simp [diag] at e0 e1
    rw [e1, ← e0, one_mul]
  · intro h; exact ⟨1, fun ψ i => by rw [h, one_mul]⟩

/-- The same for `CRT`. -/
theorem crt_wrong (θ : ℝ) {c q : ℕ} (hc : c ≠ q) :
    (∃ w, ∀ ψ i, actIf true [c] (diag (Complex.exp (θ / 2 * I))) q ψ i =
      w * actIf true [c] (diag (Complex.exp (-(θ / 2 * I)))) q ψ i) ↔ Real.sin (θ / 2) = 0 := by
  have key : Complex.sin (θ / 2) = 0 ↔ Real.sin (θ / 2) = 0 := by
    rw [← ofReal_ofNat, ← ofReal_div, ← ofReal_sin, ofReal_eq_zero]
  rw [← key, ← exp_sub_exp]
  constructor
  · rintro ⟨w, h⟩
    have e := ((actIf_eq_iff c q hc _ _ _).1 h).2
    have e1 := congrFun (congrFun e 1) 1
    simpa [diag] using e1
  · intro h; exact ⟨1, fun ψ i => by rw [h, one_mul]⟩

/-- `CRX` is right only for whole turns. -/
theorem crx_wrong (θ : ℝ) {c q : ℕ} (hc : c ≠ q) :
    (∃ w, ∀ ψ i, actIf true [c] (rot σx (-θ)) q ψ i = w * actIf true [c] (rot σx θ) q ψ i) ↔ Real.sin (θ / 2) = 0 := by
  constructor
  · rintro ⟨w, h⟩
    have e := ((actIf_eq_iff c q hc _ _ _).1 h).2
    rw [rot_x, rot_x] at e
    have e1 := congrArg Complex.im (congrFun (congrFun e 0) 1)
    simp [mat, rxM, neg_div] at e1
    linarith
  · intro h
    refine ⟨1, (actIf_eq_iff c q hc _ _ _).2 ⟨rfl, ?_⟩⟩
    rw [rot_x, rot_x, rxM, rxM, neg_div, Real.cos_neg, Real.sin_neg, h, neg_zero, neg_zero]

/-- `Exp` has the wrong sign: it is `e^{-iθ}` only if `sin θ = 0`. -/
theorem expI_wrong (θ : ℝ) (q : ℕ) :
    (∀ ψ i, act (Complex.exp (θ * I) • 1) q ψ i = act (Complex.exp (-(θ * I)) • 1) q ψ i) ↔ Real.sin θ = 0 := by
  have key : Complex.sin θ = 0 ↔ Real.sin θ = 0 := by rw [← ofReal_sin, ofReal_eq_zero]
  rw [← key, ← exp_sub_exp]
  constructor
  · intro h
    have e := (act_eq_iff (Complex.exp (θ * I) • 1) (Complex.exp (-(θ * I)) • 1) q 1).1 (fun ψ i => by rw [one_mul]; exact h ψ i)
    have e0 := congrFun (congrFun e 0) 0
    simpa using e0
  · intro h; rw [h]; intro ψ i; rfl

theorem exp_two (θ : ℝ) : Complex.cosh (-(θ : ℂ) * I) = Real.cos θ ∧ Complex.sinh (-(θ : ℂ) * I) = -(Real.sin θ : ℂ) * I := by
  constructor
  · rw [Complex.cosh_mul_I, Complex.cos_neg, ofReal_cos]
  · rw [Complex.sinh_mul_I, Complex.sin_neg, ofReal_sin]

theorem expP_iff {P : Matrix (Fin 2) (Fin 2) ℂ} (hP : ∀ w : ℂ, NormedSpace.exp (w • P) =
    Complex.cosh w • (1 : Matrix (Fin 2) (Fin 2) ℂ) + Complex.sinh w • P) (h1 : ∀ k : ℂ, k • P ≠ 1) (h2 : P ≠ 0) (θ : ℝ) (q : ℕ) :
    (∃ w, ∀ ψ i, act (Complex.exp (θ * I) • P) q ψ i = w * act (NormedSpace.exp ((-(θ : ℂ) * I) • P)) q ψ i) ↔ Real.cos θ = 0 := by
  rw [hP, (exp_two θ).1, (exp_two θ).2]
  have hne := Complex.exp_ne_zero (θ * I)
  constructor
  · rintro ⟨w, h⟩
    have e := (act_eq_iff _ _ _ _).1 h
    by_contra hc
    by_cases hw : w = 0
    · rw [hw, zero_smul] at e
      exact h2 ((smul_eq_zero.1 e).resolve_left hne)
    have hc' : (Real.cos θ : ℂ) ≠ 0 := by exact_mod_cast hc
    refine h1 ((w * Real.cos θ)⁻¹ * (Complex.exp (θ * I) - w * (-(Real.sin θ : ℂ) * I))) ?_
    rw [mul_smul, sub_smul, e, smul_add, smul_smul, smul_smul, add_sub_cancel_right, smul_smul, inv_mul_cancel₀ (mul_ne_zero hw hc'), one_smul]
  · intro h
    have hs : Real.sin θ ≠ 0 := fun hs => by have := Real.cos_sq_add_sin_sq θ; rw [h, hs] at this; norm_num at this
    have hs' : (Real.sin θ : ℂ) ≠ 0 := by exact_mod_cast hs
    refine ⟨Complex.exp (θ * I) / (-(Real.sin θ : ℂ) * I), (act_eq_iff _ _ _ _).2 ?_⟩
    rw [h, ofReal_zero, zero_smul, zero_add, smul_smul, div_mul_cancel₀]
    exact mul_ne_zero (neg_ne_zero.2 hs') I_ne_zero

/-- `ExpX`, `ExpY`, `ExpZ` are `e^{-iθσ}`, even up to a phase, only if `cos θ = 0`. -/
theorem expX_wrong (θ : ℝ) (q : ℕ) :
    (∃ w, ∀ ψ i, act (Complex.exp (θ * I) • σx) q ψ i = w * act (NormedSpace.exp ((-(θ : ℂ) * I) • σx)) q ψ i) ↔ Real.cos θ = 0 :=
  expP_iff exp_pauliX (fun k h => by simpa [σx] using congrFun (congrFun h 0) 0)
    (fun h => by simpa [σx] using congrFun (congrFun h 0) 1) θ q

theorem expY_wrong (θ : ℝ) (q : ℕ) :
    (∃ w, ∀ ψ i, act (Complex.exp (θ * I) • σy) q ψ i = w * act (NormedSpace.exp ((-(θ : ℂ) * I) • σy)) q ψ i) ↔ Real.cos θ = 0 :=
  expP_iff exp_pauliY (fun k h => by simpa [σy] using congrFun (congrFun h 0) 0)
    (fun h => by simpa [σy] using congrFun (congrFun h 1) 0) θ q

theorem expZ_wrong (θ : ℝ) (q : ℕ) :
    (∃ w, ∀ ψ i, act (Complex.exp (θ * I) • σz) q ψ i = w * act (NormedSpace.exp ((-(θ : ℂ) * I) • σz)) q ψ i) ↔ Real.cos θ = 0 :=
  expP_iff exp_pauliZ (fun k h => by
      have a := congrFun (congrFun h 0) 0
      have b := congrFun (congrFun h 1) 1
      simp [σz] at a b
      rw [a] at b; norm_num at b)
    (fun h => by simpa [σz] using congrFun (congrFun h 0) 0) θ q

/-! ## Examples -/

/-- A rotation about `Y` by a right angle on the CPU engine. -/
example : ∃ e', exec (cpu id) (ry (Real.pi / 2) 0) three = some e' ∧ e'.amp 7 = (Real.sin (Real.pi / 4) : ℂ) := by
  obtain ⟨e', h1, -, -, -, w, -, w2, w3⟩ := (rotations_spec (cpu_lawful id_sched) three_good (Real.pi / 2) (q := 0) (by simp [three])).2.1
  obtain rfl : w = 1 := w2 rfl
  refine ⟨e', h1, ?_⟩
  rw [← one_mul (e'.amp 7), w3 7 (by simp [three]), rot_y, show Real.pi / 4 = Real.pi / 2 / 2 by ring]
  simp [act, gate, mat, ryM, three, flipBit, Nat.testBit]

/-- The square root of `Y`, twice, on the decision diagram. -/
example : ∃ t', exec (bdt false 2) (sqrtY 1 ++ sqrtY 1) (Bdt.setPermutation 2 1 1) = some t' ∧ Bdt.getAmplitude 2 t' 3 = I := by
  obtain ⟨g, a⟩ := Bdt.setPermutation_spec 2 1 1 (by simp)
  obtain ⟨t', h1, -, -, -, w, -, w2, w3⟩ := (roots_square (bdt_lawful false 2) g (q := 1) (by simp)).2.1
  obtain rfl : w = 1 := w2 rfl
  refine ⟨t', h1, ?_⟩
  rw [← one_mul (Bdt.getAmplitude 2 t' 3), w3 3 (by norm_num)]
  simp only [act, gate, if_true]
  rw [a, a]
  simp [σy, flipBit, Nat.testBit]

/-- An angle at which `RT`, `CRT` and `CRX` differ from their documentation, and one for `ExpX`. -/
example : Real.sin (Real.pi / 2) ≠ 0 ∧ Real.cos 0 ≠ 0 := by simp

/-- Qubits and controls of the examples above. -/
example : ([0, 2] ++ [1]).Nodup ∧ ∀ k ∈ [0, 2] ++ [1], k < three.n := ⟨by decide, by simp [three]⟩

/-- A unitary matrix that has three angles. -/
example : M2.IsUnitary ⟨0, 1, 1, 0⟩ := unitary_x

end Verif.Defaults
