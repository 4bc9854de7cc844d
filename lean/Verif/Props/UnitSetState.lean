import Verif.Model.UnitSetState
import Mathlib.Tactic.LinearCombination
import Mathlib.Tactic.NormNum
import Mathlib.Tactic.Linarith
import Mathlib.Tactic.FieldSimp

/-!
# C90: the state set in a `QUnit` of one qubit is the state that is read, with fidelity one

The specification: the amplitudes that are read are those that were set; the estimate of the fidelity is one; no exception is thrown.
-/

namespace Verif.USet

open Complex

theorem isAmp0_zero (c : ℂ) : isAmp0 0 c ↔ c = 0 := by
  unfold isAmp0
  constructor
  · intro h; exact normSq_eq_zero.1 (le_antisymm h (normSq_nonneg _))
  · rintro rfl; simp

/-- The modulus of the first amplitude when both have the same modulus. -/
theorem half_norm {a b : ℂ} (hn : normSq a + normSq b = 1) (hab : normSq b = normSq a) :
    ((1 / Real.sqrt 2 : ℝ) : ℂ) * (a / (‖a‖ : ℂ)) = a := by
  have h2 : ‖a‖ ^ 2 = 1 / 2 := by rw [← normSq_eq_norm_sq]; linarith
  have h3 : ‖a‖ = 1 / Real.sqrt 2 := by
    rw [← Real.sqrt_sq (norm_nonneg a), h2, Real.sqrt_div zero_le_one, Real.sqrt_one]
  have h4 : (1 / Real.sqrt 2 : ℝ) ≠ 0 := by positivity
  rw [h3, mul_div_cancel₀]
  exact_mod_cast h4

/-- With exact arithmetic (threshold zero) the state that is set is the one that is read, in whatever basis it is held. -/
theorem setState_amps {a b : ℂ} (hn : normSq a + normSq b = 1) : amps (setState 0 a b).1 = (a, b) := by
  unfold setState
  simp only [isAmp0_zero]
  split_ifs with h1 h2 h3 h4
  · have hb : b = a := (sub_eq_zero.1 h1).symm
    have := half_norm hn (by rw [hb])
    simp only [amps, add_zero, sub_zero, this, hb]
  · have hb : b = -a := by linear_combination h2
    have := half_norm hn (by rw [hb, normSq_neg])
    simp only [amps, zero_add, zero_sub, mul_neg, this, hb]
  · have hb : b = I * a := by linear_combination -h3
    have := half_norm hn (by rw [hb, map_mul, normSq_I, one_mul])
    simp only [amps, mul_zero, add_zero, this, hb]
    rw [mul_right_comm, this, mul_comm]
  · have hb : b = -(I * a) := by linear_combination h4
    have := half_norm hn (by rw [hb, normSq_neg, map_mul, normSq_I, one_mul])
    simp only [amps, mul_zero, zero_add, this, hb]
    rw [neg_mul, mul_right_comm, this, mul_comm]
  · rfl

theorem clampProb_one : clampProb (1 - 0) = 1 := by unfold clampProb; norm_num

/-- The estimate is one, and nothing is thrown, for every state but one (up to a phase).

Partial: for the eigenstate of `Y` that is left out see `setState_minusY_wrong`. -/
theorem setState_fidelity_partial {a b : ℂ} {eps : ℝ} (heps : eps < 1) (hy : I * a + b ≠ 0) :
    (setState 0 a b).2 = 1 ∧ ¬throws eps (setState 0 a b).2 := by
  have : (setState 0 a b).2 = 1 := by
    unfold setState
    simp only [isAmp0_zero]
    split_ifs with h1 h2 h3
    · simp only [h1, map_zero, clampProb_one]
    · simp only [h2, map_zero, clampProb_one]
    · simp only [h3, map_zero, clampProb_one]
    · rfl
  rw [this]
  exact ⟨rfl, not_le.2 heps⟩

/-- Setting `(1, -i)/√2`, up to a phase, always throws: the estimate is computed from the distance to the opposite eigenstate. -/
theorem setState_minusY_wrong {a b : ℂ} {eps : ℝ} (heps : 0 ≤ eps) (hn : normSq a + normSq b = 1) (hy : I * a + b = 0) :
    (setState 0 a b).2 = 0 ∧ throws eps (setState 0 a b).2 := by
  have hb : b = -(I * a) := by linear_combination hy
  have hab : normSq b = normSq a := by rw [hb, normSq_neg, map_mul, normSq_I, one_mul]
  have ha : a ≠ 0 := by
    rintro rfl
    simp [hb] at hn
  have key : ∀ c : ℂ, c * a = 0 → c = 0 := fun c h => (mul_eq_zero.1 h).resolve_right ha
  have : (setState 0 a b).2 = 0 := by
    unfold setState
    simp only [isAmp0_zero]
    rw [if_neg, if_neg, if_neg, if_pos hy]
    · have h2 : I * a - b = 2 * (I * a) := by rw [hb]; ring
      have h3 : normSq (I * a - b) = 2 := by
        rw [h2, map_mul, map_mul, normSq_I, normSq_ofNat]
        linarith
      rw [h3]
      unfold clampProb
      norm_num
    · intro h
      have := key (2 * I) (by linear_combination h + hy)
      simp at this
    · intro h
      have := congrArg Complex.re (key (1 - I) (by linear_combination h - hy))
      simp at this
    · intro h
      have := congrArg Complex.re (key (1 + I) (by linear_combination h + hy))
      simp at this
  rw [this]
  exact ⟨rfl, heps⟩

/-- With any threshold below one, too: a state that reaches that branch is refused. -/
theorem setState_branch_wrong {thr eps : ℝ} {a b : ℂ} (heps : 0 ≤ eps) (ht : thr < 1) (hn : normSq a + normSq b = 1)
    (h1 : ¬isAmp0 thr (a - b)) (h2 : ¬isAmp0 thr (a + b)) (h3 : ¬isAmp0 thr (I * a - b)) (hy : isAmp0 thr (I * a + b)) :
    throws eps (setState thr a b).2 := by
  unfold setState
  rw [if_neg h1, if_neg h2, if_neg h3, if_pos hy]
  have hp : normSq (I * a - b) + normSq (I * a + b) = 2 := by
    have ha : normSq (I * a) = normSq a := by rw [map_mul, normSq_I, one_mul]
    rw [normSq_sub, normSq_add, ha]
    linarith
  unfold isAmp0 at hy
  have hneg : 1 - normSq (I * a - b) < 0 := by linarith
  unfold throws clampProb
  dsimp only
  rw [if_pos hneg, if_neg (by norm_num)]
  exact heps

/-- With any threshold the estimate is the squared overlap missing at most the threshold, except in the same branch. -/
theorem setState_estimate {thr : ℝ} {a b : ℂ} (ht : 0 ≤ thr) (ht1 : thr ≤ 1) (hy : ¬isAmp0 thr (I * a + b)) :
    1 - thr ≤ (setState thr a b).2 ∧ (setState thr a b).2 ≤ 1 := by
  have hc : ∀ c : ℂ, isAmp0 thr c → 1 - thr ≤ clampProb (1 - normSq c) ∧ clampProb (1 - normSq c) ≤ 1 := by
    intro c h
    unfold isAmp0 at h
    have := normSq_nonneg c
    unfold clampProb
    dsimp only
    split_ifs <;> constructor <;> linarith
  unfold setState
  split_ifs with h1 h2 h3
  · exact hc _ h1
  · exact hc _ h2
  · exact hc _ h3
  · exact ⟨by linarith, le_rfl⟩

theorem example_norm : normSq ((3 / 5 : ℝ) : ℂ) + normSq ((4 / 5 : ℝ) * I : ℂ) = 1 := by
  simp only [map_mul, normSq_ofReal, normSq_I]; norm_num

example : amps (setState 0 ((3 / 5 : ℝ) : ℂ) ((4 / 5 : ℝ) * I)).1 = (((3 / 5 : ℝ) : ℂ), (4 / 5 : ℝ) * I) := setState_amps example_norm

theorem h_norm : normSq ((1 / Real.sqrt 2 : ℝ) : ℂ) + normSq (-(I * ((1 / Real.sqrt 2 : ℝ) : ℂ))) = 1 := by
  rw [normSq_neg, map_mul, normSq_I, normSq_ofReal, div_mul_div_comm, Real.mul_self_sqrt (by norm_num)]
  norm_num

/-- The state that `S†H` makes can not be set. -/
example : throws 0 (setState 0 ((1 / Real.sqrt 2 : ℝ) : ℂ) (-(I * ((1 / Real.sqrt 2 : ℝ) : ℂ)))).2 :=
  (setState_minusY_wrong le_rfl h_norm (by ring)).2

example : (setState 0 1 I).2 = 1 := (setState_fidelity_partial (eps := 0) (by norm_num) (by
  rw [mul_one]; intro h
  have := congrArg Complex.im h
  simp at this)).1

end Verif.USet
