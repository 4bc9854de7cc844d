import Verif.Model.Neuron
import Verif.Props.Rotations
import Verif.Props.EngineMeas
import Verif.Lemmas.EngineBits

/-!
# Lemmas for C67
-/

namespace Verif.Neuron

open Verif.Defaults Verif.Engine Verif.Spec Verif.Spec.Rotation Verif.Bits Complex Classical

/-- The qubit `q` turned about the Y axis by the angle that the qubits `cs` select. -/
noncomputable def turned (cs : List ℕ) (q : ℕ) (f : ℕ → ℝ) (ψ : ℕ → ℂ) : ℕ → ℂ := fun i => act (rot σy (f (valueOf cs i))) q ψ i

theorem act_ry (θ : ℝ) (q : ℕ) (ψ : ℕ → ℂ) (i : ℕ) : act (rot σy θ) q ψ i =
    if i.testBit q then (Real.sin (θ / 2) : ℂ) * ψ (flipBit q i) + (Real.cos (θ / 2) : ℂ) * ψ i
    else (Real.cos (θ / 2) : ℂ) * ψ i - (Real.sin (θ / 2) : ℂ) * ψ (flipBit q i) := by
  rw [rot_y]
  have h1 : ((⟨Real.cos (θ / 2), 0⟩ : ℂ)) = (Real.cos (θ / 2) : ℂ) := rfl
  have h2 : ((⟨Real.sin (θ / 2), 0⟩ : ℂ)) = (Real.sin (θ / 2) : ℂ) := rfl
  have h3 : ((⟨-Real.sin (θ / 2), 0⟩ : ℂ)) = -(Real.sin (θ / 2) : ℂ) := by rw [← Complex.ofReal_neg]; rfl
  simp only [act_mat, gate, if_true, ryM, h1, h2, h3]
  split_ifs <;> ring

theorem turned_apply (cs : List ℕ) (q : ℕ) (f : ℕ → ℝ) (ψ : ℕ → ℂ) (i : ℕ) : turned cs q f ψ i =
    if i.testBit q then (Real.sin (f (valueOf cs i) / 2) : ℂ) * ψ (flipBit q i) + (Real.cos (f (valueOf cs i) / 2) : ℂ) * ψ i
    else (Real.cos (f (valueOf cs i) / 2) : ℂ) * ψ i - (Real.sin (f (valueOf cs i) / 2) : ℂ) * ψ (flipBit q i) :=
  act_ry _ q ψ i

theorem testBit_flip_other {q k i : ℕ} (h : k ≠ q) : (flipBit q i).testBit k = i.testBit k := by
  rw [testBit_flipBit]; simp [Ne.symm h]

theorem testBit_flip_same (q i : ℕ) : (flipBit q i).testBit q = !i.testBit q := by rw [testBit_flipBit]; simp

theorem flipBit_flipBit (q i : ℕ) : flipBit q (flipBit q i) = i := by
  unfold flipBit; rw [Nat.xor_assoc, Nat.xor_self, Nat.xor_zero]

theorem flipBit_lt {n q i : ℕ} (hq : q < n) (hi : i < 2 ^ n) : flipBit q i < 2 ^ n :=
  Nat.xor_lt_two_pow hi (Nat.pow_lt_pow_right (by norm_num) hq)

theorem valueOf_flip {cs : List ℕ} {q : ℕ} (hq : q ∉ cs) (i : ℕ) : valueOf cs (flipBit q i) = valueOf cs i :=
  valueOf_congr fun b hb => testBit_flip_other (fun e => hq (e ▸ hb))

theorem turned_turned {cs : List ℕ} {q : ℕ} (hq : q ∉ cs) (f g : ℕ → ℝ) (ψ : ℕ → ℂ) :
    turned cs q g (turned cs q f ψ) = turned cs q (fun v => f v + g v) ψ := by
  funext i
  simp only [turned_apply, testBit_flip_same, flipBit_flipBit, valueOf_flip hq]
  generalize f (valueOf cs i) = a
  generalize g (valueOf cs i) = b
  rw [show (a + b) / 2 = a / 2 + b / 2 by ring, Real.sin_add, Real.cos_add]
  push_cast
  cases i.testBit q
  · simp only [Bool.false_eq_true, if_false, Bool.not_false, if_true]; ring
  · simp only [if_true, Bool.not_true, Bool.false_eq_true, if_false]; ring

theorem turned_zero (cs : List ℕ) (q : ℕ) (ψ : ℕ → ℂ) : turned cs q (fun _ => 0) ψ = ψ := by
  funext i; rw [turned_apply]; simp

theorem turned_undo {cs : List ℕ} {q : ℕ} (hq : q ∉ cs) {f g : ℕ → ℝ} (h : ∀ v, g v = -f v) (ψ : ℕ → ℂ) :
    turned cs q g (turned cs q f ψ) = ψ := by
  rw [turned_turned hq, show (fun v => f v + g v) = fun _ => 0 from funext fun v => by rw [h]; ring, turned_zero]

/-- Only the angles of values the inputs can take matter, and only up to two full turns. -/
theorem turned_congr {cs : List ℕ} {f g : ℕ → ℝ} (q : ℕ)
    (h : ∀ v < 2 ^ cs.length, ∃ k : ℤ, g v = f v + k * (4 * Real.pi)) (ψ : ℕ → ℂ) : turned cs q g ψ = turned cs q f ψ := by
  funext i
  rw [turned_apply, turned_apply]
  obtain ⟨k, hk⟩ := h _ (valueOf_lt cs i)
  rw [hk, show (f (valueOf cs i) + k * (4 * Real.pi)) / 2 = f (valueOf cs i) / 2 + k * (2 * Real.pi) by ring, Real.sin_add_int_mul_two_pi,
    Real.cos_add_int_mul_two_pi]

theorem turned_smul (cs : List ℕ) (q : ℕ) (f : ℕ → ℝ) (w : ℂ) (ψ : ℕ → ℂ) (i : ℕ) :
    turned cs q f (fun j => w * ψ j) i = w * turned cs q f ψ i := by
  rw [turned_apply, turned_apply]; split_ifs <;> ring

theorem turned_lt {n : ℕ} {cs : List ℕ} {q : ℕ} (hq : q < n) (f : ℕ → ℝ) {ψ φ : ℕ → ℂ} (h : ∀ i < 2 ^ n, ψ i = φ i) :
    ∀ i < 2 ^ n, turned cs q f ψ i = turned cs q f φ i := fun i hi => by
  rw [turned_apply, turned_apply, h i hi, h _ (flipBit_lt hq hi)]

theorem upTo_true {n : ℕ} {r : Bool} {φ ψ : ℕ → ℂ} (h : UpTo n r φ ψ) : UpTo n true φ ψ := by
  obtain ⟨w, w1, -, w3⟩ := h
  exact ⟨w, w1, fun h => by simp at h, w3⟩

theorem upTo_symm {n : ℕ} {φ ψ : ℕ → ℂ} (h : UpTo n true φ ψ) : UpTo n true ψ φ := by
  obtain ⟨w, w1, -, w3⟩ := h
  have hw : w ≠ 0 := by rintro rfl; simp at w1
  refine ⟨w⁻¹, by rw [norm_inv, w1, inv_one], fun h => by simp at h, fun i hi => ?_⟩
  rw [← w3 i hi, ← mul_assoc, inv_mul_cancel₀ hw, one_mul]

theorem upTo_turned {n : ℕ} {cs : List ℕ} {q : ℕ} (hq : q < n) (f : ℕ → ℝ) {φ ψ : ℕ → ℂ} (h : UpTo n true φ ψ) :
    UpTo n true (turned cs q f φ) (turned cs q f ψ) := by
  obtain ⟨w, w1, w2, w3⟩ := h
  refine ⟨w, w1, w2, fun i hi => ?_⟩
  rw [← turned_smul]
  exact turned_lt hq f w3 i hi

theorem upTo_normSq {n : ℕ} {φ ψ : ℕ → ℂ} (h : UpTo n true φ ψ) : ∀ i < 2 ^ n, normSq (φ i) = normSq (ψ i) := by
  obtain ⟨w, w1, -, w3⟩ := h
  intro i hi
  rw [← w3 i hi, normSq_mul, normSq_eq_norm_sq w, w1]; simp

theorem upTo_probIf {n : ℕ} {φ ψ : ℕ → ℂ} (h : UpTo n true φ ψ) (p : ℕ → Prop) : probIf n p φ = probIf n p ψ := by
  unfold probIf
  refine Finset.sum_congr rfl fun i hi => ?_
  rw [upTo_normSq h i (Finset.mem_range.1 hi)]

theorem upTo_total {n : ℕ} {φ ψ : ℕ → ℂ} (h : UpTo n true φ ψ) : totalProb n φ = totalProb n ψ := by
  unfold totalProb
  exact Finset.sum_congr rfl fun i hi => upTo_normSq h i (Finset.mem_range.1 hi)

theorem isCtrlValue_valueOf : ∀ (cs : List ℕ) (i : ℕ), IsCtrlValue cs i (valueOf cs i)
  | [], i => ⟨by simp [valueOf], fun j h => by simp at h⟩
  | c :: cs, i => by
    refine ⟨valueOf_lt _ _, fun j h => ?_⟩
    cases j with
    | zero => rw [valueOf, Nat.testBit_zero]; cases hc : i.testBit c <;> simp [hc]
    | succ j =>
      have := (isCtrlValue_valueOf cs i).2 j (by simpa using h)
      rw [valueOf, Nat.testBit_succ, show ((if i.testBit c = true then 1 else 0) + 2 * valueOf cs i) / 2 = valueOf cs i by split_ifs <;> omega,
        this]
      rfl

/-- Where both values of the output qubit have the same amplitude, the chance is `(1 + sin θ) / 2`. -/
theorem probIf_turned {n : ℕ} {cs : List ℕ} {q : ℕ} (hq : q < n) (hc : q ∉ cs) (f : ℕ → ℝ) {ψ : ℕ → ℂ}
    (h : ∀ i < 2 ^ n, ψ (flipBit q i) = ψ i) :
    probIf n (fun i => i.testBit q = true) (turned cs q f ψ) = mean n (fun i => (1 + Real.sin (f (valueOf cs i))) / 2) ψ := by
  have key : ∀ i < 2 ^ n, i.testBit q = true → normSq (turned cs q f ψ i) = (1 + Real.sin (f (valueOf cs i))) * normSq (ψ i) := by
    intro i hi hb
    rw [turned_apply, if_pos hb, h i hi, ← add_mul, normSq_mul, ← Complex.ofReal_add, normSq_ofReal]
    congr 1
    have h1 := Real.sin_sq_add_cos_sq (f (valueOf cs i) / 2)
    have h2 : Real.sin (f (valueOf cs i)) = 2 * Real.sin (f (valueOf cs i) / 2) * Real.cos (f (valueOf cs i) / 2) := by
      rw [← Real.sin_two_mul]; congr 1; ring
    rw [h2]; linear_combination h1
  set F : ℕ → ℝ := fun i => (1 + Real.sin (f (valueOf cs i))) / 2 * normSq (ψ i)
  have hF : ∀ i < 2 ^ n, F (flipBit q i) = F i := fun i hi => by simp only [F]; rw [h i hi, valueOf_flip hc]
  have e1 : probIf n (fun i => i.testBit q = true) (turned cs q f ψ) = ∑ i ∈ Finset.range (2 ^ n), if i.testBit q then 2 * F i else 0 := by
    refine Finset.sum_congr rfl fun i hi => ?_
    by_cases hb : i.testBit q = true
    · rw [if_pos hb, if_pos hb, key i (Finset.mem_range.1 hi) hb]; simp only [F]; ring
    · rw [if_neg hb, if_neg hb]
  have e2 : ∑ i ∈ Finset.range (2 ^ n), (if i.testBit q then F i else 0) = ∑ i ∈ Finset.range (2 ^ n), if i.testBit q then 0 else F i := by
    refine Finset.sum_bij' (fun i _ => flipBit q i) (fun i _ => flipBit q i) ?_ ?_ ?_ ?_ ?_
    · intro i hi; exact Finset.mem_range.2 (flipBit_lt hq (Finset.mem_range.1 hi))
    · intro i hi; exact Finset.mem_range.2 (flipBit_lt hq (Finset.mem_range.1 hi))
    · intro i _; exact flipBit_flipBit q i
    · intro i _; exact flipBit_flipBit q i
    · intro i hi
      rw [testBit_flip_same, hF i (Finset.mem_range.1 hi)]
      cases i.testBit q <;> simp
  have e3 : mean n (fun i => (1 + Real.sin (f (valueOf cs i))) / 2) ψ =
      ∑ i ∈ Finset.range (2 ^ n), ((if i.testBit q then F i else 0) + if i.testBit q then 0 else F i) := by
    refine Finset.sum_congr rfl fun i _ => ?_
    split_ifs <;> simp [F]
  rw [e1, e3, Finset.sum_add_distrib, ← e2, ← Finset.sum_add_distrib]
  refine Finset.sum_congr rfl fun i _ => ?_
  split_ifs <;> ring

/-! ## Angles -/

theorem unturn_eq (erf : ℝ → ℝ) (nn : Neuron) (a : ℝ) : unturn erf nn a = -turn erf nn a := by
  unfold unturn turn
  cases nn.fn <;> simp [negApplyRelu, applyRelu, negApplyGelu, applyGelu]

theorem clampAngle_eq (a : ℝ) : ∃ k : ℤ, clampAngle a = a + k * (4 * Real.pi) := by
  have h : ∃ k : ℤ, fmod a (4 * Real.pi) = a + k * (4 * Real.pi) := by
    unfold fmod
    split_ifs
    · exact ⟨-⌊a / (4 * Real.pi)⌋, by push_cast; ring⟩
    · exact ⟨-⌈a / (4 * Real.pi)⌉, by push_cast; ring⟩
  obtain ⟨k, hk⟩ := h
  unfold clampAngle
  simp only [hk]
  split_ifs
  · exact ⟨k + 1, by push_cast; ring⟩
  · exact ⟨k - 1, by push_cast; ring⟩
  · exact ⟨k, rfl⟩

theorem fmod_small {x y : ℝ} (hy : 0 < y) (h : |x| < y) : fmod x y = x := by
  obtain ⟨h1, h2⟩ := abs_lt.1 h
  unfold fmod
  have e1 : x / y < 1 := by rw [div_lt_one hy]; exact h2
  have e2 : -1 < x / y := by rw [lt_div_iff₀ hy]; linarith
  split_ifs with h0
  · rw [Int.floor_eq_zero_iff.2 ⟨h0, e1⟩]; simp
  · rw [Int.ceil_eq_zero_iff.2 ⟨e2, by push Not at h0; exact h0.le⟩]; simp

/-- `clampAngle` keeps angles of less than one full turn. -/
theorem clampAngle_small {a : ℝ} (h : |a| < 2 * Real.pi) : clampAngle a = a := by
  have hp := Real.pi_pos
  obtain ⟨h1, h2⟩ := abs_lt.1 h
  unfold clampAngle
  simp only [fmod_small (by linarith : 0 < 4 * Real.pi) (by linarith : |a| < 4 * Real.pi)]
  rw [if_neg (by linarith), if_neg (by linarith)]

/-- `clampAngle` puts the angle into one interval of length `4π`. -/
theorem clampAngle_range (a : ℝ) : -2 * Real.pi < clampAngle a ∧ clampAngle a ≤ 2 * Real.pi := by
  have hp := Real.pi_pos
  have hy : 0 < 4 * Real.pi := by linarith
  have h : -(4 * Real.pi) < fmod a (4 * Real.pi) ∧ fmod a (4 * Real.pi) < 4 * Real.pi := by
    unfold fmod
    split_ifs with h0
    · have h1 := Int.floor_le (a / (4 * Real.pi))
      have h2 := Int.lt_floor_add_one (a / (4 * Real.pi))
      rw [le_div_iff₀ hy] at h1
      rw [div_lt_iff₀ hy] at h2
      constructor <;> nlinarith
    · have h1 := Int.le_ceil (a / (4 * Real.pi))
      have h2 := Int.ceil_lt_add_one (a / (4 * Real.pi))
      rw [div_le_iff₀ hy] at h1
      have h3 : (⌈a / (4 * Real.pi)⌉ : ℝ) - 1 < a / (4 * Real.pi) := by linarith
      rw [lt_div_iff₀ hy] at h3
      constructor <;> nlinarith
  unfold clampAngle
  simp only
  split_ifs <;> constructor <;> linarith [h.1, h.2]

theorem put_angles (nn : Neuron) (v : ℕ) (a : ℝ) (k : ℕ) : (nn.put v a).angles k = if k = v then a else nn.angles k := by
  simp [Neuron.put, Function.update_apply]

theorem put_put (nn : Neuron) (v : ℕ) (a b : ℝ) : (nn.put v a).put v b = nn.put v b := by simp [Neuron.put]

theorem put_same (nn : Neuron) (v : ℕ) : nn.put v (nn.angles v) = nn := by simp [Neuron.put]

theorem turn_put (erf : ℝ → ℝ) (nn : Neuron) (v : ℕ) (a : ℝ) : turn erf (nn.put v a) = turn erf nn := rfl

end Verif.Neuron
