import Verif.Lemmas.Neuron

/-!
# C67: a quantum neuron predicts as documented, and learning does not make it worse

`Predict` is the chance that the output qubit is 1 after a turn about the Y axis by the angle the inputs select; `Unpredict` takes the
turn back; `Learn` leaves the register as it was, and the trained neuron predicts the expected category no less than before. That holds
for the default activation function; for the others `clampAngle` changes what was learned. `LearnPermutation` compares chances before
and after a measurement; `operator=` writes past the end of an array.
-/

namespace Verif.Neuron

open Verif.Defaults Verif.Engine Verif.Spec Verif.Spec.Rotation Verif.Bits Complex Classical

/-- A simulator type whose gates act as their matrices, whose `Prob` is the Born probability and whose `M` collapses. -/
structure Sound {S : Type} (R : Reg S) (size : S → ℕ) (view : S → ℕ → ℂ) (Good : S → Prop) : Prop where
  gates : Lawful R.B M2.IsUnitary size view Good
  unit : ∀ {s : S}, Good s → totalProb (size s) (view s) = 1
  prob : ∀ {s : S}, Good s → ∀ {q : ℕ}, q < size s → R.prob s q = some (probIf (size s) (fun i => i.testBit q = true) (view s))
  m : ∀ {s : S}, Good s → ∀ {q : ℕ}, q < size s → ∃ r s', R.m s q = some (r, s') ∧ Good s' ∧ size s' = size s ∧
    Collapsed (size s) (fun i => i.testBit q = r) (view s) (view s')

/-- The neuron fits the register: distinct qubits of the register; the width of an index is 128 bits. -/
structure Fits (nn : Neuron) (n : ℕ) : Prop where
  nodup : (nn.inputs ++ [nn.output]).Nodup
  bound : ∀ k ∈ nn.inputs ++ [nn.output], k < n
  width : nn.inputs.length ≤ 128

/-- The chance that the neuron gives to the category `expected` in the state `ψ`. -/
noncomputable def chance (erf : ℝ → ℝ) (nn : Neuron) (expected : Bool) (n : ℕ) (ψ : ℕ → ℂ) : ℝ :=
  let p := probIf n (fun i => i.testBit nn.output = true) (turned nn.inputs nn.output (fun v => turn erf nn (nn.angles v)) ψ)
  if expected then p else 1 - p

theorem Fits.out {nn : Neuron} {n : ℕ} (h : Fits nn n) : nn.output < n := h.bound _ (by simp)
theorem Fits.notMem {nn : Neuron} {n : ℕ} (h : Fits nn n) : nn.output ∉ nn.inputs := notMem_of_nodup h.nodup
theorem Fits.put {nn : Neuron} {n : ℕ} (h : Fits nn n) (v : ℕ) (a : ℝ) : Fits (nn.put v a) n := ⟨h.nodup, h.bound, h.width⟩

section
variable {S : Type} {R : Reg S} {size : S → ℕ} {view : S → ℕ → ℂ} {Good : S → Prop} {erf : ℝ → ℝ}

theorem rotate_spec (H : Sound R size view Good) {s : S} (hs : Good s) {nn : Neuron} (hf : Fits nn (size s)) (f : ℝ → ℝ) :
    ∃ s', rotate R nn f s = some s' ∧ Good s' ∧ size s' = size s ∧
      UpTo (size s) true (view s') (turned nn.inputs nn.output (fun v => f (nn.angles v)) (view s)) := by
  unfold rotate
  split_ifs with h
  · obtain ⟨s', h1, h2, h3, -, h5⟩ := (rotations_spec H.gates hs (f (nn.angles 0)) hf.out).2.1
    refine ⟨s', h1, h2, h3, ?_⟩
    rw [h]
    exact upTo_true h5
  · obtain ⟨s', h1, h2, h3, -, w, w1, w2, w3⟩ := (uniform_rotations_spec H.gates hs (fun v => f (nn.angles v)) hf.nodup hf.bound hf.width).1
    exact ⟨s', h1, h2, h3, w, w1, fun h => by simp at h, fun i hi => w3 i hi _ (isCtrlValue_valueOf _ i)⟩

theorem result_spec (H : Sound R size view Good) {s : S} (hs : Good s) {nn : Neuron} (hf : Fits nn (size s)) (expected : Bool) :
    result R nn expected s = some (if expected then probIf (size s) (fun i => i.testBit nn.output = true) (view s)
      else 1 - probIf (size s) (fun i => i.testBit nn.output = true) (view s)) := by
  unfold result; rw [H.prob hs hf.out]; rfl

/-! ## Prediction -/

/-- `Predict` turns the output qubit by the selected angle and returns the chance of the category. -/
theorem predict_spec (H : Sound R size view Good) {s : S} (hs : Good s) {nn : Neuron} (hf : Fits nn (size s)) (expected : Bool) :
    ∃ s', predict R erf nn expected s = some (chance erf nn expected (size s) (view s), s') ∧ Good s' ∧ size s' = size s ∧
      UpTo (size s) true (view s') (turned nn.inputs nn.output (fun v => turn erf nn (nn.angles v)) (view s)) := by
  obtain ⟨s', h1, h2, h3, h4⟩ := rotate_spec H hs hf (turn erf nn)
  refine ⟨s', ?_, h2, h3, h4⟩
  unfold predict
  rw [h1]
  simp only [Option.bind_some]
  rw [result_spec H h2 (h3 ▸ hf), h3, upTo_probIf h4]
  rfl

/-- `Unpredict` takes `Predict` back. -/
theorem unpredict_undoes (H : Sound R size view Good) {s : S} (hs : Good s) {nn : Neuron} (hf : Fits nn (size s)) (expected : Bool) :
    ∃ p s' s'', predict R erf nn expected s = some (p, s') ∧ unpredict R erf nn expected s' =
      some (if expected then probIf (size s) (fun i => i.testBit nn.output = true) (view s)
        else 1 - probIf (size s) (fun i => i.testBit nn.output = true) (view s), s'') ∧
      Good s'' ∧ size s'' = size s ∧ UpTo (size s) true (view s'') (view s) := by
  obtain ⟨s', h1, h2, h3, h4⟩ := predict_spec (erf := erf) H hs hf expected
  have hf' : Fits nn (size s') := h3 ▸ hf
  obtain ⟨s'', k1, k2, k3, k4⟩ := rotate_spec H h2 hf' (unturn erf nn)
  rw [h3] at k4
  have h5 : UpTo (size s) true (view s'') (view s) := by
    have := k4.trans (upTo_turned (cs := nn.inputs) hf.out (fun v => unturn erf nn (nn.angles v)) h4)
    rwa [turned_undo hf.notMem (fun v => unturn_eq erf nn _)] at this
  refine ⟨_, s', s'', h1, ?_, k2, k3.trans h3, h5⟩
  unfold unpredict
  rw [k1]
  simp only [Option.bind_some]
  rw [result_spec H k2 (k3 ▸ hf'), k3, h3, upTo_probIf h5]
  rfl

/-- Prediction and its undoing: the chance is returned and the register stays as it is. -/
theorem cycle_spec (H : Sound R size view Good) {s : S} (hs : Good s) {nn : Neuron} (hf : Fits nn (size s)) (expected : Bool) :
    ∃ s', learnCycle R erf nn expected s = some (chance erf nn expected (size s) (view s), s') ∧ Good s' ∧ size s' = size s ∧
      UpTo (size s) true (view s') (view s) := by
  obtain ⟨p, s', s'', h1, h2, h3⟩ := unpredict_undoes (erf := erf) H hs hf expected
  obtain ⟨t, k1, -⟩ := predict_spec (erf := erf) H hs hf expected
  obtain ⟨rfl, rfl⟩ : p = _ ∧ s' = t := by simpa using h1.symm.trans k1
  refine ⟨s'', ?_, h3⟩
  unfold learnCycle
  rw [h1]
  simp only [Option.bind_some]
  rw [h2]
  rfl

theorem chance_upTo {nn : Neuron} {n : ℕ} (hf : Fits nn n) (expected : Bool) {φ ψ : ℕ → ℂ} (h : UpTo n true φ ψ) :
    chance erf nn expected n φ = chance erf nn expected n ψ := by
  unfold chance; rw [upTo_probIf (upTo_turned hf.out _ h)]

theorem chance_congr {nn nn' : Neuron} (hi : nn'.inputs = nn.inputs) (ho : nn'.output = nn.output)
    (h : ∀ v < 2 ^ nn.inputs.length, ∃ k : ℤ, turn erf nn' (nn'.angles v) = turn erf nn (nn.angles v) + k * (4 * Real.pi))
    (expected : Bool) (n : ℕ) (ψ : ℕ → ℂ) : chance erf nn' expected n ψ = chance erf nn expected n ψ := by
  unfold chance; rw [hi, ho, turned_congr nn.output h]

/-- If the output qubit starts out with equal amplitudes, the chance of 1 is the average of `(1 + sin θ) / 2` over the inputs. -/
theorem chance_of_reset {nn : Neuron} {n : ℕ} (hf : Fits nn n) {ψ : ℕ → ℂ} (h : ∀ i < 2 ^ n, ψ (flipBit nn.output i) = ψ i) :
    chance erf nn true n ψ = mean n (fun i => (1 + Real.sin (turn erf nn (nn.angles (valueOf nn.inputs i)))) / 2) ψ := by
  unfold chance; exact probIf_turned hf.out hf.notMem _ h

/-! ## The reset -/

/-- `resetInit`: whatever the measurement of the output qubit gives, its two values have equal amplitudes afterwards. -/
theorem reset_spec (H : Sound R size view Good) {s : S} (hs : Good s) {nn : Neuron} (hf : Fits nn (size s)) :
    ∃ s', reset R nn s = some s' ∧ Good s' ∧ size s' = size s ∧ (∀ i < 2 ^ size s, view s' (flipBit nn.output i) = view s' i) ∧
      ∃ (r : Bool) (k : ℂ), k ≠ 0 ∧ ∀ i < 2 ^ size s, i.testBit nn.output = r → view s' i = k * view s i := by
  obtain ⟨r, s1, h1, h2, h3, k, c1, c2, c3⟩ := H.m hs hf.out
  have hk : k ≠ 0 := by
    rintro rfl
    have : totalProb (size s) (view s1) = 0 := Finset.sum_eq_zero fun i hi => by
      by_cases hb : i.testBit nn.output = r
      · rw [c1 i (Finset.mem_range.1 hi) hb]; simp
      · rw [c2 i (Finset.mem_range.1 hi) hb]; simp
    rw [this] at c3; norm_num at c3
  have hx : ∃ s2, setBit R s nn.output false = some s2 ∧ Good s2 ∧ size s2 = size s ∧
      UpTo (size s) true (view s2) (fun i => if r then view s1 (flipBit nn.output i) else view s1 i) := by
    unfold setBit
    rw [h1]
    simp only [Option.bind_some]
    cases r with
    | false => exact ⟨s1, by simp, h2, h3, .of_eq fun i _ => by simp⟩
    | true =>
      obtain ⟨s2, a1, a2, a3, -, a5⟩ := invert_spec H.gates h2 (q := nn.output) (tr := 1) (bl := 1)
        (by exact unitary_anti (by simp) (by simp)) (h3 ▸ hf.out)
      refine ⟨s2, by simpa [x] using a1, a2, a3.trans h3, ?_⟩
      rw [h3] at a5
      have e : gate (fun _ => True) nn.output 0 1 1 0 (view s1) = fun i => view s1 (flipBit nn.output i) := by
        funext i; unfold gate; simp
      rw [e] at a5
      simpa using upTo_true a5
  obtain ⟨s2, b1, b2, b3, b4⟩ := hx
  obtain ⟨s3, d1, d2, d3, -, d5⟩ := (rotations_spec H.gates b2 (Real.pi / 2) (b3 ▸ hf.out)).2.1
  rw [b3] at d5
  obtain ⟨w, w1, -, w3⟩ := (upTo_true d5).trans (upTo_turned (cs := []) hf.out (fun _ => Real.pi / 2) b4)
  have hw : w ≠ 0 := by rintro rfl; simp at w1
  have val : ∀ i < 2 ^ size s, ∀ j, j < 2 ^ size s → j.testBit nn.output = r → (i = j ∨ i = flipBit nn.output j) →
      w * view s3 i = (Real.sqrt 2 / 2 : ℝ) * (k * view s j) := by
    intro i hi j hj hb hij
    rw [w3 i hi, turned_apply, show Real.pi / 2 / 2 = Real.pi / 4 by ring, Real.cos_pi_div_four, Real.sin_pi_div_four]
    have z : ∀ l < 2 ^ size s, l.testBit nn.output ≠ r → view s1 l = 0 := c2
    have zj : view s1 (flipBit nn.output j) = 0 := z _ (flipBit_lt hf.out hj) (by rw [testBit_flip_same, hb]; cases r <;> simp)
    have vj : view s1 j = k * view s j := c1 j hj hb
    rcases hij with rfl | rfl
    · cases r <;> simp [hb, zj, vj, flipBit_flipBit]
    · rw [testBit_flip_same]
      cases r <;> simp [hb, zj, vj, flipBit_flipBit]
  have cover : ∀ i < 2 ^ size s, ∃ j, j < 2 ^ size s ∧ j.testBit nn.output = r ∧ (i = j ∨ i = flipBit nn.output j) := by
    intro i hi
    by_cases hb : i.testBit nn.output = r
    · exact ⟨i, hi, hb, .inl rfl⟩
    · refine ⟨flipBit nn.output i, flipBit_lt hf.out hi, ?_, .inr (flipBit_flipBit _ _).symm⟩
      rw [testBit_flip_same]; revert hb; cases i.testBit nn.output <;> cases r <;> simp
  refine ⟨s3, ?_, d2, d3.trans b3, ?_, r, w⁻¹ * ((Real.sqrt 2 / 2 : ℝ) * k), ?_, ?_⟩
  · unfold reset; rw [b1]; exact d1
  · intro i hi
    obtain ⟨j, hj, hb, hij⟩ := cover i hi
    apply mul_left_cancel₀ hw
    rw [val i hi j hj hb hij, val _ (flipBit_lt hf.out hi) j hj hb]
    rcases hij with rfl | rfl
    · exact .inr rfl
    · exact .inl (flipBit_flipBit _ _)
  · have : (Real.sqrt 2 / 2 : ℝ) ≠ 0 := by positivity
    exact mul_ne_zero (inv_ne_zero hw) (mul_ne_zero (by exact_mod_cast this) hk)
  · intro i hi hb
    apply mul_left_cancel₀ hw
    rw [val i hi i hi hb (.inl rfl)]
    field_simp

/-- The untrained neuron gives both categories the chance one half, whatever the input and (but for sharpness zero) whatever the activation
function. -/
theorem untrained {nn : Neuron} {n : ℕ} (hf : Fits nn n) (h0 : ∀ v, nn.angles v = 0) (ha : nn.fn = .logistic → nn.alpha ≠ 0) {ψ : ℕ → ℂ}
    (h1 : totalProb n ψ = 1) (h : ∀ i < 2 ^ n, ψ (flipBit nn.output i) = ψ i) (expected : Bool) : chance erf nn expected n ψ = 1 / 2 := by
  have ht : turn erf nn 0 = 0 := by
    unfold turn
    cases hfn : nn.fn <;> simp [applyRelu, applyGelu, applyAlpha, applyLeakyRelu, not_lt.2 Real.pi_pos.le, not_le.2 Real.pi_pos]
    exact Real.zero_rpow (ha hfn)
  have : chance erf nn true n ψ = 1 / 2 := by
    rw [chance_of_reset hf h]
    simp only [h0, ht, Real.sin_zero, add_zero]
    unfold mean
    rw [← Finset.mul_sum]
    unfold totalProb at h1
    rw [h1, mul_one]
  cases expected
  · have e : chance erf nn false n ψ = 1 - chance erf nn true n ψ := rfl
    rw [e, this]; norm_num
  · exact this

/-! ## Learning -/

/-- What was tried for one angle, and kept if it is better. -/
def Tried (nn nn' : Neuron) (eta : ℝ) (v : ℕ) : Prop :=
  ∃ a : ℝ, nn' = nn.put v a ∧ (a = nn.angles v ∨ a = nn.angles v + eta * Real.pi ∨ a = nn.angles v - eta * Real.pi ∨
    a = clampAngle (nn.angles v + eta * Real.pi) ∨ a = clampAngle (nn.angles v - eta * Real.pi))

/-- `clampAngle` does not change what the neuron does at the angles that are tried. -/
def Harmless (erf : ℝ → ℝ) (nn : Neuron) (eta : ℝ) (v : ℕ) : Prop :=
  ∀ a, (a = nn.angles v + eta * Real.pi ∨ a = nn.angles v - eta * Real.pi) →
    ∃ k : ℤ, turn erf nn (clampAngle a) = turn erf nn a + k * (4 * Real.pi)

theorem harmless_sigmoid {nn : Neuron} (h : nn.fn = .sigmoid) (eta : ℝ) (v : ℕ) : Harmless erf nn eta v := by
  intro a _
  obtain ⟨k, hk⟩ := clampAngle_eq a
  refine ⟨k, ?_⟩
  have : ∀ x, turn erf nn x = x := fun x => by unfold turn; rw [h]
  rw [this, this, hk]

theorem harmless_small {nn : Neuron} {eta : ℝ} {v : ℕ} (h : |nn.angles v| + |eta| * Real.pi < 2 * Real.pi) : Harmless erf nn eta v := by
  intro a ha
  refine ⟨0, ?_⟩
  have h1 := Real.pi_pos
  have h2 : |eta * Real.pi| = |eta| * Real.pi := by rw [abs_mul, abs_of_pos h1]
  rw [clampAngle_small]
  · simp
  · rcases ha with rfl | rfl
    · exact (abs_add_le _ _).trans_lt (by rw [h2]; exact h)
    · exact (abs_sub _ _).trans_lt (by rw [h2]; exact h)

theorem chance_put_clamp {nn : Neuron} {v : ℕ} {a : ℝ} (h : ∃ k : ℤ, turn erf nn (clampAngle a) = turn erf nn a + k * (4 * Real.pi))
    (expected : Bool) (n : ℕ) (ψ : ℕ → ℂ) : chance erf (nn.put v (clampAngle a)) expected n ψ = chance erf (nn.put v a) expected n ψ := by
  refine chance_congr (nn := nn.put v a) (nn' := nn.put v (clampAngle a)) rfl rfl (fun j _ => ?_) expected n ψ
  rw [turn_put, turn_put, put_angles, put_angles]
  split_ifs
  · exact h
  · exact ⟨0, by simp⟩

/-- The decision of `LearnInternal`, in terms of the chances at the two angles tried. -/
theorem learnInternal_eval (H : Sound R size view Good) {s : S} (hs : Good s) {nn : Neuron} (hf : Fits nn (size s)) (expected : Bool)
    (eta : ℝ) (v : ℕ) (p : ℝ) {P M : ℝ} (hP : P = chance erf (nn.put v (nn.angles v + eta * Real.pi)) expected (size s) (view s))
    (hM : M = chance erf (nn.put v (nn.angles v - eta * Real.pi)) expected (size s) (view s)) :
    ∃ s1 s2, learnInternal R erf nn expected eta v p s =
      (if 1 - P ≤ nn.tol then some (none, nn.put v (clampAngle (nn.angles v + eta * Real.pi)), s1)
      else if 1 - M ≤ nn.tol then some (none, nn.put v (clampAngle (nn.angles v - eta * Real.pi)), s2)
      else if p ≥ P ∧ p ≥ M then some (some p, nn, s2)
      else if P > M then some (some P, nn.put v (nn.angles v + eta * Real.pi), s2)
      else some (some M, nn.put v (nn.angles v - eta * Real.pi), s2)) ∧
      (Good s1 ∧ size s1 = size s ∧ UpTo (size s) true (view s1) (view s)) ∧
      Good s2 ∧ size s2 = size s ∧ UpTo (size s) true (view s2) (view s) := by
  obtain ⟨s1, h1, h2, h3, h4⟩ := cycle_spec (erf := erf) H hs (hf.put v (nn.angles v + eta * Real.pi)) expected
  obtain ⟨s2, k1, k2, k3, k4⟩ := cycle_spec (erf := erf) H h2 (nn := nn.put v (nn.angles v - eta * Real.pi)) (h3 ▸ hf.put v _) expected
  rw [h3] at k1 k3 k4
  rw [chance_upTo (hf.put v _) expected h4, ← hM] at k1
  rw [← hP] at h1
  refine ⟨s1, s2, ?_, ⟨h2, h3, h4⟩, k2, k3, k4.trans h4⟩
  unfold learnInternal
  simp only [h1, Option.bind_some, k1]
  have pp : (nn.put v (nn.angles v + eta * Real.pi)).angles v = nn.angles v + eta * Real.pi := by rw [put_angles, if_pos rfl]
  have pm : (nn.put v (nn.angles v - eta * Real.pi)).angles v = nn.angles v - eta * Real.pi := by rw [put_angles, if_pos rfl]
  rw [pp, pm, put_put, put_put, put_same]

/-- One angle is trained: the register stays, the chance does not fall, and it is the one returned. -/
theorem learnInternal_spec (H : Sound R size view Good) {s : S} (hs : Good s) {nn : Neuron} (hf : Fits nn (size s)) (expected : Bool)
    (eta : ℝ) {v : ℕ} (hv : Harmless erf nn eta v) {p : ℝ} (hp : p = chance erf nn expected (size s) (view s)) (ht : p < 1 - nn.tol) :
    ∃ r nn' s', learnInternal R erf nn expected eta v p s = some (r, nn', s') ∧ Good s' ∧ size s' = size s ∧
      UpTo (size s) true (view s') (view s) ∧ Tried nn nn' eta v ∧ p ≤ chance erf nn' expected (size s) (view s) ∧
      (r = none → 1 - nn.tol ≤ chance erf nn' expected (size s) (view s)) ∧
      ∀ p', r = some p' → p' = chance erf nn' expected (size s) (view s) ∧ p' < 1 - nn.tol := by
  obtain ⟨s1, s2, h1, ⟨h2, h3, h4⟩, k2, k3, k5⟩ := learnInternal_eval (erf := erf) H hs hf expected eta v p rfl rfl
  rw [h1]
  set P := chance erf (nn.put v (nn.angles v + eta * Real.pi)) expected (size s) (view s) with hP
  set M := chance erf (nn.put v (nn.angles v - eta * Real.pi)) expected (size s) (view s) with hM
  by_cases c1 : 1 - P ≤ nn.tol
  · rw [if_pos c1]
    have e := chance_put_clamp (v := v) (hv _ (.inl rfl)) expected (size s) (view s)
    rw [← hP] at e
    refine ⟨_, _, _, rfl, h2, h3, h4, ⟨clampAngle (nn.angles v + eta * Real.pi), rfl, by simp⟩, ?_, ?_, by simp⟩
    · rw [e]; linarith
    · intro _; rw [e]; linarith
  rw [if_neg c1]
  by_cases c2 : 1 - M ≤ nn.tol
  · rw [if_pos c2]
    have e := chance_put_clamp (v := v) (hv _ (.inr rfl)) expected (size s) (view s)
    rw [← hM] at e
    refine ⟨_, _, _, rfl, k2, k3, k5, ⟨clampAngle (nn.angles v - eta * Real.pi), rfl, by simp⟩, ?_, ?_, by simp⟩
    · rw [e]; linarith
    · intro _; rw [e]; linarith
  rw [if_neg c2]
  push Not at c1 c2
  by_cases c3 : p ≥ P ∧ p ≥ M
  · rw [if_pos c3]
    refine ⟨_, _, _, rfl, k2, k3, k5, ⟨nn.angles v, (put_same nn v).symm, .inl rfl⟩, hp.le, by simp, ?_⟩
    rintro p' ⟨⟩; exact ⟨hp, ht⟩
  rw [if_neg c3]
  by_cases c4 : P > M
  · rw [if_pos c4]
    refine ⟨_, _, _, rfl, k2, k3, k5, ⟨_, rfl, .inr (.inl rfl)⟩, ?_, by simp, ?_⟩
    · rw [← hP]; by_contra hlt; push Not at hlt; exact c3 ⟨hlt.le, by linarith⟩
    · rintro p' ⟨⟩; exact ⟨rfl, by linarith⟩
  · rw [if_neg c4]
    push Not at c4
    refine ⟨_, _, _, rfl, k2, k3, k5, ⟨_, rfl, .inr (.inr (.inl rfl))⟩, ?_, by simp, ?_⟩
    · rw [← hM]; by_contra hlt; push Not at hlt; exact c3 ⟨by linarith, hlt.le⟩
    · rintro p' ⟨⟩; exact ⟨rfl, by linarith⟩

/-- The neuron `nn'` is `nn` with some of the angles at `vs` replaced by angles that were tried. -/
def Trained (nn nn' : Neuron) (eta : ℝ) (vs : List ℕ) : Prop :=
  ∃ f : ℕ → ℝ, nn' = { nn with angles := f } ∧ ∀ v, f v = nn.angles v ∨ v ∈ vs ∧
    (f v = nn.angles v + eta * Real.pi ∨ f v = nn.angles v - eta * Real.pi ∨
      f v = clampAngle (nn.angles v + eta * Real.pi) ∨ f v = clampAngle (nn.angles v - eta * Real.pi))

theorem trained_refl (nn : Neuron) (eta : ℝ) (vs : List ℕ) : Trained nn nn eta vs := ⟨nn.angles, rfl, fun _ => .inl rfl⟩

theorem trained_cons {nn nn1 nn2 : Neuron} {eta : ℝ} {v : ℕ} {vs : List ℕ} (hv : v ∉ vs) (h1 : Tried nn nn1 eta v)
    (h2 : Trained nn1 nn2 eta vs) : Trained nn nn2 eta (v :: vs) := by
  obtain ⟨a, rfl, ha⟩ := h1
  obtain ⟨f, rfl, hf⟩ := h2
  refine ⟨f, rfl, fun k => ?_⟩
  have := hf k
  rw [put_angles] at this
  by_cases hk : k = v
  · subst hk
    rw [if_pos rfl] at this
    rcases this with h | ⟨h, -⟩
    · rw [h]
      rcases ha with h | h | h | h | h
      · exact .inl h
      all_goals exact .inr ⟨by simp, by tauto⟩
    · exact absurd h hv
  · rw [if_neg hk] at this
    rcases this with h | ⟨h, h'⟩
    · exact .inl h
    · exact .inr ⟨by simp [h], h'⟩

theorem learnLoop_spec (H : Sound R size view Good) (expected : Bool) (eta : ℝ) : ∀ (vs : List ℕ), vs.Nodup → ∀ {s : S}, Good s →
    ∀ {nn : Neuron}, Fits nn (size s) → (∀ v ∈ vs, Harmless erf nn eta v) → ∀ {p : ℝ}, p = chance erf nn expected (size s) (view s) →
    p < 1 - nn.tol → ∃ nn' s', learnLoop R erf expected eta vs p nn s = some (nn', s') ∧ Good s' ∧ size s' = size s ∧
      UpTo (size s) true (view s') (view s) ∧ Trained nn nn' eta vs ∧ p ≤ chance erf nn' expected (size s) (view s)
  | [], _, s, hs, nn, _, _, p, hp, _ => ⟨nn, s, rfl, hs, rfl, .of_eq fun _ _ => rfl, trained_refl _ _ _, hp.le⟩
  | v :: vs, hnd, s, hs, nn, hf, hv, p, hp, ht => by
    obtain ⟨r, nn1, s1, h1, h2, h3, h4, h5, h6, -, h7⟩ := learnInternal_spec (erf := erf) H hs hf expected eta (hv v (by simp)) hp ht
    obtain ⟨hv1, hnd1⟩ := List.nodup_cons.1 hnd
    rw [learnLoop, h1]
    simp only [Option.bind_some]
    cases r with
    | none => exact ⟨nn1, s1, rfl, h2, h3, h4, trained_cons hv1 h5 (trained_refl _ _ _), h6⟩
    | some p' =>
      obtain ⟨e1, e2⟩ := h7 p' rfl
      simp only
      split_ifs with hneg
      · exact ⟨nn1, s1, rfl, h2, h3, h4, trained_cons hv1 h5 (trained_refl _ _ _), h6⟩
      · obtain ⟨a, rfl, ha⟩ := h5
        obtain ⟨nn2, s2, k1, k2, k3, k4, k5, k6⟩ := learnLoop_spec H expected eta vs hnd1 h2 (nn := nn.put v a) (h3 ▸ hf.put v a) (fun w hw => by
          have hwv : w ≠ v := fun e => hv1 (e ▸ hw)
          have := hv w (by simp [hw])
          unfold Harmless at this ⊢
          rw [put_angles, if_neg hwv, turn_put]
          exact this) (p := p') (by rw [h3, chance_upTo (hf.put v a) expected h4, e1]) e2
        rw [h3] at k3 k4 k6
        obtain ⟨f, rfl, hff⟩ := k5
        refine ⟨_, s2, k1, k2, k3, k4.trans h4, trained_cons hv1 ⟨a, rfl, ha⟩ ⟨f, rfl, hff⟩, ?_⟩
        rw [chance_upTo (nn := { nn.put v a with angles := f }) ⟨hf.nodup, hf.bound, hf.width⟩ expected h4] at k6
        rw [e1] at k6
        exact h6.trans k6

/-- **C67.** `Learn` leaves the register as it is and does not lower the chance of the expected category, if the activation function is the
default one, or all angles tried are less than a full turn. -/
theorem learn_partial (H : Sound R size view Good) {s : S} (hs : Good s) {nn : Neuron} (hf : Fits nn (size s)) (expected : Bool) (eta : ℝ)
    (hv : nn.fn = .sigmoid ∨ ∀ v < 2 ^ nn.inputs.length, |nn.angles v| + |eta| * Real.pi < 2 * Real.pi) :
    ∃ nn' s', learn R erf nn eta expected s = some (nn', s') ∧ Good s' ∧ size s' = size s ∧ UpTo (size s) true (view s') (view s) ∧
      Trained nn nn' eta (List.range (2 ^ nn.inputs.length)) ∧
      chance erf nn expected (size s) (view s) ≤ chance erf nn' expected (size s) (view s) := by
  obtain ⟨p, s1, s2, h1, h2, h3, h4, h5⟩ := unpredict_undoes (erf := erf) H hs hf expected
  obtain ⟨t, k1, -⟩ := predict_spec (erf := erf) H hs hf expected
  obtain ⟨rfl, rfl⟩ : p = _ ∧ s1 = t := by simpa using h1.symm.trans k1
  unfold learn
  simp only [h1, Option.bind_some, h2]
  split_ifs with c
  · exact ⟨nn, s2, rfl, h3, h4, h5, trained_refl _ _ _, le_rfl⟩
  · obtain ⟨nn', s', a1, a2, a3, a4, a5, a6⟩ := learnLoop_spec (erf := erf) H expected eta (List.range (2 ^ nn.inputs.length)) List.nodup_range h3
      (h4 ▸ hf) (fun v hm => by
        rcases hv with hv | hv
        · exact harmless_sigmoid hv eta v
        · exact harmless_small (hv v (List.mem_range.1 hm)))
      (p := chance erf nn expected (size s) (view s)) (by rw [h4, chance_upTo hf expected h5]) (by linarith)
    rw [h4] at a3 a4 a6
    obtain ⟨f, rfl, hff⟩ := a5
    refine ⟨_, s', a1, a2, a3, a4.trans h5, ⟨f, rfl, hff⟩, ?_⟩
    rwa [chance_upTo (nn := { nn with angles := f }) ⟨hf.nodup, hf.bound, hf.width⟩ expected h5] at a6

/-! ## One training input -/

/-- If the inputs read `v` for certain, the chance is that of the angle at `v`. -/
theorem chance_definite {nn : Neuron} {n : ℕ} (hf : Fits nn n) {ψ : ℕ → ℂ} (h1 : totalProb n ψ = 1)
    (h : ∀ i < 2 ^ n, ψ (flipBit nn.output i) = ψ i) {v : ℕ} (hv : ∀ i < 2 ^ n, valueOf nn.inputs i ≠ v → ψ i = 0) :
    chance erf nn true n ψ = (1 + Real.sin (turn erf nn (nn.angles v))) / 2 := by
  rw [chance_of_reset hf h]
  unfold mean
  have : ∀ i ∈ Finset.range (2 ^ n), (1 + Real.sin (turn erf nn (nn.angles (valueOf nn.inputs i)))) / 2 * normSq (ψ i) =
      (1 + Real.sin (turn erf nn (nn.angles v))) / 2 * normSq (ψ i) := by
    intro i hi
    by_cases hw : valueOf nn.inputs i = v
    · rw [hw]
    · rw [hv i (Finset.mem_range.1 hi) hw]; simp
  rw [Finset.sum_congr rfl this, ← Finset.mul_sum]
  unfold totalProb at h1
  rw [h1, mul_one]

theorem chance_false (nn : Neuron) (n : ℕ) (ψ : ℕ → ℂ) : chance erf nn false n ψ = 1 - chance erf nn true n ψ := rfl

/-- The chance of the expected category, if the inputs read `v` for certain. -/
theorem chance_definite' {nn : Neuron} {n : ℕ} (hf : Fits nn n) {ψ : ℕ → ℂ} (h1 : totalProb n ψ = 1)
    (h : ∀ i < 2 ^ n, ψ (flipBit nn.output i) = ψ i) {v : ℕ} (hv : ∀ i < 2 ^ n, valueOf nn.inputs i ≠ v → ψ i = 0) (expected : Bool) :
    chance erf nn expected n ψ = (1 + (if expected then 1 else -1) * Real.sin (turn erf nn (nn.angles v))) / 2 := by
  cases expected
  · rw [chance_false, chance_definite hf h1 h hv]; simp; ring
  · rw [chance_definite hf h1 h hv]; simp

/-- A neuron with all angles zero, the activation function being the default one. -/
theorem learnLoop_half (H : Sound R size view Good) (expected : Bool) {v : ℕ} : ∀ (vs : List ℕ), v ∈ vs → ∀ {s : S}, Good s →
    ∀ {nn : Neuron}, Fits nn (size s) → nn.fn = .sigmoid → (∀ v, nn.angles v = 0) → 0 ≤ nn.tol → nn.tol < 1 / 2 →
    (∀ i < 2 ^ size s, view s (flipBit nn.output i) = view s i) → (∀ i < 2 ^ size s, valueOf nn.inputs i ≠ v → view s i = 0) →
    ∃ nn' s', learnLoop R erf expected (1 / 2) vs (1 / 2) nn s = some (nn', s') ∧ Good s' ∧ size s' = size s ∧
      UpTo (size s) true (view s') (view s) ∧ Fits nn' (size s) ∧ chance erf nn' expected (size s) (view s) = 1
  | [], hm, _, _, _, _, _, _, _, _, _, _ => by simp at hm
  | w :: vs, hm, s, hs, nn, hf, hfn, h0, ht0, ht, hsym, hdef => by
    have hc : ∀ (expected : Bool) (a : ℝ), chance erf (nn.put w a) expected (size s) (view s) =
        (1 + (if expected then 1 else -1) * Real.sin (if v = w then a else 0)) / 2 := by
      intro ex a
      rw [chance_definite' (hf.put w a) (H.unit hs) hsym hdef ex, put_angles, turn_put, h0]
      simp [turn, hfn]
    have hc0 : chance erf nn expected (size s) (view s) = 1 / 2 := by
      rw [chance_definite' hf (H.unit hs) hsym hdef expected, h0]
      simp [turn, hfn]
    obtain ⟨s1, s2, h1, ⟨h2, h3, h4⟩, k2, k3, k5⟩ := learnInternal_eval (erf := erf) H hs hf expected (1 / 2) w (1 / 2) (hc expected _).symm
      (hc expected _).symm
    rw [h0, show (0 : ℝ) + 1 / 2 * Real.pi = Real.pi / 2 by ring, show (0 : ℝ) - 1 / 2 * Real.pi = -(Real.pi / 2) by ring] at h1
    rw [learnLoop, h1]
    have hp := Real.pi_pos
    by_cases hw : v = w
    · have q1 : |Real.pi / 2| < 2 * Real.pi := by rw [abs_of_pos (by linarith)]; linarith
      have q2 : |-(Real.pi / 2)| < 2 * Real.pi := by rw [abs_neg]; exact q1
      simp only [if_pos hw, Real.sin_neg, Real.sin_pi_div_two, clampAngle_small q1, clampAngle_small q2]
      cases expected
      · refine ⟨nn.put w (-(Real.pi / 2)), s2, ?_, k2, k3, k5, hf.put _ _, ?_⟩
        · rw [if_neg (by norm_num; linarith), if_pos (by norm_num; linarith)]; rfl
        · rw [hc, if_pos hw, Real.sin_neg, Real.sin_pi_div_two]; norm_num
      · refine ⟨nn.put w (Real.pi / 2), s1, ?_, h2, h3, h4, hf.put _ _, ?_⟩
        · rw [if_pos (by norm_num; linarith)]; rfl
        · rw [hc, if_pos hw, Real.sin_pi_div_two]; norm_num
    · simp only [if_neg hw, Real.sin_zero, mul_zero, add_zero]
      rw [if_neg (by linarith), if_neg (by linarith), if_pos ⟨le_rfl, le_rfl⟩]
      simp only [Option.bind_some]
      rw [if_neg (by norm_num)]
      obtain ⟨u, w1, -, w3⟩ := id k5
      have hu : u ≠ 0 := by rintro rfl; simp at w1
      obtain ⟨nn', s', a1, a2, a3, a4, a5, a6⟩ := learnLoop_half H expected vs (by simpa [hw] using hm) k2 (k3 ▸ hf) hfn h0 ht0 ht
        (fun i hi => by
          rw [k3] at hi
          apply mul_left_cancel₀ hu
          rw [w3 i hi, w3 _ (flipBit_lt hf.out hi), hsym i hi])
        (fun i hi hv => by
          rw [k3] at hi
          have := w3 i hi
          rw [hdef i hi hv] at this
          exact (mul_eq_zero.1 this).resolve_left hu)
      rw [k3] at a3 a4 a5 a6
      exact ⟨nn', s', a1, a2, a3, a4.trans k5, a5, by rw [← chance_upTo a5 expected k5]; exact a6⟩

/-- The claim of the documentation: with a learning rate of one half, an untrained neuron learns one training input at once. -/
theorem learn_half (H : Sound R size view Good) {s : S} (hs : Good s) {nn : Neuron} (hf : Fits nn (size s)) (hfn : nn.fn = .sigmoid)
    (h0 : ∀ v, nn.angles v = 0) (ht0 : 0 ≤ nn.tol) (ht : nn.tol < 1 / 2) (expected : Bool)
    (hsym : ∀ i < 2 ^ size s, view s (flipBit nn.output i) = view s i) {v : ℕ}
    (hdef : ∀ i < 2 ^ size s, valueOf nn.inputs i ≠ v → view s i = 0) :
    chance erf nn expected (size s) (view s) = 1 / 2 ∧
    ∃ nn' s', learn R erf nn (1 / 2) expected s = some (nn', s') ∧ Good s' ∧ size s' = size s ∧ UpTo (size s) true (view s') (view s) ∧
      chance erf nn' expected (size s) (view s) = 1 := by
  have hc : chance erf nn expected (size s) (view s) = 1 / 2 := by
    rw [chance_definite' hf (H.unit hs) hsym hdef expected, h0]
    simp [turn, hfn]
  refine ⟨hc, ?_⟩
  obtain ⟨p, s1, s2, h1, h2, h3, h4, h5⟩ := unpredict_undoes (erf := erf) H hs hf expected
  obtain ⟨t, k1, -⟩ := predict_spec (erf := erf) H hs hf expected
  obtain ⟨rfl, rfl⟩ : p = _ ∧ s1 = t := by simpa using h1.symm.trans k1
  unfold learn
  simp only [h1, Option.bind_some, h2]
  rw [if_neg (by rw [hc]; linarith), hc]
  obtain ⟨u, w1, -, w3⟩ := id h5
  have hu : u ≠ 0 := by rintro rfl; simp at w1
  have hv : v < 2 ^ nn.inputs.length := by
    by_contra hge
    have : totalProb (size s) (view s) = 0 := Finset.sum_eq_zero fun i hi => by
      rw [hdef i (Finset.mem_range.1 hi) (fun e => hge (e ▸ valueOf_lt _ _))]; simp
    rw [H.unit hs] at this; norm_num at this
  obtain ⟨nn', s', a1, a2, a3, a4, a5, a6⟩ := learnLoop_half (erf := erf) H expected (v := v) (List.range (2 ^ nn.inputs.length))
    (List.mem_range.2 hv) h3 (h4 ▸ hf) hfn h0 ht0 ht
    (fun i hi => by
      rw [h4] at hi
      apply mul_left_cancel₀ hu
      rw [w3 i hi, w3 _ (flipBit_lt hf.out hi), hsym i hi])
    (fun i hi hv => by
      rw [h4] at hi
      have := w3 i hi
      rw [hdef i hi hv] at this
      exact (mul_eq_zero.1 this).resolve_left hu)
  rw [h4] at a3 a4 a5 a6
  exact ⟨nn', s', a1, a2, a3, a4.trans h5, by rw [← chance_upTo a5 expected h5]; exact a6⟩

/-! ## Where learning makes it worse -/

theorem clampAngle_over {a : ℝ} (h : 2 * Real.pi < a) (h' : a < 4 * Real.pi) : clampAngle a = a - 4 * Real.pi := by
  have hp := Real.pi_pos
  unfold clampAngle
  simp only [fmod_small (by linarith : 0 < 4 * Real.pi) (show |a| < 4 * Real.pi by rw [abs_of_pos (by linarith)]; exact h')]
  rw [if_neg (by linarith), if_pos h]

/-- With the rectified activation function, an angle that has just been found to be right is replaced by one that stands for zero: `Learn`
turns a neuron that gives the expected category the chance `(2 + √2) / 4` into one that gives it one half. -/
theorem learn_wrong (H : Sound R size view Good) {s : S} (hs : Good s) {q : ℕ} (hq : q < size s)
    (hsym : ∀ i < 2 ^ size s, view s (flipBit q i) = view s i) (alpha : ℝ) {nn : Neuron}
    (hnn : nn = ⟨[], q, .relu, alpha, 0, fun _ => 2 * Real.pi + Real.pi / 4⟩) :
    chance erf nn true (size s) (view s) = (2 + Real.sqrt 2) / 4 ∧
    ∃ nn' s', learn R erf nn (1 / 4) true s = some (nn', s') ∧ nn'.angles 0 = -(3 / 2 * Real.pi) ∧
      chance erf nn' true (size s) (view s) = 1 / 2 := by
  have hp := Real.pi_pos
  have hf : Fits nn (size s) := by subst hnn; exact ⟨by simp, by simpa using hq, by simp⟩
  have hdef : ∀ i < 2 ^ size s, valueOf nn.inputs i ≠ 0 → view s i = 0 := fun i _ h => absurd (by subst hnn; rfl) h
  have hout : nn.output = q := by subst hnn; rfl
  have hsym' : ∀ i < 2 ^ size s, view s (flipBit nn.output i) = view s i := by rw [hout]; exact hsym
  have hrelu : ∀ a, turn erf nn a = max 0 a := fun a => by subst hnn; rfl
  have hang : ∀ k, nn.angles k = 2 * Real.pi + Real.pi / 4 := fun k => by subst hnn; rfl
  have htol : nn.tol = 0 := by subst hnn; rfl
  have hlen : nn.inputs = [] := by subst hnn; rfl
  have hc : ∀ a, chance erf (nn.put 0 a) true (size s) (view s) = (1 + Real.sin (max 0 a)) / 2 := fun a => by
    rw [chance_definite (hf.put 0 a) (H.unit hs) hsym' hdef, put_angles, if_pos rfl, turn_put, hrelu]
  have hc0 : chance erf nn true (size s) (view s) = (2 + Real.sqrt 2) / 4 := by
    rw [chance_definite hf (H.unit hs) hsym' hdef, hrelu, hang, max_eq_right (by linarith),
      show 2 * Real.pi + Real.pi / 4 = Real.pi / 4 + 2 * Real.pi by ring, Real.sin_add_two_pi, Real.sin_pi_div_four]
    ring
  refine ⟨hc0, ?_⟩
  have hlt : Real.sqrt 2 < 2 := by
    rw [show (2 : ℝ) = Real.sqrt 4 by rw [show (4 : ℝ) = 2 ^ 2 by norm_num, Real.sqrt_sq (by norm_num)]]
    exact Real.sqrt_lt_sqrt (by norm_num) (by rw [show Real.sqrt 4 = 2 by rw [show (4 : ℝ) = 2 ^ 2 by norm_num, Real.sqrt_sq (by norm_num)]]; norm_num)
  obtain ⟨p, s1, s2, h1, h2, h3, h4, h5⟩ := unpredict_undoes (erf := erf) H hs hf true
  obtain ⟨t, k1, -⟩ := predict_spec (erf := erf) H hs hf true
  obtain ⟨rfl, rfl⟩ : p = _ ∧ s1 = t := by simpa using h1.symm.trans k1
  unfold learn
  simp only [h1, Option.bind_some, h2]
  rw [hc0, if_neg (by rw [htol]; linarith), hlen, List.length_nil, pow_zero, show List.range 1 = [0] from rfl, learnLoop]
  obtain ⟨t1, t2, e1, -⟩ := learnInternal_eval (erf := erf) H h3 (h4 ▸ hf) true (1 / 4) 0 ((2 + Real.sqrt 2) / 4) rfl rfl
  rw [h4, chance_upTo (hf.put 0 _) true h5, hc, hang, max_eq_right (by linarith),
    show 2 * Real.pi + Real.pi / 4 + 1 / 4 * Real.pi = Real.pi / 2 + 2 * Real.pi by ring, Real.sin_add_two_pi, Real.sin_pi_div_two,
    if_pos (by rw [htol]; norm_num), clampAngle_over (by linarith) (by linarith)] at e1
  rw [e1]
  refine ⟨_, _, rfl, ?_, ?_⟩
  · rw [put_angles, if_pos rfl]; ring
  · rw [hc, max_eq_left (by linarith), Real.sin_zero]; norm_num

/-! ## `LearnPermutation` -/

theorem collapsed_definite {n : ℕ} {p : ℕ → Prop} {ψ φ : ℕ → ℂ} (h1 : totalProb n ψ = 1) (h : Collapsed n p ψ φ)
    (hp : ∀ i < 2 ^ n, ¬ p i → ψ i = 0) : UpTo n true φ ψ := by
  obtain ⟨k, c1, c2, c3⟩ := h
  have hk : ∀ i < 2 ^ n, φ i = k * ψ i := fun i hi => by
    by_cases h : p i
    · exact c1 i hi h
    · rw [c2 i hi h, hp i hi h, mul_zero]
  have hn : normSq k = 1 := by
    have : totalProb n φ = normSq k * totalProb n ψ := by
      unfold totalProb
      rw [Finset.mul_sum]
      exact Finset.sum_congr rfl fun i hi => by rw [hk i (Finset.mem_range.1 hi), normSq_mul]
    rw [c3, h1, mul_one] at this; exact this.symm
  apply upTo_symm
  refine ⟨k, ?_, fun h => by simp at h, fun i hi => (hk i hi).symm⟩
  rw [normSq_eq_norm_sq] at hn
  exact (pow_eq_one_iff_of_nonneg (norm_nonneg k) two_ne_zero).1 hn

theorem measure_definite (H : Sound R size view Good) : ∀ (qs : List ℕ) {s : S}, Good s → (∀ q ∈ qs, q < size s) → ∀ {v : ℕ},
    v < 2 ^ qs.length → (∀ i < 2 ^ size s, valueOf qs i ≠ v → view s i = 0) →
    ∃ s', measure R qs s = some (v, s') ∧ Good s' ∧ size s' = size s ∧ UpTo (size s) true (view s') (view s)
  | [], s, hs, _, v, hv, _ => ⟨s, by simp at hv; subst hv; rfl, hs, rfl, .of_eq fun _ _ => rfl⟩
  | q :: qs, s, hs, hq, v, hv, hdef => by
    obtain ⟨r, s1, h1, h2, h3, h4⟩ := H.m hs (hq q (by simp))
    have hbit : ∀ i, valueOf (q :: qs) i = v ↔ (i.testBit q = v.testBit 0) ∧ valueOf qs i = v / 2 := by
      intro i
      rw [valueOf, Nat.testBit_zero]
      cases i.testBit q <;> simp <;> omega
    have hr : r = v.testBit 0 := by
      by_contra hne
      obtain ⟨k, c1, c2, c3⟩ := h4
      have : totalProb (size s) (view s1) = 0 := Finset.sum_eq_zero fun i hi => by
        have hi := Finset.mem_range.1 hi
        by_cases hb : i.testBit q = r
        · rw [c1 i hi hb, hdef i hi (fun e => hne (hb ▸ ((hbit i).1 e).1))]; simp
        · rw [c2 i hi hb]; simp
      rw [this] at c3; norm_num at c3
    have h5 := collapsed_definite (H.unit hs) h4 (fun i hi hb => hdef i hi (fun e => hb (((hbit i).1 e).1.trans hr.symm)))
    obtain ⟨u, w1, -, w3⟩ := id h5
    have hu : u ≠ 0 := by rintro rfl; simp at w1
    obtain ⟨s2, k1, k2, k3, k4⟩ := measure_definite H qs h2 (fun x hx => h3 ▸ hq x (by simp [hx])) (v := v / 2)
      (by rw [List.length_cons, pow_succ] at hv; omega) (fun i hi hne => by
        rw [h3] at hi
        have := w3 i hi
        rw [hdef i hi (fun e => hne ((hbit i).1 e).2)] at this
        exact (mul_eq_zero.1 this).resolve_left hu)
    rw [h3] at k3 k4
    refine ⟨s2, ?_, k2, k3, k4.trans h5⟩
    rw [measure, h1]
    simp only [Option.bind_some]
    rw [k1, hr]
    simp only [Option.map_some, Option.some.injEq, Prod.mk.injEq, and_true]
    rw [Nat.testBit_zero]
    rcases Nat.mod_two_eq_zero_or_one v with h | h <;> simp [h] <;> omega

/-- `LearnPermutation` does not lower the chance of the expected category, if the inputs read one value for certain. -/
theorem learnPermutation_partial (H : Sound R size view Good) {s : S} (hs : Good s) {nn : Neuron} (hf : Fits nn (size s)) (expected : Bool)
    (eta : ℝ) (hfn : nn.fn = .sigmoid ∨ ∀ v < 2 ^ nn.inputs.length, |nn.angles v| + |eta| * Real.pi < 2 * Real.pi) {v : ℕ}
    (hdef : ∀ i < 2 ^ size s, valueOf nn.inputs i ≠ v → view s i = 0) :
    ∃ nn' s', learnPermutation R erf nn eta expected s = some (nn', s') ∧ Good s' ∧ size s' = size s ∧
      UpTo (size s) true (view s') (view s) ∧ Tried nn nn' eta v ∧
      chance erf nn expected (size s) (view s) ≤ chance erf nn' expected (size s) (view s) := by
  have hv : v < 2 ^ nn.inputs.length := by
    by_contra hge
    have : totalProb (size s) (view s) = 0 := Finset.sum_eq_zero fun i hi => by
      rw [hdef i (Finset.mem_range.1 hi) (fun e => hge (e ▸ valueOf_lt _ _))]; simp
    rw [H.unit hs] at this; norm_num at this
  obtain ⟨p, s1, s2, h1, h2, h3, h4, h5⟩ := unpredict_undoes (erf := erf) H hs hf expected
  obtain ⟨t, k1, -⟩ := predict_spec (erf := erf) H hs hf expected
  obtain ⟨rfl, rfl⟩ : p = _ ∧ s1 = t := by simpa using h1.symm.trans k1
  unfold learnPermutation
  simp only [h1, Option.bind_some, h2]
  split_ifs with c
  · exact ⟨nn, s2, rfl, h3, h4, h5, ⟨nn.angles v, (put_same nn v).symm, .inl rfl⟩, le_rfl⟩
  obtain ⟨u, w1, -, w3⟩ := id h5
  have hu : u ≠ 0 := by rintro rfl; simp at w1
  obtain ⟨s3, m1, m2, m3, m4⟩ := measure_definite H nn.inputs h3 (fun q hq => h4 ▸ hf.bound q (by simp [hq])) hv (fun i hi hne => by
    rw [h4] at hi
    have := w3 i hi
    rw [hdef i hi hne] at this
    exact (mul_eq_zero.1 this).resolve_left hu)
  rw [h4] at m3 m4
  have m5 := m4.trans h5
  obtain ⟨r, nn', s', a1, a2, a3, a4, a5, a6, -⟩ := learnInternal_spec (erf := erf) H m2 (m3 ▸ hf) expected eta (v := v)
    (by
      rcases hfn with h | h
      · exact harmless_sigmoid h eta v
      · exact harmless_small (h v hv))
    (p := chance erf nn expected (size s) (view s)) (by rw [m3, chance_upTo hf expected m5]) (by linarith)
  rw [m1]
  simp only [Option.bind_some]
  rw [a1]
  rw [m3] at a3 a4 a6
  obtain ⟨a, rfl, ha⟩ := a5
  exact ⟨_, s', rfl, a2, a3, a4.trans m5, ⟨a, rfl, ha⟩, by rwa [chance_upTo (hf.put v a) expected m5] at a6⟩

end

/-! ## `operator=` and the copy constructor -/

/-- A neuron as the constructors make it: the array is as long as the inputs need. -/
def Raw.Ok (r : Raw) : Prop := r.inputPower = 2 ^ r.inputs.length ∧ r.angles.length = r.inputPower

theorem make_ok (inputs : List ℕ) : (make inputs).Ok := ⟨rfl, by simp [make]⟩

/-- The copy constructor duplicates. -/
theorem copy_spec {r : Raw} (h : r.Ok) : copy r = some r := by
  obtain ⟨h1, h2⟩ := h
  cases r with
  | mk p i a =>
    simp only at h1 h2
    subst h1
    unfold copy copyInto make
    simp [h2]

/-- `operator=` duplicates exactly when both neurons have equally many inputs. -/
theorem assign_partial {dst src : Raw} (hd : dst.Ok) (hs : src.Ok) :
    (assign dst src = some src ↔ dst.inputs.length = src.inputs.length) ∧
    (assign dst src = none ↔ dst.inputs.length < src.inputs.length) ∧
    (src.inputs.length < dst.inputs.length → ∃ r, assign dst src = some r ∧ ¬ r.Ok) := by
  obtain ⟨d1, d2⟩ := hd
  obtain ⟨s1, s2⟩ := hs
  have hle : ∀ a b : ℕ, 2 ^ a ≤ 2 ^ b ↔ a ≤ b := fun a b => Nat.pow_le_pow_iff_right (by norm_num)
  have hc : (src.inputPower ≤ src.angles.length ∧ src.inputPower ≤ dst.angles.length) ↔ src.inputs.length ≤ dst.inputs.length := by
    rw [s2, d2, d1, s1]; simpa using hle src.inputs.length dst.inputs.length
  unfold assign copyInto
  by_cases h : src.inputs.length ≤ dst.inputs.length
  · rw [if_pos (hc.2 h)]
    refine ⟨⟨fun e => ?_, fun e => ?_⟩, by simpa using h, fun hlt => ⟨_, rfl, ?_⟩⟩
    · have : dst.inputPower = src.inputPower := by
        simp only [Option.map_some, Option.some.injEq] at e
        rw [← e]
      rw [d1, s1] at this
      exact Nat.pow_right_injective le_rfl this
    · have hp : dst.inputPower = src.inputPower := by rw [d1, s1, e]
      have ht : src.angles.take src.inputPower = src.angles := List.take_of_length_le s2.le
      have hdr : dst.angles.drop src.inputPower = [] := List.drop_of_length_le (by rw [d2, hp])
      rw [ht, hdr, List.append_nil]
      simp only [Option.map_some, hp]
    · rintro ⟨h1, -⟩
      simp only at h1
      rw [d1] at h1
      exact absurd (Nat.pow_right_injective le_rfl h1) (by omega)
  · rw [if_neg (fun e => h (hc.1 e))]
    refine ⟨⟨fun e => by simp at e, fun e => absurd e.ge h⟩, by simpa using h, fun hlt => absurd hlt.le h⟩

/-! ## The CPU engine -/

/-- Unitary matrices preserve the total probability, whatever the simulator type. -/
theorem lawful_unit {S : Type} {B : Backend S} {Adm : M2 → Prop} {size : S → ℕ} {view : S → ℕ → ℂ} {Good : S → Prop}
    (L : Lawful B Adm size view Good) :
    Lawful B M2.IsUnitary size view (fun s => Good s ∧ totalProb (size s) (view s) = 1) := by
  have key : ∀ {n : ℕ} {r : Bool} {p : ℕ → Prop} [DecidablePred p] {t : ℕ} {m : M2} {φ ψ : ℕ → ℂ}, t < n → Ignores p t → m.IsUnitary →
      totalProb n ψ = 1 → UpTo n r φ (gate p t m.a m.b m.c m.d ψ) → totalProb n φ = 1 := by
    intro n r p _ t m φ ψ ht hp hm h1 hu
    rw [upTo_total (upTo_true hu)]
    have := totalProb_eq_inner n (gate p t m.a m.b m.c m.d ψ)
    rw [gate_inner ht hp hm, ← totalProb_eq_inner, h1] at this
    exact_mod_cast this
  refine ⟨fun _ h => h, ?_, ?_⟩
  · intro s hs m hm q hq
    obtain ⟨s', h1, h2, h3, h4, h5⟩ := L.mtrx hs.1 (L.unitary m hm) hq
    exact ⟨s', h1, ⟨h2, by rw [h3]; exact key hq (fun _ => Iff.rfl) hm hs.2 h5⟩, h3, h4, h5⟩
  · intro s hs m hm cs t hnd hb
    obtain ⟨s', h1, h2, h3, h4, h5⟩ := L.mcMtrx hs.1 (L.unitary m hm) hnd hb
    refine ⟨s', h1, ⟨h2, ?_⟩, h3, h4, h5⟩
    rw [h3]
    refine key (hb t (by simp)) (fun i => ?_) hm hs.2 h5
    have ht := notMem_of_nodup hnd
    exact forall₂_congr fun c hc => by rw [testBit_flip_other (k := c) (q := t) (fun e => ht (e ▸ hc))]

/-- The CPU engine behind a neuron; `r` and `u` are the random numbers of the measurements. -/
noncomputable def cpuReg (P : Par) (r u : ℝ) : Reg Eng where
  B := cpu P.σ
  prob e q := (prob P e q).map (·.1)
  m e q := forceM P e q false false true r u

theorem cpu_sound {P : Par} (hP : P.Ok) (r u : ℝ) :
    Sound (cpuReg P r u) (fun e => e.n) (fun e => e.amp) (fun e => (e.n ≤ 64 ∧ e.doNorm = false) ∧ totalProb e.n e.amp = 1) := by
  have hst : ∀ {e : Eng}, ((e.n ≤ 64 ∧ e.doNorm = false) ∧ totalProb e.n e.amp = 1) → e.Steady := fun h => ⟨h.2, fun h' => by rw [h.1.2] at h'; cases h'⟩
  refine ⟨lawful_unit (cpu_lawful hP.1), fun h => h.2, ?_, ?_⟩
  · intro e he q hq
    show (prob P e q).map (·.1) = _
    rw [prob_spec hP he.1.1 (hst he) hq]; rfl
  · intro e he q hq
    rcases forceM_projects hP he.1.1 (hst he) hq false false r u with h | ⟨b, e', h1, -, -, h3, h4, h5⟩
    · exact absurd h.1 (by simp)
    · refine ⟨b, e', h1, ⟨⟨h3 ▸ he.1.1, ?_⟩, ?_⟩, h3, h5⟩
      · rw [forceM_eq hP he.1.1 (hst he) hq] at h1
        split_ifs at h1 <;> (simp only [Option.some.injEq, Prod.mk.injEq] at h1; rw [← h1.2]; exact he.1.2)
      · obtain ⟨k, -, -, c⟩ := h5; rw [h3]; exact c

/-- Two qubits, all four amplitudes one half. -/
noncomputable def even : Eng := { n := 2, amp := fun i => if i < 4 then 1 / 2 else 0, rn := 1, doNorm := false, floor := 0, rgp := false }

theorem even_good : (even.n ≤ 64 ∧ even.doNorm = false) ∧ totalProb even.n even.amp = 1 := by
  refine ⟨⟨by decide, rfl⟩, ?_⟩
  simp [totalProb, even, Finset.sum_range_succ]; norm_num

/-- One worker. -/
def single : Par where
  σ := id
  cores := 1
  cpu _ := 0

theorem single_ok : single.Ok := ⟨fun l => List.Perm.refl l, fun _ => by simp [single]⟩

/-- Input 0, output 1; the input 0 is trained not to be in the category, the input 1 nearly to be in it. -/
noncomputable def half : Neuron := ⟨[0], 1, .sigmoid, 1, 0, fun v => if v = 0 then -(Real.pi / 2) else Real.pi / 4⟩

theorem half_fits : Fits half 2 := ⟨by simp [half], by simp [half], by simp [half]⟩

theorem even_sym : ∀ i < 2 ^ even.n, even.amp (flipBit half.output i) = even.amp i := by
  intro i hi
  have h4 : i < 4 := hi
  have : flipBit 1 i < 4 := flipBit_lt (n := 2) (by norm_num) h4
  show (if flipBit 1 i < 4 then (1 / 2 : ℂ) else 0) = if i < 4 then 1 / 2 else 0
  rw [if_pos h4, if_pos this]

/-- `LearnPermutation` compares the chance after the measurement of the inputs with the chance before: a neuron that gives the expected
category the chance `(2 + √2) / 4` on the measured input is made to give it one half. -/
theorem learnPermutation_wrong (erf : ℝ → ℝ) (u : ℝ) : ∃ nn' e', learnPermutation (cpuReg single 0 u) erf half (3 / 4) true even = some (nn', e') ∧
    e'.n = 2 ∧ totalProb 2 e'.amp = 1 ∧ (∀ i < 4, valueOf half.inputs i ≠ 1 → e'.amp i = 0) ∧
    chance erf half true 2 e'.amp = (2 + Real.sqrt 2) / 4 ∧ chance erf nn' true 2 e'.amp = 1 / 2 := by
  have hp := Real.pi_pos
  have H := cpu_sound single_ok 0 u
  have hs2 : Real.sqrt 2 < 2 := by
    have : Real.sqrt 2 ^ 2 = 2 := Real.sq_sqrt (by norm_num)
    nlinarith [Real.sqrt_nonneg 2]
  have hfn : ∀ (nn : Neuron) (a : ℝ), nn.fn = .sigmoid → turn erf nn a = a := fun nn a h => by unfold turn; rw [h]
  have hv : ∀ i : ℕ, valueOf [0] i = if i.testBit 0 then 1 else 0 := fun i => by simp [valueOf]
  have hc0 : chance erf half true 2 even.amp = (2 + Real.sqrt 2) / 8 := by
    rw [chance_of_reset half_fits even_sym]
    unfold mean
    simp only [hfn half _ rfl]
    show ∑ i ∈ Finset.range 4, (1 + Real.sin (half.angles (valueOf [0] i))) / 2 * normSq (even.amp i) = _
    simp only [hv, Finset.sum_range_succ, Finset.sum_range_zero]
    simp [half, even, Nat.testBit]
    ring
  obtain ⟨p, s1, s2, h1, h2, h3, h4, h5⟩ := unpredict_undoes (erf := erf) H even_good half_fits true
  obtain ⟨t, k1, -⟩ := predict_spec (erf := erf) H even_good half_fits true
  obtain ⟨rfl, rfl⟩ : p = _ ∧ s1 = t := by simpa using h1.symm.trans k1
  have hn2 : s2.n = 2 := h4
  have hone : probIf 2 (fun i => i.testBit 0 = true) s2.amp = 1 / 2 := by
    rw [upTo_probIf (show UpTo 2 true s2.amp even.amp from h5)]
    simp [probIf, even, Finset.sum_range_succ, Nat.testBit]; norm_num
  obtain ⟨b, s3, m1, m2, m3, m4⟩ := H.m h3 (q := 0) (by show 0 < s2.n; omega)
  have hb : b = true := by
    have hst : s2.Steady := ⟨h3.2, fun h' => by rw [h3.1.2] at h'; cases h'⟩
    have e := m1
    change forceM single s2 0 false false true 0 u = some (b, s3) at e
    unfold forceM at e
    rw [prob_spec single_ok h3.1.1 hst (by omega), hn2, hone] at e
    simp only [Option.bind_some] at e
    norm_num at e
    exact e.1
  subst hb
  have m3' : s3.n = 2 := by have : s3.n = s2.n := m3; omega
  obtain ⟨k, c1, c2, c3⟩ := m4
  simp only [hn2] at c1 c2 c3
  have hsym : ∀ i < 2 ^ 2, s3.amp (flipBit half.output i) = s3.amp i := by
    intro i hi
    obtain ⟨w, w1, -, w3⟩ := h5
    have hw : w ≠ 0 := by rintro rfl; simp at w1
    have hfl : flipBit 1 i < 2 ^ 2 := flipBit_lt (by norm_num) hi
    have es : s2.amp (flipBit 1 i) = s2.amp i := mul_left_cancel₀ hw (by
      have e1 := w3 i hi; have e2 := w3 _ hfl
      rw [e1, e2]; exact even_sym i hi)
    have hbit : (flipBit 1 i).testBit 0 = i.testBit 0 := testBit_flip_other (by norm_num)
    show s3.amp (flipBit 1 i) = s3.amp i
    by_cases hb : i.testBit 0 = true
    · rw [c1 i hi hb, c1 _ hfl (by rw [hbit]; exact hb), es]
    · rw [c2 i hi hb, c2 _ hfl (by rw [hbit]; exact hb)]
  have hdef : ∀ i < 2 ^ 2, valueOf half.inputs i ≠ 1 → s3.amp i = 0 := by
    intro i hi hne
    refine c2 i hi (fun hb => hne ?_)
    show valueOf [0] i = 1
    rw [hv, if_pos hb]
  have hc : ∀ a, chance erf (half.put 1 a) true 2 s3.amp = (1 + Real.sin a) / 2 := fun a => by
    rw [chance_definite (half_fits.put 1 a) c3 hsym hdef, put_angles, if_pos rfl, hfn _ _ rfl]
  obtain ⟨t1, t2, e1, -, g1, g2, g3⟩ := learnInternal_eval (erf := erf) H m2 (nn := half) (by rw [m3']; exact half_fits) true (3 / 4) 1
    ((2 + Real.sqrt 2) / 8) rfl rfl
  have ha : half.angles 1 = Real.pi / 4 := by simp [half]
  simp only [m3', hc, ha] at e1
  rw [show Real.pi / 4 + 3 / 4 * Real.pi = Real.pi by ring, show Real.pi / 4 - 3 / 4 * Real.pi = -(Real.pi / 2) by ring, Real.sin_pi, Real.sin_neg,
    Real.sin_pi_div_two, show half.tol = 0 from rfl, if_neg (by norm_num), if_neg (by norm_num), if_neg (by intro h; linarith [h.1]),
    if_pos (by norm_num)] at e1
  have g3' : UpTo 2 true t2.amp s3.amp := by simpa [m3'] using g3
  have g2' : t2.n = 2 := by have : t2.n = s3.n := g2; omega
  refine ⟨half.put 1 Real.pi, t2, ?_, g2', ?_, ?_, ?_, ?_⟩
  · unfold learnPermutation
    simp only [h1, Option.bind_some, h2]
    have hp0 : chance erf half true even.n even.amp = (2 + Real.sqrt 2) / 8 := hc0
    rw [hp0, if_neg (by show ¬ (1 - (2 + Real.sqrt 2) / 8 ≤ 0); linarith)]
    have hm : measure (cpuReg single 0 u) half.inputs s2 = some (1, s3) := by
      show measure (cpuReg single 0 u) [0] s2 = _
      rw [measure, m1]; rfl
    rw [hm]
    simp only [Option.bind_some]
    rw [e1]; rfl
  · rw [upTo_total g3']; exact c3
  · intro i hi hne
    have := upTo_normSq g3' i hi
    rw [hdef i hi hne] at this
    exact normSq_eq_zero.1 (by simpa using this)
  · rw [chance_upTo half_fits true g3', chance_definite half_fits c3 hsym hdef, ha, hfn _ _ rfl, Real.sin_pi_div_four]; ring
  · rw [chance_upTo (half_fits.put _ _) true g3', hc, Real.sin_pi]; norm_num

/-! ## Examples -/

/-- The hypotheses of `learn_half` on the CPU engine: no inputs but the bias, and the qubit in equal superposition. -/
example (erf : ℝ → ℝ) : ∃ nn' e', learn (cpuReg single 0 0) erf ⟨[], 1, .sigmoid, 1, 0, fun _ => 0⟩ (1 / 2) false even = some (nn', e') ∧
    chance erf nn' false 2 even.amp = 1 := by
  obtain ⟨-, nn', s', h1, -, -, -, h2⟩ := learn_half (erf := erf) (cpu_sound single_ok 0 0) even_good
    (nn := ⟨[], 1, .sigmoid, 1, 0, fun _ => 0⟩) ⟨by simp, by simp [even], by simp⟩ rfl (fun _ => rfl) le_rfl (by norm_num) false
    even_sym (v := 0) (fun i _ h => absurd rfl h)
  exact ⟨nn', s', h1, h2⟩

/-- `learn_partial` on the CPU engine. -/
example (erf : ℝ → ℝ) : ∃ nn' e', learn (cpuReg single 0 0) erf half (1 / 8) true even = some (nn', e') ∧
    chance erf half true 2 even.amp ≤ chance erf nn' true 2 even.amp := by
  obtain ⟨nn', s', h1, -, -, -, -, h2⟩ := learn_partial (erf := erf) (cpu_sound single_ok 0 0) even_good half_fits true (1 / 8) (.inl rfl)
  exact ⟨nn', s', h1, h2⟩

/-- `learn_wrong` on the CPU engine. -/
example (erf : ℝ → ℝ) : ∃ nn' e', learn (cpuReg single 0 0) erf ⟨[], 1, .relu, 1, 0, fun _ => 2 * Real.pi + Real.pi / 4⟩ (1 / 4) true even =
    some (nn', e') ∧ chance erf nn' true 2 even.amp = 1 / 2 := by
  obtain ⟨-, nn', s', h1, -, h2⟩ := learn_wrong (erf := erf) (cpu_sound single_ok 0 0) even_good (q := 1) (by show 1 < 2; norm_num) even_sym 1 rfl
  exact ⟨nn', s', h1, h2⟩

example : assign (make [0]) (make [0, 1]) = none := ((assign_partial (make_ok _) (make_ok _)).2.1).2 (by decide)

end Verif.Neuron
