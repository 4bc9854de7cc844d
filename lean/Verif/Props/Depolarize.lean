import Verif.Lemmas.Depolarize
import Verif.Props.EngineMeas
import Mathlib.MeasureTheory.Integral.IntervalIntegral.Basic
import Mathlib.Analysis.SpecialFunctions.Integrals.Basic

/-!
# C78: the noise channels

A depolarizing channel of strength `λ` replaces the qubit by the maximally mixed one with probability `λ`: the expectation values of all three Pauli
operators are multiplied by the same number.
-/

namespace Verif.Depolarize

open Verif.Engine Verif.ParFor Verif.Spec Verif.Bits Verif.Pager Classical

/-! ## Specification -/

/-- The part of the state in which the qubit is `|+⟩`. -/
noncomputable def plusPart (q : ℕ) (s : ℕ → ℂ) (i : ℕ) : ℂ := (s i + s (flipBit q i)) / 2

/-- The part of the state in which the qubit is `|−⟩`. -/
noncomputable def minusPart (q : ℕ) (s : ℕ → ℂ) (i : ℕ) : ℂ := (s i - s (flipBit q i)) / 2

/-- The two operators of a channel that damps `|−⟩`, by amplitude `√√λ`. -/
noncomputable def kraus (q : ℕ) (x : ℝ) (b : Bool) (s : ℕ → ℂ) (i : ℕ) : ℂ :=
  if b then Real.sqrt (Real.sqrt x) * minusPart q s i else plusPart q s i + Real.sqrt (1 - Real.sqrt x) * minusPart q s i

/-- The expectation value of a Pauli operator. -/
noncomputable def bloch (n : ℕ) (P : PauliName) (q : ℕ) (s : ℕ → ℂ) : ℝ := (inner n s (pauliGate P q s)).re

/-! ## The strong channel -/

theorem hh_damped (q : ℕ) (c : ℂ) (s : ℕ → ℂ) (i : ℕ) :
    gate (fun _ => True) q hMat.a hMat.b hMat.c hMat.d (fun i => if i.testBit q then c * gate (fun _ => True) q hMat.a hMat.b hMat.c hMat.d s i
      else gate (fun _ => True) q hMat.a hMat.b hMat.c hMat.d s i) i = plusPart q s i + c * minusPart q s i := by
  have h2 := half_sqrt
  have hf : (flipBit q i).testBit q = !i.testBit q := by rw [testBit_flip']; simp
  have hff : flipBit q (flipBit q i) = i := by unfold flipBit; rw [Nat.xor_assoc, Nat.xor_self, Nat.xor_zero]
  rw [hGate_eq]
  simp only [hGate_eq, hf, hff]
  unfold plusPart minusPart
  set w := ((1 / Real.sqrt 2 : ℝ) : ℂ)
  cases i.testBit q
  · simp only [Bool.not_false, if_true, Bool.false_eq_true, if_false]
    linear_combination ((s i + s (flipBit q i)) + c * (s i - s (flipBit q i))) * h2
  · simp only [Bool.not_true, if_true, Bool.false_eq_true, if_false]
    linear_combination ((s i + s (flipBit q i)) + c * (s i - s (flipBit q i))) * h2

theorem hh_minus (q : ℕ) (c : ℂ) (s : ℕ → ℂ) (i : ℕ) :
    gate (fun _ => True) q hMat.a hMat.b hMat.c hMat.d (fun i => if i.testBit q then c * gate (fun _ => True) q hMat.a hMat.b hMat.c hMat.d s i
      else 0) i = c * minusPart q s i := by
  have h2 := half_sqrt
  have hf : (flipBit q i).testBit q = !i.testBit q := by rw [testBit_flip']; simp
  have hff : flipBit q (flipBit q i) = i := by unfold flipBit; rw [Nat.xor_assoc, Nat.xor_self, Nat.xor_zero]
  rw [hGate_eq]
  simp only [hGate_eq, hf, hff]
  unfold minusPart
  set w := ((1 / Real.sqrt 2 : ℝ) : ℂ)
  cases i.testBit q
  · simp only [Bool.not_false, if_true, Bool.false_eq_true, if_false]
    linear_combination (c * (s i - s (flipBit q i))) * h2
  · simp only [Bool.not_true, if_true, Bool.false_eq_true, if_false]
    linear_combination (c * (s i - s (flipBit q i))) * h2

/-- **C78**, strong: the ancilla is the last qubit, and the state is `Σ_b (K_b ψ) ⊗ |b⟩`. -/
theorem depolStrong_kraus {maxQb : ℕ} {σ : List ℕ → List ℕ} (hσ : IsSched σ) (fresh : ℕ → ℂ) {e : Eng} (hn : e.n + 1 ≤ 64)
    (hm : e.n + 1 ≤ maxQb) (hd : e.doNorm = false) {q : ℕ} (hq : q < e.n) {x : ℝ} (h0 : 0 ≤ x) (h1 : x ≤ 1) :
    ∃ f, depolStrong maxQb σ fresh e q x = some (f, e.n) ∧ f.n = e.n + 1 ∧
      ∀ i < 2 ^ e.n, f.amp i = kraus q x false e.amp i ∧ f.amp (2 ^ e.n + i) = kraus q x true e.amp i := by
  obtain ⟨f, f1, f2⟩ := entangle_ok (maxQb := maxQb) hσ fresh hn hm hd hq h0 h1
  obtain ⟨g, g1, g2⟩ := gateH_halves hσ hn f2 hq
  refine ⟨g, ?_, g2.size, fun i hi => ⟨?_, ?_⟩⟩
  · unfold depolStrong
    rw [f1, Option.bind_some]
    simp only [g1, Option.map_some]
  · rw [g2.lo i hi, hh_damped, kraus, if_neg (by simp)]
  · rw [g2.hi i hi, hh_minus, kraus, if_pos rfl]

/-- A strength outside of `[0, 1]` makes the angle undefined. -/
theorem depolStrong_invalid {maxQb : ℕ} {σ : List ℕ → List ℕ} (fresh : ℕ → ℂ) (e : Eng) (q : ℕ) {x : ℝ} (h : x < 0 ∨ 1 < x) :
    depolStrong maxQb σ fresh e q x = none := by
  unfold depolStrong entangle
  cases gateH σ e q with
  | none => rfl
  | some f =>
    simp only [Option.bind_some]
    cases allocate maxQb σ fresh f f.n 1 with
    | none => rfl
    | some g => simp [angle_none h]

/-! ## The Pauli expectation values -/

theorem sum_halves (n : ℕ) (f : ℕ → ℂ) :
    ∑ i ∈ Finset.range (2 ^ (n + 1)), f i = ∑ i ∈ Finset.range (2 ^ n), (f i + f (2 ^ n + i)) := by
  rw [pow_succ, mul_two, Finset.sum_range_add, Finset.sum_add_distrib]

/-- A Pauli operator on a qubit of the lower part acts on both halves. -/
theorem bloch_halves {n q : ℕ} (hq : q < n) (P : PauliName) {s s0 s1 : ℕ → ℂ} (h0 : ∀ i < 2 ^ n, s i = s0 i)
    (h1 : ∀ i < 2 ^ n, s (2 ^ n + i) = s1 i) : bloch (n + 1) P q s = bloch n P q s0 + bloch n P q s1 := by
  unfold bloch Spec.inner
  rw [sum_halves, Finset.sum_add_distrib, Complex.add_re]
  congr 2
  · refine Finset.sum_congr rfl fun i hi => ?_
    have hi := Finset.mem_range.1 hi
    cases P <;> unfold pauliGate gate <;> simp only [if_true] <;> rw [h0 i hi] <;> rw [h0 _ (flip_lt' hq hi)]
  · refine Finset.sum_congr rfl fun i hi => ?_
    have hi := Finset.mem_range.1 hi
    cases P <;> unfold pauliGate gate <;> simp only [if_true, flip_hi hq hi, testBit_hi hq] <;> rw [h1 i hi] <;>
      rw [h1 _ (flip_lt' hq hi)]

/-- How the channel scales each expectation value. -/
noncomputable def factor (x : ℝ) : PauliName → ℝ
  | .I => 1
  | .X => 1
  | .Y => Real.sqrt (1 - Real.sqrt x)
  | .Z => Real.sqrt (1 - Real.sqrt x)

theorem bloch_pairs {n q : ℕ} (hq : q < n) (P : PauliName) (s : ℕ → ℂ) : 2 * bloch n P q s =
    (∑ i ∈ Finset.range (2 ^ n), ((starRingEnd ℂ) (s i) * pauliGate P q s i +
      (starRingEnd ℂ) (s (flipBit q i)) * pauliGate P q s (flipBit q i))).re := by
  rw [Finset.sum_add_distrib, sum_flip hq (fun i => (starRingEnd ℂ) (s i) * pauliGate P q s i), Complex.add_re]
  unfold bloch Spec.inner
  ring

theorem kraus_bloch {n q : ℕ} (hq : q < n) {x : ℝ} (h0 : 0 ≤ x) (h1 : x ≤ 1) (P : PauliName) (s : ℕ → ℂ) :
    bloch n P q (kraus q x false s) + bloch n P q (kraus q x true s) = factor x P * bloch n P q s := by
  have hc2 : Real.sqrt (1 - Real.sqrt x) * Real.sqrt (1 - Real.sqrt x) + Real.sqrt (Real.sqrt x) * Real.sqrt (Real.sqrt x) = 1 := by
    have : Real.sqrt x ≤ 1 := Real.sqrt_le_iff.2 ⟨by norm_num, by simpa using h1⟩
    rw [Real.mul_self_sqrt (by linarith), Real.mul_self_sqrt (Real.sqrt_nonneg _)]; ring
  have key : 2 * bloch n P q (kraus q x false s) + 2 * bloch n P q (kraus q x true s) = factor x P * (2 * bloch n P q s) := by
    rw [bloch_pairs hq, bloch_pairs hq, bloch_pairs hq, ← Complex.add_re, ← Finset.sum_add_distrib, Complex.re_sum, Complex.re_sum,
      Finset.mul_sum]
    refine Finset.sum_congr rfl fun i _ => ?_
    have hf : (flipBit q i).testBit q = !i.testBit q := by rw [testBit_flip']; simp
    have hff : flipBit q (flipBit q i) = i := by unfold flipBit; rw [Nat.xor_assoc, Nat.xor_self, Nat.xor_zero]
    have p1 : plusPart q s (flipBit q i) = plusPart q s i := by unfold plusPart; rw [hff]; ring
    have m1 : minusPart q s (flipBit q i) = -minusPart q s i := by unfold minusPart; rw [hff]; ring
    have s1 : s i = plusPart q s i + minusPart q s i := by unfold plusPart minusPart; ring
    have s2 : s (flipBit q i) = plusPart q s i - minusPart q s i := by unfold plusPart minusPart; ring
    cases P <;> simp only [pauliGate, gate, kraus, factor, hf, hff, p1, m1, if_true, Bool.false_eq_true, if_false] <;> rw [s2, s1] <;>
      generalize plusPart q s i = p <;> generalize minusPart q s i = m <;> generalize Real.sqrt (1 - Real.sqrt x) = c at * <;>
      generalize Real.sqrt (Real.sqrt x) = d at * <;> cases i.testBit q <;>
      simp [Complex.add_re, Complex.mul_re, Complex.mul_im, Complex.conj_re, Complex.conj_im] <;>
      first
      | ring1
      | linear_combination (2 * (m.re ^ 2 + m.im ^ 2)) * hc2
      | linear_combination (-2 * (m.re ^ 2 + m.im ^ 2)) * hc2
  linarith

/-- **C78**, strong: the expectation value of X is kept, those of Y and Z are multiplied by `√(1 - √λ)`. -/
theorem depolStrong_bloch {maxQb : ℕ} {σ : List ℕ → List ℕ} (hσ : IsSched σ) (fresh : ℕ → ℂ) {e : Eng} (hn : e.n + 1 ≤ 64)
    (hm : e.n + 1 ≤ maxQb) (hd : e.doNorm = false) {q : ℕ} (hq : q < e.n) {x : ℝ} (h0 : 0 ≤ x) (h1 : x ≤ 1) (P : PauliName) :
    ∃ f, depolStrong maxQb σ fresh e q x = some (f, e.n) ∧ bloch (e.n + 1) P q f.amp = factor x P * bloch e.n P q e.amp := by
  obtain ⟨f, f1, _, f3⟩ := depolStrong_kraus (maxQb := maxQb) hσ fresh hn hm hd hq h0 h1
  exact ⟨f, f1, by rw [bloch_halves hq P (fun i hi => (f3 i hi).1) (fun i hi => (f3 i hi).2), kraus_bloch hq h0 h1]⟩

/-- A qubit in `|+⟩`. -/
noncomputable def plusEng : Eng := ⟨1, fun _ => ((1 / Real.sqrt 2 : ℝ) : ℂ), 1, false, true, 0⟩

/-- A qubit in `|0⟩`. -/
noncomputable def zeroEng : Eng := ⟨1, fun i => if i = 0 then 1 else 0, 1, false, true, 0⟩

theorem plusEng_bloch : bloch 1 .X 0 plusEng.amp = 1 := by
  have h2 := half_sqrt
  unfold bloch Spec.inner plusEng pauliGate gate
  simp only [pow_one, Finset.sum_range_succ, Finset.sum_range_zero, Complex.conj_ofReal, if_true, zero_add, zero_mul, one_mul, add_zero]
  have : ∀ c : Bool, (if c = true then ((1 / Real.sqrt 2 : ℝ) : ℂ) else ((1 / Real.sqrt 2 : ℝ) : ℂ)) = ((1 / Real.sqrt 2 : ℝ) : ℂ) := by
    intro c; cases c <;> rfl
  rw [this, this, h2]
  norm_num

theorem zeroEng_bloch : bloch 1 .Z 0 zeroEng.amp = 1 := by
  unfold bloch Spec.inner zeroEng pauliGate gate
  simp [Finset.sum_range_succ]

/-- Against C78: for no strength above zero is the channel a depolarizing channel: X keeps its expectation value, Z does not. -/
theorem depolStrong_wrong {maxQb : ℕ} (hm : 2 ≤ maxQb) {σ : List ℕ → List ℕ} (hσ : IsSched σ) (fresh : ℕ → ℂ) {x : ℝ} (h0 : 0 < x) (h1 : x ≤ 1) :
    ¬ ∃ μ : ℝ, ∀ e : Eng, e.n = 1 → e.doNorm = false → ∀ P, P ≠ PauliName.I →
      ∃ f, depolStrong maxQb σ fresh e 0 x = some (f, 1) ∧ bloch 2 P 0 f.amp = μ * bloch 1 P 0 e.amp := by
  rintro ⟨μ, h⟩
  obtain ⟨f, f1, f2⟩ := h plusEng rfl rfl .X (by simp)
  obtain ⟨g, g1, g2⟩ := h zeroEng rfl rfl .Z (by simp)
  obtain ⟨f', a1, a2⟩ := depolStrong_bloch (maxQb := maxQb) hσ fresh (e := plusEng) (by simp [plusEng]) hm rfl (q := 0)
    (by simp [plusEng]) h0.le h1 .X
  obtain ⟨g', b1, b2⟩ := depolStrong_bloch (maxQb := maxQb) hσ fresh (e := zeroEng) (by simp [zeroEng]) hm rfl (q := 0)
    (by simp [zeroEng]) h0.le h1 .Z
  rw [a1] at f1
  rw [b1] at g1
  obtain rfl : f' = f := (Prod.mk.inj (Option.some.inj f1)).1
  obtain rfl : g' = g := (Prod.mk.inj (Option.some.inj g1)).1
  have a2 : bloch 2 .X 0 f'.amp = factor x .X * bloch 1 .X 0 plusEng.amp := a2
  have b2 : bloch 2 .Z 0 g'.amp = factor x .Z * bloch 1 .Z 0 zeroEng.amp := b2
  rw [a2, plusEng_bloch] at f2
  rw [b2, zeroEng_bloch] at g2
  have e1 : Real.sqrt (1 - Real.sqrt x) = 1 := by
    have : factor x .Z = factor x .X := by linarith
    exact this
  rw [Real.sqrt_eq_one] at e1
  have := Real.sqrt_pos.2 h0
  linarith

/-- A register of two qubits and a strength that the theorems are about. -/
example : (⟨2, fun i => if i = 2 then 1 else 0, 1, false, true, 0⟩ : Eng).n + 1 ≤ 64 ∧ (0 : ℝ) ≤ 1 / 16 ∧ (1 / 16 : ℝ) ≤ 1 := by norm_num

/-! ## The weak channel -/

theorem totalProb_halves {n : ℕ} {s s0 s1 : ℕ → ℂ} (h0 : ∀ i < 2 ^ n, s i = s0 i) (h1 : ∀ i < 2 ^ n, s (2 ^ n + i) = s1 i) :
    totalProb (n + 1) s = totalProb n s0 + totalProb n s1 := by
  unfold totalProb
  rw [pow_succ, mul_two, Finset.sum_range_add]
  congr 1
  · exact Finset.sum_congr rfl fun i hi => by rw [h0 i (Finset.mem_range.1 hi)]
  · exact Finset.sum_congr rfl fun i hi => by rw [h1 i (Finset.mem_range.1 hi)]

theorem probTop_halves {n : ℕ} {s s0 s1 : ℕ → ℂ} (h0 : ∀ i < 2 ^ n, s i = s0 i) (h1 : ∀ i < 2 ^ n, s (2 ^ n + i) = s1 i) (b : Bool) :
    probIf (n + 1) (fun i => i.testBit n = b) s = totalProb n (if b then s1 else s0) := by
  unfold probIf totalProb
  rw [pow_succ, mul_two, Finset.sum_range_add, ← Finset.sum_add_distrib]
  refine Finset.sum_congr rfl fun i hi => ?_
  have hi := Finset.mem_range.1 hi
  simp only [top_lo hi, top_hi hi, h0 i hi, h1 i hi]
  cases b <;> simp

theorem forceM_meta {P : Par} (hP : P.Ok) {e e' : Eng} (hn : e.n ≤ 64) (he : e.Steady) {q : ℕ} (hq : q < e.n) {result doForce doApply b : Bool}
    {r u : ℝ} (h : forceM P e q result doForce doApply r u = some (b, e')) : e'.floor = e.floor ∧ e'.doNorm = e.doNorm := by
  rw [forceM_eq hP hn he hq] at h
  split_ifs at h <;> cases h <;> exact ⟨rfl, rfl⟩

theorem dispose_meta {σ : List ℕ → List ℕ} {fresh : ℕ → ℂ} {e r : Eng} {start length : ℕ} (hd : e.doNorm = false)
    (h : dispose σ fresh e start length = some r) : r.doNorm = false := by
  unfold dispose decomposeDispose at h
  rw [normIf_ready (by simp [hd])] at h
  split_ifs at h
  · cases h
  · cases h; exact hd
  · cases h; exact hd
  · cases h; exact hd

/-- The two halves before the measurement. -/
noncomputable def halfOf (q : ℕ) (x : ℝ) (s : ℕ → ℂ) (b : Bool) (i : ℕ) : ℂ :=
  if b then if i.testBit q then Real.sqrt (Real.sqrt x) * gate (fun _ => True) q hMat.a hMat.b hMat.c hMat.d s i else 0
  else if i.testBit q then Real.sqrt (1 - Real.sqrt x) * gate (fun _ => True) q hMat.a hMat.b hMat.c hMat.d s i
    else gate (fun _ => True) q hMat.a hMat.b hMat.c hMat.d s i

theorem halfOf_h (q : ℕ) (x : ℝ) (s : ℕ → ℂ) (b : Bool) (i : ℕ) :
    gate (fun _ => True) q hMat.a hMat.b hMat.c hMat.d (halfOf q x s b) i = kraus q x b s i := by
  cases b
  · rw [kraus, if_neg (by simp), ← hh_damped]; rfl
  · rw [kraus, if_pos rfl, ← hh_minus]; rfl

theorem halfOf_total {n q : ℕ} (hq : q < n) (x : ℝ) (s : ℕ → ℂ) (b : Bool) :
    totalProb n (halfOf q x s b) = totalProb n (kraus q x b s) := by
  rw [← totalProb_hadamard hq]
  unfold totalProb
  exact Finset.sum_congr rfl fun i _ => by rw [halfOf_h]

/-- The two results are certain together. -/
theorem kraus_total {n q : ℕ} (hq : q < n) {x : ℝ} (h0 : 0 ≤ x) (h1 : x ≤ 1) (s : ℕ → ℂ) :
    totalProb n (kraus q x false s) + totalProb n (kraus q x true s) = totalProb n s := by
  have := kraus_bloch hq h0 h1 .I s
  have hb : ∀ s, bloch n .I q s = totalProb n s := by
    intro s
    have := totalProb_eq_inner n s
    unfold bloch pauliGate
    rw [← this, Complex.ofReal_re]
  rw [hb, hb, hb] at this
  simpa [factor] using this

theorem tensor_lo {n i : ℕ} (hi : i < 2 ^ n) (A B : ℕ → ℂ) : tensorAt n 1 A B i = A i * B 0 := by
  unfold tensorAt field
  rw [rest_top (lo_lt hi), Nat.mod_eq_of_lt hi, Nat.div_eq_of_lt hi, Nat.zero_mod]

theorem tensor_hi {n i : ℕ} (hi : i < 2 ^ n) (A B : ℕ → ℂ) : tensorAt n 1 A B (2 ^ n + i) = A i * B 1 := by
  unfold tensorAt field
  rw [rest_top (hi_lt hi), Nat.add_div_of_dvd_right (dvd_refl _), Nat.div_eq_of_lt hi, Nat.div_self (by positivity), pow_one,
    Nat.add_mod_left, Nat.mod_eq_of_lt hi]

/-- What happens after the outcome of the measurement is known. -/
theorem weak_rest {maxQb : ℕ} {P : Par} (hP : P.Ok) (fresh fresh' : ℕ → ℂ) {e : Eng} (hn : e.n + 1 ≤ 64) (hm : e.n + 1 ≤ maxQb)
    (hd : e.doNorm = false) (hf : e.floor = 0) (ht : totalProb e.n e.amp = 1) {q : ℕ} (hq : q < e.n) {x : ℝ} (h0 : 0 < x) (h1 : x ≤ 1) (u : ℝ) :
    ∃ g : Eng, entangle maxQb P.σ fresh e q x = some (g, e.n) ∧ g.n = e.n + 1 ∧ g.Steady ∧
    (∀ b, qProb g e.n b = totalProb e.n (kraus q x b e.amp)) ∧
    ∀ r b g', forceM P g e.n false false true r u = some (b, g') →
      ∃ f, depolWeak maxQb P fresh fresh' e q x r u = some (b, f) ∧ f.n = e.n ∧ totalProb e.n f.amp = 1 ∧
        ∃ k : ℂ, ∀ i < 2 ^ e.n, f.amp i = k * kraus q x b e.amp i := by
  obtain ⟨g, g1, g2⟩ := entangle_ok (maxQb := maxQb) hP.1 fresh hn hm hd hq h0.le h1
  have glo : ∀ i < 2 ^ e.n, g.amp i = halfOf q x e.amp false i := fun i hi => by rw [g2.lo i hi]; rfl
  have ghi : ∀ i < 2 ^ e.n, g.amp (2 ^ e.n + i) = halfOf q x e.amp true i := fun i hi => by rw [g2.hi i hi]; rfl
  have hst : g.Steady := by
    refine ⟨?_, by rw [g2.doNorm]; simp⟩
    rw [g2.size, totalProb_halves glo ghi, halfOf_total hq, halfOf_total hq, kraus_total hq h0.le h1, ht]
  refine ⟨g, g1, g2.size, hst, fun b => ?_, fun r b g' hg' => ?_⟩
  · unfold qProb
    rw [g2.size, probTop_halves glo ghi, ← halfOf_total hq]
    cases b <;> rfl
  have hgn : g.n ≤ 64 := by rw [g2.size]; exact hn
  have htop : e.n < g.n := by rw [g2.size]; omega
  obtain ⟨m1, m2⟩ := forceM_meta hP hgn hst htop hg'
  rcases forceM_projects hP hgn hst htop false false r u with ⟨hc, _⟩ | ⟨b', g'', k1, _, _, k4, _, k, k6, k7, k8⟩
  · simp at hc
  rw [hg'] at k1
  obtain ⟨rfl, rfl⟩ := Prod.mk.inj (Option.some.inj k1)
  rw [g2.size] at k4 k6 k7 k8
  set A : ℕ → ℂ := fun i => k * halfOf q x e.amp b i with hA
  set B : ℕ → ℂ := fun j => if j = (if b then 1 else 0) then 1 else 0 with hB
  have lo : ∀ i < 2 ^ e.n, g'.amp i = A i * B 0 := by
    intro i hi
    cases b with
    | false => rw [k6 i (lo_lt hi) (top_lo hi), glo i hi]; simp [hA, hB]
    | true => rw [k7 i (lo_lt hi) (by simp [top_lo hi])]; simp [hB]
  have hi' : ∀ i < 2 ^ e.n, g'.amp (2 ^ e.n + i) = A i * B 1 := by
    intro i hi
    cases b with
    | false => rw [k7 _ (hi_lt hi) (by simp [top_hi hi])]; simp [hB]
    | true => rw [k6 _ (hi_lt hi) (top_hi hi), ghi i hi]; simp [hA, hB]
  have hAt : totalProb e.n A = 1 := by
    rw [totalProb_halves lo hi'] at k8
    cases b
    · simpa [hB, totalProb] using k8
    · simpa [hB, totalProb] using k8
  have hBt : totalProb 1 B = 1 := by
    unfold totalProb
    cases b <;> simp [hB, Finset.sum_range_succ]
  have hfl : g'.floor = 0 := by rw [m1, g2.floor, hf]
  have hdn : g'.doNorm = false := by rw [m2, g2.doNorm]
  obtain ⟨d, d1, d2, w, _, d4⟩ := dispose_partial hP.1 fresh' (e := g') (start := e.n) (length := 1) (by rw [k4]) (by norm_num)
    (by rw [k4]; omega) (by rw [hdn]; simp) (A := A) (B := B)
    (by
      rw [k4]
      intro j hj
      rcases lt_or_ge j (2 ^ e.n) with h | h
      · rw [tensor_lo h, lo j h]
      · obtain ⟨i, rfl⟩ := Nat.exists_eq_add_of_le h
        have hi : i < 2 ^ e.n := by rw [pow_succ] at hj; omega
        rw [tensor_hi hi, hi' i hi])
    (by rw [k4, Nat.add_sub_cancel]; exact hAt) hBt
    ⟨by rw [hfl], fun i _ hne => by rw [hfl]; exact Complex.normSq_pos.2 hne⟩
    (by
      intro i _ j _ _ hj
      have : B j = 1 := by
        simp only [hB] at hj ⊢
        by_cases h : j = (if b then 1 else 0)
        · rw [if_pos h]
        · rw [if_neg h] at hj; exact absurd rfl hj
      rw [this, mul_one, Complex.arg_one, add_zero])
  rw [k4, Nat.add_sub_cancel] at d2
  rw [d2] at d4
  obtain ⟨f, f1, f2, _, _, f5⟩ := gateH_ok hP.1 (e := d) (by omega) (dispose_meta hdn d1) (q := q) (by omega)
  rw [d2] at f2 f5
  have hval : ∀ i < 2 ^ e.n, f.amp i = w * k * kraus q x b e.amp i := by
    intro i hi
    rw [f5 i hi, hGate_eq, d4 i hi, d4 _ (flip_lt' hq hi), ← halfOf_h, hGate_eq]
    simp only [hA]
    ring
  refine ⟨f, ?_, f2, ?_, w * k, hval⟩
  · unfold depolWeak
    rw [if_neg (not_le.2 h0), g1, Option.bind_some]
    simp only [hg', Option.bind_some, d1, f1, Option.map_some]
  · have e1 : totalProb e.n f.amp = totalProb e.n (gate (fun _ => True) q hMat.a hMat.b hMat.c hMat.d d.amp) := by
      unfold totalProb
      exact Finset.sum_congr rfl fun i hi => by rw [f5 i (Finset.mem_range.1 hi)]
    rw [e1, totalProb_hadamard hq]
    rw [← hAt]
    unfold totalProb
    refine Finset.sum_congr rfl fun i hi => ?_
    rw [d4 i (Finset.mem_range.1 hi), Complex.normSq_mul, Complex.normSq_eq_norm_sq w]
    simp [*]

/-- **C78**, weak: one of the two operators acts, the one that belongs to the result of the measurement, and what remains is normalised. `_partial`: no
amplitude is ignored as too small (`amplitudeFloor = 0`), and the automatic normalisation is off. -/
theorem depolWeak_kraus_partial {maxQb : ℕ} {P : Par} (hP : P.Ok) (fresh fresh' : ℕ → ℂ) {e : Eng} (hn : e.n + 1 ≤ 64) (hm : e.n + 1 ≤ maxQb)
    (hd : e.doNorm = false) (hf : e.floor = 0) (ht : totalProb e.n e.amp = 1) {q : ℕ} (hq : q < e.n) {x : ℝ} (h0 : 0 < x) (h1 : x ≤ 1) (r u : ℝ) :
    ∃ b f, depolWeak maxQb P fresh fresh' e q x r u = some (b, f) ∧ f.n = e.n ∧ 0 < totalProb e.n (kraus q x b e.amp) ∧
      totalProb e.n f.amp = 1 ∧ ∃ k : ℂ, ∀ i < 2 ^ e.n, f.amp i = k * kraus q x b e.amp i := by
  obtain ⟨g, _, g2, g3, g4, g5⟩ := weak_rest hP fresh fresh' hn hm hd hf ht hq h0 h1 u
  rcases forceM_projects hP (by omega) g3 (q := e.n) (by omega) false false r u with ⟨hc, _⟩ | ⟨b, g', k1, _, k3, _⟩
  · simp at hc
  · obtain ⟨f, f1, f2, f3, f4⟩ := g5 r b g' k1
    exact ⟨b, f, f1, f2, by rw [← g4]; exact k3, f3, f4⟩

open MeasureTheory in
/-- **C78**, weak: each operator acts with the probability that belongs to it. `_partial` as before. -/
theorem depolWeak_born_partial {maxQb : ℕ} {P : Par} (hP : P.Ok) (fresh fresh' : ℕ → ℂ) {e : Eng} (hn : e.n + 1 ≤ 64) (hm : e.n + 1 ≤ maxQb)
    (hd : e.doNorm = false) (hf : e.floor = 0) (ht : totalProb e.n e.amp = 1) {q : ℕ} (hq : q < e.n) {x : ℝ} (h0 : 0 < x) (h1 : x ≤ 1) (u : ℝ)
    (b : Bool) :
    volume {r : ℝ | 0 ≤ r ∧ r < 1 ∧ ∃ f, depolWeak maxQb P fresh fresh' e q x r u = some (b, f)} =
      ENNReal.ofReal (totalProb e.n (kraus q x b e.amp)) := by
  obtain ⟨g, g1, g2, g3, g4, g5⟩ := weak_rest hP fresh fresh' hn hm hd hf ht hq h0 h1 u
  rw [← g4, ← forceM_born hP (by omega) g3 (by omega) false true b u]
  congr 1
  ext r
  simp only [Set.mem_setOf_eq]
  refine and_congr_right fun _ => and_congr_right fun _ => ⟨?_, ?_⟩
  · rintro ⟨f, hfr⟩
    rcases forceM_projects hP (by omega) g3 (q := e.n) (by omega) false false r u with ⟨hc, _⟩ | ⟨b', g', k1, _⟩
    · simp at hc
    · obtain ⟨f', f1, _⟩ := g5 r b' g' k1
      rw [hfr] at f1
      obtain ⟨rfl, _⟩ := Prod.mk.inj (Option.some.inj f1)
      exact ⟨g', k1⟩
  · rintro ⟨g', hg'⟩
    obtain ⟨f, f1, _⟩ := g5 r b g' hg'
    exact ⟨f, f1⟩

/-- A strength of zero or less does nothing. -/
theorem depolWeak_off {maxQb : ℕ} (P : Par) (fresh fresh' : ℕ → ℂ) (e : Eng) (q : ℕ) {x : ℝ} (h : x ≤ 0) (r u : ℝ) :
    depolWeak maxQb P fresh fresh' e q x r u = some (false, e) := by
  unfold depolWeak; rw [if_pos h]

/-- Against C78: whatever the strength and the draws, a qubit in `|+⟩` is not disturbed, while a depolarizing channel of strength one would replace it
by a random one. -/
theorem depolWeak_plus_wrong {maxQb : ℕ} {P : Par} (hP : P.Ok) (fresh fresh' : ℕ → ℂ) {e : Eng} (hn : e.n + 1 ≤ 64) (hm : e.n + 1 ≤ maxQb)
    (hd : e.doNorm = false) (hf : e.floor = 0) (ht : totalProb e.n e.amp = 1) {q : ℕ} (hq : q < e.n) (hplus : ∀ i, e.amp (flipBit q i) = e.amp i)
    {x : ℝ} (h0 : 0 < x) (h1 : x ≤ 1) (r u : ℝ) :
    ∃ f, depolWeak maxQb P fresh fresh' e q x r u = some (false, f) ∧ ∃ k : ℂ, ‖k‖ = 1 ∧ ∀ i < 2 ^ e.n, f.amp i = k * e.amp i := by
  have hm0 : ∀ i, minusPart q e.amp i = 0 := fun i => by unfold minusPart; rw [hplus]; ring
  have hp0 : ∀ i, plusPart q e.amp i = e.amp i := fun i => by unfold plusPart; rw [hplus]; ring
  obtain ⟨b, f, f1, f2, f3, f4, k, f5⟩ := depolWeak_kraus_partial hP fresh fresh' hn hm hd hf ht hq h0 h1 r u
  have hb : b = false := by
    cases b with
    | false => rfl
    | true =>
      exfalso
      unfold totalProb kraus at f3
      simp [hm0] at f3
  subst hb
  have hv : ∀ i < 2 ^ e.n, f.amp i = k * e.amp i := fun i hi => by
    rw [f5 i hi, kraus, if_neg (by simp), hm0, hp0, mul_zero, add_zero]
  refine ⟨f, f1, k, ?_, hv⟩
  have : totalProb e.n f.amp = Complex.normSq k * totalProb e.n e.amp := by
    unfold totalProb
    rw [Finset.mul_sum]
    exact Finset.sum_congr rfl fun i hi => by rw [hv i (Finset.mem_range.1 hi), Complex.normSq_mul]
  rw [f4, ht, mul_one, Complex.normSq_eq_norm_sq] at this
  have h2 := norm_nonneg k
  nlinarith

/-- The hypotheses hold for a qubit in `|+⟩`. -/
example : Par.Ok ⟨List.reverse, 4, fun l => l % 4⟩ ∧ plusEng.n + 1 ≤ 64 ∧ plusEng.doNorm = false ∧ plusEng.floor = 0 ∧
    totalProb plusEng.n plusEng.amp = 1 ∧ ∀ i, plusEng.amp (flipBit 0 i) = plusEng.amp i := by
  refine ⟨⟨fun l => List.reverse_perm l, fun l => Nat.mod_lt _ (by norm_num)⟩, by simp [plusEng], rfl, rfl, ?_, fun _ => rfl⟩
  unfold totalProb plusEng
  have : (1 / Real.sqrt 2) * (1 / Real.sqrt 2) = 1 / 2 := by
    rw [div_mul_div_comm, Real.mul_self_sqrt (by norm_num)]; norm_num
  simp only [pow_one, Finset.sum_range_succ, Finset.sum_range_zero, Complex.normSq_ofReal, this]
  norm_num

/-! ## The version of `QTensorNetwork` -/

/-- The sign by which one Pauli operator changes the expectation value of another one. -/
def sign (Q P : PauliName) : ℝ := if Q = .I ∨ P = .I ∨ Q = P then 1 else -1

theorem bloch_pauli {n q : ℕ} (hq : q < n) (Q P : PauliName) (s : ℕ → ℂ) : bloch n P q (pauliGate Q q s) = sign Q P * bloch n P q s := by
  have key : 2 * bloch n P q (pauliGate Q q s) = sign Q P * (2 * bloch n P q s) := by
    rw [bloch_pairs hq, bloch_pairs hq, Complex.re_sum, Complex.re_sum, Finset.mul_sum]
    refine Finset.sum_congr rfl fun i _ => ?_
    have hf : (flipBit q i).testBit q = !i.testBit q := by rw [testBit_flip']; simp
    have hff : flipBit q (flipBit q i) = i := by unfold flipBit; rw [Nat.xor_assoc, Nat.xor_self, Nat.xor_zero]
    cases P <;> cases Q <;> simp only [pauliGate, gate, sign, hf, hff, if_true] <;> generalize s i = a <;> generalize s (flipBit q i) = b <;>
      cases i.testBit q <;> simp [Complex.add_re, Complex.mul_re, Complex.mul_im, Complex.conj_re, Complex.conj_im] <;> ring
  linarith

theorem integral_step {p : ℝ} (h0 : 0 ≤ p) (h1 : p ≤ 1) (A B : ℝ) : ∫ r in (0 : ℝ)..1, (if r < p then A else B) = p * A + (1 - p) * B := by
  have i1 : ∫ r in (0 : ℝ)..p, (if r < p then A else B) = p * A := by
    rw [intervalIntegral.integral_congr_Ioo_of_le h0 (g := fun _ => A) (fun r hr => by simp only [if_pos hr.2])]
    simp
  have i2 : ∫ r in p..(1 : ℝ), (if r < p then A else B) = (1 - p) * B := by
    rw [intervalIntegral.integral_congr_Ioo_of_le h1 (g := fun _ => B) (fun r hr => by simp only [if_neg (not_lt.2 hr.1.le)])]
    simp
  have ii : ∀ a b : ℝ, IntervalIntegrable (fun r => if r < p then A else B) MeasureTheory.volume a b := by
    intro a b
    rcases le_total A B with h | h
    · refine Monotone.intervalIntegrable fun r r' hr => ?_
      by_cases c : r' < p
      · simp only [if_pos c, if_pos (lt_of_le_of_lt hr c), le_refl]
      · simp only [if_neg c]; split_ifs <;> linarith
    · refine Antitone.intervalIntegrable fun r r' hr => ?_
      by_cases c : r' < p
      · simp only [if_pos c, if_pos (lt_of_le_of_lt hr c), le_refl]
      · simp only [if_neg c]; split_ifs <;> linarith
  rw [← intervalIntegral.integral_add_adjacent_intervals (ii 0 p) (ii p 1), i1, i2]

/-- The gates applied one after the other. -/
noncomputable def applyPaulis (q : ℕ) (l : List PauliName) (s : ℕ → ℂ) : ℕ → ℂ := l.foldl (fun s P => pauliGate P q s) s

/-- The expectation value after the gates. -/
theorem depolPauli_value {n q : ℕ} (hq : q < n) {x : ℝ} (h0 : 0 < x) (P : PauliName) (s : ℕ → ℂ) (r₁ r₂ r₃ : ℝ) :
    bloch n P q (applyPaulis q (depolPauli x r₁ r₂ r₃) s) =
      (if r₁ < x / 3 then sign .Z P else 1) * ((if r₂ < x / 3 then sign .X P else 1) * ((if r₃ < x / 3 then sign .Y P else 1) * bloch n P q s)) := by
  unfold depolPauli applyPaulis
  rw [if_neg (not_le.2 h0)]
  dsimp only
  split_ifs <;> simp [bloch_pauli hq]
  all_goals ring

/-- **C78**, of `QTensorNetwork`: over the draws, the expectation values of X, Y and Z are all multiplied by `(1 - 2λ/3)²`: a depolarizing channel. -/
theorem depolPauli_bloch {n q : ℕ} (hq : q < n) {x : ℝ} (h0 : 0 < x) (h1 : x ≤ 3) {P : PauliName} (hP : P ≠ .I) (s : ℕ → ℂ) :
    ∫ r₁ in (0 : ℝ)..1, ∫ r₂ in (0 : ℝ)..1, ∫ r₃ in (0 : ℝ)..1, bloch n P q (applyPaulis q (depolPauli x r₁ r₂ r₃) s) =
      (1 - 2 * x / 3) ^ 2 * bloch n P q s := by
  have hp0 : 0 ≤ x / 3 := by linarith
  have hp1 : x / 3 ≤ 1 := by linarith
  simp only [depolPauli_value hq h0, intervalIntegral.integral_const_mul, intervalIntegral.integral_mul_const, integral_step hp0 hp1]
  cases P with
  | I => exact absurd rfl hP
  | X => simp [sign]; ring
  | Y => simp [sign]; ring
  | Z => simp [sign]; ring

/-- Against C78: the channel that the comment of `QTensorNetwork` names multiplies by `1 - 4λ/3` instead, so the strength is not the one that was
asked for; and the two versions of the same method are not the same channel: for one qubit in `|+⟩` the one of `QInterface` keeps the expectation
value of X. -/
theorem depolPauli_wrong {x : ℝ} (h0 : 0 < x) (h1 : x ≤ 1) :
    (1 - 2 * x / 3) ^ 2 ≠ 1 - 4 * x / 3 ∧
    (∫ r₁ in (0 : ℝ)..1, ∫ r₂ in (0 : ℝ)..1, ∫ r₃ in (0 : ℝ)..1, bloch 1 .X 0 (applyPaulis 0 (depolPauli x r₁ r₂ r₃) plusEng.amp)) <
      factor x .X * bloch 1 .X 0 plusEng.amp := by
  constructor
  · intro h
    have : x ^ 2 = 0 := by linarith [show (1 - 2 * x / 3) ^ 2 = 1 - 4 * x / 3 + 4 / 9 * x ^ 2 by ring]
    exact h0.ne' (by simpa using this)
  · rw [depolPauli_bloch (by norm_num) h0 (by linarith) (by simp), plusEng_bloch]
    simp only [factor]
    nlinarith

end Verif.Depolarize
