import Mathlib.Data.Complex.Basic
import Mathlib.Analysis.Complex.Norm
import Mathlib.Analysis.SpecialFunctions.Pow.NNReal

/-!
# Model of `QUnit::SetQuantumState` for a register of one qubit

`src/qunit.cpp:146-193`. A register of one qubit has no unit: its shard holds two amplitudes and the basis they refer to, and a state that
is (up to the separability threshold) an eigenstate of a Pauli operator is held as a permutation state of that basis. `logFidelity` is the
logarithm of the estimate modelled here: the estimate is set to 1 (`logFidelity = 0`), a factor `p` multiplies it, and the comparison
with `FIDELITY_MIN = log(FP_NORM_EPSILON)` is a comparison with `FP_NORM_EPSILON` (a logarithm of 0 is minus infinity, below it).
-/

namespace Verif.USet

/-- `pauliBasis`, `include/qengineshard.hpp:65`. -/
inductive Basis where
  | Z | X | Y
  deriving DecidableEq

structure Shard where
  amp0 : ℂ
  amp1 : ℂ
  basis : Basis

/-- `IS_AMP_0`, `src/qunit.cpp:40`. -/
def isAmp0 (thr : ℝ) (c : ℂ) : Prop := Complex.normSq c ≤ thr

/-- `clampProb`, `include/qinterface.hpp:158-167`. -/
noncomputable def clampProb (p : ℝ) : ℝ :=
  let p := if p < 0 then 0 else p
  if 1 < p then 1 else p

open Classical in
/-- `QUnit::SetQuantumState`, `src/qunit.cpp:152-185`: the shard and the estimate of the fidelity. -/
noncomputable def setState (thr : ℝ) (in0 in1 : ℂ) : Shard × ℝ :=
  if isAmp0 thr (in0 - in1) then (⟨in0 / (‖in0‖ : ℂ), 0, .X⟩, clampProb (1 - Complex.normSq (in0 - in1)))
  else if isAmp0 thr (in0 + in1) then (⟨0, in0 / (‖in0‖ : ℂ), .X⟩, clampProb (1 - Complex.normSq (in0 + in1)))
  else if isAmp0 thr (Complex.I * in0 - in1) then (⟨in0 / (‖in0‖ : ℂ), 0, .Y⟩, clampProb (1 - Complex.normSq (Complex.I * in0 - in1)))
  else if isAmp0 thr (Complex.I * in0 + in1) then (⟨0, in0 / (‖in0‖ : ℂ), .Y⟩, clampProb (1 - Complex.normSq (Complex.I * in0 - in1)))
  else (⟨in0, in1, .Z⟩, 1)

/-- `CheckFidelity`, `include/qunit.hpp:83-92`: whether an exception is thrown (without the environment variable that disables it). -/
def throws (eps fid : ℝ) : Prop := fid ≤ eps

/-- `RevertBasis1Qb`, `include/qunit.hpp:830-839`, that is `ConvertZToX` (`:861-881`) and `ConvertYToZ` (`:907-930`), which the read-outs
call: the two amplitudes. (`ClampShard` does nothing at exact values.) -/
noncomputable def amps (s : Shard) : ℂ × ℂ :=
  let h : ℂ := ((1 / Real.sqrt 2 : ℝ) : ℂ)
  match s.basis with
  | .Z => (s.amp0, s.amp1)
  | .X => (h * (s.amp0 + s.amp1), h * (s.amp0 - s.amp1))
  | .Y => (h * s.amp0 + h * s.amp1, (h * Complex.I) * s.amp0 + (-(h * Complex.I)) * s.amp1)

end Verif.USet
