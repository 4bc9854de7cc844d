import Verif.Model.Defaults
import Mathlib.Analysis.SpecialFunctions.Pow.Real

/-!
# `QNeuron`

`include/qneuron.hpp`. The neuron rotates its output qubit about the Y axis by an angle that the values of the input qubits select.

Simplifications:
* angles and probabilities are real numbers; `erf` of the C library is a parameter;
* the array of angles is a function of the index, of which the first `2^k` values belong to the array (`k` inputs); `assign` is about
  the length of that array;
* `RY`, `UniformlyControlledRY` and `X` are the default bodies of `Verif/Model/Defaults.lean`; `Prob` and `M` are operations of the
  simulator type.
-/

namespace Verif.Neuron

open Verif.Defaults Classical

/-- The simulator behind `qReg`, `include/qneuron.hpp:34`: its gates, `Prob` and `M` (`include/qinterface.hpp:1013, 2453`). -/
structure Reg (S : Type) where
  B : Backend S
  prob : S → ℕ → Option ℝ
  m : S → ℕ → Option (Bool × S)

/-- `QNeuronActivationFn`, `include/common/qneuron_activation_function.hpp:19-30`. -/
inductive Fn where
  | sigmoid | relu | gelu | logistic | leaky
  deriving DecidableEq

/-- The members of `QNeuron`, `include/qneuron.hpp:27-34`. -/
structure Neuron where
  inputs : List ℕ
  output : ℕ
  fn : Fn
  alpha : ℝ
  tol : ℝ
  angles : ℕ → ℝ

variable {S : Type} (R : Reg S) (erf : ℝ → ℝ)

/-- `applyRelu`, `negApplyRelu`, `include/qneuron.hpp:36-38`. -/
noncomputable def applyRelu (a : ℝ) : ℝ := max 0 a
noncomputable def negApplyRelu (a : ℝ) : ℝ := -max 0 a

/-- `applyGelu`, `negApplyGelu`, `include/qneuron.hpp:40-42`. -/
noncomputable def applyGelu (a : ℝ) : ℝ := a * (1 + erf (a * Real.sqrt (1 / 2)))
noncomputable def negApplyGelu (a : ℝ) : ℝ := -a * (1 + erf (a * Real.sqrt (1 / 2)))

/-- `applyAlpha`, `include/qneuron.hpp:44-56`. -/
noncomputable def applyAlpha (a alpha : ℝ) : ℝ :=
  let (a, r) : ℝ × ℝ := if a > Real.pi then (a - Real.pi, Real.pi) else if a ≤ -Real.pi then (a + Real.pi, -Real.pi) else (a, 0)
  r + ((2 * |a| / Real.pi) ^ alpha * (Real.pi / 2) * (if a < 0 then -1 else 1))

/-- `applyLeakyRelu`, `include/qneuron.hpp:58`. -/
noncomputable def applyLeakyRelu (a alpha : ℝ) : ℝ := max (alpha * a) a

/-- `fmod` of the C library: the remainder of the division that rounds towards zero. -/
noncomputable def fmod (x y : ℝ) : ℝ := x - y * (if 0 ≤ x / y then (⌊x / y⌋ : ℝ) else (⌈x / y⌉ : ℝ))

/-- `clampAngle`, `include/qneuron.hpp:60-71`. -/
noncomputable def clampAngle (a : ℝ) : ℝ :=
  let a := fmod a (4 * Real.pi)
  if a ≤ -2 * Real.pi then a + 4 * Real.pi else if a > 2 * Real.pi then a - 4 * Real.pi else a

/-- The angle `Predict` rotates by, `include/qneuron.hpp:153-196`. -/
noncomputable def turn (nn : Neuron) (a : ℝ) : ℝ :=
  match nn.fn with
  | .relu => applyRelu a
  | .gelu => applyGelu erf a
  | .logistic => applyAlpha a nn.alpha
  | .leaky => applyLeakyRelu a nn.alpha
  | .sigmoid => a

/-- The angle `Unpredict` rotates by, `include/qneuron.hpp:207-252`. -/
noncomputable def unturn (nn : Neuron) (a : ℝ) : ℝ :=
  match nn.fn with
  | .relu => negApplyRelu a
  | .gelu => negApplyGelu erf a
  | .logistic => -applyAlpha a nn.alpha
  | .leaky => -applyLeakyRelu a nn.alpha
  | .sigmoid => -a

/-- `SetBit`, `include/qinterface.hpp:2823-2828`. -/
noncomputable def setBit (s : S) (q : ℕ) (value : Bool) : Option S :=
  (R.m s q).bind fun (r, s) => if value ≠ r then exec R.B (x q) s else some s

/-- The rotations of the output qubit, `include/qneuron.hpp:153-196, 207-252`. -/
noncomputable def rotate (nn : Neuron) (f : ℝ → ℝ) (s : S) : Option S :=
  if nn.inputs = [] then exec R.B (ry (f (nn.angles 0)) nn.output) s
  else exec R.B (uniformRY nn.inputs nn.output fun v => f (nn.angles v)) s

/-- The probability that is returned, `include/qneuron.hpp:197-201, 253-257`. -/
noncomputable def result (nn : Neuron) (expected : Bool) (s : S) : Option ℝ :=
  (R.prob s nn.output).map fun p => if expected then p else 1 - p

/-- `Predict` with `resetInit` false, `include/qneuron.hpp:146-202`. -/
noncomputable def predict (nn : Neuron) (expected : Bool) (s : S) : Option (ℝ × S) :=
  (rotate R nn (turn erf nn) s).bind fun s => (result R nn expected s).map fun p => (p, s)

/-- What `resetInit` does, `include/qneuron.hpp:148-151`. -/
noncomputable def reset (nn : Neuron) (s : S) : Option S :=
  (setBit R s nn.output false).bind fun s => exec R.B (ry (Real.pi / 2) nn.output) s

/-- `Unpredict`, `include/qneuron.hpp:205-258`. -/
noncomputable def unpredict (nn : Neuron) (expected : Bool) (s : S) : Option (ℝ × S) :=
  (rotate R nn (unturn erf nn) s).bind fun s => (result R nn expected s).map fun p => (p, s)

/-- `LearnCycle`, `include/qneuron.hpp:260-265`. -/
noncomputable def learnCycle (nn : Neuron) (expected : Bool) (s : S) : Option (ℝ × S) :=
  (predict R erf nn expected s).bind fun (p, s) => (unpredict R erf nn expected s).map fun (_, s) => (p, s)

/-- Writing one angle. -/
def Neuron.put (nn : Neuron) (v : ℕ) (a : ℝ) : Neuron := { nn with angles := Function.update nn.angles v a }

/-- `LearnInternal`, `include/qneuron.hpp:319-354`: `none` in place of the probability is the returned -1. -/
noncomputable def learnInternal (nn : Neuron) (expected : Bool) (eta : ℝ) (perm : ℕ) (startProb : ℝ) (s : S) :
    Option (Option ℝ × Neuron × S) :=
  let orig := nn.angles perm
  let plus := nn.put perm (orig + eta * Real.pi)
  (learnCycle R erf plus expected s).bind fun (plusProb, s) =>
    if 1 - plusProb ≤ nn.tol then some (none, plus.put perm (clampAngle (plus.angles perm)), s)
    else
      let minus := nn.put perm (orig - eta * Real.pi)
      (learnCycle R erf minus expected s).bind fun (minusProb, s) =>
        if 1 - minusProb ≤ nn.tol then some (none, minus.put perm (clampAngle (minus.angles perm)), s)
        else if startProb ≥ plusProb ∧ startProb ≥ minusProb then some (some startProb, nn.put perm orig, s)
        else if plusProb > minusProb then some (some plusProb, nn.put perm (orig + eta * Real.pi), s)
        else some (some minusProb, minus, s)

/-- The loop of `Learn`, `include/qneuron.hpp:283-288`: `perms` are the permutations still to be trained. -/
noncomputable def learnLoop (expected : Bool) (eta : ℝ) : List ℕ → ℝ → Neuron → S → Option (Neuron × S)
  | [], _, nn, s => some (nn, s)
  | v :: vs, p, nn, s => (learnInternal R erf nn expected eta v p s).bind fun (p', nn, s) =>
    match p' with
    | none => some (nn, s)
    | some p' => if 0 > p' then some (nn, s) else learnLoop expected eta vs p' nn s

/-- `Learn` with `resetInit` false, `include/qneuron.hpp:275-289`. -/
noncomputable def learn (nn : Neuron) (eta : ℝ) (expected : Bool) (s : S) : Option (Neuron × S) :=
  (predict R erf nn expected s).bind fun (p, s) => (unpredict R erf nn expected s).bind fun (_, s) =>
    if 1 - p ≤ nn.tol then some (nn, s) else learnLoop R erf expected eta (List.range (2 ^ nn.inputs.length)) p nn s

/-- The measurement of the inputs, `include/qneuron.hpp:308-313`: bit `j` of the permutation is the input `j`. -/
noncomputable def measure : List ℕ → S → Option (ℕ × S)
  | [], s => some (0, s)
  | q :: qs, s => (R.m s q).bind fun (b, s) => (measure qs s).map fun (v, s) => ((if b then 1 else 0) + 2 * v, s)

/-- `LearnPermutation` with `resetInit` false, `include/qneuron.hpp:300-316`. -/
noncomputable def learnPermutation (nn : Neuron) (eta : ℝ) (expected : Bool) (s : S) : Option (Neuron × S) :=
  (predict R erf nn expected s).bind fun (p, s) => (unpredict R erf nn expected s).bind fun (_, s) =>
    if 1 - p ≤ nn.tol then some (nn, s)
    else (measure R nn.inputs s).bind fun (perm, s) => (learnInternal R erf nn expected eta perm p s).map fun (_, nn, s) => (nn, s)

/-- A neuron with its array of angles as it lies in memory; `inputPower` is a member of its own, `include/qneuron.hpp:27, 33`. -/
structure Raw where
  inputPower : ℕ
  inputs : List ℕ
  angles : List ℝ

/-- The constructor, `include/qneuron.hpp:84-95`. -/
def make (inputs : List ℕ) : Raw := ⟨2 ^ inputs.length, inputs, List.replicate (2 ^ inputs.length) 0⟩

/-- `std::copy` of `n` numbers into an array: `none` if it would read or write past an end. -/
def copyInto (dst src : List ℝ) (n : ℕ) : Option (List ℝ) :=
  if n ≤ src.length ∧ n ≤ dst.length then some (src.take n ++ dst.drop n) else none

/-- The copy constructor, `include/qneuron.hpp:98-103`. -/
def copy (r : Raw) : Option Raw :=
  let new := make r.inputs
  (copyInto new.angles r.angles r.inputPower).map fun a => { new with angles := a }

/-- `operator=`, `include/qneuron.hpp:105-116`: it does not touch `inputPower`, nor the length of the array. -/
def assign (dst src : Raw) : Option Raw :=
  (copyInto dst.angles src.angles src.inputPower).map fun a => { dst with inputs := src.inputs, angles := a }

/-- `GetAngles`, `include/qneuron.hpp:134`. -/
def getAngles (r : Raw) : Option (List ℝ) := if r.inputPower ≤ r.angles.length then some (r.angles.take r.inputPower) else none

end Verif.Neuron
