import Verif.Model.EngineMeas
import Verif.Spec.Born

/-!
# Model of expectation values and variances

`src/qinterface/qinterface.cpp:540-803` (the defaults of `QInterface`, which `QEngineCPU` uses),
`include/qinterface.hpp:210-220` and `src/qengine/utility.cpp:68-84`.

Simplifications, besides those of `Verif/Model/EngineMeas.lean`: real numbers are exact (`bi_to_double` does not
round); `bitCapInt` is the default 128-bit unsigned integer, and sums wrap around.
-/

namespace Verif.Engine

open Verif.ParFor Verif.Spec Classical

/-- The common argument checks, e.g. `src/qinterface/qinterface.cpp:543-550`. `true` means that they throw. -/
def badArgs {α : Type} (e : Eng) (bits : List ℕ) (weights : List α) : Bool :=
  decide (weights.length < bits.length <<< 1) || Utils.throwIfBad bits e.n

/-- The inner loop, `src/qinterface/qinterface.cpp:567-570`: `retIndex`, a 128-bit unsigned integer. -/
def retIndex (bits perms : List ℕ) (offset lcv : ℕ) : ℕ :=
  (bits.map pow2).zipIdx.foldl (fun r (q, p) =>
    (r + if lcv &&& q ≠ 0 then perms.getD ((p <<< 1) ||| 1) 0 else perms.getD (p <<< 1) 0) % 2 ^ 128) offset

/-- `QInterface::ExpectationBitsFactorized`, `src/qinterface/qinterface.cpp:540-575`. -/
noncomputable def expectationBits (P : Par) (e : Eng) (bits perms : List ℕ) (offset : ℕ) : Option (ℝ × Eng) :=
  if badArgs e bits perms then none
  else match bits with
  | [] => some (1, e)
  | [b] => (prob P e b).map fun (p, e) =>
      ((((perms.getD 0 0 + offset) % 2 ^ 128 : ℕ) : ℝ) * (1 - p) + (((perms.getD 1 0 + offset) % 2 ^ 128 : ℕ) : ℝ) * p, e)
  | bits => some (((List.range (2 ^ e.n)).map fun lcv => (retIndex bits perms offset lcv : ℝ) * probAll e lcv).sum, e)

/-- `QInterface::VarianceBitsFactorized`, `src/qinterface/qinterface.cpp:577-616`. -/
noncomputable def varianceBits (P : Par) (e : Eng) (bits perms : List ℕ) (offset : ℕ) : Option (ℝ × Eng) :=
  if badArgs e bits perms then none
  else match bits with
  | [] => some (1, e)
  | [b] => (expectationBits P e [b] perms offset).bind fun (m, e) => (prob P e b).map fun (p, e) =>
      let diff0 := (((perms.getD 0 0 + offset) % 2 ^ 128 : ℕ) : ℝ) - m
      let diff1 := (((perms.getD 1 0 + offset) % 2 ^ 128 : ℕ) : ℝ) - m
      (diff0 * diff0 * (1 - p) + diff1 * diff1 * p, e)
  | bits => (expectationBits P e bits perms offset).map fun (m, e) =>
      (((List.range (2 ^ e.n)).map fun lcv =>
        let diff := (retIndex bits perms offset lcv : ℝ) - m
        diff * diff * probAll e lcv).sum, e)

/-- The vector `perms` of `ExpVarBitsAll`, `include/qinterface.hpp:212-217`. -/
def bitPerms (bits : List ℕ) : List ℕ := (List.range bits.length).flatMap fun i => [0, pow2 i]

/-- `ExpVarBitsAll`, `include/qinterface.hpp:210-220`. -/
noncomputable def expVarBitsAll (P : Par) (e : Eng) (isExp : Bool) (bits : List ℕ) (offset : ℕ) : Option (ℝ × Eng) :=
  if isExp then expectationBits P e bits (bitPerms bits) offset else varianceBits P e bits (bitPerms bits) offset

/-- `QInterface::ExpectationFloatsFactorized`, `src/qinterface/qinterface.cpp:769-803`. -/
noncomputable def expectationFloats (P : Par) (e : Eng) (bits : List ℕ) (weights : List ℝ) : Option (ℝ × Eng) :=
  if badArgs e bits weights then none
  else match bits with
  | [] => some (1, e)
  | [b] => (prob P e b).map fun (p, e) => (weights.getD 0 0 * (1 - p) + weights.getD 1 0 * p, e)
  | bits => some (((List.range (2 ^ e.n)).map fun lcv =>
      ((bits.map pow2).zipIdx.foldl (fun w (q, p) =>
        w + if lcv &&& q ≠ 0 then weights.getD ((p <<< 1) ||| 1) 0 else weights.getD (p <<< 1) 0) 0) * probAll e lcv).sum, e)

/-- `QInterface::VarianceFloatsFactorized`, `src/qinterface/qinterface.cpp:618-655`: the loop for two or more bits
multiplies the weights and does not use the mean. -/
noncomputable def varianceFloats (P : Par) (e : Eng) (bits : List ℕ) (weights : List ℝ) : Option (ℝ × Eng) :=
  if badArgs e bits weights then none
  else match bits with
  | [] => some (1, e)
  | [b] => (expectationFloats P e [b] weights).bind fun (m, e) => (prob P e b).map fun (p, e) =>
      let var0 := weights.getD 0 0 - m
      let var1 := weights.getD 1 0 - m
      (var0 * var0 * (1 - p) + var1 * var1 * p, e)
  | bits => (expectationFloats P e bits weights).map fun (_, e) =>
      (((List.range (2 ^ e.n)).map fun lcv =>
        ((bits.map pow2).zipIdx.foldl (fun w (q, p) =>
          w * if lcv &&& q = 0 then weights.getD (p <<< 1) 0 else weights.getD ((p <<< 1) ||| 1) 0) 1) * probAll e lcv).sum, e)

/-- The loop that drops identities, `src/qinterface/qinterface.cpp:715-721`: `i` counts up while the vectors shrink. -/
def dropIdentities : ℕ → ℕ → List ℕ → List PauliName → List ℕ × List PauliName
  | 0, _, bits, paulis => (bits, paulis)
  | fuel + 1, i, bits, paulis =>
    if i < bits.length then
      let j := bits.length - (i + 1)
      if paulis[j]? = some .I then dropIdentities fuel (i + 1) (bits.eraseIdx j) (paulis.eraseIdx j)
      else dropIdentities fuel (i + 1) bits paulis
    else (bits, paulis)

/-- `H`, `include/qinterface.hpp:913-918`. -/
noncomputable def gateH (σ : List ℕ → List ℕ) (e : Eng) (q : ℕ) : Option Eng :=
  mtrx σ e ⟨((1 / Real.sqrt 2 : ℝ) : ℂ), ((1 / Real.sqrt 2 : ℝ) : ℂ), ((1 / Real.sqrt 2 : ℝ) : ℂ),
    -((1 / Real.sqrt 2 : ℝ) : ℂ)⟩ q

/-- The change of basis before the measurement, `src/qinterface/qinterface.cpp:729-745`. -/
noncomputable def toBasis (σ : List ℕ → List ℕ) (e : Eng) : List (ℕ × PauliName) → Option Eng
  | [] => some e
  | (b, .X) :: l => (gateH σ e b).bind fun e => toBasis σ e l
  | (b, .Y) :: l => ((phase σ e 1 (-Complex.I) b).bind fun e => gateH σ e b).bind fun e => toBasis σ e l
  | _ :: l => toBasis σ e l

/-- The change back, `src/qinterface/qinterface.cpp:749-764`. -/
noncomputable def fromBasis (σ : List ℕ → List ℕ) (e : Eng) : List (ℕ × PauliName) → Option Eng
  | [] => some e
  | (b, .X) :: l => (gateH σ e b).bind fun e => fromBasis σ e l
  | (b, .Y) :: l => ((gateH σ e b).bind fun e => phase σ e 1 Complex.I b).bind fun e => fromBasis σ e l
  | _ :: l => fromBasis σ e l

/-- `QInterface::ExpectationPauliAll`, `src/qinterface/qinterface.cpp:713-767`. -/
noncomputable def expectationPauli (P : Par) (e : Eng) (bits : List ℕ) (paulis : List PauliName) : Option (ℝ × Eng) :=
  let (bits, paulis) := dropIdentities bits.length 0 bits paulis
  if bits = [] then some (1, e)
  else
    (toBasis P.σ e (bits.zip paulis)).bind fun e =>
      (expectationFloats P e bits (bits.flatMap fun _ => [1, -1])).bind fun (x, e) =>
        (fromBasis P.σ e (bits.zip paulis)).map fun e => (x, e)

/-- `QEngineCPU::GetExpectation`, `src/qengine/utility.cpp:68-84`. -/
noncomputable def getExpectation (e : Eng) (valueStart valueLength : ℕ) : ℝ :=
  let outputMask := (2 ^ valueLength - 1) <<< valueStart
  let r := (List.range (2 ^ e.n)).foldl (fun (acc : ℝ × ℝ) i =>
    let outputInt := (i &&& outputMask) >>> valueStart
    let p := Complex.normSq (e.amp i)
    (acc.1 + p * (outputInt : ℝ), acc.2 + p)) (0, 0)
  if r.2 > 0 then r.1 / r.2 else r.1

end Verif.Engine
