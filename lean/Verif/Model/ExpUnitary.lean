import Verif.Model.EngineExpect
import Verif.Model.Defaults
import Verif.Model.Matrix2

/-!
# Model of expectation values and variances in a basis that is given per qubit

`src/qinterface/qinterface.cpp:476-538` (`ExpVarUnitaryAll`, both versions), `src/qinterface/qinterface.cpp:657-711` (`VariancePauliAll`),
with the entry points `include/qinterface.hpp:2563-2592, 2668-2694`. `QEngineCPU` inherits all of them.

Simplifications, besides those of `Verif/Model/EngineExpect.lean`: the matrices are exact; a list of operators that is too short is an
access out of bounds and gives `none`, as do a singular matrix (division by zero in `inv2x2`) and an exception.
-/

namespace Verif.Engine

open Verif.Spec

/-- The default eigenvalues, `src/qinterface/qinterface.cpp:483-489, 516-522`. -/
noncomputable def eigenOr (bits : List ℕ) (eigenVals : List ℝ) : List ℝ :=
  if eigenVals = [] then bits.flatMap fun _ => [1, -1] else eigenVals

/-- `inv2x2` on the matrix type of the engine, `src/common/functions.cpp:204-211`, called at `src/qinterface/qinterface.cpp:494`. -/
noncomputable def invM (m : M2) : Option M2 :=
  (Matrix2.inv2x2 ⟨m.a, m.b, m.c, m.d⟩).map fun r => ⟨r.m0, r.m1, r.m2, r.m3⟩

/-- The first loop of the matrix version, `src/qinterface/qinterface.cpp:491-496`: the inverse of each operator. -/
noncomputable def applyInv (σ : List ℕ → List ℕ) (e : Eng) : List (ℕ × M2) → Option Eng
  | [] => some e
  | (b, m) :: l => (invM m).bind fun r => (mtrx σ e r b).bind fun e => applyInv σ e l

/-- The last loop of the matrix version, `src/qinterface/qinterface.cpp:501-504`. -/
noncomputable def applyOps (σ : List ℕ → List ℕ) (e : Eng) : List (ℕ × M2) → Option Eng
  | [] => some e
  | (b, m) :: l => (mtrx σ e m b).bind fun e => applyOps σ e l

/-- The value itself, `src/qinterface/qinterface.cpp:498-499, 529-530`. -/
noncomputable def expVarFloats (P : Par) (isExp : Bool) (e : Eng) (bits : List ℕ) (eigenVals : List ℝ) : Option (ℝ × Eng) :=
  if isExp then expectationFloats P e bits eigenVals else varianceFloats P e bits eigenVals

/-- `ExpVarUnitaryAll` for 2x2 operators, `src/qinterface/qinterface.cpp:476-507`. -/
noncomputable def expVarUnitary (P : Par) (isExp : Bool) (e : Eng) (bits : List ℕ) (ops : List M2) (eigenVals : List ℝ) :
    Option (ℝ × Eng) :=
  if bits = [] then some (1, e)
  else if ops.length < bits.length then none
  else
    (applyInv P.σ e (bits.zip ops)).bind fun e =>
      (expVarFloats P isExp e bits (eigenOr bits eigenVals)).bind fun (x, e) =>
        (applyOps P.σ e (bits.zip ops)).map fun e => (x, e)

/-- The angles in groups of three, `src/qinterface/qinterface.cpp:525-526, 533-534`. -/
def triples : List ℝ → List (ℝ × ℝ × ℝ)
  | x :: y :: z :: l => (x, y, z) :: triples l
  | _ => []

/-- The first loop of the version with three angles, `src/qinterface/qinterface.cpp:524-527`: `U` with all three angles negated. -/
noncomputable def applyNegU (σ : List ℕ → List ℕ) (e : Eng) : List (ℕ × ℝ × ℝ × ℝ) → Option Eng
  | [] => some e
  | (b, x, y, z) :: l => (mtrx σ e (Defaults.uM (-x) (-y) (-z)) b).bind fun e => applyNegU σ e l

/-- The last loop of the version with three angles, `src/qinterface/qinterface.cpp:532-535`. -/
noncomputable def applyU (σ : List ℕ → List ℕ) (e : Eng) : List (ℕ × ℝ × ℝ × ℝ) → Option Eng
  | [] => some e
  | (b, x, y, z) :: l => (mtrx σ e (Defaults.uM x y z) b).bind fun e => applyU σ e l

/-- `ExpVarUnitaryAll` for operators given by three angles, `src/qinterface/qinterface.cpp:509-538`. -/
noncomputable def expVarAngles (P : Par) (isExp : Bool) (e : Eng) (bits : List ℕ) (ops : List ℝ) (eigenVals : List ℝ) :
    Option (ℝ × Eng) :=
  if bits = [] then some (1, e)
  else if (triples ops).length < bits.length then none
  else
    (applyNegU P.σ e (bits.zip (triples ops))).bind fun e =>
      (expVarFloats P isExp e bits (eigenOr bits eigenVals)).bind fun (x, e) =>
        (applyU P.σ e (bits.zip (triples ops))).map fun e => (x, e)

/-- `QInterface::VariancePauliAll`, `src/qinterface/qinterface.cpp:657-711`. -/
noncomputable def variancePauli (P : Par) (e : Eng) (bits : List ℕ) (paulis : List PauliName) : Option (ℝ × Eng) :=
  let (bits, paulis) := dropIdentities bits.length 0 bits paulis
  if bits = [] then some (1, e)
  else
    (toBasis P.σ e (bits.zip paulis)).bind fun e =>
      (varianceFloats P e bits (bits.flatMap fun _ => [1, -1])).bind fun (x, e) =>
        (fromBasis P.σ e (bits.zip paulis)).map fun e => (x, e)

end Verif.Engine
