import Verif.Model.QCircuit

/-!
# Model of the addition that `QCircuit` appends

`src/arithmetic_qcircuit.cpp`.
-/

namespace Verif.QCirc

open Verif.Matrix2

/-- The matrix `x` of `src/arithmetic_qcircuit.cpp:29, 52`. -/
def incX : Mtrx := ⟨0, 1, 1, 0⟩

/-- The gates that `QCircuit::INC(toAdd, start, length)` appends, in order, `src/arithmetic_qcircuit.cpp:23-63`. The constructors
`QCircuitGate(trgt, matrix)` and `QCircuitGate(trgt, matrix, ctrls, perm)` are at `include/qcircuit.hpp:83-100`; the set of controls is
the range of `bits` from `i` to `i + j`. -/
def incGates (toAdd start length : ℕ) : List (Gate ℕ) :=
  if length = 0 then []
  else if length = 1 then (if toAdd &&& 1 ≠ 0 then [⟨start, [], [(0, incX)]⟩] else [])
  else (List.range length).flatMap fun i =>
    if (toAdd >>> i) &&& 1 = 0 then []
    else ⟨start + i, [], [(0, incX)]⟩ :: (List.range (length - 1 - i)).map fun j =>
      ⟨start + (i + j + 1) % length, (List.range (j + 1)).map (start + i + ·), [(0, incX)]⟩

/-- `QCircuit::INC`. -/
noncomputable def Circuit.inc (c : Circuit ℕ) (toAdd start length : ℕ) : Option (Circuit ℕ) := c.appendAll (incGates toAdd start length)

end Verif.QCirc
