import Verif.Model.Circ
import Verif.Model.EngineMeas

/-!
# Setting qubits, and the inherited measurement of a list of qubits

`SetBit` and `SetReg` of `QInterface`, which the state vector engine inherits, and the versions of `SetPermutation` and `ForceM` (of a list) that
a simulator type inherits unless it has its own, with the engine's measurement of one qubit underneath. `r` and `u` are the draws for outcomes
and phases. The calls of `X` are those of `Verif/Model/Circ.lean`.
-/

namespace Verif.Circ

open Verif.Engine

/-- `QInterface::SetBit`, `include/qinterface.hpp:2823-2828`, with `M`, `include/qinterface.hpp:1013`. -/
noncomputable def setBitM (P : Par) (e : Eng) (q : ℕ) (value : Bool) (r u : ℝ) : Option Eng :=
  (forceM P e q false false true r u).bind fun (b, e) => if value != b then run P.σ [.x q] e else some e

/-- The loop over the bits of a register that has the wrong value, `src/qinterface/qinterface.cpp:205-209`. -/
def fixReg (start length regVal value : ℕ) : List Op :=
  (List.range length).flatMap fun i => if (!regVal.testBit i) != (!value.testBit i) then [.x (start + i)] else []

/-- `QInterface::SetReg`, `src/qinterface/qinterface.cpp:193-210`, with `MReg`, `include/qinterface.hpp:2347`, and the engine's
`SetPermutation`. -/
noncomputable def setReg (P : Par) (e : Eng) (start length value : ℕ) (r u : ℝ) : Option Eng :=
  if length = 1 then setBitM P e start (value.testBit 0) r u
  else if start = 0 ∧ length = e.n then some (setPerm e value u)
  else (forceMReg P e start length 0 false true r u).bind fun (regVal, e) => run P.σ (fixReg start length regVal value) e

/-- `QInterface::SetPermutation`, `src/qinterface/qinterface.cpp:101-109`, with the engine's `MAll`. -/
noncomputable def setPermDefault (P : Par) (e : Eng) (perm : ℕ) (r u : ℝ) : Option Eng :=
  run P.σ ((List.range e.n).flatMap fun i => if (perm ^^^ (mAll P e r u).1).testBit i then [.x i] else []) (mAll P e r u).2

/-- The two loops of `QInterface::ForceM(bits, values, doApply)`, `src/qinterface/qinterface.cpp:233-242, 244-253`: forced
(`doForce`, with the values) or not (`M`, which is `ForceM(qubit, false, false)`). -/
noncomputable def measureEach (P : Par) (doForce doApply : Bool) : List (ℕ × Bool) → (r u : ℕ → ℝ) → ℕ → Eng → Option (ℕ × Eng)
  | [], _, _, result, e => some (result, e)
  | (b, v) :: l, r, u, result, e =>
    (forceM P e b v doForce doApply (r 0) (u 0)).bind fun (x, e) =>
      measureEach P doForce doApply l (fun k => r (k + 1)) (fun k => u (k + 1)) (if x then result ||| pow2 b else result) e

/-- `QInterface::ForceM(bits, values, doApply)`, `src/qinterface/qinterface.cpp:226-259`; the last case is the only entry of the map of one shot,
`src/qinterface/qinterface.cpp:805-820`. -/
noncomputable def forceMDefault (P : Par) (e : Eng) (bits : List ℕ) (values : List Bool) (doApply : Bool) (r u : ℕ → ℝ) : Option (ℕ × Eng) :=
  if values ≠ [] ∧ bits.length ≠ values.length then none
  else if values ≠ [] then measureEach P true doApply (bits.zip values) r u 0 e
  else if doApply then measureEach P false true (bits.map fun b => (b, false)) r u 0 e
  else some (sampleClone P e (bits.map pow2) (r 0) (u 0), e)

end Verif.Circ
