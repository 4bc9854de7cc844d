import Verif.Model.UnitEntangle
import Verif.Model.EngineUniform

/-!
# Model of the uniformly controlled gates of `QUnit`

`QUnit::UniformlyControlledSingleBit`, `src/qunit.cpp:1919-2010`. Controls that are known to be clear or set are not given to the unit:
the unit is told to skip their positions in the index of the matrix, and which of them are set. The attempts at separating qubits at the
end (`:1994-2009`, C83) and the classical shadow taken when memory does not suffice are left out.
-/

namespace Verif.QUE

open Verif.Spec Verif.Engine

/-- The positions of the controls that are known, `skipPowers` of `src/qunit.cpp:1934-1946` without the `pow2`. -/
def skipped (known : ℕ → Option Bool) (cs : List ℕ) : List ℕ :=
  (List.range cs.length).filter fun j => (known (cs.getD j 0)).isSome

/-- The positions of the controls that are known to be set, as a mask: `skipValueMask` of `src/qunit.cpp:1934-1946`, and
`GetCachedPermutation(controls)`, `:926-935`, when all of them are known. -/
def knownOnes (known : ℕ → Option Bool) (cs : List ℕ) : ℕ :=
  maskOf ((List.range cs.length).filter fun j => known (cs.getD j 0) = some true)

/-- What `UniformlyControlledSingleBit` of the engine does to the state of a unit, `src/qengine/state.cpp:761-864`
(`Verif.Engine.uniformlyControlled`, C50). -/
noncomputable def uniformUnit (controls : List ℕ) (t : ℕ) (ms : ℕ → M2) (skipPowers : List ℕ) (skipVal : ℕ) (s : ℕ → ℂ) (j : ℕ) : ℂ :=
  let m := ms (ucIndex skipPowers skipVal (ctrlOffset controls j))
  gate (fun _ => True) t m.a m.b m.c m.d s j

/-- `QUnit::UniformlyControlledSingleBit`, `src/qunit.cpp:1919-2010`. `known` is what `CheckBitsPermutation` and `SHARD_STATE` say about
a qubit; `none` stands for an exception. The last two arguments, the positions of the matrix index to be skipped and the bits to be put
there, are not used. -/
noncomputable def Reg.uniform (R : Reg) (known : ℕ → Option Bool) (controls : List ℕ) (t : ℕ) (ms : ℕ → M2) (_mtrxSkip : List ℕ)
    (_mtrxSkipVal : ℕ) : Option Reg :=
  let one (m : M2) : Reg := R.act (R.unit t) (gate (fun _ => True) (R.pos t) m.a m.b m.c m.d)
  if R.n ≤ t then none
  else if controls = [] then some (one (ms 0))
  else if Utils.throwIfBad controls R.n then none
  else
    let trimmed := controls.filter (known · = none)
    if trimmed = [] then some (one (ms (knownOnes known controls)))
    else
      let s := R.entangle ((trimmed ++ [t]).mergeSort (· ≤ ·))
      some (s.1.act s.2.1 (uniformUnit (trimmed.map s.1.pos) (s.1.pos t) ms ((skipped known controls).map (2 ^ ·)) (knownOnes known controls)))

end Verif.QUE
