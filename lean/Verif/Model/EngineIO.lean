import Verif.Model.EngineCompose

/-!
# Model of reading and writing amplitudes, and of comparing and separating states

`src/qengine/state.cpp:62-290` (pages of amplitudes, `GetAmplitude`, `SetAmplitude`, `SetPermutation`, `SetQuantumState`,
`GetQuantumState`, `GetProbs`), `src/qengine/state.cpp:1601-1657` (`SumSqrDiff`), `src/qinterface/qinterface.cpp:834-853`
(`TryDecompose`), `include/statevector.hpp:128-218` (the loops over the array).

Here a released state vector is told apart from an array of zeros (`vec = none`). `none` as the result of an operation is
a thrown `std::invalid_argument`, except where noted.
-/

namespace Verif.Engine

open Verif.ParFor Classical

/-- A `QEngineCPU` with its array, if it has one. The other fields are as in `Eng`. -/
structure EngV where
  n : ℕ
  vec : Option (ℕ → ℂ)
  rn : ℝ
  doNorm : Bool
  rgp : Bool
  floor : ℝ

/-- The same engine with a released array read as zeros. -/
noncomputable def EngV.eng (v : EngV) : Eng :=
  { n := v.n, amp := v.vec.getD (fun _ => 0), rn := v.rn, doNorm := v.doNorm, rgp := v.rgp, floor := v.floor }

/-- `isBadPermRange` on 64-bit words, `include/common/qrack_functions.hpp:174-177`. -/
def isBadPermRange (start length maxQPower : ℕ) : Bool :=
  decide (maxQPower < (start + length) % 2 ^ 64) || decide ((start + length) % 2 ^ 64 < start)

/-- `stateVec->clear()` on a new array: `include/statevector.hpp:138-141`. -/
noncomputable def cleared (σ : List ℕ → List ℕ) (N : ℕ) (fresh : ℕ → ℂ) : ℕ → ℂ := fill σ N fresh fun _ => 0

/-- `copy_in(copyIn, offset, length)`, `include/statevector.hpp:152-161`. -/
noncomputable def copyIn (σ : List ℕ → List ℕ) (page : ℕ → ℂ) (offset length : ℕ) (a : ℕ → ℂ) : ℕ → ℂ :=
  (σ (parForPlan 0 length)).foldl (fun s lcv => Function.update s (lcv + offset) (page lcv)) a

/-- `GetAmplitudePage`, `src/qengine/state.cpp:62-76`, into an array holding `out`. -/
noncomputable def getAmplitudePage (σ : List ℕ → List ℕ) (v : EngV) (out : ℕ → ℂ) (offset length : ℕ) : Option (ℕ → ℂ) :=
  if isBadPermRange offset length (2 ^ v.n) then none
  else
    match v.vec with
    | some a => some ((σ (parForPlan 0 length)).foldl (fun s lcv => Function.update s lcv (a (lcv + offset))) out)
    | none => some ((σ (parForPlan 0 length)).foldl (fun s lcv => Function.update s lcv 0) out)

/-- `SetAmplitudePage(pagePtr, offset, length)`, `src/qengine/state.cpp:77-94`. -/
noncomputable def setAmplitudePage (σ : List ℕ → List ℕ) (fresh : ℕ → ℂ) (v : EngV) (page : ℕ → ℂ) (offset length : ℕ) :
    Option EngV :=
  if isBadPermRange offset length (2 ^ v.n) then none
  else
    let a := v.vec.getD (cleared σ (2 ^ v.n) fresh)
    some { v with vec := some (copyIn σ page offset length a), rn := if v.doNorm then defaultArg else v.rn }

/-- `SetAmplitudePage(engine, srcOffset, dstOffset, length)`, `src/qengine/state.cpp:95-128`. -/
noncomputable def setAmplitudePageFrom (σ : List ℕ → List ℕ) (fresh : ℕ → ℂ) (v src : EngV) (srcOffset dstOffset length : ℕ) :
    Option EngV :=
  if isBadPermRange dstOffset length (2 ^ v.n) then none
  else if isBadPermRange srcOffset length (2 ^ src.n) then none
  else
    match v.vec, src.vec with
    | none, none => some v
    | _, none =>
      if length = 2 ^ v.n then some { v with vec := none, rn := 0 }
      else
        let a := v.vec.getD (cleared σ (2 ^ v.n) fresh)
        some { v with vec := some (copyIn σ (fun _ => 0) dstOffset length a), rn := defaultArg }
    | _, some b =>
      let a := v.vec.getD (cleared σ (2 ^ v.n) fresh)
      some { v with vec := some (copyIn σ (fun lcv => b (srcOffset + lcv)) dstOffset length a), rn := defaultArg }

/-- `GetAmplitude`, `src/qengine/state.cpp:182-196`. -/
noncomputable def getAmplitudeV (v : EngV) (perm : ℕ) : Option ℂ :=
  if 2 ^ v.n ≤ perm then none else some (match v.vec with | none => 0 | some a => a perm)

/-- The outcome of `SetAmplitude`. -/
inductive SetResult where
  | thrown
  /-- undefined behaviour: a null pointer is dereferenced -/
  | crash
  | done (v : EngV)

/-- `SetAmplitude`, `src/qengine/state.cpp:198-220`: the old amplitude is read (line 211) before the array is allocated
(line 214). -/
noncomputable def setAmplitude (σ : List ℕ → List ℕ) (fresh : ℕ → ℂ) (v : EngV) (perm : ℕ) (amp : ℂ) : SetResult :=
  if 2 ^ v.n ≤ perm then .thrown
  else
    match v.vec with
    | none =>
      if Complex.normSq amp = 0 then .done v
      else if v.rn ≠ defaultArg then .crash
      else .done { v with vec := some (Function.update (cleared σ (2 ^ v.n) fresh) perm amp) }
    | some a =>
      .done { v with
        vec := some (Function.update a perm amp)
        rn := if v.rn ≠ defaultArg then v.rn + (Complex.normSq amp - Complex.normSq (a perm)) else v.rn }

/-- `SetPermutation`, `src/qengine/state.cpp:222-246`: `phaseFac = none` is the default argument; `draw` is the random
number used for the global phase. An index outside of the register is undefined behaviour (`none`). -/
noncomputable def setPermutationV (σ : List ℕ → List ℕ) (fresh : ℕ → ℂ) (v : EngV) (perm : ℕ) (phaseFac : Option ℂ)
    (draw : ℝ) : Option EngV :=
  let a := fill σ (2 ^ v.n) (v.vec.getD fresh) fun _ => 0
  let phase : ℂ :=
    match phaseFac with
    | none => if v.rgp then Complex.exp ((draw * 2 * Real.pi : ℝ) * Complex.I) else 1
    | some p => p / (‖p‖ : ℝ)
  if 2 ^ v.n ≤ perm then none else some { v with vec := some (Function.update a perm phase), rn := 1 }

/-- `SetQuantumState`, `src/qengine/state.cpp:249-259`. -/
noncomputable def setQuantumState (σ : List ℕ → List ℕ) (fresh : ℕ → ℂ) (v : EngV) (input : ℕ → ℂ) : EngV :=
  { v with vec := some (fill σ (2 ^ v.n) (v.vec.getD fresh) input), rn := defaultArg }

/-- `GetQuantumState`, `src/qengine/state.cpp:262-275`, into an array holding `out`. -/
noncomputable def getQuantumState (σ : List ℕ → List ℕ) (v : EngV) (out : ℕ → ℂ) : ℕ → ℂ :=
  match v.vec with
  | none => fill σ (2 ^ v.n) out fun _ => 0
  | some _ => fill σ (2 ^ v.n) out (normIf σ v.eng).amp

/-- `GetProbs`, `src/qengine/state.cpp:278-291`, into an array holding `out` (reals, seen as complex numbers). -/
noncomputable def getProbs (σ : List ℕ → List ℕ) (v : EngV) (out : ℕ → ℂ) : ℕ → ℂ :=
  match v.vec with
  | none => fill σ (2 ^ v.n) out fun _ => 0
  | some _ => fill σ (2 ^ v.n) out fun i => ((Complex.normSq ((normIf σ v.eng).amp i) : ℝ) : ℂ)

/-! ### Comparing and separating -/

/-- `partInner[cpu] += ...`, then the sum of the buffers: `src/qengine/state.cpp:1643-1654`. -/
noncomputable def reduceC (P : Par) (calls : List ℕ) (f : ℕ → ℂ) : ℂ :=
  let buff := (P.σ calls).foldl
    (fun (b : ℕ → ℂ) l => Function.update b (P.cpu l) (b (P.cpu l) + f l)) (fun _ => 0)
  ((List.range P.cores).map buff).sum

/-- `QEngineCPU::SumSqrDiff`, `src/qengine/state.cpp:1601-1657`, for two different objects that both have an array. -/
noncomputable def sumSqrDiff (P : Par) (a b : Eng) : ℝ :=
  if a.n ≠ b.n then 1
  else
    let a := normIf P.σ a
    let b := normIf P.σ b
    1 - clampProb (Complex.normSq
      (reduceC P (parForPlan 0 (2 ^ a.n)) fun lcv => (starRingEnd ℂ) (a.amp lcv) * b.amp lcv))

/-- `QEngineCPU::Copy()`, `src/qengine/utility.cpp:44-50`: the running norm of the copy is zero (`CloneEmpty` constructs an
engine of no qubits, which calls `ZeroAmplitudes`). -/
def copyE (e : Eng) : Eng := { e with rn := 0 }

/-- `QInterface::TryDecompose` on `QEngineCPU`, `src/qinterface/qinterface.cpp:834-853`: the answer, this engine, and the
destination. -/
noncomputable def tryDecompose (maxQb : ℕ) (P : Par) (fresh : ℕ → ℂ) (e : Eng) (start : ℕ) (dest : Eng) (tol : ℝ) :
    Option (Bool × Eng × Eng) :=
  (decompose P.σ fresh (copyE e) start dest).bind fun (orig, dest) =>
    let output := copyE orig
    (composeAt maxQb P.σ fresh orig dest start).map fun (orig, dest, _) =>
      let didSeparate := decide (sumSqrDiff P e orig ≤ tol)
      (didSeparate, if didSeparate then output else e, dest)

end Verif.Engine
