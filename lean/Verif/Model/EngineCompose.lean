import Verif.Model.EngineMeas
import Mathlib.Analysis.SpecialFunctions.Complex.Arg

/-!
# Model of joining and splitting state vectors

`src/qengine/state.cpp:924-1319`, `QEngineCPU::Compose`, `DecomposeDispose`, `Decompose`, `Dispose`.

Simplifications, besides those of `Verif/Model/Engine.lean`:
* a newly allocated array holds arbitrary values `fresh` (the code does not initialise it);
* the limit `QRACK_MAX_CPU_QB_DEFAULT` is the parameter `maxQb`, and `none` is the thrown exception;
* in `DecomposeDispose` workers add to shared cells without synchronisation
  (`partStateAngle[k] += ...` in the loop over the remainder, `remainderStateAngle[k] += ...` in the loop over the part):
  a data race. The model lets the additions happen one after the other, in any order of the calls;
* `std::arg` is the exact argument in `(-π, π]` (no signed zeros).
-/

namespace Verif.Engine

open Verif.ParFor Classical

/-- `par_for(0, N, [&](lcv) { nStateVec->write(lcv, f(lcv)); })` on an array holding `fresh`: for instance
`src/qengine/state.cpp:984-986`. -/
noncomputable def fill (σ : List ℕ → List ℕ) (N : ℕ) (fresh f : ℕ → ℂ) : ℕ → ℂ :=
  (σ (parForPlan 0 N)).foldl (fun s lcv => Function.update s lcv (f lcv)) fresh

/-- `QEngineCPU::Compose(toCopy)`, `src/qengine/state.cpp:929-993`. The result is this engine, the other engine (it may
have been normalised), and the position. -/
noncomputable def compose (maxQb : ℕ) (σ : List ℕ → List ℕ) (fresh : ℕ → ℂ) (a b : Eng) : Option (Eng × Eng × ℕ) :=
  if b.n = 0 then some (a, b, a.n)
  else if maxQb < a.n + b.n then none
  else if a.n = 0 then some ({ a with n := b.n, rn := b.rn, amp := b.amp }, b, 0)
  else
    let startMask := 2 ^ a.n - 1
    let endMask := (2 ^ b.n - 1) <<< a.n
    let a' := normIf σ a
    let b' := if b.doNorm ∧ b.rn ≠ 1 then normalizeState σ b else b
    some ({ a' with
            n := a.n + b.n
            amp := fill σ (2 ^ (a.n + b.n)) fresh fun lcv =>
              a'.amp (lcv &&& startMask) * b'.amp ((lcv &&& endMask) >>> a.n) }, b', a.n)

/-- `QEngineCPU::Compose(toCopy, start)`, `src/qengine/state.cpp:999-1059`. -/
noncomputable def composeAt (maxQb : ℕ) (σ : List ℕ → List ℕ) (fresh : ℕ → ℂ) (a b : Eng) (start : ℕ) :
    Option (Eng × Eng × ℕ) :=
  if a.n < start then none
  else if a.n = 0 then (compose maxQb σ fresh a b).map fun r => (r.1, r.2.1, 0)
  else if b.n = 0 then some (a, b, a.n)
  else if maxQb < a.n + b.n then none
  else
    let startMask := 2 ^ start - 1
    let midMask := (2 ^ b.n - 1) <<< start
    let endMask := (2 ^ (a.n + b.n) - 1) &&& ((2 ^ 64 - 1) ^^^ (startMask ||| midMask))
    let a' := normIf σ a
    let b' := normIf σ b
    some ({ a' with
            n := a.n + b.n
            amp := fill σ (2 ^ (a.n + b.n)) fresh fun lcv =>
              a'.amp ((lcv &&& startMask) ||| ((lcv &&& endMask) >>> b.n)) * b'.amp ((lcv &&& midMask) >>> start) },
          b', start)

/-- The masks and offsets of `QEngineCPU::Compose(std::vector)`, `src/qengine/state.cpp:1085-1096`: for each register its
offset, its mask and its (normalised) state, starting with `nQubitCount` qubits. -/
noncomputable def composePlan (σ : List ℕ → List ℕ) (nQubitCount : ℕ) : List Eng → List (ℕ × ℕ × (ℕ → ℂ))
  | [] => []
  | src :: srcs =>
    (nQubitCount, (2 ^ src.n - 1) <<< nQubitCount, (normIf σ src).amp) :: composePlan σ (nQubitCount + src.n) srcs

/-- `QEngineCPU::Compose(std::vector)`, `src/qengine/state.cpp:1069-1114`: this engine and the positions. -/
noncomputable def composeMany (σ : List ℕ → List ℕ) (fresh : ℕ → ℂ) (a : Eng) (bs : List Eng) : Eng × List ℕ :=
  let a' := normIf σ a
  let plan := composePlan σ a.n bs
  let nQubitCount := a.n + (bs.map Eng.n).sum
  ({ a' with
     n := nQubitCount
     amp := fill σ (2 ^ nQubitCount) fresh fun lcv =>
       plan.foldl (fun z p => z * p.2.2 ((lcv &&& p.2.1) >>> p.1)) (a'.amp (lcv &&& (2 ^ a.n - 1))) },
    plan.map (·.1))

/-- The pattern `array[i] += x` on an array of zeros, one addition after the other:
`src/qengine/state.cpp:1174-1216`. -/
noncomputable def accumulate (l : List (ℕ × ℝ)) : ℕ → ℝ :=
  l.foldl (fun s p => Function.update s p.1 (s p.1 + p.2)) (fun _ => 0)

/-- `src/qengine/state.cpp:1178-1179`: where basis state `lcv` of the remainder is found in the whole. -/
def remIdx (start length lcv : ℕ) : ℕ :=
  let j := lcv &&& (2 ^ start - 1)
  j ||| ((lcv ^^^ j) <<< length)

/-- `src/qengine/state.cpp:1189-1194`. -/
def partIdx (start length lcv k : ℕ) : ℕ :=
  let l := k &&& (2 ^ start - 1)
  l ||| ((lcv <<< start) ||| ((k ^^^ l) <<< length))

/-- `if (nrm > amplitudeFloor) ... += arg(amp) * nrm`: `src/qengine/state.cpp:1182-1184`. -/
noncomputable def argTerm (floor : ℝ) (z : ℂ) : ℝ :=
  if floor < Complex.normSq z then Complex.arg z * Complex.normSq z else 0

/-- `if (prob > amplitudeFloor) angle /= prob`: `src/qengine/state.cpp:1204-1207`. -/
noncomputable def meanAngle (floor prob angle : ℝ) : ℝ := if floor < prob then angle / prob else angle

/-- `std::polar(std::sqrt(prob), angle)` -/
noncomputable def polar (prob angle : ℝ) : ℂ := Real.sqrt prob * Complex.exp (angle * Complex.I)

/-- `QEngineCPU::DecomposeDispose`, `src/qengine/state.cpp:1123-1268`: this engine
and the amplitudes given to the destination, if there is one. -/
noncomputable def decomposeDispose (σ : List ℕ → List ℕ) (fresh : ℕ → ℂ) (e : Eng) (start length : ℕ) :
    Option (Eng × (ℕ → ℂ)) :=
  if e.n < start + length then none
  else if length = 0 then some (e, fresh)
  else if e.n - length = 0 then some ({ e with n := 0, amp := fun _ => 0 }, e.amp)
  else
    let nLength := e.n - length
    let partPower := 2 ^ length
    let remainderPower := 2 ^ nLength
    let e' := normIf σ e
    let remCalls := σ (parForPlan 0 remainderPower)
    let partCalls := σ (parForPlan 0 partPower)
    let remProb := accumulate (remCalls.flatMap fun lcv => (List.range partPower).map fun k =>
      (lcv, Complex.normSq (e'.amp (remIdx start length lcv ||| (k <<< start)))))
    let partAngle := accumulate (remCalls.flatMap fun lcv => (List.range partPower).map fun k =>
      (k, argTerm e.floor (e'.amp (remIdx start length lcv ||| (k <<< start)))))
    let partProb := accumulate (partCalls.flatMap fun lcv => (List.range remainderPower).map fun k =>
      (lcv, Complex.normSq (e'.amp (partIdx start length lcv k))))
    let remAngle := accumulate (partCalls.flatMap fun lcv => (List.range remainderPower).map fun k =>
      (k, argTerm e.floor (e'.amp (partIdx start length lcv k))))
    some ({ e' with
            n := nLength
            amp := fill σ remainderPower fresh fun lcv =>
              polar (remProb lcv) (meanAngle e.floor (remProb lcv) (remAngle lcv)) },
          fill σ partPower fresh fun lcv =>
            polar (partProb lcv) (meanAngle e.floor (partProb lcv) (partAngle lcv)))

/-- `QEngineCPU::Decompose`, `src/qengine/state.cpp:1270-1273`: the length is the size of the destination. -/
noncomputable def decompose (σ : List ℕ → List ℕ) (fresh : ℕ → ℂ) (e : Eng) (start : ℕ) (dest : Eng) :
    Option (Eng × Eng) :=
  (decomposeDispose σ fresh e start dest.n).map fun r =>
    (r.1, if dest.n = 0 then dest else { dest with amp := r.2 })

/-- `QEngineCPU::Dispose(start, length)`, `src/qengine/state.cpp:1275-1278`: with no destination the same remainder is
computed (lines 1217-1252). -/
noncomputable def dispose (σ : List ℕ → List ℕ) (fresh : ℕ → ℂ) (e : Eng) (start length : ℕ) : Option Eng :=
  (decomposeDispose σ fresh e start length).map (·.1)

/-- `QEngineCPU::Dispose(start, length, disposedPerm)`, `src/qengine/state.cpp:1280-1320`. When nothing is left the qubit
count becomes one although the array has a single cell. -/
noncomputable def disposePerm (σ : List ℕ → List ℕ) (fresh : ℕ → ℂ) (e : Eng) (start length perm : ℕ) : Option Eng :=
  if e.n < start + length then none
  else if length = 0 then some e
  else
    let nLength := e.n - length
    let skipMask := 2 ^ start - 1
    let disposedRes := perm <<< start
    let e' := normIf σ e
    some { e' with
      n := if nLength = 0 then 1 else nLength
      amp := fill σ (2 ^ nLength) fresh fun iHigh =>
        let iLow := iHigh &&& skipMask
        e'.amp (iLow ||| ((iHigh ^^^ iLow) <<< length) ||| disposedRes) }

end Verif.Engine
