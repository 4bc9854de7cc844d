import Verif.Model.EngineMeas
import Verif.Model.Utils

/-!
# Sampling many shots

`src/qengine/qengine.cpp:543-610` (`QEngine::MultiShotMeasureMask`, the map and the array version) and
`src/qinterface/qinterface.cpp:805-832` (the versions of `QInterface`, one cloned simulator per shot).

Simplified: `std::discrete_distribution` is inversion of the cumulated weights (the standard fixes only its
probabilities), and the generator of a shot is a uniform draw `r shot ∈ [0, 1)`. Everything is exact. A `std::map` from
values to counts is a function that is `0` where there is no entry.
-/

namespace Verif.Engine

open Verif.ParFor Verif.Utils

/-- `std::discrete_distribution` over `w 0, …, w (len - 1)`, `src/qengine/qengine.cpp:558,599`, with the draw `r`:
the first index at which the cumulated weights exceed the fraction `r` of the total. -/
noncomputable def discrete (w : ℕ → ℝ) (len : ℕ) (r : ℝ) : ℕ :=
  ((List.range len).find? fun i =>
    r * ∑ k ∈ Finset.range len, w k < ∑ k ∈ Finset.range (i + 1), w k).getD 0

/-- `bitMap` and the check of it, `src/qengine/qengine.cpp:549-553,590-594`; `none` is the exception. -/
def shotBits (n : ℕ) (powers : List ℕ) : Option (List ℕ) :=
  let bitMap := powers.map log2
  if throwIfBad bitMap n then none else some bitMap

/-- The sample of one shot, `src/qengine/qengine.cpp:555-558,569`. -/
noncomputable def engineShot (e : Eng) (bitMap : List ℕ) (r : ℝ) : ℕ :=
  discrete (probBitsAll e bitMap) (2 ^ bitMap.length) r

/-- The maps of the threads after the loop `++(resultsVec[cpu][sample(shot)])`, `src/qengine/qengine.cpp:567-569`. -/
def threadMaps (P : Par) (shots : ℕ) (sample : ℕ → ℕ) : ℕ → ℕ → ℕ :=
  (P.σ (parForPlan 0 shots)).foldl (fun (m : ℕ → ℕ → ℕ) shot =>
    Function.update m (P.cpu shot) (Function.update (m (P.cpu shot)) (sample shot) (m (P.cpu shot) (sample shot) + 1)))
    (fun _ _ => 0)

/-- The maps of the threads added up, `src/qengine/qengine.cpp:571-577`. -/
def mergeMaps (cores : ℕ) (m : ℕ → ℕ → ℕ) : ℕ → ℕ :=
  (List.range' 1 (cores - 1)).foldl (fun (res : ℕ → ℕ) i => fun v => res v + m i v) (m 0)

/-- `QEngine::MultiShotMeasureMask`, map version, `src/qengine/qengine.cpp:543-580`; the engine is returned to state that
it is not changed (`NormalizeState` may run in `GetProbs` and `ProbAll`). -/
noncomputable def multiShot (P : Par) (e : Eng) (powers : List ℕ) (shots : ℕ) (r : ℕ → ℝ) : Option ((ℕ → ℕ) × Eng) :=
  if shots = 0 then some (fun _ => 0, e)
  else (shotBits e.n powers).map fun bitMap =>
    let e := normIf P.σ e
    (mergeMaps P.cores (threadMaps P shots fun s => engineShot e bitMap (r s)), e)

/-- `QEngine::MultiShotMeasureMask`, array version, `src/qengine/qengine.cpp:582-610`: the sample is converted to
`unsigned` before it is stored in the array of 64-bit words `old`. -/
noncomputable def multiShotArray (P : Par) (e : Eng) (powers : List ℕ) (shots : ℕ) (r : ℕ → ℝ) (old : ℕ → ℕ) :
    Option ((ℕ → ℕ) × Eng) :=
  if shots = 0 then some (old, e)
  else (shotBits e.n powers).map fun bitMap =>
    let e := normIf P.σ e
    ((P.σ (parForPlan 0 shots)).foldl (fun (a : ℕ → ℕ) s => Function.update a s (engineShot e bitMap (r s) % 2 ^ 32)) old, e)

/-- `QInterface::MultiShotMeasureMask`, map version, `src/qinterface/qinterface.cpp:805-820`: one map behind a mutex. -/
noncomputable def multiShotDefault (P : Par) (e : Eng) (powers : List ℕ) (shots : ℕ) (r u : ℕ → ℝ) : ℕ → ℕ :=
  if shots = 0 then fun _ => 0
  else (P.σ (parForPlan 0 shots)).foldl (fun (m : ℕ → ℕ) s =>
    let v := sampleClone P e powers (r s) (u s)
    Function.update m v (m v + 1)) (fun _ => 0)

/-- `QInterface::MultiShotMeasureMask`, array version, `src/qinterface/qinterface.cpp:822-832`: the sample goes through
`bitCapIntOcl` (64 bits) and `unsigned` (32 bits). -/
noncomputable def multiShotDefaultArray (P : Par) (e : Eng) (powers : List ℕ) (shots : ℕ) (r u : ℕ → ℝ) (old : ℕ → ℕ) :
    ℕ → ℕ :=
  if shots = 0 then old
  else (P.σ (parForPlan 0 shots)).foldl (fun (a : ℕ → ℕ) s =>
    Function.update a s (sampleClone P e powers (r s) (u s) % 2 ^ 64 % 2 ^ 32)) old

end Verif.Engine
