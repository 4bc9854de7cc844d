import Verif.Model.Engine

/-!
# Model of the OpenCL engine: launching kernels, argument buffers, reductions

`src/qengine/opencl.cpp`, `include/qengine_opencl.hpp` and `src/common/qengine.cl`.

Simplifications, for the whole file:
* the host waits for every enqueued write and kernel (the event lists are not modelled), so that a
  kernel launch is one step of the host program;
* inside a launch the work-items run in any order: a schedule permutes the list of pairs
  (work-item, loop index) of all work-items. Theorem `Verif.Ocl.run_perm` shows that every
  interleaving of the work-items' loops is such a permutation, and the iterations of the gate kernels
  touch disjoint amplitudes, so that an iteration can be taken as one step;
* a launch whose local size does not divide its global size is an error (`CL_INVALID_WORK_GROUP_SIZE`,
  uniform work-groups), as is a kernel called with the wrong number of arguments; errors are `none`;
* numbers are exact.
-/

namespace Verif.Ocl

open Verif.Engine

/-! ## Work-item counts -/

/-- `QEngineOCL::FixWorkItemCount`, `include/qengine_opencl.hpp:611-620`. -/
def fixWorkItemCount (maxI wic : ℕ) : ℕ := if wic > maxI then maxI else 2 ^ Nat.log2 wic

/-- `QEngineOCL::FixGroupSize`, `include/qengine_opencl.hpp:622-629`. -/
def fixGroupSize (wic gs : ℕ) : ℕ := if gs > wic then wic else gs - wic % gs

/-- `nrmGroupCount` and `nrmGroupSize` of `QEngineOCL`. -/
structure Dev where
  count : ℕ
  size : ℕ

/-- The loop of `GetPreferredConcurrency`, `include/common/oclengine.hpp:202-205`. -/
def doubleUntil (pc : ℕ) : ℕ → ℕ → ℕ
  | 0, c => c
  | fuel + 1, c => if c < pc then doubleUntil pc fuel (c * 2) else c

/-- `GetPreferredConcurrency`, `include/common/oclengine.hpp:188-213`; `pc` is the number of
processing elements times the preferred multiple, `offset` is `hybridOffset`. -/
def preferredConcurrency (pc : ℕ) (offset : ℤ) : ℕ :=
  let c := doubleUntil pc pc 1
  let c := if 0 < offset then c <<< offset.toNat else c >>> (-offset).toNat
  if c < 1 then 1 else c

/-- `QEngineOCL::SetDevice`, `src/qengine/opencl.cpp:574-580`: `procElems` and `pref` (the preferred
work-group size multiple) and `maxWg` (the maximum work-group size) describe the device. -/
def setDevice (procElems pref maxWg : ℕ) (offset : ℤ) : Dev :=
  let gs := if pref > maxWg then maxWg else pref
  { count := preferredConcurrency (procElems * pref) offset, size := 2 ^ Nat.log2 gs }

/-- The number of `real1` entries of `nrmBuffer` and `nrmArray`, `src/qengine/opencl.cpp:581-585` (four
bytes per entry, at least `QRACK_ALIGN_SIZE = 64` bytes). -/
def nrmCapacity (d : Dev) : ℕ :=
  let align := if d.size = 0 then 0 else d.count / d.size
  if d.size = 0 ∨ 4 * align < 64 then 16 else align

/-- `ngc`, as at every call site, e.g. `src/qengine/opencl.cpp:847`. -/
def ngc (d : Dev) (maxI : ℕ) : ℕ := fixWorkItemCount maxI d.count

/-- `ngs`, as at every call site, e.g. `src/qengine/opencl.cpp:848`. -/
def ngs (d : Dev) (maxI : ℕ) : ℕ := fixGroupSize (ngc d maxI) d.size

/-! ## The loops of the work-items -/

/-- `for (lcv = ID; lcv < maxI; lcv += Nthreads)`, e.g. `src/common/qengine.cl:149`; the fuel `maxI`
is enough when `0 < Nthreads`. -/
def strideFrom (nthreads maxI : ℕ) : ℕ → ℕ → List ℕ
  | 0, _ => []
  | fuel + 1, lcv => if lcv < maxI then lcv :: strideFrom nthreads maxI fuel (lcv + nthreads) else []

/-- The loop of work-item `id`. -/
def stride (nthreads maxI id : ℕ) : List ℕ := strideFrom nthreads maxI maxI id

/-- All iterations of a launch of a looping kernel: `(id, lcv)`. -/
def loopPlan (nthreads maxI : ℕ) : List (ℕ × ℕ) :=
  (List.range nthreads).flatMap fun id => (stride nthreads maxI id).map fun lcv => (id, lcv)

/-- All iterations of a launch of a `wide` kernel: `lcv = ID`, e.g. `src/common/qengine.cl:185`. -/
def widePlan (nthreads : ℕ) : List (ℕ × ℕ) := (List.range nthreads).map fun id => (id, id)

/-- A schedule permutes the iterations. -/
def IsSched2 (σ : List (ℕ × ℕ) → List (ℕ × ℕ)) : Prop := ∀ l, (σ l).Perm l

/-- An interleaving of `n` work-items, of which `id` runs through the list `prog id`: the part of the
trace that belongs to `id` is `prog id`. -/
def IsRun (n : ℕ) (prog : ℕ → List ℕ) (tr : List (ℕ × ℕ)) : Prop :=
  (∀ p ∈ tr, p.1 < n) ∧ ∀ id < n, (tr.filter fun p => p.1 == id).map Prod.snd = prog id

/-- `enqueueNDRangeKernel` accepts the sizes, `src/qengine/opencl.cpp:499-503`. -/
def sizesOk (g l : ℕ) : Prop := 0 < l ∧ g % l = 0

instance (g l : ℕ) : Decidable (sizesOk g l) := by unfold sizesOk; infer_instance

/-! ## Argument buffers -/

/-- `enqueueWriteBuffer` of the first `size` entries of an argument array into a pooled buffer that
still holds what an earlier call wrote: `DISPATCH_TEMP_WRITE`, `src/qengine/opencl.cpp:38-40`. -/
def writeBuf {α : Type*} (size : ℕ) (args old : ℕ → α) : ℕ → α := fun i => if i < size then args i else old i

/-- A host array initialised with a braced list, the rest zero. -/
def arr (l : List ℕ) : ℕ → ℕ := fun i => l.getD i 0

/-! ## Spreading an index over the qubits that are not touched -/

/-- `PUSH_APART_GEN`, `src/common/qengine.cl:62-70`, one iteration; 64-bit words. -/
def pushStep (st : ℕ × ℕ) (q : ℕ) : ℕ × ℕ :=
  let iLow := st.2 &&& (q - 1)
  (st.1 ||| iLow, (st.2 ^^^ iLow) * 2 % 2 ^ 64)

/-- `PUSH_APART_GEN`, `src/common/qengine.cl:62-70`. -/
def pushApart (qPowers : ℕ → ℕ) (bitCount lcv : ℕ) : ℕ :=
  let st := (List.range bitCount).foldl (fun st p => pushStep st (qPowers p)) (0, lcv)
  st.1 ||| st.2

/-- `PUSH_APART_1`, `src/common/qengine.cl:72-74`. -/
def pushApart1 (qMask lcv : ℕ) : ℕ :=
  let i := lcv &&& qMask
  i ||| ((lcv ^^^ i) * 2 % 2 ^ 64)

/-- `PUSH_APART_2`, `src/common/qengine.cl:76-80`. -/
def pushApart2 (qMask1 qMask2 lcv : ℕ) : ℕ :=
  let i := lcv &&& qMask1
  let iHigh := (lcv ^^^ i) * 2 % 2 ^ 64
  let iLow := iHigh &&& qMask2
  i ||| (iLow ||| ((iHigh ^^^ iLow) * 2 % 2 ^ 64))

/-! ## Reductions -/

/-- One round of `SUM_LOCAL`, `src/common/qengine.cl:134-137`: between two barriers, every local
work-item below `lcv` adds; `τ` is the order in which they do. -/
noncomputable def sumRound (τ : List ℕ → List ℕ) (size lcv : ℕ) (l : ℕ → ℝ) : ℕ → ℝ :=
  (τ (List.range size)).foldl
    (fun l locID => if locID < lcv then Function.update l locID (l locID + l (locID + lcv)) else l) l

/-- The rounds of `SUM_LOCAL`, `src/common/qengine.cl:133-138`. -/
noncomputable def sumRounds (τ : List ℕ → List ℕ) (size : ℕ) : ℕ → ℕ → (ℕ → ℝ) → ℕ → ℝ
  | 0, _, l => l
  | fuel + 1, lcv, l => if 0 < lcv then sumRounds τ size fuel (lcv / 2) (sumRound τ size lcv l) else l

/-- `SUM_LOCAL`, `src/common/qengine.cl:128-142`: the value written to `sumBuffer` by one work-group
of the given size whose items hold `part`. -/
noncomputable def sumLocal (τ : List ℕ → List ℕ) (size : ℕ) (part : ℕ → ℝ) : ℝ :=
  sumRounds τ size size (size / 2) part 0

/-- `QEngineOCL::ParSum`, `src/qengine/opencl.cpp:647-657`. -/
noncomputable def parSum (toSum : ℕ → ℝ) (maxI : ℕ) : ℝ := (List.range maxI).foldl (fun t i => t + toSum i) 0

/-- `SUM_LOCAL` in every group, then `WAIT_REAL1_SUM`, `src/qengine/opencl.cpp:56-61`; the global id
of item `loc` of group `g` is `g * ngs + loc`. -/
noncomputable def sumAll (τ : List ℕ → List ℕ) (g l : ℕ) (part : ℕ → ℝ) : ℝ :=
  parSum (fun grp => sumLocal τ l fun loc => part (grp * l + loc)) (g / l)

/-- The partial sum of work-item `id` in a kernel that only reads the state, e.g.
`src/common/qengine.cl:713-720`. -/
noncomputable def itemSum (nthreads maxI : ℕ) (f : ℕ → ℝ) (id : ℕ) : ℝ :=
  (stride nthreads maxI id).foldl (fun t lcv => t + f lcv) 0

/-- A reduction kernel and its host side: `maxI` indices, `f lcv` the contribution of one of them. -/
noncomputable def reduceKernel (d : Dev) (τ : List ℕ → List ℕ) (maxI : ℕ) (f : ℕ → ℝ) : Option ℝ :=
  if sizesOk (ngc d maxI) (ngs d maxI) then
    some (sumAll τ (ngc d maxI) (ngs d maxI) (itemSum (ngc d maxI) maxI f))
  else none

end Verif.Ocl
