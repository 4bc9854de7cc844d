import Verif.Model.ParFor
import Mathlib.Analysis.SpecialFunctions.Exp
import Mathlib.Analysis.Complex.Norm

/-!
# Model of `par_norm`, `UpdateRunningNorm` and `NormalizeState`

`src/common/parallel_for.cpp:214-319`, `src/qengine/state.cpp:1679-1749`. The workers are those of `par_for_inc` (C01) with a private
sum each. Numbers are exact reals: rounding, and the conversions between `real1` and `real1_f`, are not modelled. The writes of the
`par_for` of `NormalizeState` go to different amplitudes, once each (C01), so they are written as one function.
-/

namespace Verif.ParNorm

open Verif.ParFor

/-- The workers of `par_norm`: those of `par_for_inc`, and the local `sqrNorm` of each. (`trace` of the workers is not looked at by any
step.) -/
structure NSys (t : ℕ) where
  base : Sys t
  acc : Fin t → ℝ

/-- `src/common/parallel_for.cpp:243-264`, `:295-311`: one atomic action of one worker; `f k` is what the amplitude `k` adds. -/
inductive NStep (f : ℕ → ℝ) (t stride items : ℕ) : NSys t → NSys t → Prop
  | claimDone (s : NSys t) (c : Fin t) : s.base.ws c = .idle → items ≤ s.base.idx * stride →
      NStep f t stride items s ⟨⟨s.base.idx + 1, Function.update s.base.ws c .done, s.base.trace⟩, s.acc⟩
  | claimRun (s : NSys t) (c : Fin t) : s.base.ws c = .idle → s.base.idx * stride < items →
      NStep f t stride items s ⟨⟨s.base.idx + 1, Function.update s.base.ws c (.run (s.base.idx * stride) 0), s.base.trace⟩, s.acc⟩
  | exec (s : NSys t) (c : Fin t) (l j : ℕ) : s.base.ws c = .run l j → j < maxJ stride items l →
      NStep f t stride items s ⟨⟨s.base.idx, Function.update s.base.ws c (.run l (j + 1)), s.base.trace ++ [0 + j + l]⟩,
        Function.update s.acc c (s.acc c + f (l + j))⟩
  | chunkEnd (s : NSys t) (c : Fin t) (l j : ℕ) : s.base.ws c = .run l j → ¬j < maxJ stride items l →
      NStep f t stride items s ⟨⟨s.base.idx, Function.update s.base.ws c .idle, s.base.trace⟩, s.acc⟩

/-- All workers launched with counter and sums zero, `src/common/parallel_for.cpp:238-245`, `:290-296`. -/
inductive NReach (f : ℕ → ℝ) (t stride items : ℕ) : NSys t → Prop
  | init : NReach f t stride items ⟨initial t, fun _ => 0⟩
  | step {s s'} : NReach f t stride items s → NStep f t stride items s s' → NReach f t stride items s'

/-- A complete run, `src/common/parallel_for.cpp:220-271`, `:276-318`: one thread (`:225-236`, `:281-288`), or the sum of the futures of
some schedule. -/
inductive NormRun (f : ℕ → ℝ) (stride items numCores : ℕ) : ℝ → Prop
  | seq : threadCount stride items numCores ≤ 1 → NormRun f stride items numCores ((List.range items).foldl (fun x j => x + f j) 0)
  | par (s : NSys (threadCount stride items numCores)) : 1 < threadCount stride items numCores →
      NReach f _ stride items s → (∀ c, s.base.ws c = .done) →
      NormRun f stride items numCores ((List.ofFn s.acc).foldl (· + ·) 0)

/-- What one amplitude adds, `src/common/parallel_for.cpp:255-260`. -/
noncomputable def above (thresh : ℝ) (a : ℕ → ℂ) (k : ℕ) : ℝ := if thresh ≤ Complex.normSq (a k) then Complex.normSq (a k) else 0

/-- `ParallelFor::par_norm`, `src/common/parallel_for.cpp:214-218`: a possible result. -/
def ParNorm (stride items numCores : ℕ) (a : ℕ → ℂ) (thresh r : ℝ) : Prop :=
  if thresh ≤ 0 then NormRun (fun k => Complex.normSq (a k)) stride items numCores r
  else NormRun (above thresh a) stride items numCores r

/-- The parts of `QEngineCPU` that are used here: `maxQPowerOcl` amplitudes, `runningNorm`, `amplitudeFloor`. -/
structure NEng where
  items : ℕ
  amp : ℕ → ℂ
  rn : ℝ
  floor : ℝ

/-- `ZeroAmplitudes`, `include/qengine_cpu.hpp:94-99`. -/
def zeroAmps (e : NEng) : NEng := { e with amp := fun _ => 0, rn := 0 }

/-- `QEngineCPU::UpdateRunningNorm`, `src/qengine/state.cpp:1731-1749`; `eps` is `FP_NORM_EPSILON`. -/
inductive UpdateNorm (stride numCores : ℕ) (eps thresh : ℝ) (e : NEng) : NEng → Prop
  | mk (r : ℝ) : ParNorm stride e.items numCores e.amp (if thresh < 0 then e.floor else thresh) r →
      UpdateNorm stride numCores eps thresh e (if r ≤ eps then zeroAmps { e with rn := r } else { e with rn := r })

/-- `NormalizeState` behind the first test, with the norm `nrm` it has found, `src/qengine/state.cpp:1696-1728`. -/
noncomputable def scale (eps nrm thresh phase : ℝ) (e : NEng) : NEng :=
  if nrm ≤ eps then zeroAmps e
  else if |1 - nrm| ≤ eps ∧ phase * phase ≤ eps then e
  else
    let t := if thresh < 0 then e.floor else thresh
    let c : ℂ := ((1 / Real.sqrt nrm : ℝ) : ℂ) * Complex.exp (phase * Complex.I)
    { e with
      amp := fun k => if t ≤ 0 then c * e.amp k else c * (if Complex.normSq (e.amp k) < t then 0 else e.amp k)
      rn := 1 }

/-- `REAL1_DEFAULT_ARG`, `include/common/qrack_types.hpp:177`. -/
def defaultArg : ℝ := -999

/-- `QEngineCPU::NormalizeState`, `src/qengine/state.cpp:1679-1729`. -/
inductive Normalize (stride numCores : ℕ) (eps nrm thresh phase : ℝ) (e : NEng) : NEng → Prop
  | update (e' : NEng) : e.rn = defaultArg → nrm = defaultArg → UpdateNorm stride numCores eps defaultArg e e' →
      Normalize stride numCores eps nrm thresh phase e (scale eps e'.rn thresh phase e')
  | given : ¬(e.rn = defaultArg ∧ nrm = defaultArg) →
      Normalize stride numCores eps nrm thresh phase e (scale eps (if nrm < 0 then e.rn else nrm) thresh phase e)

end Verif.ParNorm
