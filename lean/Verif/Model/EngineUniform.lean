import Verif.Model.EngineMask
import Verif.Model.Utils

/-!
# Model of the uniformly controlled gates

`QEngineCPU::UniformlyControlledSingleBit`, `src/qengine/state.cpp:761-864`, and the gate sequence of
`QInterface::UniformlyControlledSingleBit`, `src/qinterface/gates.cpp:62-83`. The array `mtrxs` of
`4·2^k` complex numbers is a function from matrix index to matrix (reads past its end are not
modelled).
-/

namespace Verif.Engine

open Verif.ParFor Classical

/-- `src/qengine/state.cpp:793-798`: bit `j` of the offset is control `j` of the basis state. -/
def ctrlOffset (controls : List ℕ) (lcv : ℕ) : ℕ :=
  (List.range controls.length).foldl
    (fun off j => if lcv &&& pow2 (controls.getD j 0) ≠ 0 then off ||| pow2 j else off) 0

/-- The matrix index, `src/qengine/state.cpp:800-812`. -/
def ucIndex (skipPowers : List ℕ) (skipVal : ℕ) (off : ℕ) : ℕ :=
  Utils.pushApartAux 64 skipPowers 0 off ||| skipVal

/-- The loop body, `src/qengine/state.cpp:792-824` with `nrm`, `827-855` with `nrm = 1`. -/
noncomputable def ucStep (controls : List ℕ) (t : ℕ) (ms : ℕ → M2) (skipPowers : List ℕ) (skipVal : ℕ)
    (nrm : ℂ) (s : ℕ → ℂ) (lcv : ℕ) : ℕ → ℂ :=
  let m := ms (ucIndex skipPowers skipVal (ctrlOffset controls lcv))
  let y0 := s lcv
  let y1 := s (lcv ||| pow2 t)
  Function.update (Function.update s lcv (nrm * (m.a * y0 + m.b * y1)))
    (lcv ||| pow2 t) (nrm * (m.c * y0 + m.d * y1))

/-- `QEngineCPU::UniformlyControlledSingleBit`, `src/qengine/state.cpp:761-864`. -/
noncomputable def uniformlyControlled (σ : List ℕ → List ℕ) (e : Eng) (controls : List ℕ) (t : ℕ)
    (ms : ℕ → M2) (skipPowers : List ℕ) (skipVal : ℕ) : Option Eng :=
  if controls = [] then mtrx σ e (ms skipVal) t
  else if e.n ≤ t then none
  else if Utils.throwIfBad controls e.n then none
  else
    let nrm : ℝ := if 0 < e.rn then 1 / Real.sqrt e.rn else 1
    let f : ℝ := if e.doNorm = true ∧ 1 - nrm > 0 then nrm else 1
    some { e with
      amp := (σ (parForSkipPlan 64 0 (2 ^ e.n) (pow2 t) 1)).foldl
        (ucStep controls t ms skipPowers skipVal f) e.amp
      rn := if e.doNorm then 1 else e.rn }

/-- The inner loop `src/qinterface/gates.cpp:74-78`: toggle the controls whose bit changes. -/
noncomputable def toggle (σ : List ℕ → List ℕ) (controls : List ℕ) (diff : ℕ) (e : Eng) : Option Eng :=
  (List.range controls.length).foldlM
    (fun e j => if diff.testBit j then gateX σ e (controls.getD j 0) else some e) e

/-- `QInterface::UniformlyControlledSingleBit`, `src/qinterface/gates.cpp:62-83`, over the engine's
`X` and `MCMtrx`. -/
noncomputable def uniformlyControlledDefault (σ : List ℕ → List ℕ) (e : Eng) (controls : List ℕ) (t : ℕ)
    (ms : ℕ → M2) (skipPowers : List ℕ) (skipVal : ℕ) : Option Eng :=
  let maxI := 2 ^ controls.length - 1
  (controls.foldlM (fun e c => gateX σ e c) e).bind fun e =>
  ((List.range maxI).foldlM (fun e lcv =>
    (eitherMtrx σ e controls (ms (Utils.pushApart 128 lcv skipPowers ||| skipVal)) t false).bind
      (toggle σ controls (lcv ^^^ (lcv + 1)))) e).bind fun e =>
  eitherMtrx σ e controls (ms (Utils.pushApart 128 maxI skipPowers ||| skipVal)) t false

end Verif.Engine
