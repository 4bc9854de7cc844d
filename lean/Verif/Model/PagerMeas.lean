import Verif.Model.Pager
import Verif.Model.EngineExpect

/-!
# Model of measurement and read-out of the paged register

`src/qpager.cpp:1100-1149, 1521-1576`. Simplifications as in `Verif/Model/Pager.lean`; `Rand()` is the argument `r`, and
`GetNonunitaryPhase()` is `1` because `randGlobalPhase` of a `QPager` is `false`.
-/

namespace Verif.Pager

open Verif.Engine Verif.ParFor Classical

/-- `QPager::ForceM`, `src/qpager.cpp:1100-1149`. -/
noncomputable def pForceM (P : Par) (p : Pager) (qubit : ℕ) (result doForce doApply : Bool) (r : ℝ) :
    Option (Bool × Pager) :=
  if p.count = 1 then (forceM P (p.page 0) qubit result doForce doApply r 0).map fun (b, e) =>
    (b, { p with page := Function.update p.page 0 e })
  else (pProb P p qubit).bind fun oneChance =>
    let result := if doForce then result
      else if oneChance ≥ 1 then true
      else if oneChance ≤ 0 then false
      else decide (r ≤ oneChance)
    let nrmlzr := if result then oneChance else 1 - oneChance
    if nrmlzr ≤ 0 then none
    else if !doApply ∨ 1 - nrmlzr ≤ 0 then some (result, p)
    else
      let nrm : ℂ := 1 / (Real.sqrt nrmlzr : ℂ)
      let qpp := p.qpp
      ((List.range p.count).foldlM (fun p i => onPage p i fun e =>
        if qubit < qpp then some (applyM P.σ e (pow2 qubit) (if result then pow2 qubit else 0) nrm)
        else
          let qPower := pow2 (qubit - qpp)
          if (i &&& qPower = 0) = (result = false) then (phase P.σ e nrm nrm 0).map updateRunningNorm
          else some (zeroAmplitudes e)) p).map fun p => (result, p)

/-- `QPager::ProbMask`, `src/qpager.cpp:1521-1529`; `log2(0)` is undefined with the compiler builtin (`none`). The pages are regrouped on the
way. -/
noncomputable def pProbMask (P : Par) (p : Pager) (mask perm : ℕ) : Option (ℝ × Pager) :=
  if mask = 0 then none
  else (combineEngines p (Utils.log2Ocl mask + 1)).bind fun p =>
    ((List.range p.count).foldlM (fun (acc : ℝ) i => (probMask P (p.page i) mask perm).map fun r => acc + r.1) 0).map
      fun x => (clampProb x, p)

/-- `QPager::ExpVarBitsAll`, `src/qpager.cpp:1531-1576`, for the ordered list of all qubits (the only case it does not pass
on to `QInterface`): the pages are asked for *all* the bits of the register. -/
noncomputable def pExpVarAll (P : Par) (p : Pager) (isExp : Bool) (offset : ℕ) : Option ℝ :=
  let bits := List.range p.n
  (List.range p.count).foldlM (fun (acc : ℝ) i =>
    (expVarBitsAll P (p.page i) isExp bits ((i * p.pageMax + offset) % 2 ^ 64)).map fun r => acc + r.1) 0

end Verif.Pager
