import Verif.Model.EngineExpect
import Verif.Model.Defaults

/-!
# The C API: operations with Pauli operators

`src/pinvoke_api.cpp` over a `QEngineCPU`. A call is given the list of (qubit id, Pauli operator) pairs of its two arrays.
`pos` is `GetSimShardId` on the ids of the call, all of them known (`src/pinvoke_api.cpp:277-308`, modelled as `Verif.Capi.addr`);
ids are below 64, so `pow2Ocl` of an id is a power of two. The locks are modelled in `Verif.CapiLock`. `none` is the exception that the
call catches. Numbers are exact.
-/

namespace Verif.CapiPauli

open Verif.Engine Verif.Spec

/-- A call's operators: (qubit id, Pauli). -/
abbrev Ops := List (ℕ × PauliName)

/-- `TransformPauliBasis`, `src/pinvoke_api.cpp:319-336`; `IS`, `include/qinterface.hpp:1034`. -/
noncomputable def transformBasis (σ : List ℕ → List ℕ) (pos : ℕ → ℕ) (e : Eng) : Ops → Option Eng
  | [] => some e
  | (q, .X) :: l => (gateH σ e (pos q)).bind fun e => transformBasis σ pos e l
  | (q, .Y) :: l =>
    ((phase σ e 1 (-Complex.I) (pos q)).bind fun e => gateH σ e (pos q)).bind fun e => transformBasis σ pos e l
  | (_, .Z) :: l => transformBasis σ pos e l
  | (_, .I) :: l => transformBasis σ pos e l

/-- `RevertPauliBasis`, `src/pinvoke_api.cpp:338-355`; `S`, `include/qinterface.hpp:1027`. -/
noncomputable def revertBasis (σ : List ℕ → List ℕ) (pos : ℕ → ℕ) (e : Eng) : Ops → Option Eng
  | [] => some e
  | (q, .X) :: l => (gateH σ e (pos q)).bind fun e => revertBasis σ pos e l
  | (q, .Y) :: l =>
    ((gateH σ e (pos q)).bind fun e => phase σ e 1 Complex.I (pos q)).bind fun e => revertBasis σ pos e l
  | (_, .Z) :: l => revertBasis σ pos e l
  | (_, .I) :: l => revertBasis σ pos e l

/-- `removeIdentities`, `src/pinvoke_api.cpp:357-368`: the loop erases the entries one by one. -/
def removeIdentities : Ops → Ops
  | [] => []
  | (_, .I) :: l => removeIdentities l
  | x :: l => x :: removeIdentities l

/-- `RHelper`, `src/pinvoke_api.cpp:370-395`; `RX`, `RY`, `RZ`, `src/qinterface/rotational.cpp:177-201`. -/
noncomputable def rHelper (σ : List ℕ → List ℕ) (pos : ℕ → ℕ) (e : Eng) (b : PauliName) (phi : ℝ) (q : ℕ) : Option Eng :=
  match b with
  | .I =>
    let phaseFac := Complex.exp (((phi / 4 : ℝ) : ℂ) * Complex.I)
    phase σ e phaseFac phaseFac (pos q)
  | .X => mtrx σ e (Defaults.rxM phi) (pos q)
  | .Y => mtrx σ e (Defaults.ryM phi) (pos q)
  | .Z => phase σ e ⟨Real.cos (phi / 2), -Real.sin (phi / 2)⟩ ⟨Real.cos (phi / 2), Real.sin (phi / 2)⟩ (pos q)

/-- `MCRHelper`, `src/pinvoke_api.cpp:397-438`. -/
noncomputable def mcrHelper (σ : List ℕ → List ℕ) (pos : ℕ → ℕ) (e : Eng) (b : PauliName) (phi : ℝ) (c : List ℕ) (q : ℕ) : Option Eng :=
  let ctrls := c.map pos
  match b with
  | .I =>
    let phaseFac := Complex.exp (((phi / 4 : ℝ) : ℂ) * Complex.I)
    mcPhase σ e ctrls phaseFac phaseFac (pos q)
  | .X =>
    let cosine := Real.cos (phi / 2)
    let sine := Real.sin (phi / 2)
    eitherMtrx σ e ctrls ⟨⟨cosine, 0⟩, ⟨0, -sine⟩, ⟨0, -sine⟩, ⟨cosine, 0⟩⟩ (pos q) false
  | .Y =>
    let cosine := Real.cos (phi / 2)
    let sine := Real.sin (phi / 2)
    eitherMtrx σ e ctrls ⟨⟨cosine, 0⟩, ⟨-sine, 0⟩, ⟨sine, 0⟩, ⟨cosine, 0⟩⟩ (pos q) false
  | .Z =>
    let cosine := Real.cos (phi / 2)
    let sine := Real.sin (phi / 2)
    mcPhase σ e ctrls ⟨cosine, -sine⟩ ⟨cosine, sine⟩ (pos q)

/-- `make_mask`, `src/pinvoke_api.cpp:440-447`. -/
def makeMask (qs : List ℕ) : ℕ := qs.foldl (fun mask q => mask ||| 2 ^ q) 0

/-- `_JointEnsembleProbabilityHelper`, `src/pinvoke_api.cpp:1218-1243`; `MParity`, `include/qparity.hpp:27`. -/
noncomputable def jointHelper (P : Par) (cpp20 : Bool) (pos : ℕ → ℕ) (e : Eng) (l : Ops) (doMeasure : Bool) (r : ℝ) :
    Option (ℝ × Eng) :=
  if l.length = 0 then some (0, e)
  else
    let qs := removeIdentities l
    if qs.length = 0 then some (0, e)
    else
      let mask := qs.foldl (fun mask x => mask ||| 2 ^ pos x.1) 0
      if doMeasure then (forceMParity P cpp20 e mask false false r).map fun (b, e) => (if b then 1 else 0, e)
      else probParity P cpp20 e mask

/-- `JointEnsembleProbability`, `src/pinvoke_api.cpp:1247-1266`. -/
noncomputable def jointProb (P : Par) (cpp20 : Bool) (pos : ℕ → ℕ) (e : Eng) (l : Ops) : Option (ℝ × Eng) :=
  (transformBasis P.σ pos e l).bind fun e =>
    (jointHelper P cpp20 pos e l false 0).bind fun (p, e) => (revertBasis P.σ pos e l).map fun e => (p, e)

/-- `Measure`, `src/pinvoke_api.cpp:2121-2140`; `r` is the number drawn. -/
noncomputable def measure (P : Par) (cpp20 : Bool) (pos : ℕ → ℕ) (e : Eng) (l : Ops) (r : ℝ) : Option (ℕ × Eng) :=
  (transformBasis P.σ pos e l).bind fun e =>
    (jointHelper P cpp20 pos e l true r).bind fun (p, e) =>
      let toRet := if p < 1 / 2 then 0 else 1
      (revertBasis P.σ pos e l).map fun e => (toRet, e)

/-- `Exp`, `src/pinvoke_api.cpp:1992-2025`: the mask is made of the ids. -/
noncomputable def exp (cpp20 : Bool) (σ : List ℕ → List ℕ) (pos : ℕ → ℕ) (e : Eng) (l : Ops) (phi : ℝ) : Option Eng :=
  match l with
  | [] => some e
  | (someQubit, _) :: _ =>
    match removeIdentities l with
    | [] => rHelper σ pos e .I (-2 * phi) someQubit
    | [(q, b)] => rHelper σ pos e b (-2 * phi) q
    | qs =>
      (transformBasis σ pos e l).bind fun e =>
        (uniformParityRZ cpp20 σ e (makeMask (qs.map (·.1))) (-phi)).bind fun e => revertBasis σ pos e l

/-- `MCExp`, `src/pinvoke_api.cpp:2030-2065`: the mask and the controls of the longer branch are made of the ids. -/
noncomputable def mcExp (cpp20 : Bool) (σ : List ℕ → List ℕ) (pos : ℕ → ℕ) (e : Eng) (l : Ops) (phi : ℝ) (cs : List ℕ) : Option Eng :=
  match l with
  | [] => some e
  | (someQubit, _) :: _ =>
    match removeIdentities l with
    | [] => mcrHelper σ pos e .I (-2 * phi) cs someQubit
    | [(q, b)] => mcrHelper σ pos e b (-2 * phi) cs q
    | qs =>
      (transformBasis σ pos e l).bind fun e =>
        (cUniformParityRZ cpp20 σ e cs (makeMask (qs.map (·.1))) (-phi)).bind fun e => revertBasis σ pos e l

end Verif.CapiPauli
