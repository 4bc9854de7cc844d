import Verif.Model.EngineMask
import Verif.Model.Utils

/-!
# Model of probabilities and measurement of the state vector engine

`src/qengine/state.cpp:1322-1600, 1659-1755` (`QEngineCPU`), `src/qengine/qengine.cpp:77-210, 479-541`
(`QEngine`), and the defaults of `src/qinterface/qinterface.cpp:193-293, 421-474` (`QInterface`).

Simplifications, besides those of `Verif/Model/Engine.lean`:
* probabilities are exact reals; `REAL1_EPSILON` and `FP_NORM_EPSILON` are `0`;
* a random draw `Rand()` is an argument (a real number; the code draws from `[0, 1)`), and so is the
  draw for the random global phase;
* `GetAmplitude` reads the state vector (its page-out path does not exist in `QEngineCPU`);
* `none` is a thrown `std::invalid_argument`; division by a zero probability is `none` as well
  (the code goes on with infinities).
-/

namespace Verif.Engine

open Verif.ParFor Classical

/-- What a parallel reduction can depend on besides its arguments: the order of the calls, the number
of buffers (`GetConcurrencyLevel()`), and which buffer each call uses. -/
structure Par where
  σ : List ℕ → List ℕ
  cores : ℕ
  cpu : ℕ → ℕ

/-- The calls are a permutation of the sequential ones and every call uses one of the buffers. -/
def Par.Ok (P : Par) : Prop := IsSched P.σ ∧ ∀ l, P.cpu l < P.cores

/-- The pattern `buff[cpu] += f(lcv)` in a parallel loop, then the sum of all buffers:
`src/qengine/state.cpp:1344-1379` and the other reductions. -/
noncomputable def reduce (P : Par) (calls : List ℕ) (f : ℕ → ℝ) : ℝ :=
  let buff := (P.σ calls).foldl
    (fun (b : ℕ → ℝ) l => Function.update b (P.cpu l) (b (P.cpu l) + f l)) (fun _ => 0)
  ((List.range P.cores).map buff).sum

/-- `include/qinterface.hpp:158-167`. -/
noncomputable def clampProb (x : ℝ) : ℝ :=
  let x := if x < 0 then 0 else x
  if x > 1 then 1 else x

/-- `REAL1_DEFAULT_ARG`, `include/common/qrack_types.hpp`. -/
def defaultArg : ℝ := -999

/-- `QEngineCPU::NormalizeState` with default arguments, `src/qengine/state.cpp:1679-1729`. -/
noncomputable def normalizeState (σ : List ℕ → List ℕ) (e : Eng) : Eng :=
  let e := if e.rn = defaultArg then updateRunningNorm e else e
  if e.rn ≤ 0 then { e with amp := fun _ => 0, rn := 0 }
  else if |1 - e.rn| ≤ 0 then e
  else
    let nrm : ℝ := 1 / Real.sqrt e.rn
    { e with
      amp := (σ (parForPlan 0 (2 ^ e.n))).foldl (fun s lcv => Function.update s lcv
        (if e.floor ≤ 0 then nrm * s lcv else nrm * clip e.floor (s lcv))) e.amp
      rn := 1 }

/-- `if (doNormalize) { NormalizeState(); }` -/
noncomputable def normIf (σ : List ℕ → List ℕ) (e : Eng) : Eng :=
  if e.doNorm then normalizeState σ e else e

/-- `QEngineCPU::Prob`, `src/qengine/state.cpp:1323-1382`, with `ENABLE_COMPLEX_X2` (the default). -/
noncomputable def prob (P : Par) (e : Eng) (q : ℕ) : Option (ℝ × Eng) :=
  if e.n ≤ q then none
  else
    let e := normIf P.σ e
    if e.n = 1 then some (Complex.normSq (e.amp 1), e)
    else
      let qPower := pow2 q
      let oneChance :=
        if qPower = 1 then
          reduce P (parForPlan 0 (2 ^ e.n >>> 2)) fun lcv =>
            let times4 := lcv <<< 2
            Complex.normSq (e.amp (times4 ||| 1)) + Complex.normSq (e.amp (times4 ||| 3))
        else
          reduce P (parForSkipPlan 64 0 (2 ^ e.n >>> 1) (qPower >>> 1) 1) fun lcv =>
            let times2Or := (lcv <<< 1) ||| qPower
            Complex.normSq (e.amp times2Or) + Complex.normSq (e.amp (times2Or ||| 1))
      some (clampProb oneChance, e)

/-- `QEngineCPU::Prob` without `ENABLE_COMPLEX_X2`, `src/qengine/state.cpp:1362-1377`. -/
noncomputable def probPlain (P : Par) (e : Eng) (q : ℕ) : Option (ℝ × Eng) :=
  if e.n ≤ q then none
  else
    let e := normIf P.σ e
    if e.n = 1 then some (Complex.normSq (e.amp 1), e)
    else
      some (clampProb (reduce P (parForSkipPlan 64 0 (2 ^ e.n) (pow2 q) 1) fun lcv =>
        Complex.normSq (e.amp (lcv ||| pow2 q))), e)

/-- `QEngineCPU::CtrlOrAntiProb`, `src/qengine/state.cpp:1386-1428`. -/
noncomputable def ctrlOrAntiProb (P : Par) (e : Eng) (controlState : Bool) (control target : ℕ) :
    Option (ℝ × Eng) :=
  (prob P e control).bind fun (cp, e) =>
    let controlProb := if controlState then cp else 1 - cp
    if controlProb ≤ 0 then some (0, e)
    else if 1 - controlProb ≤ 0 then prob P e target
    else if e.n ≤ target then none
    else
      let qControlMask := if controlState then pow2 control else 0
      let oneChance := reduce P (parForSkipPlan 64 0 (2 ^ e.n) (pow2 target) 1) fun lcv =>
        if lcv &&& pow2 control = qControlMask then Complex.normSq (e.amp (lcv ||| pow2 target)) else 0
      some (clampProb (oneChance / controlProb), e)

/-- `QEngineCPU::ProbReg`, `src/qengine/state.cpp:1431-1455`. -/
noncomputable def probReg (P : Par) (e : Eng) (start length perm : ℕ) : ℝ × Eng :=
  let e := normIf P.σ e
  (clampProb (reduce P (parForSkipPlan 64 0 (2 ^ e.n) (pow2 start) length) fun lcv =>
    Complex.normSq (e.amp (lcv ||| (perm <<< start)))), e)

/-- The loop collecting the powers of two of a mask, `src/qengine/state.cpp:1473-1479` and
`src/qinterface/qinterface.cpp:423-429`. -/
def maskPowers (v : ℕ) : List ℕ :=
  if h : v = 0 then []
  else (((v &&& (v - 1)) ^^^ v) &&& v) :: maskPowers (v &&& (v - 1))
  termination_by v
  decreasing_by
    have : v &&& (v - 1) ≤ v - 1 := Nat.and_le_right
    omega

/-- `QEngineCPU::ProbMask`, `src/qengine/state.cpp:1458-1495`. -/
noncomputable def probMask (P : Par) (e : Eng) (mask perm : ℕ) : Option (ℝ × Eng) :=
  if 2 ^ e.n ≤ mask then none
  else
    let e := normIf P.σ e
    some (clampProb (reduce P (parForMaskPlan 64 0 (2 ^ e.n) (maskPowers mask)) fun lcv =>
      Complex.normSq (e.amp (lcv ||| perm))), e)

/-- `QEngineCPU::ProbParity`, `src/qengine/state.cpp:1497-1529`. -/
noncomputable def probParity (P : Par) (cpp20 : Bool) (e : Eng) (mask : ℕ) : Option (ℝ × Eng) :=
  if 2 ^ e.n ≤ mask then none
  else
    let e := normIf P.σ e
    if mask = 0 then some (0, e)
    else some (clampProb (reduce P (parForPlan 0 (2 ^ e.n)) fun lcv =>
      if popCountOcl cpp20 (lcv &&& mask) &&& 1 ≠ 0 then Complex.normSq (e.amp lcv) else 0), e)

/-- `QEngine::ProbAll`, `include/qengine.hpp:268-275`, for an engine that is already normalised or
does not normalise (each call would normalise again). -/
noncomputable def probAll (e : Eng) (i : ℕ) : ℝ := clampProb (Complex.normSq (e.amp i))

/-- `QEngine::ProbRegAll`, `src/qengine/qengine.cpp:479-487`: the contents of `probsArray`. -/
noncomputable def probRegAll (e : Eng) (start length : ℕ) : ℕ → ℝ :=
  (List.range (2 ^ e.n)).foldl (fun (a : ℕ → ℝ) i =>
    let reg := (i >>> start) &&& (2 ^ length - 1)
    Function.update a reg (a reg + probAll e i)) (fun _ => 0)

/-- The inner loop of `src/qinterface/qinterface.cpp:433-438` and `466-471`: gather the bits of the
basis state at the listed powers. -/
def gather (powers : List ℕ) (lcv : ℕ) : ℕ :=
  (powers.zipIdx).foldl (fun r (p, k) => if lcv &&& p ≠ 0 then r ||| pow2 k else r) 0

/-- `QInterface::ProbMaskAll`, `src/qinterface/qinterface.cpp:421-442`: the contents of `probsArray`. -/
noncomputable def probMaskAll (e : Eng) (mask : ℕ) : ℕ → ℝ :=
  (List.range (2 ^ e.n)).foldl (fun (a : ℕ → ℝ) i =>
    let r := gather (maskPowers mask) i
    Function.update a r (a r + probAll e i)) (fun _ => 0)

/-- `QInterface::ProbBitsAll`, `src/qinterface/qinterface.cpp:444-474`; the ordered full register uses
`GetProbs` (`src/qengine/state.cpp:279-292`, the squared magnitudes). -/
noncomputable def probBitsAll (e : Eng) (bits : List ℕ) : ℕ → ℝ :=
  if bits = List.range e.n then fun i => Complex.normSq (e.amp i)
  else (List.range (2 ^ e.n)).foldl (fun (a : ℕ → ℝ) i =>
    let r := gather (bits.map pow2) i
    Function.update a r (a r + probAll e i)) (fun _ => 0)

/-- `QInterface::ProbReg`, `src/qinterface/qinterface.cpp:262-275` (used by simulators without their
own version). -/
noncomputable def probRegDefault (e : Eng) (start length perm : ℕ) : ℝ :=
  clampProb (((List.range (2 ^ e.n >>> length)).map fun lcv =>
    let i := lcv &&& (pow2 start - 1)
    probAll e (i ||| (((lcv ^^^ i) ||| perm) <<< length))).sum)

/-- `QInterface::ProbMask`, `src/qinterface/qinterface.cpp:278-292`. -/
noncomputable def probMaskDefault (e : Eng) (mask perm : ℕ) : ℝ :=
  if 2 ^ e.n - 1 = mask then probAll e perm
  else clampProb (((List.range (2 ^ e.n)).map fun lcv => if lcv &&& mask = perm then probAll e lcv else 0).sum)

/-- `QEngineCPU::ApplyM`, `src/qengine/state.cpp:1659-1677`. -/
noncomputable def applyM (σ : List ℕ → List ℕ) (e : Eng) (regMask result : ℕ) (nrm : ℂ) : Eng :=
  { e with
    amp := (σ (parForPlan 0 (2 ^ e.n))).foldl (fun s i =>
      if i &&& regMask = result then Function.update s i (nrm * s i) else Function.update s i 0) e.amp
    rn := 1 }

/-- `GetNonunitaryPhase`, `include/qinterface.hpp:169-177`; `u` is the draw. -/
noncomputable def nonunitaryPhase (e : Eng) (u : ℝ) : ℂ :=
  if e.rgp then ⟨Real.cos (u * 2 * Real.pi), Real.sin (u * 2 * Real.pi)⟩ else 1

/-- `phase / (real1)(std::sqrt((real1_s)nrmlzr))` -/
noncomputable def normFactor (e : Eng) (u nrmlzr : ℝ) : ℂ := nonunitaryPhase e u / (Real.sqrt nrmlzr : ℂ)

/-- `QEngine::ForceM`, `src/qengine/qengine.cpp:78-106`, with `ApplyM(qPower, bool, nrm)` of
`include/qengine.hpp:165-169`; `r` is the draw for the outcome. -/
noncomputable def forceM (P : Par) (e : Eng) (q : ℕ) (result doForce doApply : Bool) (r u : ℝ) :
    Option (Bool × Eng) :=
  (prob P e q).bind fun (oneChance, e) =>
    let result := if doForce then result
      else if oneChance ≥ 1 then true
      else if oneChance ≤ 0 then false
      else decide (r ≤ oneChance)
    let nrmlzr := if result then oneChance else 1 - oneChance
    if nrmlzr ≤ 0 then none
    else
      some (result, if doApply ∧ 1 - nrmlzr > 0
        then applyM P.σ e (pow2 q) (if result then pow2 q else 0) (normFactor e u nrmlzr) else e)


/-- The sampling loop of `QEngine::ForceM(bits, values)`, `src/qengine/qengine.cpp:177-184`: state
`(lcv, lowerProb, nrmlzr, result)`; `fuel` bounds the number of iterations (`lengthPower` suffice). The
out-of-bounds read of `probArray[lengthPower]` is `none`. -/
noncomputable def sampleLoop (a : ℕ → ℝ) (len : ℕ) (r : ℝ) :
    ℕ → ℕ × ℝ × ℝ × ℕ → Option (ℕ × ℝ × ℝ × ℕ)
  | 0, st => some st
  | fuel + 1, (lcv, lower, nrm, res) =>
    if lower < r ∧ lcv < len then
      if lcv + 1 = len then none
      else
        let lcv := lcv + 1
        sampleLoop a len r fuel
          (if 0 < a lcv then (lcv, lower + a lcv, a lcv, lcv) else (lcv, lower + a lcv, nrm, res))
    else some (lcv, lower, nrm, res)

/-- `src/qengine/qengine.cpp:163-188`: the outcome index and its normaliser. -/
noncomputable def sampleBits (a : ℕ → ℝ) (len : ℕ) (r : ℝ) : Option (ℕ × ℝ) :=
  (sampleLoop a len r len (0, a 0, 1, len - 1)).map fun (lcv, _, nrm, res) =>
    if lcv < len then (lcv, a lcv) else (res, nrm)

/-- `src/qengine/qengine.cpp:192-198`: spread the bits of the index to the sorted powers. -/
def spreadBits (powers : List ℕ) (res : ℕ) : ℕ :=
  (powers.zipIdx).foldl (fun i (p, k) => if res &&& pow2 k ≠ 0 then i ||| p else i) 0

/-- `QEngine::ForceM(bits, values, doApply)`, `src/qengine/qengine.cpp:109-210`. -/
noncomputable def forceMBits (P : Par) (e : Eng) (bits : List ℕ) (values : List Bool) (doApply : Bool)
    (r u : ℝ) : Option (ℕ × Eng) :=
  if values ≠ [] ∧ bits.length ≠ values.length then none
  else if ∃ b ∈ bits, e.n ≤ b then none
  else match bits with
  | [b] => (forceM P e b (values.headD false) false doApply r u).map fun (res, e) =>
      (if res then pow2 b else 0, e)
  | bits =>
    let powers := sortPows (bits.map pow2)
    let regMask := (bits.map pow2).foldl (· ||| ·) 0
    if values ≠ [] then
      let result := (bits.zip values).foldl (fun r (b, v) => if v then r ||| pow2 b else r) 0
      (probMask P e regMask result).bind fun (nrmlzr, e) =>
        if nrmlzr = 0 then none
        else some (result, if 1 - nrmlzr > 0 then applyM P.σ e regMask result (normFactor e u nrmlzr) else e)
    else
      let e := normIf P.σ e
      (sampleBits (probMaskAll e regMask) (2 ^ bits.length) r).bind fun (res, nrmlzr) =>
        if nrmlzr = 0 then none
        else
          let result := spreadBits powers res
          some (result, if doApply ∧ 1 - nrmlzr > 0
            then applyM P.σ e regMask result (normFactor e u nrmlzr) else e)

/-- The sampling loop of `QEngine::ForceMReg`, `src/qengine/qengine.cpp:522-529`: state
`(lcv, lowerProb, nrmlzr, result)`. -/
noncomputable def regLoop (a : ℕ → ℝ) (len : ℕ) (r : ℝ) : ℕ → ℕ × ℝ × ℝ × ℕ → ℕ × ℝ × ℝ × ℕ
  | 0, st => st
  | fuel + 1, (lcv, lower, nrm, res) =>
    if lower < r ∧ lcv < len then
      regLoop a len r fuel
        (if 0 < a lcv then (lcv + 1, lower + a lcv, a lcv, lcv) else (lcv + 1, lower + a lcv, nrm, res))
    else (lcv, lower, nrm, res)

/-- `src/qengine/qengine.cpp:507-533`: the outcome and its normaliser. -/
noncomputable def sampleReg (a : ℕ → ℝ) (len : ℕ) (r : ℝ) : ℕ × ℝ :=
  let (_, _, nrm, res) := regLoop a len r len (0, 0, 1, len - 1)
  (res, nrm)

/-- `QEngine::ForceMReg`, `src/qengine/qengine.cpp:490-541`. -/
noncomputable def forceMReg (P : Par) (e : Eng) (start length result : ℕ) (doForce doApply : Bool)
    (r u : ℝ) : Option (ℕ × Eng) :=
  if Utils.isBadBitRange start length e.n then none
  else if length = 1 then
    (forceM P e start (result.testBit 0) doForce doApply r u).map fun (b, e) => (if b then 1 else 0, e)
  else
    let regMask := (2 ^ length - 1) <<< start
    let sampled : Option ((ℕ × ℝ) × Eng) :=
      if doForce then (probMask P e regMask (result <<< start)).map fun (p, e) => ((result, p), e)
      else
        let e := normIf P.σ e
        some (sampleReg (probRegAll e start length) (2 ^ length) r, e)
    sampled.bind fun ((result, nrmlzr), e) =>
      if doApply then
        if nrmlzr = 0 then none
        else some (result, applyM P.σ e regMask (result <<< start) (normFactor e u nrmlzr))
      else some (result, e)

/-- `QEngineCPU::SetPermutation`, `src/qengine/state.cpp:222-247`, with the default argument: the basis state, with a
random phase or none. -/
noncomputable def setPerm (e : Eng) (perm : ℕ) (u : ℝ) : Eng :=
  { e with amp := fun i => if i = perm then nonunitaryPhase e u else 0, rn := 1 }

/-- The loop of `QEngineCPU::MAll`, `src/qengine/state.cpp:1538-1550`: `k` states are left, `perm` is
the next one; returns the outcome. -/
noncomputable def mAllLoop (e : Eng) (r : ℝ) : ℕ → ℕ → ℝ → ℕ → ℕ
  | 0, _, _, last => last
  | k + 1, perm, tot, last =>
    let part := probAll e perm
    if 0 < part then
      let tot := tot + part
      if tot > r ∨ 1 - tot ≤ 0 then perm else mAllLoop e r k (perm + 1) tot perm
    else mAllLoop e r k (perm + 1) tot last

/-- `QEngineCPU::MAll`, `src/qengine/state.cpp:1531-1555`. -/
noncomputable def mAll (P : Par) (e : Eng) (r u : ℝ) : ℕ × Eng :=
  let e := normIf P.σ e
  let perm := mAllLoop e r (2 ^ e.n) 0 0 (2 ^ e.n - 1)
  (perm, setPerm e perm u)

/-- `QEngineCPU::ForceMParity`, `src/qengine/state.cpp:1557-1599`. -/
noncomputable def forceMParity (P : Par) (cpp20 : Bool) (e : Eng) (mask : ℕ) (result doForce : Bool) (r : ℝ) :
    Option (Bool × Eng) :=
  if 2 ^ e.n ≤ mask then none
  else if mask = 0 then some (false, e)
  else
    let drawn : Option (Bool × Eng) := if doForce then some (result, e)
      else (probParity P cpp20 e mask).map fun (p, e) => (decide (r ≤ p), e)
    drawn.map fun (result, e) =>
      let keep : ℕ → Prop := fun lcv => popCountOcl cpp20 (lcv &&& mask) &&& 1 = if result then 1 else 0
      let chance := reduce P (parForPlan 0 (2 ^ e.n)) fun lcv =>
        if keep lcv then Complex.normSq (e.amp lcv) else 0
      let amp := (P.σ (parForPlan 0 (2 ^ e.n))).foldl
        (fun s lcv => if keep lcv then s else Function.update s lcv 0) e.amp
      let e := { e with amp := amp, rn := chance }
      (result, if !e.doNorm then normalizeState P.σ e else e)

/-- `QInterface::ForceMReg`, `src/qinterface/qinterface.cpp:213-223` (used by simulators without their own
version): `start + bit` for each bit; the draws are indexed by the bit. -/
noncomputable def forceMRegDefault (P : Par) (e : Eng) (start length result : ℕ) (doForce doApply : Bool)
    (r u : ℕ → ℝ) : Option (ℕ × Eng) :=
  (List.range length).foldlM (fun (acc : ℕ × Eng) bit =>
    (forceM P acc.2 (start + bit) (pow2 bit &&& result != 0) doForce doApply (r bit) (u bit)).map
      fun (b, e) => (if b then acc.1 ||| pow2 bit else acc.1, e)) (0, e)

/-- `SampleClone`, `include/qinterface.hpp:191-204`, with an engine's `MAll`. -/
noncomputable def sampleClone (P : Par) (e : Eng) (powers : List ℕ) (r u : ℝ) : ℕ :=
  gather powers (mAll P e r u).1

end Verif.Engine
