import Verif.Model.OclGate
import Verif.Model.EngineIO

/-!
# Model of the OpenCL engine: probabilities, measurement, joining and splitting

`src/qengine/opencl.cpp:1220-2037, 2961-3158`, `src/common/qengine.cl:521-948, 999-1068`. The simplifications are those of
`Verif/Model/Ocl.lean` and `Verif/Model/OclGate.lean`. Creating a buffer of no bytes is an error
(`CL_INVALID_BUFFER_SIZE`, which `MakeBuffer` throws: `include/qengine_opencl.hpp:466-503`), `none` like every other error.
-/

namespace Verif.Ocl

open Verif.Engine Classical

/-- What an operation depends on besides the engine and its arguments: the device, the schedules of the work-items and of
the reductions, and the left-over contents of the argument buffers. -/
structure Rt where
  d : Dev
  σ : List (ℕ × ℕ) → List (ℕ × ℕ)
  τ : List ℕ → List ℕ
  old : Bufs

/-- `if (doNormalize) { NormalizeState(); }`, e.g. `src/qengine/opencl.cpp:1659-1661`. -/
noncomputable def normIf (R : Rt) (e : Eng) : Option Eng :=
  if e.doNorm then normalizeState R.d R.σ R.τ R.old e (-999) (-999) 0 else some e

/-- Launch of a looping kernel over `maxI` indices, `bound` being the bound the kernel reads. -/
def launch {α : Type} (R : Rt) (maxI bound : ℕ) (step : α → ℕ → α) (s : α) : Option α :=
  if sizesOk (ngc R.d maxI) (ngs R.d maxI) then
    some ((R.σ (loopPlan (ngc R.d maxI) bound)).foldl (fun s p => step s p.2) s)
  else none

/-! ## Projection -/

/-- The kernel `applym`, `src/common/qengine.cl:1013-1031`. -/
noncomputable def applymStep (ul : ℕ → ℕ) (cx : ℕ → ℂ) (s : ℕ → ℂ) (lcv : ℕ) : ℕ → ℂ :=
  let qMask := ul 1 - 1
  let savePower := ul 2
  let discardPower := ul 1 ^^^ savePower
  let iLow := lcv &&& qMask
  let i := iLow ||| ((lcv ^^^ iLow) * 2 % 2 ^ 64)
  Function.update (Function.update s (i ||| savePower) (zmul (cx 0) (s (i ||| savePower)))) (i ||| discardPower) 0

/-- The kernel `applymreg`, `src/common/qengine.cl:1033-1045`. -/
noncomputable def applymregStep (ul : ℕ → ℕ) (cx : ℕ → ℂ) (s : ℕ → ℂ) (lcv : ℕ) : ℕ → ℂ :=
  Function.update s lcv (if lcv &&& ul 1 = ul 2 then zmul (cx 0) (s lcv) else 0)

/-- `QEngineOCL::ApplyMx`, `src/qengine/opencl.cpp:1220-1242`. -/
noncomputable def applyMx (R : Rt) (e : Eng) (step : (ℕ → ℕ) → (ℕ → ℂ) → (ℕ → ℂ) → ℕ → ℕ → ℂ) (args : List ℕ) (nrm : ℂ) :
    Option Eng :=
  let ul := writeBuf 3 (arr args) R.old.ul
  let cx := writeBuf 1 (fun _ => nrm) R.old.cx
  (launch R (args.getD 0 0) (ul 0) (step ul cx) e.amp).map fun a => { e with amp := a, rn := 1 }

/-- `QEngineOCL::ApplyM(qPower, bool, nrm)`, `src/qengine/opencl.cpp:1244-1252`. -/
noncomputable def applyMBit (R : Rt) (e : Eng) (qPower : ℕ) (result : Bool) (nrm : ℂ) : Option Eng :=
  applyMx R e applymStep [2 ^ e.n >>> 1, qPower, if result then qPower else 0] nrm

/-- `QEngineOCL::ApplyM(mask, result, nrm)`, `src/qengine/opencl.cpp:1254-1264`. -/
noncomputable def applyMReg (R : Rt) (e : Eng) (mask result : ℕ) (nrm : ℂ) : Option Eng :=
  if 2 ^ e.n ≤ mask then none else applyMx R e applymregStep [2 ^ e.n, mask, result] nrm

/-! ## Probabilities -/

/-- The kernel `prob`, `src/common/qengine.cl:704-723`: the term of one index. -/
noncomputable def probTerm (ul : ℕ → ℕ) (s : ℕ → ℂ) (lcv : ℕ) : ℝ :=
  let i := lcv &&& (ul 1 - 1)
  Complex.normSq (s (i ||| (((lcv ^^^ i) * 2 % 2 ^ 64) ||| ul 1)))

/-- The kernel `cprob`, `src/common/qengine.cl:725-753`. -/
noncomputable def cprobTerm (ul : ℕ → ℕ) (s : ℕ → ℂ) (lcv : ℕ) : ℝ :=
  let m := if ul 1 < ul 2 then (ul 1 - 1, ul 2 - 1) else (ul 2 - 1, ul 1 - 1)
  Complex.normSq (s (pushApart2 m.1 m.2 lcv ||| (ul 1 ||| ul 3)))

/-- Where the kernels `probreg` and `probregall` find the index `lcv` of the other qubits,
`src/common/qengine.cl:769-770, 790-791`. -/
def regIdx (start len lcv : ℕ) : ℕ :=
  let i := lcv &&& (2 ^ start - 1)
  i ||| ((lcv ^^^ i) <<< len % 2 ^ 64)

/-- The kernel `probreg`, `src/common/qengine.cl:755-776`. -/
noncomputable def probregTerm (ul : ℕ → ℕ) (s : ℕ → ℂ) (lcv : ℕ) : ℝ :=
  Complex.normSq (s (regIdx (ul 2) (ul 3) lcv ||| ul 1))

/-- The parity loop, `src/common/qengine.cl:882-887`. -/
def parityLoop : ℕ → ℕ → Bool → Bool
  | 0, _, p => p
  | fuel + 1, v, p => if v ≠ 0 then parityLoop fuel (v &&& (v - 1)) (!p) else p

/-- The kernel `probparity`, `src/common/qengine.cl:868-894`. -/
noncomputable def probparityTerm (ul : ℕ → ℕ) (s : ℕ → ℂ) (lcv : ℕ) : ℝ :=
  if parityLoop 64 (lcv &&& ul 1) false then Complex.normSq (s lcv) else 0

/-- `QEngineOCL::Probx`, `src/qengine/opencl.cpp:1657-1685`, for the kernels that only read. -/
noncomputable def probx (R : Rt) (e : Eng) (term : (ℕ → ℕ) → (ℕ → ℂ) → ℕ → ℝ) (args : List ℕ) : Option (ℝ × Eng) :=
  (normIf R e).bind fun e =>
    let ul := writeBuf 4 (arr args) R.old.ul
    (reduceKernel R.d R.τ (ul 0) (term ul e.amp)).map fun x => (clampProb x, e)

/-- `QEngine::ProbAll`, `include/qengine.hpp:268-275`, with `QEngineOCL::GetAmplitude`, `src/qengine/opencl.cpp:3008-3024`. -/
noncomputable def probAll (R : Rt) (e : Eng) (i : ℕ) : Option (ℝ × Eng) :=
  (normIf R e).bind fun e => if 2 ^ e.n ≤ i then none else some (clampProb (Complex.normSq (e.amp i)), e)

/-- `QEngineOCL::Prob`, `src/qengine/opencl.cpp:1688-1706`. -/
noncomputable def prob (R : Rt) (e : Eng) (q : ℕ) : Option (ℝ × Eng) :=
  if e.n ≤ q then none
  else if e.n = 1 then probAll R e 1
  else probx R e probTerm [2 ^ e.n >>> 1, pow2 q]

/-- `QEngineOCL::CtrlOrAntiProb`, `src/qengine/opencl.cpp:1708-1742`. -/
noncomputable def ctrlOrAntiProb (R : Rt) (e : Eng) (controlState : Bool) (control target : ℕ) : Option (ℝ × Eng) :=
  (prob R e control).bind fun (cp, e) =>
    let controlProb := if controlState then cp else 1 - cp
    if controlProb ≤ 0 then some (0, e)
    else if 1 - controlProb ≤ 0 then prob R e target
    else if e.n ≤ target then none
    else (probx R e cprobTerm [2 ^ e.n >>> 2, pow2 target, pow2 control, if controlState then pow2 control else 0]).map
      fun (x, e) => (clampProb (x / controlProb), e)

/-- `QEngineOCL::ProbReg`, `src/qengine/opencl.cpp:1745-1755`. -/
noncomputable def probReg (R : Rt) (e : Eng) (start length perm : ℕ) : Option (ℝ × Eng) :=
  if start = 0 ∧ e.n = length then probAll R e perm
  else probx R e probregTerm [2 ^ e.n >>> length, perm <<< start % 2 ^ 64, start, length]

/-- The kernel `probregall`, `src/common/qengine.cl:778-799`, one iteration of the outer loop on `sumBuffer`. -/
noncomputable def probregallStep (ul : ℕ → ℕ) (s : ℕ → ℂ) (out : ℕ → ℝ) (lcv1 : ℕ) : ℕ → ℝ :=
  Function.update out lcv1 ((List.range (ul 1)).foldl (fun t lcv2 =>
    t + Complex.normSq (s (regIdx (ul 2) (ul 3) lcv2 ||| (lcv1 <<< ul 2 % 2 ^ 64)))) 0)

/-- `QEngineOCL::ProbRegAll`, `src/qengine/opencl.cpp:1757-1792`: the contents of `probsArray`; `fresh` is what the new
buffer holds. -/
noncomputable def probRegAll (R : Rt) (fresh : ℕ → ℝ) (e : Eng) (start length : ℕ) : Option ((ℕ → ℝ) × Eng) :=
  (normIf R e).bind fun e =>
    let ul := writeBuf 4 (arr [2 ^ length, 2 ^ e.n >>> length, start, length]) R.old.ul
    (launch R (2 ^ length) (ul 0) (probregallStep ul e.amp) fresh).map fun out => (out, e)

/-- The kernel `probmask`, `src/common/qengine.cl:801-828`; `pw` holds the powers. -/
noncomputable def probmaskTerm (pw ul : ℕ → ℕ) (s : ℕ → ℂ) (lcv : ℕ) : ℝ :=
  Complex.normSq (s (pushApart pw (ul 3) lcv ||| ul 2))

/-- `MakeBuffer(CL_MEM_COPY_HOST_PTR, sizeof(bitCapIntOcl) * length, powers)`: no buffer has no bytes,
`include/qengine_opencl.hpp:466-503`. -/
def makeBuffer (l : List ℕ) : Option (ℕ → ℕ) := if l = [] then none else some (arr l)

/-- `QEngineOCL::ProbMask`, `src/qengine/opencl.cpp:1795-1843`. -/
noncomputable def probMask (R : Rt) (e : Eng) (mask perm : ℕ) : Option (ℝ × Eng) :=
  if 2 ^ e.n ≤ mask then none
  else
    (normIf R e).bind fun e =>
      let length := (maskPowers mask).length
      let ul := writeBuf 4 (arr [2 ^ e.n >>> length, mask, perm, length]) R.old.ul
      (makeBuffer (maskPowers mask)).bind fun pw =>
        (reduceKernel R.d R.τ (ul 0) (probmaskTerm pw ul e.amp)).map fun x => (clampProb x, e)

/-- The kernel `probmaskall`, `src/common/qengine.cl:830-866`, one iteration of the outer loop. -/
noncomputable def probmaskallStep (pw skip ul : ℕ → ℕ) (s : ℕ → ℂ) (out : ℕ → ℝ) (lcv1 : ℕ) : ℕ → ℝ :=
  let perm := pushApart skip (ul 3) lcv1
  Function.update out lcv1 ((List.range (ul 1)).foldl (fun t lcv2 =>
    t + Complex.normSq (s (pushApart pw (ul 2) lcv2 ||| perm))) 0)

/-- `QEngineOCL::ProbMaskAll`, `src/qengine/opencl.cpp:1845-1927`; small masks are left to `QInterface::ProbMaskAll`. -/
noncomputable def probMaskAll (R : Rt) (fresh : ℕ → ℝ) (e : Eng) (mask : ℕ) : Option ((ℕ → ℝ) × Eng) :=
  if 2 ^ e.n ≤ mask then none
  else
    (normIf R e).bind fun e =>
      let powers := maskPowers mask
      let lengthPower := 2 ^ powers.length
      let maxJ := 2 ^ e.n >>> powers.length
      if lengthPower * lengthPower < R.d.count then some (Engine.probMaskAll e mask, e)
      else
        let skipPowers := maskPowers ((2 ^ e.n - 1) ^^^ mask)
        let ul := writeBuf 4 (arr [lengthPower, maxJ, powers.length, skipPowers.length]) R.old.ul
        (makeBuffer powers).bind fun pw => (makeBuffer skipPowers).bind fun skip =>
          (launch R lengthPower (ul 0) (probmaskallStep pw skip ul e.amp) fresh).map fun out => (out, e)

/-- `QEngineOCL::ProbParity`, `src/qengine/opencl.cpp:1929-1948`. -/
noncomputable def probParity (R : Rt) (e : Eng) (mask : ℕ) : Option (ℝ × Eng) :=
  if 2 ^ e.n ≤ mask then none
  else if mask = 0 then some (0, e)
  else if isPowerOfTwo mask then prob R e (Nat.log2 mask)
  else probx R e probparityTerm [2 ^ e.n, mask]

/-! ## Measurement -/

/-- `QEngine::ForceM`, `src/qengine/qengine.cpp:78-106`, over the OpenCL `Prob` and `ApplyM`. -/
noncomputable def forceM (R : Rt) (e : Eng) (q : ℕ) (result doForce doApply : Bool) (r u : ℝ) : Option (Bool × Eng) :=
  (prob R e q).bind fun (oneChance, e) =>
    let result := if doForce then result
      else if oneChance ≥ 1 then true
      else if oneChance ≤ 0 then false
      else decide (r ≤ oneChance)
    let nrmlzr := if result then oneChance else 1 - oneChance
    if nrmlzr ≤ 0 then none
    else if doApply ∧ 1 - nrmlzr > 0 then
      (applyMBit R e (pow2 q) result (normFactor e u nrmlzr)).map fun e => (result, e)
    else some (result, e)

/-- `QEngine::ForceM(bits, values, doApply)`, `src/qengine/qengine.cpp:109-210`, over the OpenCL engine. -/
noncomputable def forceMBits (R : Rt) (fresh : ℕ → ℝ) (e : Eng) (bits : List ℕ) (values : List Bool) (doApply : Bool)
    (r u : ℝ) : Option (ℕ × Eng) :=
  if values ≠ [] ∧ bits.length ≠ values.length then none
  else if ∃ b ∈ bits, e.n ≤ b then none
  else match bits with
  | [b] => (forceM R e b (values.headD false) false doApply r u).map fun (res, e) =>
      (if res then pow2 b else 0, e)
  | bits =>
    let powers := sortPows (bits.map pow2)
    let regMask := (bits.map pow2).foldl (· ||| ·) 0
    if values ≠ [] then
      let result := (bits.zip values).foldl (fun r (b, v) => if v then r ||| pow2 b else r) 0
      (probMask R e regMask result).bind fun (nrmlzr, e) =>
        if nrmlzr = 0 then none
        else if 1 - nrmlzr > 0 then
          (applyMReg R e regMask result (normFactor e u nrmlzr)).map fun e => (result, e)
        else some (result, e)
    else
      (normIf R e).bind fun e =>
      (probMaskAll R fresh e regMask).bind fun (probs, e) =>
      (sampleBits probs (2 ^ bits.length) r).bind fun (res, nrmlzr) =>
        if nrmlzr = 0 then none
        else
          let result := spreadBits powers res
          if doApply ∧ 1 - nrmlzr > 0 then
            (applyMReg R e regMask result (normFactor e u nrmlzr)).map fun e => (result, e)
          else some (result, e)

/-- `QEngine::ForceMReg`, `src/qengine/qengine.cpp:490-541`, over the OpenCL engine. -/
noncomputable def forceMReg (R : Rt) (fresh : ℕ → ℝ) (e : Eng) (start length result : ℕ) (doForce doApply : Bool)
    (r u : ℝ) : Option (ℕ × Eng) :=
  if Utils.isBadBitRange start length e.n then none
  else if length = 1 then
    (forceM R e start (result.testBit 0) doForce doApply r u).map fun (b, e) => (if b then 1 else 0, e)
  else
    let regMask := (2 ^ length - 1) <<< start
    let sampled : Option ((ℕ × ℝ) × Eng) :=
      if doForce then (probMask R e regMask (result <<< start)).map fun (p, e) => ((result, p), e)
      else (normIf R e).bind fun e => (probRegAll R fresh e start length).map fun (probs, e) =>
        (sampleReg probs (2 ^ length) r, e)
    sampled.bind fun ((result, nrmlzr), e) =>
      if doApply then
        if nrmlzr = 0 then none
        else (applyMReg R e regMask (result <<< start) (normFactor e u nrmlzr)).map fun e => (result, e)
      else some (result, e)

/-- The loop of `QEngineOCL::MAll`, `src/qengine/opencl.cpp:2989-3001`: `k` states are left, `perm` is the next one. -/
noncomputable def mAllLoop (amp : ℕ → ℂ) (r : ℝ) : ℕ → ℕ → ℝ → ℕ → ℕ
  | 0, _, _, last => last
  | k + 1, perm, tot, last =>
    let part := Complex.normSq (amp perm)
    if 0 < part then
      let tot := tot + part
      if tot > r ∨ 1 - tot ≤ 0 then perm else mAllLoop amp r k (perm + 1) tot perm
    else mAllLoop amp r k (perm + 1) tot last

/-- `QEngineOCL::MAll`, `src/qengine/opencl.cpp:2975-3006`. Unlike `QEngineCPU::MAll` it does not normalise. -/
noncomputable def mAll (e : Eng) (r u : ℝ) : ℕ × Eng :=
  let perm := mAllLoop e.amp r (2 ^ e.n) 0 0 (2 ^ e.n - 1)
  (perm, setPerm e perm u)

/-- The kernel `forcemparity`, `src/common/qengine.cl:896-924`: the state and the partial sums of the work-items. -/
noncomputable def forcemparityStep (ul : ℕ → ℕ) (st : (ℕ → ℂ) × (ℕ → ℝ)) (p : ℕ × ℕ) : (ℕ → ℂ) × (ℕ → ℝ) :=
  if parityLoop 64 (p.2 &&& ul 1) false = decide (ul 2 = 1) then
    (st.1, Function.update st.2 p.1 (st.2 p.1 + Complex.normSq (st.1 p.2)))
  else (Function.update st.1 p.2 0, st.2)

/-- `QEngineOCL::ForceMParity`, `src/qengine/opencl.cpp:1950-1979`, with `Probx`, `1657-1685`. -/
noncomputable def forceMParity (R : Rt) (e : Eng) (mask : ℕ) (result doForce : Bool) (r u : ℝ) : Option (Bool × Eng) :=
  if 2 ^ e.n ≤ mask then none
  else if mask = 0 then some (false, e)
  else if isPowerOfTwo mask then forceM R e (Nat.log2 mask) result doForce true r u
  else
    (if doForce then some (result, e) else (probParity R e mask).map fun (p, e) => (decide (r ≤ p), e)).bind
      fun (result, e) => (normIf R e).bind fun e =>
        let ul := writeBuf 4 (arr [2 ^ e.n, mask, if result then 1 else 0]) R.old.ul
        let g := ngc R.d (2 ^ e.n)
        let l := ngs R.d (2 ^ e.n)
        if sizesOk g l then
          let st := (R.σ (loopPlan g (ul 0))).foldl (forcemparityStep ul) (e.amp, fun _ => 0)
          let e := { e with amp := st.1, rn := clampProb (sumAll R.τ g l st.2) }
          (if !e.doNorm then normalizeState R.d R.σ R.τ R.old e (-999) (-999) 0 else some e).map fun e => (result, e)
        else none

/-! ## Averages, reading and writing, comparing -/

/-- The kernel `expperm`, `src/common/qengine.cl:926-948`; words of 64 bits. -/
noncomputable def exppermTerm (ul pw : ℕ → ℕ) (s : ℕ → ℂ) (lcv : ℕ) : ℝ :=
  let retIndex := (List.range (ul 1)).foldl (fun r p => if lcv &&& pw p ≠ 0 then r ||| 2 ^ p else r) 0
  (((ul 2 + retIndex) % 2 ^ 64 : ℕ) : ℝ) * Complex.normSq (s lcv)

/-- `QEngineOCL::ExpectationBitsAll`, `src/qengine/opencl.cpp:1981-2017`. -/
noncomputable def expectationBitsAll (R : Rt) (e : Eng) (bits : List ℕ) (offset : ℕ) : Option (ℝ × Eng) :=
  match bits with
  | [b] => prob R e b
  | [] => some (0, e)
  | bits =>
    (normIf R e).bind fun e =>
      let pw := arr (bits.map pow2)
      let ul := writeBuf 3 (arr [2 ^ e.n, bits.length, offset]) R.old.ul
      (reduceKernel R.d R.τ (ul 0) (exppermTerm ul pw e.amp)).map fun x => (x, e)

/-- `QEngineOCL::GetExpectation`, `src/qengine/opencl.cpp:2019-2037`. -/
noncomputable def getExpectation (e : Eng) (valueStart valueLength : ℕ) : ℝ :=
  let st := (List.range (2 ^ e.n)).foldl (fun (st : ℝ × ℝ) i =>
    let outputInt := (i &&& ((2 ^ valueLength - 1) <<< valueStart)) >>> valueStart
    (st.1 + Complex.normSq (e.amp i), st.2 + Complex.normSq (e.amp i) * outputInt)) (0, 0)
  if st.1 > 0 then st.2 / st.1 else st.2

/-- `QEngineOCL::SetAmplitude`, `src/qengine/opencl.cpp:3026-3054`: `permutationAmp` is overwritten with the new amplitude
before its norm is subtracted. -/
noncomputable def setAmplitude (e : Eng) (perm : ℕ) (amp : ℂ) : Option Eng :=
  if 2 ^ e.n ≤ perm then none
  else
    let permutationAmp := amp
    some { e with
      amp := Function.update e.amp perm permutationAmp
      rn := if e.rn ≠ -999 then e.rn + (Complex.normSq amp - Complex.normSq permutationAmp) else e.rn }

/-- `QEngineOCL::SetQuantumState`, `src/qengine/opencl.cpp:2961-2973`. -/
noncomputable def setQuantumState (R : Rt) (e : Eng) (input : ℕ → ℂ) : Option Eng :=
  updateRunningNorm R.d R.τ { e with amp := input }

/-- `QEngineOCL::GetQuantumState`, `src/qengine/opencl.cpp:3057-3070`. -/
noncomputable def getQuantumState (R : Rt) (e : Eng) : Option ((ℕ → ℂ) × Eng) := (normIf R e).map fun e => (e.amp, e)

/-- `QEngineOCL::GetProbs`, `src/qengine/opencl.cpp:3073`. -/
noncomputable def getProbs (R : Rt) (fresh : ℕ → ℝ) (e : Eng) : Option ((ℕ → ℝ) × Eng) := probRegAll R fresh e 0 e.n

/-- The kernel `approxcompare`, `src/common/qengine.cl:999-1011`, and its sum: real and imaginary parts are added
separately. -/
noncomputable def innerKernel (R : Rt) (maxI : ℕ) (a b : ℕ → ℂ) : Option ℂ :=
  (reduceKernel R.d R.τ maxI fun lcv => (zmul ⟨(a lcv).re, -(a lcv).im⟩ (b lcv)).re).bind fun re =>
  (reduceKernel R.d R.τ maxI fun lcv => (zmul ⟨(a lcv).re, -(a lcv).im⟩ (b lcv)).im).map fun im => (⟨re, im⟩ : ℂ)

/-- `QEngineOCL::SumSqrDiff`, `src/qengine/opencl.cpp:3075-3158`, for two different objects that both have a buffer. -/
noncomputable def sumSqrDiff (R : Rt) (a b : Eng) : Option ℝ :=
  if a.n ≠ b.n then some 1
  else
    (normIf R a).bind fun a => (normIf R b).bind fun b =>
      let ul := writeBuf 1 (arr [2 ^ a.n]) R.old.ul
      (innerKernel R (ul 0) a.amp b.amp).map fun z => 1 - clampProb (Complex.normSq z)

/-! ## Joining and splitting -/

/-- An engine together with whether it has a state buffer. -/
structure Held where
  e : Eng
  live : Bool

/-- The kernels `compose`, `composewide`, `src/common/qengine.cl:521-549`: what is written at `lcv`. -/
noncomputable def composeTerm (ul : ℕ → ℕ) (s1 s2 : ℕ → ℂ) (lcv : ℕ) : ℂ :=
  zmul (s1 (lcv &&& ul 2)) (s2 ((lcv &&& ul 3) >>> ul 1))

/-- The kernel `composemid`, `src/common/qengine.cl:551-567`. -/
noncomputable def composemidTerm (ul : ℕ → ℕ) (s1 s2 : ℕ → ℂ) (lcv : ℕ) : ℂ :=
  zmul (s1 ((lcv &&& ul 2) ||| ((lcv &&& ul 4) >>> ul 1))) (s2 ((lcv &&& ul 3) >>> ul 5))

/-- `QEngineOCL::Compose(apiCall, bciArgs, toCopy)`, `src/qengine/opencl.cpp:1266-1361`, for two engines on one device; `fresh`
is what the new buffer holds. The result is this engine and the other one (which may have been normalised). -/
noncomputable def composeWith (R : Rt) (fresh : ℕ → ℂ) (wide : Bool) (term : (ℕ → ℕ) → (ℕ → ℂ) → (ℕ → ℂ) → ℕ → ℂ)
    (args : List ℕ) (a b : Held) : Option (Held × Held) :=
  if b.e.n = 0 then some (a, b)
  else if !a.live || !b.live then some (⟨{ a.e with n := a.e.n + b.e.n, amp := fun _ => 0, rn := 0 }, false⟩, b)
  else if a.e.n = 0 then some (⟨{ a.e with n := b.e.n, rn := b.e.rn, amp := b.e.amp }, true⟩, b)
  else
    (normIf R a.e).bind fun a' => (normIf R b.e).bind fun b' =>
      let ul := writeBuf 7 (arr args) R.old.ul
      let maxI := 2 ^ (a.e.n + b.e.n)
      let g := ngc R.d maxI
      if sizesOk g (ngs R.d maxI) then
        let plan := if wide then widePlan g else loopPlan g (ul 0)
        some (⟨{ a' with
                 n := a.e.n + b.e.n
                 amp := (R.σ plan).foldl (fun s p => Function.update s p.2 (term ul a'.amp b'.amp p.2)) fresh }, true⟩,
              ⟨b', true⟩)
      else none

/-- `QEngineOCL::Compose(toCopy)`, `src/qengine/opencl.cpp:1363-1384`. -/
noncomputable def compose (R : Rt) (fresh : ℕ → ℂ) (a b : Held) : Option (Held × Held) :=
  let nMaxQPower := 2 ^ (a.e.n + b.e.n)
  composeWith R fresh (decide (nMaxQPower ≤ R.d.count)) composeTerm
    [nMaxQPower, a.e.n, 2 ^ a.e.n - 1, (2 ^ b.e.n - 1) <<< a.e.n] a b

/-- `QEngineOCL::Compose(toCopy, start)`, `src/qengine/opencl.cpp:1386-1406`. -/
noncomputable def composeAt (R : Rt) (fresh : ℕ → ℂ) (a b : Held) (start : ℕ) : Option (Held × Held) :=
  if a.e.n < start then none
  else
    let startMask := 2 ^ start - 1
    let midMask := (2 ^ b.e.n - 1) <<< start
    let endMask := (2 ^ (a.e.n + b.e.n) - 1) &&& ((2 ^ 64 - 1) ^^^ (startMask ||| midMask))
    composeWith R fresh false composemidTerm
      [2 ^ (a.e.n + b.e.n), b.e.n, startMask, midMask, endMask, start] a b

/-- `QEngineOCL::Allocate(start, length)`, `src/qengine/opencl.cpp:1645-1655`. -/
noncomputable def allocate (R : Rt) (fresh : ℕ → ℂ) (a : Held) (start length : ℕ) : Option Held :=
  if length = 0 then some a
  else (composeAt R fresh a ⟨{ a.e with n := length, amp := fun i => if i = 0 then 1 else 0, rn := 1 }, true⟩ start).map (·.1)

/-- The kernel `dispose`, `src/common/qengine.cl:689-702`: what is written at `lcv`. -/
def disposeTerm (ul : ℕ → ℕ) (s : ℕ → ℂ) (lcv : ℕ) : ℂ :=
  let iLow := lcv &&& ul 2
  s (iLow ||| ((lcv ^^^ iLow) <<< ul 1 % 2 ^ 64) ||| ul 3)

/-- `QEngineOCL::Dispose(start, length, disposedPerm)`, `src/qengine/opencl.cpp:1592-1643`. A range that does not fit makes
the qubit count wrap around: `none`. -/
noncomputable def disposePerm (R : Rt) (fresh : ℕ → ℂ) (a : Held) (start length perm : ℕ) : Option Held :=
  if length = 0 then some a
  else if a.e.n < length then none
  else if !a.live then some { a with e := { a.e with n := a.e.n - length } }
  else if length = a.e.n then some ⟨{ a.e with n := 0, amp := fun _ => 0 }, false⟩
  else
    (normIf R a.e).bind fun e =>
      let nLength := a.e.n - length
      let ul := writeBuf 4 (arr [2 ^ nLength, length, 2 ^ start - 1, perm <<< start % 2 ^ 64]) R.old.ul
      (launch R (2 ^ nLength) (ul 0) (fun s lcv => Function.update s lcv (disposeTerm ul e.amp lcv)) fresh).map fun s =>
        ⟨{ e with n := nLength, amp := s }, true⟩

/-- The global buffers of the kernel `decomposeprob`. -/
structure Angles where
  remProb : ℕ → ℝ
  remAngle : ℕ → ℝ
  partProb : ℕ → ℝ
  partAngle : ℕ → ℝ

/-- `if (nrm > REAL1_EPSILON) { ...[k] += arg(amp) * nrm; }`, `src/common/qengine.cl:591-593`. -/
noncomputable def addAngle (a : ℕ → ℝ) (k : ℕ) (z : ℂ) : ℕ → ℝ :=
  if 0 < Complex.normSq z then Function.update a k (a k + Complex.arg z * Complex.normSq z) else a

/-- One iteration of one of the three loops of `decomposeprob`, `src/common/qengine.cl:581-627`, taken as one step. -/
noncomputable def decomposeStep (partPower remPower start len : ℕ) (s : ℕ → ℂ) (st : Angles) (ph lcv : ℕ) : Angles :=
  if ph = 0 then
    let j := regIdx start len lcv
    let acc := (List.range partPower).foldl (fun (acc : ℝ × (ℕ → ℝ)) k =>
      let amp := s (j ||| (k <<< start))
      (acc.1 + Complex.normSq amp, addAngle acc.2 k amp)) (0, st.partAngle)
    { st with remProb := Function.update st.remProb lcv acc.1, partAngle := acc.2 }
  else if ph = 1 then
    let acc := (List.range remPower).foldl (fun (acc : ℝ × (ℕ → ℝ)) k =>
      let amp := s (regIdx start len k ||| (lcv <<< start))
      (acc.1 + Complex.normSq amp, addAngle acc.2 k amp)) (0, st.remAngle)
    { st with
      remAngle := acc.2
      partAngle := if 0 < acc.1 then Function.update st.partAngle lcv (st.partAngle lcv / acc.1) else st.partAngle
      partProb := Function.update st.partProb lcv acc.1 }
  else
    if 0 < st.remProb lcv then
      { st with remAngle := Function.update st.remAngle lcv (st.remAngle lcv / st.remProb lcv) }
    else st

/-- The program of work-item `id`: the three loops one after the other; a step is (loop, index). -/
def decomposeProg (nthreads partPower remPower id : ℕ) : List (ℕ × ℕ) :=
  (stride nthreads remPower id).map (fun l => (0, l)) ++ (stride nthreads partPower id).map (fun l => (1, l)) ++
    (stride nthreads remPower id).map (fun l => (2, l))

/-- The part of an interleaved run that belongs to work-item `id`. -/
def ownSteps (tr : List (ℕ × ℕ × ℕ)) (id : ℕ) : List (ℕ × ℕ) := (tr.filter fun p => p.1 == id).map Prod.snd

/-- A run of the kernel `decomposeprob` or `disposeprob`: an interleaving of the programs of the work-items. There is no
barrier between the loops. -/
def IsDecomposeRun (nthreads partPower remPower : ℕ) (tr : List (ℕ × ℕ × ℕ)) : Prop :=
  (∀ p ∈ tr, p.1 < nthreads) ∧ ∀ id < nthreads, ownSteps tr id = decomposeProg nthreads partPower remPower id

/-- The run in which the work-items run one after the other. -/
def itemsInOrder (nthreads partPower remPower : ℕ) : List (ℕ × ℕ × ℕ) :=
  (List.range nthreads).flatMap fun id => (decomposeProg nthreads partPower remPower id).map fun p => (id, p)

/-- The kernel `decomposeamp`, `src/common/qengine.cl:630-639`: `sin(angle + π/2)` and `sin(angle)` are the parts. -/
noncomputable def decomposeampTerm (prob angle : ℕ → ℝ) (lcv : ℕ) : ℂ :=
  Real.sqrt (prob lcv) * (⟨Real.sin (angle lcv + Real.pi / 2), Real.sin (angle lcv)⟩ : ℂ)

/-- `QEngineOCL::DecomposeDispose`, `src/qengine/opencl.cpp:1408-1580`: this engine and the amplitudes given to the
destination, if there is one (`disposeprob`, `src/common/qengine.cl:641-687`, computes the same remainder). `tr` is the run
of the kernel; the local size of the last launch (line 1562) is derived from the global size of the first. -/
noncomputable def decomposeDispose (R : Rt) (tr : List (ℕ × ℕ × ℕ)) (fresh : ℕ → ℂ) (e : Eng) (start length : ℕ) :
    Option (Eng × (ℕ → ℂ)) :=
  if Utils.isBadBitRange start length e.n then none
  else if length = 0 then some (e, fresh)
  else
    (normIf R e).bind fun e =>
      let nLength := e.n - length
      if nLength = 0 then some ({ e with n := 0, amp := fresh }, e.amp)
      else
        let partPower := 2 ^ length
        let remainderPower := 2 ^ nLength
        let largerPower := if partPower > remainderPower then partPower else remainderPower
        let g := ngc R.d largerPower
        let l := fixGroupSize g R.d.size
        let g2 := ngc R.d partPower
        let l2 := fixGroupSize g2 R.d.size
        let g3 := ngc R.d remainderPower
        let l3 := fixGroupSize g R.d.size
        if sizesOk g l ∧ sizesOk g2 l2 ∧ sizesOk g3 l3 then
          let st := tr.foldl (fun st p => decomposeStep partPower remainderPower start length e.amp st p.2.1 p.2.2)
            ⟨fun _ => 0, fun _ => 0, fun _ => 0, fun _ => 0⟩
          some ({ e with
                  n := nLength
                  amp := (R.σ (loopPlan g3 remainderPower)).foldl
                    (fun s p => Function.update s p.2 (decomposeampTerm st.remProb st.remAngle p.2)) fresh },
                (R.σ (loopPlan g2 partPower)).foldl
                  (fun s p => Function.update s p.2 (decomposeampTerm st.partProb st.partAngle p.2)) fresh)
        else none

/-- The kernel `shufflebuffers`, `src/common/qengine.cl:1059-1068`. -/
def shuffleStep (halfMaxI : ℕ) (st : (ℕ → ℂ) × (ℕ → ℂ)) (lcv : ℕ) : (ℕ → ℂ) × (ℕ → ℂ) :=
  let amp0 := st.1 (lcv + halfMaxI)
  (Function.update st.1 (lcv + halfMaxI) (st.2 lcv), Function.update st.2 lcv amp0)

/-- `QEngineOCL::ShuffleBuffers`, `src/qengine/opencl.cpp:228-330`, for two engines with buffers on one context. -/
noncomputable def shuffleBuffers (R : Rt) (a b : Eng) : Option (Eng × Eng) :=
  if a.n ≠ b.n then none
  else
    let ul := writeBuf 1 (arr [2 ^ a.n >>> 1]) R.old.ul
    (launch R (2 ^ a.n >>> 1) (ul 0) (shuffleStep (ul 0)) (a.amp, b.amp)).map fun st =>
      ({ a with amp := st.1, rn := -999 }, { b with amp := st.2, rn := -999 })

end Verif.Ocl
