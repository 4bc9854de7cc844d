import Verif.Model.Ocl
import Verif.Model.EngineMask
import Verif.Model.EngineUniform

/-!
# Model of the OpenCL engine's gates

`src/qengine/opencl.cpp:692-1218, 3206-3300`, `src/common/qengine.cl:13-519, 950-997`. The simplifications are
those of `Verif/Model/Ocl.lean`, and the ones on numbers of `Verif/Model/Engine.lean`
(`FP_NORM_EPSILON` is `0`, a released state buffer is the zero function). The state of the engine is
the same record `Eng` as for `QEngineCPU`.
-/

namespace Verif.Ocl

open Verif.Engine Classical

/-- `zmul`, `src/common/qengine.cl:13-16`. -/
def zmul (x y : ℂ) : ℂ := ⟨x.re * y.re - x.im * y.im, x.re * y.im + x.im * y.re⟩

/-- `zmatrixmul`, `src/common/qengine.cl:18-25`; the four complex numbers of `cmplx4` are read from
the buffer `c`. -/
def zmatrixmul (nrm : ℝ) (c : ℕ → ℂ) (x y : ℂ) : ℂ × ℂ :=
  (⟨nrm * ((c 0).re * x.re - (c 0).im * x.im + (c 1).re * y.re - (c 1).im * y.im),
    nrm * ((c 0).re * x.im + (c 0).im * x.re + (c 1).re * y.im + (c 1).im * y.re)⟩,
   ⟨nrm * ((c 2).re * x.re - (c 2).im * x.im + (c 3).re * y.re - (c 3).im * y.im),
    nrm * ((c 2).re * x.im + (c 2).im * x.re + (c 3).re * y.im + (c 3).im * y.re)⟩)

/-- A complex buffer read as `constant real1*`. -/
def realAt (c : ℕ → ℂ) (i : ℕ) : ℝ := if i % 2 = 0 then (c (i / 2)).re else (c (i / 2)).im

/-- `SPECIAL_2X2`, `include/qengine_gpu_util.hpp:19`. -/
inductive Special
  | none | pauliX | pauliZ | invert | phase
  deriving DecidableEq

/-- The argument buffers of the pool item and the buffer of powers: `ulongBuffer`, `cmplxBuffer`,
`locPowersBuffer`. -/
structure Bufs where
  ul : ℕ → ℕ
  cx : ℕ → ℂ
  pw : ℕ → ℕ

/-- Which qubits a kernel of the `apply2x2` family spreads its index over. -/
inductive Spread
  | gen | single | double
  deriving DecidableEq

/-- What it does with the pair of amplitudes. -/
inductive Op
  | apply | norm | x | z | invert | phase
  deriving DecidableEq

/-- The kernels of the `apply2x2` family, `src/common/qengine.cl:144-264, 342-407`. -/
structure Kern where
  spread : Spread
  wide : Bool
  op : Op

/-- The number of parameters of the kernel (the local buffer included). -/
def Kern.arity (k : Kern) : ℕ :=
  match k.op with
  | .x | .z => 2
  | .norm => 5
  | .invert | .phase => 3
  | .apply => match k.spread with
    | .gen => 4
    | _ => 3

/-- `PUSH_APART_GEN`, `_1`, `_2` as each kernel uses it; the single-qubit mask is word 3 of the
arguments, word 2 in the `wide` kernels. -/
def Kern.index (k : Kern) (b : Bufs) (lcv : ℕ) : ℕ :=
  match k.spread with
  | .gen => pushApart b.pw (b.ul 3) lcv
  | .single => pushApart1 (b.ul (if k.wide then 2 else 3)) lcv
  | .double => pushApart2 (b.ul 3) (b.ul 4) lcv

/-- The iterations of a launch with `g` work-items: `MAXI_ARG` is word 2. -/
def Kern.plan (k : Kern) (b : Bufs) (g : ℕ) : List (ℕ × ℕ) := if k.wide then widePlan g else loopPlan g (b.ul 2)

/-- Two assignments `s[i] = x; s[j] = y`. -/
def set2 (s : ℕ → ℂ) (i j : ℕ) (x y : ℂ) : ℕ → ℂ := Function.update (Function.update s i x) j y

/-- One iteration, `APPLY_AND_OUT`, `APPLY_X`, `APPLY_Z`, `APPLY_PHASE`, `APPLY_INVERT`,
`NORM_BODY_2X2`: `src/common/qengine.cl:82-126`. `OFFSET2_ARG` is word 0 and `OFFSET1_ARG` is word 1.
The second component of the state is `partNrm` of every work-item. -/
noncomputable def Kern.step (k : Kern) (b : Bufs) (st : (ℕ → ℂ) × (ℕ → ℝ)) (p : ℕ × ℕ) :
    (ℕ → ℂ) × (ℕ → ℝ) :=
  let s := st.1
  let i := k.index b p.2
  let i1 := i ||| b.ul 1
  let i2 := i ||| b.ul 0
  match k.op with
  | .apply =>
    let q := zmatrixmul (realAt b.cx 8) b.cx (s i1) (s i2)
    (set2 s i1 i2 q.1 q.2, st.2)
  | .norm =>
    let q := zmatrixmul (realAt b.cx 8) b.cx (s i1) (s i2)
    let thr := realAt b.cx 9
    let n1 := Complex.normSq q.1
    let lo := if n1 < thr then 0 else q.1
    let part := if n1 < thr then st.2 p.1 else st.2 p.1 + n1
    let n2 := Complex.normSq q.2
    let hi := if n2 < thr then 0 else q.2
    let part := if n2 < thr then part else part + n2
    (set2 s i1 i2 lo hi, Function.update st.2 p.1 part)
  | .x => (set2 s i i2 (s i2) (s i), st.2)
  | .z => (Function.update s i2 (-s i2), st.2)
  | .phase =>
    let s := Function.update s i (zmul (b.cx 0) (s i))
    (Function.update s i2 (zmul (b.cx 3) (s i2)), st.2)
  | .invert => (set2 s i i2 (zmul (b.cx 1) (s i2)) (zmul (b.cx 2) (s i)), st.2)

/-- `kernelMask` and the `switch`, `src/qengine/opencl.cpp:905-978`. -/
def selectKern (bitCount : ℕ) (isX isZ isInvert isPhase doCalcNorm wide : Bool) : Kern where
  spread := if bitCount = 1 then .single else if bitCount = 2 then .double else .gen
  wide := wide
  op := if bitCount = 1 then
      (if isX then .x else if isZ then .z else if isInvert then .invert else if isPhase then .phase
        else if doCalcNorm then .norm else .apply)
    else .apply

/-- The number of arguments the host sets, `src/qengine/opencl.cpp:990-1008` (with the local buffer). -/
def hostArity (bitCount : ℕ) (isX isZ doCalcNorm : Bool) : ℕ :=
  if isX || isZ then 2
  else if doCalcNorm then (if bitCount > 2 then 6 else 5)
  else (if bitCount > 2 then 4 else 3)

/-- `bciArgsSize` and `bciArgs`, `src/qengine/opencl.cpp:842-843, 855-872`. -/
def apply2x2Args (o1 o2 maxI g : ℕ) (pows : List ℕ) : ℕ × (ℕ → ℕ) :=
  if pows.length = 1 then
    if g = maxI then (3, arr [o2, o1, pows.getD 0 0 - 1, 1, 0])
    else (4, arr [o2, o1, maxI, pows.getD 0 0 - 1, 0])
  else if pows.length = 2 then (5, arr [o2, o1, maxI, pows.getD 0 0 - 1, pows.getD 1 0 - 1])
  else (4, arr [o2, o1, maxI, pows.length, 0])

/-- The local flags of `Apply2x2`. -/
structure Flags where
  isX : Bool
  isZ : Bool
  isInvert : Bool
  isPhase : Bool
  doApply : Bool
  cn : Bool

/-- `src/qengine/opencl.cpp:821-832`. -/
noncomputable def flags (e : Eng) (bitCount : ℕ) (doCalcNorm : Bool) (sp : Special) : Flags :=
  let skipNorm : Bool := !e.doNorm || decide (e.rn = 1)
  let isX : Bool := skipNorm && decide (sp = .pauliX)
  let isZ : Bool := skipNorm && decide (sp = .pauliZ)
  let isInvert : Bool := skipNorm && decide (sp = .invert)
  let isPhase : Bool := skipNorm && decide (sp = .phase)
  let doApply : Bool := e.doNorm && (bitCount == 1) && decide (0 < e.rn) && !isX && !isZ && !isInvert && !isPhase
  { isX, isZ, isInvert, isPhase
    doApply := doApply && decide (e.rn ≠ 1)
    cn := doCalcNorm && (doApply || decide (e.rn ≤ 0)) }

/-- `cmplx`, `src/qengine/opencl.cpp:877-882`. -/
noncomputable def cmplxArgs (e : Eng) (m : M2) (doApply : Bool) (thresh : ℝ) : ℕ → ℂ
  | 0 => m.a
  | 1 => m.b
  | 2 => m.c
  | 3 => m.d
  | 4 => if doApply then ((1 / Real.sqrt e.rn : ℝ) : ℂ) else 1
  | _ => (thresh : ℂ)

/-- The buffers that the kernel sees, `src/qengine/opencl.cpp:842-902`; `old` is what they hold from earlier calls. -/
noncomputable def apply2x2Bufs (old : Bufs) (e : Eng) (o1 o2 : ℕ) (m : M2) (pows : List ℕ) (maxI g : ℕ) (fl : Flags)
    (thresh : ℝ) : Bufs where
  ul := writeBuf (apply2x2Args o1 o2 maxI g pows).1 (apply2x2Args o1 o2 maxI g pows).2 old.ul
  cx := if fl.isX || fl.isZ then old.cx else writeBuf 6 (cmplxArgs e m fl.doApply thresh) old.cx
  pw := if pows.length > 2 then writeBuf pows.length (arr pows) old.pw else old.pw

/-- `QEngineOCL::Apply2x2`, `src/qengine/opencl.cpp:800-1024`. `old` is what the buffers hold from
earlier calls, `σ` and `τ` schedule the work-items of the launch and of the rounds of the reduction. -/
noncomputable def apply2x2 (d : Dev) (σ : List (ℕ × ℕ) → List (ℕ × ℕ)) (τ : List ℕ → List ℕ) (old : Bufs) (e : Eng)
    (o1 o2 : ℕ) (m : M2) (pows : List ℕ) (doCalcNorm : Bool) (sp : Special) (thresh : ℝ) : Option Eng :=
  if 2 ^ e.n ≤ o1 ∨ 2 ^ e.n ≤ o2 then none
  else if (∃ p ∈ pows, 2 ^ e.n ≤ p) ∨ adjDup pows = true then none
  else
    let fl := flags e pows.length doCalcNorm sp
    let maxI := 2 ^ e.n / 2 ^ pows.length
    let g := ngc d maxI
    let l := ngs d maxI
    let b := apply2x2Bufs old e o1 o2 m pows maxI g fl thresh
    let k := selectKern pows.length fl.isX fl.isZ fl.isInvert fl.isPhase fl.cn (g == maxI)
    if k.arity ≠ hostArity pows.length fl.isX fl.isZ fl.cn ∨ ¬ sizesOk g l then none
    else
      let st := (σ (k.plan b g)).foldl (k.step b) (e.amp, fun _ => 0)
      if !fl.cn then some { e with amp := st.1, rn := if fl.doApply then 1 else e.rn }
      else
        let rn := sumAll τ g l st.2
        if rn ≤ 0 then some { e with amp := fun _ => 0, rn := 0 }
        else some { e with amp := st.1, rn := rn }

/-! ## The callers -/

/-- What a call of the virtual `Apply2x2` from `QEngine` does (`SPECIAL_2X2::NONE`,
`include/qengine_opencl.hpp:634-638`, with the default threshold `REAL1_DEFAULT_ARG = -999`,
`include/common/qrack_types.hpp:177`). -/
noncomputable def apply (d : Dev) (σ : List (ℕ × ℕ) → List (ℕ × ℕ)) (τ : List ℕ → List ℕ) (old : Bufs) (e : Eng)
    (o1 o2 : ℕ) (m : M2) (pows : List ℕ) (doCalcNorm : Bool) : Option Eng :=
  apply2x2 d σ τ old e o1 o2 m pows doCalcNorm .none (-999)

/-- `QEngine::Mtrx`, `src/qengine/qengine.cpp:19-27`, over the OpenCL `Apply2x2`. -/
noncomputable def mtrx (d : Dev) (σ : List (ℕ × ℕ) → List (ℕ × ℕ)) (τ : List ℕ → List ℕ) (old : Bufs) (e : Eng) (m : M2)
    (q : ℕ) : Option Eng :=
  if isIdentity e.rgp m false then some e
  else apply d σ τ old e 0 (pow2 q) m [pow2 q] (e.doNorm && !decide (m.isPhase ∨ m.isInvert))

/-- `QEngineOCL::UpdateRunningNorm`, `src/qengine/opencl.cpp:3263-3300`, and the kernel `updatenorm`,
`src/common/qengine.cl:979-997`. -/
noncomputable def updateRunningNorm (d : Dev) (τ : List ℕ → List ℕ) (e : Eng) : Option Eng :=
  (reduceKernel d τ (2 ^ e.n) fun lcv =>
    if Complex.normSq (e.amp lcv) < e.floor then 0 else Complex.normSq (e.amp lcv)).map fun nrm =>
  if nrm ≤ 0 then { e with amp := fun _ => 0, rn := 0 } else { e with rn := nrm }

/-- `QEngine::ApplyControlled2x2`, `ApplyAntiControlled2x2`, `src/qengine/qengine.cpp:372-398`. -/
noncomputable def applyCtrl (d : Dev) (σ : List (ℕ × ℕ) → List (ℕ × ℕ)) (τ : List ℕ → List ℕ) (old : Bufs) (e : Eng)
    (controls : List ℕ) (t : ℕ) (m : M2) (isAnti : Bool) : Option Eng :=
  let controlMask := (controls.map pow2).foldl (· ||| ·) 0
  if isAnti then apply d σ τ old e 0 (pow2 t) m (sortPows (controls.map pow2 ++ [pow2 t])) false
  else apply d σ τ old e controlMask (controlMask ||| pow2 t) m (sortPows (controls.map pow2 ++ [pow2 t])) false

/-- `QEngine::EitherMtrx`, `src/qengine/qengine.cpp:29-48`, over the OpenCL `Apply2x2` and
`UpdateRunningNorm`. -/
noncomputable def eitherMtrx (d : Dev) (σ : List (ℕ × ℕ) → List (ℕ × ℕ)) (τ : List ℕ → List ℕ) (old : Bufs) (e : Eng)
    (controls : List ℕ) (m : M2) (t : ℕ) (isAnti : Bool) : Option Eng :=
  if controls = [] then mtrx d σ τ old e m t
  else if isIdentity e.rgp m true then some e
  else
    let r := applyCtrl d σ τ old e controls t m isAnti
    if e.doNorm && !decide (m.isPhase ∨ m.isInvert) then r.bind (updateRunningNorm d τ) else r

/-- `QEngine::UCMtrx`, `src/qengine/qengine.cpp:50-75`. -/
noncomputable def ucMtrx (d : Dev) (σ : List (ℕ × ℕ) → List (ℕ × ℕ)) (τ : List ℕ → List ℕ) (old : Bufs) (e : Eng)
    (controls : List ℕ) (m : M2) (t : ℕ) (controlPerm : ℕ) : Option Eng :=
  if controls = [] then mtrx d σ τ old e m t
  else if isIdentity e.rgp m true then some e
  else
    let controlMask := permMask controlPerm 0 controls
    apply d σ τ old e controlMask (controlMask ||| pow2 t) m (sortPows (controls.map pow2 ++ [pow2 t])) false

/-- `QEngine::Swap`, `ISwap`, `IISwap`, `SqrtSwap`, `ISqrtSwap`, `src/qengine/qengine.cpp:400-442`. -/
noncomputable def swapLike (d : Dev) (σ : List (ℕ × ℕ) → List (ℕ × ℕ)) (τ : List ℕ → List ℕ) (old : Bufs) (e : Eng)
    (m : M2) (q1 q2 : ℕ) : Option Eng :=
  if q1 = q2 then some e
  else apply d σ τ old e (pow2 (min q1 q2)) (pow2 (max q1 q2)) m [pow2 (min q1 q2), pow2 (max q1 q2)] false

/-- `QEngine::CSwap`, `CSqrtSwap`, `CISqrtSwap` and the `Anti` versions,
`src/qengine/qengine.cpp:212-370`. -/
noncomputable def cswapLike (d : Dev) (σ : List (ℕ × ℕ) → List (ℕ × ℕ)) (τ : List ℕ → List ℕ) (old : Bufs) (e : Eng)
    (m : M2) (controls : List ℕ) (q1 q2 : ℕ) (isAnti : Bool) : Option Eng :=
  if controls = [] then swapLike d σ τ old e m q1 q2
  else if q1 = q2 then some e
  else
    let a := min q1 q2
    let b := max q1 q2
    let skipMask := if isAnti then 0 else (controls.map pow2).foldl (· ||| ·) 0
    apply d σ τ old e (skipMask ||| pow2 a) (skipMask ||| pow2 b) m
      (sortPows (controls.map pow2 ++ [pow2 a, pow2 b])) false

/-- `QEngineOCL::X`, `src/qengine/opencl.cpp:692-697`. -/
noncomputable def gateX (d : Dev) (σ : List (ℕ × ℕ) → List (ℕ × ℕ)) (τ : List ℕ → List ℕ) (old : Bufs) (e : Eng)
    (q : ℕ) : Option Eng :=
  apply2x2 d σ τ old e 0 (pow2 q) ⟨0, 1, 1, 0⟩ [pow2 q] false .pauliX (-999)

/-- `QEngineOCL::Z`, `src/qengine/opencl.cpp:699-704`. -/
noncomputable def gateZ (d : Dev) (σ : List (ℕ × ℕ) → List (ℕ × ℕ)) (τ : List ℕ → List ℕ) (old : Bufs) (e : Eng)
    (q : ℕ) : Option Eng :=
  apply2x2 d σ τ old e 0 (pow2 q) ⟨1, 0, 0, -1⟩ [pow2 q] false .pauliZ (-999)

/-- `QEngineOCL::Invert`, `src/qengine/opencl.cpp:706-715`. -/
noncomputable def invert (d : Dev) (σ : List (ℕ × ℕ) → List (ℕ × ℕ)) (τ : List ℕ → List ℕ) (old : Bufs) (e : Eng)
    (tr bl : ℂ) (q : ℕ) : Option Eng :=
  if (e.rgp = true ∨ 1 - tr = 0) ∧ tr - bl = 0 then gateX d σ τ old e q
  else apply2x2 d σ τ old e 0 (pow2 q) ⟨0, tr, bl, 0⟩ [pow2 q] false .invert (-999)

/-- `QEngineOCL::Phase`, `src/qengine/opencl.cpp:717-732`. -/
noncomputable def phase (d : Dev) (σ : List (ℕ × ℕ) → List (ℕ × ℕ)) (τ : List ℕ → List ℕ) (old : Bufs) (e : Eng)
    (tl br : ℂ) (q : ℕ) : Option Eng :=
  if (e.rgp = true ∨ 1 - tl = 0) ∧ tl - br = 0 then some e
  else if (e.rgp = true ∨ 1 - tl = 0) ∧ tl + br = 0 then gateZ d σ τ old e q
  else apply2x2 d σ τ old e 0 (pow2 q) ⟨tl, 0, 0, br⟩ [pow2 q] false .phase (-999)

/-! ## Kernels that visit every amplitude -/

/-- Launch of a looping kernel over `maxI` indices that rewrites the state. -/
noncomputable def runLoop (d : Dev) (σ : List (ℕ × ℕ) → List (ℕ × ℕ)) (maxI bound : ℕ) (step : (ℕ → ℂ) → ℕ → ℕ → ℂ)
    (s : ℕ → ℂ) : Option (ℕ → ℂ) :=
  if sizesOk (ngc d maxI) (ngs d maxI) then
    some ((σ (loopPlan (ngc d maxI) bound)).foldl (fun s p => step s p.2) s)
  else none

/-- The kernel `xmask`, `src/common/qengine.cl:266-291`. -/
noncomputable def xmaskStep (ul : ℕ → ℕ) (s : ℕ → ℂ) (lcv : ℕ) : ℕ → ℂ :=
  let otherRes := lcv &&& ul 2
  let setInt := lcv &&& ul 1
  let resetInt := setInt ^^^ ul 1
  if setInt < resetInt then s
  else
    let setInt := setInt ||| otherRes
    let resetInt := resetInt ||| otherRes
    set2 s resetInt setInt (s setInt) (s resetInt)

/-- The kernel `phaseparity`, `src/common/qengine.cl:293-316`. -/
noncomputable def phaseparityStep (ul : ℕ → ℕ) (cx : ℕ → ℂ) (s : ℕ → ℂ) (lcv : ℕ) : ℕ → ℂ :=
  let setInt := lcv &&& ul 1
  let v := parityBit setInt
  let setInt := setInt ||| (lcv &&& ul 2)
  Function.update s setInt (zmul (if v ≠ 0 then cx 0 else cx 1) (s setInt))

/-- The first three words of `BitMask`'s arguments, `src/qengine/opencl.cpp:1034-1042`. -/
def bitMaskArgs (n mask : ℕ) (old : ℕ → ℕ) : ℕ → ℕ :=
  writeBuf 3 (arr [2 ^ n, mask, (2 ^ n - 1) ^^^ mask]) old

/-- `QEngineOCL::XMask`, `src/qengine/opencl.cpp:733-744`, over `BitMask`, `1026-1065`. -/
noncomputable def xMask (d : Dev) (σ : List (ℕ × ℕ) → List (ℕ × ℕ)) (τ : List ℕ → List ℕ) (old : Bufs) (e : Eng)
    (mask : ℕ) : Option Eng :=
  if mask = 0 then some e
  else if isPowerOfTwo mask then gateX d σ τ old e (Nat.log2 mask)
  else if 2 ^ e.n ≤ mask then none
  else
    let ul := bitMaskArgs e.n mask old.ul
    (runLoop d σ (2 ^ e.n) (ul 0) (xmaskStep ul) e.amp).map fun a => { e with amp := a }

/-- `QEngineOCL::PhaseParity`, `src/qengine/opencl.cpp:745-758`, over `BitMask`. -/
noncomputable def phaseParity (d : Dev) (σ : List (ℕ × ℕ) → List (ℕ × ℕ)) (τ : List ℕ → List ℕ) (old : Bufs) (e : Eng)
    (radians : ℝ) (mask : ℕ) : Option Eng :=
  if mask = 0 then some e
  else
    let fac := Complex.exp (((radians / 2 : ℝ) : ℂ) * Complex.I)
    if isPowerOfTwo mask then phase d σ τ old e (1 / fac) fac (Nat.log2 mask)
    else if 2 ^ e.n ≤ mask then none
    else
      let ul := bitMaskArgs e.n mask old.ul
      let cx := writeBuf 2 (fun i => if i = 0 then fac else 1 / fac) old.cx
      (runLoop d σ (2 ^ e.n) (ul 0) (phaseparityStep ul cx) e.amp).map fun a => { e with amp := a }

/-- The loop `while (v) { popCount += v & 1; v >>= 1; }`, `src/common/qengine.cl:330-333`. -/
def popLoop : ℕ → ℕ → ℕ
  | 0, _ => 0
  | fuel + 1, v => if v = 0 then 0 else v % 2 + popLoop fuel (v / 2)

/-- The kernel `phasemask`, `src/common/qengine.cl:318-340`. -/
noncomputable def phasemaskStep (ul : ℕ → ℕ) (s : ℕ → ℂ) (lcv : ℕ) : ℕ → ℂ :=
  let phaseAngle : ℝ := -Real.pi / (ul 3 : ℝ)
  let steps := popLoop 64 (lcv &&& ul 1) % ul 2
  if steps ≠ 0 then
    Function.update s lcv (zmul (Complex.exp (((steps * phaseAngle : ℝ) : ℂ) * Complex.I)) (s lcv))
  else s

/-- `QInterface::ZMask`, `src/qinterface/gates.cpp:144-153`, over the OpenCL `Z`. -/
noncomputable def zMask (d : Dev) (σ : List (ℕ × ℕ) → List (ℕ × ℕ)) (τ : List ℕ → List ℕ) (old : Bufs) (e : Eng)
    (mask : ℕ) : Option Eng :=
  (maskQubits mask).foldlM (fun e q => gateZ d σ τ old e q) e

/-- `QEngineOCL::PhaseRootNMask`, `src/qengine/opencl.cpp:760-798`; the shift `pow2Ocl(n)` is undefined from 64 on. -/
noncomputable def phaseRootNMask (d : Dev) (σ : List (ℕ × ℕ) → List (ℕ × ℕ)) (τ : List ℕ → List ℕ) (old : Bufs) (e : Eng)
    (n mask : ℕ) : Option Eng :=
  if 2 ^ e.n ≤ mask then none
  else if n = 0 ∨ mask = 0 then some e
  else if n = 1 then zMask d σ τ old e mask
  else if 64 ≤ n then none
  else
    let radians : ℝ := -Real.pi / 2 ^ (n - 1)
    if isPowerOfTwo mask then phase d σ τ old e 1 (Complex.exp ((radians : ℂ) * Complex.I)) (Nat.log2 mask)
    else
      let ul := writeBuf 4 (arr [2 ^ e.n, mask, 2 ^ n, 2 ^ (n - 1)]) old.ul
      (runLoop d σ (2 ^ e.n) (ul 0) (phasemaskStep ul) e.amp).map fun a => { e with amp := a }

/-- The loop `for (c = 0; perm; c++) perm &= perm - 1`, `src/common/qengine.cl:462-465`; the counter
is a `bitLenInt`, which cannot overflow within 64 rounds. -/
def kernighan : ℕ → ℕ → ℕ
  | 0, _ => 0
  | fuel + 1, v => if v = 0 then 0 else 1 + kernighan fuel (v &&& (v - 1))

/-- The kernels `uniformparityrz` and `uniformparityrznorm`, `src/common/qengine.cl:452-489`. -/
noncomputable def uniformparityrzStep (norm : Bool) (ul : ℕ → ℕ) (cx : ℕ → ℂ) (s : ℕ → ℂ) (lcv : ℕ) : ℕ → ℂ :=
  let c := kernighan 64 (lcv &&& ul 1)
  let z := zmul (s lcv) (if c &&& 1 ≠ 0 then cx 0 else cx 1)
  Function.update s lcv (if norm then zmul (cx 2) z else z)

/-- `QEngineOCL::UniformParityRZ`, `src/qengine/opencl.cpp:1135-1167`. -/
noncomputable def uniformParityRZ (d : Dev) (σ : List (ℕ × ℕ) → List (ℕ × ℕ)) (old : Bufs) (e : Eng) (mask : ℕ)
    (angle : ℝ) : Option Eng :=
  if 2 ^ e.n ≤ mask then none
  else
    let ul := writeBuf 2 (arr [2 ^ e.n, mask]) old.ul
    let cx := writeBuf 3 (fun i => match i with
      | 0 => ⟨Real.cos angle, Real.sin angle⟩
      | 1 => ⟨Real.cos angle, -Real.sin angle⟩
      | _ => if 0 < e.rn then ((1 / Real.sqrt e.rn : ℝ) : ℂ) else 1) old.cx
    (runLoop d σ (2 ^ e.n) (ul 0) (uniformparityrzStep (decide (e.rn ≠ 1)) ul cx) e.amp).map fun a =>
      { e with amp := a, rn := 1 }

/-- The kernel `cuniformparityrz`, `src/common/qengine.cl:491-519`. -/
noncomputable def cuniformparityrzStep (ul : ℕ → ℕ) (cx : ℕ → ℂ) (pw : ℕ → ℕ) (s : ℕ → ℂ) (lcv : ℕ) : ℕ → ℂ :=
  let i := pushApart pw (ul 3) lcv ||| ul 2
  let c := kernighan 64 (i &&& ul 1)
  Function.update s i (zmul (s i) (if c &&& 1 ≠ 0 then cx 0 else cx 1))

/-- `QEngineOCL::CUniformParityRZ`, `src/qengine/opencl.cpp:1169-1218`. -/
noncomputable def cUniformParityRZ (d : Dev) (σ : List (ℕ × ℕ) → List (ℕ × ℕ)) (old : Bufs) (e : Eng) (cs : List ℕ)
    (mask : ℕ) (angle : ℝ) : Option Eng :=
  if cs = [] then uniformParityRZ d σ old e mask angle
  else if 2 ^ e.n ≤ mask then none
  else if ¬ (∀ c ∈ cs, c < e.n) ∨ ¬ cs.Nodup then none
  else
    let controlMask := (cs.map pow2).foldl (· ||| ·) 0
    let pw := arr (sortPows (cs.map pow2))
    let maxI := 2 ^ e.n / 2 ^ cs.length
    let ul := writeBuf 4 (arr [maxI, mask, controlMask, cs.length]) old.ul
    let cx := writeBuf 2 (fun i => if i = 0 then ⟨Real.cos angle, Real.sin angle⟩
      else ⟨Real.cos angle, -Real.sin angle⟩) old.cx
    (runLoop d σ maxI (ul 0) (cuniformparityrzStep ul cx pw) e.amp).map fun a => { e with amp := a, rn := 1 }

/-- The kernel `uniformlycontrolled`, `src/common/qengine.cl:409-450`; `ms` are the matrices. -/
noncomputable def uniformlycontrolledStep (ul pw : ℕ → ℕ) (ms : ℕ → M2) (nrm : ℝ) (s : ℕ → ℂ) (lcv : ℕ) : ℕ → ℂ :=
  let i := pushApart1 (ul 1 - 1) lcv
  let offset := (List.range (ul 2)).foldl (fun o p => if i &&& pw p ≠ 0 then o ||| 2 ^ p else o) 0
  let offset := pushApart (fun p => pw (ul 2 + p)) (ul 3) offset ||| ul 4
  let m := ms offset
  let c : ℕ → ℂ := fun k => match k with
    | 0 => m.a
    | 1 => m.b
    | 2 => m.c
    | _ => m.d
  let q := zmatrixmul nrm c (s i) (s (i ||| ul 1))
  set2 s i (i ||| ul 1) q.1 q.2

/-- `QEngineOCL::UniformlyControlledSingleBit`, `src/qengine/opencl.cpp:1067-1133`. -/
noncomputable def uniformlyControlled (d : Dev) (σ : List (ℕ × ℕ) → List (ℕ × ℕ)) (τ : List ℕ → List ℕ) (old : Bufs)
    (e : Eng) (controls : List ℕ) (t : ℕ) (ms : ℕ → M2) (skipPowers : List ℕ) (skipVal : ℕ) : Option Eng :=
  if controls = [] then mtrx d σ τ old e (ms skipVal) t
  else if e.n ≤ t then none
  else if Utils.throwIfBad controls e.n then none
  else
    let maxI := 2 ^ e.n / 2
    let ul := writeBuf 5 (arr [maxI, pow2 t, controls.length, skipPowers.length, skipVal]) old.ul
    let nrm : ℝ := if 0 < e.rn then 1 / Real.sqrt e.rn else 1
    let pw := arr (controls.map pow2 ++ skipPowers)
    (runLoop d σ maxI (ul 0) (uniformlycontrolledStep ul pw ms nrm) e.amp).map fun a => { e with amp := a, rn := 1 }

/-- The kernels `nrmlze`, `nrmlzewide`, `src/common/qengine.cl:950-977`. -/
noncomputable def nrmlzeStep (cx : ℕ → ℂ) (s : ℕ → ℂ) (lcv : ℕ) : ℕ → ℂ :=
  let amp := if Complex.normSq (s lcv) < (cx 0).re then 0 else s lcv
  Function.update s lcv (zmul (cx 1) amp)

/-- `QEngineOCL::NormalizeState`, `src/qengine/opencl.cpp:3206-3261`; the arguments default to
`REAL1_DEFAULT_ARG = -999`, `-999` and `0`. -/
noncomputable def normalizeState (d : Dev) (σ : List (ℕ × ℕ) → List (ℕ × ℕ)) (τ : List ℕ → List ℕ) (old : Bufs)
    (e : Eng) (nrm thresh phaseArg : ℝ) : Option Eng :=
  (if e.rn = -999 ∧ nrm = -999 then updateRunningNorm d τ e else some e).bind fun e =>
  let nrm := if nrm < 0 then e.rn else nrm
  if nrm ≤ 0 then some { e with amp := fun _ => 0, rn := 0 }
  else if nrm = 1 ∧ phaseArg = 0 then some e
  else
    let thresh := if thresh < 0 then e.floor else thresh
    let cx := writeBuf 2 (fun i => if i = 0 then (thresh : ℂ)
      else ((1 / Real.sqrt nrm : ℝ) : ℂ) * Complex.exp ((phaseArg : ℂ) * Complex.I)) old.cx
    let ul := writeBuf 1 (arr [2 ^ e.n]) old.ul
    let g := ngc d (2 ^ e.n)
    if sizesOk g (ngs d (2 ^ e.n)) then
      let plan := if 2 ^ e.n = g then widePlan g else loopPlan g (ul 0)
      some { e with amp := (σ plan).foldl (fun s p => nrmlzeStep cx s p.2) e.amp, rn := 1 }
    else none

end Verif.Ocl
