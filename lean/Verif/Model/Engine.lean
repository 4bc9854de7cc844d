import Verif.Model.ParFor
import Mathlib.Data.Complex.Basic
import Mathlib.Analysis.SpecialFunctions.Pow.Real
import Mathlib.Analysis.SpecialFunctions.Trigonometric.Basic

/-!
# Model of the state vector engine's gates

`src/qengine/state.cpp` (`QEngineCPU`) and `src/qengine/qengine.cpp` (`QEngine`).

Simplifications, for the whole file:
* amplitudes are exact complex numbers, and the tolerance `FP_NORM_EPSILON` is `0`;
* `stateVec` is the function `amp : ℕ → ℂ`; a released (null) state vector is the zero function
  (`CHECK_ZERO_SKIP` returns at once, and every kernel is a no-op on zeros);
* `Dispatch` runs its closure at once (the queue is modelled separately, `Verif/Model/DispatchQueue.lean`);
* `none` is a thrown `std::invalid_argument`;
* of the two copies of `Apply2x2` (lines 333-503 with `ENABLE_COMPLEX_X2`, the default, and lines
  509-642 without) the norm accumulation is the one with `ENABLE_COMPLEX_X2`; the amplitudes are the
  same in both. The other accumulation (which overwrites instead of adding, line 508) is not modelled.
-/

namespace Verif.Engine

open Verif.ParFor Classical

/-- A 2x2 matrix `mtrx[0..3]`, row major. -/
structure M2 where
  a : ℂ
  b : ℂ
  c : ℂ
  d : ℂ

/-- The fields of `QEngineCPU` the gates use: `include/qengine.hpp:35-40` (`runningNorm`),
`include/qinterface.hpp:140-150` (`qubitCount`, `doNormalize`, `randGlobalPhase`,
`amplitudeFloor`), `include/qengine_cpu.hpp` (`stateVec`). -/
structure Eng where
  n : ℕ
  amp : ℕ → ℂ
  rn : ℝ
  doNorm : Bool
  rgp : Bool
  floor : ℝ

/-- A loop schedule permutes the sequential list of calls (theorem `Verif.ParFor.parForMask_calls`
shows that this is what every interleaving of the workers does). -/
def IsSched (σ : List ℕ → List ℕ) : Prop := ∀ l, (σ l).Perm l

/-- `include/qengine.hpp:42` -/
def M2.isPhase (m : M2) : Prop := m.b = 0 ∧ m.c = 0

/-- `include/qengine.hpp:43` -/
def M2.isInvert (m : M2) : Prop := m.a = 0 ∧ m.d = 0

/-- `include/qengine.hpp:45-65`, `IsIdentity`. -/
noncomputable def isIdentity (rgp : Bool) (m : M2) (isControlled : Bool) : Bool :=
  if m.a ≠ m.d ∨ ¬ m.isPhase then false
  else if (isControlled || !rgp) ∧ m.a ≠ 1 then false
  else true

/-- `src/qengine/state.cpp:556-575` and the same three branches of 576-618: the new pair of
amplitudes, times the normalisation factor. -/
noncomputable def mul2 (m : M2) (nrm : ℂ) (y0 y1 : ℂ) : ℂ × ℂ :=
  if m.b = 0 ∧ m.c = 0 then (nrm * (m.a * y0), nrm * (m.d * y1))
  else if m.a = 0 ∧ m.d = 0 then (nrm * (m.b * y1), nrm * (m.c * y0))
  else (nrm * (m.a * y0 + m.b * y1), nrm * (m.c * y0 + m.d * y1))

/-- `src/qengine/state.cpp:308-321`: amplitudes below the threshold become zero. -/
noncomputable def clip (thr : ℝ) (z : ℂ) : ℂ := if Complex.normSq z < thr then 0 else z

/-- The kernel selected at `src/qengine/state.cpp:556-619`: plain, with norm and threshold, or with
norm only. -/
noncomputable def kernel (cn : Bool) (thr nrm : ℝ) (m : M2) (y0 y1 : ℂ) : ℂ × ℂ :=
  if cn then
    let q := mul2 m nrm y0 y1
    if 0 < thr then (clip thr q.1, clip thr q.2) else q
  else mul2 m 1 y0 y1

/-- One call of the loop body: `src/qengine/state.cpp:302-331` and `556-575`; the second component
accumulates `rngNrm`. -/
noncomputable def step (cn : Bool) (thr nrm : ℝ) (m : M2) (o1 o2 : ℕ)
    (st : (ℕ → ℂ) × ℝ) (lcv : ℕ) : (ℕ → ℂ) × ℝ :=
  let q := kernel cn thr nrm m (st.1 (lcv + o1)) (st.1 (lcv + o2))
  (Function.update (Function.update st.1 (lcv + o1) q.1) (lcv + o2) q.2,
    if cn then st.2 + (Complex.normSq q.1 + Complex.normSq q.2) else st.2)

/-- The test for neighbouring duplicates, `src/qengine/state.cpp:523-526`. -/
def adjDup : List ℕ → Bool
  | [] => false
  | [_] => false
  | x :: y :: l => x == y || adjDup (y :: l)

/-- `QEngineCPU::Apply2x2`, `src/qengine/state.cpp:513-642`. -/
noncomputable def apply2x2 (σ : List ℕ → List ℕ) (e : Eng) (o1 o2 : ℕ) (m : M2) (pows : List ℕ)
    (doCalcNorm : Bool) : Option Eng :=
  if 2 ^ e.n ≤ o1 ∨ 2 ^ e.n ≤ o2 then none
  else if (∃ p ∈ pows, 2 ^ e.n ≤ p) ∨ adjDup pows = true then none
  else
    let doApply : Bool := e.doNorm && (pows.length == 1) && decide (0 < e.rn)
    let cn : Bool := doCalcNorm && (doApply || decide (e.rn ≤ 0))
    let nrm : ℝ := if doApply then 1 / Real.sqrt e.rn else 1
    let st := (σ (parForMaskPlan 64 0 (2 ^ e.n) pows)).foldl
      (step cn e.floor nrm m o1 o2) (e.amp, 0)
    if !cn then some { e with amp := st.1, rn := if doApply then 1 else e.rn }
    else if st.2 ≤ 0 then some { e with amp := fun _ => 0, rn := 0 }
    else some { e with amp := st.1, rn := st.2 }

/-- `std::sort` on the array of powers (`src/qengine/qengine.cpp:73` and the other call sites). -/
def sortPows (l : List ℕ) : List ℕ := l.mergeSort (· ≤ ·)

/-- `pow2Ocl(q)`; qubit indices are assumed below the word size 64. -/
def pow2 (q : ℕ) : ℕ := 2 ^ q

/-- `UpdateRunningNorm`, `src/qengine/state.cpp:1731-1755`: the total norm (amplitudes below the
floor are ignored). -/
noncomputable def updateRunningNorm (e : Eng) : Eng :=
  let nrm := ∑ i ∈ Finset.range (2 ^ e.n),
    (if Complex.normSq (e.amp i) < e.floor then 0 else Complex.normSq (e.amp i))
  if nrm ≤ 0 then { e with amp := fun _ => 0, rn := 0 } else { e with rn := nrm }

/-- `QEngine::Mtrx`, `src/qengine/qengine.cpp:19-27`. -/
noncomputable def mtrx (σ : List ℕ → List ℕ) (e : Eng) (m : M2) (q : ℕ) : Option Eng :=
  if isIdentity e.rgp m false then some e
  else apply2x2 σ e 0 (pow2 q) m [pow2 q] (e.doNorm && !decide (m.isPhase ∨ m.isInvert))

/-- `QEngine::ApplyControlled2x2`, `src/qengine/qengine.cpp:372-386`. -/
noncomputable def applyControlled2x2 (σ : List ℕ → List ℕ) (e : Eng) (controls : List ℕ) (t : ℕ)
    (m : M2) : Option Eng :=
  let controlMask := (controls.map pow2).foldl (· ||| ·) 0
  let fullMask := controlMask ||| pow2 t
  apply2x2 σ e controlMask fullMask m (sortPows (controls.map pow2 ++ [pow2 t])) false

/-- `QEngine::ApplyAntiControlled2x2`, `src/qengine/qengine.cpp:388-398`. -/
noncomputable def applyAntiControlled2x2 (σ : List ℕ → List ℕ) (e : Eng) (controls : List ℕ) (t : ℕ)
    (m : M2) : Option Eng :=
  apply2x2 σ e 0 (pow2 t) m (sortPows (controls.map pow2 ++ [pow2 t])) false

/-- `QEngine::EitherMtrx`, `src/qengine/qengine.cpp:29-48` (`MCMtrx` and `MACMtrx` are this with
`isAnti` false and true, `include/qengine.hpp`). -/
noncomputable def eitherMtrx (σ : List ℕ → List ℕ) (e : Eng) (controls : List ℕ) (m : M2) (t : ℕ)
    (isAnti : Bool) : Option Eng :=
  if controls = [] then mtrx σ e m t
  else if isIdentity e.rgp m true then some e
  else
    let r := if isAnti then applyAntiControlled2x2 σ e controls t m
      else applyControlled2x2 σ e controls t m
    if e.doNorm && !decide (m.isPhase ∨ m.isInvert) then r.map updateRunningNorm else r

/-- The loop `src/qengine/qengine.cpp:63-68`: bit `i` of the permutation selects control `i`. -/
def permMask (controlPerm : ℕ) : ℕ → List ℕ → ℕ
  | _, [] => 0
  | i, c :: cs => (if controlPerm.testBit i then pow2 c else 0) ||| permMask controlPerm (i + 1) cs

/-- `QEngine::UCMtrx`, `src/qengine/qengine.cpp:50-75`. -/
noncomputable def ucMtrx (σ : List ℕ → List ℕ) (e : Eng) (controls : List ℕ) (m : M2) (t : ℕ)
    (controlPerm : ℕ) : Option Eng :=
  if controls = [] then mtrx σ e m t
  else if isIdentity e.rgp m true then some e
  else
    let controlMask := permMask controlPerm 0 controls
    apply2x2 σ e controlMask (controlMask ||| pow2 t) m
      (sortPows (controls.map pow2 ++ [pow2 t])) false

/-- `pauliX` in `src/qengine/qengine.cpp:411` -/
def pauliX : M2 := ⟨0, 1, 1, 0⟩
/-- `src/qengine/qengine.cpp:418` -/
def iswapM : M2 := ⟨0, Complex.I, Complex.I, 0⟩
/-- `src/qengine/qengine.cpp:425` -/
def iiswapM : M2 := ⟨0, -Complex.I, -Complex.I, 0⟩
/-- `src/qengine/qengine.cpp:432`, `HALF_I_HALF_CMPLX`, `HALF_NEG_I_HALF_CMPLX`. -/
noncomputable def sqrtX : M2 :=
  ⟨⟨1/2, 1/2⟩, ⟨1/2, -(1/2)⟩, ⟨1/2, -(1/2)⟩, ⟨1/2, 1/2⟩⟩
/-- `src/qengine/qengine.cpp:439-440` -/
noncomputable def isqrtX : M2 :=
  ⟨⟨1/2, -(1/2)⟩, ⟨1/2, 1/2⟩, ⟨1/2, 1/2⟩, ⟨1/2, -(1/2)⟩⟩

/-- `QEngine::Swap`, `ISwap`, `IISwap`, `SqrtSwap`, `ISqrtSwap`: `src/qengine/qengine.cpp:400-442`,
which differ in the matrix only. -/
noncomputable def swapLike (σ : List ℕ → List ℕ) (e : Eng) (m : M2) (q1 q2 : ℕ) : Option Eng :=
  if q1 = q2 then some e
  else
    let a := min q1 q2
    let b := max q1 q2
    apply2x2 σ e (pow2 a) (pow2 b) m [pow2 a, pow2 b] false

/-- `QEngine::CSwap`, `CSqrtSwap`, `CISqrtSwap`: `src/qengine/qengine.cpp:212-238`, `265-291`,
`318-344`, which differ in the matrix only. -/
noncomputable def cswapLike (σ : List ℕ → List ℕ) (e : Eng) (m : M2) (controls : List ℕ)
    (q1 q2 : ℕ) : Option Eng :=
  if controls = [] then swapLike σ e m q1 q2
  else if q1 = q2 then some e
  else
    let a := min q1 q2
    let b := max q1 q2
    let skipMask := (controls.map pow2).foldl (· ||| ·) 0
    apply2x2 σ e (skipMask ||| pow2 a) (skipMask ||| pow2 b) m
      (sortPows (controls.map pow2 ++ [pow2 a, pow2 b])) false

/-- `QEngine::AntiCSwap`, `AntiCSqrtSwap`, `AntiCISqrtSwap`: `src/qengine/qengine.cpp:240-263`,
`293-316`, `346-370`. -/
noncomputable def antiCswapLike (σ : List ℕ → List ℕ) (e : Eng) (m : M2) (controls : List ℕ)
    (q1 q2 : ℕ) : Option Eng :=
  if controls = [] then swapLike σ e m q1 q2
  else if q1 = q2 then some e
  else
    let a := min q1 q2
    let b := max q1 q2
    apply2x2 σ e (pow2 a) (pow2 b) m (sortPows (controls.map pow2 ++ [pow2 a, pow2 b])) false

/-- The matrix `fSimSwap`, `src/qengine/qengine.cpp:452-455`. -/
noncomputable def fsimM (theta : ℝ) : M2 :=
  ⟨⟨Real.cos theta, 0⟩, ⟨0, -Real.sin theta⟩, ⟨0, -Real.sin theta⟩, ⟨Real.cos theta, 0⟩⟩

/-- `QInterface::MCPhase`, `include/qinterface.hpp:538-547`, over `QEngine::MCMtrx`. -/
noncomputable def mcPhase (σ : List ℕ → List ℕ) (e : Eng) (controls : List ℕ) (tl br : ℂ) (t : ℕ) :
    Option Eng :=
  if 1 - tl = 0 ∧ 1 - br = 0 then some e
  else eitherMtrx σ e controls ⟨tl, 0, 0, br⟩ t false

/-- `QEngine::FSim`, `src/qengine/qengine.cpp:444-461`. -/
noncomputable def fsim (σ : List ℕ → List ℕ) (e : Eng) (theta phi : ℝ) (q1 q2 : ℕ) : Option Eng :=
  let a := min q1 q2
  let b := max q1 q2
  let e1 := if 0 < Real.sin theta * Real.sin theta
    then apply2x2 σ e (pow2 a) (pow2 b) (fsimM theta) [pow2 a, pow2 b] false else some e
  e1.bind fun e => mcPhase σ e [a] 1 (Complex.exp ⟨0, -phi⟩) b

end Verif.Engine
