import Verif.Model.Engine
import Mathlib.Analysis.SpecialFunctions.Complex.Log

/-!
# Model of the mask gates

`src/qengine/state.cpp:644-759, 866-921` (`QEngineCPU`) and `src/qinterface/gates.cpp:101-166, 399-427`
(the `QInterface` defaults, which `QEngineCPU` uses for `YMask` and `ZMask`).
-/

namespace Verif.Engine

open Verif.ParFor Classical

/-- `include/qinterface.hpp:1084`, over `Invert` (`:528-532`). -/
noncomputable def gateX (σ : List ℕ → List ℕ) (e : Eng) (q : ℕ) : Option Eng :=
  mtrx σ e ⟨0, 1, 1, 0⟩ q

/-- `include/qinterface.hpp:1101`, over `Invert`. -/
noncomputable def gateY (σ : List ℕ → List ℕ) (e : Eng) (q : ℕ) : Option Eng :=
  mtrx σ e ⟨0, -Complex.I, Complex.I, 0⟩ q

/-- `QInterface::Phase`, `include/qinterface.hpp:516-523`. -/
noncomputable def phase (σ : List ℕ → List ℕ) (e : Eng) (tl br : ℂ) (q : ℕ) : Option Eng :=
  if (e.rgp = true ∨ 1 - tl = 0) ∧ tl - br = 0 then some e
  else mtrx σ e ⟨tl, 0, 0, br⟩ q

/-- `include/qinterface.hpp:1117`. -/
noncomputable def gateZ (σ : List ℕ → List ℕ) (e : Eng) (q : ℕ) : Option Eng := phase σ e 1 (-1) q

/-- `QInterface::CNOT` over `MCInvert` (`include/qinterface.hpp:553-558`). -/
noncomputable def cnot (σ : List ℕ → List ℕ) (e : Eng) (c t : ℕ) : Option Eng :=
  eitherMtrx σ e [c] ⟨0, 1, 1, 0⟩ t false

/-- The qubits in the order in which the loops `v = v & (v - 1); ... log2(mask ^ v); mask = v` of
`src/qinterface/gates.cpp:103-109, 146-152, 405-412` produce them. -/
def maskQubits (mask : ℕ) : List ℕ :=
  if h : mask = 0 then []
  else Nat.log2 (mask ^^^ (mask &&& (mask - 1))) :: maskQubits (mask &&& (mask - 1))
  termination_by mask
  decreasing_by
    have : mask &&& (mask - 1) ≤ mask - 1 := Nat.and_le_right
    omega

/-- `isPowerOfTwo`, `include/common/qrack_functions.hpp:162-168`. -/
def isPowerOfTwo (x : ℕ) : Bool := x ≠ 0 ∧ x &&& (x - 1) = 0

/-- The body of `QEngineCPU::XMask`'s loop, `src/qengine/state.cpp:663-680`. -/
noncomputable def xMaskStep (n mask : ℕ) (s : ℕ → ℂ) (lcv : ℕ) : ℕ → ℂ :=
  let otherMask := (2 ^ n - 1) ^^^ mask
  let otherRes := lcv &&& otherMask
  let setInt := lcv &&& mask
  let resetInt := setInt ^^^ mask
  if setInt < resetInt then s
  else
    let setInt := setInt ||| otherRes
    let resetInt := resetInt ||| otherRes
    let y0 := s resetInt
    let s1 := Function.update s resetInt (s setInt)
    Function.update s1 setInt y0

/-- `QEngineCPU::XMask`, `src/qengine/state.cpp:644-682`. -/
noncomputable def xMask (σ : List ℕ → List ℕ) (e : Eng) (mask : ℕ) : Option Eng :=
  if 2 ^ e.n ≤ mask then none
  else if mask = 0 then some e
  else if isPowerOfTwo mask then gateX σ e (Nat.log2 mask)
  else some { e with amp := (σ (parForPlan 0 (2 ^ e.n))).foldl (xMaskStep e.n mask) e.amp }

/-- The loop `v ^= v >> paritySize` for `paritySize = k, k/2, ..., 1`,
`src/qengine/state.cpp:716-720`; `fuel` bounds the number of halvings. -/
def parityLadder : ℕ → ℕ → ℕ → ℕ
  | 0, _, v => v
  | fuel + 1, k, v => if k = 0 then v else parityLadder fuel (k / 2) (v ^^^ (v >>> k))

/-- `src/qengine/state.cpp:714-720`, with `parityStartSize = 4 * sizeof(bitCapIntOcl) = 32`. -/
def parityBit (v : ℕ) : ℕ := parityLadder 64 32 v &&& 1

/-- The body of `QEngineCPU::PhaseParity`'s loop, `src/qengine/state.cpp:710-725`. -/
noncomputable def phaseParityStep (n mask : ℕ) (fac facAdj : ℂ) (s : ℕ → ℂ) (lcv : ℕ) : ℕ → ℂ :=
  let otherMask := (2 ^ n - 1) ^^^ mask
  let otherRes := lcv &&& otherMask
  let setInt := lcv &&& mask
  let v := parityBit setInt
  let setInt := setInt ||| otherRes
  Function.update s setInt ((if v ≠ 0 then fac else facAdj) * s setInt)

/-- `QEngineCPU::PhaseParity`, `src/qengine/state.cpp:684-725`. -/
noncomputable def phaseParity (σ : List ℕ → List ℕ) (e : Eng) (radians : ℝ) (mask : ℕ) : Option Eng :=
  if 2 ^ e.n ≤ mask then none
  else if mask = 0 then some e
  else if isPowerOfTwo mask then
    let fac := Complex.exp (((radians / 2 : ℝ) : ℂ) * Complex.I)
    phase σ e (1 / fac) fac (Nat.log2 mask)
  else
    let angle := radians / 2
    let fac : ℂ := ⟨Real.cos angle, Real.sin angle⟩
    let facAdj : ℂ := ⟨Real.cos angle, -Real.sin angle⟩
    some { e with
      amp := (σ (parForPlan 0 (2 ^ e.n))).foldl (phaseParityStep e.n mask fac facAdj) e.amp }

/-- Number of set bits among bits `0..w-1`. -/
def popCount : ℕ → ℕ → ℕ
  | 0, _ => 0
  | w + 1, x => popCount w x + if x.testBit w then 1 else 0

/-- `popCountOcl`, `include/common/qrack_functions.hpp:116-129`: with `CPP_STD < 20` and gcc it is
`__builtin_popcount`, whose argument is a 32-bit `unsigned int`. -/
def popCountOcl (cpp20 : Bool) (x : ℕ) : ℕ := popCount (if cpp20 then 64 else 32) x

/-- `QEngineCPU::UniformParityRZ`, `src/qengine/state.cpp:866-884`. -/
noncomputable def uniformParityRZ (cpp20 : Bool) (σ : List ℕ → List ℕ) (e : Eng) (mask : ℕ)
    (angle : ℝ) : Option Eng :=
  if 2 ^ e.n ≤ mask then none
  else
    let fac : ℂ := ⟨Real.cos angle, Real.sin angle⟩
    let facAdj : ℂ := ⟨Real.cos angle, -Real.sin angle⟩
    some { e with
      amp := (σ (parForPlan 0 (2 ^ e.n))).foldl (fun s lcv => Function.update s lcv
        (s lcv * if popCountOcl cpp20 (lcv &&& mask) &&& 1 ≠ 0 then fac else facAdj)) e.amp }

/-- `QEngineCPU::CUniformParityRZ`, `src/qengine/state.cpp:886-922`.
`ThrowIfQbIdArrayIsBad` rejects out-of-range and duplicate controls. -/
noncomputable def cUniformParityRZ (cpp20 : Bool) (σ : List ℕ → List ℕ) (e : Eng) (cs : List ℕ)
    (mask : ℕ) (angle : ℝ) : Option Eng :=
  if cs = [] then uniformParityRZ cpp20 σ e mask angle
  else if 2 ^ e.n ≤ mask then none
  else if ¬ (∀ c ∈ cs, c < e.n) ∨ ¬ cs.Nodup then none
  else
    let controls := cs.mergeSort (· ≤ ·)
    let controlMask := (controls.map pow2).foldl (· ||| ·) 0
    let fac : ℂ := ⟨Real.cos angle, Real.sin angle⟩
    let facAdj : ℂ := ⟨Real.cos angle, -Real.sin angle⟩
    some { e with
      amp := (σ (parForMaskPlan 64 0 (2 ^ e.n) (controls.map pow2))).foldl
        (fun s lcv => Function.update s (controlMask ||| lcv)
          (s (controlMask ||| lcv) *
            if popCountOcl cpp20 (lcv &&& mask) &&& 1 ≠ 0 then fac else facAdj)) e.amp }

/-- `QInterface::ZMask`, `src/qinterface/gates.cpp:144-153`. -/
noncomputable def zMask (σ : List ℕ → List ℕ) (e : Eng) (mask : ℕ) : Option Eng :=
  (maskQubits mask).foldlM (fun e q => gateZ σ e q) e

/-- `QInterface::XMask`, `src/qinterface/gates.cpp:101-110` (the default; `QEngineCPU` overrides it). -/
noncomputable def xMaskDefault (σ : List ℕ → List ℕ) (e : Eng) (mask : ℕ) : Option Eng :=
  (maskQubits mask).foldlM (fun e q => gateX σ e q) e

/-- `QEngineCPU::PhaseRootNMask`, `src/qengine/state.cpp:727-759`; the shifts `pow2Ocl(n - 1U)` and, in the
loop, `pow2Ocl(n)` are undefined from 64 on. -/
noncomputable def phaseRootNMask (cpp20 : Bool) (σ : List ℕ → List ℕ) (e : Eng) (n mask : ℕ) :
    Option Eng :=
  if 2 ^ e.n ≤ mask then none
  else if n = 0 ∨ mask = 0 then some e
  else if n = 1 then zMask σ e mask
  else if 64 ≤ n - 1 then none
  else
    let radians : ℝ := -Real.pi / 2 ^ (n - 1)
    if isPowerOfTwo mask then phase σ e 1 (Complex.exp ((radians : ℂ) * Complex.I)) (Nat.log2 mask)
    else if 64 ≤ n then none
    else
      some { e with
        amp := (σ (parForPlan 0 (2 ^ e.n))).foldl (fun s lcv =>
          let steps := popCountOcl cpp20 (lcv &&& mask) % 2 ^ n
          if steps ≠ 0 then
            Function.update s lcv (Complex.exp (((radians * steps : ℝ) : ℂ) * Complex.I) * s lcv)
          else s) e.amp }

/-- The loop of `QInterface::YMask` counting set bits modulo 4, `src/qinterface/gates.cpp:127-133`. -/
def parity4 (mask : ℕ) : ℕ := (maskQubits mask).length % 4

/-- `QInterface::YMask`, `src/qinterface/gates.cpp:112-142`, with `QEngineCPU`'s `XMask`;
`mask ≠ 0` is assumed by the code (`log2(0)`). `PhaseFlip` is `Phase(-1, -1, 0)`
(`include/qinterface.hpp:2341`). -/
noncomputable def yMask (σ : List ℕ → List ℕ) (e : Eng) (mask : ℕ) : Option Eng :=
  if 2 ^ Nat.log2 mask = mask then gateY σ e (Nat.log2 mask)
  else (zMask σ e mask).bind fun e => (xMask σ e mask).bind fun e =>
    if e.rgp then some e
    else if parity4 mask = 1 then phase σ e Complex.I Complex.I 0
    else if parity4 mask = 2 then phase σ e (-1) (-1) 0
    else if parity4 mask = 3 then phase σ e (-Complex.I) (-Complex.I) 0
    else some e

/-- `QInterface::PhaseParity`, `src/qinterface/gates.cpp:399-427` (the default gate sequence):
CNOT ladder, phase on the last qubit, ladder undone. -/
noncomputable def phaseParityDefault (σ : List ℕ → List ℕ) (e : Eng) (radians : ℝ) (mask : ℕ) :
    Option Eng :=
  if mask = 0 then some e
  else
    let qs := maskQubits mask
    let last := qs.length - 1
    let fwd := (List.range last).foldlM (fun e i => cnot σ e (qs.getD i 0) (qs.getD (i + 1) 0)) e
    (fwd.bind fun e => phase σ e
        ((Real.cos (radians / 2) : ℂ) - Complex.I * (Real.sin (radians / 2) : ℂ))
        ((Real.cos (radians / 2) : ℂ) + Complex.I * (Real.sin (radians / 2) : ℂ))
        (qs.getD last 0)).bind fun e =>
      (List.range last).foldlM
        (fun e i => cnot σ e (qs.getD (last - (i + 1)) 0) (qs.getD (last - i) 0)) e

end Verif.Engine
