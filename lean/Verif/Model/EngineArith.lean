import Verif.Model.EngineMask
import Verif.Model.Utils
import Verif.Model.GateCode
import Verif.Lib.BlockFold

/-!
# Model of the arithmetic of the state vector engine

`src/qengine/arithmetic.cpp`. These routines allocate a new state vector, write every visited basis state's
amplitude to its image, and install the new vector (`ResetStateVec`).

`junk` stands for the contents of freshly allocated memory, which `AllocStateVec` does not clear. Where the code
calls `clear()` the initial contents are zero, where it calls `copy(stateVec)` they are the old state.

Index arithmetic is on 64-bit words; registers lie inside `n ≤ 63` qubits, so that shifted masks do not
overflow; sums and products that can exceed a word are written `% 2^64`. `SetReg(reg, 0)` before a
multiplication is not part of these definitions (it does nothing on the states considered, those with a cleared
register).
-/

namespace Verif.Engine

open Verif.ParFor Verif.BlockFold Verif.Utils Classical

/-- `ResetStateVec`, `include/qengine_cpu.hpp:239`: install a new state vector. -/
def Eng.reset (e : Eng) (amp : ℕ → ℂ) : Eng := { e with amp := amp }

/-- `(bitCapIntOcl)x`. -/
def ocl (x : ℕ) : ℕ := x % 2 ^ 64

/-- The `maxQPowerOcl - 1U` of `n` qubits, exclusive-or'ed with the bits a routine touches. -/
def otherMask (n m : ℕ) : ℕ := (2 ^ n - 1) ^^^ m

/-- `QEngineCPU::ROL`, `src/qengine/arithmetic.cpp:23-58`. -/
noncomputable def rolE (σ : List ℕ → List ℕ) (junk : ℕ → ℂ) (e : Eng) (shift start length : ℕ) : Option Eng :=
  if Utils.isBadBitRange start length e.n then none
  else if length = 0 then some e
  else
    let shift := shift % length
    if shift = 0 then some e
    else
      let lengthMask := 2 ^ length - 1
      let regMask := lengthMask <<< start
      some (e.reset (scatter junk (σ (parForPlan 0 (2 ^ e.n)))
        (fun lcv =>
          let otherRes := lcv &&& otherMask e.n regMask
          let regInt := (lcv &&& regMask) >>> start
          let outInt := (regInt >>> (length - shift)) ||| ((regInt <<< shift) &&& lengthMask)
          (outInt <<< start) ||| otherRes)
        e.amp))

/-- `QEngineCPU::INC`, `src/qengine/arithmetic.cpp:62-97`. -/
noncomputable def incE (σ : List ℕ → List ℕ) (junk : ℕ → ℂ) (e : Eng) (toAdd start length : ℕ) : Option Eng :=
  if Utils.isBadBitRange start length e.n then none
  else if length = 0 then some e
  else
    let lengthMask := 2 ^ length - 1
    let toAddOcl := ocl toAdd &&& lengthMask
    if toAddOcl = 0 then some e
    else
      let inOutMask := lengthMask <<< start
      some (e.reset (scatter junk (σ (parForPlan 0 (2 ^ e.n)))
        (fun lcv =>
          let otherRes := lcv &&& otherMask e.n inOutMask
          let inOutInt := (lcv &&& inOutMask) >>> start
          let outInt := ((inOutInt + toAddOcl) % 2 ^ 64) &&& lengthMask
          (outInt <<< start) ||| otherRes)
        e.amp))

/-- `QAlu::DEC`, `src/qalu.cpp:22-26`. -/
noncomputable def decE (σ : List ℕ → List ℕ) (junk : ℕ → ℂ) (e : Eng) (toSub start length : ℕ) : Option Eng :=
  incE σ junk e (Circ.negAddend toSub length) start length

/-- `QEngineCPU::CINC`, `src/qengine/arithmetic.cpp:100-150`. -/
noncomputable def cincE (σ : List ℕ → List ℕ) (junk : ℕ → ℂ) (e : Eng) (toAdd start length : ℕ)
    (controls : List ℕ) : Option Eng :=
  if controls = [] then incE σ junk e toAdd start length
  else if Utils.isBadBitRange start length e.n then none
  else if Utils.throwIfBad controls e.n then none
  else if length = 0 then some e
  else
    let lengthMask := 2 ^ length - 1
    let toAddOcl := ocl toAdd &&& lengthMask
    if toAddOcl = 0 then some e
    else
      let controlMask := (controls.map pow2).foldl (· ||| ·) 0
      let inOutMask := lengthMask <<< start
      some (e.reset (scatter e.amp
        (σ (parForMaskPlan 64 0 (2 ^ e.n) (sortPows (controls.map pow2))))
        (fun lcv =>
          let otherRes := lcv &&& otherMask e.n (inOutMask ||| controlMask)
          let inOutInt := (lcv &&& inOutMask) >>> start
          let outInt := ((inOutInt + toAddOcl) % 2 ^ 64) &&& lengthMask
          (outInt <<< start) ||| otherRes ||| controlMask)
        (fun lcv => e.amp (lcv ||| controlMask))))

/-- `QAlu::CDEC`, `src/qalu.cpp:29-33`. -/
noncomputable def cdecE (σ : List ℕ → List ℕ) (junk : ℕ → ℂ) (e : Eng) (toSub start length : ℕ)
    (controls : List ℕ) : Option Eng :=
  cincE σ junk e (Circ.negAddend toSub length) start length controls

/-- The result index of the carry additions, `src/qengine/arithmetic.cpp:186-193, 289-296, 343-350`. -/
def carryOut (n toModOcl start length carryIndex lcv : ℕ) : ℕ :=
  let lengthPower := 2 ^ length
  let lengthMask := lengthPower - 1
  let carryMask := 2 ^ carryIndex
  let inOutMask := lengthMask <<< start
  let otherRes := lcv &&& otherMask n (inOutMask ||| carryMask)
  let inOutInt := (lcv &&& inOutMask) >>> start
  let outInt := inOutInt + toModOcl
  if outInt < lengthPower then (outInt <<< start) ||| otherRes
  else ((outInt - lengthPower) <<< start) ||| otherRes ||| carryMask

/-- `QEngineCPU::INCDECC`, `src/qengine/arithmetic.cpp:153-196`. -/
noncomputable def incdeccE (σ : List ℕ → List ℕ) (e : Eng) (toMod start length carryIndex : ℕ) : Option Eng :=
  if Utils.isBadBitRange start length e.n then none
  else if carryIndex ≥ e.n then none
  else if length = 0 then some e
  else
    let toModOcl := ocl toMod &&& (2 ^ length - 1)
    if toModOcl = 0 then some e
    else
      some (e.reset (scatter (fun _ => 0) (σ (parForSkipPlan 64 0 (2 ^ e.n) (2 ^ carryIndex) 1))
        (carryOut e.n toModOcl start length carryIndex) e.amp))

/-- `QAlu::INCC`, `src/qalu.cpp:46-60`, after `M(carryIndex)` returned `hasCarry`. -/
noncomputable def inccE (σ : List ℕ → List ℕ) (e : Eng) (hasCarry : Bool) (toAdd start length carryIndex : ℕ) :
    Option Eng :=
  if length = 0 then some e
  else if hasCarry then
    (gateX σ e carryIndex).bind fun e => incdeccE σ e ((toAdd + 1) % 2 ^ 128) start length carryIndex
  else incdeccE σ e toAdd start length carryIndex

/-- `QAlu::DECC`, `src/qalu.cpp:63-74`, after `M(carryIndex)` returned `hasCarry`. -/
noncomputable def deccE (σ : List ℕ → List ℕ) (e : Eng) (hasCarry : Bool) (toSub start length carryIndex : ℕ) :
    Option Eng :=
  let invToSub := Circ.negAddend toSub length
  if hasCarry then (gateX σ e carryIndex).bind fun e => incdeccE σ e invToSub start length carryIndex
  else incdeccE σ e ((invToSub + (2 ^ 128 - 1)) % 2 ^ 128) start length carryIndex

/-- `QEngineCPU::INCS`, `src/qengine/arithmetic.cpp:205-254`. -/
noncomputable def incsE (σ : List ℕ → List ℕ) (e : Eng) (toAdd start length overflowIndex : ℕ) : Option Eng :=
  if Utils.isBadBitRange start length e.n then none
  else if overflowIndex ≥ e.n then none
  else if length = 0 then some e
  else
    let lengthPower := 2 ^ length
    let lengthMask := lengthPower - 1
    let toAddOcl := ocl toAdd &&& lengthMask
    if toAddOcl = 0 then some e
    else
      let overflowMask := 2 ^ overflowIndex
      let signMask := 2 ^ (length - 1)
      let inOutMask := lengthMask <<< start
      let out := fun lcv =>
        let otherRes := lcv &&& otherMask e.n inOutMask
        let outInt := ((lcv &&& inOutMask) >>> start) + toAddOcl
        if outInt < lengthPower then (outInt <<< start) ||| otherRes
        else ((outInt - lengthPower) <<< start) ||| otherRes
      some (e.reset (scatter (fun _ => 0) (σ (parForPlan 0 (2 ^ e.n))) out
        (fun lcv => if isOverflowAdd ((lcv &&& inOutMask) >>> start) toAddOcl signMask lengthPower = true ∧
            out lcv &&& overflowMask = overflowMask then - e.amp lcv else e.amp lcv)))

/-- `QEngineCPU::INCDECSC` with and without an overflow flag, `src/qengine/arithmetic.cpp:256-306, 308-363`;
`overflowIndex` is `none` for the version without. -/
noncomputable def incdecscE (σ : List ℕ → List ℕ) (e : Eng) (toMod start length : ℕ) (overflowIndex : Option ℕ)
    (carryIndex : ℕ) : Option Eng :=
  if Utils.isBadBitRange start length e.n then none
  else if carryIndex ≥ e.n then none
  else if ∃ o ∈ overflowIndex, o ≥ e.n then none
  else if length = 0 then some e
  else
    let toModOcl := ocl toMod &&& (2 ^ length - 1)
    if toModOcl = 0 then some e
    else
      let signMask := 2 ^ (length - 1)
      let inOutMask := (2 ^ length - 1) <<< start
      let out := carryOut e.n toModOcl start length carryIndex
      some (e.reset (scatter (fun _ => 0) (σ (parForSkipPlan 64 0 (2 ^ e.n) (2 ^ carryIndex) 1)) out
        (fun lcv => if isOverflowAdd ((lcv &&& inOutMask) >>> start) toModOcl signMask (2 ^ length) = true ∧
            (∀ o ∈ overflowIndex, out lcv &&& 2 ^ o = 2 ^ o) then - e.amp lcv else e.amp lcv)))

/-- `QAlu::DECS`, `src/qalu.cpp:40-44`. -/
noncomputable def decsE (σ : List ℕ → List ℕ) (e : Eng) (toSub start length overflowIndex : ℕ) : Option Eng :=
  incsE σ e (Circ.negAddend toSub length) start length overflowIndex

/-- `QAlu::INCSC`, `src/qalu.cpp:81-91, 117-127`, after `M(carryIndex)` returned `hasCarry`. -/
noncomputable def incscE (σ : List ℕ → List ℕ) (e : Eng) (hasCarry : Bool) (toAdd start length : ℕ)
    (overflowIndex : Option ℕ) (carryIndex : ℕ) : Option Eng :=
  if hasCarry then
    (gateX σ e carryIndex).bind fun e =>
      incdecscE σ e ((toAdd + 1) % 2 ^ 128) start length overflowIndex carryIndex
  else incdecscE σ e toAdd start length overflowIndex carryIndex

/-- `QAlu::DECSC`, `src/qalu.cpp:98-110, 135-147`, after `M(carryIndex)` returned `hasCarry`. -/
noncomputable def decscE (σ : List ℕ → List ℕ) (e : Eng) (hasCarry : Bool) (toSub start length : ℕ)
    (overflowIndex : Option ℕ) (carryIndex : ℕ) : Option Eng :=
  let invToSub := Circ.negAddend toSub length
  if hasCarry then (gateX σ e carryIndex).bind fun e => incdecscE σ e invToSub start length overflowIndex carryIndex
  else incdecscE σ e ((invToSub + (2 ^ 128 - 1)) % 2 ^ 128) start length overflowIndex carryIndex

/-- The product index, `src/qengine/arithmetic.cpp:391-395`. -/
def mulRes (n toMulOcl inOutStart carryStart length lcv : ℕ) : ℕ :=
  let lowMask := 2 ^ length - 1
  let highMask := (lowMask <<< length) % 2 ^ 64
  let inOutMask := lowMask <<< inOutStart
  let carryMask := lowMask <<< carryStart
  let otherRes := lcv &&& otherMask n (inOutMask ||| carryMask)
  let mulInt := (((lcv &&& inOutMask) >>> inOutStart) * toMulOcl) % 2 ^ 64
  ((mulInt &&& lowMask) <<< inOutStart) ||| (((mulInt &&& highMask) >>> length) <<< carryStart) ||| otherRes

/-- `QEngineCPU::MULDIV`, `src/qengine/arithmetic.cpp:365-400`, with the two index functions of `MUL`
(`inverse = false`, lines 414-415) or `DIV` (`inverse = true`, lines 428-429). -/
noncomputable def mulDivE (σ : List ℕ → List ℕ) (inverse : Bool) (e : Eng) (toMul inOutStart carryStart length : ℕ) :
    Option Eng :=
  if Utils.isBadBitRange inOutStart length e.n then none
  else if Utils.isBadBitRange carryStart length e.n then none
  else
    let mul := mulRes e.n (ocl toMul) inOutStart carryStart length
    some (e.reset (scatter (fun _ => 0) (σ (parForSkipPlan 64 0 (2 ^ e.n) (2 ^ carryStart) length))
      (fun lcv => if inverse then lcv else mul lcv)
      (fun lcv => if inverse then e.amp (mul lcv) else e.amp lcv)))

/-- `QEngineCPU::MUL`, `src/qengine/arithmetic.cpp:402-416`, after `SetReg(carryStart, length, 0)`. `toMul = 0`
is `SetReg(inOutStart, length, 0)`, a measurement, and not modelled (`none`). -/
noncomputable def mulE (σ : List ℕ → List ℕ) (e : Eng) (toMul inOutStart carryStart length : ℕ) : Option Eng :=
  if toMul = 0 then none
  else if toMul = 1 then some e
  else mulDivE σ false e toMul inOutStart carryStart length

/-- `QEngineCPU::DIV`, `src/qengine/arithmetic.cpp:418-430`. -/
noncomputable def divE (σ : List ℕ → List ℕ) (e : Eng) (toDiv inOutStart carryStart length : ℕ) : Option Eng :=
  if toDiv = 0 then none
  else if toDiv = 1 then some e
  else mulDivE σ true e toDiv inOutStart carryStart length

/-- The mask of a part of the controls, `src/qengine/arithmetic.cpp:484-489, 668-673`. -/
def partControlMask (controls : List ℕ) (j : ℕ) : ℕ :=
  (List.range controls.length).foldl
    (fun acc k => if (j >>> k) &&& 1 ≠ 0 then acc ||| 2 ^ (controls.getD k 0) else acc) 0

/-- One iteration of the controlled multiplications, `src/qengine/arithmetic.cpp:471-492, 655-676`: the image of
the state with all controls set, then the copies of the states with some control clear. -/
noncomputable def ctrlStep (controls : List ℕ) (out inn : ℕ → ℕ) (old : ℕ → ℂ) (s : ℕ → ℂ) (lcv : ℕ) : ℕ → ℂ :=
  let s := Function.update s (out lcv) (old (inn lcv))
  let s := Function.update s lcv (old lcv)
  (List.range' 1 (2 ^ controls.length - 1 - 1)).foldl
    (fun s j => Function.update s (lcv ||| partControlMask controls j) (old (lcv ||| partControlMask controls j))) s

/-- The powers skipped by the controlled multiplications, `src/qengine/arithmetic.cpp:452-466, 634-646`. -/
def skipPows (controls : List ℕ) (start length : ℕ) : List ℕ :=
  sortPows (controls.map pow2 ++ (List.range length).map fun i => pow2 (start + i))

/-- `QEngineCPU::CMULDIV`, `src/qengine/arithmetic.cpp:432-495`, with the index functions of `CMUL` or `CDIV`. -/
noncomputable def cMulDivE (σ : List ℕ → List ℕ) (inverse : Bool) (e : Eng) (toMul inOutStart carryStart length : ℕ)
    (controls : List ℕ) : Option Eng :=
  if Utils.isBadBitRange inOutStart length e.n then none
  else if Utils.isBadBitRange carryStart length e.n then none
  else if Utils.throwIfBad controls e.n then none
  else
    let controlMask := (controls.map pow2).foldl (· ||| ·) 0
    let lowMask := 2 ^ length - 1
    let highMask := (lowMask <<< length) % 2 ^ 64
    let inOutMask := lowMask <<< inOutStart
    let carryMask := lowMask <<< carryStart
    let mul := fun lcv =>
      let otherRes := lcv &&& otherMask e.n (inOutMask ||| carryMask ||| controlMask)
      let mulInt := (((lcv &&& inOutMask) >>> inOutStart) * ocl toMul) % 2 ^ 64
      ((mulInt &&& lowMask) <<< inOutStart) ||| (((mulInt &&& highMask) >>> length) <<< carryStart) ||| otherRes |||
        controlMask
    some (e.reset ((σ (parForMaskPlan 64 0 (2 ^ e.n) (skipPows controls carryStart length))).foldl
      (ctrlStep controls (fun lcv => if inverse then lcv ||| controlMask else mul lcv)
        (fun lcv => if inverse then mul lcv else lcv ||| controlMask) e.amp) (fun _ => 0)))

/-- `QEngineCPU::CMUL`, `src/qengine/arithmetic.cpp:497-517`, after the first `SetReg`; `setReg0` is
`SetReg(start, length, 0)`. -/
noncomputable def cmulE (σ : List ℕ → List ℕ) (setReg0 : ℕ → ℕ → Eng → Option Eng) (e : Eng)
    (toMul inOutStart carryStart length : ℕ) (controls : List ℕ) : Option Eng :=
  if controls = [] then mulE σ e toMul inOutStart carryStart length
  else if toMul = 0 then setReg0 inOutStart length e
  else if toMul = 1 then some e
  else cMulDivE σ false e toMul inOutStart carryStart length controls

/-- `QEngineCPU::CDIV`, `src/qengine/arithmetic.cpp:519-537`. -/
noncomputable def cdivE (σ : List ℕ → List ℕ) (e : Eng) (toDiv inOutStart carryStart length : ℕ)
    (controls : List ℕ) : Option Eng :=
  if controls = [] then divE σ e toDiv inOutStart carryStart length
  else if toDiv = 0 then none
  else if toDiv = 1 then some e
  else cMulDivE σ true e toDiv inOutStart carryStart length controls

/-- The mask of the output register of `ModNOut`, `src/qengine/arithmetic.cpp:555`. -/
def modMask (modN : ℕ) : ℕ := (if Utils.isPowerOfTwo 64 modN then modN else 2 ^ (Nat.log2 modN + 1)) - 1

/-- The image of a basis state in `ModNOut`, `src/qengine/arithmetic.cpp:565-569`. -/
def modRes (n : ℕ) (kernelFn : ℕ → ℕ) (modN inStart outStart length lcv : ℕ) : ℕ :=
  let inMask := (2 ^ length - 1) <<< inStart
  let outMask := modMask modN <<< outStart
  let otherRes := lcv &&& otherMask n (inMask ||| outMask)
  let inRes := lcv &&& inMask
  let outRes := (kernelFn (inRes >>> inStart) % modN) <<< outStart
  inRes ||| outRes ||| otherRes

/-- `QEngineCPU::ModNOut`, `src/qengine/arithmetic.cpp:539-576`; a modulus of zero (in 64 bits) is a division
by zero, `none`. -/
noncomputable def modNOutE (σ : List ℕ → List ℕ) (e : Eng) (kernelFn : ℕ → ℕ) (modN inStart outStart length : ℕ)
    (inverse : Bool) : Option Eng :=
  if Utils.isBadBitRange inStart length e.n then none
  else if Utils.isBadBitRange outStart length e.n then none
  else if ocl modN = 0 then none
  else
    let res := modRes e.n kernelFn (ocl modN) inStart outStart length
    some (e.reset (scatter (fun _ => 0) (σ (parForSkipPlan 64 0 (2 ^ e.n) (2 ^ outStart) length))
      (fun lcv => if inverse then lcv else res lcv)
      (fun lcv => if inverse then e.amp (res lcv) else e.amp lcv)))

/-- `QEngineCPU::MULModNOut`, `src/qengine/arithmetic.cpp:578-589`, after `SetReg(outStart, length, 0)`. -/
noncomputable def mulModNOutE (σ : List ℕ → List ℕ) (e : Eng) (toMod modN inStart outStart length : ℕ) : Option Eng :=
  if toMod = 0 then some e
  else modNOutE σ e (fun x => x * ocl toMod % 2 ^ 64) modN inStart outStart length false

/-- `QEngineCPU::IMULModNOut`, `src/qengine/arithmetic.cpp:591-600`. -/
noncomputable def iMulModNOutE (σ : List ℕ → List ℕ) (e : Eng) (toMod modN inStart outStart length : ℕ) : Option Eng :=
  if toMod = 0 then some e
  else modNOutE σ e (fun x => x * ocl toMod % 2 ^ 64) modN inStart outStart length true

/-- `QEngineCPU::POWModNOut`, `src/qengine/arithmetic.cpp:602-612`; `toMod = 1` is `SetReg(outStart, length, 1)`
and not modelled (`none`). -/
noncomputable def powModNOutE (σ : List ℕ → List ℕ) (e : Eng) (toMod modN inStart outStart length : ℕ) : Option Eng :=
  if toMod = 1 then none
  else modNOutE σ e (fun x => Utils.intPow 64 (ocl toMod) x) modN inStart outStart length false

/-- `QEngineCPU::CModNOut`, `src/qengine/arithmetic.cpp:614-679`. -/
noncomputable def cModNOutE (σ : List ℕ → List ℕ) (e : Eng) (kernelFn : ℕ → ℕ) (modN inStart outStart length : ℕ)
    (controls : List ℕ) (inverse : Bool) : Option Eng :=
  if Utils.isBadBitRange inStart length e.n then none
  else if Utils.isBadBitRange outStart length e.n then none
  else if Utils.throwIfBad controls e.n then none
  else if ocl modN = 0 then none
  else
    let controlMask := (controls.map pow2).foldl (· ||| ·) 0
    let lowMask := 2 ^ length - 1
    let inMask := lowMask <<< inStart
    let outMask := lowMask <<< outStart
    let res := fun lcv =>
      let otherRes := lcv &&& otherMask e.n (inMask ||| outMask ||| controlMask)
      let inRes := lcv &&& inMask
      let outRes := (kernelFn (inRes >>> inStart) % ocl modN) <<< outStart
      inRes ||| outRes ||| otherRes ||| controlMask
    some (e.reset ((σ (parForMaskPlan 64 0 (2 ^ e.n) (skipPows controls outStart length))).foldl
      (ctrlStep controls (fun lcv => if inverse then lcv ||| controlMask else res lcv)
        (fun lcv => if inverse then res lcv else lcv ||| controlMask) e.amp) (fun _ => 0)))

/-- `QEngineCPU::CMULModNOut` (`inverse = false`, `src/qengine/arithmetic.cpp:678-690`, after the `SetReg`) and
`CIMULModNOut` (`inverse = true`, `:692-702`). -/
noncomputable def cMulModNOutE (σ : List ℕ → List ℕ) (inverse : Bool) (e : Eng) (toMod modN inStart outStart length : ℕ)
    (controls : List ℕ) : Option Eng :=
  if controls = [] then
    if inverse then iMulModNOutE σ e toMod modN inStart outStart length
    else mulModNOutE σ e toMod modN inStart outStart length
  else cModNOutE σ e (fun x => x * ocl toMod % 2 ^ 64) modN inStart outStart length controls inverse

/-- `QEngineCPU::CPOWModNOut`, `src/qengine/arithmetic.cpp:707-717`. -/
noncomputable def cPowModNOutE (σ : List ℕ → List ℕ) (e : Eng) (toMod modN inStart outStart length : ℕ)
    (controls : List ℕ) : Option Eng :=
  if controls = [] then powModNOutE σ e toMod modN inStart outStart length
  else cModNOutE σ e (fun x => Utils.intPow 64 (ocl toMod) x) modN inStart outStart length controls false

/-- The entry of the table `values` of entries of `bytes` bytes (little endian),
`src/qengine/arithmetic.cpp:918-946, 1026-1037, 1141-1152, 1209-1220`: for one, two and four bytes the code reads
through a `uint8_t`, `uint16_t` or `uint32_t` pointer. -/
def tableRead (bytes : ℕ) (values : ℕ → ℕ) (k : ℕ) : ℕ :=
  (List.range bytes).foldl (fun acc j => acc ||| (values (k * bytes + j) <<< (8 * j))) 0

/-- `QEngineCPU::IndexedLDA`, `src/qengine/arithmetic.cpp:886-953`, after the reset of the value register. -/
noncomputable def indexedLDAE (σ : List ℕ → List ℕ) (e : Eng) (indexStart indexLength valueStart valueLength : ℕ)
    (values : ℕ → ℕ) : Option Eng :=
  if Utils.isBadBitRange indexStart indexLength e.n then none
  else if Utils.isBadBitRange valueStart valueLength e.n then none
  else
    let bytes := (valueLength + 7) >>> 3
    let inputMask := (2 ^ indexLength - 1) <<< indexStart
    some (e.reset (scatter (fun _ => 0) (σ (parForSkipPlan 64 0 (2 ^ e.n) (2 ^ valueStart) valueLength))
      (fun lcv => lcv ||| (tableRead bytes values ((lcv &&& inputMask) >>> indexStart) <<< valueStart)) e.amp))

/-- The image of a basis state in `IndexedADC` and `IndexedSBC`, `src/qengine/arithmetic.cpp:1008-1055, 1123-1175`:
`add` is the number added to the value register (without the carry-in). -/
def indexedRes (n : ℕ) (add : ℕ → ℕ) (indexStart indexLength valueStart valueLength carryIndex lcv : ℕ) : ℕ :=
  let inputMask := (2 ^ indexLength - 1) <<< indexStart
  let outputMask := (2 ^ valueLength - 1) <<< valueStart
  let carryMask := 2 ^ carryIndex
  let otherRes := lcv &&& otherMask n (inputMask ||| outputMask ||| carryMask)
  let inputRes := lcv &&& inputMask
  let outputInt := (((lcv &&& outputMask) >>> valueStart) + add (inputRes >>> indexStart)) % 2 ^ 64
  if outputInt ≥ 2 ^ valueLength then
    ((outputInt - 2 ^ valueLength) <<< valueStart) ||| inputRes ||| otherRes ||| carryMask
  else (outputInt <<< valueStart) ||| inputRes ||| otherRes

/-- `QEngineCPU::IndexedADC`, `src/qengine/arithmetic.cpp:956-1068`, after `M(carryIndex)` returned `hasCarry`. -/
noncomputable def indexedADCE (σ : List ℕ → List ℕ) (e : Eng) (hasCarry : Bool)
    (indexStart indexLength valueStart valueLength carryIndex : ℕ) (values : ℕ → ℕ) : Option Eng :=
  if Utils.isBadBitRange indexStart indexLength e.n then none
  else if Utils.isBadBitRange valueStart valueLength e.n then none
  else if carryIndex ≥ e.n then none
  else
    (if hasCarry then gateX σ e carryIndex else some e).bind fun e =>
      let bytes := (valueLength + 7) >>> 3
      let carryIn := if hasCarry then 1 else 0
      some (e.reset (scatter (fun _ => 0) (σ (parForSkipPlan 64 0 (2 ^ e.n) (2 ^ carryIndex) 1))
        (indexedRes e.n (fun k => tableRead bytes values k + carryIn) indexStart indexLength valueStart valueLength
          carryIndex) e.amp))

/-- `QEngineCPU::IndexedSBC`, `src/qengine/arithmetic.cpp:1071-1187`, after `M(carryIndex)` returned `hasCarry`. The
loop skips `valueLength` qubits from the carry on (line 1123). -/
noncomputable def indexedSBCE (σ : List ℕ → List ℕ) (e : Eng) (hasCarry : Bool)
    (indexStart indexLength valueStart valueLength carryIndex : ℕ) (values : ℕ → ℕ) : Option Eng :=
  if Utils.isBadBitRange indexStart indexLength e.n then none
  else if Utils.isBadBitRange valueStart valueLength e.n then none
  else if carryIndex ≥ e.n then none
  else
    (if hasCarry then gateX σ e carryIndex else some e).bind fun e =>
      let bytes := (valueLength + 7) >>> 3
      let carryIn := if hasCarry then 0 else 1
      some (e.reset (scatter (fun _ => 0) (σ (parForSkipPlan 64 0 (2 ^ e.n) (2 ^ carryIndex) valueLength))
        (indexedRes e.n
          (fun k => (2 ^ 64 + 2 ^ valueLength - (tableRead bytes values k + carryIn) % 2 ^ 64) % 2 ^ 64)
          indexStart indexLength valueStart valueLength carryIndex) e.amp))

/-- `QEngineCPU::Hash`, `src/qengine/arithmetic.cpp:1190-1226`. -/
noncomputable def hashE (σ : List ℕ → List ℕ) (e : Eng) (start length : ℕ) (values : ℕ → ℕ) : Option Eng :=
  if Utils.isBadBitRange start length e.n then none
  else
    let bytes := (length + 7) >>> 3
    let inputMask := (2 ^ length - 1) <<< start
    some (e.reset (scatter (fun _ => 0) (σ (parForPlan 0 (2 ^ e.n)))
      (fun lcv =>
        let inputRes := lcv &&& inputMask
        (tableRead bytes values (inputRes >>> start) <<< start) ||| (lcv &&& Utils.bnot 64 inputRes)) e.amp))

/-- One iteration of `QEngineCPU::FullAdd`, `src/qengine/arithmetic.cpp:1255-1309`. -/
noncomputable def fullAddStep (input1 input2 carryInSumOut carryOut : ℕ) (s : ℕ → ℂ) (lcv : ℕ) : ℕ → ℂ :=
  let cs := 2 ^ carryInSumOut
  let co := 2 ^ carryOut
  let ins0c0 := s lcv
  let ins0c1 := s (lcv ||| cs)
  let ins1c0 := s (lcv ||| co)
  let ins1c1 := s (lcv ||| cs ||| co)
  let aVal := decide (lcv &&& 2 ^ input1 ≠ 0)
  let bVal := decide (lcv &&& 2 ^ input2 ≠ 0)
  -- (outs0c0, outs1c0, outs0c1, outs1c1)
  let r := match aVal, bVal with
    | false, false => (ins0c0, ins0c1, ins1c0, ins1c1)
    | false, true => (ins1c1, ins0c0, ins0c1, ins1c0)
    | true, false => (ins1c1, ins0c0, ins0c1, ins1c0)
    | true, true => (ins1c0, ins1c1, ins0c0, ins0c1)
  let s := Function.update s lcv r.1
  let s := Function.update s (lcv ||| co) r.2.2.1
  let s := Function.update s (lcv ||| cs) r.2.1
  Function.update s (lcv ||| cs ||| co) r.2.2.2

/-- One iteration of `QEngineCPU::IFullAdd`, `src/qengine/arithmetic.cpp:1339-1393`. -/
noncomputable def iFullAddStep (input1 input2 carryInSumOut carryOut : ℕ) (s : ℕ → ℂ) (lcv : ℕ) : ℕ → ℂ :=
  let cs := 2 ^ carryInSumOut
  let co := 2 ^ carryOut
  let outs0c0 := s lcv
  let outs0c1 := s (lcv ||| co)
  let outs1c0 := s (lcv ||| cs)
  let outs1c1 := s (lcv ||| cs ||| co)
  let aVal := decide (lcv &&& 2 ^ input1 ≠ 0)
  let bVal := decide (lcv &&& 2 ^ input2 ≠ 0)
  -- (ins0c0, ins0c1, ins1c0, ins1c1)
  let r := match aVal, bVal with
    | false, false => (outs0c0, outs1c0, outs0c1, outs1c1)
    | false, true => (outs1c0, outs0c1, outs1c1, outs0c0)
    | true, false => (outs1c0, outs0c1, outs1c1, outs0c0)
    | true, true => (outs0c1, outs1c1, outs0c0, outs1c0)
  let s := Function.update s lcv r.1
  let s := Function.update s (lcv ||| cs) r.2.1
  let s := Function.update s (lcv ||| co) r.2.2.1
  Function.update s (lcv ||| cs ||| co) r.2.2.2

/-- `QEngineCPU::FullAdd`, `src/qengine/arithmetic.cpp:1228-1310`, and `IFullAdd`, `:1312-1394`. -/
noncomputable def fullAddE (σ : List ℕ → List ℕ) (inverse : Bool) (e : Eng)
    (input1 input2 carryInSumOut carryOut : ℕ) : Option Eng :=
  if input1 ≥ e.n ∨ input2 ≥ e.n ∨ carryInSumOut ≥ e.n ∨ carryOut ≥ e.n then none
  else some (e.reset ((σ (parForMaskPlan 64 0 (2 ^ e.n) (sortPows [2 ^ carryInSumOut, 2 ^ carryOut]))).foldl
      (if inverse then iFullAddStep input1 input2 carryInSumOut carryOut
        else fullAddStep input1 input2 carryInSumOut carryOut) e.amp))

/-- `QEngineCPU::PhaseFlipIfLess`, `src/qengine/arithmetic.cpp:1422-1441`. -/
noncomputable def phaseFlipIfLessE (σ : List ℕ → List ℕ) (e : Eng) (greaterPerm start length : ℕ) : Option Eng :=
  if Utils.isBadBitRange start length e.n then none
  else
    let regMask := (2 ^ length - 1) <<< start
    some (e.reset ((σ (parForPlan 0 (2 ^ e.n))).foldl (fun s lcv =>
      if (lcv &&& regMask) >>> start < ocl greaterPerm then Function.update s lcv (- s lcv) else s) e.amp))

/-- `QEngineCPU::CPhaseFlipIfLess`, `src/qengine/arithmetic.cpp:1397-1420`. -/
noncomputable def cPhaseFlipIfLessE (σ : List ℕ → List ℕ) (e : Eng) (greaterPerm start length flagIndex : ℕ) :
    Option Eng :=
  if Utils.isBadBitRange start length e.n then none
  else if flagIndex ≥ e.n then none
  else
    let regMask := (2 ^ length - 1) <<< start
    let flagMask := 2 ^ flagIndex
    some (e.reset ((σ (parForPlan 0 (2 ^ e.n))).foldl (fun s lcv =>
      if (lcv &&& regMask) >>> start < ocl greaterPerm ∧ lcv &&& flagMask = flagMask
      then Function.update s lcv (- s lcv) else s) e.amp))

end Verif.Engine
