import Verif.Model.OclMeas
import Verif.Model.EngineArith

/-!
# Model of the OpenCL engine: arithmetic

`src/qengine/opencl.cpp:2039-2959`, `src/common/qheader_alu.cl`, and the kernel `rol` of `src/common/qengine.cl`. The
simplifications are those of `Verif/Model/Ocl.lean` and `Verif/Model/OclMeas.lean`.

A kernel writes its results to a second state vector, which the host then installs. Without controls the host clears that
vector first, with controls it copies the old one (`CArithmeticCall`); `xMULx` always clears it. Words have 64 bits; sums,
products and shifts that can leave the word are reduced modulo `2^64`. The casts of small numbers (register offsets and
lengths) to `bitLenInt` in the kernels are left out.

`SetReg(reg, length, 0)` before a multiplication is not part of these definitions, as on the CPU (it does nothing on the
states considered, those with a cleared register); where the routine ends in `SetReg` it is the parameter `setReg`.
Only devices with a state vector are considered (`CHECK_ZERO_SKIP`).
-/

namespace Verif.Ocl

open Verif.Engine Verif.Utils Classical

/-- A braced list in `bitCapIntOcl bciArgs[BCI_ARG_LEN]`, `BCI_ARG_LEN = 10`, `include/qengine_opencl.hpp:26`, written to the
argument buffer in full: `src/qengine/opencl.cpp:2083, 2658`. -/
def argBuf (R : Rt) (args : List ℕ) : ℕ → ℕ := writeBuf 10 (arr args) R.old.ul

/-- `QEngineOCL::ArithmeticCall`, `CArithmeticCall` and `xMULx`, `src/qengine/opencl.cpp:2039-2107, 2643-2669`: the launch over
`args[0]` indices, the kernel's own bound `bound`, on the new vector `init`. -/
noncomputable def arithCall (R : Rt) (e : Eng) (args : List ℕ) (init : ℕ → ℂ) (bound : (ℕ → ℕ) → ℕ)
    (step : (ℕ → ℕ) → (ℕ → ℂ) → (ℕ → ℂ) → ℕ → ℕ → ℂ) : Option Eng :=
  let ul := argBuf R args
  (launch R (args.getD 0 0) (bound ul) (step ul e.amp) init).map e.reset

/-- `const bitCapIntOcl maxI = bitCapIntOclPtr[0]`, e.g. `src/common/qheader_alu.cl:16`. -/
def bound0 (ul : ℕ → ℕ) : ℕ := ul 0

/-! ## Rotation -/

/-- The kernel `rol`, `src/common/qengine.cl:1070-1085`. -/
noncomputable def rolStep (ul : ℕ → ℕ) (s n : ℕ → ℂ) (lcv : ℕ) : ℕ → ℂ :=
  let lengthMask := ul 3 - 1
  let start := ul 4
  let shift := ul 5
  let length := ul 6
  let regInt := (lcv &&& ul 1) >>> start
  Function.update n lcv
    (s ((((regInt >>> shift) ||| (regInt <<< (length - shift) % 2 ^ 64)) &&& lengthMask) <<< start ||| (lcv &&& ul 2)))

/-- `QEngineOCL::ROx` and `ROL`, `src/qengine/opencl.cpp:2109-2135`. -/
noncomputable def rol (R : Rt) (e : Eng) (shift start length : ℕ) : Option Eng :=
  if isBadBitRange start length e.n then none
  else if length = 0 then some e
  else
    let shift := shift % length
    if shift = 0 then some e
    else
      let regMask := (2 ^ length - 1) <<< start
      arithCall R e [2 ^ e.n, regMask, (2 ^ e.n - 1) &&& bnot 64 regMask, 2 ^ length, start, shift, length] (fun _ => 0)
        bound0 rolStep

/-! ## Addition -/

/-- The kernel `inc`, `src/common/qheader_alu.cl:13-26`. -/
noncomputable def incStep (ul : ℕ → ℕ) (s n : ℕ → ℂ) (i : ℕ) : ℕ → ℂ :=
  Function.update n (((((((i &&& ul 1) >>> ul 4) + ul 5) % 2 ^ 64) &&& (ul 3 - 1)) <<< ul 4) ||| (i &&& ul 2)) (s i)

/-- `QEngineOCL::INT` and `INC`, `src/qengine/opencl.cpp:2139-2163, 2203-2206`. -/
noncomputable def inc (R : Rt) (e : Eng) (toMod start length : ℕ) : Option Eng :=
  if isBadBitRange start length e.n then none
  else if length = 0 then some e
  else
    let lengthMask := 2 ^ length - 1
    let toMod := ocl toMod &&& lengthMask
    if toMod = 0 then some e
    else
      let regMask := lengthMask <<< start
      arithCall R e [2 ^ e.n, regMask, (2 ^ e.n - 1) &&& bnot 64 regMask, 2 ^ length, start, toMod] (fun _ => 0) bound0
        incStep

/-- The kernel `cinc`, `src/common/qheader_alu.cl:28-54`; `pw` is the buffer of control powers. -/
noncomputable def cincStep (pw ul : ℕ → ℕ) (s n : ℕ → ℂ) (lcv : ℕ) : ℕ → ℂ :=
  let i := pushApart pw (ul 6) lcv
  let otherRes := i &&& ul 2
  Function.update n
    (((((((i &&& ul 1) >>> ul 4) + ul 5) % 2 ^ 64) &&& (ul 3 - 1)) <<< ul 4) ||| otherRes ||| ul 7) (s (i ||| ul 7))

/-- `QEngineOCL::CINT` and `CINC`, `src/qengine/opencl.cpp:2166-2200, 2208-2216`. -/
noncomputable def cinc (R : Rt) (e : Eng) (toMod start length : ℕ) (controls : List ℕ) : Option Eng :=
  if controls = [] then inc R e toMod start length
  else if isBadBitRange start length e.n then none
  else if throwIfBad controls e.n then none
  else if length = 0 then some e
  else
    let lengthMask := 2 ^ length - 1
    let toMod := ocl toMod &&& lengthMask
    if toMod = 0 then some e
    else
      let regMask := lengthMask <<< start
      let controlMask := (controls.map Engine.pow2).foldl (· ||| ·) 0
      arithCall R e [2 ^ e.n >>> controls.length, regMask, otherMask e.n (regMask ||| controlMask), 2 ^ length, start, toMod,
        controls.length, controlMask] e.amp bound0 (cincStep (arr (sortPows (controls.map Engine.pow2))))

/-- The kernel `incdecc`, `src/common/qheader_alu.cl:56-81`. -/
noncomputable def incdeccStep (ul : ℕ → ℕ) (s n : ℕ → ℂ) (lcv : ℕ) : ℕ → ℂ :=
  let lengthMask := ul 3 - 1
  let carryMask := ul 4
  let i := pushApart1 (carryMask - 1) lcv
  let otherRes := i &&& ul 2
  let outInt := (((i &&& ul 1) >>> ul 5) + ul 6) % 2 ^ 64
  let outRes := if outInt > lengthMask then carryMask ||| ((outInt &&& lengthMask) <<< ul 5) else outInt <<< ul 5
  Function.update n (outRes ||| otherRes) (s i)

/-- `QEngineOCL::INTC` and `INCDECC`, `src/qengine/opencl.cpp:2219-2256`. -/
noncomputable def incdecc (R : Rt) (e : Eng) (toMod start length carryIndex : ℕ) : Option Eng :=
  if isBadBitRange start length e.n then none
  else if carryIndex ≥ e.n then none
  else if length = 0 then some e
  else
    let toMod := ocl toMod &&& (2 ^ length - 1)
    if toMod = 0 then some e
    else
      let carryMask := 2 ^ carryIndex
      let regMask := (2 ^ length - 1) <<< start
      arithCall R e [2 ^ e.n >>> 1, regMask, (2 ^ e.n - 1) &&& bnot 64 (regMask ||| carryMask), 2 ^ length, carryMask, start,
        toMod] (fun _ => 0) bound0 incdeccStep

/-- The overflow test of the kernels, `src/common/qheader_alu.cl:102-116, 147-158, 190-201`. -/
def devOverflow (lengthPower signMask inOutInt inInt : ℕ) : Bool :=
  if inOutInt &&& inInt &&& signMask ≠ 0 then
    let inOutInt := (bnot 64 inOutInt &&& (lengthPower - 1)) + 1
    let inInt := (bnot 64 inInt &&& (lengthPower - 1)) + 1
    decide ((inOutInt + inInt) % 2 ^ 64 > signMask)
  else if bnot 64 inOutInt &&& bnot 64 inInt &&& signMask ≠ 0 then decide ((inOutInt + inInt) % 2 ^ 64 ≥ signMask)
  else false

/-- The kernel `incs`, `src/common/qheader_alu.cl:83-123`. -/
noncomputable def incsStep (ul : ℕ → ℕ) (s n : ℕ → ℂ) (lcv : ℕ) : ℕ → ℂ :=
  let lengthPower := ul 3
  let signMask := lengthPower >>> 1
  let overflowMask := ul 4
  let otherRes := lcv &&& ul 2
  let inOutInt := (lcv &&& ul 1) >>> ul 5
  let outInt := (inOutInt + ul 6) % 2 ^ 64
  let outRes := if outInt < lengthPower then (outInt <<< ul 5) ||| otherRes
    else ((outInt - lengthPower) <<< ul 5) ||| otherRes
  Function.update n outRes
    (if devOverflow lengthPower signMask inOutInt (ul 6) = true ∧ outRes &&& overflowMask = overflowMask then - s lcv
      else s lcv)

/-- `QEngineOCL::INTS` and `INCS`, `src/qengine/opencl.cpp:2258-2295`. -/
noncomputable def incs (R : Rt) (e : Eng) (toMod start length overflowIndex : ℕ) : Option Eng :=
  if isBadBitRange start length e.n then none
  else if overflowIndex ≥ e.n then none
  else if length = 0 then some e
  else
    let lengthMask := 2 ^ length - 1
    let toMod := ocl toMod &&& lengthMask
    if toMod = 0 then some e
    else
      let regMask := lengthMask <<< start
      arithCall R e [2 ^ e.n, regMask, otherMask e.n regMask, 2 ^ length, 2 ^ overflowIndex, start, toMod] (fun _ => 0) bound0
        incsStep

/-- The image of a basis state in the kernels `incdecsc1` and `incdecsc2`, `src/common/qheader_alu.cl:138-145, 181-188`. -/
def devCarryRes (inOutMask otherMask lengthPower carryMask start toAdd i : ℕ) : ℕ :=
  let otherRes := i &&& otherMask
  let outInt := (((i &&& inOutMask) >>> start) + toAdd) % 2 ^ 64
  if outInt < lengthPower then (outInt <<< start) ||| otherRes
  else ((outInt - lengthPower) <<< start) ||| otherRes ||| carryMask

/-- The kernel `incdecsc1`, `src/common/qheader_alu.cl:125-167`. -/
noncomputable def incdecsc1Step (ul : ℕ → ℕ) (s n : ℕ → ℂ) (lcv : ℕ) : ℕ → ℂ :=
  let lengthPower := ul 3
  let signMask := lengthPower >>> 1
  let overflowMask := ul 4
  let carryMask := ul 5
  let i := pushApart1 (carryMask - 1) lcv
  let outRes := devCarryRes (ul 1) (ul 2) lengthPower carryMask (ul 6) (ul 7) i
  Function.update n outRes
    (if devOverflow lengthPower signMask ((i &&& ul 1) >>> ul 6) (ul 7) = true ∧ outRes &&& overflowMask = overflowMask
      then - s i else s i)

/-- `QEngineOCL::INTSC` and `INCDECSC` with an overflow flag, `src/qengine/opencl.cpp:2297-2339`. -/
noncomputable def incdecsc1 (R : Rt) (e : Eng) (toMod start length overflowIndex carryIndex : ℕ) : Option Eng :=
  if isBadBitRange start length e.n then none
  else if overflowIndex ≥ e.n then none
  else if carryIndex ≥ e.n then none
  else if length = 0 then some e
  else
    let lengthMask := 2 ^ length - 1
    let toMod := ocl toMod &&& lengthMask
    if toMod = 0 then some e
    else
      let carryMask := 2 ^ carryIndex
      let inOutMask := lengthMask <<< start
      arithCall R e [2 ^ e.n >>> 1, inOutMask, otherMask e.n (inOutMask ||| carryMask), 2 ^ length, 2 ^ overflowIndex,
        carryMask, start, toMod] (fun _ => 0) bound0 incdecsc1Step

/-- The kernel `incdecsc2`, `src/common/qheader_alu.cl:169-210`. -/
noncomputable def incdecsc2Step (ul : ℕ → ℕ) (s n : ℕ → ℂ) (lcv : ℕ) : ℕ → ℂ :=
  let lengthPower := ul 3
  let signMask := lengthPower >>> 1
  let carryMask := ul 4
  let i := pushApart1 (carryMask - 1) lcv
  Function.update n (devCarryRes (ul 1) (ul 2) lengthPower carryMask (ul 5) (ul 6) i)
    (if devOverflow lengthPower signMask ((i &&& ul 1) >>> ul 5) (ul 6) = true then - s i else s i)

/-- `QEngineOCL::INTSC` and `INCDECSC` without an overflow flag, `src/qengine/opencl.cpp:2341-2365`: the addend is not
reduced to the register, and neither an empty register nor a zero addend returns early. -/
noncomputable def incdecsc2 (R : Rt) (e : Eng) (toMod start length carryIndex : ℕ) : Option Eng :=
  if isBadBitRange start length e.n then none
  else if carryIndex ≥ e.n then none
  else
    let carryMask := 2 ^ carryIndex
    let inOutMask := (2 ^ length - 1) <<< start
    arithCall R e [2 ^ e.n >>> 1, inOutMask, otherMask e.n (inOutMask ||| carryMask), 2 ^ length, carryMask, start, ocl toMod]
      (fun _ => 0) bound0 incdecsc2Step

/-! ## Multiplication -/

/-- The product index of the kernels `mul`, `div`, `cmul` and `cdiv`, `src/common/qheader_alu.cl:222-234, 247-260, 516-526,
544-554`. -/
def devMulRes (toMul inOutMask otherMask len inOutStart carryStart i : ℕ) : ℕ :=
  let lowMask := 2 ^ len - 1
  let highMask := lowMask <<< len % 2 ^ 64
  let otherRes := i &&& otherMask
  let outInt := ((i &&& inOutMask) >>> inOutStart) * toMul % 2 ^ 64
  ((outInt &&& lowMask) <<< inOutStart) ||| (((outInt &&& highMask) >>> len) <<< carryStart) ||| otherRes

/-- `iLow | (iHigh ^ iLow) << len`, `src/common/qheader_alu.cl:227-229, 253-255, 279-281, 312-314, 653-655`. -/
def skipReg (skipMask len lcv : ℕ) : ℕ :=
  let iLow := lcv &&& skipMask
  iLow ||| ((lcv ^^^ iLow) <<< len % 2 ^ 64)

/-- The kernels `mul` (`inverse = false`, `src/common/qheader_alu.cl:212-236`) and `div` (`inverse = true`, `:238-262`). -/
noncomputable def mulDivStep (inverse : Bool) (ul : ℕ → ℕ) (s n : ℕ → ℂ) (lcv : ℕ) : ℕ → ℂ :=
  let i := skipReg (ul 8) (ul 5) lcv
  let r := devMulRes (ul 1) (ul 2) (ul 4) (ul 5) (ul 6) (ul 7) i
  if inverse then Function.update n i (s r) else Function.update n r (s i)

/-- `QEngineOCL::MULx`, `src/qengine/opencl.cpp:2671-2690`. -/
noncomputable def mulx (R : Rt) (inverse : Bool) (e : Eng) (toMod inOutStart carryStart length : ℕ) : Option Eng :=
  if isBadBitRange inOutStart length e.n then none
  else if isBadBitRange carryStart length e.n then none
  else
    let lowMask := 2 ^ length - 1
    let inOutMask := lowMask <<< inOutStart
    let carryMask := lowMask <<< carryStart
    arithCall R e [2 ^ e.n >>> length, toMod, inOutMask, carryMask, otherMask e.n (inOutMask ||| carryMask), length, inOutStart,
      carryStart, 2 ^ carryStart - 1, 0] (fun _ => 0) bound0 (mulDivStep inverse)

/-- `QEngineOCL::MUL`, `src/qengine/opencl.cpp:2449-2464`, after the first `SetReg`; `setReg start length value` is
`SetReg`. -/
noncomputable def mul (R : Rt) (setReg : ℕ → ℕ → ℕ → Eng → Option Eng) (e : Eng) (toMul inOutStart carryStart length : ℕ) :
    Option Eng :=
  let toMul := ocl toMul &&& (2 ^ length - 1)
  if toMul = 0 then setReg inOutStart length 0 e
  else mulx R false e toMul inOutStart carryStart length

/-- `QEngineOCL::DIV`, `src/qengine/opencl.cpp:2466-2475`. -/
noncomputable def div (R : Rt) (e : Eng) (toDiv inOutStart carryStart length : ℕ) : Option Eng :=
  if ocl toDiv = 0 then none
  else mulx R true e (ocl toDiv) inOutStart carryStart length

/-- The kernels `mulmodnout` (`inverse = false`) and `imulmodnout` (`inverse = true`),
`src/common/qheader_alu.cl:265-297`. -/
noncomputable def modnStep (inverse : Bool) (ul : ℕ → ℕ) (s n : ℕ → ℂ) (lcv : ℕ) : ℕ → ℂ :=
  let i := skipReg (ul 8) (ul 5) lcv
  let otherRes := i &&& ul 4
  let inRes := i &&& ul 2
  let outRes := ((inRes >>> ul 6) * ul 1 % 2 ^ 64 % ul 9) <<< ul 7
  let r := inRes ||| outRes ||| otherRes
  if inverse then Function.update n i (s r) else Function.update n r (s i)

/-- The power computed by the kernels `powmodnout` and `cpowmodnout`, `src/common/qheader_alu.cl:320-327, 624-631`. -/
def devPow (base inInt : ℕ) : ℕ :=
  if inInt = 0 then 1 else (List.range (inInt - 1)).foldl (fun r _ => r * base % 2 ^ 64) base

/-- The kernel `powmodnout`, `src/common/qheader_alu.cl:299-333`. -/
noncomputable def powmodnStep (ul : ℕ → ℕ) (s n : ℕ → ℂ) (lcv : ℕ) : ℕ → ℂ :=
  let i := skipReg (ul 8) (ul 5) lcv
  let otherRes := i &&& ul 4
  let inRes := i &&& ul 2
  let outRes := (devPow (ul 1) (inRes >>> ul 6) % ul 9) <<< ul 7
  Function.update n (inRes ||| outRes ||| otherRes) (s i)

/-- `QEngineOCL::MULModx`, `src/qengine/opencl.cpp:2692-2717`; a modulus of zero is a division by zero, `none`. -/
noncomputable def mulModx (R : Rt) (step : (ℕ → ℕ) → (ℕ → ℂ) → (ℕ → ℂ) → ℕ → ℕ → ℂ) (e : Eng)
    (toMod modN inStart outStart length : ℕ) : Option Eng :=
  if isBadBitRange inStart length e.n then none
  else if isBadBitRange outStart length e.n then none
  else if toMod = 0 then some e
  else if modN = 0 then none
  else
    let lowMask := 2 ^ length - 1
    let inMask := lowMask <<< inStart
    let outMask := modMask modN <<< outStart
    arithCall R e [2 ^ e.n >>> length, toMod, inMask, outMask, otherMask e.n (inMask ||| outMask), length, inStart, outStart,
      2 ^ outStart - 1, modN] (fun _ => 0) bound0 step

/-- `QEngineOCL::MULModNOut`, `src/qengine/opencl.cpp:2477-2486`, after the `SetReg`. -/
noncomputable def mulModNOut (R : Rt) (e : Eng) (toMul modN inStart outStart length : ℕ) : Option Eng :=
  mulModx R (modnStep false) e (ocl toMul) (ocl modN) inStart outStart length

/-- `QEngineOCL::IMULModNOut`, `src/qengine/opencl.cpp:2488-2494`. -/
noncomputable def iMulModNOut (R : Rt) (e : Eng) (toMul modN inStart outStart length : ℕ) : Option Eng :=
  mulModx R (modnStep true) e (ocl toMul) (ocl modN) inStart outStart length

/-- `QEngineOCL::POWModNOut`, `src/qengine/opencl.cpp:2496-2509`. -/
noncomputable def powModNOut (R : Rt) (setReg : ℕ → ℕ → ℕ → Eng → Option Eng) (e : Eng)
    (base modN inStart outStart length : ℕ) : Option Eng :=
  if ocl base = 1 then setReg outStart length 1 e
  else mulModx R powmodnStep e (ocl base) (ocl modN) inStart outStart length

/-! ## Controlled multiplication -/

/-- `CMOD_FINISH`, `src/common/qheader_alu.cl:491-501`: the mask of a part of the controls, read from the buffer after the
`controlLen + len` sorted powers. -/
def devPartMask (pw : ℕ → ℕ) (controlLen len j : ℕ) : ℕ :=
  (List.range controlLen).foldl (fun m k => if j &&& 2 ^ k ≠ 0 then m ||| pw (controlLen + len + k) else m) 0

/-- `CMOD_FINISH`, `src/common/qheader_alu.cl:491-501`. -/
noncomputable def cmodFinish (pw : ℕ → ℕ) (controlLen len i : ℕ) (s n : ℕ → ℂ) : ℕ → ℂ :=
  (List.range' 1 (2 ^ controlLen - 1 - 1)).foldl
    (fun n j => Function.update n (i ||| devPartMask pw controlLen len j) (s (i ||| devPartMask pw controlLen len j)))
    (Function.update n i (s i))

/-- The kernels `cmul` (`inverse = false`, `src/common/qheader_alu.cl:503-529`) and `cdiv` (`inverse = true`, `:531-557`), with
`CMOD_START`, `:481-489`. -/
noncomputable def cmulDivStep (inverse : Bool) (pw ul : ℕ → ℕ) (s n : ℕ → ℂ) (lcv : ℕ) : ℕ → ℂ :=
  let controlLen := ul 2
  let controlMask := ul 3
  let len := ul 7
  let i := pushApart pw (controlLen + len) lcv
  let r := devMulRes (ul 1) (ul 4) (ul 6) len (ul 8) (ul 9) i ||| controlMask
  cmodFinish pw controlLen len i s
    (if inverse then Function.update n (i ||| controlMask) (s r) else Function.update n r (s (i ||| controlMask)))

/-- The buffer of `CMULx` and `CMULModx`, `src/qengine/opencl.cpp:2733-2756, 2774-2798`: the sorted powers of the controls and of
the skipped register. Its length is that of the powers plus the number of controls, so that as many words after the
end of the array are copied; they are `junk`. -/
def ctrlBuf (controls : List ℕ) (start length : ℕ) (junk : ℕ → ℕ) : ℕ → ℕ :=
  fun i => if i < controls.length + length then arr (skipPows controls start length) i
    else junk (i - (controls.length + length))

/-- `QEngineOCL::CMULx`, `src/qengine/opencl.cpp:2719-2760`. -/
noncomputable def cmulx (R : Rt) (junk : ℕ → ℕ) (inverse : Bool) (e : Eng) (toMod inOutStart carryStart length : ℕ)
    (controls : List ℕ) : Option Eng :=
  if isBadBitRange inOutStart length e.n then none
  else if isBadBitRange carryStart length e.n then none
  else if throwIfBad controls e.n then none
  else
    let lowMask := 2 ^ length - 1
    let inOutMask := lowMask <<< inOutStart
    let carryMask := lowMask <<< carryStart
    let controlMask := (controls.map Engine.pow2).foldl (· ||| ·) 0
    arithCall R e [2 ^ e.n >>> (controls.length + length), toMod, controls.length, controlMask, inOutMask, carryMask,
      otherMask e.n (inOutMask ||| carryMask ||| controlMask), length, inOutStart, carryStart] (fun _ => 0) bound0
      (cmulDivStep inverse (ctrlBuf controls carryStart length junk))

/-- `QEngineOCL::CMUL`, `src/qengine/opencl.cpp:2547-2567`, after the `SetReg` of the carry register. -/
noncomputable def cmul (R : Rt) (junk : ℕ → ℕ) (setReg : ℕ → ℕ → ℕ → Eng → Option Eng) (e : Eng)
    (toMul inOutStart carryStart length : ℕ) (controls : List ℕ) : Option Eng :=
  if controls = [] then mul R setReg e toMul inOutStart carryStart length
  else
    let toMul := ocl toMul &&& (2 ^ length - 1)
    if toMul = 1 then some e else cmulx R junk false e toMul inOutStart carryStart length controls

/-- `QEngineOCL::CDIV`, `src/qengine/opencl.cpp:2569-2587`. -/
noncomputable def cdiv (R : Rt) (junk : ℕ → ℕ) (e : Eng) (toDiv inOutStart carryStart length : ℕ) (controls : List ℕ) :
    Option Eng :=
  if controls = [] then div R e toDiv inOutStart carryStart length
  else if ocl toDiv = 0 then none
  else if ocl toDiv = 1 then some e
  else cmulx R junk true e (ocl toDiv) inOutStart carryStart length controls

/-- `otherMask` of the kernels `CMODNOUT` and `cpowmodnout`, `src/common/qheader_alu.cl:574, 614`. -/
def devModMask (ul : ℕ → ℕ) : ℕ := (ul 0 - 1) ^^^ (ul 4 ||| ul 5 ||| ul 3)

/-- The kernels `cmulmodnout` (`inverse = false`) and `cimulmodnout` (`inverse = true`), `src/common/qheader_alu.cl:560-598`. -/
noncomputable def cmodnStep (inverse : Bool) (pw ul : ℕ → ℕ) (s n : ℕ → ℂ) (lcv : ℕ) : ℕ → ℂ :=
  let controlLen := ul 2
  let controlMask := ul 3
  let len := ul 7
  let i := pushApart pw (controlLen + len) lcv
  let otherRes := i &&& devModMask ul
  let inRes := i &&& ul 4
  let outRes := ((inRes >>> ul 8) * ul 1 % 2 ^ 64 % ul 6) <<< ul 9
  let r := inRes ||| outRes ||| otherRes ||| controlMask
  cmodFinish pw controlLen len i s
    (if inverse then Function.update n (i ||| controlMask) (s r) else Function.update n r (s (i ||| controlMask)))

/-- The kernel `cpowmodnout`, `src/common/qheader_alu.cl:600-639`. -/
noncomputable def cpowmodnStep (pw ul : ℕ → ℕ) (s n : ℕ → ℂ) (lcv : ℕ) : ℕ → ℂ :=
  let controlLen := ul 2
  let controlMask := ul 3
  let len := ul 7
  let i := pushApart pw (controlLen + len) lcv
  let otherRes := i &&& devModMask ul
  let inRes := i &&& ul 4
  let outRes := (devPow (ul 1) (inRes >>> ul 8) % ul 6) <<< ul 9
  cmodFinish pw controlLen len i s
    (Function.update n (inRes ||| outRes ||| otherRes ||| controlMask) (s (i ||| controlMask)))

/-- `maxI >>= (controlLen + len)`, `src/common/qheader_alu.cl:575, 615`. -/
def boundCmod (ul : ℕ → ℕ) : ℕ := ul 0 >>> (ul 2 + ul 7)

/-- `QEngineOCL::CMULModx`, `src/qengine/opencl.cpp:2762-2802`; a modulus of zero is a division by zero, `none`. -/
noncomputable def cmulModx (R : Rt) (junk : ℕ → ℕ) (step : (ℕ → ℕ) → (ℕ → ℕ) → (ℕ → ℂ) → (ℕ → ℂ) → ℕ → ℕ → ℂ) (e : Eng)
    (toMod modN inOutStart carryStart length : ℕ) (controls : List ℕ) : Option Eng :=
  if isBadBitRange inOutStart length e.n then none
  else if isBadBitRange carryStart length e.n then none
  else if throwIfBad controls e.n then none
  else if modN = 0 then none
  else
    let lowMask := 2 ^ length - 1
    let inOutMask := lowMask <<< inOutStart
    let carryMask := lowMask <<< carryStart
    let controlMask := (controls.map Engine.pow2).foldl (· ||| ·) 0
    arithCall R e [2 ^ e.n, toMod, controls.length, controlMask, inOutMask, carryMask, modN, length, inOutStart, carryStart]
      (fun _ => 0) boundCmod (step (ctrlBuf controls carryStart length junk))

/-- `QEngineOCL::CMULModNOut` (`inverse = false`, `src/qengine/opencl.cpp:2589-2608`, after the `SetReg`) and `CIMULModNOut`
(`inverse = true`, `:2610-2625`). -/
noncomputable def cMulModNOut (R : Rt) (junk : ℕ → ℕ) (inverse : Bool) (e : Eng) (toMul modN inStart outStart length : ℕ)
    (controls : List ℕ) : Option Eng :=
  if controls = [] then
    if inverse then iMulModNOut R e toMul modN inStart outStart length
    else mulModNOut R e toMul modN inStart outStart length
  else
    let toMul := ocl toMul &&& (2 ^ length - 1)
    if toMul = 0 then some e
    else cmulModx R junk (cmodnStep inverse) e toMul (ocl modN) inStart outStart length controls

/-- `QEngineOCL::CPOWModNOut`, `src/qengine/opencl.cpp:2629-2642`, after the `SetReg`. -/
noncomputable def cPowModNOut (R : Rt) (junk : ℕ → ℕ) (setReg : ℕ → ℕ → ℕ → Eng → Option Eng) (e : Eng)
    (base modN inStart outStart length : ℕ) (controls : List ℕ) : Option Eng :=
  if controls = [] then powModNOut R setReg e base modN inStart outStart length
  else cmulModx R junk cpowmodnStep e (ocl base) (ocl modN) inStart outStart length controls

/-! ## Tables -/

/-- Conversion of an `int` with the given 32 bits to a 64-bit unsigned word. -/
def signExt (x : ℕ) : ℕ := if x < 2 ^ 31 then x else x + (2 ^ 64 - 2 ^ 32)

/-- Reading a table entry in the kernels, `src/common/qheader_alu.cl:660-668, 698-706, 744-752, 778-786`: `values[k] << (8U * j)`
promotes the byte to an `int`, shifts by the amount modulo 32 and converts to `bitCapIntOcl` with sign extension. -/
def devRead (bytes : ℕ) (values : ℕ → ℕ) (k : ℕ) : ℕ :=
  if bytes = 1 then values k
  else if bytes = 2 then values (2 * k) + 256 * values (2 * k + 1)
  else (List.range bytes).foldl
    (fun acc j => acc ||| signExt (values (k * bytes + j) <<< (8 * j % 32) % 2 ^ 32)) 0

/-- The kernel `indexedLda`, `src/common/qheader_alu.cl:641-672`. -/
noncomputable def ldaStep (values ul : ℕ → ℕ) (s n : ℕ → ℂ) (lcv : ℕ) : ℕ → ℂ :=
  let i := skipReg (2 ^ ul 3 - 1) (ul 5) lcv
  let outputInt := devRead (ul 4) values ((i &&& ul 2) >>> ul 1)
  Function.update n ((outputInt <<< ul 3 % 2 ^ 64) ||| i) (s i)

/-- `QEngineOCL::IndexedLDA`, `src/qengine/opencl.cpp:2804-2837`, after the `SetReg` of the value register. -/
noncomputable def indexedLDA (R : Rt) (e : Eng) (indexStart indexLength valueStart valueLength : ℕ) (values : ℕ → ℕ) :
    Option Eng :=
  if isBadBitRange indexStart indexLength e.n then none
  else if isBadBitRange valueStart valueLength e.n then none
  else
    arithCall R e [2 ^ e.n >>> valueLength, indexStart, (2 ^ indexLength - 1) <<< indexStart, valueStart,
      (valueLength + 7) >>> 3, valueLength] (fun _ => 0) bound0 (ldaStep values)

/-- The end of the kernels `indexedAdc` and `indexedSbc`, `src/common/qheader_alu.cl:709-716, 755-762`. -/
def devIndexed (lengthPower outputStart carryMask inputRes otherRes outputInt : ℕ) : ℕ :=
  let outputRes := if outputInt ≥ lengthPower then outputInt - lengthPower else outputInt
  let carryRes := if outputInt ≥ lengthPower then carryMask else 0
  (outputRes <<< outputStart % 2 ^ 64) ||| inputRes ||| otherRes ||| carryRes

/-- The kernel `indexedAdc`, `src/common/qheader_alu.cl:674-718`: the amplitude is read at `lcv`. -/
noncomputable def adcStep (values ul : ℕ → ℕ) (s n : ℕ → ℂ) (lcv : ℕ) : ℕ → ℂ :=
  let carryMask := ul 7
  let i := pushApart1 (carryMask - 1) lcv
  let otherRes := i &&& ul 5
  let inputRes := i &&& ul 2
  let outputInt := (devRead (ul 9) values (inputRes >>> ul 1) + (((i &&& ul 4) >>> ul 3) + ul 6)) % 2 ^ 64
  Function.update n (devIndexed (ul 8) (ul 3) carryMask inputRes otherRes outputInt) (s lcv)

/-- The kernel `indexedSbc`, `src/common/qheader_alu.cl:720-764`. -/
noncomputable def sbcStep (values ul : ℕ → ℕ) (s n : ℕ → ℂ) (lcv : ℕ) : ℕ → ℂ :=
  let carryMask := ul 7
  let i := pushApart1 (carryMask - 1) lcv
  let otherRes := i &&& ul 5
  let inputRes := i &&& ul 2
  let outputInt := (((i &&& ul 4) >>> ul 3) +
    (2 ^ 64 + ul 8 - (devRead (ul 9) values (inputRes >>> ul 1) + ul 6) % 2 ^ 64) % 2 ^ 64) % 2 ^ 64
  Function.update n (devIndexed (ul 8) (ul 3) carryMask inputRes otherRes outputInt) (s i)

/-- `QEngineOCL::OpIndexed`, `src/qengine/opencl.cpp:2839-2885`, after `M(carryIndex)` returned `hasCarry`. -/
noncomputable def opIndexed (R : Rt) (step : (ℕ → ℕ) → (ℕ → ℂ) → (ℕ → ℂ) → ℕ → ℕ → ℂ) (e : Eng) (hasCarry : Bool) (carryIn : ℕ)
    (indexStart indexLength valueStart valueLength carryIndex : ℕ) : Option Eng :=
  if isBadBitRange indexStart indexLength e.n then none
  else if isBadBitRange valueStart valueLength e.n then none
  else if carryIndex ≥ e.n then none
  else
    (if hasCarry then gateX R.d R.σ R.τ R.old e carryIndex else some e).bind fun e =>
      let carryIn := if hasCarry then carryIn ^^^ 1 else carryIn
      let carryMask := 2 ^ carryIndex
      let inputMask := (2 ^ indexLength - 1) <<< indexStart
      let outputMask := (2 ^ valueLength - 1) <<< valueStart
      arithCall R e [2 ^ e.n >>> 1, indexStart, inputMask, valueStart, outputMask,
        (2 ^ e.n - 1) &&& bnot 64 (inputMask ||| outputMask ||| carryMask), carryIn, carryMask, 2 ^ valueLength,
        (valueLength + 7) >>> 3] (fun _ => 0) bound0 step

/-- `QEngineOCL::IndexedADC`, `src/qengine/opencl.cpp:2887-2892`. -/
noncomputable def indexedADC (R : Rt) (e : Eng) (hasCarry : Bool)
    (indexStart indexLength valueStart valueLength carryIndex : ℕ) (values : ℕ → ℕ) : Option Eng :=
  opIndexed R (adcStep values) e hasCarry 0 indexStart indexLength valueStart valueLength carryIndex

/-- `QEngineOCL::IndexedSBC`, `src/qengine/opencl.cpp:2894-2899`. -/
noncomputable def indexedSBC (R : Rt) (e : Eng) (hasCarry : Bool)
    (indexStart indexLength valueStart valueLength carryIndex : ℕ) (values : ℕ → ℕ) : Option Eng :=
  opIndexed R (sbcStep values) e hasCarry 1 indexStart indexLength valueStart valueLength carryIndex

/-- The kernel `hash`, `src/common/qheader_alu.cl:766-790`. -/
noncomputable def hashStep (values ul : ℕ → ℕ) (s n : ℕ → ℂ) (lcv : ℕ) : ℕ → ℂ :=
  let inputRes := lcv &&& ul 2
  let outputInt := devRead (ul 3) values (inputRes >>> ul 1)
  Function.update n ((outputInt <<< ul 1 % 2 ^ 64) ||| (lcv &&& bnot 64 inputRes)) (s lcv)

/-- `QEngineOCL::Hash`, `src/qengine/opencl.cpp:2901-2909`; the range is not checked. -/
noncomputable def hash (R : Rt) (e : Eng) (start length : ℕ) (values : ℕ → ℕ) : Option Eng :=
  arithCall R e [2 ^ e.n, start, (2 ^ length - 1) <<< start, (length + 7) >>> 3] (fun _ => 0) bound0 (hashStep values)

/-! ## Operations in place -/

/-- `QEngineOCL::FullAdx` and `PhaseFlipX`, `src/qengine/opencl.cpp:2523-2545, 2911-2929`: the first five arguments are written,
and the kernel works on the state vector itself. -/
noncomputable def inPlaceCall (R : Rt) (e : Eng) (args : List ℕ) (step : (ℕ → ℕ) → (ℕ → ℂ) → ℕ → ℕ → ℂ) : Option Eng :=
  let ul := writeBuf 5 (arr args) R.old.ul
  (launch R (args.getD 0 0) (ul 0) (step ul) e.amp).map e.reset

/-- The base index of the kernels `fulladd` and `ifulladd`, `src/common/qheader_alu.cl:344-354, 417-427`. -/
def fullAddBase (ul : ℕ → ℕ) (lcv : ℕ) : ℕ :=
  if ul 3 < ul 4 then pushApart2 (ul 3 - 1) (ul 4 - 1) lcv else pushApart2 (ul 4 - 1) (ul 3 - 1) lcv

/-- The kernel `fulladd`, `src/common/qheader_alu.cl:335-406`. -/
noncomputable def fulladdStep (ul : ℕ → ℕ) (s : ℕ → ℂ) (lcv : ℕ) : ℕ → ℂ :=
  let i := fullAddBase ul lcv
  let cs := ul 3
  let co := ul 4
  let ins0c0 := s i
  let ins0c1 := s (i ||| cs)
  let ins1c0 := s (i ||| co)
  let ins1c1 := s (i ||| cs ||| co)
  let aVal := decide (i &&& ul 1 ≠ 0)
  let bVal := decide (i &&& ul 2 ≠ 0)
  -- (outs0c0, outs1c0, outs0c1, outs1c1)
  let r := match aVal, bVal with
    | false, false => (ins0c0, ins0c1, ins1c0, ins1c1)
    | false, true => (ins1c1, ins0c0, ins0c1, ins1c0)
    | true, false => (ins1c1, ins0c0, ins0c1, ins1c0)
    | true, true => (ins1c0, ins1c1, ins0c0, ins0c1)
  let s := Function.update s i r.1
  let s := Function.update s (i ||| co) r.2.2.1
  let s := Function.update s (i ||| cs) r.2.1
  Function.update s (i ||| cs ||| co) r.2.2.2

/-- The kernel `ifulladd`, `src/common/qheader_alu.cl:408-479`. -/
noncomputable def ifulladdStep (ul : ℕ → ℕ) (s : ℕ → ℂ) (lcv : ℕ) : ℕ → ℂ :=
  let i := fullAddBase ul lcv
  let cs := ul 3
  let co := ul 4
  let outs0c0 := s i
  let outs0c1 := s (i ||| co)
  let outs1c0 := s (i ||| cs)
  let outs1c1 := s (i ||| cs ||| co)
  let aVal := decide (i &&& ul 1 ≠ 0)
  let bVal := decide (i &&& ul 2 ≠ 0)
  -- (ins0c0, ins0c1, ins1c0, ins1c1)
  let r := match aVal, bVal with
    | false, false => (outs0c0, outs1c0, outs0c1, outs1c1)
    | false, true => (outs1c0, outs0c1, outs1c1, outs0c0)
    | true, false => (outs1c0, outs0c1, outs1c1, outs0c0)
    | true, true => (outs0c1, outs1c1, outs0c0, outs1c0)
  let s := Function.update s i r.1
  let s := Function.update s (i ||| cs) r.2.1
  let s := Function.update s (i ||| co) r.2.2.1
  Function.update s (i ||| cs ||| co) r.2.2.2

/-- `QEngineOCL::FullAdd` and `IFullAdd`, `src/qengine/opencl.cpp:2511-2545`; no index is checked. -/
noncomputable def fullAdx (R : Rt) (inverse : Bool) (e : Eng) (input1 input2 carryInSumOut carryOut : ℕ) : Option Eng :=
  inPlaceCall R e [2 ^ e.n >>> 2, 2 ^ input1, 2 ^ input2, 2 ^ carryInSumOut, 2 ^ carryOut]
    (if inverse then ifulladdStep else fulladdStep)

/-- The kernel `cphaseflipifless`, `src/common/qheader_alu.cl:792-808`. -/
noncomputable def cphaseflipiflessStep (ul : ℕ → ℕ) (s : ℕ → ℂ) (lcv : ℕ) : ℕ → ℂ :=
  let i := pushApart1 (ul 2 - 1) lcv ||| ul 2
  if (i &&& ul 1) >>> ul 4 < ul 3 then Function.update s i (- s i) else s

/-- The kernel `phaseflipifless`, `src/common/qheader_alu.cl:810-822`. -/
noncomputable def phaseflipiflessStep (ul : ℕ → ℕ) (s : ℕ → ℂ) (lcv : ℕ) : ℕ → ℂ :=
  if (lcv &&& ul 1) >>> ul 3 < ul 2 then Function.update s lcv (- s lcv) else s

/-- `QEngineOCL::CPhaseFlipIfLess`, `src/qengine/opencl.cpp:2931-2945`. -/
noncomputable def cPhaseFlipIfLess (R : Rt) (e : Eng) (greaterPerm start length flagIndex : ℕ) : Option Eng :=
  if isBadBitRange start length e.n then none
  else if flagIndex ≥ e.n then none
  else inPlaceCall R e [2 ^ e.n >>> 1, (2 ^ length - 1) <<< start, 2 ^ flagIndex, ocl greaterPerm, start] cphaseflipiflessStep

/-- `QEngineOCL::PhaseFlipIfLess`, `src/qengine/opencl.cpp:2947-2957`. -/
noncomputable def phaseFlipIfLess (R : Rt) (e : Eng) (greaterPerm start length : ℕ) : Option Eng :=
  if isBadBitRange start length e.n then none
  else inPlaceCall R e [2 ^ e.n >>> 1, (2 ^ length - 1) <<< start, ocl greaterPerm, start] phaseflipiflessStep

end Verif.Ocl
