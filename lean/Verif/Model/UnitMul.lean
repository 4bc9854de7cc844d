import Verif.Model.UnitArith
import Verif.Props.EngineMul
import Verif.Props.EngineTable

/-!
# Model of the products, tables and comparisons of `QUnit`

As in `Verif/Model/UnitArith.lean`: the state is that of all qubits together, the caches are any answers, and a call of a unit has the
effect that has been proved of the engine. `SetReg` of `QUnit` measures the register before it overwrites it; the outcome of such a
measurement is an argument here, and the state is left with the length it has after the projection, whose square is the probability of
the outcome. The phase of the new shards (`GetNonunitaryPhase`) is left out.
-/

namespace Verif.QU

open Verif.Spec Verif.Engine

/-- What comes of a call: a new state, an exception, or undefined behaviour. -/
inductive Out where
  | ok (ψ : ℕ → ℂ)
  | threw
  | undefined

/-- `QUnit::SetReg`, `src/qunit.cpp:1763-1770`, when `MReg` gives `r` (C21). -/
noncomputable def setTo (n start length value r : ℕ) (ψ : ℕ → ℂ) : ℕ → ℂ := moved n (setField start length value) (seen start length r ψ)

/-- `unit->MUL(toMul, start, carryStart, length)` for a multiplier other than 0, when the measurement of the carry register gives `r`
(C12). -/
noncomputable def mulUnit (n toMul start carryStart length r : ℕ) (ψ : ℕ → ℂ) : ℕ → ℂ :=
  moved n (fun i => prodIdx start carryStart length (field start length i * toMul) i) (setTo n carryStart length 0 r ψ)

/-- `QUnit::MUL`, `src/qunit.cpp:3227-3259`, when the measurement of the carry register gives `r`, and that of the register itself,
which takes place for a multiplier of 0 alone, gives `rIn`. -/
noncomputable def mul (K : Cache) (n toMul start carryStart length rIn r : ℕ) (ψ : ℕ → ℂ) : Out :=
  if Utils.isBadBitRange start length n then .threw
  else if Utils.isBadBitRange carryStart length n then .threw
  else if toMul = 0 then .ok (setTo n carryStart length 0 r (setTo n start length 0 rIn ψ))
  else if toMul = 1 then .ok (setTo n carryStart length 0 r ψ)
  else
    match cached K ψ start length with
    | some v =>
      let res := v * toMul % 2 ^ 128
      .ok (setTo n carryStart length ((res >>> length) &&& (2 ^ length - 1)) r (setReg n start length (res &&& (2 ^ length - 1)) ψ))
    | none => .ok (mulUnit n toMul start carryStart length r ψ)

/-- `unit->DIV(toDiv, start, carryStart, length)` for a divisor other than 0 and 1 (C12): the amplitude of a product goes to what was
multiplied; every other amplitude is dropped. -/
def divUnit (toDiv start carryStart length : ℕ) (ψ : ℕ → ℂ) (i : ℕ) : ℂ :=
  if field carryStart length i = 0 then ψ (prodIdx start carryStart length (field start length i * toDiv) i) else 0

/-- `QUnit::DIV`, `src/qunit.cpp:3261-3295`; `bi_div_mod`, `include/common/qrack_functions.hpp:29-35`, is the division of the machine, and
undefined for a divisor of 0. -/
noncomputable def div (K : Cache) (n toDiv start carryStart length : ℕ) (ψ : ℕ → ℂ) : Out :=
  if Utils.isBadBitRange start length n then .threw
  else if Utils.isBadBitRange carryStart length n then .threw
  else if toDiv = 1 then .ok ψ
  else
    match cached K ψ start length, cached K ψ carryStart length with
    | some v, some w =>
      if toDiv = 0 then .undefined
      else
        let origRes := v ||| (w <<< length) % 2 ^ 128
        let quo := origRes / toDiv
        if origRes % toDiv = 0 then
          .ok (setReg n carryStart length ((quo >>> length) &&& (2 ^ length - 1)) (setReg n start length (quo &&& (2 ^ length - 1)) ψ))
        else .ok ψ
    | _, _ => if toDiv = 0 then .threw else .ok (divUnit toDiv start carryStart length ψ)

/-- `QUnit::POWModNOut`, `src/qunit.cpp:3297-3326`, when the measurement of the output register gives `r`. The unit computes the power
in 64 bits (C12). -/
noncomputable def powModNOut (K : Cache) (n toMod modN inStart outStart length r : ℕ) (ψ : ℕ → ℂ) : Out :=
  if Utils.isBadBitRange inStart length n then .threw
  else if Utils.isBadBitRange outStart length n then .threw
  else if toMod = 1 then .ok (setTo n outStart length 1 r ψ)
  else
    match cached K ψ inStart length with
    | some v => if modN = 0 then .undefined else .ok (setTo n outStart length (Utils.intPow 128 toMod v % modN) r ψ)
    | none =>
      if modN = 0 then .undefined
      else .ok (moved n (fun i => setField outStart length (Utils.intPow 64 (ocl toMod) (field inStart length i) % modN) i)
        (setTo n outStart length 0 r ψ))

/-- `unit->CMUL(toMul, start, carryStart, length, controls)` for a multiplier other than 0, when the measurement of the carry register
gives `r` (C13). -/
noncomputable def cmulUnit (n toMul start carryStart length : ℕ) (controls : List ℕ) (r : ℕ) (ψ : ℕ → ℂ) : ℕ → ℂ :=
  open Classical in
  moved n (fun i => if AllAre true controls i then prodIdx start carryStart length (field start length i * toMul) i else i)
    (setTo n carryStart length 0 r ψ)

/-- `QUnit::CMUL`, `src/qunit.cpp:3389-3416`, and `CMULx`, `:3364-3375`, for a multiplier other than 0. -/
noncomputable def cMul (K : Cache) (n toMul start carryStart length : ℕ) (controls : List ℕ) (r : ℕ) (ψ : ℕ → ℂ) : Out :=
  if Utils.isBadBitRange start length n then .threw
  else if Utils.isBadBitRange carryStart length n then .threw
  else if Utils.throwIfBad controls n then .threw
  else
    match trimControls K ψ controls with
    | none => .ok ψ
    | some [] => mul K n toMul start carryStart length 0 r ψ
    | some cs => .ok (cmulUnit n toMul start carryStart length cs r ψ)

/-! ## Tables -/

/-- `values[...] << (8U * j)`, `src/qunit.cpp:3481, 3493`, as the `bitCapInt` that `bi_or_ip` is given. The byte becomes an `int` of 32
bits: a shift by 32 or more is undefined, and a result with bit 31 set is negative, which fills the `bitCapInt` with ones. -/
def shl (byte j : ℕ) : Option ℕ :=
  if 32 ≤ 8 * j then none
  else
    let v := byte <<< (8 * j) % 2 ^ 32
    some (if v < 2 ^ 31 then v else 2 ^ 128 - 2 ^ 32 + v)

/-- The loop of `QUnit::GetIndexedEigenstate`, `src/qunit.cpp:3474-3497`. -/
def eigenLoop (bytes : ℕ) (values : ℕ → ℕ) (k : ℕ) : List ℕ → ℕ → Option ℕ
  | [], value => some value
  | j :: js, value => (shl (values (k * bytes + j)) j).bind fun b => eigenLoop bytes values k js (value ||| b)

/-- `QUnit::GetIndexedEigenstate`, `src/qunit.cpp:3474-3497`, for an index register that holds `k`. -/
def indexedEigenstate (length : ℕ) (values : ℕ → ℕ) (k : ℕ) : Option ℕ :=
  eigenLoop ((length + 7) >>> 3) values k (List.range ((length + 7) >>> 3)) 0

/-- `QUnit::IndexedLDA`, `src/qunit.cpp:3499-3533`, with `resetValue`, when the measurement of the value register gives `r`; the call of
the unit as in C14. -/
noncomputable def indexedLDA (K : Cache) (n indexStart indexLength valueStart valueLength : ℕ) (values : ℕ → ℕ) (r : ℕ) (ψ : ℕ → ℂ) :
    Out :=
  if Utils.isBadBitRange indexStart indexLength n then .threw
  else if Utils.isBadBitRange valueStart valueLength n then .threw
  else
    match cached K ψ indexStart indexLength with
    | some k =>
      match indexedEigenstate valueLength values k with
      | some value => .ok (setTo n valueStart valueLength value r ψ)
      | none => .undefined
    | none =>
      .ok (moved n (fun i => setField valueStart valueLength (entry ((valueLength + 7) / 8) values (field indexStart indexLength i)) i)
        (setTo n valueStart valueLength 0 r ψ))

/-- The result of `INCC` or `DECC`, which throw or succeed. -/
def ofOption : Option (ℕ → ℂ) → Out
  | some ψ => .ok ψ
  | none => .threw

/-- `QUnit::IndexedADC`, `src/qunit.cpp:3535-3584`, after the carry qubit was measured as `m`; the call of the unit as in C14. -/
noncomputable def indexedADC (K : Cache) (n : ℕ) (m : Bool) (indexStart indexLength valueStart valueLength carry : ℕ) (values : ℕ → ℕ)
    (ψ : ℕ → ℂ) : Out :=
  if Utils.isBadBitRange indexStart indexLength n then .threw
  else if Utils.isBadBitRange valueStart valueLength n then .threw
  else if n ≤ carry then .threw
  else
    match cached K ψ indexStart indexLength with
    | some k =>
      match indexedEigenstate valueLength values k with
      | some value => ofOption (incC K n m value valueStart valueLength carry ψ)
      | none => .undefined
    | none =>
      .ok (moved n (fun i => sumIdx valueStart valueLength carry
        (field valueStart valueLength i + (entry ((valueLength + 7) / 8) values (field indexStart indexLength i) + m.toNat)) i) ψ)

/-- `QUnit::IndexedSBC`, `src/qunit.cpp:3586-3635`, after the carry qubit was measured as `m`, as far as the index register is known;
`unit` stands for the call of the unit (`indexedSBC_partial`, `indexedSBC_wrong`, C14). -/
noncomputable def indexedSBC (K : Cache) (n : ℕ) (m : Bool) (indexStart indexLength valueStart valueLength carry : ℕ) (values : ℕ → ℕ)
    (unit : (ℕ → ℂ) → ℕ → ℂ) (ψ : ℕ → ℂ) : Out :=
  if Utils.isBadBitRange indexStart indexLength n then .threw
  else if Utils.isBadBitRange valueStart valueLength n then .threw
  else if n ≤ carry then .threw
  else
    match cached K ψ indexStart indexLength with
    | some k =>
      match indexedEigenstate valueLength values k with
      | some value => ofOption (decC K n m value valueStart valueLength carry ψ)
      | none => .undefined
    | none => .ok (unit ψ)

/-- `QUnit::Hash`, `src/qunit.cpp:3637-3655`; the call of the unit as in C15. -/
noncomputable def hash (K : Cache) (n start length : ℕ) (values : ℕ → ℕ) (ψ : ℕ → ℂ) : Out :=
  if Utils.isBadBitRange start length n then .threw
  else if checkBitsPlus K ψ start length then .ok ψ
  else
    match cached K ψ start length with
    | some k =>
      match indexedEigenstate length values k with
      | some value => .ok (setReg n start length value ψ)
      | none => .undefined
    | none => .ok (moved n (fun i => setField start length (entry ((length + 7) / 8) values (field start length i)) i) ψ)

/-! ## Comparisons -/

/-- `QUnit::PhaseFlipIfLess`, `src/qunit.cpp:3657-3675`; the unit compares with the low 64 bits of `greaterPerm`
(`src/qengine/arithmetic.cpp:1422-1441`). -/
noncomputable def phaseFlipIfLess (K : Cache) (n greaterPerm start length : ℕ) (ψ : ℕ → ℂ) : Out :=
  if Utils.isBadBitRange start length n then .threw
  else
    match cached K ψ start length with
    | some v => .ok (if v < greaterPerm then fun i => - ψ i else ψ)
    | none => .ok fun i => if field start length i < ocl greaterPerm then - ψ i else ψ i

/-- `QUnit::CPhaseFlipIfLess`, `src/qunit.cpp:3677-3700`. -/
noncomputable def cPhaseFlipIfLess (K : Cache) (n greaterPerm start length flag : ℕ) (ψ : ℕ → ℂ) : Out :=
  if Utils.isBadBitRange start length n then .threw
  else if n ≤ flag then .threw
  else
    match K.bit 0 ψ flag with
    | some b => if b then phaseFlipIfLess K n greaterPerm start length ψ else .ok ψ
    | none => .ok fun i => if i.testBit flag = true ∧ field start length i < ocl greaterPerm then - ψ i else ψ i

end Verif.QU
