import Verif.Spec.Moves
import Verif.Spec.Gate
import Verif.Props.EngineCarry
import Verif.Props.EngineSigned

/-!
# Model of the additions of `QUnit`

A `QUnit` keeps its qubits in separate units for as long as it can. What its additions do with a qubit depends on what the cache of the
qubit says: whether it is known to be `|0⟩` or `|1⟩`, or to be `|+⟩`.

The state here is the state of all qubits together, as a function on the basis states below `2^n`. What the caches say is left open: a
`Cache` is any answer to the questions the code asks, and the answer may change at every step. The theorems ask only that an answer,
when there is one, is true of the state at that time.

A call of a unit has the effect on the joint state that has been proved of the engine (`INC` C08, `CINC` C09, `INCC` C10, controlled
gates C03). Bringing qubits into one unit (`EntangleRange`, `Entangle`), marking caches (`DirtyShardRange`) and flushing buffers
(`ToPermBasisProb`, C52) do not change the joint state.
-/

namespace Verif.QU

open Verif.Spec Verif.Engine

/-- What the caches of the shards answer, at step `k`, when the joint state is `ψ`. -/
structure Cache where
  /-- `CheckBitsPermutation(q)` followed by `SHARD_STATE(shards[q])`, `src/qunit.cpp:898-912, 42`: the value of qubit `q`, if known. -/
  bit : ℕ → (ℕ → ℂ) → ℕ → Option Bool
  /-- `CACHED_PLUS(q)`, `src/qunit.cpp:55-57`. -/
  plus : (ℕ → ℂ) → ℕ → Bool
  /-- What pass `k` of `TrimControls`, `src/qunit.cpp:2546-2641`, finds out about the control: its value, if known. -/
  ctrl : ℕ → (ℕ → ℂ) → ℕ → Option Bool

/-- The state of the loops of `INT`. -/
structure St where
  toMod : ℕ
  start : ℕ
  length : ℕ
  i : ℕ
  carry : Bool
  psi : ℕ → ℂ

/-- `MCInvert(controls, ONE_CMPLX, ONE_CMPLX, target)` on the joint state. -/
noncomputable def mcx (controls : List ℕ) (target : ℕ) (ψ : ℕ → ℂ) : ℕ → ℂ := gate (AllAre true controls) target 0 1 1 0 ψ

/-- `unit->CINC(toAdd, start, length, controls)`, and `unit->INC` when there are no controls, on the joint state (C08, C09). -/
noncomputable def cinc (n toAdd start length : ℕ) (controls : List ℕ) (ψ : ℕ → ℂ) : ℕ → ℂ :=
  moved n (cAddIdx controls start length toAdd) ψ

/-- `unit->INCC(toAdd, start, length, carry)` with the carry qubit clear, on the joint state (C10). -/
noncomputable def incc (n toAdd start length carry : ℕ) (ψ : ℕ → ℂ) : ℕ → ℂ :=
  moved n (fun i => sumIdx start length carry (field start length i + toAdd) i) ψ

/-- The inner loop of `INT`, `src/qunit.cpp:2999-3054`: from the bit after the first `partLength` on, look for a qubit whose value is
known and equal to the bit of the addend there. Returned are the number of qubits up to there, the addend for them, and that bit. -/
def scan (K : Cache) (ψ : ℕ → ℂ) (toMod start orig partLength partMod i : ℕ) : Option (ℕ × ℕ × Bool) :=
  let partLength := partLength + 1
  let i := i + 1
  let bitMask := 1 <<< (partLength - 1)
  let toAdd := decide (toMod &&& bitMask ≠ 0)
  let partMod := partMod ||| (toMod &&& bitMask)
  if K.bit i ψ (start + partLength - 1) = some toAdd then some (partLength, partMod, toAdd)
  else if i < orig then scan K ψ toMod start orig partLength partMod i
  else none
  termination_by orig - i

/-- The outer loop of `INT`, `src/qunit.cpp:2960-3055`. -/
noncomputable def loop (K : Cache) (n orig : ℕ) (controls : List ℕ) (s : St) : St :=
  if s.i < orig then
    let toAdd := decide (s.toMod &&& 1 ≠ 0)
    if toAdd = s.carry then
      loop K n orig controls { s with toMod := s.toMod >>> 1, start := s.start + 1, length := s.length - 1, i := s.i + 1 }
    else
      match K.bit s.i s.psi s.start with
      | some inReg =>
        let total := toAdd.toNat + inReg.toNat + s.carry.toNat
        loop K n orig controls
          { toMod := s.toMod >>> 1, start := s.start + 1, length := s.length - 1, i := s.i + 1, carry := decide (1 < total),
            psi := if inReg.toNat ≠ total &&& 1 then mcx controls s.start s.psi else s.psi }
      | none =>
        let toMod := if s.carry then s.toMod + 1 else s.toMod
        if s.length < 2 then { s with toMod := toMod, carry := false }
        else
          match scan K s.psi toMod s.start orig 1 (toMod &&& 1) (s.i + 1) with
          | some (partLength, partMod, toAdd) =>
            loop K n orig controls
              { toMod := toMod >>> partLength, start := s.start + partLength, length := s.length - partLength,
                i := s.i + (partLength - 1) + 1, carry := toAdd, psi := cinc n partMod s.start partLength controls s.psi }
          | none => { s with toMod := toMod, carry := false, i := orig }
  else s
  termination_by orig - s.i

/-- `QUnit::CheckBitsPlus`, `src/qunit.cpp:937-948`. -/
def checkBitsPlus (K : Cache) (ψ : ℕ → ℂ) (start length : ℕ) : Bool := (List.range length).all fun k => K.plus ψ (start + k)

/-- `QUnit::INT`, `src/qunit.cpp:2918-3096`; the carry is `none` for `hasCarry` false. `none` stands for an exception. -/
noncomputable def int (K : Cache) (n toMod start length : ℕ) (carry : Option ℕ) (controls : List ℕ) (ψ : ℕ → ℂ) :
    Option (ℕ → ℂ) :=
  if Utils.isBadBitRange start length n then none
  else if carry.any (n ≤ ·) then none
  else if controls ≠ [] ∧ Utils.throwIfBad controls n then none
  else
    let toMod := toMod &&& (2 ^ length - 1)
    if toMod = 0 then some ψ
    else if carry = none ∧ checkBitsPlus K ψ start length then some ψ
    else
      let s := loop K n length controls ⟨toMod, start, length, 0, false, ψ⟩
      if s.length = 0 ∧ s.toMod = 0 then
        match carry with
        | some c => some (if s.carry then mcx controls c s.psi else s.psi)
        | none => some s.psi
      else
        match carry with
        | some c => if controls ≠ [] then none else some (incc n s.toMod s.start s.length c s.psi)
        | none => some (cinc n s.toMod s.start s.length controls s.psi)

/-- `QUnit::INC`, `src/qunit.cpp:3098-3101`. -/
noncomputable def inc (K : Cache) (n toMod start length : ℕ) (ψ : ℕ → ℂ) : Option (ℕ → ℂ) := int K n toMod start length none [] ψ

/-- `QUnit::INCC`, `src/qunit.cpp:3104-3112`, after `M(carryIndex)` returned `m`. -/
noncomputable def incC (K : Cache) (n : ℕ) (m : Bool) (toAdd start length carry : ℕ) (ψ : ℕ → ℂ) : Option (ℕ → ℂ) :=
  if m then int K n ((toAdd + 1) % 2 ^ 128) start length (some carry) [] (mcx [] carry ψ)
  else int K n toAdd start length (some carry) [] ψ

/-- `QUnit::DECC`, `src/qunit.cpp:3115-3125`, after `M(carryIndex)` returned `m`. -/
noncomputable def decC (K : Cache) (n : ℕ) (m : Bool) (toSub start length carry : ℕ) (ψ : ℕ → ℂ) : Option (ℕ → ℂ) :=
  let invToSub := Circ.negAddend toSub length
  if m then int K n invToSub start length (some carry) [] (mcx [] carry ψ)
  else int K n ((invToSub + (2 ^ 128 - 1)) % 2 ^ 128) start length (some carry) [] ψ

/-- The last pass of `TrimControls` for controls that must all be set, `src/qunit.cpp:2611-2646`: `none` when the gate does nothing,
else the controls that stay. -/
def trimLast (K : Cache) (ψ : ℕ → ℂ) : List ℕ → Option (List ℕ)
  | [] => some []
  | c :: cs =>
    match K.ctrl 4 ψ c with
    | some false => none
    | some true => trimLast K ψ cs
    | none => (trimLast K ψ cs).map (c :: ·)

/-- `QUnit::TrimControls`, `src/qunit.cpp:2536-2649`, with `perm` all ones: three passes that only look for a control that is known to
be clear, and the last one. -/
def trimControls (K : Cache) (ψ : ℕ → ℂ) (controls : List ℕ) : Option (List ℕ) :=
  if controls = [] then some []
  else if controls.any (fun c => K.ctrl 1 ψ c == some false) then none
  else if controls.any (fun c => K.ctrl 2 ψ c == some false) then none
  else if controls.any (fun c => K.ctrl 3 ψ c == some false) then none
  else trimLast K ψ controls

/-- `QUnit::CINC`, `src/qunit.cpp:2788-2811`. -/
noncomputable def cInc (K : Cache) (n toMod start length : ℕ) (controls : List ℕ) (ψ : ℕ → ℂ) : Option (ℕ → ℂ) :=
  if Utils.isBadBitRange start length n then none
  else if Utils.throwIfBad controls n then none
  else
    match trimControls K ψ controls with
    | none => some ψ
    | some [] => inc K n toMod start length ψ
    | some cs => int K n toMod start length none cs ψ

/-! ## Signed additions -/

/-- `CheckBitsPermutation(start, length)` followed by `GetCachedPermutation(start, length)`, `src/qunit.cpp:898-924`: the value of the
register, if every qubit of it is known. -/
def cached (K : Cache) (ψ : ℕ → ℂ) (start : ℕ) : ℕ → Option ℕ
  | 0 => some 0
  | l + 1 =>
    match cached K ψ start l, K.bit l ψ (start + l) with
    | some v, some b => some (if b then v ||| 2 ^ l else v)
    | _, _ => none

/-- `SetReg(start, length, value)` on the joint state, for a register whose value is known (C77). When the register is the whole of the
`QUnit`, the code calls `SetPermutation`, which also chooses a new global phase; that is left out here. -/
noncomputable def setReg (n start length value : ℕ) (ψ : ℕ → ℂ) : ℕ → ℂ := moved n (setField start length value) ψ

/-- `Z(q)` on the joint state. -/
noncomputable def z (q : ℕ) (ψ : ℕ → ℂ) : ℕ → ℂ := gate (fun _ => True) q 1 0 0 (-1) ψ

/-- The basis state to which an addition carries `i`: with or without a carry qubit. -/
def addTo (carry : Option ℕ) (start length toAdd i : ℕ) : ℕ :=
  match carry with
  | none => setField start length (field start length i + toAdd) i
  | some c => sumIdx start length c (field start length i + toAdd) i

/-- `unit->INCS(toAdd, start, length, overflow)` or `unit->INCSC(toAdd, start, length, overflow, carry)` with the carry qubit clear, on
the joint state (C11). -/
noncomputable def incsUnit (n toAdd start length overflow : ℕ) (carry : Option ℕ) (ψ : ℕ → ℂ) : ℕ → ℂ :=
  moved n (addTo carry start length toAdd) fun i =>
    if Overflows length (field start length i) toAdd ∧ i.testBit overflow = true then - ψ i else ψ i

/-- `QUnit::INTSCOptimize`, `src/qunit.cpp:2871-2916`, and `INTSOptimize`, `:2859-2862`, with `isAdd`. `M(carryIndex)` returns false,
because the callers have cleared the carry qubit. -/
noncomputable def intscOptimize (K : Cache) (n toMod start length overflow : ℕ) (carry : Option ℕ) (ψ : ℕ → ℂ) : Option (ℕ → ℂ) :=
  match cached K ψ start length with
  | none => none
  | some inOutInt =>
    let isOverflow := Utils.isOverflowAdd inOutInt (ocl toMod) (2 ^ (length - 1)) (2 ^ length)
    let outInt := inOutInt + toMod
    let carryOut := decide (2 ^ length ≤ outInt)
    let outInt := if carryOut then outInt &&& (2 ^ length - 1) else outInt
    let ψ := carry.elim ψ fun c => if carryOut then mcx [] c ψ else ψ
    let ψ := setReg n start length outInt ψ
    some (if isOverflow then z overflow ψ else ψ)

/-- `QUnit::INTS`, `src/qunit.cpp:3127-3179`; `INCS` and `INCDECSC`, `:3181-3190`, call it. -/
noncomputable def ints (K : Cache) (n toMod start length overflow : ℕ) (carry : Option ℕ) (ψ : ℕ → ℂ) : Option (ℕ → ℂ) :=
  if Utils.isBadBitRange start length n then none
  else if n ≤ overflow then none
  else if carry.any (n ≤ ·) then none
  else
    let toMod := toMod &&& (2 ^ length - 1)
    if toMod = 0 then some ψ
    else if K.bit 0 ψ overflow = some false then int K n toMod start length carry [] ψ
    else
      let addendNeg := decide (toMod &&& 2 ^ (length - 1) ≠ 0)
      if K.bit 1 ψ (start + length - 1) = some (!addendNeg) then int K n toMod start length carry [] ψ
      else
        match intscOptimize K n toMod start length overflow carry ψ with
        | some φ => some φ
        | none => some (incsUnit n toMod start length overflow carry ψ)

end Verif.QU
