import Verif.Model.UnitEntangle
import Verif.Model.SortUnit
import Verif.Spec.Pull
import Mathlib.Logic.Equiv.Basic

/-!
# Model of how `QUnit` brings ranges of qubits into one unit, in order

The arithmetic of the engine wants the qubits of a register side by side and in order. `QUnit::EntangleRange` joins the units of the
ranges and sorts the places of the joined unit (`OrderContiguous`, `SortUnit`), by exchanges in the unit; then the operation is given to
the unit with the place of the first qubit of each range. The quicksort is `Verif.Units.sortUnit`. What the unit does with the operation is
`pull` of `Verif/Spec/Pull.lean` on the places; which one is the matter of the theorems about the engine (C08 to C16).
-/

namespace Verif.QUE

open Verif.Spec Verif.Units

/-- An exchange made by `SortUnit`, `src/qunit.cpp:862-863` and `:878-879`, for entries that are the qubits `i` and `j`. -/
noncomputable def Reg.sortSwap (R : Reg) (u i j : ℕ) : Reg :=
  { R with
    pos := R.pos ∘ Equiv.swap i j
    amp := Function.update R.amp u (exchange (fun _ => True) (R.pos i) (R.pos j) 0 1 (R.amp u)) }

/-- The exchanges of `SortUnit`, `src/qunit.cpp:856-894`, in order; `bits` are the qubits of the unit. -/
noncomputable def sortExchanges (u : ℕ) (bits : List ℕ) : List (ℕ × ℕ) → Reg → Option Reg
  | [], R => some R
  | p :: l, R =>
    match bits[p.1]?, bits[p.2]? with
    | some i, some j => sortExchanges u bits l (R.sortSwap u i j)
    | _, _ => none

/-- The qubits of a unit, `src/qunit.cpp:844-851`. -/
def Reg.bitsIn (R : Reg) (u : ℕ) : List ℕ := (List.range R.n).filter fun i => R.unit i = u

/-- `QUnit::OrderContiguous`, `src/qunit.cpp:831-854`. A unit whose size is not the number of its shards is `none`. -/
noncomputable def Reg.order (R : Reg) (u : ℕ) : Option Reg :=
  if R.size u = 1 then some R
  else
    let bits := R.bitsIn u
    if bits.length = R.size u then
      (sortUnit bits.length bits.length (fun k => (bits[k]?.map R.pos).getD 0) 0 (bits.length - 1)).bind fun s =>
        sortExchanges u bits s.2 R
    else none

/-- `EntangleInCurrentBasis` and `OrderContiguous` for the qubits of some ranges, `src/qunit.cpp:552-561`, `:577-589`, `:616-634`: the
register and the unit. -/
noncomputable def Reg.entangleIn (R : Reg) (rs : List (ℕ × ℕ)) : Option (Reg × ℕ) :=
  let e := R.entangle (rs.flatMap fun r => List.range' r.1 r.2)
  (e.1.order e.2.1).map fun R' => (R', e.2.1)

/-- `QUnit::EntangleRange(start, length)`, `src/qunit.cpp:539-562`. -/
noncomputable def Reg.entangleRange (R : Reg) (start length : ℕ) : Option (Reg × ℕ) :=
  if length = 1 then some (R, R.unit start) else R.entangleIn [(start, length)]

/-- `if (start2 < start1) { std::swap(start1, start2); std::swap(length1, length2); }`, `src/qunit.cpp:572-575`. -/
def upTwo (a b : ℕ × ℕ) : (ℕ × ℕ) × (ℕ × ℕ) := if b.1 < a.1 then (b, a) else (a, b)

/-- `QUnit::EntangleRange` of two ranges, `src/qunit.cpp:564-590`. -/
noncomputable def Reg.entangleRange2 (R : Reg) (a b : ℕ × ℕ) : Option (Reg × ℕ) :=
  let s := upTwo a b
  R.entangleIn [s.1, s.2]

/-- `QUnit::EntangleRange` of three ranges, `src/qunit.cpp:592-635`. -/
noncomputable def Reg.entangleRange3 (R : Reg) (a b c : ℕ × ℕ) : Option (Reg × ℕ) :=
  let s := upTwo a b
  let t := upTwo s.1 c
  let w := upTwo s.2 t.2
  R.entangleIn [t.1, w.1, w.2]

/-- The ranges with the places of their first qubits, as in `shards[start].mapped`, `src/qunit.cpp:3093`. -/
def Reg.placed (R : Reg) (rs : List (ℕ × ℕ)) : List (ℕ × ℕ) := rs.map fun r => (R.pos r.1, r.2)

/-- An operation on one range without controls, as in `src/qunit.cpp:3081-3094` (`INC`), `:3654` (`Hash`) and `:3673-3674`
(`PhaseFlipIfLess`). -/
noncomputable def Reg.onRange (R : Reg) (start length : ℕ) (g : List ℕ → List ℕ) (w : List ℕ → ℂ) : Option Reg :=
  (R.entangleRange start length).map fun e => e.1.act (e.1.unit start) (pull (fun _ => True) (e.1.placed [(start, length)]) g w)

/-- A controlled addition to one range, `src/qunit.cpp:3031-3041` and `:3081-3091` in `QUnit::INT`. `allBits` are the qubits that are joined
with the first qubit of the range; `Entangle(ebits)` writes their places over them, and they are returned so. -/
noncomputable def Reg.cincPart (R : Reg) (controls allBits : List ℕ) (start length toAdd : ℕ) : Option (Reg × List ℕ) :=
  (R.entangleRange start length).map fun e =>
    let s := e.1.entangle (allBits ++ [start])
    (s.1.act s.2.1 (pull (AllAre true (controls.map s.1.pos)) (s.1.placed [(start, length)]) (before length toAdd) fun _ => 1), s.2.2.dropLast)

/-- The controlled additions that `QUnit::INT`, `src/qunit.cpp:2918-3096`, makes one after the other for the parts `(start, length, toAdd)` of
the register; `allBits` are the sorted controls at first, `:2945-2954`. -/
noncomputable def Reg.cincParts (controls : List ℕ) : List ℕ → List (ℕ × ℕ × ℕ) → Reg → Option Reg
  | _, [], R => some R
  | allBits, p :: l, R => (R.cincPart controls allBits p.1 p.2.1 p.2.2).bind fun s => Reg.cincParts controls s.2 l s.1

/-- An operation on a range and a carry, as in `src/qunit.cpp:3074-3078` (`INCC`), and `:2823-2828` (`INCx`). -/
noncomputable def Reg.onRangeCarry (R : Reg) (start length carry : ℕ) (g : List ℕ → List ℕ) (w : List ℕ → ℂ) : Option Reg :=
  (R.entangleRange start length).map fun e =>
    let s := e.1.entangleCopy [start, carry]
    s.1.act s.2 (pull (fun _ => True) (s.1.placed [(start, length), (carry, 1)]) g w)

/-- `QUnit::CMULEntangle` and an operation of the unit, `src/qunit.cpp:3328-3386` (`CMUL`, `CDIV`, `CMULModNOut`, `CIMULModNOut`,
`CPOWModNOut`). -/
noncomputable def Reg.onRangesCtrl (R : Reg) (controls : List ℕ) (a b : ℕ × ℕ) (g : List ℕ → List ℕ) (w : List ℕ → ℂ) : Option Reg :=
  (R.entangleRange a.1 a.2).bind fun e =>
    (e.1.entangleRange b.1 b.2).map fun e =>
      let s := e.1.entangle ((controls ++ [a.1, b.1]).mergeSort (· ≤ ·))
      s.1.act s.2.1 (pull (AllAre true (controls.map s.1.pos)) (s.1.placed [a, b]) g w)

/-- An operation on two ranges, as in `src/qunit.cpp:3257-3258` (`MUL`), `:3293-3294` (`DIV`), `:3322-3323` and `:3523-3524`
(`IndexedLDA`). -/
noncomputable def Reg.onRanges2 (R : Reg) (a b : ℕ × ℕ) (g : List ℕ → List ℕ) (w : List ℕ → ℂ) : Option Reg :=
  (R.entangleRange2 a b).map fun e => e.1.act (e.1.unit a.1) (pull (fun _ => True) (e.1.placed [a, b]) g w)

/-- An operation on three ranges, as in `src/qunit.cpp:3573-3576` (`IndexedADC`) and `:3624-3627` (`IndexedSBC`). -/
noncomputable def Reg.onRanges3 (R : Reg) (a b c : ℕ × ℕ) (g : List ℕ → List ℕ) (w : List ℕ → ℂ) : Option Reg :=
  (R.entangleRange3 a b c).map fun e => e.1.act (e.1.unit a.1) (pull (fun _ => True) (e.1.placed [a, b, c]) g w)

end Verif.QUE
