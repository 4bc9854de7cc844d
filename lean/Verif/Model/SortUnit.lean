import Mathlib.Data.Nat.Basic
import Mathlib.Data.Option.Basic
import Mathlib.Data.List.Basic

/-!
# Sorting the qubits of a unit

`QUnitClifford::SortUnit`, `src/qunitclifford.cpp:360-398`, and `QUnit::SortUnit`, `src/qunit.cpp:857-894`, which has the same text: a
quicksort of the entries `bits[low .. high]` by `mapped`. `v k` is `bits[k].mapped`; the other member of an entry never moves. Besides the
sorted array the functions return the exchanges in the order in which they are made; each is also an exchange in the unit and in the
shards. Reading outside the array of `len` entries, or counting below zero, is `none`; so is a loop that does not end (the argument
`fuel`).
-/

namespace Verif.Units

/-- `std::swap(bits[i].mapped, bits[j].mapped)`, `src/qunitclifford.cpp:367` and `:384`. -/
def exch (v : ℕ → ℕ) (i j : ℕ) : ℕ → ℕ := fun k => if k = i then v j else if k = j then v i else v k

/-- `while (bits[i] < pivot) { ++i; }`, `src/qunitclifford.cpp:375-377`. -/
def scanUp (v : ℕ → ℕ) (len pivot : ℕ) : ℕ → ℕ → Option ℕ
  | 0, _ => none
  | fuel + 1, i => if i < len then (if v i < pivot then scanUp v len pivot fuel (i + 1) else some i) else none

/-- `while (bits[j] > pivot) { --j; }`, `src/qunitclifford.cpp:378-380`. -/
def scanDown (v : ℕ → ℕ) (len pivot : ℕ) : ℕ → Option ℕ
  | 0 => if 0 < len then (if pivot < v 0 then none else some 0) else none
  | j + 1 => if j + 1 < len then (if pivot < v (j + 1) then scanDown v len pivot j else some (j + 1)) else none

/-- The loop `while (i <= j)`, `src/qunitclifford.cpp:374-391`: the array, the exchanges, and the final `i` and `j`. -/
def partLoop (len pivot : ℕ) : ℕ → (ℕ → ℕ) → List (ℕ × ℕ) → ℕ → ℕ → Option ((ℕ → ℕ) × List (ℕ × ℕ) × ℕ × ℕ)
  | 0, _, _, _, _ => none
  | fuel + 1, v, sw, i, j =>
    if i ≤ j then
      (scanUp v len pivot (len + 1) i).bind fun i =>
        (scanDown v len pivot j).bind fun j =>
          if i < j then partLoop len pivot fuel (exch v i j) (sw ++ [(i, j)]) (i + 1) (j - 1)
          else if i = j then (if j = 0 then none else partLoop len pivot fuel v sw (i + 1) (j - 1))
          else some (v, sw, i, j)
    else some (v, sw, i, j)

/-- `SortUnit(unit, bits, low, high)`, `src/qunitclifford.cpp:360-398`. -/
def sortUnit (len : ℕ) : ℕ → (ℕ → ℕ) → ℕ → ℕ → Option ((ℕ → ℕ) × List (ℕ × ℕ))
  | 0, _, _, _ => none
  | fuel + 1, v, low, high =>
    if low + 1 = high then (if v high < v low then some (exch v low high, [(low, high)]) else some (v, []))
    else
      (partLoop len (v ((low + high) / 2)) (high + 3) v [] low high).bind fun s =>
        (if low < s.2.2.2 then sortUnit len fuel s.1 low s.2.2.2 else some (s.1, [])).bind fun a =>
          (if s.2.2.1 < high then sortUnit len fuel a.1 s.2.2.1 high else some (a.1, [])).map fun b =>
            (b.1, s.2.1 ++ a.2 ++ b.2)

end Verif.Units
