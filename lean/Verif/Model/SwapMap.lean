import Mathlib.Data.List.Perm.Basic
import Mathlib.Data.List.Range
import Mathlib.Data.List.Nodup

/-!
# `QubitSwapMap`

`include/qubitswapmap.hpp`. `bitCapInt` has 128 bits (the default `QBCAPPOW` of 7): a shift by 128 or more, and an index outside
the vector, are undefined behaviour and yield `none`.
-/

namespace Verif.SwapMap

/-- The constructor, `include/qubitswapmap.hpp:27-33`. -/
def init (n : ℕ) : List ℕ := List.range n

/-- `swap`, `include/qubitswapmap.hpp:41`. -/
def swap (m : List ℕ) (a b : ℕ) : Option (List ℕ) :=
  match m[a]?, m[b]? with
  | some x, some y => some ((m.set a y).set b x)
  | _, _ => none

/-- `map`, `include/qubitswapmap.hpp:43-52`: one pass of the loop per position. -/
def map (m : List ℕ) (perm : ℕ) : Option ℕ :=
  (List.range m.length).foldlM (fun acc i =>
    if 128 ≤ i then none
    else if perm >>> i &&& 1 ≠ 0 then
      if 128 ≤ m[i]! then none else some (acc ||| 1 <<< m[i]!)
    else some acc) 0

/-- `inverseMap`, `include/qubitswapmap.hpp:54-63`. -/
def inverseMap (m : List ℕ) (perm : ℕ) : Option ℕ :=
  (List.range m.length).foldlM (fun acc i =>
    if 128 ≤ m[i]! then none
    else if perm >>> m[i]! &&& 1 ≠ 0 then
      if 128 ≤ i then none else some (acc ||| 1 <<< i)
    else some acc) 0

/-- A history of calls of `swap`. -/
def swaps (m : List ℕ) : List (ℕ × ℕ) → Option (List ℕ)
  | [] => some m
  | (a, b) :: l => (swap m a b).bind fun m' => swaps m' l

end Verif.SwapMap
