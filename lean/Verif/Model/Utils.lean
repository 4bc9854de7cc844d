import Mathlib.Data.Nat.Bitwise
import Mathlib.Data.Nat.Log

/-!
# Model of the integer utilities

`include/common/qrack_functions.hpp` and `src/common/functions.cpp`. Words are naturals below `2^w`;
`w = 64` for `bitCapIntOcl` and `w = 128` for `bitCapInt` in the default build. `none` is undefined
behaviour or a thrown exception, as said at each definition.
-/

namespace Verif.Utils

/-- The loop of `log2Ocl`, `include/common/qrack_functions.hpp:105-112` (no intrinsics):
`while (p) { p >>= 1U; ++pow; }`. -/
def log2Loop (p pow : ℕ) : ℕ :=
  if h : p = 0 then pow else log2Loop (p >>> 1) (pow + 1)
  termination_by p
  decreasing_by simp only [Nat.shiftRight_eq_div_pow]; omega

/-- `log2Ocl`, `include/common/qrack_functions.hpp:105-112`. -/
def log2Ocl (n : ℕ) : ℕ := log2Loop (n >>> 1) 0

/-- `__builtin_clzll`: undefined at `0`; else the number of leading zeros of a 64-bit word. -/
def clzll (n : ℕ) : Option ℕ := if n = 0 then none else some (64 - (Nat.size n))

/-- `log2Ocl` with intrinsics, `include/common/qrack_functions.hpp:99-104`. -/
def log2OclIntrinsic (n : ℕ) : Option ℕ := (clzll n).map fun z => 8 * 8 - z - 1

/-- `bi_log2` and `log2`, `include/common/qrack_functions.hpp:131-134`: the 128-bit argument is
converted to `bitCapIntOcl` (64 bits). -/
def log2 (n : ℕ) : ℕ := log2Ocl (n % 2 ^ 64)

/-- The loop of `popCountOcl`, `include/common/qrack_functions.hpp:123-127`:
`for (popCount = 0U; n; ++popCount) n &= n - 1U`. -/
def popLoop (n acc : ℕ) : ℕ :=
  if h : n = 0 then acc else popLoop (n &&& (n - 1)) (acc + 1)
  termination_by n
  decreasing_by
    have : n &&& (n - 1) ≤ n - 1 := Nat.and_le_right
    omega

/-- `pow2`, `pow2Ocl`, `include/common/qrack_functions.hpp:136-137`: shifting by the word size or more
is undefined (`none`). -/
def pow2 (w p : ℕ) : Option ℕ := if p < w then some (1 <<< p) else none

/-- `pow2Mask`, `pow2MaskOcl`, `include/common/qrack_functions.hpp:138-144`. -/
def pow2Mask (w p : ℕ) : Option ℕ := (pow2 w p).map (· - 1)

/-- `bitRegMask`, `bitRegMaskOcl`, `include/common/qrack_functions.hpp:150-160`. -/
def bitRegMask (w start length : ℕ) : Option ℕ :=
  (pow2Mask w length).bind fun m => if start < w then some ((m <<< start) % 2 ^ w) else none

/-- `isPowerOfTwo`, `isPowerOfTwoOcl`, `include/common/qrack_functions.hpp:162-169`. The decrement
wraps at `0`. -/
def isPowerOfTwo (w x : ℕ) : Bool :=
  let y := ((x + 2 ^ w - 1) % 2 ^ w) &&& x
  x != 0 && y == 0

/-- `isBadBitRange`, `include/common/qrack_functions.hpp:170-173`; `bitLenInt` is 8 bits and the sum is
computed in `int`, then truncated. -/
def isBadBitRange (start length qubitCount : ℕ) : Bool :=
  decide (start + length > qubitCount) || decide ((start + length) % 2 ^ 8 < start)

/-- `ThrowIfQbIdArrayIsBad`, `include/common/qrack_functions.hpp:178-195`: the loop, with the set of ids
already seen. `true` means that it throws. -/
def throwIfBadAux (qubitCount : ℕ) : List ℕ → List ℕ → Bool
  | _, [] => false
  | dupes, c :: cs =>
    if c ≥ qubitCount then true
    else if c ∈ dupes then true
    else throwIfBadAux qubitCount (c :: dupes) cs

/-- `ThrowIfQbIdArrayIsBad`, `include/common/qrack_functions.hpp:178-195`. -/
def throwIfBad (controls : List ℕ) (qubitCount : ℕ) : Bool := throwIfBadAux qubitCount [] controls

/-- `intPow`, `intPowOcl`, `src/common/functions.cpp:58-94`. -/
def intPow (w base power : ℕ) : ℕ :=
  if power = 0 then 1
  else if h : power = 1 then base
  else
    let tmp := intPow w base (power >>> 1)
    let tmp := tmp * tmp % 2 ^ w
    if power &&& 1 ≠ 0 then tmp * base % 2 ^ w else tmp
  termination_by power
  decreasing_by simp only [Nat.shiftRight_eq_div_pow]; omega

/-- The loop of `pushApartBits`, `src/common/functions.cpp:266-273`; `i` is the part already placed and
`iHigh` the part still to be shifted (in a word of `w` bits). -/
def pushApartAux (w : ℕ) : List ℕ → ℕ → ℕ → ℕ
  | [], i, iHigh => i ||| iHigh
  | p :: ps, i, iHigh =>
    let iLow := iHigh &&& (p - 1)
    pushApartAux w ps (i ||| iLow) (((iHigh ^^^ iLow) <<< 1) % 2 ^ w)

/-- `pushApartBits`, `src/common/functions.cpp:260-276`. The same loop is inlined in
`QEngineCPU::UniformlyControlledSingleBit`, `src/qengine/state.cpp:800-807, 832-839`. -/
def pushApart (w : ℕ) (perm : ℕ) (skipPowers : List ℕ) : ℕ :=
  if skipPowers = [] then perm else pushApartAux w skipPowers 0 perm

/-- `~x` on a `w`-bit word. -/
def bnot (w x : ℕ) : ℕ := (2 ^ w - 1) ^^^ x

/-- `isOverflowAdd`, `src/common/functions.cpp:214-233`. -/
def isOverflowAdd (a b signMask lengthPower : ℕ) : Bool :=
  if a &&& b &&& signMask ≠ 0 then
    let a := (bnot 64 a &&& (lengthPower - 1)) + 1
    let b := (bnot 64 b &&& (lengthPower - 1)) + 1
    decide ((a + b) % 2 ^ 64 > signMask)
  else if bnot 64 a &&& bnot 64 b &&& signMask ≠ 0 then
    decide ((a + b) % 2 ^ 64 ≥ signMask)
  else false

/-- `isOverflowSub`, `src/common/functions.cpp:236-258`. -/
def isOverflowSub (a b signMask lengthPower : ℕ) : Bool :=
  if a &&& bnot 64 b &&& signMask ≠ 0 then
    let a := (bnot 64 a &&& (lengthPower - 1)) + 1
    decide ((a + b) % 2 ^ 64 > signMask)
  else if bnot 64 a &&& b &&& signMask ≠ 0 then
    let b := (bnot 64 b &&& (lengthPower - 1)) + 1
    decide ((a + b) % 2 ^ 64 ≥ signMask)
  else false

/-- `operator<<` on a `bitCapInt`, `src/common/functions.cpp:279-309`: the digit loop, with a bound on
the number of iterations; `none` when the loop is still running after `fuel` iterations. The loop
tests the argument `b`, not the running quotient `_b`. -/
def printLoop (b : ℕ) : ℕ → ℕ → List ℕ → Option (List ℕ)
  | 0, _, _ => none
  | fuel + 1, b', digits =>
    if b = 0 then some digits else printLoop b fuel (b' / 10) (digits ++ [b' % 10])

/-- `operator<<` on a `bitCapInt`, `src/common/functions.cpp:279-309`, as digits from the highest. -/
def print (fuel b : ℕ) : Option (List ℕ) :=
  if b = 0 then some [0] else (printLoop b fuel b []).map List.reverse

/-- `operator>>` on a `bitCapInt`, `src/common/functions.cpp:311-326`, on a string of decimal digits. -/
def parse (w : ℕ) (digits : List ℕ) : ℕ :=
  digits.foldl (fun b d => ((b * 10) % 2 ^ w + d) % 2 ^ w) 0

end Verif.Utils
