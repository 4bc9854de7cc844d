import Mathlib.Algebra.BigOperators.Group.Finset.Basic
import Mathlib.Logic.Function.Basic
import Mathlib.Data.Nat.Log
import Mathlib.Tactic.Common

/-!
Model of `include/common/big_integer.hpp` and `src/common/big_integer.cpp`.

A `BigInteger` is an array of `N = BIG_INTEGER_WORD_SIZE` words of `wb = BIG_INTEGER_WORD_BITS` bits
(lines 43-57 and 62-68 of the header: 128-bit words when `__int128` exists, else 64-bit; `N` is
`2^QBCAPPOW / wb`). Both are parameters. The array is a function from word index to word value; only
indices below `N` are meaningful. Word arithmetic is modulo `B = 2^wb`.

Each definition transcribes the loop of the cited function; in-place updates are `Function.update`.
-/

namespace Verif.BigInt

open Function (update)

/-- The word array `bits[]` of `big_integer.hpp:68`. -/
abbrev Limbs := ℕ → ℕ

/-! ### Comparison -/

/-- `big_integer.hpp:120-133`: scan from the highest word; `1`, `-1` or `0`. `compareAux n` looks at
words `n-1, ..., 0`. -/
def compareAux (L R : Limbs) : ℕ → Int
  | 0 => 0
  | i + 1 => if L i > R i then 1 else if L i < R i then -1 else compareAux L R i

/-- `big_integer.hpp:120-133`, `bi_compare`. -/
def biCompare (N : ℕ) (L R : Limbs) : Int := compareAux L R N

/-- `big_integer.hpp:135-144`, `bi_compare_0`. -/
def biCompare0 (N : ℕ) (L : Limbs) : Int := if (List.range N).any (fun i => L i != 0) then 1 else 0

/-- `big_integer.hpp:146-163`, `bi_compare_1`. -/
def biCompare1 (N : ℕ) (L : Limbs) : Int :=
  if (List.range' 1 (N - 1)).any (fun i => L i != 0) then 1
  else if L 0 > 1 then 1 else if L 0 < 1 then -1 else 0

/-! ### Addition and subtraction -/

/-- Loop of `operator+`, `big_integer.hpp:169-172`, iterations `0 .. n-1`; the result array starts
with word 0 equal to 0 (line 168); words not yet written are indeterminate in C++ and never read. -/
def opAddLoop (B : ℕ) (L R : Limbs) : ℕ → Limbs
  | 0 => fun _ => 0
  | i + 1 =>
    let S := opAddLoop B L R i
    let S1 := update S i ((S i + (L i + R i) % B) % B)
    update S1 (i + 1) (if S1 i < L i then 1 else 0)

/-- `big_integer.hpp:165-175`, `operator+`. -/
def opAdd (B N : ℕ) (L R : Limbs) : Limbs :=
  let S := opAddLoop B L R (N - 1)
  update S (N - 1) ((S (N - 1) + R (N - 1)) % B)

/-- Inner carry loop `big_integer.hpp:183-185` (also `big_integer.cpp:84-86`):
`while ((j < MAX) && (bits[j] < temp)) { temp = bits[++j]++; }`. -/
def addRipple (B max : ℕ) (S : Limbs) (j temp : ℕ) : Limbs :=
  if j < max ∧ S j < temp then
    addRipple B max (update S (j + 1) ((S (j + 1) + 1) % B)) (j + 1) (S (j + 1))
  else S
termination_by max - j

/-- One iteration of the loop `big_integer.hpp:179-186`. -/
def addWordAt (B max : ℕ) (R : Limbs) (S : Limbs) (i : ℕ) : Limbs :=
  addRipple B max (update S i ((S i + R i) % B)) i (S i)

/-- `big_integer.hpp:177-188`, `bi_add_ip`. -/
def biAddIp (B N : ℕ) (L R : Limbs) : Limbs :=
  let S := (List.range (N - 1)).foldl (addWordAt B (N - 1) R) L
  update S (N - 1) ((S (N - 1) + R (N - 1)) % B)

/-- Loop of `operator-`, `big_integer.hpp:194-197`. The word `-1` is `B - 1`. -/
def opSubLoop (B : ℕ) (L R : Limbs) : ℕ → Limbs
  | 0 => fun _ => 0
  | i + 1 =>
    let S := opSubLoop B L R i
    let S1 := update S i ((S i + (L i + B - R i) % B) % B)
    update S1 (i + 1) (if S1 i > L i then B - 1 else 0)

/-- `big_integer.hpp:190-200`, `operator-`. -/
def opSub (B N : ℕ) (L R : Limbs) : Limbs :=
  let S := opSubLoop B L R (N - 1)
  update S (N - 1) ((S (N - 1) + B - R (N - 1)) % B)

/-- Inner borrow loop `big_integer.hpp:208-210`. -/
def subRipple (B max : ℕ) (S : Limbs) (j temp : ℕ) : Limbs :=
  if j < max ∧ S j > temp then
    subRipple B max (update S (j + 1) ((S (j + 1) + B - 1) % B)) (j + 1) (S (j + 1))
  else S
termination_by max - j

/-- One iteration of the loop `big_integer.hpp:204-211`. -/
def subWordAt (B max : ℕ) (R : Limbs) (S : Limbs) (i : ℕ) : Limbs :=
  subRipple B max (update S i ((S i + B - R i) % B)) i (S i)

/-- `big_integer.hpp:202-213`, `bi_sub_ip`. -/
def biSubIp (B N : ℕ) (L R : Limbs) : Limbs :=
  let S := (List.range (N - 1)).foldl (subWordAt B (N - 1) R) L
  update S (N - 1) ((S (N - 1) + B - R (N - 1)) % B)

/-- Loop of `bi_increment`, `big_integer.hpp:224-229`, from word `i`. -/
def incLoop (B N : ℕ) (S : Limbs) (i : ℕ) : Limbs :=
  if i < N then
    let S1 := update S i ((S i + 1) % B)
    if S i ≤ S1 i then S1 else incLoop B N S1 (i + 1)
  else S
termination_by N - i

/-- `big_integer.hpp:215-230`, `bi_increment`. -/
def biIncrement (B N : ℕ) (L : Limbs) (value : ℕ) : Limbs :=
  let S := update L 0 ((L 0 + value) % B)
  if L 0 ≤ S 0 then S else incLoop B N S 1

/-- Loop of `bi_decrement`, `big_integer.hpp:241-246`, from word `i`. -/
def decLoop (B N : ℕ) (S : Limbs) (i : ℕ) : Limbs :=
  if i < N then
    let S1 := update S i ((S i + B - 1) % B)
    if S i ≥ S1 i then S1 else decLoop B N S1 (i + 1)
  else S
termination_by N - i

/-- `big_integer.hpp:232-247`, `bi_decrement`. The loop starts at word 0, as in the source. -/
def biDecrement (B N : ℕ) (L : Limbs) (value : ℕ) : Limbs :=
  let S := update L 0 ((L 0 + B - value) % B)
  if L 0 ≥ S 0 then S else decLoop B N S 0

/-! ### Shifts -/

/-- `big_integer.hpp:259-271`, `bi_lshift_word`. -/
def biLshiftWord (N : ℕ) (L : Limbs) (r : ℕ) : Limbs :=
  if r = 0 then L else fun i => if i < N ∧ r ≤ i then L (i - r) else 0

/-- `big_integer.hpp:289-301`, `bi_rshift_word`. -/
def biRshiftWord (N : ℕ) (L : Limbs) (r : ℕ) : Limbs :=
  if r = 0 then L else fun i => if i + r < N then L (i + r) else 0

/-- `big_integer.hpp:281-283`: the ascending copy loop of `bi_lshift_word_ip`, performed in place. -/
def lshiftCopy (r : ℕ) (S : Limbs) (i : ℕ) : Limbs := update S i (S (i - r))

/-- `big_integer.hpp:273-287`, `bi_lshift_word_ip`. `none`: the clearing loop of lines 284-286
writes past the array. -/
def biLshiftWordIp (N : ℕ) (L : Limbs) (rightMult : ℕ) : Option Limbs :=
  let r := rightMult % 64
  if r = 0 then some L
  else if N < r then none
  else
    let S := (List.range' r (N - r)).foldl (lshiftCopy r) L
    some (fun i => if i < r then 0 else S i)

/-- `big_integer.hpp:303-315`, `bi_rshift_word_ip`. `none`: the clearing loop of lines 312-314
writes before the array. -/
def biRshiftWordIp (N : ℕ) (L : Limbs) (r : ℕ) : Option Limbs :=
  if r = 0 then some L
  else if N < r then none
  else
    let S := (List.range' r (N - r)).foldl (fun S i => update S (i - r) (S i)) L
    some (fun i => if N - r ≤ i ∧ i < N then 0 else S i)

/-- Carry loop of the left shifts, `big_integer.hpp:328-334` and `351-356`: iterations `0..n-1`,
returns array and carry. -/
def lshiftBits (wb rMod : ℕ) (L : Limbs) : ℕ → Limbs × ℕ
  | 0 => (L, 0)
  | i + 1 =>
    let (S, carry) := lshiftBits wb rMod L i
    (update S i (carry ||| ((S i <<< rMod) % 2 ^ wb)), S i >>> (wb - rMod))

/-- `big_integer.hpp:317-337`, `operator<<`. -/
def opShl (wb N : ℕ) (L : Limbs) (right : ℕ) : Limbs :=
  let S := biLshiftWord N L (right / wb)
  let rMod := right % wb
  if rMod = 0 then S else (lshiftBits wb rMod S N).1

/-- `big_integer.hpp:339-357`, `bi_lshift_ip`. -/
def biLshiftIp (wb N : ℕ) (L : Limbs) (right : ℕ) : Option Limbs := do
  let S ← biLshiftWordIp N L (right / wb)
  let rMod := right % wb
  if rMod = 0 then pure S else pure (lshiftBits wb rMod S N).1

/-- Carry loop of the right shifts, `big_integer.hpp:371-376` and `393-398`: descending; the
argument is the number of words done from the top. -/
def rshiftBits (wb N rMod : ℕ) (L : Limbs) : ℕ → Limbs × ℕ
  | 0 => (L, 0)
  | k + 1 =>
    let (S, carry) := rshiftBits wb N rMod L k
    let i := N - 1 - k
    (update S i (carry ||| (S i >>> rMod)), (S i <<< (wb - rMod)) % 2 ^ wb)

/-- `big_integer.hpp:359-379`, `operator>>`. -/
def opShr (wb N : ℕ) (L : Limbs) (right : ℕ) : Limbs :=
  let S := biRshiftWord N L (right / wb)
  let rMod := right % wb
  if rMod = 0 then S else (rshiftBits wb N rMod S N).1

/-- `big_integer.hpp:381-399`, `bi_rshift_ip`. -/
def biRshiftIp (wb N : ℕ) (L : Limbs) (right : ℕ) : Option Limbs := do
  let S ← biRshiftWordIp N L (right / wb)
  let rMod := right % wb
  if rMod = 0 then pure S else pure (rshiftBits wb N rMod S N).1

/-- Loop of `bi_log2`, `big_integer.hpp:405-408`, with a fuel bound (`none` when exhausted or when
the shift leaves the array). -/
def log2Loop (wb N : ℕ) : ℕ → Limbs → ℕ → Option ℕ
  | 0, _, _ => none
  | fuel + 1, p, pw =>
    if biCompare0 N p = 0 then some pw
    else do
      let p' ← biRshiftIp wb N p 1
      log2Loop wb N fuel p' (pw + 1)

/-- `big_integer.hpp:401-410`, `bi_log2`; `wb * N + 1` iterations always suffice (proved). -/
def biLog2 (wb N : ℕ) (L : Limbs) : Option ℕ := log2Loop wb N (wb * N + 1) (opShr wb N L 1) 0

/-! ### Bitwise operations -/

/-- `big_integer.hpp:414-428`, `operator&`, `bi_and_ip`. -/
def biAnd (L R : Limbs) : Limbs := fun i => L i &&& R i
/-- `big_integer.hpp:430-444`, `operator|`, `bi_or_ip`. -/
def biOr (L R : Limbs) : Limbs := fun i => L i ||| R i
/-- `big_integer.hpp:446-460`, `operator^`, `bi_xor_ip`. -/
def biXor (L R : Limbs) : Limbs := fun i => L i ^^^ R i
/-- `big_integer.hpp:462-476`, `operator~`, `bi_not_ip`. -/
def biNot (B : ℕ) (L : Limbs) : Limbs := fun i => B - 1 - L i

/-! ### Multiplication -/

/-- Loop of `operator*(BigInteger, half word)`, `big_integer.cpp:43-55`: iterations `0..n-1` over
half words; `hb` is the number of bits of a half word. Returns array and carry. -/
def mulHalfLoop (hb : ℕ) (L : Limbs) (right : ℕ) : ℕ → Limbs × ℕ
  | 0 => (fun _ => 0, 0)
  | i + 1 =>
    let (S, carry) := mulHalfLoop hb L right i
    let i2 := i / 2
    if i % 2 = 1 then
      let temp := (right * (L i2 >>> hb) + carry) % 2 ^ (2 * hb)
      (update S i2 (S i2 ||| (((temp &&& (2 ^ hb - 1)) <<< hb) % 2 ^ (2 * hb))), temp >>> hb)
    else
      let temp := (right * (L i2 &&& (2 ^ hb - 1)) + carry) % 2 ^ (2 * hb)
      (update S i2 (S i2 ||| (temp &&& (2 ^ hb - 1))), temp >>> hb)

/-- `big_integer.cpp:39-58`. -/
def opMulHalf (hb N : ℕ) (L : Limbs) (right : ℕ) : Limbs := (mulHalfLoop hb L right (2 * N)).1

/-- Loop body of `operator*`, `big_integer.cpp:73-89`, for bit `i`; the boolean records `break`. -/
def mulStep (wb N : ℕ) (L R : Limbs) (st : Limbs × Bool) (i : ℕ) : Limbs × Bool :=
  if st.2 then st
  else
    let partMul := opShl wb N R i
    if biCompare0 N partMul = 0 then (st.1, true)
    else
      let iWord := i / wb
      if (L iWord >>> (i - iWord * wb)) % 2 = 1 then
        ((List.range' iWord (N - iWord)).foldl (addWordAt (2 ^ wb) (N - 1) partMul) st.1, false)
      else st

/-- `big_integer.cpp:61-92`, `operator*`. -/
def opMul (wb N : ℕ) (L R : Limbs) : Option Limbs := do
  let rightLog2 ← biLog2 wb N R
  if rightLog2 = 0 then pure L
  else pure ((List.range (wb * N - rightLog2)).foldl (mulStep wb N L R) (fun _ => 0, false)).1

/-! ### Division -/

/-- Loop of `bi_div_mod_small`, `big_integer.cpp:188-199`: descending over half words; `k` half
words done. Returns quotient array and running remainder. `right` must be nonzero. -/
def divSmallLoop (hb N : ℕ) (L : Limbs) (right : ℕ) : ℕ → Limbs × ℕ
  | 0 => (fun _ => 0, 0)
  | k + 1 =>
    let (Q, c) := divSmallLoop hb N L right k
    let i := 2 * N - 1 - k
    let i2 := i / 2
    let c1 := (c <<< hb) % 2 ^ (2 * hb)
    if i % 2 = 1 then
      let c2 := c1 ||| (L i2 >>> hb)
      (update Q i2 (Q i2 ||| (((c2 / right) <<< hb) % 2 ^ (2 * hb))), c2 % right)
    else
      let c2 := c1 ||| (L i2 &&& (2 ^ hb - 1))
      (update Q i2 (Q i2 ||| (c2 / right)), c2 % right)

/-- `big_integer.cpp:182-217`, `bi_div_mod_small` with both outputs requested. -/
def biDivModSmall (hb N : ℕ) (L : Limbs) (right : ℕ) : Limbs × ℕ := divSmallLoop hb N L right (2 * N)

/-- Loop of `bi_div_mod`, `big_integer.cpp:284-295`, with fuel (`none` when exhausted). -/
def divLoop (wb N : ℕ) (R : Limbs) (rightLog2 : ℕ) : ℕ → Limbs → Limbs → Option (Limbs × Limbs)
  | 0, _, _ => none
  | fuel + 1, rem, quo =>
    if 0 ≤ biCompare N rem R then do
      let lg ← biLog2 wb N rem
      if rightLog2 < lg then
        divLoop wb N R rightLog2 fuel
          (biSubIp (2 ^ wb) N rem (opShl wb N R (lg - rightLog2)))
          (biAddIp (2 ^ wb) N quo (opShl wb N (fun i => if i = 0 then 1 else 0) (lg - rightLog2)))
      else
        divLoop wb N R rightLog2 fuel (biSubIp (2 ^ wb) N rem R) (biIncrement (2 ^ wb) N quo 1)
    else some (quo, rem)

/-- `big_integer.cpp:221-308`, `bi_div_mod` with both outputs requested: (quotient, remainder).
`fuel` bounds the number of iterations of the general loop; `none` also stands for the machine
division by zero inside `bi_div_mod_small` when the divisor is 0. -/
def biDivMod (hb N fuel : ℕ) (L R : Limbs) : Option (Limbs × Limbs) :=
  let c := biCompare N L R
  if c < 0 then some (fun _ => 0, L)
  else if c = 0 then some (fun i => if i = 0 then 1 else 0, fun _ => 0)
  else if R 0 ≤ 2 ^ hb - 1 ∧ (List.range' 1 (N - 1)).all (fun i => R i == 0) then
    if R 0 = 0 then none
    else
      let Qt := biDivModSmall hb N L (R 0)
      some (Qt.1, fun i => if i = 0 then Qt.2 else 0)
  else do
    let lg ← biLog2 (2 * hb) N R
    let rightTest := opShl (2 * hb) N (fun i => if i = 0 then 1 else 0) lg
    let rightLog2 := if biCompare N R rightTest < 0 then lg + 1 else lg
    divLoop (2 * hb) N R rightLog2 fuel L (fun _ => 0)

end Verif.BigInt
