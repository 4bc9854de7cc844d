import Mathlib.Analysis.SpecialFunctions.Complex.Log
import Mathlib.Analysis.SpecialFunctions.Pow.Complex

/-!
# 2x2 matrix functions

`src/common/functions.cpp:97-211` and the four-lane arithmetic of `include/common/complex8x2simd.hpp` that `mul2x2` uses by
default. Lanes are exact reals. A division by zero or the logarithm of zero, which give infinities or `NaN`, are `none`.
-/

namespace Verif.Matrix2

open Complex

/-- `__m128`: four lanes, lane 0 first. -/
abbrev Lanes := Fin 4 → ℝ

/-- `_mm_shuffle_ps(v, v, imm)`: lane `k` of the result is the lane named by bits `2k, 2k + 1` of `imm`. -/
def shuffle (v : Lanes) (imm : ℕ) : Lanes := fun k => v ⟨imm / 4 ^ (k : ℕ) % 4, Nat.mod_lt _ (by norm_num)⟩

/-- `_mm_xor_ps(SIGNMASK, v)`, `include/common/complex8x2simd.hpp:27`: lanes 0 and 2 change sign. -/
def flipSign (v : Lanes) : Lanes := fun k => if (k : ℕ) % 2 = 0 then -v k else v k

/-- `_mm_add_ps`, `_mm_mul_ps`. -/
def addL (v w : Lanes) : Lanes := fun k => v k + w k
def mulL (v w : Lanes) : Lanes := fun k => v k * w k

/-- `complex2(cm1, cm2)`, `include/common/complex8x2simd.hpp:39-42`. -/
def pack (z w : ℂ) : Lanes := ![z.re, z.im, w.re, w.im]

/-- `complex2::c(i)`, `include/common/complex8x2simd.hpp:47`. -/
def lane (v : Lanes) (i : Fin 2) : ℂ := ⟨v ⟨2 * i, by omega⟩, v ⟨2 * i + 1, by omega⟩⟩

/-- `mtrxColShuff`, `include/common/complex8x2simd.hpp:84`. -/
def colShuff (v : Lanes) : Lanes := shuffle v 177

/-- `matrixMul`, `include/common/complex8x2simd.hpp:85-97`. -/
def matrixMul (col1 col2 shuf1 shuf2 qubit : Lanes) : Lanes :=
  let lo := shuffle qubit 68
  let hi := shuffle qubit 238
  addL (addL (mulL shuf1 (flipSign (shuffle lo 245))) (mulL col1 (shuffle lo 160)))
    (addL (mulL shuf2 (flipSign (shuffle hi 245))) (mulL col2 (shuffle hi 160)))

/-- `complex[4]`, row by row. -/
structure Mtrx where
  m0 : ℂ
  m1 : ℂ
  m2 : ℂ
  m3 : ℂ

/-- `mul2x2` with `ENABLE_COMPLEX_X2`, `src/common/functions.cpp:97-111`. -/
def mul2x2 (l r : Mtrx) : Mtrx :=
  let left0 := pack l.m0 l.m2
  let left1 := pack l.m1 l.m3
  let shuf0 := colShuff left0
  let shuf1 := colShuff left1
  let c0 := matrixMul left0 left1 shuf0 shuf1 (pack r.m0 r.m2)
  let c1 := matrixMul left0 left1 shuf0 shuf1 (pack r.m1 r.m3)
  ⟨lane c0 0, lane c1 0, lane c0 1, lane c1 1⟩

/-- `mul2x2` without `ENABLE_COMPLEX_X2`, `src/common/functions.cpp:113-119`. -/
def mul2x2Plain (l r : Mtrx) : Mtrx :=
  ⟨l.m0 * r.m0 + l.m1 * r.m2, l.m0 * r.m1 + l.m1 * r.m3, l.m2 * r.m0 + l.m3 * r.m2, l.m2 * r.m1 + l.m3 * r.m3⟩

open Classical in
/-- `inv2x2`, `src/common/functions.cpp:204-211`. -/
noncomputable def inv2x2 (m : Mtrx) : Option Mtrx :=
  let det := m.m0 * m.m3 - m.m1 * m.m2
  if det = 0 then none
  else
    let k := 1 / det
    some ⟨k * m.m3, k * -m.m1, k * -m.m2, k * m.m0⟩

/-- The exponential of one number, `src/common/functions.cpp:180-185`: `exp(re) * (cos(im) + i sin(im))`. -/
noncomputable def expEntry (z : ℂ) : Option ℂ := some ((Real.exp z.re : ℂ) * ⟨Real.cos z.im, Real.sin z.im⟩)

open Classical in
/-- The logarithm of one number, `src/common/functions.cpp:188-191`: `log(abs) + i arg`. -/
noncomputable def logEntry (z : ℂ) : Option ℂ := if z = 0 then none else some ⟨Real.log ‖z‖, Complex.arg z⟩

/-- `eigenvalue1`, `eigenvalue2`, `src/common/functions.cpp:136-143`; `std::sqrt` of a complex number is the principal root. -/
noncomputable def root (m : Mtrx) : ℂ :=
  ((m.m0 + m.m3) * (m.m0 + m.m3) - 4 * (m.m0 * m.m3 - m.m1 * m.m2)) ^ ((1 : ℂ) / 2)
noncomputable def eig1 (m : Mtrx) : ℂ := (m.m0 + m.m3 + root m) / 2
noncomputable def eig2 (m : Mtrx) : ℂ := (m.m0 + m.m3 - root m) / 2

open Classical in
/-- `_expLog2x2`, `src/common/functions.cpp:122-198`, with the function `f` on eigenvalues (`expEntry` or `logEntry`). -/
noncomputable def expLog2x2 (f : ℂ → Option ℂ) (m : Mtrx) : Option Mtrx :=
  if m.m1 = 0 ∧ m.m2 = 0 then
    match f m.m0, f m.m3 with
    | some x, some y => some ⟨x, 0, 0, y⟩
    | _, _ => none
  else
    let nrm0 := Real.sqrt (normSq (m.m0 - eig1 m) + normSq m.m2)
    let nrm1 := Real.sqrt (normSq m.m1 + normSq (m.m3 - eig2 m))
    if nrm0 = 0 ∨ nrm1 = 0 then none
    else
      let j : Mtrx := ⟨(m.m0 - eig1 m) / nrm0, m.m1 / nrm1, m.m2 / nrm0, (m.m3 - eig2 m) / nrm1⟩
      let det := j.m0 * j.m3 - j.m1 * j.m2
      if det = 0 then none
      else
        let ji : Mtrx := ⟨j.m3 / det, -j.m1 / det, -j.m2 / det, j.m0 / det⟩
        match f (eig1 m), f (eig2 m) with
        | some x, some y => some (mul2x2 j (mul2x2 ⟨x, 0, 0, y⟩ ji))
        | _, _ => none

/-- `exp2x2`, `src/common/functions.cpp:200`. -/
noncomputable def exp2x2 (m : Mtrx) : Option Mtrx := expLog2x2 expEntry m

/-- `log2x2`, `src/common/functions.cpp:202`. -/
noncomputable def log2x2 (m : Mtrx) : Option Mtrx := expLog2x2 logEntry m

end Verif.Matrix2
