import Verif.Spec.Gate
import Mathlib.Analysis.SpecialFunctions.Trigonometric.Basic

/-!
# Specification of the discrete Fourier transform on a list of qubits

A list of distinct qubits, the least significant first, is a register; reading and writing its value is independent of where
the qubits lie. Nothing here refers to the model of the code.
-/

namespace Verif.Spec

/-- The basis state with qubit `q` set to `b`. -/
def setBit (q : ℕ) (b : Bool) (i : ℕ) : ℕ := if i.testBit q = b then i else flipBit q i

/-- The value held by the listed qubits, the first being the least significant. -/
def readBits : List ℕ → ℕ → ℕ
  | [], _ => 0
  | q :: qs, i => (i.testBit q).toNat + 2 * readBits qs i

/-- The basis state with the value `x` written to the listed qubits, the first being the least significant. -/
def writeBits : List ℕ → ℕ → ℕ → ℕ
  | [], _, i => i
  | q :: qs, x, i => writeBits qs (x / 2) (setBit q (x.testBit 0) i)

/-- The phase of `t` turns, in the direction of the sign `s`. -/
noncomputable def turn (s : ℤ) (t : ℝ) : ℂ := Complex.exp (((2 * Real.pi * (s * t) : ℝ) : ℂ) * Complex.I)

/-- The discrete Fourier transform from the register `src` to the register `dst` (two orders of the same qubits): the amplitude of
the output value `y` is the sum over all input values `x`, with the phase of `s * x * y / 2^L` turns, over the square root of
`2^L`. -/
noncomputable def dft (s : ℤ) (src dst : List ℕ) (ψ : ℕ → ℂ) (i : ℕ) : ℂ :=
  (1 / Real.sqrt (2 ^ src.length) : ℝ) *
    ∑ x ∈ Finset.range (2 ^ src.length),
      turn s ((x : ℝ) * (readBits dst i : ℝ) / 2 ^ src.length) * ψ (writeBits src x i)

end Verif.Spec
