import Mathlib.Data.Complex.Basic
import Mathlib.Data.Nat.Bitwise
import Mathlib.Algebra.BigOperators.Group.Finset.Basic

/-!
# Specification of a register that is kept in parts

Every qubit `q` below `n` lies in one part, `unit q`, at a place `pos q` in it. Nothing here refers to the model of the code.
-/

namespace Verif.Spec

/-- What part `u`, of `m` qubits, holds in the basis state `i` of the whole register: bit `p` is the value of the qubit at place `p`. -/
def part (n : ℕ) (unit pos : ℕ → ℕ) (m u i : ℕ) : ℕ :=
  Nat.ofBits fun p : Fin m => decide (∃ q < n, unit q = u ∧ pos q = p ∧ i.testBit q = true)

/-- The state of the whole register: the amplitude of `i` is the product of the amplitudes of what the parts hold. -/
noncomputable def whole (n : ℕ) (unit pos size : ℕ → ℕ) (amp : ℕ → ℕ → ℂ) (i : ℕ) : ℂ :=
  ∏ u ∈ (Finset.range n).image unit, amp u (part n unit pos (size u) u i)

end Verif.Spec
