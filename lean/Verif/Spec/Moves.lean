import Mathlib.Data.Complex.Basic
import Mathlib.Algebra.BigOperators.Group.Finset.Basic
import Mathlib.Data.Nat.Bitwise
import Verif.Spec.Field

/-!
# Specification of operations that carry basis states to basis states

Nothing here refers to the model of the code.
-/

namespace Verif.Spec

/-- The state after every basis state `i` below `2^n` has been carried to `T i` with its amplitude. Amplitudes that are carried to the
same place add up. -/
noncomputable def moved (n : ℕ) (T : ℕ → ℕ) (ψ : ℕ → ℂ) (j : ℕ) : ℂ := ∑ i ∈ (Finset.range (2 ^ n)).filter (T · = j), ψ i

/-- The state after a measurement of the register `[start, start + length)` that gave `r`, not rescaled: the square of its length is the
probability of `r` times the square of the length before. -/
def seen (start length r : ℕ) (ψ : ℕ → ℂ) (i : ℕ) : ℂ := if field start length i = r then ψ i else 0

end Verif.Spec
