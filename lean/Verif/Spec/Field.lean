import Mathlib.Data.Nat.Bitwise

/-!
# Specification of register fields

A register is a contiguous field of qubits `[s, s + l)` of a basis state. Nothing here refers to the
model of the code.
-/

namespace Verif.Spec

/-- The value held by the qubits `[s, s + l)` of basis state `i`. -/
def field (s l i : ℕ) : ℕ := i / 2 ^ s % 2 ^ l

/-- Basis state `i` with the qubits `[s, s + l)` replaced by the low `l` bits of `v`. -/
def setField (s l v i : ℕ) : ℕ := 2 ^ (s + l) * (i / 2 ^ (s + l)) + (2 ^ s * (v % 2 ^ l) + i % 2 ^ s)

end Verif.Spec
