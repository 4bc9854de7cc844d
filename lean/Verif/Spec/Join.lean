import Verif.Spec.Pauli

/-!
Specification of the product of two registers, the second placed at a position within the first.
-/

namespace Verif.Pauli

/-- The bits of the qubits before `start` and from `start + m` on. -/
def outside {n m : ℕ} (start : ℕ) (f : Bits (n + m)) : Bits n := fun j =>
  f ⟨if j.val < start then j.val else j.val + m, by split <;> omega⟩

/-- The bits of the `m` qubits from `start` on. -/
def inside {n m : ℕ} (start : ℕ) (f : Bits (n + m)) : Bits m := fun j =>
  if h : start + j.val < n + m then f ⟨start + j.val, h⟩ else false

/-- The product of `ψ` and `φ`, with the qubits of `φ` from `start` on. -/
def joined {n m : ℕ} (start : ℕ) (ψ : State n) (φ : State m) : State (n + m) := fun f =>
  ψ (outside start f) * φ (inside start f)

end Verif.Pauli
