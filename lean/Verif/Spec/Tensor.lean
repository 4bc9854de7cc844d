import Verif.Spec.Field
import Verif.Spec.Gate

/-!
# Specification of joining registers

Nothing here refers to the model of the code.
-/

namespace Verif.Spec

/-- The basis state that remains when the qubits `[s, s + l)` are taken out of `i`: the qubits above move down. -/
def rest (s l i : ℕ) : ℕ := i % 2 ^ s + 2 ^ s * (i / 2 ^ (s + l))

/-- The basis state with value `k` on the qubits `[s, s + l)` and `i` on the others: the qubits above move up. -/
def insertAt (s l k i : ℕ) : ℕ := 2 ^ (s + l) * (i / 2 ^ s) + 2 ^ s * k + i % 2 ^ s

/-- The tensor product of `A` and `B`, with the `l` qubits of `B` inserted at position `s`. -/
noncomputable def tensorAt (s l : ℕ) (A B : ℕ → ℂ) (i : ℕ) : ℂ := A (rest s l i) * B (field s l i)

/-- The tensor product of `A` on `n` qubits with the listed registers, in ascending order of the qubits. -/
noncomputable def tensorAll (n : ℕ) (A : ℕ → ℂ) : List (ℕ × (ℕ → ℂ)) → ℕ → ℂ
  | [] => A
  | (l, B) :: Bs => tensorAll (n + l) (tensorAt n l A B) Bs

end Verif.Spec
