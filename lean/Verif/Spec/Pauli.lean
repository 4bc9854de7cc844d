import Mathlib.Data.Complex.Basic
import Mathlib.Data.Fintype.Pi
import Mathlib.Data.Fintype.BigOperators
import Mathlib.Algebra.BigOperators.Group.Finset.Basic
import Mathlib.Analysis.SpecialFunctions.Pow.Real

/-!
Specification of Pauli operators and of the Clifford gates, on states of `n` qubits given by the amplitude of each
assignment of bits to the qubits.
-/

namespace Verif.Pauli

open Complex

/-- Basis states of `n` qubits. -/
abbrev Bits (n : ℕ) := Fin n → Bool

/-- Amplitudes of an `n`-qubit state. -/
abbrev State (n : ℕ) := Bits n → ℂ

/-- Entry `⟨a|P|b⟩` of the Pauli matrix `P` named by the two bits: `I` (00), `X` (10), `Z` (01), `Y` (11). -/
def entry (x z a b : Bool) : ℂ :=
  match x, z with
  | false, false => if a = b then 1 else 0
  | true, false => if a = b then 0 else 1
  | false, true => if a = b then (if a then -1 else 1) else 0
  | true, true => if a = b then 0 else if a then I else -I

/-- The operator `i^r P_0 ⊗ ... ⊗ P_{n-1}` applied to a state. -/
noncomputable def pauliOp {n : ℕ} (r : ℕ) (x z : Fin n → Bool) (ψ : State n) : State n := fun f =>
  I ^ r * ∑ g : Bits n, (∏ j, entry (x j) (z j) (f j) (g j)) * ψ g

/-- The operator with matrix `[[a, b], [c, d]]` on qubit `t`. -/
def gate1 {n : ℕ} (t : Fin n) (a b c d : ℂ) (ψ : State n) : State n := fun f =>
  if f t then c * ψ (Function.update f t false) + d * ψ (Function.update f t true)
  else a * ψ (Function.update f t false) + b * ψ (Function.update f t true)

/-- `G` where qubit `c` has the value `v`, the identity elsewhere. -/
def ctrl {n : ℕ} (v : Bool) (c : Fin n) (G : State n → State n) (ψ : State n) : State n := fun f =>
  if f c = v then G ψ f else ψ f

/-- Exchange of two qubits, with a factor `w` where they differ. -/
def swapOp {n : ℕ} (c t : Fin n) (w : ℂ) (ψ : State n) : State n := fun f =>
  (if f c = f t then 1 else w) * ψ (f ∘ Equiv.swap c t)

/-- `1/√2` -/
noncomputable def rt : ℂ := ((1 / Real.sqrt 2 : ℝ) : ℂ)

theorem rt_mul : rt * rt = 1 / 2 := by
  unfold rt
  rw [← Complex.ofReal_mul]
  have : (1 / Real.sqrt 2) * (1 / Real.sqrt 2) = 1 / 2 := by
    rw [div_mul_div_comm, Real.mul_self_sqrt (by norm_num)]; norm_num
  rw [this]; norm_num

noncomputable def hGate {n : ℕ} (t : Fin n) : State n → State n := gate1 t rt rt rt (-rt)
def xGate {n : ℕ} (t : Fin n) : State n → State n := gate1 t 0 1 1 0
noncomputable def yGate {n : ℕ} (t : Fin n) : State n → State n := gate1 t 0 (-I) I 0
def zGate {n : ℕ} (t : Fin n) : State n → State n := gate1 t 1 0 0 (-1)
noncomputable def sGate {n : ℕ} (t : Fin n) : State n → State n := gate1 t 1 0 0 I
noncomputable def isGate {n : ℕ} (t : Fin n) : State n → State n := gate1 t 1 0 0 (-I)

end Verif.Pauli
