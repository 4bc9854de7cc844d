import Verif.Spec.Born
import Verif.Spec.Rotation
import Mathlib.LinearAlgebra.Matrix.ConjTranspose

/-!
Observables of single qubits, their tensor products, and expectation values. Nothing here refers to the model of the code.
-/

namespace Verif.Spec.Observable

open Verif.Spec Verif.Spec.Rotation Matrix

/-- The observable with the columns of `U` as eigenvectors and the two given eigenvalues. -/
noncomputable def obs (U : Matrix (Fin 2) (Fin 2) ℂ) (w : ℝ × ℝ) : Matrix (Fin 2) (Fin 2) ℂ :=
  U * !![(w.1 : ℂ), 0; 0, (w.2 : ℂ)] * Uᴴ

/-- The tensor product of the listed matrices on the listed qubits. -/
def tensor : List (ℕ × Matrix (Fin 2) (Fin 2) ℂ) → (ℕ → ℂ) → ℕ → ℂ
  | [], s => s
  | (q, M) :: l, s => act M q (tensor l s)

/-- `⟨ψ|A|ψ⟩` of an observable. -/
noncomputable def expect (n : ℕ) (A : (ℕ → ℂ) → ℕ → ℂ) (s : ℕ → ℂ) : ℝ := (inner n s (A s)).re

/-- Groups of three numbers written one after the other. -/
def flat3 : List (ℝ × ℝ × ℝ) → List ℝ
  | [] => []
  | (x, y, z) :: l => x :: y :: z :: flat3 l

/-- The same state up to a global phase. -/
def UpToPhase (n : ℕ) (s s' : ℕ → ℂ) : Prop := ∃ u : ℂ, ‖u‖ = 1 ∧ ∀ i < 2 ^ n, s' i = u * s i

end Verif.Spec.Observable
