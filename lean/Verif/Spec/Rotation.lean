import Verif.Spec.Gate
import Mathlib.Analysis.Normed.Algebra.MatrixExponential
import Mathlib.Analysis.Complex.Basic
import Mathlib.LinearAlgebra.Matrix.Notation

/-!
Pauli matrices, rotations, and matrices that act on one qubit of a state vector.
-/

namespace Verif.Spec.Rotation

open Complex

/-- The Pauli matrices. -/
def σx : Matrix (Fin 2) (Fin 2) ℂ := !![0, 1; 1, 0]
def σy : Matrix (Fin 2) (Fin 2) ℂ := !![0, -I; I, 0]
def σz : Matrix (Fin 2) (Fin 2) ℂ := !![1, 0; 0, -1]

/-- The rotation by an angle: `exp(-i θ/2 P)`. -/
noncomputable def rot (P : Matrix (Fin 2) (Fin 2) ℂ) (θ : ℝ) : Matrix (Fin 2) (Fin 2) ℂ :=
  NormedSpace.exp ((-(θ / 2 : ℂ) * I) • P)

/-- A matrix on qubit `q`. -/
def act (M : Matrix (Fin 2) (Fin 2) ℂ) (q : ℕ) (s : ℕ → ℂ) : ℕ → ℂ := gate (fun _ => True) q (M 0 0) (M 0 1) (M 1 0) (M 1 1) s

/-- A matrix on qubit `q`, where the controls all have the given value. -/
def actIf (v : Bool) (cs : List ℕ) (M : Matrix (Fin 2) (Fin 2) ℂ) (q : ℕ) (s : ℕ → ℂ) : ℕ → ℂ :=
  gate (AllAre v cs) q (M 0 0) (M 0 1) (M 1 0) (M 1 1) s

end Verif.Spec.Rotation
