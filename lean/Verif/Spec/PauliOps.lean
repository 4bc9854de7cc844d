import Verif.Spec.Born
import Mathlib.Analysis.SpecialFunctions.Trigonometric.Basic

/-!
# Products of Pauli operators: exponentials and measurement

The product `P` of Pauli operators satisfies `P² = 1`, so `e^{iφP} = cos φ + i sin φ P`, and the projector on its eigenspace `±1` is
`(1 ± P) / 2`. Nothing here refers to the model of the code.
-/

namespace Verif.Spec

/-- `e^{iφP}` for the product `P` of the operators `bs` on the qubits `qs`. -/
noncomputable def expPauli (φ : ℝ) (qs : List ℕ) (bs : List PauliName) (s : ℕ → ℂ) (i : ℕ) : ℂ :=
  (Real.cos φ : ℂ) * s i + Complex.I * (Real.sin φ : ℂ) * pauliProduct qs bs s i

/-- The part of the state in the eigenspace of `P` with eigenvalue `-1` (`b = true`) or `1`. -/
noncomputable def eigenPart (b : Bool) (qs : List ℕ) (bs : List PauliName) (s : ℕ → ℂ) (i : ℕ) : ℂ :=
  (s i + (if b then -1 else 1) * pauliProduct qs bs s i) / 2

/-- An operator under control of the listed qubits. -/
noncomputable def underControl (cs : List ℕ) (F : (ℕ → ℂ) → ℕ → ℂ) (s : ℕ → ℂ) (i : ℕ) : ℂ :=
  if AllAre true cs i then F s i else s i

end Verif.Spec
