import Verif.Model.UnitClifford
import Verif.Props.StabSeparable

/-!
What it means that the shards of a `QUnitClifford` stand for a state of all qubits: the state is, up to a factor, the product over the
units of a state of each unit, every unit's tableau being one of its state.
-/

namespace Verif.Units

open Verif.Stab Verif.Pauli

variable {n : ℕ}

/-- The bits of the qubits of unit `u`, each at the place where it is in the unit. -/
def sub (Q : QUC n) (b : Bits n) (u : ℕ) : ℕ → Bool := fun p => decide (∃ i, Q.unit i = u ∧ Q.mapped i = p ∧ b i = true)

/-- The units in use. -/
def used (Q : QUC n) : Finset ℕ := Finset.univ.image Q.unit

/-- Every qubit has its own place in its unit, every place in a unit in use belongs to a qubit, and no number is used before it is
given out. -/
structure WF (Q : QUC n) : Prop where
  inj : ∀ i j, Q.unit i = Q.unit j → Q.mapped i = Q.mapped j → i = j
  lt : ∀ i, Q.mapped i < (Q.heap (Q.unit i)).size
  surj : ∀ i p, p < (Q.heap (Q.unit i)).size → ∃ j, Q.unit j = Q.unit i ∧ Q.mapped j = p
  fresh : ∀ i, Q.unit i < Q.fresh

/-- `f` is a state of which the object is a tableau. -/
def ObjHolds (o : Obj) (f : (ℕ → Bool) → ℂ) : Prop := ∃ ψ : State o.size, Holds o.tab ψ ∧ ∀ b, f b = ψ fun p => b p.val

/-- The register stands for the state `Ψ`, up to a factor. -/
def Rep (Q : QUC n) (Ψ : State n) : Prop :=
  WF Q ∧ ∃ (k : ℂ) (F : ℕ → (ℕ → Bool) → ℂ), k ≠ 0 ∧ (∀ i, ObjHolds (Q.heap (Q.unit i)) (F (Q.unit i))) ∧
    ∀ b, Ψ b = k * ∏ u ∈ used Q, F u (sub Q b u)

end Verif.Units
