import Verif.Model.Matrix2
import Mathlib.Data.Complex.Basic
import Mathlib.Logic.Function.Basic

/-!
# What the gates of a circuit do

Qubits have any type `Q`; a basis state is a function `Q → Bool` and a state gives each basis state an amplitude.
-/

namespace Verif.Spec.Circuit

open Verif.Matrix2

/-- A state: an amplitude for every basis state. -/
abbrev St (Q : Type) := (Q → Bool) → ℂ

variable {Q : Type} [DecidableEq Q]

/-- The number read off the qubits `cs`, the first being the lowest bit. -/
def key : List Q → (Q → Bool) → ℕ
  | [], _ => 0
  | c :: cs, b => (b c).toNat + 2 * key cs b

/-- The matrix `m` on qubit `t`. -/
def onQubit (t : Q) (m : Mtrx) (ψ : St Q) : St Q := fun b =>
  if b t then m.m2 * ψ (Function.update b t false) + m.m3 * ψ (Function.update b t true)
  else m.m0 * ψ (Function.update b t false) + m.m1 * ψ (Function.update b t true)

/-- The matrix `m` on qubit `t`, where `p` holds (which must not look at `t`). -/
def onWhen (p : (Q → Bool) → Bool) (t : Q) (m : Mtrx) (ψ : St Q) : St Q := fun b =>
  if p b then onQubit t m ψ b else ψ b

/-- On qubit `t`, the matrix that the table holds for the number read off the controls; nothing where it holds none. -/
def multiplex (t : Q) (cs : List Q) (tab : ℕ → Option Mtrx) (ψ : St Q) : St Q := fun b =>
  match tab (key cs b) with
  | none => ψ b
  | some m => onQubit t m ψ b

/-- Exchange two qubits. -/
def swap (p q : Q) (ψ : St Q) : St Q := fun b =>
  ψ (fun r => if r = p then b q else if r = q then b p else b r)

/-- Equal up to a phase of modulus one. -/
def SameRay (φ ψ : St Q) : Prop := ∃ z : ℂ, z * (starRingEnd ℂ) z = 1 ∧ ∀ b, φ b = z * ψ b

/-- A unitary 2x2 matrix: its columns are orthonormal, and so are its rows. -/
def Unitary (m : Mtrx) : Prop :=
  (starRingEnd ℂ) m.m0 * m.m0 + (starRingEnd ℂ) m.m2 * m.m2 = 1 ∧
  (starRingEnd ℂ) m.m1 * m.m1 + (starRingEnd ℂ) m.m3 * m.m3 = 1 ∧
  (starRingEnd ℂ) m.m0 * m.m1 + (starRingEnd ℂ) m.m2 * m.m3 = 0 ∧
  m.m0 * (starRingEnd ℂ) m.m0 + m.m1 * (starRingEnd ℂ) m.m1 = 1 ∧
  m.m2 * (starRingEnd ℂ) m.m2 + m.m3 * (starRingEnd ℂ) m.m3 = 1 ∧
  m.m0 * (starRingEnd ℂ) m.m2 + m.m1 * (starRingEnd ℂ) m.m3 = 0

end Verif.Spec.Circuit
