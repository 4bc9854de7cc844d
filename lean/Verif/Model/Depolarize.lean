import Verif.Model.EngineCompose
import Verif.Model.EngineExpect
import Verif.Model.Defaults
import Mathlib.Analysis.SpecialFunctions.Trigonometric.Inverse
import Mathlib.Analysis.SpecialFunctions.Pow.Real

/-!
# The noise channels

`DepolarizingChannelWeak1Qb` and `DepolarizingChannelStrong1Qb` of `QInterface`, on the state vector engine, which inherits them, and the version of
`QTensorNetwork`. `r` and `u` are the draws for the outcome of the measurement and for its phase.

Simplifications, besides those of `Verif/Model/EngineCompose.lean`: `std::pow` of a negative number and `asin` outside of `[-1, 1]` are `NaN`, which
is `none`; the noisy gates of `QTensorNetwork` are listed, not put into its circuit.
-/

namespace Verif.Depolarize

open Verif.Engine Verif.ParFor Verif.Spec

/-- `QEngineCPU::Allocate(start, length)`, `src/qengine/utility.cpp:52-66`; `Allocate(length)`, `include/qinterface.hpp:470`, has the qubit count for
`start`. The position is returned too. -/
noncomputable def allocate (maxQb : ℕ) (σ : List ℕ → List ℕ) (fresh : ℕ → ℂ) (e : Eng) (start length : ℕ) : Option (Eng × ℕ) :=
  if e.n < start then none
  else if length = 0 then some (e, start)
  else
    let nQubits : Eng := { e with n := length, amp := fun i => if i = 0 then 1 else 0, rn := 1 }
    (composeAt maxQb σ fresh e nQubits start).map fun r => (r.1, r.2.2)

/-- The angle `2 * asin(pow(lambda, 1 / 4))`, `src/qinterface/gates.cpp:499, 517`. -/
noncomputable def angle (lambda : ℝ) : Option ℝ :=
  if lambda < 0 then none
  else if 1 < lambda ^ (1 / 4 : ℝ) then none
  else some (2 * Real.arcsin (lambda ^ (1 / 4 : ℝ)))

/-- The common beginning, `src/qinterface/gates.cpp:493-499, 511-517`: a Hadamard gate, the ancilla, and `CRY` of
`src/qinterface/rotational.cpp:213-221`. -/
noncomputable def entangle (maxQb : ℕ) (σ : List ℕ → List ℕ) (fresh : ℕ → ℂ) (e : Eng) (q : ℕ) (lambda : ℝ) : Option (Eng × ℕ) :=
  (gateH σ e q).bind fun e =>
  (allocate maxQb σ fresh e e.n 1).bind fun (e, ancilla) =>
  (angle lambda).bind fun θ =>
  (eitherMtrx σ e [q] (Verif.Defaults.ryM θ) ancilla false).map fun e => (e, ancilla)

/-- `QInterface::DepolarizingChannelStrong1Qb`, `src/qinterface/gates.cpp:509-523`. -/
noncomputable def depolStrong (maxQb : ℕ) (σ : List ℕ → List ℕ) (fresh : ℕ → ℂ) (e : Eng) (q : ℕ) (lambda : ℝ) : Option (Eng × ℕ) :=
  (entangle maxQb σ fresh e q lambda).bind fun (e, ancilla) => (gateH σ e q).map fun e => (e, ancilla)

/-- `QInterface::DepolarizingChannelWeak1Qb`, `src/qinterface/gates.cpp:487-507`, with `M`, `include/qinterface.hpp:1013`. The result of the
measurement, which the code drops, is kept to speak about it (`false` when nothing is measured). -/
noncomputable def depolWeak (maxQb : ℕ) (P : Par) (fresh fresh' : ℕ → ℂ) (e : Eng) (q : ℕ) (lambda r u : ℝ) : Option (Bool × Eng) :=
  if lambda ≤ 0 then some (false, e)
  else
    (entangle maxQb P.σ fresh e q lambda).bind fun (e, ancilla) =>
    (forceM P e ancilla false false true r u).bind fun (b, e) =>
    (dispose P.σ fresh' e ancilla 1).bind fun e =>
    (gateH P.σ e q).map fun e => (b, e)

/-- `QTensorNetwork::DepolarizingChannelWeak1Qb`, `include/qtensornetwork.hpp:527-547`: the gates put into the circuit, by the three draws. -/
noncomputable def depolPauli (lambda r₁ r₂ r₃ : ℝ) : List PauliName :=
  if lambda ≤ 0 then []
  else
    let lambda := lambda / 3
    (if r₁ < lambda then [.Z] else []) ++ (if r₂ < lambda then [.X] else []) ++ (if r₃ < lambda then [.Y] else [])

end Verif.Depolarize
