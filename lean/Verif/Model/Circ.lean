import Verif.Model.EngineMask

/-!
# Programs of reversible gates

The gate-level routines of `QInterface` (logic gates, adders, ripple increment, rotations) are
straight-line sequences of `X`, `MCInvert`, `MACInvert`, `Swap` and `CSwap`. They are modelled as lists
of the calls they make; `run` executes the calls on the engine model.
-/

namespace Verif.Circ

open Verif.Engine

/-- The calls that occur in gate-level routines. -/
inductive Op where
  /-- `X(t)`, `include/qinterface.hpp:1084`. -/
  | x (t : ℕ)
  /-- `MCInvert(cs, 1, 1, t)`, `include/qinterface.hpp:553-558`; `CNOT` and `CCNOT` are this
  (`include/qinterface.hpp:687-713`). -/
  | mcx (cs : List ℕ) (t : ℕ)
  /-- `MACInvert(cs, 1, 1, t)`, `include/qinterface.hpp:579-585`; `AntiCNOT`, `AntiCCNOT` are this
  (`include/qinterface.hpp:698-724`). -/
  | macx (cs : List ℕ) (t : ℕ)
  /-- `Swap(a, b)`, `src/qengine/qengine.cpp:400-414`. -/
  | swap (a b : ℕ)
  /-- `CSwap(cs, a, b)`, `src/qengine/qengine.cpp:212-238`. -/
  | cswap (cs : List ℕ) (a b : ℕ)
  deriving DecidableEq

/-- The mask built by `MACWrapper`, `include/qinterface.hpp:181-184`. -/
def ctrlMask (cs : List ℕ) : ℕ := (cs.map pow2).foldl (· ||| ·) 0

/-- Execution of one call on the engine. `MACInvert` goes through `MACWrapper`
(`include/qinterface.hpp:179-189`): X on the controls, the controlled gate, X on the controls. -/
noncomputable def Op.run (σ : List ℕ → List ℕ) : Op → Eng → Option Eng
  | .x t, e => gateX σ e t
  | .mcx cs t, e => eitherMtrx σ e cs ⟨0, 1, 1, 0⟩ t false
  | .macx cs t, e => (xMask σ e (ctrlMask cs)).bind fun e =>
      (eitherMtrx σ e cs ⟨0, 1, 1, 0⟩ t false).bind fun e => xMask σ e (ctrlMask cs)
  | .swap a b, e => swapLike σ e pauliX a b
  | .cswap cs a b, e => cswapLike σ e pauliX cs a b

/-- Execution of a sequence of calls. -/
noncomputable def run (σ : List ℕ → List ℕ) (p : List Op) (e : Eng) : Option Eng :=
  p.foldlM (fun e o => o.run σ e) e

end Verif.Circ
