import Verif.Spec.Gate
import Verif.Spec.Born

/-!
# Model of the inherited conditional probabilities

The gates and `Prob` are what has been proved of the classes that inherit these (`QPager`: C35, C36).
-/

namespace Verif.CtrlProb

open Verif.Spec

/-- `AntiCNOT(control, target)` for `true`, `CNOT(control, target)` for `false`. -/
def flipUnless (controlState : Bool) (control target : ℕ) (s : ℕ → ℂ) : ℕ → ℂ := gate (AllAre (!controlState) [control]) target 0 1 1 0 s

/-- `QEngine::CtrlOrAntiProb`, `src/qengine/qengine.cpp:463-477`, which `QPager` inherits; `QInterface::CProb` and `ACProb`,
`include/qinterface.hpp:2459-2479`, are the same calls. The result, and the state afterwards. -/
noncomputable def ctrlOrAntiProb (n : ℕ) (controlState : Bool) (control target : ℕ) (s : ℕ → ℂ) : ℝ × (ℕ → ℂ) :=
  let s1 := flipUnless controlState control target s
  (probIf n (fun i => i.testBit target = true) s1, flipUnless controlState control target s1)

end Verif.CtrlProb
