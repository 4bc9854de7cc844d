import Verif.Model.EngineMask
import Verif.Model.EngineExpect

/-!
# Model of the quantum Fourier transform

`src/qinterface/qinterface.cpp:111-192` over the gates of the state vector engine.

Simplifications:
* amplitudes are exact complex numbers;
* `std::pow(-ONE_CMPLX, x)` is `exp(s * i * pi * x)` for a sign `s`: `-ONE_CMPLX` is `(-1, -0.0)`, whose C99 logarithm has imaginary
  part `-pi`, so that `s = -1`; an implementation that ignores signed zeros has `s = 1`. The theorems hold for either;
* qubit indices are natural numbers (`bitLenInt` does not wrap around);
* `trySeparate` has no effect: `QInterface::TrySeparate` of an engine returns `false` at once
  (`include/qinterface.hpp:2927-2935`).
-/

namespace Verif.Engine

open Classical

/-- `pow(-ONE_CMPLX, ONE_R1 / pow2Ocl(n - 1U))` of `include/qinterface.hpp:1328`. -/
noncomputable def rootN (s : ℤ) (n : ℕ) : ℂ :=
  Complex.exp (((s * (Real.pi * (1 / 2 ^ (n - 1))) : ℝ) : ℂ) * Complex.I)

/-- `pow(-ONE_CMPLX, -ONE_R1 / pow2Ocl(n - 1U))` of `include/qinterface.hpp:1360`. -/
noncomputable def irootN (s : ℤ) (n : ℕ) : ℂ :=
  Complex.exp (((s * (Real.pi * (-1 / 2 ^ (n - 1))) : ℝ) : ℂ) * Complex.I)

/-- `QInterface::CPhaseRootN`, `include/qinterface.hpp:1321-1329`. -/
noncomputable def cPhaseRootN (σ : List ℕ → List ℕ) (s : ℤ) (e : Eng) (n c t : ℕ) : Option Eng :=
  if n = 0 then some e else mcPhase σ e [c] 1 (rootN s n) t

/-- `QInterface::CIPhaseRootN`, `include/qinterface.hpp:1352-1360`. -/
noncomputable def ciPhaseRootN (σ : List ℕ → List ℕ) (s : ℤ) (e : Eng) (n c t : ℕ) : Option Eng :=
  if n = 0 then some e else mcPhase σ e [c] 1 (irootN s n) t

/-- `QInterface::QFT`, `src/qinterface/qinterface.cpp:112-131`. -/
noncomputable def qft (σ : List ℕ → List ℕ) (s : ℤ) (e : Eng) (start length : ℕ) : Option Eng :=
  if length = 0 then some e
  else
    let last := start + (length - 1)
    (List.range length).foldlM (fun e i =>
      let hBit := last - i
      ((List.range i).foldlM (fun e j => cPhaseRootN σ s e (j + 2) hBit (hBit + 1 + j)) e).bind fun e =>
        gateH σ e hBit) e

/-- `QInterface::IQFT`, `src/qinterface/qinterface.cpp:134-151`. -/
noncomputable def iqft (σ : List ℕ → List ℕ) (s : ℤ) (e : Eng) (start length : ℕ) : Option Eng :=
  if length = 0 then some e
  else
    (List.range length).foldlM (fun e i =>
      ((List.range i).foldlM (fun e j => ciPhaseRootN σ s e (j + 2) ((start + i) - (j + 1)) (start + i)) e).bind fun e =>
        gateH σ e (start + i)) e

/-- `QInterface::QFTR`, `src/qinterface/qinterface.cpp:154-171`. -/
noncomputable def qftr (σ : List ℕ → List ℕ) (s : ℤ) (e : Eng) (qubits : List ℕ) : Option Eng :=
  if qubits.length = 0 then some e
  else
    let last := qubits.length - 1
    (List.range qubits.length).foldlM (fun e i =>
      (gateH σ e (qubits.getD (last - i) 0)).bind fun e =>
        (List.range ((qubits.length - 1) - i)).foldlM (fun e j =>
          cPhaseRootN σ s e (j + 2) (qubits.getD ((last - i) - (j + 1)) 0) (qubits.getD (last - i) 0)) e) e

/-- `QInterface::IQFTR`, `src/qinterface/qinterface.cpp:174-190`. -/
noncomputable def iqftr (σ : List ℕ → List ℕ) (s : ℤ) (e : Eng) (qubits : List ℕ) : Option Eng :=
  if qubits.length = 0 then some e
  else
    (List.range qubits.length).foldlM (fun e i =>
      ((List.range i).foldlM (fun e j =>
        ciPhaseRootN σ s e (j + 2) (qubits.getD (i - (j + 1)) 0) (qubits.getD i 0)) e).bind fun e =>
        gateH σ e (qubits.getD i 0)) e

end Verif.Engine
