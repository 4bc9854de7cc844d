import Verif.Model.QCircuit
import Mathlib.Data.Fintype.Pi
import Mathlib.Algebra.BigOperators.Group.Finset.Basic
import Mathlib.Analysis.SpecialFunctions.Sqrt

/-!
# Model of `QTensorNetwork`: circuits and measurements that are run when somebody asks

`include/qtensornetwork.hpp`, `src/qtensornetwork.cpp`.

Simplifications. The circuits are those of `Verif.Model.QCircuit`; the number of qubits that a circuit counts never exceeds that
of the network and is left out, and a `std::map` of measured qubits is a list of entries. The simulator that runs the layers is
a state with exact amplitudes, the calls do what they are specified to do (`opAct` in `Verif.Props.QCircuit`), and forcing an
impossible result throws. Whether the network has more qubits than the threshold is a field. Random global phases are left out.
-/

namespace Verif.TN

open Verif.Matrix2 Verif.Spec.Circuit Verif.QCirc

/-- `std::map<bitLenInt, bool>`, `include/qtensornetwork.hpp:49`. -/
abbrev Meas (Q : Type) := List (Q × Bool)

variable {Q : Type} [LinearOrder Q] [Fintype Q]

/-- `m.find(q) != m.end()`. -/
def Meas.has (m : Meas Q) (q : Q) : Bool := m.any (fun e => e.1 = q)

/-- `m.erase(q)`. -/
def Meas.erase (m : Meas Q) (q : Q) : Meas Q := m.filter (fun e => e.1 ≠ q)

/-- `m[q] = v`. -/
def Meas.set (m : Meas Q) (q : Q) (v : Bool) : Meas Q := (q, v) :: m.erase q

/-- `m.insert(o.begin(), o.end())`: entries that are there stay. -/
def Meas.insertAll (m o : Meas Q) : Meas Q := m ++ o.filter (fun e => !m.has e.1)

/-- The members that matter, `include/qtensornetwork.hpp:45-49`; `big` says `qubitCount > GetThresholdQb()`. -/
structure Net (Q : Type) where
  big : Bool
  circuit : List (List (Gate Q))
  meas : List (Meas Q)
  stack : Option (St Q)

/-- What a call of the simulator does. -/
def simOp : Op Q → St Q → St Q
  | .mtrx m t => onQubit t m
  | .swap p q => swap p q
  | .ucMtrx cs m t perm => multiplex t cs (fun k => if k = perm then some m else none)
  | .uniform cs t payload => multiplex t cs (fun k => payload[k]?)

/-- `c->Run(layerStack)`; nothing when a null pointer would be read. -/
noncomputable def runCircuit (c : List (Gate Q)) (ψ : St Q) : Option (St Q) :=
  (runOps c).map fun ops => ops.foldl (fun φ o => simOp o φ) ψ

/-- The amplitudes that agree with the measurements. -/
def project (m : Meas Q) (ψ : St Q) : St Q := fun b => if m.all (fun e => b e.1 == e.2) then ψ b else 0

/-- The squared norm. -/
noncomputable def normSq (ψ : St Q) : ℝ := ∑ b, ‖ψ b‖ ^ 2

open Classical in
/-- `RunMeasurmentLayer`, `include/qtensornetwork.hpp:94-109`: forcing a result of probability zero throws. -/
noncomputable def runMeasurementLayer (m : Meas Q) (ψ : St Q) : Option (St Q) :=
  if project m ψ = 0 then none
  else some fun b => project m ψ b / ((Real.sqrt (normSq (project m ψ)) : ℝ) : ℂ)

/-- The loop that runs the layers, `src/qtensornetwork.cpp:197-203`. -/
noncomputable def runLayers : List (List (Gate Q)) → List (Meas Q) → St Q → Option (St Q)
  | [], _, ψ => some ψ
  | c :: cs, [], ψ => (runCircuit c ψ).bind (runLayers cs [])
  | c :: cs, m :: ms, ψ => (runCircuit c ψ).bind fun φ => (runMeasurementLayer m φ).bind (runLayers cs ms)

/-- The state that `CreateQuantumInterface(..., ZERO_BCI, ...)` starts with. -/
def zeroState : St Q := fun b => if ∀ q, b q = false then 1 else 0

/-- The Pauli X gate on `q`, `src/qtensornetwork.cpp:180-186`. -/
def xGate (q : Q) : Gate Q := ⟨q, [], [(0, ⟨0, 1, 1, 0⟩)]⟩

/-- `AppendGate` of a circuit made by the default constructor (or with `isNearClifford`). -/
noncomputable def appendTo (clifford : Bool) (c : List (Gate Q)) (g : Gate Q) : Option (List (Gate Q)) :=
  (appendGate clifford (c.length + 1) c g).map Prod.fst

/-- `AppendGate` of several gates in order; `Combine`, `include/qcircuit.hpp:718-726`. -/
noncomputable def appendAllTo (clifford : Bool) (c : List (Gate Q)) : List (Gate Q) → Option (List (Gate Q))
  | [] => some c
  | g :: gs => (appendTo clifford c g).bind fun c' => appendAllTo clifford c' gs

/-- The qubits a cone has reached when `PastLightCone` returns, `include/qcircuit.hpp:799-801`. -/
def coneQubits : List (Gate Q) → Finset Q → Finset Q
  | [], qubits => qubits
  | g :: rev, qubits =>
    if g.target ∉ qubits ∧ g.controls.all (fun c => decide (c ∉ qubits)) then coneQubits rev qubits
    else coneQubits rev (insert g.target qubits ∪ g.controls.toFinset)

/-- The loop of `MakeLayerStack(qubits)` from the last layer, `src/qtensornetwork.cpp:170-192`: `rev` holds the circuits still
ahead, the last first, `ms` all measurements; the result is in order. -/
noncomputable def coneLayers (clifford : Bool) (ms : List (Meas Q)) :
    List (List (Gate Q)) → Finset Q → List (List (Gate Q)) → Option (List (List (Gate Q)))
  | [], _, acc => some acc
  | c :: rev, qubits, acc =>
    let m := ms[rev.length]?.getD []
    let qubits := qubits \ (m.map Prod.fst).toFinset
    if qubits = ∅ then
      (appendAllTo clifford [] ((m.filter (·.2)).map fun e => xGate e.1)).map (· :: acc)
    else coneLayers clifford ms rev (coneQubits c.reverse qubits) (pastLightCone c qubits :: acc)

/-- `MakeLayerStack`, `src/qtensornetwork.cpp:157-204`, when nothing is cached. -/
noncomputable def makeLayers (clifford : Bool) (net : Net Q) (qubits : Finset Q) : Option (St Q) :=
  if qubits = ∅ then runLayers net.circuit net.meas zeroState
  else
    (coneLayers clifford net.meas net.circuit.reverse qubits []).bind fun c =>
      runLayers c (net.meas.drop (net.circuit.length - c.length)) zeroState

/-- `RunAsAmplitudes`, `include/qtensornetwork.hpp:114-131`: the state that `fn` sees, and whether it is the cached one. -/
noncomputable def view (clifford : Bool) (net : Net Q) (qubits : Finset Q) : Option (St Q × Bool) :=
  let keep := decide (qubits = ∅) || !net.big
  match net.stack with
  | some ψ => some (ψ, keep)
  | none => (makeLayers clifford net (if keep then ∅ else qubits)).map (·, keep)

/-- The loop of `GetCircuit`, `include/qtensornetwork.hpp:53-75`: the layer that takes a gate on `qs`. -/
def layerFor (qs : List Q) : List (Meas Q) → ℕ
  | [] => 0
  | m :: ms =>
    let l := layerFor qs ms
    if l ≠ 0 then l + 1 else if qs.any m.has then 1 else 0

/-- `Mtrx`, `MCMtrx`, `MACMtrx`, ..., `include/qtensornetwork.hpp:442-525`, with `GetCircuit`. -/
noncomputable def Net.append (net : Net Q) (g : Gate Q) : Option (Net Q) :=
  let l := layerFor (g.target :: g.controls) net.meas
  let circuit := if net.circuit.length = l then net.circuit ++ [[]] else net.circuit
  match circuit[l]? with
  | none => none
  | some c => (appendTo false c g).map fun c' => { net with circuit := circuit.set l c', stack := none }

/-- Gates in order. -/
noncomputable def Net.appendAll (net : Net Q) : List (Gate Q) → Option (Net Q)
  | [] => some net
  | g :: gs => (net.append g).bind fun n => n.appendAll gs

/-- `SetPermutation`, `include/qtensornetwork.hpp:216-238`: the qubits to be set in `ones`. -/
noncomputable def setPermutation (big : Bool) (ones : List Q) : Option (Net Q) :=
  Net.appendAll ⟨big, [[]], [], none⟩ (ones.map xGate)

/-- The circuits and the measurements. -/
abbrev Layers (Q : Type) := List (List (Gate Q)) × List (Meas Q)

/-- One round of the first loop of `ForceM`, `src/qtensornetwork.cpp:240-267`. -/
noncomputable def walkStep (q : Q) (r : Bool) (layerId : ℕ) (L : Layers Q) : Option (Layers Q) :=
  let c := deletePhaseTarget (L.1[layerId]?.getD []) q r
  let circuit := L.1.set layerId c
  if L.2.length ≤ layerId then some (circuit, L.2)
  else
    let m := Meas.erase (L.2[layerId]?.getD []) q
    if m.isEmpty then
      let meas := L.2.eraseIdx layerId
      if layerId + 1 < circuit.length then
        (appendAllTo false c (circuit[layerId + 1]?.getD [])).map fun c' =>
          ((circuit.set layerId c').eraseIdx (layerId + 1), meas)
      else some (circuit, meas)
    else some (circuit, L.2.set layerId m)

/-- The first loop of `ForceM`, `src/qtensornetwork.cpp:238-268`. -/
noncomputable def walkBack (q : Q) (r : Bool) : ℕ → Layers Q → Option (ℕ × Layers Q)
  | 0, L => some (0, L)
  | layerId + 1, L =>
    if isNonPhaseTarget (L.1[layerId + 1]?.getD []) q then some (layerId + 1, L)
    else (walkStep q r (layerId + 1) L).bind (walkBack q r layerId)

/-- Insert the measurement, `src/qtensornetwork.cpp:270-277`. -/
def insertMeas (q : Q) (r : Bool) (layerId : ℕ) (L : Layers Q) : Layers Q :=
  let meas := if L.2.length ≤ layerId then L.2 ++ [[]] else L.2
  (L.1, meas.set layerId (Meas.set (meas[layerId]?.getD []) q r))

/-- No qubit that is not measured in this layer is the target of a gate that is not a phase gate,
`src/qtensornetwork.cpp:281-299`. -/
noncomputable def isCollapsed (c : List (Gate Q)) (m : Meas Q) : Bool :=
  decide (∀ q, m.has q = false → isNonPhaseTarget c q = false)

/-- The second loop of `ForceM`, `src/qtensornetwork.cpp:279-329`. -/
noncomputable def collapse : ℕ → Layers Q → Option (Layers Q)
  | 0, L =>
    let m := L.2[0]?.getD []
    if isCollapsed (L.1[0]?.getD []) m then
      (appendAllTo false [] ((m.filter (·.2)).map fun e => xGate e.1)).map fun c => (L.1.set 0 c, L.2)
    else some L
  | k + 1, L =>
    let m := L.2[k + 1]?.getD []
    if isCollapsed (L.1[k + 1]?.getD []) m then
      let circuit := L.1.eraseIdx (k + 1)
      let m1 := L.2[k]?.getD []
      let flips := m.filter fun e => m1.has e.1 && !(m1.contains e)
      (appendAllTo false (circuit[k]?.getD []) (flips.map fun e => xGate e.1)).bind fun c =>
        collapse k (circuit.set k c, (L.2.set (k + 1) (m.insertAll m1)).eraseIdx k)
    else some L

/-- `ForceM` after the simulator gave the result `r`, `src/qtensornetwork.cpp:227-333`; a cached state is measured as well. -/
noncomputable def Net.forceM (clifford : Bool) (net : Net Q) (q : Q) (r : Bool) : Option (Net Q) :=
  (view clifford net {q}).bind fun v =>
  (runMeasurementLayer [(q, r)] v.1).bind fun ψ =>
  (walkBack q r (net.circuit.length - 1) (net.circuit, net.meas)).bind fun w =>
  (collapse w.1 (insertMeas q r w.1 w.2)).map fun L =>
    { net with circuit := L.1, meas := L.2, stack := if v.2 then some ψ else none }

/-- `Prob`, `include/qtensornetwork.hpp:317-322`: one of the simulator's state, and the network afterwards. -/
noncomputable def Net.prob (clifford : Bool) (net : Net Q) (q : Q) : Option (ℝ × Net Q) :=
  (view clifford net {q}).map fun v =>
    (normSq (project [(q, true)] v.1) / normSq v.1, { net with stack := if v.2 then some v.1 else none })

/-- `GetAmplitude`, `include/qtensornetwork.hpp:259-264`. -/
noncomputable def Net.amplitude (clifford : Bool) (net : Net Q) (b : Q → Bool) : Option (ℂ × Net Q) :=
  (view clifford net ∅).map fun v => (v.1 b, { net with stack := some v.1 })

end Verif.TN
