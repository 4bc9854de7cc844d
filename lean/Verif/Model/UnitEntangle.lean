import Verif.Spec.Product
import Verif.Spec.Gate
import Verif.Model.Utils
import Mathlib.Analysis.SpecialFunctions.Trigonometric.Basic

/-!
# Model of how `QUnit` brings qubits into one unit

A `QUnit` has a shard for every qubit, and a shard points to a unit and to a place in it. Before an operation on several qubits their
units are composed into one (`EntangleInCurrentBasis`); the shards of the units that are taken up move behind the others. The operation
is then given to the unit, with places instead of qubits.

Units are numbered instead of being pointed at. A shard without a unit (its amplitudes are in the shard) stands here for a unit of one
qubit with the same amplitudes: `EndEmulation` makes one before anything is composed. What a unit does with a gate, and that `Compose` is
the tensor product, are the theorems about the engine (C03, C07, C24). Shards are in the `PauliZ` basis with no buffers, as
`ToPermBasis` leaves them (C52). The limits on the size of a unit are in `either` only; elsewhere memory is not limited.
-/

namespace Verif.QUE

open Verif.Spec

/-- The shards and units of a `QUnit`; `unit` and `pos` are `shards[q].unit` and `shards[q].mapped`, `include/qengineshard.hpp:55-70`. -/
structure Reg where
  n : ℕ
  unit : ℕ → ℕ
  pos : ℕ → ℕ
  size : ℕ → ℕ
  amp : ℕ → ℕ → ℂ

/-- `offset = r->ComposeNoClone(c)` and the moving of the shards of `c` into `r`, `src/qunit.cpp:460-469` and, for each pair of a round,
`:476-492` (there all pairs are composed before the shards are moved). -/
noncomputable def Reg.consume (R : Reg) (r c : ℕ) : Reg where
  n := R.n
  unit q := if R.unit q = c then r else R.unit q
  pos q := if R.unit q = c then R.pos q + R.size r else R.pos q
  size := Function.update R.size r (R.size r + R.size c)
  amp := Function.update R.amp r fun j => R.amp r (j % 2 ^ R.size r) * R.amp c (j / 2 ^ R.size r)

/-- The different units in a list, `src/qunit.cpp:426-436`. -/
def uniq (l : List ℕ) : List ℕ := l.foldl (fun acc u => if u ∈ acc then acc else acc ++ [u]) []

/-- One round of pairs, `src/qunit.cpp:472-494`: the units that are left, and the register. -/
noncomputable def pairs : List ℕ → Reg → List ℕ × Reg
  | r :: c :: l, R => let s := pairs l (R.consume r c); (r :: s.1, s.2)
  | l, R => (l, R)

/-- `while (units.size() > 1U)`, `src/qunit.cpp:455-495`; every round at least halves the number of units, so `fuel` does not run out. -/
noncomputable def collapse : ℕ → List ℕ → Reg → Reg
  | fuel + 1, r :: c :: l, R =>
    if (r :: c :: l).length % 2 = 1 then
      let s := pairs (r :: l) (R.consume r c)
      collapse fuel s.1 s.2
    else
      let s := pairs (r :: c :: l) R
      collapse fuel s.1 s.2
  | _, _, R => R

/-- `QUnit::EntangleInCurrentBasis`, `src/qunit.cpp:411-503`: the register, the unit, and what is written back to the arguments. -/
noncomputable def Reg.entangle (R : Reg) (bits : List ℕ) : Reg × ℕ × List ℕ :=
  let R' := collapse bits.length (uniq (bits.map R.unit)) R
  (R', R.unit (bits.headD 0), bits.map R'.pos)

/-- `QUnit::Entangle(std::vector<bitLenInt> bits)`, `src/qunit.cpp:519-537`, which sorts a copy of the bits. -/
noncomputable def Reg.entangleCopy (R : Reg) (bits : List ℕ) : Reg × ℕ :=
  let s := R.entangle (bits.mergeSort (· ≤ ·))
  (s.1, s.2.1)

/-- An operation on the state of one unit. -/
noncomputable def Reg.act (R : Reg) (u : ℕ) (f : (ℕ → ℂ) → ℕ → ℂ) : Reg :=
  { R with amp := Function.update R.amp u (f (R.amp u)) }

/-- The number of qubits of the different units of `bits`, `logMem` of `src/qunit.cpp:429-436`. -/
def Reg.logMem (R : Reg) (bits : List ℕ) : ℕ := ((uniq (bits.map R.unit)).map R.size).sum

/-- `QUnit::ApplyEitherControlled`, `src/qunit.cpp:2652-2725`, for the gates with one target (`CTRLED_GEN_WRAP`,
`CTRLED_PHASE_INVERT_WRAP`, `:2106-2145`). `cap` is the limit on the size of a unit (`:438-450`), `prob` is what `Prob` returns; when
the limit is exceeded the classical shadow of the gate is taken (`:2696-2722`). -/
noncomputable def Reg.either (cap : ℕ) (prob : ℕ → ℝ) (R : Reg) (controls : List ℕ) (perm target : ℕ) (a b c d : ℂ) : Reg :=
  let allBits := (controls ++ [target]).mergeSort (· ≤ ·)
  if R.logMem allBits ≤ cap then
    let s := R.entangle allBits
    s.1.act s.2.1 (gate (Matches perm (controls.map s.1.pos)) (s.1.pos target) a b c d)
  else
    let p := (controls.map prob).prod
    if 2 * p > 1 then R.act (R.unit target) (gate (Matches perm []) (R.pos target) a b c d) else R

/-- `ApplyEitherControlled` with two targets, for the swaps (`CTRLED_SWAP_WRAP`, `src/qunit.cpp:2147-2171`), when memory suffices. -/
noncomputable def Reg.eitherSwap (R : Reg) (controls : List ℕ) (anti : Bool) (q1 q2 : ℕ) (u v : ℂ) : Reg :=
  let s := R.entangle ((controls ++ [q1, q2]).mergeSort (· ≤ ·))
  s.1.act s.2.1 (exchange (AllAre (!anti) (controls.map s.1.pos)) (s.1.pos q1) (s.1.pos q2) u v)

/-- `MCPhase(controls, topLeft, bottomRight, target)`, `include/qunit.hpp:257-263`, that is `QUnit::UCPhase`,
`src/qunit.cpp:2290-2355`, and `Phase`, `:2178-2235`, when there are no controls (the controls have been trimmed already). `none` when the
unit is asked for a gate whose target is one of its controls, for which the engine is not made. -/
noncomputable def Reg.phase (R : Reg) (controls : List ℕ) (tl br : ℂ) (target : ℕ) : Option Reg :=
  match controls, decide (tl = br) with
  | [c], true => some (R.act (R.unit c) (gate (fun _ => True) (R.pos c) 1 0 0 br))
  | controls, _ =>
    if target ∈ controls then none
    else
      let s := R.entangle ((controls ++ [target]).mergeSort (· ≤ ·))
      some (s.1.act s.2.1 (gate (AllAre true (controls.map s.1.pos)) (s.1.pos target) tl 0 0 br))

/-- The qubits of a mask, lowest first, `src/qunit.cpp:1036-1042`. -/
def bitsOf (n mask : ℕ) : List ℕ := (List.range n).filter fun q => mask.testBit q

/-- `mappedMask |= pow2(shards[eIndex].mapped)`, `src/qunit.cpp:1085-1088`. -/
def maskOf (l : List ℕ) : ℕ := l.foldl (fun m p => m ||| 2 ^ p) 0

/-- The parity of the known qubits, `flipResult` of `src/qunit.cpp:1044-1059`. -/
def flipOf (known : ℕ → Option Bool) (l : List ℕ) : Bool := l.foldl (fun b q => if known q = some true then !b else b) false

/-- The diagonal operator of a unit that multiplies by `f` of the parity of the qubits of a mask, where `p` holds: `PhaseParity`,
`UniformParityRZ`, `CUniformParityRZ`, and the projection of `ForceMParity` of the engine (C07, C21). -/
def byParity (m mask : ℕ) (p : ℕ → Prop) [DecidablePred p] (f : Bool → ℂ) (s : ℕ → ℂ) (j : ℕ) : ℂ :=
  if p j then f (decide (maskCount m mask j % 2 = 1)) * s j else s j

/-- `QUnit::PhaseParity`, `src/qunit.cpp:1017-1091`; `known` is `UNSAFE_CACHED_ZERO`, `UNSAFE_CACHED_ONE`, and `none` stands for an
exception. -/
noncomputable def Reg.phaseParity (R : Reg) (known : ℕ → Option Bool) (θ : ℝ) (mask : ℕ) : Option Reg :=
  if 2 ^ R.n ≤ mask then none
  else if mask = 0 then some R
  else
    let fac : ℂ := ⟨Real.cos (θ / 2), Real.sin (θ / 2)⟩
    if (bitsOf R.n mask).length = 1 then R.phase [] (1 / fac) fac ((bitsOf R.n mask).headD 0)
    else
      let flip := flipOf known (bitsOf R.n mask)
      match (bitsOf R.n mask).filter (known · = none) with
      | [] => if flip then R.phase [] fac fac 0 else R.phase [] (1 / fac) (1 / fac) 0
      | [q] => if flip then R.phase [] fac (1 / fac) q else R.phase [] (1 / fac) fac q
      | e =>
        let s := R.entangleCopy e
        let θ' := if flip then -θ else θ
        some (s.1.act s.2 (byParity (s.1.size s.2) (maskOf (e.map s.1.pos)) (fun _ => True) fun odd =>
          ⟨Real.cos (θ' / 2), if odd then Real.sin (θ' / 2) else -Real.sin (θ' / 2)⟩))

/-- `QUnit::ZMask`, `include/qunit.hpp:252`. -/
noncomputable def Reg.zMask (R : Reg) (known : ℕ → Option Bool) (mask : ℕ) : Option Reg := R.phaseParity known Real.pi mask

/-- `QUnit::CUniformParityRZ`, `src/qunit.cpp:1216-1322`; `UniformParityRZ` is the call without controls, `include/qparity.hpp:33-36`.
`trim` is what `TrimControls` finds out about a control. When there are controls, `Entangle(ebits)` writes the places of the controls
over `controls`, and these are used as qubits from there on; and the mask was made before the units were joined. -/
noncomputable def Reg.cUniformParityRZ (R : Reg) (trim known : ℕ → Option Bool) (cs : List ℕ) (mask : ℕ) (θ : ℝ) : Option Reg :=
  if 2 ^ R.n ≤ mask then none
  else if Utils.throwIfBad cs R.n then none
  else if cs.any (fun c => trim c = some false) then some R
  else
    let controls := cs.filter (trim · = none)
    let flip := flipOf known (bitsOf R.n mask)
    let fac : ℂ := ⟨Real.cos θ, Real.sin θ⟩
    let facAdj : ℂ := ⟨Real.cos θ, -Real.sin θ⟩
    let θ' := if flip then -θ else θ
    let rz : Bool → ℂ := fun odd => ⟨Real.cos θ', if odd then Real.sin θ' else -Real.sin θ'⟩
    match (bitsOf R.n mask).filter (known · = none) with
    | [] => if flip then R.phase controls fac fac 0 else R.phase controls facAdj facAdj 0
    | [q] => if flip then R.phase controls fac facAdj q else R.phase controls facAdj fac q
    | e =>
      let s := R.entangleCopy e
      let mappedMask := maskOf (e.map s.1.pos)
      if controls = [] then some (s.1.act s.2 (byParity (s.1.size s.2) mappedMask (fun _ => True) rz))
      else
        let s2 := s.1.entangle controls
        let controls := s2.2.2
        let s3 := s2.1.entangleCopy [controls.headD 0, e.headD 0]
        some (s3.1.act s3.2 (byParity (s3.1.size s3.2) mappedMask (AllAre true (controls.map s3.1.pos)) rz))

/-- `QUnit::ForceMParity`, `src/qunit.cpp:1151-1214`: the result and the state, not rescaled. `r` is what the measurement of the unit
gives, which is `result ^ flipResult` when the result is forced. `none` stands for an exception. -/
noncomputable def Reg.forceMParity (R : Reg) (known : ℕ → Option Bool) (mask : ℕ) (r : Bool) : Option (Bool × Reg) :=
  if 2 ^ R.n ≤ mask then none
  else if mask = 0 then some (false, R)
  else
    let one (q : ℕ) : Reg := R.act (R.unit q) fun s j => if j.testBit (R.pos q) = r then s j else 0
    if (bitsOf R.n mask).length = 1 then some (r, one ((bitsOf R.n mask).headD 0))
    else
      let flip := flipOf known (bitsOf R.n mask)
      match (bitsOf R.n mask).filter (known · = none) with
      | [] => some (flip, R)
      | [q] => some (flip ^^ r, one q)
      | e =>
        let s := R.entangleCopy e
        some (flip ^^ r, s.1.act s.2 (byParity (s.1.size s.2) (maskOf (e.map s.1.pos)) (fun _ => True) fun odd => if odd = r then 1 else 0))

end Verif.QUE
