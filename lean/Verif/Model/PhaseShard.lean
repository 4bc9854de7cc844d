import Verif.Spec.Circuit

/-!
# Model of the buffered two-qubit gates of `QUnit`

`include/qengineshard.hpp`, `src/qengineshard.cpp`, and the part of `src/qunit.cpp` that fills, commutes and flushes the
buffers: `H` 2012-2034, `S` 2036-2067, `Phase` 2178-2234, `Invert` 2236-2287, `UCPhase` 2289-2354, `UCInvert` 2356-2416,
`Mtrx` 2418-2462, `ApplyEitherControlled` 2650-2674, `ToPermBasisMeasure` 2756-2785, `ApplyBuffer` 3900-3920,
`ApplyBufferMap` 4008-4069, `RevertBasis2Qb` 4071-4121, `CommuteH` 4123-4224, `OptimizePairBuffers` 4226-4302.

Shards are identified by their qubit. A `PhaseShard` object is registered twice, in a map of its control and in a map of its
target, and both registrations are made and removed together (`AddBuffer`, `RemoveBuffer`); here there is one map from
(kind, control, target) to buffers. The maps are iterated in the order of the addresses of the shards, which is the list
`ord`. A loop over a copy of a map whose iterations only touch the entries of their own partner is a loop over `ord` that
reads the current map. Tests for closeness (`IS_SAME`, `IS_ARG_0`, ...) are exact.

The gates that reach the state vector (`base`) are taken to act as specified: the choice of the Pauli basis of a shard,
entangling and separating units, dropping of controls in an eigenstate (`TrimControls`) and the approximations after
`bad_alloc` are not modelled.
-/

namespace Verif.Phase

open Verif.Matrix2 Verif.Spec.Circuit Classical

/-- `PhaseShard`, `include/qengineshard.hpp:31-42`. -/
structure PhaseShard where
  diff : ℂ
  same : ℂ
  inv : Bool

/-- `PhaseShard()`, `include/qengineshard.hpp:36-41`. -/
def PhaseShard.fresh : PhaseShard := ⟨1, 1, false⟩

/-- `std::swap(buffer->cmplxDiff, buffer->cmplxSame)`. -/
def PhaseShard.swapped (b : PhaseShard) : PhaseShard := { b with diff := b.same, same := b.diff }

/-- `!isInvert && IS_ARG_0(cmplxDiff) && IS_ARG_0(cmplxSame)`. -/
def PhaseShard.IsId (b : PhaseShard) : Prop := b.inv = false ∧ b.diff = 1 ∧ b.same = 1

/-- Where a buffer is registered: (anti-)controlled, the control, the target. -/
@[ext]
structure Key (Q : Type) where
  anti : Bool
  ctrl : Q
  tgt : Q
  deriving DecidableEq

variable {Q : Type} [DecidableEq Q]

/-- The maps `controlsShards`, `antiControlsShards`, `targetOfShards`, `antiTargetOfShards` of all shards,
`include/qengineshard.hpp:66-73`. -/
abbrev Bufs (Q : Type) := Key Q → Option PhaseShard

/-- `RemoveBuffer`, `src/qengineshard.cpp:74-81`. -/
def remove (m : Bufs Q) (k : Key Q) : Bufs Q := Function.update m k none

/-- `AddBuffer`, `src/qengineshard.cpp:112-119`. -/
def addBuffer (m : Bufs Q) (k : Key Q) : Bufs Q :=
  match m k with
  | none => Function.update m k (some PhaseShard.fresh)
  | some _ => m

/-- Change the buffer that the maps hold at `k`. -/
def modify (m : Bufs Q) (k : Key Q) (f : PhaseShard → PhaseShard) : Bufs Q := Function.update m k ((m k).map f)

/-- `z /= abs(z)`. -/
noncomputable def unit (z : ℂ) : ℂ := z / (‖z‖ : ℝ)

/-- `AddAngles`, `src/qengineshard.cpp:121-142`: `AddPhaseAngles` (`k.anti = false`) and `AddAntiPhaseAngles`,
`include/qengineshard.hpp:197-206`. -/
noncomputable def addAngles (m : Bufs Q) (k : Key Q) (cmplxDiff cmplxSame : ℂ) : Bufs Q :=
  let m := addBuffer m k
  match m k with
  | none => m
  | some b =>
    let nd := unit (b.diff * cmplxDiff)
    let ns := unit (b.same * cmplxSame)
    if b.inv = false ∧ nd = 1 ∧ ns = 1 then remove m k
    else Function.update m k (some { b with diff := nd, same := ns })

/-- `AddInversionAngles`, `AddAntiInversionAngles`, `include/qengineshard.hpp:207-220`. -/
noncomputable def addInversion (m : Bufs Q) (k : Key Q) (cmplxDiff cmplxSame : ℂ) : Bufs Q :=
  let m := addBuffer m k
  let m := modify m k fun b => { b.swapped with inv := !b.inv }
  addAngles m k cmplxDiff cmplxSame

/-- `OptimizeControls`, `OptimizeAntiControls` of shard `s`: `OptimizeBuffer` with `makeThisControl = false`,
`src/qengineshard.cpp:144-166`, `include/qengineshard.hpp:226-243`. -/
noncomputable def optimizeControls (ord : List Q) (a : Bool) (s : Q) (m : Bufs Q) : Bufs Q :=
  ord.foldl (fun m p =>
    match m ⟨a, s, p⟩ with
    | none => m
    | some b =>
      if b.inv = true ∨ b.diff ≠ 1 then m else addAngles (remove m ⟨a, s, p⟩) ⟨a, p, s⟩ 1 b.same) m

/-- `OptimizeTargets`, `OptimizeAntiTargets` of shard `s`: `OptimizeBuffer` with `makeThisControl = true`. -/
noncomputable def optimizeTargets (ord : List Q) (a : Bool) (s : Q) (m : Bufs Q) : Bufs Q :=
  ord.foldl (fun m p =>
    match m ⟨a, p, s⟩ with
    | none => m
    | some b =>
      if b.inv = true ∨ b.diff ≠ 1 then m else addAngles (remove m ⟨a, p, s⟩) ⟨a, s, p⟩ 1 b.same) m

/-- One loop of `OptimizeBothTargets`, `src/qengineshard.cpp:168-209`. -/
noncomputable def optimizeBothTargetsLoop (ord : List Q) (a : Bool) (s : Q) (m : Bufs Q) : Bufs Q :=
  ord.foldl (fun m p =>
    match m ⟨a, p, s⟩ with
    | none => m
    | some b =>
      if b.inv = true then m
      else if b.diff = 1 then addAngles (remove m ⟨a, p, s⟩) ⟨a, s, p⟩ 1 b.same
      else if b.same = 1 then addAngles (remove m ⟨a, p, s⟩) ⟨!a, s, p⟩ b.diff 1
      else m) m

/-- `OptimizeBothTargets`, `src/qengineshard.cpp:168-209`. -/
noncomputable def optimizeBothTargets (ord : List Q) (s : Q) (m : Bufs Q) : Bufs Q :=
  optimizeBothTargetsLoop ord true s (optimizeBothTargetsLoop ord false s m)

/-- `CombineBuffers` of shard `s`, `src/qengineshard.cpp:211-237`. -/
noncomputable def combineBuffers (ord : List Q) (a : Bool) (s : Q) (m : Bufs Q) : Bufs Q :=
  ord.foldl (fun m p =>
    match m ⟨a, s, p⟩, m ⟨a, p, s⟩ with
    | some b1, some b2 =>
      if b1.inv = false ∧ b1.diff = 1 then addAngles (remove m ⟨a, s, p⟩) ⟨a, p, s⟩ 1 b1.same
      else if b2.inv = false ∧ b2.diff = 1 then addAngles (remove m ⟨a, p, s⟩) ⟨a, s, p⟩ 1 b2.same
      else m
    | _, _ => m) m

/-- `CombineGates`, `include/qengineshard.hpp:252-258`. -/
noncomputable def combineGates (ord : List Q) (s : Q) (m : Bufs Q) : Bufs Q :=
  combineBuffers ord true s (combineBuffers ord false s m)

/-- `SwapTargetAnti`, `src/qengineshard.cpp:239-256`, on target `t`; with no buffer at all (undefined behaviour) it is not
called. -/
def swapTargetAnti (c t : Q) (m : Bufs Q) : Bufs Q :=
  match m ⟨false, c, t⟩, m ⟨true, c, t⟩ with
  | none, none => m
  | some b, none => remove (Function.update m ⟨true, c, t⟩ (some b.swapped)) ⟨false, c, t⟩
  | none, some b => remove (Function.update m ⟨false, c, t⟩ (some b.swapped)) ⟨true, c, t⟩
  | some b, some b' =>
    Function.update (Function.update m ⟨false, c, t⟩ (some b'.swapped)) ⟨true, c, t⟩ (some b.swapped)

/-- `FlipPhaseAnti` of shard `s`, `src/qengineshard.cpp:258-279`. -/
def flipPhaseAnti (ord : List Q) (s : Q) (m : Bufs Q) : Bufs Q :=
  let m := ord.foldl (fun m p =>
    if (m ⟨false, s, p⟩).isSome || (m ⟨true, s, p⟩).isSome then swapTargetAnti s p m else m) m
  let m := ord.foldl (fun m p => modify m ⟨false, p, s⟩ PhaseShard.swapped) m
  ord.foldl (fun m p => modify m ⟨true, p, s⟩ PhaseShard.swapped) m

/-- One loop of `CommutePhase` of shard `s`, `src/qengineshard.cpp:283-291`: the first buffer that does not invert ends the
whole function. The flag says whether it returned. -/
def commutePhaseLoop (ord : List Q) (a : Bool) (s : Q) (f : PhaseShard → PhaseShard) (r : Bufs Q × Bool) : Bufs Q × Bool :=
  ord.foldl (fun r p =>
    match r.1 ⟨a, p, s⟩ with
    | none => r
    | some b =>
      if r.2 then r
      else if b.inv = false then (r.1, true)
      else (modify r.1 ⟨a, p, s⟩ f, false)) r

/-- `CommutePhase` of shard `s`, `src/qengineshard.cpp:281-302`. -/
noncomputable def commutePhase (ord : List Q) (s : Q) (topLeft bottomRight : ℂ) (m : Bufs Q) : Bufs Q :=
  (commutePhaseLoop ord true s
    (fun b => { b with diff := b.diff * (bottomRight / topLeft), same := b.same * (topLeft / bottomRight) })
    (commutePhaseLoop ord false s
      (fun b => { b with diff := b.diff * (topLeft / bottomRight), same := b.same * (bottomRight / topLeft) })
      (m, false))).1

/-- `RemoveIdentityBuffers` on the map of buffers that target `s`, `src/qengineshard.cpp:304-322`. -/
noncomputable def removeIdentityBuffers (ord : List Q) (a : Bool) (s : Q) (m : Bufs Q) : Bufs Q :=
  ord.foldl (fun m p =>
    match m ⟨a, p, s⟩ with
    | none => m
    | some b => if b.IsId then remove m ⟨a, p, s⟩ else m) m

/-- The body of the loops of `CommuteH`: `neg` is the entry that changes its sign. -/
noncomputable def commuteHBuffer (a : Bool) (b : PhaseShard) : PhaseShard :=
  let neg (b : PhaseShard) : PhaseShard := if a then { b with diff := -b.diff } else { b with same := -b.same }
  if ‖b.diff - b.same‖ < 1 then
    if b.inv = true then neg { b with inv := false } else b
  else if b.inv = true then b.swapped
  else { neg b with inv := true }

/-- `QEngineShard::CommuteH`, `src/qengineshard.cpp:343-383`. -/
noncomputable def shardCommuteH (ord : List Q) (s : Q) (m : Bufs Q) : Bufs Q :=
  let m := ord.foldl (fun m p => modify m ⟨false, p, s⟩ (commuteHBuffer false)) m
  let m := removeIdentityBuffers ord false s m
  let m := ord.foldl (fun m p => modify m ⟨true, p, s⟩ (commuteHBuffer true)) m
  removeIdentityBuffers ord true s m

/-- `RemovePhaseBuffers` on one map: `src/qengineshard.cpp:324-341`; `key p` is the entry of partner `p`. -/
def removePhaseBuffers (ord : List Q) (key : Q → Key Q) (m : Bufs Q) : Bufs Q :=
  ord.foldl (fun m p =>
    match m (key p) with
    | none => m
    | some b => if b.inv = false then remove m (key p) else m) m

/-- `DumpPhaseBuffers` of shard `s`, `include/qengineshard.hpp:271-277`. -/
def dumpPhaseBuffers (ord : List Q) (s : Q) (m : Bufs Q) : Bufs Q :=
  let m := removePhaseBuffers ord (fun p => ⟨false, p, s⟩) m
  let m := removePhaseBuffers ord (fun p => ⟨true, p, s⟩) m
  let m := removePhaseBuffers ord (fun p => ⟨false, s, p⟩) m
  removePhaseBuffers ord (fun p => ⟨true, s, p⟩) m

/-- `ClearMapInvertPhase`, `src/qengineshard.cpp:419-427`. -/
def clearMapInvertPhase (ord : List Q) (key : Q → Key Q) (m : Bufs Q) : Bufs Q :=
  ord.foldl (fun m p => modify m (key p) fun b => if b.inv = true then { b with diff := 1, same := 1 } else b) m

/-- `ClearInvertPhase` of shard `s`, `include/qengineshard.hpp:286-294`. -/
def clearInvertPhase (ord : List Q) (s : Q) (m : Bufs Q) : Bufs Q :=
  let m := clearMapInvertPhase ord (fun p => ⟨false, s, p⟩) m
  let m := clearMapInvertPhase ord (fun p => ⟨true, s, p⟩) m
  let m := clearMapInvertPhase ord (fun p => ⟨false, p, s⟩) m
  clearMapInvertPhase ord (fun p => ⟨true, p, s⟩) m

/-- `DumpMultiBit` of shard `s`, `src/qengineshard.cpp:50-72`. -/
def dumpMultiBit (ord : List Q) (s : Q) (m : Bufs Q) : Bufs Q :=
  ord.foldl (fun m p =>
    remove (remove (remove (remove m ⟨false, s, p⟩) ⟨false, p, s⟩) ⟨true, s, p⟩) ⟨true, p, s⟩) m

/-! ### `QUnit` -/

/-- A `QUnit`: the buffers, and the state to which they are still to be applied. -/
structure QUnit (Q : Type) where
  bufs : Bufs Q
  base : St Q

/-- The matrix that a buffer stands for, `src/qunit.cpp:3909-3921`. -/
def bufMtrx (a : Bool) (b : PhaseShard) : Mtrx :=
  match a, b.inv with
  | false, false => ⟨b.diff, 0, 0, b.same⟩
  | false, true => ⟨0, b.diff, b.same, 0⟩
  | true, false => ⟨b.same, 0, 0, b.diff⟩
  | true, true => ⟨0, b.same, b.diff, 0⟩

/-- `ApplyBuffer`, `src/qunit.cpp:3900-3921`. -/
def applyBuffer (u : QUnit Q) (k : Key Q) (b : PhaseShard) : QUnit Q :=
  { u with base := onWhen (fun s => s k.ctrl == !k.anti) k.tgt (bufMtrx k.anti b) u.base }

/-- `RevertExclusivity`, `RevertControl`, `RevertAnti`, `include/qunit.hpp:974-976`. -/
inductive Excl where
  | both
  | onlyInvert
  | onlyPhase
  deriving DecidableEq
inductive Side where
  | both
  | onlyControls
  | onlyTargets
  deriving DecidableEq
inductive Kind where
  | both
  | onlyCtrl
  | onlyAnti
  deriving DecidableEq

/-- `ApplyBufferMap` with `dumpSkipped = false`, `src/qunit.cpp:4008-4069`; `key p` is the entry of partner `p`. -/
def applyBufferMap (ord : List Q) (key : Q → Key Q) (excl : Excl) (except : Q → Bool) (u : QUnit Q) : QUnit Q :=
  ord.foldl (fun u p =>
    match u.bufs (key p) with
    | none => u
    | some b =>
      if (excl = .onlyInvert ∧ b.inv = false) ∨ (excl = .onlyPhase ∧ b.inv = true) then u
      else if except p then u
      else applyBuffer { u with bufs := remove u.bufs (key p) } (key p) b) u

/-- The optimisations at the head of `RevertBasis2Qb`, `src/qunit.cpp:4085-4100`. -/
noncomputable def revertOptimize (ord : List Q) (i : Q) (excl : Excl) (side : Side) (kind : Kind) (skip : Bool)
    (m : Bufs Q) : Bufs Q :=
  if skip = false ∧ side = .onlyControls ∧ excl ≠ .onlyInvert then
    let m := if kind ≠ .onlyAnti then optimizeControls ord false i m else m
    if kind ≠ .onlyCtrl then optimizeControls ord true i m else m
  else if skip = false ∧ side = .onlyTargets ∧ excl ≠ .onlyInvert then
    match kind with
    | .both => optimizeBothTargets ord i m
    | .onlyCtrl => optimizeTargets ord false i m
    | .onlyAnti => optimizeTargets ord true i m
  else m

/-- `RevertBasis2Qb`, `src/qunit.cpp:4071-4121`, when not frozen. The early exit when nothing is queued is left out: nothing
would happen. -/
noncomputable def revertBasis2Qb (ord : List Q) (i : Q) (excl : Excl) (side : Side) (kind : Kind)
    (exceptControlling exceptTargetedBy : Q → Bool) (skip : Bool) (u : QUnit Q) : QUnit Q :=
  let u := { u with bufs := revertOptimize ord i excl side kind skip (combineGates ord i u.bufs) }
  let u :=
    if side ≠ .onlyTargets then
      let u := if kind ≠ .onlyAnti then applyBufferMap ord (fun p => ⟨false, i, p⟩) excl exceptControlling u else u
      if kind ≠ .onlyCtrl then applyBufferMap ord (fun p => ⟨true, i, p⟩) excl exceptControlling u else u
    else u
  if side = .onlyControls then u
  else
    let u := if kind ≠ .onlyAnti then applyBufferMap ord (fun p => ⟨false, p, i⟩) excl exceptTargetedBy u else u
    if kind ≠ .onlyCtrl then applyBufferMap ord (fun p => ⟨true, p, i⟩) excl exceptTargetedBy u else u

/-- `{}`: no exceptions. -/
def noOne : Q → Bool := fun _ => false

/-- `RevertBasis2Qb(i)`. -/
noncomputable def revertAll (ord : List Q) (i : Q) (u : QUnit Q) : QUnit Q :=
  revertBasis2Qb ord i .both .both .both noOne noOne false u

/-- `RevertBasis2Qb(i, ONLY_INVERT, ONLY_TARGETS)`, also the two-qubit part of `ToPermBasisProb`,
`include/qunit.hpp:1018-1022`. -/
noncomputable def revertInvertTargets (ord : List Q) (i : Q) (u : QUnit Q) : QUnit Q :=
  revertBasis2Qb ord i .onlyInvert .onlyTargets .both noOne noOne false u

/-- The first two loops of `QUnit::CommuteH`, `src/qunit.cpp:4131-4173`. -/
noncomputable def commuteHMove (ord : List Q) (i : Q) (m : Bufs Q) : Bufs Q :=
  let m := ord.foldl (fun m p =>
    match m ⟨false, i, p⟩ with
    | none => m
    | some b =>
      if b.inv = true then m
      else if b.diff = 1 ∧ b.same = -1 then addAngles (remove m ⟨false, i, p⟩) ⟨false, p, i⟩ 1 (-1)
      else if b.diff = -1 ∧ b.same = 1 then addAngles (remove m ⟨false, i, p⟩) ⟨true, p, i⟩ (-1) 1
      else m) m
  ord.foldl (fun m p =>
    match m ⟨true, i, p⟩ with
    | none => m
    | some b =>
      if b.inv = true then m
      else if b.diff = 1 ∧ b.same = -1 then addAngles (remove m ⟨true, i, p⟩) ⟨true, p, i⟩ 1 (-1)
      else if b.diff = -1 ∧ b.same = 1 then addAngles (remove m ⟨true, i, p⟩) ⟨false, p, i⟩ (-1) 1
      else m) m

/-- The last two loops of `QUnit::CommuteH`, `src/qunit.cpp:4179-4221`: flush what does not commute. -/
noncomputable def commuteHFlush (ord : List Q) (a : Bool) (i : Q) (u : QUnit Q) : QUnit Q :=
  ord.foldl (fun u p =>
    match u.bufs ⟨a, p, i⟩ with
    | none => u
    | some b =>
      if b.diff = b.same then u
      else if b.inv = true ∧ b.diff = -b.same then u
      else applyBuffer { u with bufs := remove u.bufs ⟨a, p, i⟩ } ⟨a, p, i⟩ b) u

/-- `QUnit::CommuteH`, `src/qunit.cpp:4123-4224`. -/
noncomputable def commuteH (ord : List Q) (i : Q) (u : QUnit Q) : QUnit Q :=
  let u := { u with bufs := commuteHMove ord i u.bufs }
  let u := revertBasis2Qb ord i .both .onlyControls .both noOne noOne true u
  let u := commuteHFlush ord false i u
  let u := commuteHFlush ord true i u
  { u with bufs := shardCommuteH ord i u.bufs }

/-- The Hadamard matrix. -/
noncomputable def hadamard : Mtrx :=
  ⟨((1 / Real.sqrt 2 : ℝ) : ℂ), ((1 / Real.sqrt 2 : ℝ) : ℂ), ((1 / Real.sqrt 2 : ℝ) : ℂ), ((-(1 / Real.sqrt 2) : ℝ) : ℂ)⟩

/-- `QUnit::H`, `src/qunit.cpp:2012-2034`; `clifford` is the test on lines 2019-2020. -/
noncomputable def gateH (ord : List Q) (clifford : Bool) (t : Q) (u : QUnit Q) : QUnit Q :=
  let u := if clifford then revertAll ord t u else commuteH ord t u
  { u with base := onQubit t hadamard u.base }

/-- `QUnit::Phase`, `src/qunit.cpp:2178-2236` (with `randGlobalPhase` off), and `S`, `IS`, 2036-2102. -/
noncomputable def gatePhase (ord : List Q) (clifford : Bool) (topLeft bottomRight : ℂ) (t : Q) (u : QUnit Q) : QUnit Q :=
  let u := if clifford then revertAll ord t u else { u with bufs := commutePhase ord t topLeft bottomRight u.bufs }
  { u with base := onQubit t ⟨topLeft, 0, 0, bottomRight⟩ u.base }

/-- `QUnit::Invert`, `src/qunit.cpp:2238-2288`. -/
noncomputable def gateInvert (ord : List Q) (clifford : Bool) (topRight bottomLeft : ℂ) (t : Q) (u : QUnit Q) : QUnit Q :=
  let u := if clifford then revertAll ord t u
    else { u with bufs := commutePhase ord t topRight bottomLeft (flipPhaseAnti ord t u.bufs) }
  { u with base := onQubit t ⟨0, topRight, bottomLeft, 0⟩ u.base }

/-- `QUnit::Mtrx` of any other matrix, `src/qunit.cpp:2449-2475`. -/
noncomputable def gateMtrx (ord : List Q) (m : Mtrx) (t : Q) (u : QUnit Q) : QUnit Q :=
  let u := revertAll ord t u
  { u with base := onQubit t m u.base }

/-- The controls `cs` have the listed values. -/
def valuesAre (cs : List (Q × Bool)) (s : Q → Bool) : Bool := cs.all fun c => s c.1 == c.2

/-- `ApplyEitherControlled` with one target, `src/qunit.cpp:2650-2695`. -/
noncomputable def applyEitherControlled (ord : List Q) (cs : List (Q × Bool)) (t : Q) (isPhase : Bool) (m : Mtrx)
    (u : QUnit Q) : QUnit Q :=
  let u := cs.foldl (fun u c => revertInvertTargets ord c.1 u) u
  let u := if isPhase then revertInvertTargets ord t u else revertAll ord t u
  { u with base := onWhen (valuesAre cs) t m u.base }

/-- `OptimizePairBuffers`, `src/qunit.cpp:4226-4302`; `sameUnit` is `IS_SAME_UNIT`. -/
noncomputable def optimizePairBuffers (ord : List Q) (clifford sameUnit : Bool) (k : Key Q) (u : QUnit Q) : QUnit Q :=
  match u.bufs k with
  | none => u
  | some buffer =>
    if buffer.inv = false ∧ buffer.diff = 1 ∧ buffer.same = 1 then { u with bufs := remove u.bufs k }
    else if buffer.inv = false ∧ sameUnit = true then applyBuffer { u with bufs := remove u.bufs k } k buffer
    else
      let k' : Key Q := { k with anti := !k.anti }
      match u.bufs k' with
      | none => u
      | some aBuffer =>
        if buffer.inv ≠ aBuffer.inv then u
        else
          let isInvert := buffer.inv
          let (b, ab) := if k.anti then (aBuffer, buffer) else (buffer, aBuffer)
          let kc : Key Q := { k with anti := false }
          let ka : Key Q := { k with anti := true }
          let u := if isInvert then
              { bufs := modify (modify u.bufs kc fun b => { b with inv := false }) ka fun b => { b with inv := false }
                base := onQubit k.tgt ⟨0, 1, 1, 0⟩ u.base }
            else u
          if b.diff = ab.same ∧ b.same = ab.diff then
            gatePhase ord clifford b.diff b.same k.tgt { u with bufs := remove (remove u.bufs kc) ka }
          else if isInvert then
            let u := if b.diff = 1 ∧ b.same = 1 then { u with bufs := remove u.bufs kc } else u
            if ab.diff = 1 ∧ ab.same = 1 then { u with bufs := remove u.bufs ka } else u
          else u

/-- `QUnit::UCPhase` with one control, `src/qunit.cpp:2290-2356`: `v` is the value of the control that fires; `buffered` is
the test on lines 2339-2342. -/
noncomputable def ucPhase (ord : List Q) (clifford buffered sameUnit : Bool) (c : Q) (v : Bool) (topLeft bottomRight : ℂ) (t : Q)
    (u : QUnit Q) : QUnit Q :=
  if topLeft = 1 ∧ bottomRight = 1 then u
  else if topLeft = bottomRight then
    if v then gatePhase ord clifford 1 bottomRight c u else gatePhase ord clifford topLeft 1 c u
  else
    let u := revertInvertTargets ord c u
    let only : Q → Bool := fun p => decide (p = c)
    let u :=
      if v then
        revertBasis2Qb ord t .onlyInvert .onlyTargets .onlyCtrl noOne only false
          (revertBasis2Qb ord t .onlyInvert .onlyTargets .onlyAnti noOne noOne false u)
      else
        revertBasis2Qb ord t .onlyInvert .onlyTargets .onlyAnti noOne only false
          (revertBasis2Qb ord t .onlyInvert .onlyTargets .onlyCtrl noOne noOne false u)
    if buffered then
      if v then
        optimizePairBuffers ord clifford sameUnit ⟨false, c, t⟩
          { u with bufs := addAngles u.bufs ⟨false, c, t⟩ topLeft bottomRight }
      else
        optimizePairBuffers ord clifford sameUnit ⟨true, c, t⟩
          { u with bufs := addAngles u.bufs ⟨true, c, t⟩ bottomRight topLeft }
    else applyEitherControlled ord [(c, v)] t true ⟨topLeft, 0, 0, bottomRight⟩ u

/-- `QUnit::UCInvert` with one control, `src/qunit.cpp:2358-2418`. -/
noncomputable def ucInvert (ord : List Q) (clifford buffered sameUnit : Bool) (c : Q) (v : Bool) (topRight bottomLeft : ℂ) (t : Q)
    (u : QUnit Q) : QUnit Q :=
  let u := revertInvertTargets ord c u
  let only : Q → Bool := fun p => decide (p = c)
  let u :=
    if v then
      revertBasis2Qb ord t .both .both .onlyCtrl noOne only false
        (revertBasis2Qb ord t .both .both .onlyAnti noOne noOne false u)
    else
      revertBasis2Qb ord t .both .both .onlyAnti noOne only false
        (revertBasis2Qb ord t .both .both .onlyCtrl noOne noOne false u)
  if buffered then
    if v then
      optimizePairBuffers ord clifford sameUnit ⟨false, c, t⟩
        { u with bufs := addInversion u.bufs ⟨false, c, t⟩ topRight bottomLeft }
    else
      optimizePairBuffers ord clifford sameUnit ⟨true, c, t⟩
        { u with bufs := addInversion u.bufs ⟨true, c, t⟩ bottomLeft topRight }
  else applyEitherControlled ord [(c, v)] t false ⟨0, topRight, bottomLeft, 0⟩ u

/-- `ToPermBasisMeasure(qubit)`, `include/qunit.hpp:1034-1041`, called by `ForceM` with `doApply = false`
(`src/qunit.cpp:1384-1389`). -/
noncomputable def toPermBasisMeasure (ord : List Q) (i : Q) (u : QUnit Q) : QUnit Q :=
  let u := revertBasis2Qb ord i .onlyInvert .both .both noOne noOne false u
  let u := revertBasis2Qb ord i .onlyPhase .onlyControls .both noOne noOne false u
  { u with bufs := dumpMultiBit ord i u.bufs }

/-- `ToPermBasisAll`, `include/qunit.hpp:1009-1017,1032`: flush every buffer. -/
noncomputable def toPermBasisAll (ord : List Q) (u : QUnit Q) : QUnit Q := ord.foldl (fun u q => revertAll ord q u) u

/-- `ToPermBasisProb` on a list of qubits, `include/qunit.hpp:1023-1031`: what precedes reading probabilities. -/
noncomputable def toPermBasisProb (ord : List Q) (qs : List Q) (u : QUnit Q) : QUnit Q :=
  qs.foldl (fun u q => revertInvertTargets ord q u) u

/-- `DumpControlOf`, `DumpAntiControlOf` of shard `s`: `DumpBuffer`, `src/qengineshard.cpp:83-91`,
`include/qengineshard.hpp:163-167`. -/
noncomputable def dumpControlOf (ord : List Q) (a : Bool) (s : Q) (m : Bufs Q) : Bufs Q :=
  ord.foldl (fun m p => remove m ⟨a, s, p⟩) (optimizeTargets ord a s m)

/-- `Flush0Eigenstate` (`v = false`) and `Flush1Eigenstate`, `include/qunit.hpp:986-1003`, with `randGlobalPhase` off. -/
noncomputable def flushEigenstate (ord : List Q) (v : Bool) (i : Q) (u : QUnit Q) : QUnit Q :=
  let u := { u with bufs := dumpControlOf ord v i u.bufs }
  revertBasis2Qb ord i .both .onlyControls (if v then .onlyCtrl else .onlyAnti) noOne noOne false u

/-- Keep the amplitudes in which qubit `q` is `v`. -/
def project (q : Q) (v : Bool) (ψ : St Q) : St Q := fun b => if b q = v then ψ b else 0

/-- `ForceM` with `doApply = true` and outcome `v`, `src/qunit.cpp:1378-1454`; the state is not normalised. -/
noncomputable def forceM (ord : List Q) (v : Bool) (i : Q) (u : QUnit Q) : QUnit Q :=
  let u := revertInvertTargets ord i u
  flushEigenstate ord v i { u with base := project i v u.base }

/-- The handling of the buffers at the head of `MAll`, `src/qunit.cpp:1480-1483`. -/
def mAllBuffers (ord : List Q) (m : Bufs Q) : Bufs Q :=
  ord.foldl (fun m s => clearInvertPhase ord s (dumpPhaseBuffers ord s m)) m

end Verif.Phase
