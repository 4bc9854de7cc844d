import Verif.Model.EngineCompose

/-!
# Model of the ownership of state vectors

`QEngineCPU` holds its amplitudes through a shared pointer (`stateVec`, `include/qengine_cpu.hpp:38`). Here engines are
objects that hold the address of an array, or no array at all.

What an operation computes is left to the other models (`F` below stands for one of their functions); this file says
where the result is stored:
* in place: `Apply2x2`, `XMask`, `PhaseParity`, `PhaseRootNMask`, `UniformlyControlledSingleBit`, `UniformParityRZ`,
  `ApplyM`, `ForceMParity`, `NormalizeState`, `CPhaseFlipIfLess`, `PhaseFlipIfLess` (`src/qengine/state.cpp:333-924,
  1557-1730`, `src/qengine/arithmetic.cpp`), `SetPermutation`, `SetQuantumState`, `SetAmplitude`, `SetAmplitudePage`
  (`src/qengine/state.cpp:75-260`);
* in a new array that replaces the old one (`ResetStateVec(nStateVec)`): `ROL`, `INC`, `CINC`, `INCDECC`, `MUL`, `DIV` and
  the rest of `src/qengine/arithmetic.cpp`, `Compose`, `Decompose`, `Dispose`.

Simplification: an operation that leaves only zeros may release the array (`ZeroAmplitudes`); the model either keeps an
array of zeros or uses `Op.zero`. An operation in place on an engine without an array allocates one (most of the gates
return at once instead; the values are the same).
-/

namespace Verif.Engine

open Classical

/-- A `QEngineCPU` object: like `Eng`, with the address of the array. -/
structure Obj where
  n : ℕ
  ptr : Option ℕ
  rn : ℝ
  doNorm : Bool
  rgp : Bool
  floor : ℝ

/-- Arrays by address, the next unused address, objects by number, the next unused number. -/
structure World where
  heap : ℕ → ℕ → ℂ
  next : ℕ
  objs : ℕ → Obj
  count : ℕ

/-- What is seen through an object. -/
noncomputable def World.seen (w : World) (x : ℕ) : Eng :=
  let o := w.objs x
  { n := o.n, amp := match o.ptr with | none => fun _ => 0 | some p => w.heap p,
    rn := o.rn, doNorm := o.doNorm, rgp := o.rgp, floor := o.floor }

/-- The fields of the result of an operation, with the given array. -/
def Eng.obj (e : Eng) (ptr : Option ℕ) : Obj :=
  { n := e.n, ptr := ptr, rn := e.rn, doNorm := e.doNorm, rgp := e.rgp, floor := e.floor }

/-- `ResetStateVec(AllocStateVec(...))` and fill: `src/qengine/state.cpp:988-991` and the other call sites. -/
noncomputable def World.putFresh (w : World) (x : ℕ) (e : Eng) : World :=
  { w with heap := Function.update w.heap w.next e.amp, next := w.next + 1,
           objs := Function.update w.objs x (e.obj (some w.next)) }

/-- `stateVec->write(...)`. -/
noncomputable def World.put (w : World) (x : ℕ) (e : Eng) : World :=
  match (w.objs x).ptr with
  | none => w.putFresh x e
  | some p => { w with heap := Function.update w.heap p e.amp, objs := Function.update w.objs x (e.obj (some p)) }

/-- `ZeroAmplitudes`, `include/qengine_cpu.hpp:94-99`. -/
noncomputable def World.zero (w : World) (x : ℕ) : World :=
  { w with objs := Function.update w.objs x { w.objs x with ptr := none, rn := 0 } }

/-- `CloneEmpty`, `src/qengine/utility.cpp:34-42`: the constructor with no qubits calls `ZeroAmplitudes`. -/
noncomputable def World.cloneEmpty (w : World) (x : ℕ) : World :=
  { w with objs := Function.update w.objs w.count { w.objs x with ptr := none, rn := 0 }, count := w.count + 1 }

/-- `Clone`, `src/qengine/utility.cpp:17-32`. -/
noncomputable def World.clone (w : World) (x : ℕ) : World :=
  match (w.objs x).ptr with
  | none => w.cloneEmpty x
  | some _ => { w.putFresh w.count (w.seen x) with count := w.count + 1 }

/-- `Copy()`, `src/qengine/utility.cpp:44-50`. -/
noncomputable def World.copy (w : World) (x : ℕ) : World :=
  let w' := w.cloneEmpty x
  { w' with objs := Function.update w'.objs w.count { w'.objs w.count with ptr := (w.objs x).ptr } }

/-- The operations of the public interface, by where they store their results. -/
inductive Op where
  /-- gates, measurements, setters: see the head of the file -/
  | inPlace (x : ℕ) (F : Eng → Option Eng)
  /-- arithmetic, `Dispose` -/
  | fresh (x : ℕ) (F : Eng → Option Eng)
  /-- `ZeroAmplitudes` -/
  | zero (x : ℕ)
  /-- `SetAmplitudePage(engine, ...)`, `CopyStateVec`: `src/qengine/state.cpp:94-127, 160-180` -/
  | inPlaceFrom (x y : ℕ) (F : Eng → Eng → Option Eng)
  /-- `ShuffleBuffers`: `src/qengine/state.cpp:129-158` -/
  | shuffle (x y : ℕ) (F : Eng → Eng → Option (Eng × Eng))
  /-- `Compose`: the argument may be normalised, in place: `src/qengine/state.cpp:980-982` -/
  | compose (x y : ℕ) (F : Eng → Eng → Option (Eng × Eng))
  /-- `Decompose`: the destination is written in place: `src/qengine/state.cpp:1246-1268` -/
  | decompose (x y : ℕ) (F : Eng → Eng → Option (Eng × Eng))
  /-- `Decompose` of all qubits: `src/qengine/state.cpp:1144-1151` -/
  | decomposeAll (x y : ℕ)
  | cloneEmpty (x : ℕ)
  | clone (x : ℕ)
  | copy (x : ℕ)

/-- Run one operation; an exception leaves everything as it is. -/
noncomputable def World.run (w : World) : Op → World
  | .inPlace x F => match F (w.seen x) with | none => w | some e => w.put x e
  | .fresh x F => match F (w.seen x) with | none => w | some e => w.putFresh x e
  | .zero x => w.zero x
  | .inPlaceFrom x y F => match F (w.seen x) (w.seen y) with | none => w | some e => w.put x e
  | .shuffle x y F => match F (w.seen x) (w.seen y) with | none => w | some (e, e') => (w.put x e).put y e'
  | .compose x y F => match F (w.seen x) (w.seen y) with | none => w | some (e, e') => (w.put y e').putFresh x e
  | .decompose x y F => match F (w.seen x) (w.seen y) with | none => w | some (e, e') => (w.put y e').putFresh x e
  | .decomposeAll x y =>
    let p := (w.objs x).ptr
    let objs := Function.update w.objs y { w.objs y with ptr := p }
    { w with objs := Function.update objs x { objs x with n := 0, ptr := none } }
  | .cloneEmpty x => w.cloneEmpty x
  | .clone x => w.clone x
  | .copy x => w.copy x

end Verif.Engine
