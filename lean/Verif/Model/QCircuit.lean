import Verif.Spec.Circuit
import Mathlib.Data.List.Sort
import Mathlib.Data.Finset.Basic

/-!
# `QCircuit`: gates that merge, commute and cancel while a circuit is built

`include/qcircuit.hpp` and `src/qcircuit.cpp`.

Simplifications. Amplitudes are exact complex numbers and every comparison with `FP_NORM_EPSILON` is a comparison with zero.
A `std::set` of qubits is its ascending list; a `std::map` from control permutations to matrices is a list of entries (nothing
the code computes depends on the order of iteration). Keys are natural numbers: a 128-bit key never overflows with fewer than
128 controls. Gates are values: the sharing of a gate object between two circuits is not modelled.
-/

namespace Verif.QCirc

open Verif.Matrix2

/-- `std::map<bitCapInt, std::shared_ptr<complex>>`, `include/qcircuit.hpp:53`. -/
abbrev PMap := List (ℕ × Mtrx)

/-- `map::find`. -/
def PMap.get (m : PMap) (k : ℕ) : Option Mtrx := List.lookup k m

/-- `map::emplace`: nothing happens when the key is there. -/
def PMap.emplace (m : PMap) (e : ℕ × Mtrx) : PMap := if (m.get e.1).isSome then m else m ++ [e]

/-- Assignment through `map::operator[]`. -/
def PMap.set (m : PMap) (e : ℕ × Mtrx) : PMap :=
  if (m.get e.1).isSome then m.map (fun x => if x.1 = e.1 then e else x) else m ++ [e]

/-- `map::erase`. -/
def PMap.erase (m : PMap) (k : ℕ) : PMap := m.filter (fun x => x.1 ≠ k)

/-- `a & ~m`. -/
def andNot (a m : ℕ) : ℕ := a ^^^ (a &&& m)

/-- `struct QCircuitGate`, `include/qcircuit.hpp:51-54`. -/
structure Gate (Q : Type) where
  target : Q
  controls : List Q
  payloads : PMap

/-- The identity matrix of `Clear`, `include/qcircuit.hpp:161-166`. -/
def idM : Mtrx := ⟨1, 0, 0, 1⟩

variable {Q : Type} [LinearOrder Q]

/-- `QCircuitGate(q1, q2)`, the `Swap` constructor, `include/qcircuit.hpp:71-78`. -/
def swapGate (q1 q2 : Q) : Gate Q := ⟨q1, [q2], []⟩

/-- `Clear`, `include/qcircuit.hpp:156-167`. -/
def Gate.clear (g : Gate Q) : Gate Q := ⟨g.target, [], [(0, idM)]⟩

/-- The key with a hole at bit `p`: `(k & lowMask) | ((k & highMask) << 1)`, `include/qcircuit.hpp:182-188`. -/
def spread (p k : ℕ) : ℕ :=
  let lowMask := 2 ^ p - 1
  (k &&& lowMask) ||| ((andNot k lowMask) <<< 1)

/-- The key without bit `p`: `(k & lowMask) | ((k & highMask) >> 1)`, `include/qcircuit.hpp:242-250`, `582-597`. -/
def squeeze (p k : ℕ) : ℕ :=
  let midPow := 2 ^ p
  let lowMask := midPow - 1
  (k &&& lowMask) ||| ((andNot k (lowMask ||| midPow)) >>> 1)

/-- `AddControl`, `include/qcircuit.hpp:172-199`. -/
def Gate.addControl (g : Gate Q) (c : Q) : Gate Q :=
  if c ∈ g.controls then g
  else
    let controls := g.controls.orderedInsert (· ≤ ·) c
    let cpos := controls.idxOf c
    let nPayloads := g.payloads.foldl (fun acc e =>
      let nKey := spread cpos e.1
      (PMap.emplace (PMap.emplace acc (nKey, e.2)) (nKey ||| 2 ^ cpos, e.2))) []
    ⟨g.target, controls, nPayloads⟩

open Classical in
/-- `CanRemoveControl`, `include/qcircuit.hpp:204-234`. -/
noncomputable def Gate.canRemoveControl (g : Gate Q) (c : Q) : Bool :=
  let midPow := 2 ^ g.controls.idxOf c
  g.payloads.all (fun e =>
    let nKey := andNot e.1 midPow
    match g.payloads.get nKey, g.payloads.get (nKey ||| midPow) with
    | some l, some h =>
      decide (l.m0 - h.m0 = 0) && decide (l.m1 - h.m1 = 0) && decide (l.m2 - h.m2 = 0) && decide (l.m3 - h.m3 = 0)
    | _, _ => false)

/-- `RemoveControl`, `include/qcircuit.hpp:239-254`. -/
def Gate.removeControl (g : Gate Q) (c : Q) : Gate Q :=
  let cpos := g.controls.idxOf c
  ⟨g.target, g.controls.erase c, g.payloads.foldl (fun acc e => PMap.emplace acc (squeeze cpos e.1, e.2)) []⟩

/-- `TryRemoveControl`, `include/qcircuit.hpp:259-267`. -/
noncomputable def Gate.tryRemoveControl (g : Gate Q) (c : Q) : Gate Q :=
  if g.canRemoveControl c then g.removeControl c else g

open Classical in
/-- The body of the loop over the other gate's payloads, `include/qcircuit.hpp:287-309`. -/
noncomputable def combineStep (acc : PMap) (e : ℕ × Mtrx) : PMap :=
  match acc.get e.1 with
  | none => acc.set e
  | some p =>
    let out := mul2x2 e.2 p
    if out.m1 = 0 ∧ out.m2 = 0 ∧ 1 - out.m0 = 0 ∧ 1 - out.m3 = 0 then acc.erase e.1 else acc.set (e.1, out)

/-- `Combine`, `include/qcircuit.hpp:272-318`. -/
noncomputable def Gate.combine (g o : Gate Q) : Gate Q :=
  let ctrlsToTest := g.controls.filter (· ∈ o.controls)
  let g1 := if g.controls.length < o.controls.length then o.controls.foldl Gate.addControl g else g
  let o1 := if o.controls.length < g.controls.length then g.controls.foldl Gate.addControl o else o
  let ps := o1.payloads.foldl combineStep g1.payloads
  if ps.isEmpty then g1.clear
  else ctrlsToTest.foldl Gate.tryRemoveControl ⟨g1.target, g1.controls, ps⟩

open Classical in
/-- `IsIdentity`, `include/qcircuit.hpp:337-367`. -/
noncomputable def Gate.isIdentity (g : Gate Q) : Bool :=
  if g.payloads.length = 2 ^ g.controls.length then
    match g.payloads with
    | [] => false
    | r :: _ =>
      decide (r.2.m0 - r.2.m3 = 0) &&
        g.payloads.all (fun e => decide (e.2.m1 = 0 ∧ e.2.m2 = 0 ∧ r.2.m0 - e.2.m0 = 0 ∧ r.2.m0 - e.2.m3 = 0))
  else g.payloads.all (fun e => decide (e.2.m1 = 0 ∧ e.2.m2 = 0 ∧ 1 - e.2.m0 = 0 ∧ 1 - e.2.m3 = 0))

open Classical in
/-- `IsPhase`, `include/qcircuit.hpp:372-382`. -/
noncomputable def Gate.isPhase (g : Gate Q) : Bool := g.payloads.all (fun e => decide (e.2.m1 = 0 ∧ e.2.m2 = 0))

open Classical in
/-- `IsPhaseInvert`, `include/qcircuit.hpp:402-413`. -/
noncomputable def Gate.isPhaseInvert (g : Gate Q) : Bool :=
  g.payloads.all (fun e => !(decide (e.2.m0 ≠ 0 ∨ e.2.m3 ≠ 0) && decide (e.2.m1 ≠ 0 ∨ e.2.m2 ≠ 0)))

open Classical in
/-- `IsCnot` with key 1, `include/qcircuit.hpp:418-431`, and `IsAntiCnot` with key 0, `include/qcircuit.hpp:436-449`. -/
noncomputable def Gate.isCnotOn (g : Gate Q) (k : ℕ) : Bool :=
  decide (g.controls.length = 1) && decide (g.payloads.length = 1) &&
    match g.payloads.get k with
    | none => false
    | some p => decide (p.m0 = 0 ∧ p.m3 = 0 ∧ 1 - p.m1 = 0 ∧ 1 - p.m2 = 0)

open Classical in
/-- `__IS_CLIFFORD_PHASE_INVERT`, `include/qcircuit.hpp:28-30`. -/
noncomputable def cliffordPhaseInvert (top bottom : ℂ) : Bool :=
  decide (top = bottom ∨ top = -bottom ∨ top = Complex.I * bottom ∨ top = -Complex.I * bottom)

open Classical in
/-- `__IS_CLIFFORD`, `include/qcircuit.hpp:31-40`. -/
noncomputable def isCliffordMtrx (m : Mtrx) : Bool :=
  (decide (m.m1 = 0 ∧ m.m2 = 0) && cliffordPhaseInvert m.m0 m.m3) ||
  (decide (m.m0 = 0 ∧ m.m3 = 0) && cliffordPhaseInvert m.m1 m.m2) ||
  (cliffordPhaseInvert m.m0 m.m1 && cliffordPhaseInvert m.m0 m.m2 && cliffordPhaseInvert m.m0 m.m3)

open Classical in
/-- `IsClifford`, `include/qcircuit.hpp:454-487`. -/
noncomputable def Gate.isClifford (g : Gate Q) : Bool :=
  if g.payloads.isEmpty then true
  else if g.controls.length > 1 then false
  else if g.controls.isEmpty then
    match g.payloads.get 0 with
    | none => false
    | some m => isCliffordMtrx m
  else g.payloads.all (fun e =>
    if e.2.m1 = 0 ∧ e.2.m2 = 0 then cliffordPhaseInvert e.2.m0 e.2.m3
    else if e.2.m0 = 0 ∧ e.2.m3 = 0 then cliffordPhaseInvert e.2.m1 e.2.m2
    else false)

/-- `CanCombine`, `include/qcircuit.hpp:121-151`. -/
noncomputable def Gate.canCombine (g o : Gate Q) (clifford : Bool) : Bool :=
  if g.target ≠ o.target then false
  else
    let general := g.controls.isEmpty || o.controls.isEmpty ||
      decide (g.controls ⊆ o.controls) || decide (o.controls ⊆ g.controls)
    if clifford then
      if g.controls.isEmpty && o.controls.isEmpty then true
      else
        let mc := g.isClifford
        let oc := o.isClifford
        if mc ≠ oc then false
        else if mc then g.controls.isEmpty || o.controls.isEmpty || decide (g.controls.head? = o.controls.head?)
        else general
    else general

/-- `TryCombine`, `include/qcircuit.hpp:324-332`. -/
noncomputable def Gate.tryCombine (g o : Gate Q) (clifford : Bool) : Option (Gate Q) :=
  if g.canCombine o clifford then some (g.combine o) else none

/-- The key of `g` picked out of a key of `o`: `opfPows` and `pf`, `include/qcircuit.hpp:515-530`. -/
def pickKey (oControls : List Q) (k : ℕ) : List Q → ℕ
  | [] => 0
  | c :: cs => (k.testBit (oControls.idxOf c)).toNat + 2 * pickKey oControls k cs

open Classical in
/-- The key under which `CanPass` stores a payload of the other gate, `include/qcircuit.hpp:531-537`. -/
noncomputable def passKey (g o : Gate Q) (k : ℕ) : ℕ :=
  match g.payloads.get (pickKey o.controls k g.controls) with
  | none => k
  | some m => if m.m0 ≠ 0 then k else k ^^^ 2 ^ o.controls.idxOf g.target

open Classical in
/-- `CanPass`, `include/qcircuit.hpp:492-542`: the other gate as it is afterwards, or `none` when the gates may not pass. -/
noncomputable def Gate.canPass (g o : Gate Q) : Option (Gate Q) :=
  if g.target ∉ o.controls then
    if o.target ∈ g.controls then
      if o.isPhase then some o else none
    else if g.target ≠ o.target ∨ (g.isPhase ∧ o.isPhase) then some o else none
  else if o.target ∈ g.controls then
    if g.isPhase ∧ o.isPhase then some o else none
  else if g.isPhase then some o
  else if ¬ g.isPhaseInvert ∨ ¬ (g.controls ⊆ o.controls) then none
  else some ⟨o.target, o.controls, o.payloads.foldl (fun acc e => PMap.set acc (passKey g o e.1, e.2)) []⟩

/-- `gQubits`, `nQubits`, `hQubits`: the controls and the target, `src/qcircuit.cpp:123-124`. -/
def Gate.qubits (g : Gate Q) : Finset Q := insert g.target g.controls.toFinset

/-- How the walk of `AppendGate` over the earlier gates ends. -/
inductive Walk (Q : Type) where
  /-- The gate found its place: all gates afterwards, and the return value. -/
  | placed (gates : List (Gate Q)) (ret : Bool)
  /-- It cancelled an earlier gate: the gates before that one, those after it, and the cancelled gate's qubits. -/
  | cancelled (older newer : List (Gate Q)) (gQubits : Finset Q)

/-- The loop of `AppendGate` from the last gate to the first, `src/qcircuit.cpp:125-170`. `rev` holds the gates still ahead,
last first; `newer` those already passed, in order. -/
noncomputable def walk (clifford : Bool) (nQubits : Finset Q) :
    List (Gate Q) → Gate Q → List (Gate Q) → Bool → Walk Q
  | [], n, newer, did => .placed (n :: newer) did
  | g :: rev, n, newer, did =>
    match g.tryCombine n clifford with
    | some g' =>
      if g'.isIdentity then .cancelled rev.reverse newer g'.qubits else .placed (rev.reverse ++ g' :: newer) true
    | none =>
      match g.canPass n with
      | none => .placed (rev.reverse ++ g :: n :: newer) did
      | some n' => walk clifford nQubits rev n' (g :: newer) (did || decide (¬ Disjoint nQubits g.qubits))

/-- The loop that appends the later gates again after a cancellation, `src/qcircuit.cpp:134-150`, given `AppendGate`. -/
def reappend (append : List (Gate Q) → Gate Q → Option (List (Gate Q) × Bool)) :
    List (Gate Q) → List (Gate Q) → Finset Q → Option (List (Gate Q))
  | gates, [], _ => some gates
  | gates, h :: head, gq =>
    if gq = ∅ then some (gates ++ h :: head)
    else if Disjoint h.qubits gq then reappend append (gates ++ [h]) head gq
    else
      match append gates h with
      | none => none
      | some (gates', true) => reappend append gates' head (gq ∪ h.qubits)
      | some (gates', false) => reappend append gates' head (gq \ h.qubits)

/-- `AppendGate` of a collapsing circuit, `src/qcircuit.cpp:109-170`: the gates afterwards and the return value. The recursion
is bounded by `fuel`; `none` would mean that the bound was too small. -/
noncomputable def appendGate (clifford : Bool) : ℕ → List (Gate Q) → Gate Q → Option (List (Gate Q) × Bool)
  | 0, _, _ => none
  | fuel + 1, gates, n =>
    if n.isIdentity then some (gates, true)
    else
      match walk clifford n.qubits gates.reverse n [] false with
      | .placed gs r => some (gs, r)
      | .cancelled older newer gq => (reappend (appendGate clifford fuel) older newer gq).map (fun gs => (gs, true))

/-- The members of `QCircuit`, `include/qcircuit.hpp:612-615`. -/
structure Circuit (Q : Type) where
  isCollapsed : Bool
  isNearClifford : Bool
  qubitCount : ℕ
  gates : List (Gate Q)

/-- `AppendGate`, `src/qcircuit.cpp:101-171`, on qubits numbered from zero. -/
noncomputable def Circuit.append (c : Circuit ℕ) (n : Gate ℕ) : Option (Circuit ℕ) :=
  if !c.isCollapsed then some { c with gates := c.gates ++ [n] }
  else if n.isIdentity then some c
  else
    let qc := if n.target + 1 > c.qubitCount then n.target + 1 else c.qubitCount
    let qc := match n.controls.getLast? with
      | none => qc
      | some q => if q + 1 > qc then q + 1 else qc
    (appendGate c.isNearClifford (c.gates.length + 1) c.gates n).map (fun r => { c with gates := r.1, qubitCount := qc })

/-- Appending gates one after another. -/
noncomputable def Circuit.appendAll (c : Circuit ℕ) : List (Gate ℕ) → Option (Circuit ℕ)
  | [] => some c
  | n :: ns => (c.append n).bind (fun c' => c'.appendAll ns)

/-- Three (anti-)controlled NOT gates that make a swap, `src/qcircuit.cpp:187-204`. -/
noncomputable def isSwapTriple (a b c : Gate Q) : Bool :=
  let isAnti := a.isCnotOn 0
  (a.isCnotOn 1 || isAnti) &&
  ((isAnti && b.isCnotOn 0) || (!isAnti && b.isCnotOn 1)) &&
  decide (some b.target = a.controls.head?) && decide (some a.target = b.controls.head?) &&
  ((isAnti && c.isCnotOn 0) || (!isAnti && c.isCnotOn 1)) &&
  decide (c.target = a.target) && decide (a.controls.head? = c.controls.head?)

/-- The gates that `Run` executes, with the swaps recognised, `src/qcircuit.cpp:179-215`. -/
noncomputable def recogniseSwaps : List (Gate Q) → List (Gate Q)
  | a :: b :: c :: rest =>
    if isSwapTriple a b c then
      match a.controls with
      | [] => a :: recogniseSwaps (b :: c :: rest)
      | q :: _ => swapGate a.target q :: recogniseSwaps rest
    else a :: recogniseSwaps (b :: c :: rest)
  | l => l
termination_by l => l.length

/-- The calls `Run` makes on the simulator, `src/qcircuit.cpp:221-243`. -/
inductive Op (Q : Type) where
  | mtrx (m : Mtrx) (t : Q)
  | swap (p q : Q)
  | ucMtrx (controls : List Q) (m : Mtrx) (t : Q) (perm : ℕ)
  | uniform (controls : List Q) (t : Q) (payload : List Mtrx)

/-- `MakeUniformlyControlledPayload`, `include/qcircuit.hpp:547-563`. -/
def Gate.uniformPayload (g : Gate Q) : List Mtrx :=
  (List.range (2 ^ g.controls.length)).map (fun i => (g.payloads.get i).getD idM)

/-- The call for one gate, `src/qcircuit.cpp:217-244`; `none` where a null pointer would be read. -/
def Gate.op (g : Gate Q) : Option (Op Q) :=
  match g.controls with
  | [] =>
    match g.payloads.get 0 with
    | none => none
    | some m => some (.mtrx m g.target)
  | c0 :: _ =>
    match g.payloads with
    | [] => some (.swap c0 g.target)
    | [e] => some (.ucMtrx g.controls e.2 g.target e.1)
    | _ => some (.uniform g.controls g.target g.uniformPayload)

/-- `Run`, `src/qcircuit.cpp:173-245`: the calls in order. -/
noncomputable def runOps (gates : List (Gate Q)) : Option (List (Op Q)) := (recogniseSwaps gates).mapM Gate.op

/-- `Inverse` of one payload, `include/qcircuit.hpp:650-652`. -/
noncomputable def dagger (m : Mtrx) : Mtrx :=
  ⟨(starRingEnd ℂ) m.m0, (starRingEnd ℂ) m.m2, (starRingEnd ℂ) m.m1, (starRingEnd ℂ) m.m3⟩

/-- `Inverse`, `include/qcircuit.hpp:645-658`. -/
noncomputable def inverse (gates : List (Gate Q)) : List (Gate Q) :=
  (gates.map (fun g => { g with payloads := g.payloads.map (fun e => (e.1, dagger e.2)) })).reverse

/-- `PostSelectControl`, `include/qcircuit.hpp:573-600`. -/
def Gate.postSelectControl (g : Gate Q) (c : Q) (eigen : Bool) : Gate Q :=
  if c ∉ g.controls then g
  else
    let cpos := g.controls.idxOf c
    let qubitPow := 2 ^ cpos
    let eigenPow := if eigen then qubitPow else 0
    ⟨g.target, g.controls.erase c, g.payloads.foldl (fun acc e =>
      if e.1 &&& qubitPow ≠ eigenPow then acc else PMap.emplace acc (squeeze cpos e.1, e.2)) []⟩

/-- `IsNonPhaseTarget`, `include/qcircuit.hpp:740-749`. -/
noncomputable def isNonPhaseTarget (gates : List (Gate Q)) (q : Q) : Bool :=
  gates.any (fun g => decide (g.target = q) && !g.isPhase)

/-- `DeletePhaseTarget`, `include/qcircuit.hpp:754-767`. -/
def deletePhaseTarget (gates : List (Gate Q)) (q : Q) (eigen : Bool) : List (Gate Q) :=
  gates.reverse.foldl (fun acc g => if g.target = q then acc else g.postSelectControl q eigen :: acc) []

/-- The loop of `PastLightCone` over the gates from the last to the first, `include/qcircuit.hpp:778-801`. -/
def lightConeLoop : List (Gate Q) → Finset Q → List (Gate Q) → List (Gate Q)
  | [], _, acc => acc
  | g :: rev, qubits, acc =>
    if g.target ∉ qubits ∧ g.controls.all (fun c => decide (c ∉ qubits)) then lightConeLoop rev qubits acc
    else lightConeLoop rev (insert g.target qubits ∪ g.controls.toFinset) (g :: acc)

/-- `PastLightCone`, `include/qcircuit.hpp:772-807`. -/
def pastLightCone (gates : List (Gate Q)) (qubits : Finset Q) : List (Gate Q) := lightConeLoop gates.reverse qubits []

/-- `Swap`, `include/qcircuit.hpp:683-701`: the gates it appends. -/
def swapGates (q1 q2 : ℕ) : List (Gate ℕ) :=
  if q1 = q2 then []
  else
    let (q1, q2) := if q1 > q2 then (q2, q1) else (q1, q2)
    let m : Mtrx := ⟨0, 1, 1, 0⟩
    [⟨q1, [q2], [(1, m)]⟩, ⟨q2, [q1], [(1, m)]⟩, ⟨q1, [q2], [(1, m)]⟩]

end Verif.QCirc
