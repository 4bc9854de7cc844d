import Verif.Model.Matrix2
import Mathlib.Analysis.SpecialFunctions.Complex.Arg
import Mathlib.Data.List.Sort

/-!
# Binary decision trees

`src/qbdt/node.cpp`, `src/qbdt/node_interface.cpp`, `src/qbdt/tree.cpp` and `include/qbdt.hpp`: nodes, the operations on
nodes, and the gates, measurements and read-outs of `QBdt` that are built from them.

Simplifications:
* a node is a value, so shared nodes are copies of each other. `Branch` makes everything that a gate changes unshared
  first. Merging equal branches at the end of `Prune` (`src/qbdt/node.cpp:142-217`) and the averaging in `isEqualBranch`
  (`src/qbdt/node_interface.cpp:66-108`) replace a node by an equal one, so they do not change the value;
* amplitudes are exact; `_qrack_qbdt_sep_thresh` and `FP_NORM_EPSILON` are zero;
* a node has either both branches or none: this is what every constructor and assignment in the code produces;
* sequential (`ENABLE_QBDT_CPU_PARALLEL` off, the mutexes of the other variant protect the same sequence of updates);
* `none` is a thrown exception, a null dereference, a shift by more than the width, or a division by zero.
-/

namespace Verif.Bdt

open Verif.Matrix2 Classical

/-- `QBdtNode`, `include/qbdt_node_interface.hpp:64-92`: the scale, and the two branches unless they are null. -/
inductive Node
  | leaf (scale : ℂ)
  | fork (scale : ℂ) (b0 b1 : Node)

/-- The field `scale`. -/
def Node.scale : Node → ℂ
  | .leaf s => s
  | .fork s _ _ => s

/-- Assignment to `scale`. -/
def Node.set (z : ℂ) : Node → Node
  | .leaf _ => .leaf z
  | .fork _ b0 b1 => .fork z b0 b1

/-- `SetZero`, `include/qbdt_node_interface.hpp:112-134`. -/
def zero : Node := .leaf 0

/-- `std::polar(r, std::arg(z))`. -/
noncomputable def polarLike (r : ℝ) (z : ℂ) : ℂ := r * Complex.exp (z.arg * Complex.I)

/-- The condition of `isEqualUnder`, `src/qbdt/node_interface.cpp:57-64`: branches are equal. -/
def sameUnder : Node → Node → Prop
  | .leaf _, .leaf _ => True
  | .fork _ a b, .fork _ c d => a = c ∧ b = d
  | _, _ => False

/-- `QBdtNode::Branch`, `src/qbdt/node.cpp:220-303`. -/
noncomputable def branch : ℕ → Node → Node
  | 0, t => t
  | d + 1, .leaf s =>
    if s = 0 then zero
    else .fork s (branch d (.leaf (Real.sqrt (1 / 2)))) (branch d (.leaf (Real.sqrt (1 / 2))))
  | d + 1, .fork s b0 b1 => if s = 0 then zero else .fork s (branch d b0) (branch d b1)

/-- `QBdtNode::Normalize` at depth one, `src/qbdt/node.cpp:305-342`, on the branches of a node. -/
noncomputable def normalize (b0 b1 : Node) : Option (Node × Node) :=
  let nrm : ℝ := Real.sqrt (Complex.normSq b0.scale + Complex.normSq b1.scale)
  if nrm = 0 then none else some (b0.set (b0.scale / nrm), b1.set (b1.scale / nrm))

/-- `QBdtNode::Prune`, `src/qbdt/node.cpp:127-140`: phases move from the branches to the node. -/
noncomputable def collect (s : ℂ) (b0 b1 : Node) : Node :=
  if b0.scale = 0 then .fork (s * (b1.scale / ‖b1.scale‖)) zero (b1.set 1)
  else if b1.scale = 0 then .fork (s * (b0.scale / ‖b0.scale‖)) (b0.set 1) zero
  else
    let phaseFac := polarLike 1 b1.scale
    .fork (s * phaseFac) (b0.set (b0.scale / phaseFac)) (b1.set (b1.scale / phaseFac))

/-- `QBdtNode::Prune`, `src/qbdt/node.cpp:40-217`. -/
noncomputable def prune : ℕ → Node → Option Node
  | 0, t => some t
  | _ + 1, .leaf _ => some zero
  | d + 1, .fork s b0 b1 => do
    let b0 ← prune d b0
    let b1 ← prune d b1
    let (b0, b1) ← normalize b0 b1
    return collect s b0 b1

/-- `QBdtNode::PopStateVector` above the recursion, `src/qbdt/node.cpp:402-437`. -/
noncomputable def gather (b0 b1 : Node) : Node :=
  let nrm := Real.sqrt (Complex.normSq b0.scale + Complex.normSq b1.scale)
  if b0.scale = 0 ∧ b1.scale = 0 then zero
  else if b0.scale = 0 then .fork (polarLike nrm b1.scale) zero (b1.set 1)
  else if b1.scale = 0 then .fork (polarLike nrm b0.scale) (b0.set 1) zero
  else
    let s := polarLike nrm b0.scale
    .fork s (b0.set (b0.scale / s)) (b1.set (b1.scale / s))

/-- `QBdtNode::PopStateVector`, `src/qbdt/node.cpp:345-437`. -/
noncomputable def popState : ℕ → Node → Node
  | 0, t => t
  | _ + 1, .leaf _ => zero
  | d + 1, .fork _ b0 b1 => gather (popState d b0) (popState d b1)

/-- One call of `QBdtNode::PushStateVector` on a pair of branches, `src/qbdt/node.cpp:667-779` and `:834-944`; `rec` is
the recursive call. -/
noncomputable def pushStep (m : Mtrx) (rec : Node → Node → Option (Node × Node)) (b0 b1 : Node) : Option (Node × Node) :=
  if b0.scale = 0 ∧ b1.scale = 0 then some (zero, zero)
  else
    let c0 := if b0.scale = 0 then b1.set 0 else b0
    let c1 := if b1.scale = 0 then b0.set 0 else b1
    if b0.scale = 0 ∨ b1.scale = 0 ∨ sameUnder c0 c1 then
      some (c0.set (m.m0 * c0.scale + m.m1 * c1.scale), c1.set (m.m2 * c0.scale + m.m3 * c1.scale))
    else
      match branch 1 c0, branch 1 c1 with
      | .fork s0 b00 b01, .fork s1 b10 b11 => do
        let (d00, d10) ← rec (b00.set (b00.scale * s0)) (b10.set (b10.scale * s1))
        let (d01, d11) ← rec (b01.set (b01.scale * s0)) (b11.set (b11.scale * s1))
        let h : ℂ := Real.sqrt (1 / 2)
        return (popState 1 (.fork h d00 d01), popState 1 (.fork h d10 d11))
      | _, _ => none

/-- `QBdtNode::PushStateVector`. The parameter `depth` bounds the recursion; the code only counts it down. -/
noncomputable def pushState (m : Mtrx) : ℕ → Node → Node → Option (Node × Node)
  | 0 => pushStep m fun _ _ => none
  | depth + 1 => pushStep m (pushState m depth)

/-- `QBdtNode::Apply2x2`, `src/qbdt/node.cpp:613-664` and `:781-831`. -/
noncomputable def apply2x2 (m : Mtrx) (depth : ℕ) (t : Node) : Option Node :=
  if depth = 0 then some t
  else
    match branch 1 t with
    | .leaf _ => none
    | .fork s b0 b1 =>
      if m.m1 = 0 ∧ m.m2 = 0 then
        prune 1 (.fork s (b0.set (b0.scale * m.m0)) (b1.set (b1.scale * m.m3)))
      else if m.m0 = 0 ∧ m.m3 = 0 then
        prune 1 (.fork s (b1.set (b1.scale * m.m1)) (b0.set (b0.scale * m.m2)))
      else do
        let (b0, b1) ← pushState m depth b0 b1
        prune depth (.fork s b0 b1)

/-- The body of the loops of `ApplySingle` and `ApplyControlledSingle`, `src/qbdt/tree.cpp:561-587` and `:645-672`: go
down along the bits of `i` below `target`, the highest first; `SetZero` a node without branches, else apply `f`. The
number is what the loop counter is to be or-ed with. -/
noncomputable def visit (f : Node → Option Node) : ℕ → ℕ → Node → Option (ℕ × Node)
  | 0, _, .leaf _ => some (0, zero)
  | 0, _, .fork s b0 b1 => (f (.fork s b0 b1)).map fun t => (0, t)
  | d + 1, _, .leaf s => some (2 ^ (d + 1) - 1, .leaf s)
  | d + 1, i, .fork s b0 b1 =>
    if i.testBit d then (visit f d i b1).map fun x => (x.1, .fork s b0 x.2)
    else (visit f d i b0).map fun x => (x.1, .fork s x.2 b1)

/-- The loop of `par_for_qbdt`, `src/qbdt/tree.cpp:79-81`: `for (j; j < end; ++j) { j |= fn(j); }`. The first argument
bounds the number of rounds. -/
noncomputable def loop (fn : ℕ → Node → Option (ℕ × Node)) (stop : ℕ) : ℕ → ℕ → Node → Option Node
  | 0, _, t => some t
  | fuel + 1, j, t =>
    if j < stop then do
      let (k, t) ← fn j t
      loop fn stop fuel ((j ||| k) + 1) t
    else some t

/-- `QBdt::par_for_qbdt`, `src/qbdt/tree.cpp:64-86`. -/
noncomputable def parForQbdt (stop maxQubit : ℕ) (fn : ℕ → Node → Option (ℕ × Node)) (t : Node) : Option Node := do
  let t ← loop fn stop stop 0 (branch maxQubit t)
  prune maxQubit t

/-- `QBdt::ApplySingle`, `src/qbdt/tree.cpp:534-589`; `rgp` is `randGlobalPhase`. -/
noncomputable def applySingle (rgp : Bool) (n : ℕ) (m : Mtrx) (target : ℕ) (t : Node) : Option Node :=
  if n ≤ target then none
  else if m.m1 = 0 ∧ m.m2 = 0 ∧ m.m0 - m.m3 = 0 ∧ (rgp = true ∨ 1 - m.m0 = 0) then some t
  else parForQbdt (2 ^ target) target (visit (apply2x2 m (n - target)) target) t

/-- `controlMask`, `src/qbdt/tree.cpp:620-623`. -/
def controlMask (controls : List ℕ) (target : ℕ) : ℕ :=
  controls.foldl (fun a c => a ||| 2 ^ (target - (c + 1))) 0

/-- The loop body of `ApplyControlledSingle`, `src/qbdt/tree.cpp:641-672`. -/
noncomputable def controlledBody (m : Mtrx) (depth cm cp target i : ℕ) (t : Node) : Option (ℕ × Node) :=
  if i &&& cm ≠ cp then some (cm - 1, t) else visit (apply2x2 m depth) target i t

/-- `ThrowIfQbIdArrayIsBad`, `include/common/qrack_functions.hpp:178-193`. -/
def badIds (controls : List ℕ) (n : ℕ) : Prop := (∃ c ∈ controls, n ≤ c) ∨ ¬ controls.Nodup

/-- `QBdt::ApplyControlledSingle` once the target is above the controls, `src/qbdt/tree.cpp:619-673`. -/
noncomputable def controlledLoop (n : ℕ) (m : Mtrx) (controls : List ℕ) (target : ℕ) (isAnti : Bool) (t : Node) :
    Option Node :=
  if ∃ c ∈ controls, target ≤ c then none
  else
    let cm := controlMask controls target
    parForQbdt (2 ^ target) target
      (controlledBody m (n - target) cm (if isAnti then 0 else cm) target) t

/-- `QBdt::ApplyControlledSingle`, `src/qbdt/tree.cpp:591-674`, with the method `Swap` as an argument. The recursive call
does not recurse again. -/
noncomputable def applyControlledWith (sw : ℕ → ℕ → Node → Option Node) (n : ℕ) (m : Mtrx) :
    ℕ → List ℕ → ℕ → Bool → Node → Option Node
  | 0, _, _, _, _ => none
  | fuel + 1, controls, target, isAnti, t =>
    if n ≤ target then none
    else if badIds controls n then none
    else
      let isPhase := m.m1 = 0 ∧ m.m2 = 0 ∧ (if isAnti then 1 - m.m3 = 0 else 1 - m.m0 = 0)
      if isPhase ∧ 1 - m.m0 = 0 ∧ 1 - m.m3 = 0 then some t
      else
        let sorted := controls.insertionSort (· ≤ ·)
        match sorted.getLast? with
        | none => none
        | some back =>
          if target < back then
            let controls' := sorted.dropLast ++ [target]
            if isPhase then controlledLoop n m controls' back isAnti t
            else do
              let t ← sw back target t
              let t ← applyControlledWith sw n m fuel controls' back isAnti t
              sw back target t
          else controlledLoop n m sorted target isAnti t

/-- `QInterface::Phase`, `include/qinterface.hpp:516-524`, and `QBdt::Mtrx`, `src/qbdt/tree.cpp:676`. -/
noncomputable def phase (rgp : Bool) (n : ℕ) (tl br : ℂ) (target : ℕ) (t : Node) : Option Node :=
  if (rgp = true ∨ 1 - tl = 0) ∧ tl - br = 0 then some t else applySingle rgp n ⟨tl, 0, 0, br⟩ target t

/-- `QInterface::Invert`, `include/qinterface.hpp:529-533`. -/
noncomputable def invert (rgp : Bool) (n : ℕ) (tr bl : ℂ) (target : ℕ) (t : Node) : Option Node :=
  applySingle rgp n ⟨0, tr, bl, 0⟩ target t

/-- The matrix of `QInterface::H`, `include/qinterface.hpp:913-919`. -/
noncomputable def hMtrx : Mtrx := ⟨Real.sqrt (1 / 2), Real.sqrt (1 / 2), Real.sqrt (1 / 2), -Real.sqrt (1 / 2)⟩

/-- `ApplyControlledSingle` as a method. -/
abbrev Controlled := Mtrx → List ℕ → ℕ → Bool → Node → Option Node

/-- `QBdt::MCPhase`, `src/qbdt/tree.cpp:705-728`. -/
noncomputable def mcPhaseWith (ac : Controlled) (rgp : Bool) (n : ℕ) (controls : List ℕ) (tl br : ℂ) (target : ℕ)
    (t : Node) : Option Node :=
  if controls = [] then phase rgp n tl br target t
  else if 1 - tl ≠ 0 then ac ⟨tl, 0, 0, br⟩ controls target false t
  else if 1 - br = 0 then some t
  else
    let l := (controls ++ [target]).insertionSort (· ≤ ·)
    ac ⟨tl, 0, 0, br⟩ l.dropLast (l.getLast?.getD 0) false t

/-- `QBdt::MCInvert`, `src/qbdt/tree.cpp:730-752`. -/
noncomputable def mcInvertWith (ac : Controlled) (rgp : Bool) (n : ℕ) (controls : List ℕ) (tr bl : ℂ) (target : ℕ)
    (t : Node) : Option Node :=
  if controls = [] then invert rgp n tr bl target t
  else if 1 - tr ≠ 0 ∨ 1 - bl ≠ 0 then ac ⟨0, tr, bl, 0⟩ controls target false t
  else
    let l := controls.insertionSort (· ≤ ·)
    if l.getLast?.getD 0 < target then ac ⟨0, tr, bl, 0⟩ l target false t
    else do
      let t ← applySingle rgp n hMtrx target t
      let t ← mcPhaseWith ac rgp n l 1 (-1) target t
      applySingle rgp n hMtrx target t

/-- `QInterface::CNOT`, `include/qinterface.hpp:709-713`, when it is called from `Swap`: the calls of
`ApplyControlledSingle` then have the target above the control, so they do not call `Swap` in turn. -/
noncomputable def cnotInner (rgp : Bool) (n control target : ℕ) (t : Node) : Option Node :=
  mcInvertWith (fun m cs q a => applyControlledWith (fun _ _ _ => none) n m 1 cs q a) rgp n [control] 1 1 target t

/-- `QBdt::Swap`, `include/qbdt.hpp:357-363`, and `QInterface::Swap`, `src/qinterface/gates.cpp:166-175`. -/
noncomputable def swap (rgp : Bool) (n q1 q2 : ℕ) (t : Node) : Option Node :=
  let (a, b) := if q2 < q1 then (q2, q1) else (q1, q2)
  if a = b then some t
  else do
    let t ← cnotInner rgp n a b t
    let t ← cnotInner rgp n b a t
    cnotInner rgp n a b t

/-- `QBdt::ApplyControlledSingle`, `src/qbdt/tree.cpp:591-674`. -/
noncomputable def applyControlled (rgp : Bool) (n : ℕ) : Controlled := fun m controls target isAnti t =>
  applyControlledWith (swap rgp n) n m 2 controls target isAnti t

/-- `QBdt::MCPhase`, `QBdt::MCInvert`. -/
noncomputable def mcPhase (rgp : Bool) (n : ℕ) := mcPhaseWith (applyControlled rgp n) rgp n
noncomputable def mcInvert (rgp : Bool) (n : ℕ) := mcInvertWith (applyControlled rgp n) rgp n

/-- `QBdt::MCMtrx`, `src/qbdt/tree.cpp:678-689`. -/
noncomputable def mcMtrx (rgp : Bool) (n : ℕ) (controls : List ℕ) (m : Mtrx) (target : ℕ) (t : Node) : Option Node :=
  if controls = [] then applySingle rgp n m target t
  else if m.m1 = 0 ∧ m.m2 = 0 then mcPhase rgp n controls m.m0 m.m3 target t
  else if m.m0 = 0 ∧ m.m3 = 0 then mcInvert rgp n controls m.m1 m.m2 target t
  else applyControlled rgp n m controls target false t

/-- `QInterface::XMask`, `src/qinterface/gates.cpp:101-110`, of the mask of the listed qubits: `X` on each, the lowest
first. -/
noncomputable def xMask (rgp : Bool) (n : ℕ) (qs : List ℕ) (t : Node) : Option Node :=
  (qs.dedup.insertionSort (· ≤ ·)).foldlM (fun t q => invert rgp n 1 1 q t) t

/-- `QInterface::MACWrapper`, `include/qinterface.hpp:179-189`. -/
noncomputable def macWrapper (rgp : Bool) (n : ℕ) (controls : List ℕ) (fn : Node → Option Node) (t : Node) :
    Option Node := do
  let t ← xMask rgp n controls t
  let t ← fn t
  xMask rgp n controls t

/-- `QInterface::MACPhase`, `include/qinterface.hpp:563-573`. -/
noncomputable def macPhase (rgp : Bool) (n : ℕ) (controls : List ℕ) (tl br : ℂ) (target : ℕ) (t : Node) : Option Node :=
  if 1 - tl = 0 ∧ 1 - br = 0 then some t
  else macWrapper rgp n controls (mcPhase rgp n controls tl br target) t

/-- `QInterface::MACInvert`, `include/qinterface.hpp:579-585`. -/
noncomputable def macInvert (rgp : Bool) (n : ℕ) (controls : List ℕ) (tr bl : ℂ) (target : ℕ) (t : Node) : Option Node :=
  macWrapper rgp n controls (mcInvert rgp n controls tr bl target) t

/-- `QBdt::MACMtrx`, `src/qbdt/tree.cpp:691-703`. -/
noncomputable def macMtrx (rgp : Bool) (n : ℕ) (controls : List ℕ) (m : Mtrx) (target : ℕ) (t : Node) : Option Node :=
  if controls = [] then applySingle rgp n m target t
  else if m.m1 = 0 ∧ m.m2 = 0 then macPhase rgp n controls m.m0 m.m3 target t
  else if m.m0 = 0 ∧ m.m3 = 0 then macInvert rgp n controls m.m1 m.m2 target t
  else applyControlled rgp n m controls target true t

/-- `QBdt::SetPermutation`, `src/qbdt/tree.cpp:124-147`, with the phase drawn. -/
def setPermutation : ℕ → ℕ → ℂ → Node
  | 0, _, z => .leaf z
  | n + 1, perm, z =>
    if perm % 2 = 1 then .fork z zero (setPermutation n (perm / 2) 1)
    else .fork z (setPermutation n (perm / 2) 1) zero

/-- `QBdt::GetAmplitude`, `src/qbdt/tree.cpp:193-210`. -/
def getAmplitude : ℕ → Node → ℕ → ℂ
  | 0, t, _ => t.scale
  | _ + 1, .leaf s, _ => s
  | n + 1, .fork s b0 b1, perm => s * getAmplitude n (if perm % 2 = 1 then b1 else b0) (perm / 2)

/-- `QBdt::ProbAll`, `src/qbdt/tree.cpp:384-398`. -/
noncomputable def clampProb (x : ℝ) : ℝ :=
  let x := if x < 0 then 0 else x
  if x > 1 then 1 else x

noncomputable def probAll (n : ℕ) (t : Node) (perm : ℕ) : ℝ := clampProb (Complex.normSq (getAmplitude n t perm))

/-- The loop body of `QBdt::Prob`, `src/qbdt/tree.cpp:358-374`: the product of the scales down to the one-branch at depth
`q` along the bits of `i`, the lowest first. -/
noncomputable def probBody : ℕ → ℕ → Node → ℂ → ℝ
  | _, _, .leaf _, _ => 0
  | 0, _, .fork s _ b1, acc => Complex.normSq (acc * s * b1.scale)
  | q + 1, i, .fork s b0 b1, acc => probBody q (i / 2) (if i % 2 = 1 then b1 else b0) (acc * s)

/-- `QBdt::Prob`, `src/qbdt/tree.cpp:347-382`. -/
noncomputable def prob (n : ℕ) (t : Node) (q : ℕ) : Option ℝ :=
  if n ≤ q then none else some (clampProb (((List.range (2 ^ q)).map fun i => probBody q i t 1).sum))

/-- The update of a node in `QBdt::ForceM`, `src/qbdt/tree.cpp:456-483`. -/
noncomputable def collapseNode (result : Bool) : Node → Node
  | .leaf _ => zero
  | .fork s b0 b1 =>
    if result then
      if b1.scale = 0 then .fork s b0 zero else .fork s zero (b1.set (b1.scale / ‖b1.scale‖))
    else
      if b0.scale = 0 then .fork s zero b1 else .fork s (b0.set (b0.scale / ‖b0.scale‖)) zero

/-- Go down along the bits of `i`, the lowest first, and change the node at depth `q`: `src/qbdt/tree.cpp:444-450` and
`include/qbdt.hpp:82-87`. -/
def atPath (f : Node → Node) : ℕ → ℕ → Node → Node
  | 0, _, t => f t
  | _ + 1, _, .leaf s => .leaf s
  | q + 1, i, .fork s b0 b1 =>
    if i % 2 = 1 then .fork s b0 (atPath f q (i / 2) b1) else .fork s (atPath f q (i / 2) b0) b1

/-- `_par_for`, `src/qbdt/tree.cpp:88-93`. -/
def parFor (stop : ℕ) (fn : ℕ → Node → Node) (t : Node) : Node := (List.range stop).foldl (fun t i => fn i t) t

/-- `QBdt::ForceM`, `src/qbdt/tree.cpp:400-489`: `draw` is `Rand()` and `z` is `GetNonunitaryPhase()`. -/
noncomputable def forceM (n q : ℕ) (result doForce doApply : Bool) (draw : ℝ) (z : ℂ) (t : Node) :
    Option (Bool × Node) := do
  let oneChance ← prob n t q
  let result :=
    if oneChance ≥ 1 then true
    else if oneChance ≤ 0 then false
    else if doForce then result else decide (draw ≤ oneChance)
  if ¬ doApply then some (result, t)
  else do
    let t := branch (q + 1) (t.set z)
    let t := parFor (2 ^ q) (atPath (collapseNode result) q) t
    let t ← prune (q + 1) t
    return (result, t)

/-- `QBdt::MAllOptionalCollapse`, `src/qbdt/tree.cpp:491-532`; `draws i` is the draw for qubit `i`. The first argument is
the number of qubits left, the second the current qubit. -/
noncomputable def mAll (isCollapsing : Bool) (draws : ℕ → ℝ) : ℕ → ℕ → Node → Option (ℕ × Node)
  | 0, _, t => some (0, t)
  | _ + 1, _, .leaf _ => none
  | left + 1, i, .fork s b0 b1 =>
    let oneChance := clampProb (Complex.normSq b1.scale)
    let bitResult : Bool :=
      if oneChance ≥ 1 then true else if oneChance ≤ 0 then false else decide (draws i ≤ oneChance)
    match (if isCollapsing then branch 1 (.fork s b0 b1) else .fork s b0 b1) with
    | .leaf _ => none
    | .fork s b0 b1 =>
      if bitResult then do
        let (r, b1') ← mAll isCollapsing draws left (i + 1) (if isCollapsing then b1.set 1 else b1)
        return (2 ^ i ||| r, .fork s (if isCollapsing then zero else b0) b1')
      else do
        let (r, b0') ← mAll isCollapsing draws left (i + 1) (if isCollapsing then b0.set 1 else b0)
        return (r, .fork s b0' (if isCollapsing then zero else b1))

/-- `QBdt::SetQuantumState`, `SetTraversal`, `include/qbdt.hpp:65-92, 205-208`. -/
noncomputable def setQuantumState (n : ℕ) (state : ℕ → ℂ) : Option Node :=
  let t := branch n (.leaf 1)
  let t := parFor (2 ^ n) (fun i => atPath (Node.set (state i)) n i) t
  prune n (popState n t)

/-- `QBdtNode(scale, b->branches)`. -/
def withBranches (z : ℂ) : Node → Node
  | .leaf _ => .leaf z
  | .fork _ b0 b1 => .fork z b0 b1

/-- `QBdtNode::InsertAtDepth` with `size == 0`, `src/qbdt/node.cpp:440-610`: it goes down to the given depth and returns
there. -/
noncomputable def insertNothing : ℕ → Node → Node
  | 0, t => if t.scale = 0 then zero else t
  | _ + 1, .leaf s => if s = 0 then zero else .leaf s
  | depth + 1, .fork s b0 b1 =>
    if s = 0 then zero else .fork s (insertNothing depth b0) (insertNothing depth b1)

/-- `QBdtNode::InsertAtDepth` with `size > 0`, `src/qbdt/node.cpp:440-610`. -/
noncomputable def insertAtDepth (b : Node) (size : ℕ) : ℕ → Node → Option Node
  | 0, t =>
    if t.scale = 0 then some zero
    else
      match b with
      | .leaf _ => none
      | .fork s b0 b1 => some (insertNothing size (.fork s b0 b1))
  | _ + 1, .leaf s => if s = 0 then some zero else some (.leaf s)
  | 1, .fork s b0 b1 =>
    if s = 0 then some zero
    else if b0.scale = 0 then some (.fork s b0 (insertNothing size (withBranches b1.scale b)))
    else if b1.scale = 0 then some (.fork s (insertNothing size (withBranches b0.scale b)) b1)
    else some (.fork s (insertNothing size (withBranches b0.scale b)) (insertNothing size (withBranches b1.scale b)))
  | depth + 2, .fork s b0 b1 =>
    if s = 0 then some zero
    else do
      let b0 ← insertAtDepth b size (depth + 1) b0
      let b1 ← insertAtDepth b size (depth + 1) b1
      return .fork s b0 b1

/-- `QBdt::Compose`, `src/qbdt/tree.cpp:212-235`: the start index and the new root. -/
noncomputable def compose (n : ℕ) (t : Node) (m : ℕ) (b : Node) (start : ℕ) : Option (ℕ × Node) :=
  if n < start then none
  else if m = 0 then some (start, t)
  else (insertAtDepth b m start t).map fun t => (start, t)

end Verif.Bdt
