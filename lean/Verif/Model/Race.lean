import Verif.Model.EngineCompose
import Verif.Model.EngineMask
import Verif.Model.EngineUniform
import Verif.Model.EngineArith

/-!
# Model of the parallel loop bodies, one memory access at a time

The other models run one call of a loop body as one step. Here a call is a program of single reads and writes of array
cells, and the calls of a loop may interleave in any way (`Pool`). This contains every interleaving of the workers of
`par_for_inc` (`src/common/parallel_for.cpp:170-212`), which run the calls of a chunk one after the other.

Simplifications: an access to an array cell (a complex number) is one step. The accumulators `rngNrm[cpu]`, which have one
cell per worker, are left out, as are the cells that no loop writes (matrices, powers).
-/

namespace Verif.Race

open Verif.Engine Verif.ParFor Classical

/-- A program of reads and writes of the cells `α`. -/
inductive Prog (α V : Type) : Type
  | done : Prog α V
  | read : α → (V → Prog α V) → Prog α V
  | write : α → V → Prog α V → Prog α V

variable {α V : Type} [DecidableEq α]

/-- The program alone. -/
noncomputable def Prog.run : Prog α V → (α → V) → α → V
  | .done, s => s
  | .read i k, s => (k (s i)).run s
  | .write i v p, s => p.run (Function.update s i v)

/-- One access of a program. -/
inductive Act : (α → V) → Prog α V → (α → V) → Prog α V → Prop
  | read (s : α → V) (i : α) (k : V → Prog α V) : Act s (.read i k) s (k (s i))
  | write (s : α → V) (i : α) (v : V) (p : Prog α V) : Act s (.write i v p) (Function.update s i v) p

/-- One access of one of the programs. -/
inductive Step : (α → V) × List (Prog α V) → (α → V) × List (Prog α V) → Prop
  | mk {s s' : α → V} {p p' : Prog α V} (l l' : List (Prog α V)) : Act s p s' p' → Step (s, l ++ p :: l') (s', l ++ p' :: l')

/-- The programs `l`, started in `s`, can end with `s'`. -/
def Pool (s : α → V) (l : List (Prog α V)) (s' : α → V) : Prop :=
  ∃ l', Relation.ReflTransGen Step (s, l) (s', l') ∧ ∀ p ∈ l', p = .done

/-! ## The loop bodies -/

/-- The body of `Apply2x2`, `src/qengine/state.cpp:302-331, 556-575`: `read2`, then `write2`
(`include/statevector.hpp:124-136`). -/
noncomputable def apply2x2Prog (cn : Bool) (thr nrm : ℝ) (m : M2) (o1 o2 lcv : ℕ) : Prog ℕ ℂ :=
  .read (lcv + o1) fun y0 => .read (lcv + o2) fun y1 =>
    .write (lcv + o1) (kernel cn thr nrm m y0 y1).1 (.write (lcv + o2) (kernel cn thr nrm m y0 y1).2 .done)

/-- The body of `XMask`, `src/qengine/state.cpp:663-680`. -/
noncomputable def xMaskProg (n mask lcv : ℕ) : Prog ℕ ℂ :=
  let otherMask := (2 ^ n - 1) ^^^ mask
  let otherRes := lcv &&& otherMask
  let setInt := lcv &&& mask
  let resetInt := setInt ^^^ mask
  if setInt < resetInt then .done
  else
    let setInt := setInt ||| otherRes
    let resetInt := resetInt ||| otherRes
    .read resetInt fun y0 => .read setInt fun y1 => .write resetInt y1 (.write setInt y0 .done)

/-- The body of `PhaseParity`, `src/qengine/state.cpp:710-725`. -/
noncomputable def phaseParityProg (n mask : ℕ) (fac facAdj : ℂ) (lcv : ℕ) : Prog ℕ ℂ :=
  let otherMask := (2 ^ n - 1) ^^^ mask
  let otherRes := lcv &&& otherMask
  let setInt := lcv &&& mask
  let v := parityBit setInt
  let setInt := setInt ||| otherRes
  .read setInt fun y => .write setInt ((if v ≠ 0 then fac else facAdj) * y) .done

/-- The body of `UniformlyControlledSingleBit`, `src/qengine/state.cpp:792-855`. -/
noncomputable def ucProg (controls : List ℕ) (t : ℕ) (ms : ℕ → M2) (skipPowers : List ℕ) (skipVal : ℕ) (nrm : ℂ)
    (lcv : ℕ) : Prog ℕ ℂ :=
  let m := ms (ucIndex skipPowers skipVal (ctrlOffset controls lcv))
  .read lcv fun y0 => .read (lcv ||| pow2 t) fun y1 =>
    .write lcv (nrm * (m.a * y0 + m.b * y1)) (.write (lcv ||| pow2 t) (nrm * (m.c * y0 + m.d * y1)) .done)

/-- The body of `ApplyM`, `src/qengine/state.cpp:1667-1672`. -/
noncomputable def applyMProg (regMask result : ℕ) (nrm : ℂ) (i : ℕ) : Prog ℕ ℂ :=
  if i &&& regMask = result then .read i fun y => .write i (nrm * y) .done else .write i 0 .done

/-- The bodies of the loops that copy every amplitude of `stateVec` (left) to a cell of `nStateVec` (right): `ROL`, `INC`,
`CINC`, `INCDECC`, `INCS`, ... in `src/qengine/arithmetic.cpp`. -/
noncomputable def copyProg (out : ℕ → ℕ) (lcv : ℕ) : Prog (ℕ ⊕ ℕ) ℂ :=
  .read (.inl lcv) fun y => .write (.inr (out lcv)) y .done

/-- The cell that `INC` writes, `src/qengine/arithmetic.cpp:89-92`, as in `Engine.incE`. -/
def incOut (n toAdd start length lcv : ℕ) : ℕ :=
  let lengthMask := 2 ^ length - 1
  let toAddOcl := ocl toAdd &&& lengthMask
  let inOutMask := lengthMask <<< start
  let otherRes := lcv &&& Engine.otherMask n inOutMask
  let inOutInt := (lcv &&& inOutMask) >>> start
  let outInt := ((inOutInt + toAddOcl) % 2 ^ 64) &&& lengthMask
  (outInt <<< start) ||| otherRes

/-- The cells that the first loop of `DecomposeDispose` writes. -/
inductive Cell where
  | remProb (i : ℕ)
  | partAngle (i : ℕ)
  deriving DecidableEq

/-- The inner loop from `k` on, `src/qengine/state.cpp:1181-1188`: `+=` reads and then writes. `amp k` is the amplitude at
`j | (k << start)`, which the loop does not change. -/
noncomputable def decomposeInner (floor : ℝ) (amp : ℕ → ℂ) (lcv : ℕ) : List ℕ → Prog Cell ℝ
  | [] => .done
  | k :: ks =>
    let nrm := Complex.normSq (amp k)
    .read (.remProb lcv) fun x => .write (.remProb lcv) (x + nrm) <|
      if floor < nrm then
        .read (.partAngle k) fun y => .write (.partAngle k) (y + Complex.arg (amp k) * nrm) (decomposeInner floor amp lcv ks)
      else decomposeInner floor amp lcv ks

/-- The body of the first loop of `DecomposeDispose` with a destination, `src/qengine/state.cpp:1177-1189`. -/
noncomputable def decomposeProg (floor : ℝ) (amp : ℕ → ℂ) (start length lcv : ℕ) : Prog Cell ℝ :=
  decomposeInner floor (fun k => amp (remIdx start length lcv ||| (k <<< start))) lcv (List.range (2 ^ length))

end Verif.Race
