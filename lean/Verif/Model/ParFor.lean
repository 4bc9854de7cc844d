import Verif.Lib.Bits
import Mathlib.Algebra.BigOperators.Fin
import Mathlib.Data.Multiset.Basic

/-!
Model of the parallel loops of `src/common/parallel_for.cpp`.

`bitCapIntOcl` is a `w`-bit unsigned word (`w = 2^UINTPOW`, 64 by default,
`include/common/qrack_types.hpp:49-59`); word operations that can lose bits are written `% 2^w`.

Simplification: the loop body is represented by the argument it is called with (the executed
"trace"); each call of the body is one atomic step. That bodies of distinct iterations touch
disjoint cells is proved separately where the loops are used.
-/

namespace Verif.ParFor

/-- `src/common/parallel_for.cpp:141-142,156`: one step of the increment function of
`par_for_mask` for mask `m`: `i = ((i << 1) & highMask) | (i & lowMask)` with
`lowMask = m - 1` and `highMask = ~(lowMask + m)`. -/
def maskIncStep (w m i : ℕ) : ℕ :=
  ((i <<< 1) % 2 ^ w &&& ((2 ^ w - 1) ^^^ ((m - 1) + m))) ||| (i &&& (m - 1))

/-- `src/common/parallel_for.cpp:151-158`: push `i` apart, one mask at a time. -/
def maskInc (w : ℕ) (masks : List ℕ) (i : ℕ) : ℕ :=
  masks.foldl (fun i m => maskIncStep w m i) i

/-- `src/common/parallel_for.cpp:140-147`: the `onlyLow` flag, computed by the loop over `i` with
`maskArray[maskLen - i - 1U] != (end >> (i + 1U))`; scanning the reversed array. -/
def onlyLowAux (stop : ℕ) : ℕ → List ℕ → Bool
  | _, [] => true
  | i, m :: ms => (m == stop >>> (i + 1)) && onlyLowAux stop (i + 1) ms

/-- `src/common/parallel_for.cpp:140-147`. -/
def onlyLow (stop : ℕ) (masks : List ℕ) : Bool := onlyLowAux stop 0 masks.reverse

/-- `src/common/parallel_for.cpp:50-54`, `par_for`: arguments of the body in sequential order. -/
def parForPlan (start stop : ℕ) : List ℕ := List.range' start (stop - start)

/-- `src/common/parallel_for.cpp:132-163`, `par_for_mask`: arguments of the body in sequential
order. -/
def parForMaskPlan (w start stop : ℕ) (masks : List ℕ) : List ℕ :=
  if onlyLow stop masks then
    parForPlan start (stop >>> masks.length)
  else
    (List.range' start ((stop - start) >>> masks.length)).map (maskInc w masks)

/-- `src/common/parallel_for.cpp:117-127`: increment function of `par_for_skip`; both branches
(`!lowMask` gives `i << maskWidth`). -/
def skipInc (w skipMask maskWidth i : ℕ) : ℕ :=
  let lowMask := skipMask - 1
  if lowMask = 0 then (i <<< maskWidth) % 2 ^ w
  else (i &&& lowMask) ||| (((i &&& ((2 ^ w - 1) ^^^ lowMask)) <<< maskWidth) % 2 ^ w)

/-- `src/common/parallel_for.cpp:100-130`, `par_for_skip`: arguments of the body in sequential
order. -/
def parForSkipPlan (w start stop skipMask maskWidth : ℕ) : List ℕ :=
  if stop ≤ (skipMask <<< maskWidth) % 2 ^ w then
    parForPlan start skipMask
  else
    (List.range' start ((stop - start) >>> maskWidth)).map (skipInc w skipMask maskWidth)

/-! ### The chunk scheduler `par_for_inc` -/

/-- State of one worker of `par_for_inc` (`src/common/parallel_for.cpp:193-207`): about to claim a
chunk, at inner iteration `j` of the chunk starting at `l`, or returned. -/
inductive Worker where
  | idle
  | run (l j : ℕ)
  | done
  deriving DecidableEq

/-- Shared state: the atomic chunk counter `idx`, the workers, and the arguments (before `inc`)
with which the body was called so far, oldest first. -/
structure Sys (t : ℕ) where
  idx : ℕ
  ws : Fin t → Worker
  trace : List ℕ

/-- `src/common/parallel_for.cpp:202`: `maxJ = ((l + Stride) < itemCount) ? Stride : itemCount - l`. -/
def maxJ (stride items l : ℕ) : ℕ := if l + stride < items then stride else items - l

/-- `src/common/parallel_for.cpp:187-207`: one atomic action of one worker. `claimDone`/`claimRun`
are `ATOMIC_INC()` and the test `l >= itemCount`; `exec` is one call of the body. -/
inductive Step (t start stride items : ℕ) : Sys t → Sys t → Prop
  | claimDone (s : Sys t) (c : Fin t) : s.ws c = .idle → items ≤ s.idx * stride →
      Step t start stride items s ⟨s.idx + 1, Function.update s.ws c .done, s.trace⟩
  | claimRun (s : Sys t) (c : Fin t) : s.ws c = .idle → s.idx * stride < items →
      Step t start stride items s
        ⟨s.idx + 1, Function.update s.ws c (.run (s.idx * stride) 0), s.trace⟩
  | exec (s : Sys t) (c : Fin t) (l j : ℕ) : s.ws c = .run l j → j < maxJ stride items l →
      Step t start stride items s
        ⟨s.idx, Function.update s.ws c (.run l (j + 1)), s.trace ++ [start + j + l]⟩
  | chunkEnd (s : Sys t) (c : Fin t) (l j : ℕ) : s.ws c = .run l j → ¬ j < maxJ stride items l →
      Step t start stride items s ⟨s.idx, Function.update s.ws c .idle, s.trace⟩

/-- `src/common/parallel_for.cpp:187-192`: all workers launched, counter zero. -/
def initial (t : ℕ) : Sys t := ⟨0, fun _ => .idle, []⟩

/-- Reachable states. -/
inductive Reach (t start stride items : ℕ) : Sys t → Prop
  | init : Reach t start stride items (initial t)
  | step {s s'} : Reach t start stride items s → Step t start stride items s s' →
      Reach t start stride items s'

/-- `src/common/parallel_for.cpp:173-177`: number of worker threads. -/
def threadCount (stride items numCores : ℕ) : ℕ := min (items / stride) numCores

/-- `src/common/parallel_for.cpp:170-212`: a complete execution of `par_for_inc` calls the body on
`trace.map inc`: sequentially when at most one thread is used (lines 178-185), else by some
complete schedule of the workers (all futures joined, lines 209-211). -/
inductive ParForInc (start stride items numCores : ℕ) (inc : ℕ → ℕ) : List ℕ → Prop
  | seq : threadCount stride items numCores ≤ 1 →
      ParForInc start stride items numCores inc ((List.range' start items).map inc)
  | par (s : Sys (threadCount stride items numCores)) :
      1 < threadCount stride items numCores →
      Reach _ start stride items s → (∀ c, s.ws c = .done) →
      ParForInc start stride items numCores inc (s.trace.map inc)

end Verif.ParFor
