import Mathlib.Logic.Function.Basic
import Mathlib.Data.List.Basic

/-!
# The C API: mutexes

`src/pinvoke_api.cpp`. A call is the sequence of its lock and unlock operations; a pointer is a number, `none` the null pointer,
for which there is a mutex too (`:31-32`). `std::lock` takes all of its mutexes at once or none, which is what it guarantees at
its end; the attempts in between, where it holds some and gives them back, are not modelled. Mutexes erased by `destroy` while
another call uses them are not modelled. Unlocking happens in the order of the destructors.
-/

namespace Verif.CapiLock

/-- `metaOperationMutex`, `simulatorMutexes[p]`, `neuronMutexes[p]`, `circuitMutexes[p]`, `src/pinvoke_api.cpp:258-274`. -/
inductive Mutex
  | global
  | sim (p : Option ℕ)
  | neuron (p : Option ℕ)
  | circuit (p : Option ℕ)
  deriving DecidableEq

inductive Act
  | lock (ms : List Mutex)
  | unlock (m : Mutex)

open Mutex Act

/-- The functions of the interface, by the locks they take. -/
inductive Api
  /-- `init_count*`, `destroy`, `init_qcircuit`, `destroy_qneuron`, `destroy_qcircuit`: `META_LOCK_GUARD`. -/
  | table
  /-- All functions with `SIMULATOR_LOCK_GUARD_*`. -/
  | simOp (p : Option ℕ)
  /-- `NEURON_LOCK_GUARD_*`. -/
  | neuronOp (p n : Option ℕ)
  /-- `CIRCUIT_LOCK_GUARD_*`. -/
  | circuitOp (c : Option ℕ)
  /-- `qcircuit_run`. -/
  | circuitRun (p c : Option ℕ)
  /-- `init_clone`, `allocateQubit`, `release`, `init_qneuron`. -/
  | tableSim (p : Option ℕ)
  /-- `clone_qneuron`. -/
  | tableNeuron (n : Option ℕ)
  /-- `_init_qcircuit_copy`. -/
  | tableCircuit (c : Option ℕ)
  | decompose (p : Option ℕ)
  | compose (p q : Option ℕ)

/-- Locks and unlocks of a call. -/
def prog : Api → List Act
  -- `src/pinvoke_api.cpp:29`
  | .table => [lock [global], unlock global]
  -- `:34-51`
  | .simOp p => [lock [global, sim p], unlock global, unlock (sim p)]
  -- `:82-105`
  | .neuronOp p n => [lock [global, sim p, neuron n], unlock global, unlock (sim p), unlock (neuron n)]
  -- `:137-157`
  | .circuitOp c => [lock [global, circuit c], unlock global, unlock (circuit c)]
  -- `:186-246`
  | .circuitRun p c => [lock [global, sim p, circuit c], unlock global, unlock (circuit c), unlock (sim p)]
  -- `:850-862`, `:1287-1309`, `:1328-1340`, `:3474-3485`
  | .tableSim p => [lock [global], lock [sim p], unlock (sim p), unlock global]
  -- `:3528-3539`
  | .tableNeuron n => [lock [global], lock [neuron n], unlock (neuron n), unlock global]
  -- `:3719-3730`
  | .tableCircuit c => [lock [global], lock [circuit c], unlock (circuit c), unlock global]
  -- `:2268-2272`: `init_clone_size` returns before the guard
  | .decompose p => [lock [global], lock [sim p], unlock (sim p), unlock global, lock [global, sim p], unlock global, unlock (sim p)]
  -- `:2224-2231`
  | .compose p q => [lock [sim p], lock [sim q], unlock (sim q), unlock (sim p)]

/-- A caller: what is left to do and the mutexes it holds. -/
structure Thread where
  rest : List Act
  held : List Mutex

/-- One caller takes one step: it locks when nobody, not even itself, holds any of the mutexes. -/
inductive Step {ι : Type} [DecidableEq ι] (s : ι → Thread) : (ι → Thread) → Prop
  | lock (i : ι) (ms : List Mutex) (r : List Act) (h : (s i).rest = lock ms :: r) (hf : ∀ m ∈ ms, ∀ j, m ∉ (s j).held) :
    Step s (Function.update s i ⟨r, ms ++ (s i).held⟩)
  | unlock (i : ι) (m : Mutex) (r : List Act) (h : (s i).rest = unlock m :: r) :
    Step s (Function.update s i ⟨r, (s i).held.erase m⟩)

/-- What can happen when the callers start their calls together. -/
inductive Reach {ι : Type} [DecidableEq ι] (calls : ι → Api) : (ι → Thread) → Prop
  | start : Reach calls fun i => ⟨prog (calls i), []⟩
  | step {s s' : ι → Thread} : Reach calls s → Step s s' → Reach calls s'

end Verif.CapiLock
