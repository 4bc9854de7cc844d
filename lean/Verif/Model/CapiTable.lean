import Mathlib.Data.List.Basic

/-!
# The C API: tables of simulators

`src/pinvoke_api.cpp`. `simulators`, `simulatorErrors` and `simulatorReservations` are vectors of the same length; an entry of
`sims` says whether there is a simulator, null or not. Reading or writing a vector outside of its bounds, and a call through a null
pointer, is undefined behaviour and gives `none`.
-/

namespace Verif.CapiTable

structure Table where
  sims : List Bool
  errs : List ℕ
  res : List Bool
  metaError : ℕ
  deriving DecidableEq

def empty : Table := ⟨[], [], [], 0⟩

/-- `v[i]`. -/
def at? {α : Type} (v : List α) (i : ℕ) : Option α := v[i]?

/-- `v[i] = x`. -/
def put {α : Type} (v : List α) (i : ℕ) (x : α) : Option (List α) := if i < v.length then some (v.set i x) else none

/-- The choice of an id, `src/pinvoke_api.cpp:633-641`, `:729-737`, `:864-872`: the first that is not reserved, or a new one. -/
def freeId (t : Table) : ℕ := t.res.findIdx (· = false)

/-- Entering the simulator, `src/pinvoke_api.cpp:696-708`, `:751-763`, `:883-895`. -/
def enter (t : Table) (sid : ℕ) (nonNull ok : Bool) : Option Table :=
  if sid = t.sims.length then
    some { t with res := t.res ++ [true], sims := t.sims ++ [nonNull], errs := t.errs ++ [if ok then 0 else 1] }
  else
    (put t.res sid true).bind fun r => (put t.sims sid nonNull).bind fun s => (put t.errs sid (if ok then 0 else 1)).map fun e =>
      { t with res := r, sims := s, errs := e }

inductive Call
  /-- `init_count_type`, `init_count`, `init_count_pager`; `q` is whether there are qubits, `ok` whether creation succeeds. -/
  | create (q ok : Bool)
  /-- `init_clone`. -/
  | clone (sid : ℕ) (ok : Bool)
  | destroy (sid : ℕ)
  | getError (sid : ℕ)
  /-- Any function that starts with a `SIMULATOR_LOCK_GUARD`; `fails` is whether its body catches an exception. -/
  | op (sid : ℕ) (fails : Bool)
  deriving DecidableEq

/-- One call; the result and the table. -/
def Call.run (t : Table) : Call → Option (ℕ × Table)
  -- `src/pinvoke_api.cpp:725-774`; `FillSimShards` dereferences the simulator
  | .create q ok =>
    let sid := freeId t
    (enter t sid (q && ok) ok).bind fun t' => if q && !ok then none else some (sid, t')
  -- `src/pinvoke_api.cpp:850-901`; a failing `Clone` leaves a null simulator that `FillSimShards` dereferences
  | .clone sid ok =>
    if sid > t.sims.length then some (0, { t with metaError := 2 })
    else (at? t.sims sid).bind fun s =>
      if s && ok then
        let n := freeId t
        (enter t n true true).map fun t' => (n, t')
      else none
  -- `src/pinvoke_api.cpp:960-969`
  | .destroy sid =>
    (put t.sims sid false).bind fun s => (put t.errs sid 0).bind fun e => (put t.res sid false).map fun r =>
      (0, { t with sims := s, errs := e, res := r })
  -- `src/pinvoke_api.cpp:609-617`
  | .getError sid => if t.metaError ≠ 0 then some (2, { t with metaError := 0 }) else (at? t.errs sid).map fun e => (e, t)
  -- `src/pinvoke_api.cpp:53-74`
  | .op sid fails =>
    if sid > t.sims.length then some (0, { t with metaError := 2 })
    else (at? t.sims sid).bind fun s =>
      if s && fails then (put t.errs sid 1).map fun e => (0, { t with errs := e }) else some (0, t)

/-- A history, with the ids that the calls of the history gave out. -/
def run : Table → List ℕ → List Call → Option (Table × List ℕ)
  | t, ids, [] => some (t, ids)
  | t, ids, c :: cs => (c.run t).bind fun r => run r.2 (match c with
    | .create _ _ => r.1 :: ids
    | .clone sid _ => if sid > t.sims.length then ids else r.1 :: ids
    | _ => ids) cs

end Verif.CapiTable
