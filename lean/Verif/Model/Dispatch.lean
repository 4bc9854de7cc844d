import Mathlib.Logic.Function.Basic
import Mathlib.Data.List.Range

/-!
# The dispatch queue

`include/common/dispatchqueue.hpp`, `src/common/dispatchqueue.cpp`. Tasks are numbered in the order in which `dispatch` accepts
them. What a thread does while it holds `lock_` is one step; the calls of `notify_one` and `notify_all` that come after the
unlocking, the run of a task, and the return from a wait are steps of their own, and steps of different threads come in any order.
A waiting thread sleeps; a notification, or nothing at all (spurious), makes it look at its predicate again. `next`, `began`,
`ended` and `dropped` are a record of what happened and do not influence it. The unsynchronised read `isFinished()` is not modelled.
-/

namespace Verif.Dispatch

/-- The thread that runs `dispatch_thread_handler`. -/
inductive Worker
  /-- `std::async` has not been called. -/
  | absent
  /-- Sleeps in `cv_.wait`. -/
  | asleep
  /-- Is about to evaluate the predicate of `cv_.wait`. -/
  | awake
  /-- Is inside `op()`. -/
  | running (t : ℕ)
  /-- Has returned from `op()` and has not locked yet. -/
  | after
  | exited
  deriving DecidableEq

/-- A thread that uses the queue. -/
inductive Caller
  | idle
  /-- In `dispatch`, before `cv_.notify_one()`; or in the destructor, before `cv_.notify_all()`. -/
  | notify
  /-- In `dump`, before `cvFinished_.notify_all()`. -/
  | notifyFinished
  /-- Sleeps in `finish`, called when `k` tasks had been accepted. -/
  | asleep (k : ℕ)
  /-- In `finish`, is about to evaluate the predicate. -/
  | awake (k : ℕ)
  deriving DecidableEq

structure State (ι : Type) where
  q : List ℕ
  quit : Bool
  isFinished : Bool
  isStarted : Bool
  worker : Worker
  caller : ι → Caller
  next : ℕ
  began : List ℕ
  ended : List ℕ
  dropped : List ℕ

/-- `include/common/dispatchqueue.hpp:34-40`. -/
def init (ι : Type) : State ι := ⟨[], false, true, false, .absent, fun _ => .idle, 0, [], [], []⟩

/-- `cv_.notify_one()`: only the worker waits there. -/
def wakeWorker : Worker → Worker
  | .asleep => .awake
  | w => w

/-- `cvFinished_.notify_all()`. -/
def wakeCaller : Caller → Caller
  | .asleep k => .awake k
  | c => c

inductive Label (ι : Type)
  | dispatch (i : ι)
  | finish (i : ι)
  /-- `finish` returns; `k` tasks had been accepted when it was called. -/
  | finished (i : ι) (k : ℕ)
  | dump (i : ι)
  | destroy (i : ι)
  /-- A step of a call that has begun, or of the worker. -/
  | go
  | spurious

variable {ι : Type} [DecidableEq ι]

/-- A step. -/
inductive Step (s : State ι) : Label ι → State ι → Prop
  /-- `dispatch`, `src/common/dispatchqueue.cpp:73-86`. -/
  | dispatch (i : ι) (h : s.caller i = .idle) (hq : s.quit = false) :
    Step s (.dispatch i) { s with
      q := s.q ++ [s.next]
      isFinished := false
      isStarted := true
      worker := if s.isStarted then s.worker else .awake
      caller := Function.update s.caller i .notify
      next := s.next + 1 }
  /-- `dispatch` after the destructor has begun, `:75-77`. -/
  | dispatchQuit (i : ι) (h : s.caller i = .idle) (hq : s.quit = true) : Step s (.dispatch i) s
  /-- `:88-91`. -/
  | notify (i : ι) (h : s.caller i = .notify) :
    Step s .go { s with worker := wakeWorker s.worker, caller := Function.update s.caller i .idle }
  /-- `finish` returns at once, `:43-47`, or because its predicate holds at the first look, `:49`. -/
  | finishNow (i : ι) (h : s.caller i = .idle) (hq : s.quit = true ∨ s.isStarted = false ∨ s.isFinished = true) :
    Step s (.finished i s.next) s
  /-- `finish` starts to wait, `:49`. -/
  | finishWait (i : ι) (h : s.caller i = .idle) (hq : s.quit = false) (hs : s.isStarted = true) (hf : s.isFinished = false) :
    Step s (.finish i) { s with caller := Function.update s.caller i (.asleep s.next) }
  /-- `:49`, the predicate holds. -/
  | finishAwake (i : ι) (k : ℕ) (h : s.caller i = .awake k) (hp : s.isFinished = true ∨ s.quit = true) :
    Step s (.finished i k) { s with caller := Function.update s.caller i .idle }
  /-- `:49`, the predicate does not hold. -/
  | finishAgain (i : ι) (k : ℕ) (h : s.caller i = .awake k) (hf : s.isFinished = false) (hq : s.quit = false) :
    Step s .go { s with caller := Function.update s.caller i (.asleep k) }
  | spuriousCaller (i : ι) (k : ℕ) (h : s.caller i = .asleep k) :
    Step s .spurious { s with caller := Function.update s.caller i (.awake k) }
  /-- `dump`, `:52-64`. -/
  | dump (i : ι) (h : s.caller i = .idle) (hq : s.quit = false) (hs : s.isStarted = true) :
    Step s (.dump i) { s with
      q := []
      isFinished := true
      caller := Function.update s.caller i .notifyFinished
      dropped := s.dropped ++ s.q }
  /-- `dump` with nothing to do, `:56-58`. -/
  | dumpNothing (i : ι) (h : s.caller i = .idle) (hq : s.quit = true ∨ s.isStarted = false) : Step s (.dump i) s
  /-- `:66`. -/
  | notifyFinished (i : ι) (h : s.caller i = .notifyFinished) :
    Step s .go { s with caller := fun j => if j = i then .idle else wakeCaller (s.caller j) }
  /-- The destructor up to the unlocking, `:18-29`; before `:20-22` it would only return. The rest, waiting for the worker, has no
  effect that another thread may see. -/
  | destroy (i : ι) (h : s.caller i = .idle) (hs : s.isStarted = true) (hq : s.quit = false) :
    Step s (.destroy i) { s with
      q := []
      quit := true
      caller := Function.update s.caller i .notify
      dropped := s.dropped ++ s.q }
  /-- `:99-103`: nothing to do. -/
  | sleep (h : s.worker = .awake) (hn : s.q = []) (hq : s.quit = false) : Step s .go { s with worker := .asleep }
  /-- `:104-106` and `:122`. -/
  | exit (h : s.worker = .awake) (hq : s.quit = true) : Step s .go { s with worker := .exited }
  /-- `:108-112`. -/
  | take (h : s.worker = .awake) (hq : s.quit = false) (t : ℕ) (ts : List ℕ) (hn : s.q = t :: ts) :
    Step s .go { s with q := ts, worker := .running t, began := s.began ++ [t] }
  /-- `:113` returns. -/
  | ends (t : ℕ) (h : s.worker = .running t) : Step s .go { s with worker := .after, ended := s.ended ++ [t] }
  /-- `:115-122`. -/
  | after (h : s.worker = .after) :
    Step s .go { s with
      isFinished := if s.q = [] then true else s.isFinished
      caller := if s.q = [] then fun j => wakeCaller (s.caller j) else s.caller
      worker := if s.quit then .exited else .awake }
  | spuriousWorker (h : s.worker = .asleep) : Step s .spurious { s with worker := .awake }

/-- States that can occur, with the steps taken so far. -/
inductive Reach : List (Label ι) → State ι → Prop
  | init : Reach [] (init ι)
  | step {ls : List (Label ι)} {s s' : State ι} {l : Label ι} : Reach ls s → Step s l s' → Reach (l :: ls) s'

end Verif.Dispatch
