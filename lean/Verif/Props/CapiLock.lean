import Verif.Model.CapiLock
import Mathlib.Data.Finite.Defs
import Mathlib.Data.Set.Finite.Basic
import Mathlib.Data.Set.Finite.Lattice
import Mathlib.Data.Set.Finite.Lemmas
import Mathlib.Tactic.SplitIfs
import Mathlib.Tactic.Push
import Mathlib.Tactic.FinCases
import Mathlib.Data.Fin.VecNotation

/-!
# C45: no deadlock

`Deadlock s S`: every caller in `S` waits for a mutex that a caller in `S` holds.
-/

namespace Verif.CapiLock

open Mutex Act

def Deadlock {ι : Type} (s : ι → Thread) (S : Set ι) : Prop :=
  S.Nonempty ∧ ∀ i ∈ S, ∃ ms r, (s i).rest = lock ms :: r ∧ ∃ m ∈ ms, ∃ j ∈ S, m ∈ (s j).held

/-- An order in which mutexes may be taken: the global one first. -/
def rank (f : Option ℕ → ℕ) : Mutex → ℕ
  | global => 0
  | sim p => f p + 1
  | neuron _ => 1
  | circuit _ => 1

/-- The rest of a call takes mutexes above those it holds, and gives all of them back. -/
def ok (f : Option ℕ → ℕ) : List Mutex → List Act → Prop
  | held, [] => held = []
  | held, unlock m :: r => ok f (held.erase m) r
  | held, lock ms :: r => (∀ m ∈ ms, ∀ h ∈ held, rank f h < rank f m) ∧ ok f (ms ++ held) r

theorem prog_ok (f : Option ℕ → ℕ) (c : Api) (h : ∀ p q, c = .compose p q → f p < f q) : ok f [] (prog c) := by
  cases c with
  | compose p q =>
    have := h p q rfl
    have hne : sim q ≠ sim p := by rintro ⟨⟩; omega
    simp [prog, ok, rank, this]
  | _ => simp [prog, ok, rank]

theorem reach_ok {ι : Type} [DecidableEq ι] {calls : ι → Api} (f : Option ℕ → ℕ)
    (h : ∀ i p q, calls i = .compose p q → f p < f q) {s : ι → Thread} (hr : Reach calls s) : ∀ i, ok f (s i).held (s i).rest := by
  induction hr with
  | start => exact fun i => prog_ok f _ fun p q => h i p q
  | step _ hs ih =>
    intro i
    cases hs with
    | lock j ms r hj hf =>
      by_cases he : i = j
      · subst he
        have := ih i
        rw [hj, ok] at this
        rw [Function.update_self]; exact this.2
      · rw [Function.update_of_ne he]; exact ih i
    | unlock j m r hj =>
      by_cases he : i = j
      · subst he
        have := ih i
        rw [hj, ok] at this
        rw [Function.update_self]; exact this
      · rw [Function.update_of_ne he]; exact ih i

/-- No set of concurrent calls deadlocks, whatever the schedule, if all calls of `Compose` take their two simulators in the order of
one numbering `f`. The full claim has no condition on `Compose`; `compose_deadlock` and `compose_self` show that it is false. -/
theorem no_deadlock_partial {ι : Type} [DecidableEq ι] [Finite ι] {calls : ι → Api} (f : Option ℕ → ℕ)
    (h : ∀ i p q, calls i = .compose p q → f p < f q) {s : ι → Thread} (hr : Reach calls s) (S : Set ι) : ¬Deadlock s S := by
  rintro ⟨hne, hd⟩
  have hok := reach_ok f h hr
  -- the mutex each caller waits for
  have hd' : ∀ i ∈ S, ∃ m, ∃ ms r, (s i).rest = lock ms :: r ∧ m ∈ ms ∧ ∃ j ∈ S, m ∈ (s j).held := by
    intro i hi
    obtain ⟨ms, r, e, m, hm, j, hj, hh⟩ := hd i hi
    exact ⟨m, ms, r, e, hm, j, hj, hh⟩
  haveI : Nonempty Mutex := ⟨global⟩
  choose! w hw using hd'
  obtain ⟨i, hi, hmax⟩ := Set.exists_max_image S (fun i => rank f (w i)) (Set.toFinite S) hne
  obtain ⟨-, -, -, -, j, hj, hh⟩ := hw i hi
  obtain ⟨ms, r, e, hm, -⟩ := hw j hj
  have h1 := hok j
  rw [e, ok] at h1
  have h2 := h1.1 _ hm _ hh
  have h3 := hmax j hj
  omega

/-- In particular there is no deadlock without `Compose`. -/
theorem no_deadlock_without_compose {ι : Type} [DecidableEq ι] [Finite ι] {calls : ι → Api}
    (h : ∀ i p q, calls i ≠ .compose p q) {s : ι → Thread} (hr : Reach calls s) (S : Set ι) : ¬Deadlock s S :=
  no_deadlock_partial (fun _ => 0) (fun i p q he => absurd he (h i p q)) hr S

/-- Under the same condition the calls never get stuck: as long as one is unfinished, one can go on. -/
theorem progress_partial {ι : Type} [DecidableEq ι] [Finite ι] {calls : ι → Api} (f : Option ℕ → ℕ)
    (h : ∀ i p q, calls i = .compose p q → f p < f q) {s : ι → Thread} (hr : Reach calls s) {i : ι} (hi : (s i).rest ≠ []) :
    ∃ s', Step s s' := by
  by_contra hn
  refine no_deadlock_partial f h hr {j | (s j).rest ≠ []} ⟨⟨i, hi⟩, fun j hj => ?_⟩
  have hok := reach_ok f h hr
  cases hrest : (s j).rest with
  | nil => exact absurd hrest hj
  | cons a r =>
    cases a with
    | unlock m => exact absurd ⟨_, Step.unlock j m r hrest⟩ hn
    | lock ms =>
      refine ⟨ms, r, rfl, ?_⟩
      by_contra hc
      push Not at hc
      refine hn ⟨_, Step.lock j ms r hrest fun m hm k hk => ?_⟩
      have hk2 : (s k).rest ≠ [] := by
        intro he
        have := hok k
        rw [he, ok] at this
        rw [this] at hk
        cases hk
      exact hc m hm k hk2 hk

/-- `Compose(a, b)` and `Compose(b, a)`, each after its first lock. -/
theorem compose_deadlock (a b : Option ℕ) (hab : a ≠ b) :
    ∃ s, Reach (fun i : Bool => if i then Api.compose a b else Api.compose b a) s ∧ Deadlock s Set.univ := by
  have h1 := Step.lock (s := fun i : Bool => (⟨prog (if i then Api.compose a b else Api.compose b a), []⟩ : Thread)) true
    [sim a] [lock [sim b], unlock (sim b), unlock (sim a)] rfl (by simp)
  have h2 := Step.lock (s := Function.update (fun i : Bool => (⟨prog (if i then Api.compose a b else Api.compose b a), []⟩ : Thread)) true
    ⟨[lock [sim b], unlock (sim b), unlock (sim a)], [sim a] ++ []⟩) false
    [sim b] [lock [sim a], unlock (sim a), unlock (sim b)] (by rw [Function.update_of_ne (by decide)]; rfl) (by
      intro m hm j
      rw [List.mem_singleton] at hm
      subst hm
      cases j
      · rw [Function.update_of_ne (by decide)]; simp
      · rw [Function.update_self]; simpa using Ne.symm hab)
  refine ⟨_, (Reach.start.step h1).step h2, ⟨true, trivial⟩, ?_⟩
  rintro (_ | _) -
  · refine ⟨[sim a], _, by rw [Function.update_self], sim a, by simp, true, trivial, ?_⟩
    rw [Function.update_of_ne (by decide), Function.update_self]; simp
  · refine ⟨[sim b], [unlock (sim b), unlock (sim a)], ?_, sim b, by simp, false, trivial, ?_⟩
    · rw [Function.update_of_ne (by decide), Function.update_self]
    · rw [Function.update_self]; simp

/-- `Compose(a, a)` waits for itself. -/
theorem compose_self (a : Option ℕ) : ∃ s, Reach (fun _ : Unit => Api.compose a a) s ∧ Deadlock s Set.univ := by
  have h1 := Step.lock (s := fun _ : Unit => (⟨prog (Api.compose a a), []⟩ : Thread)) ()
    [sim a] [lock [sim a], unlock (sim a), unlock (sim a)] rfl (by simp)
  refine ⟨_, Reach.start.step h1, ⟨(), trivial⟩, fun i _ => ⟨[sim a], [unlock (sim a), unlock (sim a)], ?_, sim a, by simp, (), trivial, ?_⟩⟩
  · rw [Function.update_self]
  · rw [Function.update_self]; simp

/-- Four callers on two simulators meet the condition. -/
example : ∀ (i : Fin 4) p q, (![Api.compose (some 1) (some 2), .decompose (some 1), .tableSim (some 2), .simOp (some 2)] : Fin 4 → Api) i
    = .compose p q → (fun p : Option ℕ => p.getD 0) p < (fun p : Option ℕ => p.getD 0) q := by
  intro i p q h
  fin_cases i <;> simp at h
  obtain ⟨rfl, rfl⟩ := h
  decide

end Verif.CapiLock
