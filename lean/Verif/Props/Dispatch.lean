import Verif.Model.Dispatch
import Mathlib.Tactic.SplitIfs
import Mathlib.Tactic.Push
import Mathlib.Data.List.Sort
import Mathlib.Data.List.Perm.Basic

/-!
# C39: the dispatch queue
-/

namespace Verif.Dispatch

variable {ι : Type} [DecidableEq ι]

/-- The task the worker is inside of. -/
def Worker.task : Worker → List ℕ
  | .running t => [t]
  | _ => []

/-- What holds in every state that can occur. -/
structure Inv (s : State ι) : Prop where
  one : s.began = s.ended ++ s.worker.task
  order : (s.began ++ s.q).Pairwise (· < ·)
  all : (s.began ++ s.q ++ s.dropped).Perm (List.range s.next)
  started : s.isStarted = true ↔ s.worker ≠ .absent
  none : s.isStarted = false → s.next = 0 ∧ s.isFinished = true ∧ ∀ i, s.caller i = .idle
  wake : s.q ≠ [] → s.worker = .asleep → ∃ i, s.caller i = .notify
  busy : s.isFinished = false → s.quit = false → s.q ≠ [] ∨ (∃ t, s.worker = .running t) ∨ s.worker = .after
  waiting : ∀ i k, s.caller i = .asleep k → s.quit = false → s.isFinished = false ∨ ∃ j, s.caller j = .notifyFinished
  quitEmpty : s.quit = true → s.q = [] ∧ s.isStarted = true
  quitWake : s.quit = true → s.worker = .asleep → ∃ i, s.caller i = .notify
  exited : s.worker = .exited → s.quit = true

theorem wakeCaller_idle {c : Caller} (h : c = .idle) : wakeCaller c = .idle := by subst h; rfl

theorem init_inv : Inv (init ι) := by
  constructor <;> simp [init, Worker.task]

/-- Steps of a caller that only change what that caller does. -/
theorem caller_inv {s : State ι} (h : Inv s) (i : ι) (c : Caller) (hst : s.isStarted = true)
    (h1 : s.caller i ≠ .notify) (h2 : s.caller i ≠ .notifyFinished)
    (h3 : ∀ k, c = .asleep k → s.quit = false → s.isFinished = false) :
    Inv { s with caller := Function.update s.caller i c } := by
  refine ⟨h.one, h.order, h.all, h.started, fun hn => ?_, fun a b => ?_, h.busy, fun j k hj hq => ?_, h.quitEmpty, fun a b => ?_, h.exited⟩
  · simp only at hn; rw [hst] at hn; cases hn
  · obtain ⟨j, hj⟩ := h.wake a b
    exact ⟨j, by simp only; rw [Function.update_of_ne (by rintro rfl; exact h1 hj)]; exact hj⟩
  · simp only at hj ⊢
    by_cases he : j = i
    · subst he
      rw [Function.update_self] at hj
      exact Or.inl (h3 k hj hq)
    · rw [Function.update_of_ne he] at hj
      rcases h.waiting j k hj hq with hf | ⟨m, hm⟩
      · exact Or.inl hf
      · exact Or.inr ⟨m, by rw [Function.update_of_ne (by rintro rfl; exact h2 hm)]; exact hm⟩
  · obtain ⟨j, hj⟩ := h.quitWake a b
    exact ⟨j, by simp only; rw [Function.update_of_ne (by rintro rfl; exact h1 hj)]; exact hj⟩

/-- A caller that is not idle exists only when the worker was started. -/
theorem started_of {s : State ι} (h : Inv s) {i : ι} (hi : s.caller i ≠ .idle) : s.isStarted = true := by
  by_contra hn
  rw [Bool.not_eq_true] at hn
  exact hi ((h.none hn).2.2 i)

theorem step_inv {s s' : State ι} {l : Label ι} (h : Inv s) (hs : Step s l s') : Inv s' := by
  have hne : ∀ i, s.caller i = .idle → s.caller i ≠ .notify ∧ s.caller i ≠ .notifyFinished := by
    intro i hi; rw [hi]; exact ⟨by simp, by simp⟩
  cases hs with
  | dispatch i hi hq =>
    have hlt : ∀ x ∈ s.began ++ s.q, x < s.next := fun x hx =>
      List.mem_range.mp (h.all.subset (List.mem_append_left _ hx))
    refine ⟨?_, ?_, ?_, ?_, ?_, fun _ _ => ⟨i, Function.update_self ..⟩, fun _ _ => Or.inl (by simp), fun _ _ _ _ => Or.inl rfl, ?_, ?_, ?_⟩
    · simp only
      rw [h.one]
      by_cases hst : s.isStarted = true
      · rw [if_pos hst]
      · rw [if_neg hst]
        have : s.worker = .absent := by
          by_contra hw; exact hst (h.started.mpr hw)
        rw [this]; rfl
    · simp only
      rw [← List.append_assoc, List.pairwise_append]
      exact ⟨h.order, List.pairwise_singleton .., fun a ha b hb => by
        rw [List.mem_singleton] at hb; rw [hb]; exact hlt a ha⟩
    · simp only
      rw [List.range_succ, ← List.append_assoc, List.append_assoc (s.began ++ s.q)]
      refine (List.Perm.append_left _ List.perm_append_comm).trans ?_
      rw [← List.append_assoc]
      exact h.all.append_right _
    · simp only [true_iff]
      split_ifs with hst
      · exact h.started.mp hst
      · simp
    · intro hn; simp at hn
    · intro hq'; simp only at hq'; rw [hq] at hq'; cases hq'
    · intro hq'; simp only at hq'; rw [hq] at hq'; cases hq'
    · simp only
      split_ifs
      · exact h.exited
      · intro he; cases he
  | dispatchQuit i hi hq => exact h
  | notify i hi =>
    have hst := started_of h (i := i) (by rw [hi]; simp)
    refine ⟨?_, h.order, h.all, ?_, fun hn => ?_, fun _ hw => ?_, fun a b => ?_, fun j k hj hq => ?_, h.quitEmpty, fun _ hw => ?_, fun hw => ?_⟩
    · simp only
      rw [h.one]
      cases s.worker <;> rfl
    · simp only
      rw [h.started]
      cases s.worker <;> simp [wakeWorker]
    · simp only at hn; rw [hst] at hn; cases hn
    · simp only at hw
      cases hc : s.worker <;> rw [hc] at hw <;> cases hw
    · simp only
      rcases h.busy a b with h1 | ⟨t, h1⟩ | h1
      · exact Or.inl h1
      · exact Or.inr (Or.inl ⟨t, by rw [h1]; rfl⟩)
      · exact Or.inr (Or.inr (by rw [h1]; rfl))
    · simp only at hj ⊢
      have he : j ≠ i := by rintro rfl; rw [Function.update_self] at hj; cases hj
      rw [Function.update_of_ne he] at hj
      rcases h.waiting j k hj hq with hf | ⟨m, hm⟩
      · exact Or.inl hf
      · exact Or.inr ⟨m, by rw [Function.update_of_ne (by rintro rfl; rw [hi] at hm; cases hm)]; exact hm⟩
    · simp only at hw
      cases hc : s.worker <;> rw [hc] at hw <;> cases hw
    · simp only at hw
      cases hc : s.worker <;> rw [hc] at hw <;> first | exact h.exited hc | cases hw
  | finishNow i hi hq => exact h
  | finishWait i hi hq hs hf => exact caller_inv h i _ hs (hne i hi).1 (hne i hi).2 fun _ _ _ => hf
  | finishAwake i k hi hp =>
    exact caller_inv h i _ (started_of h (by rw [hi]; simp)) (by rw [hi]; simp) (by rw [hi]; simp) (by intro _ he; cases he)
  | finishAgain i k hi hf hq =>
    exact caller_inv h i _ (started_of h (by rw [hi]; simp)) (by rw [hi]; simp) (by rw [hi]; simp) fun _ _ _ => hf
  | spuriousCaller i k hi =>
    exact caller_inv h i _ (started_of h (by rw [hi]; simp)) (by rw [hi]; simp) (by rw [hi]; simp) (by intro _ he; cases he)
  | dump i hi hq hs =>
    refine ⟨h.one, ?_, ?_, h.started, fun hn => ?_, fun a => absurd rfl a, fun a => (by cases a), fun _ _ _ _ =>
      Or.inr ⟨i, Function.update_self ..⟩, fun hq' => ?_, fun hq' => ?_, h.exited⟩
    · simp only [List.append_nil]; exact (List.pairwise_append.mp h.order).1
    · simp only [List.append_nil]
      refine List.Perm.trans ?_ h.all
      rw [List.append_assoc]
      exact List.Perm.append_left _ List.perm_append_comm
    · simp only at hn; rw [hs] at hn; cases hn
    · simp only at hq'; rw [hq] at hq'; cases hq'
    · simp only at hq'; rw [hq] at hq'; cases hq'
  | dumpNothing i hi hq => exact h
  | notifyFinished i hi =>
    have hst := started_of h (i := i) (by rw [hi]; simp)
    have hk : ∀ j, s.caller j = .notify → (if j = i then Caller.idle else wakeCaller (s.caller j)) = .notify := by
      intro j hj
      rw [if_neg (by rintro rfl; rw [hi] at hj; cases hj), hj]; rfl
    refine ⟨h.one, h.order, h.all, h.started, fun hn => ?_, fun a b => ?_, h.busy, fun j k hj hq => ?_, h.quitEmpty, fun a b => ?_, h.exited⟩
    · simp only at hn; rw [hst] at hn; cases hn
    · obtain ⟨j, hj⟩ := h.wake a b; exact ⟨j, hk j hj⟩
    · simp only at hj
      split_ifs at hj
      cases hc : s.caller j <;> rw [hc] at hj <;> cases hj
    · obtain ⟨j, hj⟩ := h.quitWake a b; exact ⟨j, hk j hj⟩
  | destroy i hi hs hq =>
    refine ⟨h.one, ?_, ?_, h.started, fun hn => ?_, fun a => absurd rfl a, (by intro _ a; cases a), (by intro _ _ _ a; cases a),
      fun _ => ⟨rfl, hs⟩, fun _ _ => ⟨i, Function.update_self ..⟩, fun hw => rfl⟩
    · simp only [List.append_nil]; exact (List.pairwise_append.mp h.order).1
    · simp only [List.append_nil]
      refine List.Perm.trans ?_ h.all
      rw [List.append_assoc]
      exact List.Perm.append_left _ List.perm_append_comm
    · simp only at hn; rw [hs] at hn; cases hn
  | sleep hw hn hq =>
    refine ⟨by have := h.one; rw [hw] at this; exact this, h.order, h.all, ?_, h.none, fun a => absurd hn a, fun a b => ?_, h.waiting, h.quitEmpty,
      fun a => (by simp only at a; rw [hq] at a; cases a), fun a => (by cases a)⟩
    · simp only; rw [h.started, hw]; simp
    · rcases h.busy a b with h1 | ⟨t, h1⟩ | h1
      · exact absurd hn h1
      · rw [hw] at h1; cases h1
      · rw [hw] at h1; cases h1
  | exit hw hq =>
    refine ⟨by have := h.one; rw [hw] at this; exact this, h.order, h.all, ?_, h.none, fun _ a => (by cases a),
      fun _ b => (by simp only at b; rw [hq] at b; cases b), h.waiting, h.quitEmpty, fun _ a => (by cases a), fun _ => hq⟩
    simp only; rw [h.started, hw]; simp
  | take hw hq t ts hn =>
    refine ⟨?_, ?_, ?_, ?_, h.none, fun _ a => (by cases a), fun _ _ => Or.inr (Or.inl ⟨t, rfl⟩), h.waiting, fun a => ?_, fun _ a => (by cases a),
      fun a => (by cases a)⟩
    · have := h.one; rw [hw] at this
      simp only; rw [this]; simp [Worker.task]
    · have := h.order; rw [hn] at this; simpa using this
    · have := h.all; rw [hn] at this; simpa using this
    · simp only; rw [h.started, hw]; simp
    · simp only at a; rw [hq] at a; cases a
  | ends t hw =>
    refine ⟨?_, h.order, h.all, ?_, h.none, fun _ a => (by cases a), fun _ _ => Or.inr (Or.inr rfl), h.waiting, h.quitEmpty, fun _ a => (by cases a),
      fun a => (by cases a)⟩
    · have := h.one; rw [hw] at this
      simp only; rw [this]; simp [Worker.task]
    · simp only; rw [h.started, hw]; simp
  | after hw =>
    have hst : s.isStarted = true := by rw [h.started, hw]; simp
    have hw2 : ∀ b : Bool, (if b = true then Worker.exited else Worker.awake).task = [] := by intro b; split_ifs <;> rfl
    have hw3 : (if s.quit = true then Worker.exited else Worker.awake) ≠ .asleep := by split_ifs <;> simp
    refine ⟨?_, h.order, h.all, ?_, fun hn => ?_, fun _ a => absurd a hw3, fun a b => ?_, fun j k hj hq => ?_, h.quitEmpty, fun _ a => absurd a hw3,
      fun a => ?_⟩
    · have := h.one; rw [hw] at this
      simp only; rw [this, hw2]; rfl
    · simp only; rw [h.started, hw]; split_ifs <;> simp
    · simp only at hn; rw [hst] at hn; cases hn
    · left
      intro he
      simp only at a he
      rw [if_pos he] at a; cases a
    · simp only at hj ⊢
      by_cases hq0 : s.q = []
      · rw [if_pos hq0] at hj
        cases hc : s.caller j <;> rw [hc] at hj <;> cases hj
      · rw [if_neg hq0] at hj
        rw [if_neg hq0, if_neg hq0]
        exact h.waiting j k hj hq
    · simp only at a ⊢
      by_contra hc
      rw [if_neg hc] at a; cases a
  | spuriousWorker hw =>
    refine ⟨by have := h.one; rw [hw] at this; exact this, h.order, h.all, ?_, h.none, fun _ a => (by cases a), fun a b => ?_, h.waiting, h.quitEmpty,
      fun _ a => (by cases a), fun a => (by cases a)⟩
    · simp only; rw [h.started, hw]; simp
    · rcases h.busy a b with h1 | ⟨t, h1⟩ | h1
      · exact Or.inl h1
      · rw [hw] at h1; cases h1
      · rw [hw] at h1; cases h1

theorem reach_inv {ls : List (Label ι)} {s : State ι} (h : Reach ls s) : Inv s := by
  induction h with
  | init => exact init_inv
  | step _ hs ih => exact step_inv ih hs

/-- In every state that can occur: no task has begun twice; tasks have begun in the order of their submission; at most one task has
begun and not ended; and every task submitted has begun, is waiting, or was dropped by `dump` or the destructor. -/
theorem once_in_order {ls : List (Label ι)} {s : State ι} (h : Reach ls s) :
    s.began.Pairwise (· < ·) ∧ (s.began = s.ended ∨ ∃ t, s.began = s.ended ++ [t]) ∧
    (∀ t, t < s.next ↔ t ∈ s.began ∨ t ∈ s.q ∨ t ∈ s.dropped) ∧
    (∀ t ∈ s.began, t ∉ s.q ∧ t ∉ s.dropped) := by
  have hi := reach_inv h
  refine ⟨(List.pairwise_append.mp hi.order).1, ?_, fun t => ?_, fun t ht => ?_⟩
  · rw [hi.one]
    cases s.worker with
    | running t => exact Or.inr ⟨t, rfl⟩
    | _ => exact Or.inl (List.append_nil _)
  · rw [← List.mem_range, ← hi.all.mem_iff, List.mem_append, List.mem_append, or_assoc]
  · have hn : (s.began ++ s.q ++ s.dropped).Nodup := hi.all.nodup_iff.mpr List.nodup_range
    rw [List.append_assoc, List.nodup_append] at hn
    exact ⟨fun hq => hn.2.2 t ht t (List.mem_append_left _ hq) rfl, fun hd => hn.2.2 t ht t (List.mem_append_right _ hd) rfl⟩

/-- No call of `dump`, and not the destructor. -/
def Plain (ls : List (Label ι)) : Prop := ∀ l ∈ ls, (∀ i, l ≠ .dump i) ∧ ∀ i, l ≠ .destroy i

/-- Without `dump` and destructor, the tasks submitted are those begun and those waiting. -/
structure PlainInv (s : State ι) : Prop where
  tasks : s.began ++ s.q = List.range s.next
  quit : s.quit = false
  done : s.isFinished = true → s.q = [] ∧ s.worker.task = []
  snap : ∀ i k, s.caller i = .asleep k ∨ s.caller i = .awake k → k ≤ s.next

theorem plain_inv {ls : List (Label ι)} {s : State ι} (h : Reach ls s) (hp : Plain ls) : PlainInv s := by
  induction h with
  | init => exact ⟨rfl, rfl, fun _ => ⟨rfl, rfl⟩, fun i k h => by rcases h with h | h <;> cases h⟩
  | @step ls s s' l hr hs ih =>
    have hp0 : Plain ls := fun l hl => hp l (List.mem_cons_of_mem _ hl)
    have hl := hp l List.mem_cons_self
    have h := ih hp0
    have hi := reach_inv hr
    have upd : ∀ (i : ι) (c : Caller), (∀ k, c = .asleep k ∨ c = .awake k → k ≤ s.next) → ∀ j k,
        Function.update s.caller i c j = .asleep k ∨ Function.update s.caller i c j = .awake k → k ≤ s.next := by
      intro i c hc j k hj
      rw [Function.update_apply] at hj
      split_ifs at hj
      · exact hc k hj
      · exact h.snap j k hj
    have wake : ∀ (c : Caller) k, wakeCaller c = .asleep k ∨ wakeCaller c = .awake k → c = .asleep k ∨ c = .awake k := by
      intro c k hc
      cases c <;> rcases hc with hc | hc <;> cases hc <;> simp
    cases hs with
    | dispatch i hi' hq =>
      refine ⟨?_, h.quit, fun a => (by cases a), fun j k hj => ?_⟩
      · simp only; rw [List.range_succ, ← h.tasks, List.append_assoc]
      · have := upd i .notify (by intro k hk; rcases hk with hk | hk <;> cases hk) j k hj
        exact Nat.le_succ_of_le this
    | dispatchQuit i hi' hq => exact h
    | notify i hi' =>
      refine ⟨h.tasks, h.quit, fun a => ⟨(h.done a).1, ?_⟩, upd i .idle (by intro k hk; rcases hk with hk | hk <;> cases hk)⟩
      have := (h.done a).2
      simp only
      cases hw : s.worker <;> rw [hw] at this <;> first | rfl | cases this
    | finishNow i hi' hq => exact h
    | finishWait i hi' hq hs hf =>
      exact ⟨h.tasks, h.quit, h.done, upd i _ (by intro k hk; rcases hk with hk | hk <;> cases hk; exact Nat.le_refl _)⟩
    | finishAwake i k hi' hp => exact ⟨h.tasks, h.quit, h.done, upd i _ (by intro k hk; rcases hk with hk | hk <;> cases hk)⟩
    | finishAgain i k hi' hf hq =>
      exact ⟨h.tasks, h.quit, h.done, upd i _ (by intro k' hk; rcases hk with hk | hk <;> cases hk; exact h.snap i k (Or.inr hi'))⟩
    | spuriousCaller i k hi' =>
      exact ⟨h.tasks, h.quit, h.done, upd i _ (by intro k' hk; rcases hk with hk | hk <;> cases hk; exact h.snap i k (Or.inl hi'))⟩
    | dump i hi' hq hs => exact absurd rfl (hl.1 i)
    | dumpNothing i hi' hq => exact h
    | notifyFinished i hi' =>
      refine ⟨h.tasks, h.quit, h.done, fun j k hj => ?_⟩
      simp only at hj
      split_ifs at hj
      · rcases hj with hj | hj <;> cases hj
      · exact h.snap j k (wake _ k hj)
    | destroy i hi' hs hq => exact absurd rfl (hl.2 i)
    | sleep hw hn hq => exact ⟨h.tasks, h.quit, fun a => ⟨(h.done a).1, rfl⟩, h.snap⟩
    | exit hw hq => exact ⟨h.tasks, h.quit, fun a => ⟨(h.done a).1, rfl⟩, h.snap⟩
    | take hw hq t ts hn =>
      refine ⟨?_, h.quit, fun a => ?_, h.snap⟩
      · have := h.tasks; rw [hn] at this; simpa using this
      · have := (h.done a).1; rw [hn] at this; cases this
    | ends t hw => exact ⟨h.tasks, h.quit, fun a => ⟨(h.done a).1, rfl⟩, h.snap⟩
    | after hw =>
      refine ⟨h.tasks, h.quit, fun a => ?_, fun j k hj => ?_⟩
      · simp only [h.quit] at a ⊢
        refine ⟨?_, rfl⟩
        by_contra hq0
        rw [if_neg hq0] at a
        exact hq0 (h.done a).1
      · simp only at hj
        split_ifs at hj
        · exact h.snap j k (wake _ k hj)
        · exact h.snap j k hj
    | spuriousWorker hw => exact ⟨h.tasks, h.quit, fun a => ⟨(h.done a).1, rfl⟩, h.snap⟩

/-- Without `dump` and destructor every task submitted has ended, is the one that runs, or waits; and they end in order. -/
theorem plain_order {ls : List (Label ι)} {s : State ι} (h : Reach ls s) (hp : Plain ls) :
    s.ended ++ s.worker.task ++ s.q = List.range s.next := by
  rw [← (reach_inv h).one]; exact (plain_inv h hp).tasks

/-- When `finish` returns, every task submitted before it was called has ended, if `dump` and the destructor were not used.
The full claim has no such condition; after `dump` it is false, see `finish_after_dump`. -/
theorem finish_waits_partial {ls : List (Label ι)} {s s' : State ι} {i : ι} {k : ℕ} (h : Reach ls s) (hp : Plain ls)
    (hs : Step s (.finished i k) s') : ∀ t < k, t ∈ s.ended := by
  have hi := reach_inv h
  have hpi := plain_inv h hp
  have key : s.isFinished = true → k ≤ s.next → ∀ t < k, t ∈ s.ended := by
    intro hf hk t ht
    have h1 := hpi.tasks
    obtain ⟨h2, h3⟩ := hpi.done hf
    rw [h2, List.append_nil, hi.one, h3, List.append_nil] at h1
    rw [h1]
    exact List.mem_range.mpr (by omega)
  cases hs with
  | finishNow _ hi' hq =>
    rcases hq with hq | hq | hq
    · rw [hpi.quit] at hq; cases hq
    · intro t ht; rw [(hi.none hq).1] at ht; omega
    · exact key hq (Nat.le_refl _)
  | finishAwake _ _ hi' hq =>
    rcases hq with hq | hq
    · exact key hq (hpi.snap i k (Or.inr hi'))
    · rw [hpi.quit] at hq; cases hq

/-- No wakeup is lost: when no call in progress and not the worker can take a step, other than a spurious return from a wait, then
nobody waits in `finish`, the queue is empty and every task has ended or was dropped. -/
theorem no_lost_wakeup {ls : List (Label ι)} {s : State ι} (h : Reach ls s) (hq : s.quit = false)
    (hstuck : ∀ s', ¬Step s .go s') (hstuck' : ∀ i k s', ¬(Step s (.finished i k) s' ∧ s.caller i ≠ .idle)) :
    (∀ i, s.caller i = .idle) ∧ s.q = [] ∧ ∀ t < s.next, t ∈ s.ended ∨ t ∈ s.dropped := by
  have hi := reach_inv h
  have hno : ∀ i, s.caller i ≠ .notify := fun i he => hstuck _ (Step.notify i he)
  have hnf : ∀ i, s.caller i ≠ .notifyFinished := fun i he => hstuck _ (Step.notifyFinished i he)
  have hw : s.worker = .absent ∨ s.worker = .asleep ∧ s.q = [] := by
    cases hw : s.worker with
    | absent => exact Or.inl rfl
    | asleep =>
      refine Or.inr ⟨rfl, ?_⟩
      by_contra hne
      obtain ⟨i, hi'⟩ := hi.wake hne hw
      exact hno i hi'
    | awake =>
      cases hqq : s.q with
      | nil => exact absurd (Step.sleep hw hqq hq) (hstuck _)
      | cons t ts => exact absurd (Step.take hw hq t ts hqq) (hstuck _)
    | running t => exact absurd (Step.ends t hw) (hstuck _)
    | after => exact absurd (Step.after hw) (hstuck _)
    | exited => have := hi.exited hw; rw [hq] at this; cases this
  have hqe : s.q = [] ∧ s.worker.task = [] := by
    rcases hw with hw | ⟨hw, hqe⟩
    · have h0 : s.isStarted = false := by
        by_contra hc
        rw [Bool.not_eq_false] at hc
        exact hi.started.mp hc hw
      have h1 := (hi.none h0).1
      have h2 := hi.all
      rw [h1, List.range_zero, List.perm_nil] at h2
      simp only [List.append_eq_nil_iff] at h2
      exact ⟨h2.1.2, by rw [hw]; rfl⟩
    · exact ⟨hqe, by rw [hw]; rfl⟩
  have hfin : s.isFinished = true := by
    by_contra hc
    rw [Bool.not_eq_true] at hc
    rcases hi.busy hc hq with h1 | ⟨t, h1⟩ | h1
    · exact h1 hqe.1
    · rcases hw with hw | hw
      · rw [hw] at h1; cases h1
      · rw [hw.1] at h1; cases h1
    · rcases hw with hw | hw
      · rw [hw] at h1; cases h1
      · rw [hw.1] at h1; cases h1
  refine ⟨fun i => ?_, hqe.1, fun t ht => ?_⟩
  · cases hc : s.caller i with
    | idle => rfl
    | notify => exact absurd hc (hno i)
    | notifyFinished => exact absurd hc (hnf i)
    | asleep k =>
      rcases hi.waiting i k hc hq with h1 | ⟨j, h1⟩
      · rw [hfin] at h1; cases h1
      · exact absurd h1 (hnf j)
    | awake k => exact absurd ⟨Step.finishAwake i k hc (Or.inl hfin), by rw [hc]; simp⟩ (hstuck' i k _)
  · have h1 := hi.all
    rw [hqe.1, List.append_nil, hi.one, hqe.2, List.append_nil] at h1
    exact List.mem_append.mp (h1.symm.subset (List.mem_range.mpr ht))

/-- After `dump`, `finish` returns while a task is still inside `op()`: caller `true` submits, the worker takes the task, the caller
dumps, and `finish` returns at once. -/
theorem finish_after_dump : ∃ (ls : List (Label Bool)) (s s' : State Bool), Reach ls s ∧ Step s (.finished true 1) s' ∧
    s.worker = .running 0 ∧ 0 ∉ s.ended := by
  refine ⟨_, _, _, (((((Reach.init).step (Step.dispatch true rfl rfl)).step (Step.notify true ?_)).step
    (Step.take ?_ rfl 0 [] rfl)).step (Step.dump true ?_ rfl rfl)).step (Step.notifyFinished true ?_), Step.finishNow true ?_ (Or.inr (Or.inr rfl)),
    rfl, ?_⟩
  all_goals simp [init, wakeWorker]

/-- A run that meets the hypotheses of `finish_waits_partial`: a task is submitted, another caller waits, the task runs, the wait ends. -/
example : ∃ (ls : List (Label Bool)) (s s' : State Bool), Reach ls s ∧ Plain ls ∧ Step s (.finished false 1) s' ∧ s.ended = [0] := by
  refine ⟨_, _, _, ((((((Reach.init).step (Step.dispatch true rfl rfl)).step (Step.notify true ?_)).step
    (Step.finishWait false ?_ rfl rfl rfl)).step (Step.take ?_ rfl 0 [] rfl)).step (Step.ends 0 rfl)).step (Step.after rfl),
    ?_, Step.finishAwake false 1 ?_ (Or.inl ?_), ?_⟩
  all_goals simp [init, wakeWorker, wakeCaller, Plain]

end Verif.Dispatch
