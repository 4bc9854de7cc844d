import Verif.Model.CapiTable
import Mathlib.Tactic.Ring

/-!
# C46: ids that were never issued

An id is issued when an `init` call of the history returned it.
-/

namespace Verif.CapiTable

/-- The vectors have one length, and the ids given out are the indices. -/
structure Inv (t : Table) (ids : List ℕ) : Prop where
  errs : t.errs.length = t.sims.length
  res : t.res.length = t.sims.length
  ids : ∀ i, i ∈ ids ↔ i < t.sims.length

theorem enter_inv {t t' : Table} {ids : List ℕ} (h : Inv t ids) {a b : Bool} (he : enter t (freeId t) a b = some t') :
    Inv t' (freeId t :: ids) ∧ t'.metaError = t.metaError := by
  have hle : freeId t ≤ t.sims.length := by rw [← h.res]; exact List.findIdx_le_length
  unfold enter at he
  by_cases hs : freeId t = t.sims.length
  · rw [if_pos hs, Option.some.injEq] at he
    subst he
    refine ⟨⟨by simp [h.errs], by simp [h.res], fun i => ?_⟩, rfl⟩
    rw [List.mem_cons, h.ids, hs]
    simp only [List.length_append, List.length_cons, List.length_nil]
    omega
  · have hlt : freeId t < t.sims.length := by omega
    unfold put at he
    rw [if_neg hs, if_pos (by rw [h.res]; exact hlt), Option.bind_some, if_pos hlt, Option.bind_some,
      if_pos (by rw [h.errs]; exact hlt), Option.map_some, Option.some.injEq] at he
    subst he
    refine ⟨⟨by simp [h.errs], by simp [h.res], fun i => ?_⟩, rfl⟩
    rw [List.mem_cons, h.ids, List.length_set]
    constructor
    · rintro (rfl | h)
      · exact hlt
      · exact h
    · exact Or.inr

/-- Whatever the history, the ids issued are exactly the indices of the tables. -/
theorem issued_iff (cs : List Call) : ∀ (t : Table) (ids : List ℕ), Inv t ids → ∀ t' ids', run t ids cs = some (t', ids') →
    Inv t' ids' := by
  induction cs with
  | nil =>
    intro t ids h t' ids' hr
    rw [run, Option.some.injEq, Prod.mk.injEq] at hr
    exact hr.1 ▸ hr.2 ▸ h
  | cons c cs ih =>
    intro t ids h t' ids' hr
    rw [run, Option.bind_eq_some_iff] at hr
    obtain ⟨⟨v, t1⟩, h1, h2⟩ := hr
    refine ih _ _ ?_ _ _ h2
    cases c with
    | create q ok =>
      simp only [Call.run, Option.bind_eq_some_iff] at h1
      obtain ⟨t2, e1, e2⟩ := h1
      split_ifs at e2
      rw [Option.some.injEq, Prod.mk.injEq] at e2
      obtain ⟨rfl, rfl⟩ := e2
      exact (enter_inv h e1).1
    | clone sid ok =>
      simp only [Call.run] at h1
      split_ifs at h1 with hs
      · rw [Option.some.injEq, Prod.mk.injEq] at h1
        obtain ⟨rfl, rfl⟩ := h1
        simp only [if_pos hs]
        exact ⟨h.errs, h.res, h.ids⟩
      · rw [Option.bind_eq_some_iff] at h1
        obtain ⟨s, -, e2⟩ := h1
        split_ifs at e2
        rw [Option.map_eq_some_iff] at e2
        obtain ⟨t2, e3, e4⟩ := e2
        rw [Prod.mk.injEq] at e4
        obtain ⟨rfl, rfl⟩ := e4
        simp only [if_neg hs]
        exact (enter_inv h e3).1
    | destroy sid =>
      simp only [Call.run, put, Option.bind_eq_some_iff, Option.map_eq_some_iff] at h1
      obtain ⟨s, e1, e, e2, r, e3, e4⟩ := h1
      split_ifs at e1 e2 e3
      simp only [Option.some.injEq, Prod.mk.injEq] at e1 e2 e3 e4
      obtain ⟨-, rfl⟩ := e4
      subst e1 e2 e3
      exact ⟨by simp [h.errs], by simp [h.res], by simpa using h.ids⟩
    | getError sid =>
      simp only [Call.run] at h1
      split_ifs at h1
      · rw [Option.some.injEq, Prod.mk.injEq] at h1
        obtain ⟨-, rfl⟩ := h1
        exact ⟨h.errs, h.res, h.ids⟩
      · rw [Option.map_eq_some_iff] at h1
        obtain ⟨e, -, e2⟩ := h1
        rw [Prod.mk.injEq] at e2
        obtain ⟨-, rfl⟩ := e2
        exact h
    | op sid fails =>
      simp only [Call.run] at h1
      split_ifs at h1
      · rw [Option.some.injEq, Prod.mk.injEq] at h1
        obtain ⟨-, rfl⟩ := h1
        exact ⟨h.errs, h.res, h.ids⟩
      · rw [Option.bind_eq_some_iff] at h1
        obtain ⟨s, -, e2⟩ := h1
        split_ifs at e2
        · simp only [put, Option.map_eq_some_iff] at e2
          obtain ⟨e, e3, e4⟩ := e2
          split_ifs at e3
          rw [Option.some.injEq] at e3
          rw [Prod.mk.injEq] at e4
          obtain ⟨-, rfl⟩ := e4
          subst e3
          exact ⟨by simp [h.errs], h.res, h.ids⟩
        · rw [Option.some.injEq, Prod.mk.injEq] at e2
          obtain ⟨-, rfl⟩ := e2
          exact h

theorem empty_inv : Inv empty [] := ⟨rfl, rfl, fun i => by simp [empty]⟩

/-- After any history of calls that starts with no simulators, a guarded call or `init_clone` with an id never issued reports
error 2 and changes nothing else, unless the id is the size of the table. The full claim has no such exception and covers
`destroy` and `get_error` too; see `size_wrong`, `destroy_wrong`, `getError_wrong`. -/
theorem rejected_partial {cs : List Call} {t : Table} {ids : List ℕ} (h : run empty [] cs = some (t, ids)) {sid : ℕ}
    (hn : sid ∉ ids) (hs : sid ≠ t.sims.length) (b : Bool) :
    (Call.op sid b).run t = some (0, { t with metaError := 2 }) ∧ (Call.clone sid b).run t = some (0, { t with metaError := 2 }) ∧
    ((Call.op sid b).run t).bind (fun r => ((Call.getError sid).run r.2).map (·.1)) = some 2 := by
  have hi := (issued_iff cs empty [] empty_inv t ids h).ids sid
  have hgt : sid > t.sims.length := by
    rcases Nat.lt_trichotomy sid t.sims.length with h | h | h
    · exact absurd (hi.mpr h) hn
    · exact absurd h hs
    · exact h
  refine ⟨by simp only [Call.run, if_pos hgt], by simp only [Call.run, if_pos hgt], ?_⟩
  simp only [Call.run, if_pos hgt, Option.bind_some]
  rfl

/-- Issued ids never leave the bounds, destroyed or not. -/
theorem issued_defined {cs : List Call} {t : Table} {ids : List ℕ} (h : run empty [] cs = some (t, ids)) {sid : ℕ} (hi : sid ∈ ids)
    (b : Bool) : ((Call.op sid b).run t).isSome ∧ ((Call.destroy sid).run t).isSome ∧ ((Call.getError sid).run t).isSome := by
  have hI := issued_iff cs empty [] empty_inv t ids h
  have hlt := (hI.ids sid).mp hi
  refine ⟨?_, ?_, ?_⟩
  · simp only [Call.run]
    rw [if_neg (by omega), at?, List.getElem?_eq_getElem hlt, Option.bind_some]
    split_ifs
    · simp only [put, if_pos (show sid < t.errs.length by rw [hI.errs]; exact hlt)]; rfl
    · rfl
  · simp only [Call.run, put]
    rw [if_pos hlt, Option.bind_some, if_pos (by rw [hI.errs]; exact hlt), Option.bind_some,
      if_pos (by rw [hI.res]; exact hlt)]
    rfl
  · simp only [Call.run]
    split_ifs
    · rfl
    · rw [at?, List.getElem?_eq_getElem (by rw [hI.errs]; exact hlt)]; rfl

/-- The first id that was never issued is read out of bounds, after every history. -/
theorem size_wrong {cs : List Call} {t : Table} {ids : List ℕ} (h : run empty [] cs = some (t, ids)) (b : Bool) :
    t.sims.length ∉ ids ∧ (Call.op t.sims.length b).run t = none ∧ (Call.clone t.sims.length b).run t = none := by
  have hI := issued_iff cs empty [] empty_inv t ids h
  refine ⟨fun hm => absurd ((hI.ids _).mp hm) (by omega), ?_, ?_⟩
  · simp only [Call.run]; rw [if_neg (by omega), at?, List.getElem?_eq_none (by omega)]; rfl
  · simp only [Call.run]; rw [if_neg (by omega), at?, List.getElem?_eq_none (by omega)]; rfl

/-- `destroy` of any id never issued writes out of bounds. -/
theorem destroy_wrong {cs : List Call} {t : Table} {ids : List ℕ} (h : run empty [] cs = some (t, ids)) {sid : ℕ}
    (hn : sid ∉ ids) : (Call.destroy sid).run t = none := by
  have hI := issued_iff cs empty [] empty_inv t ids h
  have : ¬sid < t.sims.length := fun hlt => hn ((hI.ids _).mpr hlt)
  simp only [Call.run, put, if_neg this]; rfl

/-- `get_error` of any id never issued reads out of bounds, unless an error of the interface is pending. -/
theorem getError_wrong {cs : List Call} {t : Table} {ids : List ℕ} (h : run empty [] cs = some (t, ids)) {sid : ℕ}
    (hn : sid ∉ ids) (hm : t.metaError = 0) : (Call.getError sid).run t = none := by
  have hI := issued_iff cs empty [] empty_inv t ids h
  have : ¬sid < t.sims.length := fun hlt => hn ((hI.ids _).mpr hlt)
  simp only [Call.run, hm]
  rw [if_neg (by simp), at?, List.getElem?_eq_none (by rw [hI.errs]; omega)]; rfl

/-- Creating a simulator never gives out an id that is in use, and `get_error` of the new id tells whether the creation
succeeded, whatever was recorded there before. -/
theorem create_reports {cs : List Call} {t : Table} {ids : List ℕ} (h : run empty [] cs = some (t, ids)) {q ok : Bool}
    {r : ℕ × Table} (hr : (Call.create q ok).run t = some r) :
    t.res[r.1]? ≠ some true ∧
      (t.metaError = 0 → (Call.getError r.1).run r.2 = some (if ok then 0 else 1, r.2)) := by
  have hI := issued_iff cs empty [] empty_inv t ids h
  have hle : freeId t ≤ t.sims.length := by rw [← hI.res]; exact List.findIdx_le_length
  simp only [Call.run] at hr
  obtain ⟨t', he, hr⟩ := Option.bind_eq_some_iff.1 hr
  have hr' : r = (freeId t, t') := by
    by_cases hc : (q && !ok) = true
    · rw [if_pos hc] at hr; cases hr
    · rw [if_neg hc] at hr; exact (Option.some.inj hr).symm
  subst hr'
  constructor
  · simp only
    by_cases hlt : freeId t < t.res.length
    · have := List.findIdx_getElem (p := fun b => decide (b = false)) (w := hlt)
      rw [List.getElem?_eq_getElem hlt]
      intro hc
      have hc : t.res[List.findIdx (fun b => decide (b = false)) t.res] = true := Option.some.inj hc
      simp only [hc] at this
      simp at this
    · rw [List.getElem?_eq_none (not_lt.1 hlt)]
      simp
  · intro hm
    have hm' := (enter_inv hI he).2
    simp only [Call.run]
    rw [if_neg (by rw [hm', hm]; simp)]
    have hat : at? t'.errs (freeId t) = some (if ok then 0 else 1) := by
      unfold enter at he
      by_cases hs : freeId t = t.sims.length
      · rw [if_pos hs, Option.some.injEq] at he
        subst he
        simp [at?, hs, hI.errs]
      · have hlt : freeId t < t.sims.length := by omega
        unfold put at he
        rw [if_neg hs, if_pos (by rw [hI.res]; exact hlt), Option.bind_some, if_pos hlt, Option.bind_some,
          if_pos (by rw [hI.errs]; exact hlt), Option.map_some, Option.some.injEq] at he
        subst he
        simp [at?, hI.errs, hlt]
    rw [hat]
    rfl

/-- An id with a recorded error is reused: the error is gone. A failing creation (without qubits) records one. -/
example : ∃ t ids, run empty [] [.create true true, .op 0 true, .destroy 0] = some (t, ids) ∧
    (Call.create false false).run t = some (0, ⟨[false], [1], [true], 0⟩) := ⟨_, _, rfl, rfl⟩

example : run empty [] [.create true true, .create true true, .destroy 0, .create true true, .clone 1 true, .op 7 false] =
    some (⟨[true, true, true], [0, 0, 0], [true, true, true], 2⟩, [2, 0, 1, 0]) := by decide

end Verif.CapiTable
