import Verif.Lemmas.Ocl
import Verif.Props.ParFor

/-!
# C59: launches of kernels, spreading of indices, and reductions in the OpenCL engine

Specification: a trace of a launch visits every index of the range exactly once, a sum is the sum
over the range. The device is arbitrary: `setDevice_ok` says what the engine makes of any reported
sizes, and the other theorems only use that.
-/

namespace Verif.Ocl

open Verif.Engine Verif.Bits Verif.ParFor

/-- Whatever the device reports, the engine uses at least one work-item, and a group size that is a power of two. -/
theorem setDevice_ok (procElems pref maxWg : ℕ) (offset : ℤ) : (setDevice procElems pref maxWg offset).Ok :=
  setDevice_ok' _ _ _ _

/-- The sizes of a launch over a power of two are accepted: the group size divides the number of work-items. -/
theorem launch_sizes {d : Dev} (hd : d.Ok) (a : ℕ) :
    0 < ngs d (2 ^ a) ∧ ngs d (2 ^ a) ∣ ngc d (2 ^ a) :=
  ⟨(sizes_ok hd a).1, Nat.dvd_of_mod_eq_zero (sizes_ok hd a).2⟩

/-- Every interleaving of the work-items' loops is a permutation of the iterations. -/
theorem run_perm {N M : ℕ} {tr : List (ℕ × ℕ)} (h : IsRun N (stride N M) tr) : tr.Perm (loopPlan N M) := by
  refine (filter_flatMap_perm h.1).trans ?_
  rw [loopPlan, show (List.range N).flatMap (fun id => tr.filter fun p => p.1 == id) =
    (List.range N).flatMap (fun id => (stride N M id).map fun lcv => (id, lcv)) from ?_]
  rw [List.flatMap_def, List.flatMap_def]
  congr 1
  refine List.map_congr_left fun id hid => ?_
  rw [← h.2 id (List.mem_range.1 hid), List.map_map]
  refine (List.map_id _).symm.trans (List.map_congr_left fun p hp => ?_)
  have := (List.mem_filter.1 hp).2
  have h1 : p.1 = id := by simpa using this
  exact Prod.ext h1 rfl

/-- However the work-items are interleaved, every index of the range is processed exactly once, and nothing else is. -/
theorem launch_covers {d : Dev} (hd : d.Ok) (a : ℕ) {tr : List (ℕ × ℕ)}
    (h : IsRun (ngc d (2 ^ a)) (stride (ngc d (2 ^ a)) (2 ^ a)) tr) (x : ℕ) :
    (tr.map Prod.snd).count x = if x < 2 ^ a then 1 else 0 := by
  rw [(((run_perm h).map Prod.snd).trans (loopPlan_perm (ngc_pos hd a))).count_eq]
  by_cases hx : x < 2 ^ a
  · rw [if_pos hx]
    exact List.count_eq_one_of_mem List.nodup_range (List.mem_range.2 hx)
  · rw [if_neg hx]
    exact List.count_eq_zero.2 fun hm => hx (List.mem_range.1 hm)

/-- The `wide` kernels are chosen when there are as many work-items as indices; they process every index once. -/
theorem wide_covers (N : ℕ) (x : ℕ) :
    ((widePlan N).map Prod.snd).count x = if x < N then 1 else 0 := by
  rw [widePlan_snd]
  by_cases hx : x < N
  · rw [if_pos hx]
    exact List.count_eq_one_of_mem List.nodup_range (List.mem_range.2 hx)
  · rw [if_neg hx]
    exact List.count_eq_zero.2 fun hm => hx (List.mem_range.1 hm)

/-- The number of work-groups of a launch never exceeds the number of entries of the buffer of partial sums. -/
theorem groups_fit {d : Dev} (hd : d.Ok) (a : ℕ) : ngc d (2 ^ a) / ngs d (2 ^ a) ≤ nrmCapacity d := by
  refine (groups_le hd a).trans ?_
  obtain ⟨k, hk⟩ := hd.size
  have h0 : d.size ≠ 0 := by rw [hk]; positivity
  unfold nrmCapacity
  simp only [h0, if_false, false_or]
  by_cases h : 4 * (d.count / d.size) < 64
  · rw [if_pos h]; omega
  · rw [if_neg h]; omega

/-- A reduction returns the sum over the range: the strided partial sums, the tree inside of every group and the sum
of the groups on the host. -/
theorem reduce_sum {d : Dev} (hd : d.Ok) {τ : List ℕ → List ℕ} (hτ : IsSched τ) (a : ℕ) (f : ℕ → ℝ) :
    reduceKernel d τ (2 ^ a) f = some (∑ x ∈ Finset.range (2 ^ a), f x) :=
  reduceKernel_eq' hd hτ a f

/-- The group sizes have to be powers of two: with three work-items the tree forgets the last one. -/
theorem sumLocal_three : sumLocal id 3 (fun _ => 1) = 2 := by
  norm_num [sumLocal, sumRounds, sumRound, List.range_succ, Function.update]

/-- The index of a kernel with `ps.length` qubits: all states of `n` qubits in which the given qubits are `0`, each
from exactly one loop index. Words have 64 bits. -/
theorem spread_exact {n : ℕ} {ps : List ℕ} (hs : ps.Pairwise (· < ·)) (hn : ∀ p ∈ ps, p < n) (hw : n ≤ 64)
    {q : ℕ → ℕ} (hq : ∀ i (h : i < ps.length), q i = 2 ^ ps[i]) (i : ℕ) :
    (i < 2 ^ n ∧ ∀ p ∈ ps, i.testBit p = false) ↔
      ∃! lcv, lcv < 2 ^ (n - ps.length) ∧ pushApart q ps.length lcv = i := by
  have hlen := length_le_of_pairwise_lt ps n hs hn
  have he : ∀ lcv, lcv < 2 ^ (n - ps.length) → pushApart q ps.length lcv = insAll ps lcv := fun lcv h =>
    pushApart_eq hs hq h (by omega)
  have hm := mem_insAll_range hs hn i
  unfold MaskClear at hm
  rw [← hm]
  constructor
  · rintro ⟨j, hj, hji⟩
    refine ⟨j, ⟨hj, (he j hj).trans hji⟩, ?_⟩
    rintro k ⟨hk, hki⟩
    rw [he k hk, ← hji] at hki
    exact insAll_injective ps hki
  · rintro ⟨j, ⟨hj, hji⟩, -⟩
    exact ⟨j, hj, (he j hj).symm.trans hji⟩

/-- `PUSH_APART_1` and `PUSH_APART_2` are `PUSH_APART_GEN` for one and two qubits. -/
theorem spread_one {n p lcv : ℕ} (hn : n + 1 ≤ 64) (h : lcv < 2 ^ n) :
    pushApart1 (2 ^ p - 1) lcv = pushApart (fun _ => 2 ^ p) 1 lcv := by
  have h1 := pushApart_eq (ps := [p]) (by simp) (q := fun _ => 2 ^ p)
    (by intro i hi; match i, hi with | 0, _ => rfl) h (by simpa using hn)
  have h2 : insZero p lcv < 2 ^ 64 :=
    lt_of_lt_of_le (insZero_lt h) (Nat.pow_le_pow_right (by norm_num) (by omega))
  rw [pushApart1_eq h2]
  exact h1.symm

theorem spread_two {n p1 p2 lcv : ℕ} (hp : p1 < p2) (hn : n + 2 ≤ 64) (h : lcv < 2 ^ n) :
    pushApart2 (2 ^ p1 - 1) (2 ^ p2 - 1) lcv = pushApart (fun i => if i = 0 then 2 ^ p1 else 2 ^ p2) 2 lcv := by
  rw [pushApart2_eq hp h hn]
  exact (pushApart_eq (ps := [p1, p2]) (by simp [hp]) (q := fun i => if i = 0 then 2 ^ p1 else 2 ^ p2)
    (by
      intro i hi
      match i, hi with
      | 0, _ => rfl
      | 1, _ => rfl) h (by simpa using hn)).symm

/-! ## Concrete cases -/

/-- 20 processing elements of width 48 (an odd device): 8192 work-items in groups of 32. -/
example : (setDevice 20 48 256 3).count = 8192 ∧ (setDevice 20 48 256 3).size = 32 := by decide +kernel

/-- It is a device in the sense of the theorems; on 16384 indices there are 256 groups. -/
example : ngc (setDevice 20 48 256 3) (2 ^ 14) = 8192 ∧ ngs (setDevice 20 48 256 3) (2 ^ 14) = 32 := by decide +kernel

/-- Two work-items and eight indices, interleaved. -/
example : IsRun 2 (stride 2 8) [(1, 1), (0, 0), (0, 2), (1, 3), (1, 5), (0, 4), (1, 7), (0, 6)] := by
  refine ⟨by decide, ?_⟩
  intro id hid
  match id, hid with
  | 0, _ => decide
  | 1, _ => decide

example : ngc ⟨2, 2⟩ (2 ^ 3) = 2 := by decide

example : Dev.Ok ⟨2, 2⟩ := ⟨by norm_num, 1, by norm_num⟩

/-- Qubits 1 and 3 of 5: the loop indices `0, ..., 7` become `0, 1, 4, 5, 16, 17, 20, 21`. -/
example : (List.range 8).map (pushApart (fun i => if i = 0 then 2 else 8) 2) = [0, 1, 4, 5, 16, 17, 20, 21] := by
  decide +kernel

end Verif.Ocl
