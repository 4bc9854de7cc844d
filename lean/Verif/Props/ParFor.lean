import Verif.Lemmas.ParFor

/-!
C01, C02: the parallel loops call their body exactly once per documented index, on every schedule.
-/

namespace Verif.ParFor

open Verif.Bits

/-! ## C01 -/

/-- C01. Whatever the number of cores, the stride and the interleaving of the workers, a complete
`par_for_inc` calls the body exactly once for each of `inc begin, ..., inc (begin + itemCount - 1)`
(with multiplicity), in some order. -/
theorem parForInc_calls {start stride items numCores : ℕ} {inc : ℕ → ℕ} {calls : List ℕ}
    (h : ParForInc start stride items numCores inc calls) :
    calls.Perm ((List.range' start items).map inc) := by
  cases h with
  | seq _ => exact List.Perm.refl _
  | par s ht hr hd =>
    have hi := inv_reach hr
    apply List.Perm.map
    rw [← Multiset.coe_eq_coe]
    have h1 := hi.total
    have h0 : items ≤ s.idx * stride := hi.done ⟨0, by omega⟩ (hd _)
    rw [min_eq_right h0] at h1
    rw [← h1]
    have : ∀ c, pend start stride items (s.ws c) = 0 := fun c => by rw [hd c]; rfl
    simp [this]

/-- C01, safety at every intermediate point of every schedule: no index has been executed twice and
none outside `[begin, begin + itemCount)`. -/
theorem parForInc_at_most_once {t start stride items : ℕ} {s : Sys t}
    (h : Reach t start stride items s) :
    s.trace.Nodup ∧ ∀ k ∈ s.trace, start ≤ k ∧ k < start + items := by
  have h1 := (inv_reach h).total
  have hle : (s.trace : Multiset ℕ) ≤
      (List.range' start (min (s.idx * stride) items) : List ℕ) := by
    rw [← h1]; exact Multiset.le_add_right _ _
  constructor
  · have := Multiset.nodup_of_le hle (by simpa using List.nodup_range')
    simpa using this
  · intro k hk
    have := Multiset.mem_of_le hle (by simpa using hk)
    simp only [Multiset.mem_coe, List.mem_range'_1] at this
    omega

/-- C01, liveness: as long as some worker has not returned, some step is possible. -/
theorem parForInc_progress {t start stride items : ℕ} {s : Sys t}
    (h : ∃ c, s.ws c ≠ .done) : ∃ s', Step t start stride items s s' := by
  obtain ⟨c, hc⟩ := h
  cases hw : s.ws c with
  | idle =>
    by_cases hlt : s.idx * stride < items
    · exact ⟨_, .claimRun s c hw hlt⟩
    · exact ⟨_, .claimDone s c hw (by omega)⟩
  | run l j =>
    by_cases hj : j < maxJ stride items l
    · exact ⟨_, .exec s c l j hw hj⟩
    · exact ⟨_, .chunkEnd s c l j hw hj⟩
  | done => exact absurd hw hc

/-- C01, termination: no schedule runs forever (the stride is positive: `pStride` is a power of
two, `src/common/parallel_for.cpp:27-48`). -/
theorem parForInc_terminates {t start stride items : ℕ} (hst : 0 < stride) (f : ℕ → Sys t) :
    ¬ ∀ n, Step t start stride items (f n) (f (n + 1)) := by
  intro h
  have key : ∀ n, measure stride items (f n) + n ≤ measure stride items (f 0) := by
    intro n
    induction n with
    | zero => simp
    | succ n ih =>
      have := measure_lt (items := items) hst (h n)
      omega
  have := key (measure stride items (f 0) + 1)
  omega

/-- Non-vacuity: with 2 cores, stride 2 and 5 items the concurrent branch is taken and a complete
schedule exists (the first worker takes chunks 0 and 2 around the second one's chunk 1). -/
example : ∃ calls, ParForInc 10 2 5 2 id calls ∧ calls = [10, 12, 13, 11, 14] := by
  let S := @Reach.step 2 10 2 5
  have h0 : Reach 2 10 2 5 (initial 2) := .init
  have h1 := S h0 (.claimRun _ 0 rfl (by decide))
  have h2 := S h1 (.exec _ 0 0 0 (by simp [initial]) (by decide))
  have h3 := S h2 (.claimRun _ 1 (by simp [initial]) (by decide))
  have h4 := S h3 (.exec _ 1 2 0 (by simp [initial]) (by decide))
  have h5 := S h4 (.exec _ 1 2 1 (by simp [initial]) (by decide))
  have h6 := S h5 (.exec _ 0 0 1 (by simp [initial]) (by decide))
  have h7 := S h6 (.chunkEnd _ 0 0 2 (by simp [initial]) (by decide))
  have h8 := S h7 (.claimRun _ 0 (by simp [initial]) (by decide))
  have h9 := S h8 (.chunkEnd _ 1 2 2 (by simp [initial]) (by decide))
  have h10 := S h9 (.claimDone _ 1 (by simp [initial]) (by decide))
  have h11 := S h10 (.exec _ 0 4 0 (by simp [initial]) (by decide))
  have h12 := S h11 (.chunkEnd _ 0 4 1 (by simp [initial]) (by decide))
  have h13 := S h12 (.claimDone _ 0 (by simp [initial]) (by decide))
  refine ⟨_, ParForInc.par (numCores := 2) (inc := id) _ (by decide) h13 ?_, ?_⟩
  · clear * -
    decide
  · rfl

/-! ## C02 -/

/-- The index set `par_for_mask` is documented to visit: indices below the register size with every
masked bit clear. -/
def MaskClear (n : ℕ) (ps : List ℕ) (i : ℕ) : Prop := i < 2 ^ n ∧ ∀ p ∈ ps, i.testBit p = false

theorem mem_insAll_range {n : ℕ} {ps : List ℕ} (hs : ps.Pairwise (· < ·)) (hn : ∀ p ∈ ps, p < n)
    (i : ℕ) : (∃ j, j < 2 ^ (n - ps.length) ∧ insAll ps j = i) ↔ MaskClear n ps i := by
  have hlen := length_le_of_pairwise_lt ps n hs hn
  constructor
  · rintro ⟨j, hj, rfl⟩
    refine ⟨?_, testBit_insAll_mem ps hs j⟩
    have := insAll_lt ps hj
    rwa [Nat.sub_add_cancel hlen] at this
  · rintro ⟨hi, hb⟩
    exact exists_insAll ps n i hs hn hi hb

/-- C02. `par_for_mask(0, 2^n, {2^p : p ∈ ps}, fn)` with strictly increasing positions below `n`
visits exactly the indices whose masked bits are all clear, each once. Covers both the `onlyLow`
shortcut and the general increment. -/
theorem parForMask_visits {w n : ℕ} {ps : List ℕ} (hs : ps.Pairwise (· < ·))
    (hn : ∀ p ∈ ps, p < n) (hw : n ≤ w) :
    (parForMaskPlan w 0 (2 ^ n) (ps.map (2 ^ ·))).Nodup ∧
    ∀ i, i ∈ parForMaskPlan w 0 (2 ^ n) (ps.map (2 ^ ·)) ↔ MaskClear n ps i := by
  have hlen := length_le_of_pairwise_lt ps n hs hn
  have hshift : 2 ^ n >>> ps.length = 2 ^ (n - ps.length) := by
    rw [Nat.shiftRight_eq_div_pow, Nat.pow_div hlen (by norm_num)]
  unfold parForMaskPlan
  split_ifs with hlow
  · -- only the highest qubits are masked: plain loop below them
    have hspec := onlyLowAux_spec _ _ _ hlow
    have hmem : ∀ p, p ∈ ps ↔ n - ps.length ≤ p ∧ p < n := by
      have hget : ∀ k (hk : k < ps.length), ps[ps.length - 1 - k] = n - (k + 1) := by
        intro k hk
        have h1 := hspec k (by simpa using hk)
        simp only [List.getElem_reverse, List.getElem_map, List.length_map] at h1
        rw [Nat.shiftRight_eq_div_pow, Nat.pow_div (by omega) (by norm_num)] at h1
        have h2 := Nat.pow_right_injective (le_refl 2) h1
        omega
      intro p
      constructor
      · intro hp
        refine ⟨?_, hn p hp⟩
        obtain ⟨k, hk, rfl⟩ := List.getElem_of_mem hp
        have := hget (ps.length - 1 - k) (by omega)
        have e : ps.length - 1 - (ps.length - 1 - k) = k := by omega
        simp only [e] at this
        omega
      · rintro ⟨h1, h2⟩
        have := hget (n - 1 - p) (by omega)
        have e : n - (n - 1 - p + 1) = p := by omega
        rw [e] at this
        rw [← this]
        exact List.getElem_mem _
    simp only [List.length_map, hshift, parForPlan, Nat.sub_zero]
    refine ⟨List.nodup_range', fun i => ?_⟩
    rw [List.mem_range'_1]
    simp only [Nat.zero_le, true_and, Nat.zero_add]
    constructor
    · intro hi
      refine ⟨lt_of_lt_of_le hi (Nat.pow_le_pow_right (by norm_num) (by omega)), ?_⟩
      intro p hp
      exact lt_two_pow_iff_testBit.1 hi p ((hmem p).1 hp).1
    · rintro ⟨hi, hb⟩
      rw [lt_two_pow_iff_testBit]
      intro k hk
      by_cases hkn : k < n
      · exact hb k ((hmem k).2 ⟨hk, hkn⟩)
      · exact lt_two_pow_iff_testBit.1 hi k (by omega)
  · simp only [List.length_map, Nat.sub_zero, hshift]
    have hcongr : (List.range' 0 (2 ^ (n - ps.length))).map (maskInc w (ps.map (2 ^ ·))) =
        (List.range' 0 (2 ^ (n - ps.length))).map (insAll ps) := by
      apply List.map_congr_left
      intro i hi
      rw [List.mem_range'_1] at hi
      exact maskInc_eq w ps (by omega : i < 2 ^ (n - ps.length)) (by omega)
    rw [hcongr]
    refine ⟨List.Nodup.map (insAll_injective ps) List.nodup_range', fun i => ?_⟩
    rw [← mem_insAll_range hs hn]
    simp [List.mem_map, List.mem_range'_1]

/-- C02, independence: two iterations `i`, `i'` of the loop that touch `i + a` and `i' + a'`, where
`a`, `a'` only have masked bits set, touch the same cell only if they are the same iteration. -/
theorem parForMask_disjoint {n : ℕ} {ps : List ℕ} {i i' a a' : ℕ}
    (hi : MaskClear n ps i) (hi' : MaskClear n ps i')
    (ha : ∀ k, a.testBit k = true → k ∈ ps) (ha' : ∀ k, a'.testBit k = true → k ∈ ps)
    (h : i + a = i' + a') : i = i' ∧ a = a' := by
  have d1 : ∀ k, ¬ (i.testBit k = true ∧ a.testBit k = true) := by
    rintro k ⟨h1, h2⟩; rw [hi.2 k (ha k h2)] at h1; cases h1
  have d2 : ∀ k, ¬ (i'.testBit k = true ∧ a'.testBit k = true) := by
    rintro k ⟨h1, h2⟩; rw [hi'.2 k (ha' k h2)] at h1; cases h1
  have hk : ∀ k, (i.testBit k || a.testBit k) = (i'.testBit k || a'.testBit k) := by
    intro k
    rw [← testBit_add_of_disjoint d1, ← testBit_add_of_disjoint d2, h]
  have e : i = i' := by
    apply Nat.eq_of_testBit_eq
    intro k
    by_cases hp : k ∈ ps
    · rw [hi.2 k hp, hi'.2 k hp]
    · have h1 : a.testBit k = false := by
        cases hc : a.testBit k with
        | true => exact absurd (ha k hc) hp
        | false => rfl
      have h2 : a'.testBit k = false := by
        cases hc : a'.testBit k with
        | true => exact absurd (ha' k hc) hp
        | false => rfl
      have := hk k
      simpa [h1, h2] using this
  subst e
  exact ⟨rfl, by omega⟩

/-- C01 + C02 together: on every schedule, the body of `par_for_mask` is called exactly once for
each index with the masked bits clear and for nothing else. -/
theorem parForMask_calls {w n stride numCores : ℕ} {ps : List ℕ} {calls : List ℕ}
    (hs : ps.Pairwise (· < ·)) (hn : ∀ p ∈ ps, p < n) (hw : n ≤ w)
    (h : (onlyLow (2 ^ n) (ps.map (2 ^ ·)) = true ∧
            ParForInc 0 stride (2 ^ n >>> ps.length) numCores id calls) ∨
         (onlyLow (2 ^ n) (ps.map (2 ^ ·)) = false ∧
            ParForInc 0 stride (2 ^ n >>> ps.length) numCores (maskInc w (ps.map (2 ^ ·))) calls)) :
    calls.Nodup ∧ ∀ i, i ∈ calls ↔ MaskClear n ps i := by
  have hv := parForMask_visits (w := w) hs hn hw
  have hp : calls.Perm (parForMaskPlan w 0 (2 ^ n) (ps.map (2 ^ ·))) := by
    rcases h with ⟨hl, h⟩ | ⟨hl, h⟩
    · simpa [parForMaskPlan, hl, parForPlan] using parForInc_calls h
    · simpa [parForMaskPlan, hl] using parForInc_calls h
  exact ⟨hp.nodup_iff.2 hv.1, fun i => (hp.mem_iff).trans (hv.2 i)⟩

/-- Non-vacuity: a 5-qubit register with masks on qubits 1 and 3. -/
example : parForMaskPlan 64 0 (2 ^ 5) ([1, 3].map (2 ^ ·)) = [0, 1, 4, 5, 16, 17, 20, 21] := by
  decide

/-! ### `par_for_skip` -/

/-- C01/C02 for `par_for_skip`: with `skipMask = 2^s` and `maskWidth = d`, exactly the indices below
`2^n` whose bits `s, ..., s+d-1` are all clear are visited, each once. -/
theorem parForSkip_visits {w n s d : ℕ} (hsd : s + d ≤ n) (hw : n < w) :
    (parForSkipPlan w 0 (2 ^ n) (2 ^ s) d).Nodup ∧
    ∀ i, i ∈ parForSkipPlan w 0 (2 ^ n) (2 ^ s) d ↔
      (i < 2 ^ n ∧ ∀ k, s ≤ k → k < s + d → i.testBit k = false) := by
  have hmul : (2 ^ s) <<< d % 2 ^ w = 2 ^ (s + d) := by
    rw [Nat.shiftLeft_eq, ← pow_add]
    exact Nat.mod_eq_of_lt (Nat.pow_lt_pow_right (by norm_num) (by omega))
  unfold parForSkipPlan
  rw [hmul]
  split_ifs with hc
  · have hn : n = s + d := by
      have := (Nat.pow_le_pow_iff_right (a := 2) (by norm_num)).1 hc
      omega
    subst hn
    refine ⟨List.nodup_range', fun i => ?_⟩
    simp only [parForPlan, List.mem_range'_1, Nat.sub_zero, Nat.zero_le, true_and, Nat.zero_add]
    constructor
    · intro hi
      refine ⟨lt_of_lt_of_le hi (Nat.pow_le_pow_right (by norm_num) (by omega)), fun k h1 _ => ?_⟩
      exact lt_two_pow_iff_testBit.1 hi k h1
    · rintro ⟨hi, hb⟩
      rw [lt_two_pow_iff_testBit]
      intro k hk
      by_cases h : k < s + d
      · exact hb k hk h
      · exact lt_two_pow_iff_testBit.1 hi k (by omega)
  · have hshift : (2 ^ n - 0) >>> d = 2 ^ (n - d) := by
      rw [Nat.sub_zero, Nat.shiftRight_eq_div_pow, Nat.pow_div (by omega) (by norm_num)]
    rw [hshift]
    -- bits of the increment function
    have hbit : ∀ i < 2 ^ (n - d), ∀ k, (skipInc w (2 ^ s) d i).testBit k =
        if k < s then i.testBit k else if k < s + d then false else i.testBit (k - d) := by
      intro i hi k
      rw [lt_two_pow_iff_testBit] at hi
      unfold skipInc
      simp only
      split_ifs with h0 h1 h2 h1 h2
      · have : s = 0 := by
          by_contra hne
          have : 2 ^ 1 ≤ 2 ^ s := Nat.pow_le_pow_right (by norm_num) (by omega)
          omega
        omega
      · have : s = 0 := by
          by_contra hne
          have : 2 ^ 1 ≤ 2 ^ s := Nat.pow_le_pow_right (by norm_num) (by omega)
          omega
        simp only [Nat.testBit_mod_two_pow, Nat.testBit_shiftLeft]
        simp [show ¬ d ≤ k by omega]
      · have : s = 0 := by
          by_contra hne
          have : 2 ^ 1 ≤ 2 ^ s := Nat.pow_le_pow_right (by norm_num) (by omega)
          omega
        simp only [Nat.testBit_mod_two_pow, Nat.testBit_shiftLeft]
        by_cases hk : k < w
        · simp [hk, show d ≤ k by omega]
        · simp [hk, hi (k - d) (by omega)]
      all_goals
        simp only [Nat.testBit_or, Nat.testBit_and, Nat.testBit_mod_two_pow, Nat.testBit_shiftLeft,
          Nat.testBit_xor, Nat.testBit_two_pow_sub_one]
      · simp only [h1, decide_true, Bool.and_true, ge_iff_le]
        by_cases hd : d ≤ k
        · simp [show k - d < s by omega, show k - d < w by omega]
        · simp [hd]
      · simp only [h1, decide_false, Bool.and_false, Bool.false_or]
        by_cases hd : d ≤ k
        · simp [show k - d < s by omega, show k - d < w by omega]
        · simp [hd]
      · simp only [h1, decide_false, Bool.and_false, Bool.false_or]
        by_cases hk : k < w
        · simp [hk, show d ≤ k by omega, show ¬ k - d < s by omega, show k - d < w by omega]
        · simp [hk, hi (k - d) (by omega)]
    have hinj : ∀ i < 2 ^ (n - d), ∀ j < 2 ^ (n - d),
        skipInc w (2 ^ s) d i = skipInc w (2 ^ s) d j → i = j := by
      intro i hi j hj h
      apply Nat.eq_of_testBit_eq
      intro k
      by_cases hk : k < s
      · have := congrArg (fun x => x.testBit k) h
        simpa [hbit i hi, hbit j hj, hk] using this
      · have := congrArg (fun x => x.testBit (k + d)) h
        simpa [hbit i hi, hbit j hj, show ¬ k + d < s by omega, show ¬ k < s from hk] using this
    refine ⟨List.Nodup.map_on ?_ List.nodup_range', fun i => ?_⟩
    · intro x hx y hy hxy
      rw [List.mem_range'_1] at hx hy
      exact hinj x (by omega) y (by omega) hxy
    · simp only [List.mem_map, List.mem_range'_1, Nat.zero_le, true_and, Nat.zero_add]
      constructor
      · rintro ⟨j, hj, rfl⟩
        refine ⟨?_, fun k h1 h2 => ?_⟩
        · rw [lt_two_pow_iff_testBit]
          intro k hk
          rw [hbit j hj]
          simp only [show ¬ k < s by omega, show ¬ k < s + d by omega, if_false]
          exact lt_two_pow_iff_testBit.1 hj _ (by omega)
        · rw [hbit j hj]; simp [show ¬ k < s by omega, h2]
      · rintro ⟨hi, hb⟩
        have hj : 2 ^ s * (i / 2 ^ (s + d)) + i % 2 ^ s < 2 ^ (n - d) := by
          rw [lt_two_pow_iff_testBit] at hi ⊢
          intro k hk
          rw [Nat.testBit_two_pow_mul_add _ (Nat.mod_lt _ (by positivity))]
          simp only [show ¬ k < s by omega, if_false, Nat.testBit_div_two_pow]
          exact hi _ (by omega)
        refine ⟨_, hj, ?_⟩
        apply Nat.eq_of_testBit_eq
        intro k
        rw [hbit _ hj]
        simp only [Nat.testBit_two_pow_mul_add _ (Nat.mod_lt i (show 0 < 2 ^ s by positivity)),
          Nat.testBit_mod_two_pow, Nat.testBit_div_two_pow]
        split_ifs with h1 h2 h3
        · simp [h1]
        · exact (hb k (by omega) h2).symm
        · omega
        · congr 1; omega

/-- Non-vacuity: skipping qubits 1 and 2 of a 4-qubit register. -/
example : parForSkipPlan 64 0 (2 ^ 4) (2 ^ 1) 2 = [0, 1, 8, 9] := by decide

end Verif.ParFor
