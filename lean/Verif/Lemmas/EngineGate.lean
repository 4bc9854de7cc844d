import Verif.Lemmas.Engine

/-!
The pair loop with offsets `o`, `o | 2^t` is the controlled gate; with offsets `o | 2^a`, `o | 2^b` it
is the controlled exchange.
-/

namespace Verif.Engine

open Verif.ParFor Verif.Bits Verif.PairFold Verif.Spec Classical

theorem xor_or_self {o t : ℕ} (h : o.testBit t = false) : o ^^^ (o ||| 2 ^ t) = 2 ^ t := by
  apply Nat.eq_of_testBit_eq
  intro k
  rw [Nat.testBit_xor, Nat.testBit_or, Nat.testBit_two_pow]
  by_cases hk : t = k
  · subst hk; simp [h]
  · simp [hk]

theorem pairSpec_gate {n t o : ℕ} {cs ps : List ℕ} (hmem : ∀ k, k ∈ ps ↔ k ∈ cs ∨ k = t)
    (htc : t ∉ cs) (ho : Sub cs o) (p : ℕ → Prop) [DecidablePred p]
    (hp : ∀ i, p i ↔ Pat cs o i) (m : M2) (s : ℕ → ℂ) {i : ℕ} (hi : i < 2 ^ n) :
    pairSpec n ps o (o ||| 2 ^ t) (mul2 m 1) s i = gate p t m.a m.b m.c m.d s i := by
  have hot : o.testBit t = false := by
    by_contra hc; exact htc (ho t (by simpa using hc))
  have h1 : Pat ps o i ↔ p i ∧ i.testBit t = false := by
    rw [hp]
    constructor
    · intro h
      exact ⟨fun c hc => h c ((hmem c).2 (Or.inl hc)), by rw [h t ((hmem t).2 (Or.inr rfl)), hot]⟩
    · rintro ⟨h, ht⟩ k hk
      rcases (hmem k).1 hk with hk | rfl
      · exact h k hk
      · rw [ht, hot]
  have h2 : Pat ps (o ||| 2 ^ t) i ↔ p i ∧ i.testBit t = true := by
    rw [hp]
    constructor
    · intro h
      refine ⟨fun c hc => ?_, ?_⟩
      · rw [h c ((hmem c).2 (Or.inl hc)), Nat.testBit_or, Nat.testBit_two_pow]
        have : t ≠ c := fun h => htc (h ▸ hc)
        simp [this]
      · rw [h t ((hmem t).2 (Or.inr rfl)), Nat.testBit_or, Nat.testBit_two_pow]; simp
    · rintro ⟨h, ht⟩ k hk
      rw [Nat.testBit_or, Nat.testBit_two_pow]
      rcases (hmem k).1 hk with hk | rfl
      · have : t ≠ k := fun h => htc (h ▸ hk)
        simp [this, h k hk]
      · simp [ht]
  unfold pairSpec gate
  simp only [hi, true_and, h1, h2, mul2_fst, mul2_snd, xor_or_self hot, one_mul, flipBit]
  by_cases hpi : p i <;> cases ht : i.testBit t <;> simp [hpi]

/-- Valid arguments for the controlled forms. -/
theorem valid_ctrl {n t o : ℕ} {cs : List ℕ} (hn : n ≤ 64) (hnd : (cs ++ [t]).Nodup)
    (hb : ∀ k ∈ cs ++ [t], k < n) (ho : Sub cs o) :
    Valid n ((cs ++ [t]).mergeSort (· ≤ ·)) o (o ||| 2 ^ t) := by
  have htc : t ∉ cs := by
    intro h
    rw [List.nodup_append] at hnd
    exact hnd.2.2 t h t (by simp) rfl
  refine ⟨sorted_lt_of_nodup hnd, fun p hp => hb p (mem_sort.1 hp), hn, ?_, ?_, ?_⟩
  · intro k hk; exact mem_sort.2 (by simp [ho k hk])
  · intro k hk
    rw [Nat.testBit_or, Nat.testBit_two_pow, Bool.or_eq_true] at hk
    rcases hk with hk | hk
    · exact mem_sort.2 (by simp [ho k hk])
    · have : t = k := by simpa using hk
      exact mem_sort.2 (by simp [this])
  · intro h
    have := congrArg (fun x => x.testBit t) h
    simp only [Nat.testBit_or, Nat.testBit_two_pow, decide_true, Bool.or_true] at this
    exact htc (ho t this)

/-- The common core of all controlled gates. -/
theorem apply2x2_ctrl {σ : List ℕ → List ℕ} (hσ : IsSched σ) {e : Eng} {t o : ℕ} {cs : List ℕ}
    (hn : e.n ≤ 64) (hne : cs ≠ []) (hnd : (cs ++ [t]).Nodup) (hb : ∀ k ∈ cs ++ [t], k < e.n)
    (ho : Sub cs o) (p : ℕ → Prop) [DecidablePred p] (hp : ∀ i, p i ↔ Pat cs o i) (m : M2) :
    ∃ e', apply2x2 σ e o (o ||| 2 ^ t) m (sortPows (cs.map pow2 ++ [pow2 t])) false = some e' ∧
      e'.n = e.n ∧ e'.rn = e.rn ∧ e'.doNorm = e.doNorm ∧ e'.floor = e.floor ∧ e'.rgp = e.rgp ∧
      (∀ i < 2 ^ e.n, e'.amp i = gate p t m.a m.b m.c m.d e.amp i) := by
  have htc : t ∉ cs := by
    intro h
    rw [List.nodup_append] at hnd
    exact hnd.2.2 t h t (by simp) rfl
  have hs : sortPows (cs.map pow2 ++ [pow2 t]) = ((cs ++ [t]).mergeSort (· ≤ ·)).map (2 ^ ·) := by
    rw [← sortPows_map]; simp
  have v := valid_ctrl hn hnd hb ho
  rw [hs, apply2x2_plain hσ v m]
  have hlen : ((cs ++ [t]).mergeSort (· ≤ ·)).length ≠ 1 := by
    rw [List.length_mergeSort, List.length_append]
    have := List.length_pos_iff.2 hne
    simp; exact hne
  refine ⟨_, rfl, rfl, ?_, rfl, rfl, rfl, ?_⟩
  · have : (((cs ++ [t]).mergeSort (· ≤ ·)).length == 1) = false := by simpa using hlen
    simp only [this, Bool.and_false, Bool.false_and, Bool.false_eq_true, if_false]
  · intro i hi
    exact pairSpec_gate (fun k => by rw [mem_sort]; simp) htc ho p hp m e.amp hi

theorem apply2x2_dup {σ : List ℕ → List ℕ} {e : Eng} {o1 o2 : ℕ} (m : M2) {l : List ℕ}
    (h : ¬ l.Nodup) (cn : Bool) : apply2x2 σ e o1 o2 m (sortPows (l.map pow2)) cn = none := by
  unfold apply2x2
  split_ifs with h1 h2
  · rfl
  · rfl
  · exact absurd (Or.inr (adjDup_of_dup l h)) h2

theorem apply2x2_bound {σ : List ℕ → List ℕ} {e : Eng} {o1 o2 : ℕ} (m : M2) {l : List ℕ}
    {q : ℕ} (hq : q ∈ l) (h : e.n ≤ q) (cn : Bool) :
    apply2x2 σ e o1 o2 m (sortPows (l.map pow2)) cn = none := by
  unfold apply2x2
  split_ifs with h1 h2
  · rfl
  · rfl
  · refine absurd (Or.inl ⟨2 ^ q, ?_, Nat.pow_le_pow_right (by norm_num) h⟩) h2
    rw [sortPows_map]
    exact List.mem_map.2 ⟨q, mem_sort.2 hq, rfl⟩

theorem sum_parts {n t : ℕ} (ht : t < n) {l : List ℕ} (hnd : l.Nodup)
    (hm : ∀ i, i ∈ l ↔ MaskClear n [t] i) (g : ℕ → ℝ) :
    (l.map fun x => g x + g (x + 2 ^ t)).sum = ∑ i ∈ Finset.range (2 ^ n), g i := by
  have hl : (l.map fun x => g x + g (x + 2 ^ t)).sum =
      ∑ x ∈ l.toFinset, (g x + g (x + 2 ^ t)) := by
    rw [List.sum_toFinset _ hnd]
  rw [hl, Finset.sum_add_distrib]
  have hadd : ∀ x ∈ l, x + 2 ^ t = x ^^^ 2 ^ t := fun x hx =>
    clear_add ((hm x).1 hx) (fun k hk => by
      rw [Nat.testBit_two_pow] at hk; simpa [eq_comm] using hk)
  have himg : ∑ x ∈ l.toFinset, g (x + 2 ^ t) =
      ∑ y ∈ (Finset.range (2 ^ n)).filter (fun i => i.testBit t = true), g y := by
    refine Finset.sum_bij' (fun x _ => x ^^^ 2 ^ t) (fun y _ => y ^^^ 2 ^ t) ?_ ?_ ?_ ?_ ?_
    · intro x hx
      have h := (hm x).1 (List.mem_toFinset.1 hx)
      rw [Finset.mem_filter, Finset.mem_range]
      refine ⟨Nat.xor_lt_two_pow h.1 (Nat.pow_lt_pow_right (by norm_num) ht), ?_⟩
      rw [Nat.testBit_xor, h.2 t (by simp), Nat.testBit_two_pow]; simp
    · intro y hy
      rw [Finset.mem_filter, Finset.mem_range] at hy
      rw [List.mem_toFinset, hm]
      refine ⟨Nat.xor_lt_two_pow hy.1 (Nat.pow_lt_pow_right (by norm_num) ht), fun p hp => ?_⟩
      have : p = t := by simpa using hp
      subst this
      rw [Nat.testBit_xor, hy.2, Nat.testBit_two_pow]; simp
    · intro x _; simp [Nat.xor_assoc]
    · intro x _; simp [Nat.xor_assoc]
    · intro x hx; rw [hadd x (List.mem_toFinset.1 hx)]
  have hid : l.toFinset = (Finset.range (2 ^ n)).filter (fun i => ¬ i.testBit t = true) := by
    ext x
    rw [List.mem_toFinset, hm, Finset.mem_filter, Finset.mem_range]
    unfold MaskClear
    simp
  rw [himg, hid, add_comm]
  exact Finset.sum_filter_add_sum_filter_not _ _ _

theorem fold_norm {n t : ℕ} (hn : n ≤ 64) (ht : t < n) {σ : List ℕ → List ℕ} (hσ : IsSched σ)
    (thr nrm : ℝ) (m : M2) (s : ℕ → ℂ) :
    ((σ (parForMaskPlan 64 0 (2 ^ n) [2 ^ t])).foldl
      (step true thr nrm m 0 (2 ^ t)) (s, 0)).2 =
    totalProb n (pairSpec n [t] 0 (2 ^ t) (kernel true thr nrm m) s) := by
  have v : Valid n [t] 0 (2 ^ t) := by
    refine ⟨by simp, by simpa using ht, hn, ?_, ?_, ?_⟩
    · intro k hk; simp at hk
    · intro k hk
      rw [Nat.testBit_two_pow] at hk; simpa [eq_comm] using hk
    · have : 0 < 2 ^ t := by positivity
      omega
  obtain ⟨hnd, hm, hdj⟩ := plan_facts v hσ
  have hamp := fold_amp v hσ true thr nrm m s 0
  simp only [List.map_cons, List.map_nil] at hnd hm hdj hamp
  rw [step_eq_pstep] at hamp ⊢
  obtain ⟨h1, h2, h3⟩ := fold_spec (· + 0) (· + 2 ^ t) (fun _ => kernel true thr nrm m)
    (fun x y => if true then Complex.normSq x + Complex.normSq y else 0) _ hnd hdj s 0
  rw [h3, ← hamp, zero_add]
  rw [totalProb, ← sum_parts ht hnd hm]
  congr 1
  apply List.map_congr_left
  intro x hx
  have := h1 x hx
  simp only [if_true, Nat.add_zero] at this ⊢
  rw [this.1, this.2]

end Verif.Engine
