import Verif.Model.OclMeas
import Verif.Lemmas.OclMask
import Verif.Lemmas.EngineCompose
import Verif.Props.EngineMeasReg
import Verif.Props.OclMask

/-!
# Lemmas for the OpenCL probabilities and measurements
-/

namespace Verif.Ocl

open Verif.ParFor Verif.Bits Verif.PairFold Verif.Spec Verif.Engine Classical

/-- A device that can launch, and schedules that run every work-item once. -/
structure Rt.Ok (R : Rt) : Prop where
  d : R.d.Ok
  σ : IsSched2 R.σ
  τ : IsSched R.τ

theorem normIf_ready' {R : Rt} {e : Eng} (h : e.doNorm = true → e.rn = 1) : normIf R e = some e := by
  unfold normIf
  cases hd : e.doNorm
  · simp
  · have hr := h hd
    rw [if_pos rfl]
    unfold normalizeState
    have hne : ¬ ((1 : ℝ) = -999) := by norm_num
    simp [hr, hne]

theorem normIf_steady' {R : Rt} {e : Eng} (he : e.Steady) : normIf R e = some e := normIf_ready' he.2

/-- The indices of a launch, in the order in which they are handled. -/
theorem launch_list {R : Rt} (hR : R.Ok) (a : ℕ) :
    ∃ l : List ℕ, l.Nodup ∧ (∀ i, i ∈ l ↔ i < 2 ^ a) ∧
      ∀ {α : Type} (step : α → ℕ → α) (s : α), launch R (2 ^ a) (2 ^ a) step s = some (l.foldl step s) := by
  have hp : ((R.σ (loopPlan (ngc R.d (2 ^ a)) (2 ^ a))).map Prod.snd).Perm (List.range (2 ^ a)) :=
    ((hR.σ _).map _).trans (loopPlan_perm (ngc_pos hR.d a))
  refine ⟨_, hp.nodup_iff.2 List.nodup_range, fun i => by rw [hp.mem_iff, List.mem_range], fun step s => ?_⟩
  rw [launch, if_pos (sizes_ok hR.d a), List.foldl_map]

/-- Overwriting each listed cell once. -/
theorem foldl_update {α : Type} [Inhabited α] (F : ℕ → α → α) : ∀ (l : List ℕ), l.Nodup → ∀ (s : ℕ → α) (i : ℕ),
    l.foldl (fun s x => Function.update s x (F x (s x))) s i = if i ∈ l then F i (s i) else s i := by
  intro l
  induction l with
  | nil => intro _ s i; simp
  | cons x l ih =>
    intro hnd s i
    rw [List.nodup_cons] at hnd
    rw [List.foldl_cons, ih hnd.2]
    by_cases h : i = x
    · subst h; rw [if_neg hnd.1, Function.update_self, if_pos (by simp)]
    · rw [Function.update_of_ne h]
      by_cases hm : i ∈ l <;> simp [hm, h]

theorem launch_update {R : Rt} (hR : R.Ok) (a : ℕ) {α : Type} [Inhabited α] (F : ℕ → α → α) (s : ℕ → α) :
    launch R (2 ^ a) (2 ^ a) (fun s x => Function.update s x (F x (s x))) s =
      some fun i => if i < 2 ^ a then F i (s i) else s i := by
  obtain ⟨l, h1, h2, h3⟩ := launch_list hR a
  rw [h3]
  congr 1
  funext i
  rw [foldl_update F l h1]
  simp only [h2]

theorem sum_range_list {M : Type*} [AddCommMonoid M] (N : ℕ) (f : ℕ → M) :
    ((List.range N).map f).sum = ∑ i ∈ Finset.range N, f i := by
  rw [Finset.sum_range]
  rw [← List.sum_ofFn]
  congr 1
  apply List.ext_getElem <;> simp

/-- Summing over the spread-out indices that hold a given pattern. -/
theorem sum_spread {n : ℕ} {ps : List ℕ} (hs : ps.Pairwise (· < ·)) (hb : ∀ p ∈ ps, p < n) {perm : ℕ}
    (hp : ∀ q, perm.testBit q = true → q ∈ ps) {P : ℕ → Prop} [DecidablePred P]
    (hP : ∀ i, P i ↔ ∀ p ∈ ps, i.testBit p = perm.testBit p) (f : ℕ → ℝ) :
    ∑ lcv ∈ Finset.range (2 ^ (n - ps.length)), f (insAll ps lcv ||| perm) =
      ∑ i ∈ Finset.range (2 ^ n), if P i then f i else 0 := by
  have hln := length_le_of_pairwise_lt ps n hs hb
  have hpn : perm < 2 ^ n := by
    rw [lt_two_pow_iff_testBit]
    intro k hk
    by_contra h
    have := hb k (hp k (by simpa using h))
    omega
  have key : ∀ x, (∀ p ∈ ps, x.testBit p = false) → (x ||| perm) ^^^ perm = x := by
    intro x hx
    apply Nat.eq_of_testBit_eq
    intro k
    rw [Nat.testBit_xor, Nat.testBit_or]
    cases hk : perm.testBit k
    · simp
    · rw [hx k (hp k hk)]; simp
  rw [← sum_range_list]
  have := sum_visited_map (N := 2 ^ n) (p := fun i => ∀ p ∈ ps, i.testBit p = perm.testBit p)
    (calls := (List.range (2 ^ (n - ps.length))).map (insAll ps)) (fun x => x ||| perm) (fun i => i ^^^ perm)
    (List.Nodup.map (insAll_injective ps) List.nodup_range) ?_ ?_ f
  · rw [List.map_map] at this
    refine Eq.trans this (Finset.sum_congr rfl fun i _ => ?_)
    by_cases h : P i
    · rw [if_pos h, if_pos ((hP i).1 h)]
    · rw [if_neg h, if_neg fun h' => h ((hP i).2 h')]
  · intro x hx
    obtain ⟨y, hy, rfl⟩ := List.mem_map.1 hx
    rw [List.mem_range] at hy
    have hlt := insAll_lt ps hy
    rw [show n - ps.length + ps.length = n by omega] at hlt
    refine ⟨Nat.or_lt_two_pow hlt hpn, ?_, key _ (testBit_insAll_mem ps hs y)⟩
    intro p hp'
    rw [Nat.testBit_or, testBit_insAll_mem ps hs y p hp', Bool.false_or]
  · intro i hi hpi
    have hc : ∀ p ∈ ps, (i ^^^ perm).testBit p = false := by
      intro p hp'
      rw [Nat.testBit_xor, hpi p hp', Bool.xor_self]
    obtain ⟨j, hj, hj'⟩ := exists_insAll ps n _ hs hb (Nat.xor_lt_two_pow hi hpn) hc
    refine ⟨List.mem_map.2 ⟨j, List.mem_range.2 hj, hj'⟩, ?_⟩
    apply Nat.eq_of_testBit_eq
    intro k
    rw [Nat.testBit_or, Nat.testBit_xor]
    cases hk : perm.testBit k
    · simp
    · have := hpi k (hp k hk)
      rw [this, hk]; simp

/-! ### Where the kernels find their amplitudes -/

theorem ul4 (R : Rt) (a b c d' : ℕ) : writeBuf 4 (arr [a, b, c, d']) R.old.ul 0 = a ∧
    writeBuf 4 (arr [a, b, c, d']) R.old.ul 1 = b ∧ writeBuf 4 (arr [a, b, c, d']) R.old.ul 2 = c ∧
    writeBuf 4 (arr [a, b, c, d']) R.old.ul 3 = d' := ⟨rfl, rfl, rfl, rfl⟩

theorem regIdx_or {s l k i : ℕ} (hk : k < 2 ^ l) (h : insertAt s l k i < 2 ^ 64) :
    regIdx s l i ||| (k <<< s) = insertAt s l k i := by
  rw [← remIdx_or hk] at h ⊢
  unfold regIdx
  have h1 : remIdx s l i < 2 ^ 64 := lt_of_le_of_lt Nat.left_le_or h
  unfold remIdx at h1 ⊢
  simp only [] at h1 ⊢
  rw [Nat.mod_eq_of_lt (lt_of_le_of_lt Nat.right_le_or h1)]

theorem shift_lt {s l k i : ℕ} (hk : k < 2 ^ l) (h : insertAt s l k i < 2 ^ 64) : k <<< s % 2 ^ 64 = k <<< s := by
  rw [← remIdx_or hk] at h
  exact Nat.mod_eq_of_lt (lt_of_le_of_lt Nat.right_le_or h)

theorem half_eq {n : ℕ} (hn : 0 < n) : 2 ^ n >>> 1 = 2 ^ (n - 1) := by
  rw [Nat.shiftRight_eq_div_pow]
  exact Nat.pow_div (by omega) (by norm_num)

theorem shr_eq {n k : ℕ} (hk : k ≤ n) : 2 ^ n >>> k = 2 ^ (n - k) := by
  rw [Nat.shiftRight_eq_div_pow]
  exact Nat.pow_div hk (by norm_num)

theorem sum_insertAt_field {s l n : ℕ} (hs : s + l ≤ n) {v : ℕ} (hv : v < 2 ^ l) (f : ℕ → ℝ) :
    ∑ i ∈ Finset.range (2 ^ (n - l)), f (insertAt s l v i) =
      ∑ j ∈ Finset.range (2 ^ n), if field s l j = v then f j else 0 := by
  rw [sum_insertAt hs]
  apply Finset.sum_congr rfl
  intro i _
  rw [Finset.sum_eq_single v]
  · rw [field_insertAt hv, if_pos rfl]
  · intro k hk hkv
    rw [field_insertAt (Finset.mem_range.1 hk), if_neg hkv]
  · intro h; exact absurd (Finset.mem_range.2 hv) h

theorem probIf_field {s l n : ℕ} (hs : s + l ≤ n) {v : ℕ} (hv : v < 2 ^ l) (a : ℕ → ℂ) :
    ∑ i ∈ Finset.range (2 ^ (n - l)), Complex.normSq (a (insertAt s l v i)) = probIf n (fun i => field s l i = v) a := by
  unfold probIf
  exact (sum_insertAt_field hs hv (fun i => Complex.normSq (a i))).trans (Finset.sum_congr rfl fun i _ => by congr)

/-- The kernel `prob` adds up the amplitudes with the qubit set. -/
theorem sum_probTerm {n q : ℕ} (hn : n ≤ 64) (hq : q < n) {ul : ℕ → ℕ} (h1 : ul 1 = 2 ^ q) (s : ℕ → ℂ) :
    ∑ lcv ∈ Finset.range (2 ^ (n - 1)), probTerm ul s lcv = probIf n (fun i => i.testBit q = true) s := by
  have := sum_spread (n := n) (ps := [q]) (by simp) (by simpa using hq) (perm := 2 ^ q)
    (by intro k hk; simp [Nat.testBit_two_pow] at hk; simp [hk]) (P := fun i => i.testBit q = true)
    (by intro i; simp) (fun i => Complex.normSq (s i))
  unfold probIf
  refine Eq.trans ?_ (Eq.trans this (Finset.sum_congr rfl fun i _ => by congr))
  apply Finset.sum_congr rfl
  intro lcv hl
  have hl := Finset.mem_range.1 hl
  have hlt : insZero q lcv < 2 ^ 64 := by
    have := insAll_lt [q] hl
    rw [List.length_singleton, show n - 1 + 1 = n by omega] at this
    exact lt_of_lt_of_le this (Nat.pow_le_pow_right (by norm_num) hn)
  have e1 := pushApart1_eq hlt
  unfold pushApart1 at e1
  simp only [] at e1
  unfold probTerm
  simp only []
  rw [h1, ← Nat.or_assoc, e1]
  rfl

theorem sum_cprobTerm {n c t : ℕ} (hn : n ≤ 64) (hc : c < n) (ht : t < n) (hct : c ≠ t) (b : Bool) {ul : ℕ → ℕ}
    (h1 : ul 1 = 2 ^ t) (h2 : ul 2 = 2 ^ c) (h3 : ul 3 = if b then 2 ^ c else 0) (s : ℕ → ℂ) :
    ∑ lcv ∈ Finset.range (2 ^ (n - 2)), cprobTerm ul s lcv =
      probIf n (fun i => i.testBit c = b ∧ i.testBit t = true) s := by
  have hperm : ∀ k, (ul 1 ||| ul 3).testBit k = (decide (t = k) || (b && decide (c = k))) := by
    intro k
    rw [h1, h3, Nat.testBit_or, Nat.testBit_two_pow]
    cases b <;> simp [Nat.testBit_two_pow]
  have key : ∀ (p q : ℕ), p < q → (p = t ∧ q = c ∨ p = c ∧ q = t) →
      (if ul 1 < ul 2 then (ul 1 - 1, ul 2 - 1) else (ul 2 - 1, ul 1 - 1)) = (2 ^ p - 1, 2 ^ q - 1) := by
    intro p q hpq h
    rcases h with ⟨rfl, rfl⟩ | ⟨rfl, rfl⟩
    · rw [h1, h2, if_pos (Nat.pow_lt_pow_right (by norm_num) hpq)]
    · rw [h1, h2, if_neg (by have := Nat.pow_lt_pow_right (a := 2) (by norm_num) hpq; omega)]
  obtain ⟨p, q, hpq, hor⟩ : ∃ p q, p < q ∧ (p = t ∧ q = c ∨ p = c ∧ q = t) := by
    rcases lt_or_gt_of_ne hct with h | h
    · exact ⟨c, t, h, Or.inr ⟨rfl, rfl⟩⟩
    · exact ⟨t, c, h, Or.inl ⟨rfl, rfl⟩⟩
  have hqn : q < n := by rcases hor with ⟨_, rfl⟩ | ⟨_, rfl⟩ <;> assumption
  have hmem : ∀ k, k ∈ [p, q] ↔ k = t ∨ k = c := by
    intro k
    rcases hor with ⟨rfl, rfl⟩ | ⟨rfl, rfl⟩
    · simp
    · simp [or_comm]
  have hs : [p, q].Pairwise (· < ·) := by simpa using hpq
  have hb : ∀ x ∈ [p, q], x < n := by intro x hx; rcases (hmem x).1 hx with rfl | rfl <;> assumption
  have := sum_spread hs hb (perm := ul 1 ||| ul 3)
    (by
      intro k hk
      rw [hperm] at hk
      rw [hmem]
      simp only [Bool.or_eq_true, Bool.and_eq_true, decide_eq_true_eq] at hk
      rcases hk with h | h
      · exact Or.inl h.symm
      · exact Or.inr h.2.symm) (P := fun i => i.testBit c = b ∧ i.testBit t = true)
    (by
      intro i
      constructor
      · rintro ⟨ec, et⟩ k hk
        rw [hperm]
        rcases (hmem k).1 hk with rfl | rfl
        · rw [et]; simp
        · rw [ec]; simp [hct.symm]
      · intro h
        have ec := h c ((hmem c).2 (Or.inr rfl))
        have et := h t ((hmem t).2 (Or.inl rfl))
        rw [hperm] at ec et
        refine ⟨?_, ?_⟩
        · rw [ec]; simp [hct.symm]
        · rw [et]; simp) (fun i => Complex.normSq (s i))
  rw [show ([p, q] : List ℕ).length = 2 from rfl] at this
  unfold probIf
  rw [show (∑ lcv ∈ Finset.range (2 ^ (n - 2)), cprobTerm ul s lcv) =
    ∑ lcv ∈ Finset.range (2 ^ (n - 2)), Complex.normSq (s (insAll [p, q] lcv ||| (ul 1 ||| ul 3))) from ?_, this]
  · apply Finset.sum_congr rfl
    intro i _
    congr
  · apply Finset.sum_congr rfl
    intro lcv hl
    have hl := Finset.mem_range.1 hl
    unfold cprobTerm
    simp only [key p q hpq hor]
    rw [pushApart2_eq hpq hl (by omega)]
    rfl

/-- The masked kernel loops over the indices that hold the pattern. -/
theorem mask_mem (mask q : ℕ) : q ∈ maskQubits mask ↔ mask.testBit q = true := (maskQubits_spec mask).2 q

theorem sum_pushApart {n mask perm : ℕ} (hn : n ≤ 64) (hm : mask < 2 ^ n) (hp : perm &&& mask = perm) (f : ℕ → ℝ) :
    ∑ lcv ∈ Finset.range (2 ^ (n - (maskQubits mask).length)),
      f (pushApart (arr (maskPowers mask)) (maskPowers mask).length lcv ||| perm) =
      ∑ i ∈ Finset.range (2 ^ n), if i &&& mask = perm then f i else 0 := by
  have hs := maskQubits_sorted mask
  have hb : ∀ q ∈ maskQubits mask, q < n := by
    intro q hq
    by_contra h
    rw [mask_mem, lt_two_pow_iff_testBit.1 hm q (by omega)] at hq
    cases hq
  have hl := length_le_of_pairwise_lt _ n hs hb
  have hpm : ∀ q, perm.testBit q = true → mask.testBit q = true := by
    intro q hq
    rw [← hp, Nat.testBit_and] at hq
    simp only [Bool.and_eq_true] at hq
    exact hq.2
  have := sum_spread hs hb (perm := perm) (fun q hq => (mask_mem mask q).2 (hpm q hq)) (P := fun i => i &&& mask = perm)
    (by
      intro i
      constructor
      · intro h k hk
        rw [mask_mem] at hk
        rw [← h, Nat.testBit_and, hk, Bool.and_true]
      · intro h
        apply Nat.eq_of_testBit_eq
        intro k
        rw [Nat.testBit_and]
        cases hk : mask.testBit k
        · cases hk' : perm.testBit k
          · simp
          · rw [hpm k hk'] at hk; cases hk
        · rw [h k ((mask_mem mask k).2 hk)]; simp) f
  rw [show (∑ lcv ∈ Finset.range (2 ^ (n - (maskQubits mask).length)),
      f (pushApart (arr (maskPowers mask)) (maskPowers mask).length lcv ||| perm)) =
      ∑ lcv ∈ Finset.range (2 ^ (n - (maskQubits mask).length)), f (insAll (maskQubits mask) lcv ||| perm) from ?_, this]
  · apply Finset.sum_congr rfl
    intro lcv hl'
    have hl' := Finset.mem_range.1 hl'
    rw [maskPowers_eq, List.length_map, pushApart_eq hs _ hl' (by omega)]
    intro i h
    unfold arr
    rw [List.getD_eq_getElem _ _ (by simpa using h), List.getElem_map]

theorem parityLoop_eq : ∀ (fuel v : ℕ) (p : Bool), parityLoop fuel v p = (p ^^ decide (kernighan fuel v % 2 = 1)) := by
  intro fuel
  induction fuel with
  | zero => intro v p; simp [parityLoop, kernighan]
  | succ fuel ih =>
    intro v p
    rw [parityLoop, kernighan]
    by_cases h : v = 0
    · simp [h]
    · rw [if_pos h, if_neg h, ih]
      generalize kernighan fuel (v &&& (v - 1)) = k
      rcases Nat.mod_two_eq_zero_or_one k with hk | hk
      · rw [show (1 + k) % 2 = 1 by omega, hk]; simp
      · rw [show (1 + k) % 2 = 0 by omega, hk]; simp

theorem parityLoop_mask {n mask : ℕ} (hn : n ≤ 64) (hm : mask < 2 ^ n) (i : ℕ) :
    parityLoop 64 (i &&& mask) false = decide (maskCount n mask i % 2 = 1) := by
  rw [parityLoop_eq, kernighan_maskCount hn hm, Bool.false_xor]

/-! ### Pushing apart at the qubits outside of a mask -/

theorem countP_lt_le {ps : List ℕ} (hs : ps.Pairwise (· < ·)) {m : ℕ} (hm : ∀ p ∈ ps, m ≤ p) (k : ℕ) :
    ps.countP (· < k) ≤ k - m := by
  rw [List.countP_eq_length_filter]
  have hnd : (ps.filter (· < k)).Nodup := (List.Pairwise.imp (fun h => Nat.ne_of_lt h) hs).filter _
  rw [← List.toFinset_card_of_nodup hnd]
  have : (ps.filter (· < k)).toFinset ⊆ Finset.Ico m k := by
    intro x hx
    simp only [List.mem_toFinset, List.mem_filter, decide_eq_true_eq] at hx
    exact Finset.mem_Ico.2 ⟨hm x hx.1, hx.2⟩
  simpa using Finset.card_le_card this

theorem testBit_insAll : ∀ {ps : List ℕ}, ps.Pairwise (· < ·) → ∀ (i : ℕ) {k : ℕ}, k ∉ ps →
    (insAll ps i).testBit k = i.testBit (k - ps.countP (· < k)) := by
  intro ps
  induction ps with
  | nil => intro _ i k _; simp [insAll]
  | cons p ps ih =>
    intro hs i k hk
    rw [List.pairwise_cons] at hs
    rw [List.mem_cons, not_or] at hk
    change (insAll ps (insZero p i)).testBit k = _
    rw [ih hs.2 _ hk.2, testBit_insZero, List.countP_cons]
    have hle := countP_lt_le hs.2 (m := p + 1) (fun q hq => hs.1 q hq) k
    rcases lt_or_gt_of_ne hk.1 with h | h
    · have h0 : ps.countP (· < k) = 0 := by omega
      rw [h0, if_pos (by omega), if_neg (by simpa using h.le), Nat.add_zero]
    · rw [if_neg (by omega), if_neg (by omega), if_pos (by simpa using h), Nat.sub_sub]

theorem valueOf_rank : ∀ {bits : List ℕ}, bits.Pairwise (· < ·) → ∀ {i v : ℕ}, v < 2 ^ bits.length →
    (∀ b ∈ bits, i.testBit b = v.testBit (bits.countP (· < b))) → valueOf bits i = v := by
  intro bits
  induction bits with
  | nil => intro _ i v hv _; simp at hv; simp [valueOf, hv]
  | cons b bs ih =>
    intro hs i v hv h
    rw [List.pairwise_cons] at hs
    have hv2 : v / 2 < 2 ^ bs.length := by
      rw [List.length_cons, pow_succ] at hv; omega
    have h0 : bs.countP (· < b) = 0 := by
      rw [List.countP_eq_zero]
      intro c hc
      have := hs.1 c hc
      simp; omega
    rw [valueOf, ih hs.2 hv2]
    · have hb := h b (by simp)
      rw [List.countP_cons, h0, if_neg (by simp), Nat.add_zero] at hb
      rw [hb, Nat.testBit_zero]
      rcases Nat.mod_two_eq_zero_or_one v with h | h <;> simp [h] <;> omega
    · intro c hc
      have := h c (by simp [hc])
      rw [List.countP_cons, if_pos (by simpa using hs.1 c hc)] at this
      rw [this, Nat.testBit_succ]

theorem countP_split {n mask k : ℕ} (hm : mask < 2 ^ n) (hk : k ≤ n) :
    (maskQubits ((2 ^ n - 1) ^^^ mask)).countP (· < k) + (maskQubits mask).countP (· < k) = k := by
  rw [List.countP_eq_length_filter, List.countP_eq_length_filter, ← List.length_append]
  have h1 : ∀ q, q ∈ maskQubits ((2 ^ n - 1) ^^^ mask) ↔ q < n ∧ mask.testBit q = false := by
    intro q
    rw [mask_mem, Nat.testBit_xor, Nat.testBit_two_pow_sub_one]
    by_cases h : q < n
    · simp [h]
    · rw [lt_two_pow_iff_testBit.1 hm q (by omega)]; simp [h]
  have hnd : ∀ m : ℕ, ((maskQubits m).filter (· < k)).Nodup := fun m => (maskQubits_spec m).1.filter _
  have : ((maskQubits ((2 ^ n - 1) ^^^ mask)).filter (· < k) ++ (maskQubits mask).filter (· < k)).Perm (List.range k) := by
    rw [List.perm_ext_iff_of_nodup _ List.nodup_range]
    · intro q
      rw [List.mem_append, List.mem_filter, List.mem_filter, h1, mask_mem, List.mem_range]
      simp only [decide_eq_true_eq]
      cases mask.testBit q
      · simp; omega
      · simp
    · rw [List.nodup_append]
      refine ⟨hnd _, hnd _, ?_⟩
      intro a ha b hb hab
      subst hab
      rw [List.mem_filter, h1] at ha
      rw [List.mem_filter, mask_mem] at hb
      rw [ha.1.2] at hb
      exact absurd hb.1 (by simp)
  rw [this.length_eq, List.length_range]

theorem length_compl {n mask : ℕ} (hm : mask < 2 ^ n) :
    (maskQubits ((2 ^ n - 1) ^^^ mask)).length + (maskQubits mask).length = n := by
  have := countP_split hm (le_refl n)
  have h : ∀ m < 2 ^ n, (maskQubits m).countP (· < n) = (maskQubits m).length := by
    intro m hm
    rw [List.countP_eq_length]
    intro q hq
    rw [mask_mem] at hq
    by_contra h
    simp only [decide_eq_true_eq, not_lt] at h
    rw [lt_two_pow_iff_testBit.1 hm q h] at hq
    cases hq
  rw [h _ hm, h _ (Nat.xor_lt_two_pow (by have := Nat.two_pow_pos n; omega) hm)] at this
  exact this

/-- The pattern that the kernel `probmaskall` builds for the value `v`. -/
theorem insAll_compl {n mask v : ℕ} (hm : mask < 2 ^ n) (hv : v < 2 ^ (maskQubits mask).length) (i : ℕ) :
    i &&& mask = insAll (maskQubits ((2 ^ n - 1) ^^^ mask)) v ↔ valueOf (maskQubits mask) i = v := by
  set p := insAll (maskQubits ((2 ^ n - 1) ^^^ mask)) v with hp
  have hlen := length_compl hm
  have hpn : p < 2 ^ n := by
    have := insAll_lt (maskQubits ((2 ^ n - 1) ^^^ mask)) hv
    rwa [Nat.add_comm, hlen] at this
  have hz : ∀ k, mask.testBit k = false → p.testBit k = false := by
    intro k hk
    by_cases hkn : k < n
    · exact testBit_insAll_mem _ (maskQubits_sorted _) v k (by
        rw [mask_mem, Nat.testBit_xor, Nat.testBit_two_pow_sub_one, hk]; simp [hkn])
    · exact lt_two_pow_iff_testBit.1 hpn k (by omega)
  have hpv : valueOf (maskQubits mask) p = v := by
    refine valueOf_rank (maskQubits_sorted mask) hv fun b hb => ?_
    rw [mask_mem] at hb
    have hbn : b < n := by
      by_contra h
      rw [lt_two_pow_iff_testBit.1 hm b (by omega)] at hb
      cases hb
    rw [hp, testBit_insAll (maskQubits_sorted _) v (by
      rw [mask_mem, Nat.testBit_xor, Nat.testBit_two_pow_sub_one, hb]; simp [hbn])]
    have := countP_split hm hbn.le
    congr 1; omega
  constructor
  · intro h
    rw [← hpv]
    apply valueOf_congr
    intro b hb
    rw [mask_mem] at hb
    rw [← h, Nat.testBit_and, hb, Bool.and_true]
  · intro h
    rw [← hpv] at h
    have := valueOf_inj h
    apply Nat.eq_of_testBit_eq
    intro k
    rw [Nat.testBit_and]
    cases hk : mask.testBit k
    · rw [hz k hk]; simp
    · rw [this k ((mask_mem _ _).2 hk), Bool.and_true]

theorem insAll_compl_and {n mask v : ℕ} (hm : mask < 2 ^ n) (hv : v < 2 ^ (maskQubits mask).length) :
    insAll (maskQubits ((2 ^ n - 1) ^^^ mask)) v &&& mask = insAll (maskQubits ((2 ^ n - 1) ^^^ mask)) v := by
  have hlen := length_compl hm
  have hpn := insAll_lt (maskQubits ((2 ^ n - 1) ^^^ mask)) hv
  rw [Nat.add_comm, hlen] at hpn
  apply Nat.eq_of_testBit_eq
  intro k
  rw [Nat.testBit_and]
  cases hk : mask.testBit k
  · rw [Bool.and_false]
    symm
    by_cases hkn : k < n
    · exact testBit_insAll_mem _ (maskQubits_sorted _) v k (by
        rw [mask_mem, Nat.testBit_xor, Nat.testBit_two_pow_sub_one, hk]; simp [hkn])
    · exact lt_two_pow_iff_testBit.1 hpn k (by omega)
  · rw [Bool.and_true]

theorem pushApart_maskPowers {mask x a : ℕ} (hx : x < 2 ^ a) (ha : a + (maskQubits mask).length ≤ 64) :
    pushApart (arr (maskPowers mask)) (maskPowers mask).length x = insAll (maskQubits mask) x := by
  rw [maskPowers_eq, List.length_map, pushApart_eq (maskQubits_sorted mask) _ hx ha]
  intro i h
  unfold arr
  rw [List.getD_eq_getElem _ _ (by simpa using h), List.getElem_map]

end Verif.Ocl
