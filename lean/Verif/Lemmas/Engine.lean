import Verif.Model.Engine
import Verif.Props.ParFor
import Verif.Lib.PairFold
import Verif.Spec.Gate
import Mathlib.Tactic.Ring
import Mathlib.Tactic.Linarith

/-!
Helper lemmas for the engine gates: the loop of `Apply2x2`, for any schedule, is a pointwise
function of the old state.
-/

namespace Verif.Engine

open Verif.ParFor Verif.Bits Verif.PairFold Verif.Spec Classical

/-- The bits of `i` at the positions `ps` are those of `o`. -/
def Pat (ps : List ℕ) (o i : ℕ) : Prop := ∀ p ∈ ps, i.testBit p = o.testBit p

/-- The bits of `o` are among `ps`. -/
def Sub (ps : List ℕ) (o : ℕ) : Prop := ∀ k, o.testBit k = true → k ∈ ps

theorem Sub.lt {ps : List ℕ} {o n : ℕ} (h : Sub ps o) (hn : ∀ p ∈ ps, p < n) : o < 2 ^ n := by
  rw [lt_two_pow_iff_testBit]
  intro k hk
  by_contra hc
  have := hn k (h k (by simpa using hc))
  omega

theorem clear_add {n : ℕ} {ps : List ℕ} {l o : ℕ} (hl : MaskClear n ps l) (ho : Sub ps o) :
    l + o = l ^^^ o := by
  have hd : ∀ k, ¬ (l.testBit k = true ∧ o.testBit k = true) := by
    rintro k ⟨h1, h2⟩; rw [hl.2 k (ho k h2)] at h1; cases h1
  apply Nat.eq_of_testBit_eq
  intro k
  rw [testBit_add_of_disjoint hd, Nat.testBit_xor]
  have := hd k
  revert this
  cases l.testBit k <;> cases o.testBit k <;> simp

theorem xor_clear {n : ℕ} {ps : List ℕ} {i o : ℕ} (hi : i < 2 ^ n) (hn : ∀ p ∈ ps, p < n)
    (ho : Sub ps o) (hp : Pat ps o i) : MaskClear n ps (i ^^^ o) := by
  refine ⟨?_, fun p h => ?_⟩
  · exact Nat.xor_lt_two_pow hi (ho.lt hn)
  · rw [Nat.testBit_xor, hp p h]; simp

theorem pat_of_clear {n : ℕ} {ps : List ℕ} {l o : ℕ} (hl : MaskClear n ps l) :
    Pat ps o (l ^^^ o) := by
  intro p hp
  rw [Nat.testBit_xor, hl.2 p hp]; simp

theorem pat_unique {ps : List ℕ} {o1 o2 i : ℕ} (h1 : Sub ps o1) (h2 : Sub ps o2)
    (p1 : Pat ps o1 i) (p2 : Pat ps o2 i) : o1 = o2 := by
  apply Nat.eq_of_testBit_eq
  intro k
  by_cases hk : k ∈ ps
  · rw [← p1 k hk, ← p2 k hk]
  · have a : o1.testBit k = false := by
      by_contra hc; exact hk (h1 k (by simpa using hc))
    have b : o2.testBit k = false := by
      by_contra hc; exact hk (h2 k (by simpa using hc))
    rw [a, b]

/-- What the loop of `Apply2x2` computes, cell by cell. -/
noncomputable def pairSpec (n : ℕ) (ps : List ℕ) (o1 o2 : ℕ) (K : ℂ → ℂ → ℂ × ℂ) (s : ℕ → ℂ)
    (i : ℕ) : ℂ :=
  if i < 2 ^ n ∧ Pat ps o1 i then (K (s i) (s (i ^^^ (o1 ^^^ o2)))).1
  else if i < 2 ^ n ∧ Pat ps o2 i then (K (s (i ^^^ (o1 ^^^ o2))) (s i)).2
  else s i

theorem step_eq_pstep (cn : Bool) (thr nrm : ℝ) (m : M2) (o1 o2 : ℕ) :
    step cn thr nrm m o1 o2 = pstep (· + o1) (· + o2) (fun _ => kernel cn thr nrm m)
      (fun x y => if cn then Complex.normSq x + Complex.normSq y else 0) := by
  funext st lcv
  unfold step pstep
  cases cn <;> simp

structure Valid (n : ℕ) (ps : List ℕ) (o1 o2 : ℕ) : Prop where
  sorted : ps.Pairwise (· < ·)
  bound : ∀ p ∈ ps, p < n
  word : n ≤ 64
  s1 : Sub ps o1
  s2 : Sub ps o2
  ne : o1 ≠ o2

theorem plan_facts {n : ℕ} {ps : List ℕ} {o1 o2 : ℕ} (v : Valid n ps o1 o2)
    {σ : List ℕ → List ℕ} (hσ : IsSched σ) :
    (σ (parForMaskPlan 64 0 (2 ^ n) (ps.map (2 ^ ·)))).Nodup ∧
    (∀ i, i ∈ σ (parForMaskPlan 64 0 (2 ^ n) (ps.map (2 ^ ·))) ↔ MaskClear n ps i) ∧
    Disj (· + o1) (· + o2) (σ (parForMaskPlan 64 0 (2 ^ n) (ps.map (2 ^ ·)))) := by
  have hv := parForMask_visits (w := 64) v.sorted v.bound v.word
  have hp := hσ (parForMaskPlan 64 0 (2 ^ n) (ps.map (2 ^ ·)))
  have hm : ∀ i, i ∈ σ (parForMaskPlan 64 0 (2 ^ n) (ps.map (2 ^ ·))) ↔ MaskClear n ps i :=
    fun i => hp.mem_iff.trans (hv.2 i)
  refine ⟨hp.nodup_iff.2 hv.1, hm, ⟨?_, ?_, ?_, ?_⟩⟩
  · intro x _ h
    exact v.ne (by simpa using h)
  · intro x _ y _ h; simpa using h
  · intro x _ y _ h; simpa using h
  · intro x hx y hy h
    exact v.ne (parForMask_disjoint ((hm x).1 hx) ((hm y).1 hy) v.s1 v.s2 h).2

theorem fold_amp {n : ℕ} {ps : List ℕ} {o1 o2 : ℕ} (v : Valid n ps o1 o2)
    {σ : List ℕ → List ℕ} (hσ : IsSched σ) (cn : Bool) (thr nrm : ℝ) (m : M2) (s : ℕ → ℂ) (r : ℝ) :
    ((σ (parForMaskPlan 64 0 (2 ^ n) (ps.map (2 ^ ·)))).foldl
      (step cn thr nrm m o1 o2) (s, r)).1 = pairSpec n ps o1 o2 (kernel cn thr nrm m) s := by
  obtain ⟨hnd, hm, hdj⟩ := plan_facts v hσ
  rw [step_eq_pstep]
  obtain ⟨h1, h2, -⟩ := fold_spec (· + o1) (· + o2) (fun _ => kernel cn thr nrm m)
    (fun x y => if cn then Complex.normSq x + Complex.normSq y else 0) _ hnd hdj s r
  generalize List.foldl _ (s, r) _ = F at h1 h2 ⊢
  funext i
  unfold pairSpec
  split_ifs with c1 c2
  · have hc := xor_clear c1.1 v.bound v.s1 c1.2
    have := (h1 _ ((hm _).2 hc)).1
    have e1 : (i ^^^ o1) + o1 = i := by
      rw [clear_add hc v.s1, Nat.xor_assoc, Nat.xor_self, Nat.xor_zero]
    have e2 : (i ^^^ o1) + o2 = i ^^^ (o1 ^^^ o2) := by rw [clear_add hc v.s2, Nat.xor_assoc]
    simp only [e1, e2] at this
    exact this
  · have hc := xor_clear c2.1 v.bound v.s2 c2.2
    have := (h1 _ ((hm _).2 hc)).2
    have e1 : (i ^^^ o2) + o2 = i := by
      rw [clear_add hc v.s2, Nat.xor_assoc, Nat.xor_self, Nat.xor_zero]
    have e2 : (i ^^^ o2) + o1 = i ^^^ (o1 ^^^ o2) := by
      rw [clear_add hc v.s1, Nat.xor_assoc, Nat.xor_comm o2]
    simp only [e1, e2] at this
    exact this
  · apply h2
    intro x hx
    have hx := (hm x).1 hx
    constructor
    · rintro rfl
      rw [clear_add hx v.s1] at c1
      exact c1 ⟨Nat.xor_lt_two_pow hx.1 (v.s1.lt v.bound), pat_of_clear hx⟩
    · rintro rfl
      rw [clear_add hx v.s2] at c2
      exact c2 ⟨Nat.xor_lt_two_pow hx.1 (v.s2.lt v.bound), pat_of_clear hx⟩

theorem mul2_fst (m : M2) (k y0 y1 : ℂ) : (mul2 m k y0 y1).1 = k * (m.a * y0 + m.b * y1) := by
  unfold mul2
  split_ifs with h1 h2
  · simp [h1.1]
  · simp [h2.1]
  · rfl

theorem mul2_snd (m : M2) (k y0 y1 : ℂ) : (mul2 m k y0 y1).2 = k * (m.c * y0 + m.d * y1) := by
  unfold mul2
  split_ifs with h1 h2
  · simp [h1.2]
  · simp [h2.2]
  · rfl

/-! ### Sorting the powers -/

theorem sortPows_map (l : List ℕ) :
    sortPows (l.map pow2) = (l.mergeSort (· ≤ ·)).map (2 ^ ·) := by
  unfold sortPows
  have h1 : ((l.map pow2).mergeSort (· ≤ ·)).Pairwise (· ≤ ·) := by
    have := List.pairwise_mergeSort (le := fun a b : ℕ => decide (a ≤ b))
      (by intro a b c; simp; omega) (by intro a b; simp; omega) (l.map pow2)
    simpa using this
  have h2 : ((l.mergeSort (· ≤ ·)).map (2 ^ ·)).Pairwise (· ≤ ·) := by
    rw [List.pairwise_map]
    have := List.pairwise_mergeSort (le := fun a b : ℕ => decide (a ≤ b))
      (by intro a b c; simp; omega) (by intro a b; simp; omega) l
    refine List.Pairwise.imp ?_ this
    intro a b h
    exact Nat.pow_le_pow_right (by norm_num) (by simpa using h)
  refine List.Perm.eq_of_pairwise (le := (· ≤ ·)) (fun a b _ _ h h' => le_antisymm h h') h1 h2 ?_
  refine (List.mergeSort_perm _ _).trans ?_
  exact ((List.mergeSort_perm l (· ≤ ·)).map (2 ^ ·)).symm

theorem sorted_lt_of_nodup {l : List ℕ} (h : l.Nodup) :
    (l.mergeSort (· ≤ ·)).Pairwise (· < ·) := by
  have h1 := List.pairwise_mergeSort (le := fun a b : ℕ => decide (a ≤ b))
      (by intro a b c; simp; omega) (by intro a b; simp; omega) l
  have h2 : (l.mergeSort (· ≤ ·)).Nodup := (List.mergeSort_perm l (· ≤ ·)).nodup_iff.2 h
  refine (h1.and h2).imp ?_
  rintro a b ⟨h, h'⟩
  have : a ≤ b := by simpa using h
  omega

theorem mem_sort {l : List ℕ} {x : ℕ} : x ∈ l.mergeSort (· ≤ ·) ↔ x ∈ l :=
  (List.mergeSort_perm l (· ≤ ·)).mem_iff

theorem adjDup_of_sorted : ∀ (l : List ℕ), l.Pairwise (· < ·) → adjDup l = false
  | [], _ => rfl
  | [_], _ => rfl
  | x :: y :: l, h => by
    rw [List.pairwise_cons] at h
    have := h.1 y (by simp)
    simp [adjDup, adjDup_of_sorted (y :: l) h.2]
    omega

/-- A list with a repeated qubit is rejected. -/
theorem adjDup_of_dup (l : List ℕ) (h : ¬ l.Nodup) : adjDup (sortPows (l.map pow2)) = true := by
  rw [sortPows_map]
  have hs := List.pairwise_mergeSort (le := fun a b : ℕ => decide (a ≤ b))
      (by intro a b c; simp; omega) (by intro a b; simp; omega) l
  have hd : ¬ (l.mergeSort (· ≤ ·)).Nodup := fun hc =>
    h ((List.mergeSort_perm l (· ≤ ·)).nodup_iff.1 hc)
  generalize l.mergeSort (· ≤ ·) = k at hs hd
  induction k with
  | nil => simp at hd
  | cons x k ih =>
    cases k with
    | nil => simp at hd
    | cons y k =>
      rw [List.pairwise_cons] at hs
      by_cases hxy : x = y
      · simp [adjDup, hxy]
      · have : ¬ (y :: k).Nodup := by
          intro hc
          apply hd
          rw [List.nodup_cons]
          refine ⟨fun hx => ?_, hc⟩
          rcases List.mem_cons.1 hx with h | h
          · exact hxy h
          · have h1 := hs.1 y (by simp)
            have h2 := (List.pairwise_cons.1 hs.2).1 x h
            simp at h1 h2
            omega
        have := ih hs.2 this
        simp only [List.map_cons] at this ⊢
        simp [adjDup, this]

theorem testBit_foldl_or (l : List ℕ) (a k : ℕ) :
    ((l.map pow2).foldl (· ||| ·) a).testBit k = (a.testBit k || decide (k ∈ l)) := by
  induction l generalizing a with
  | nil => simp
  | cons x l ih =>
    simp only [List.map_cons, List.foldl_cons]
    rw [ih, Nat.testBit_or, pow2, Nat.testBit_two_pow]
    by_cases h : x = k
    · simp [h]
    · simp [h, Ne.symm h]

theorem testBit_permMask (perm : ℕ) (l : List ℕ) (j k : ℕ) :
    (permMask perm j l).testBit k = true ↔
      ∃ i, ∃ h : i < l.length, l[i] = k ∧ perm.testBit (j + i) = true := by
  induction l generalizing j with
  | nil => simp [permMask]
  | cons x l ih =>
    rw [permMask, Nat.testBit_or, Bool.or_eq_true, ih]
    constructor
    · rintro (h | ⟨i, hi, h1, h2⟩)
      · refine ⟨0, by simp, ?_⟩
        split_ifs at h with hp
        · rw [pow2, Nat.testBit_two_pow] at h
          simp at h
          exact ⟨by simpa using h, by simpa using hp⟩
        · simp at h
      · exact ⟨i + 1, by simpa using hi, by simpa using h1, by rwa [← add_assoc, add_right_comm]⟩
    · rintro ⟨i, hi, h1, h2⟩
      cases i with
      | zero =>
        left
        simp only [Nat.add_zero] at h2
        simp only [List.getElem_cons_zero] at h1
        rw [if_pos h2, pow2, Nat.testBit_two_pow]; simp [h1]
      | succ i =>
        right
        exact ⟨i, by simpa using hi, by simpa using h1, by rwa [add_right_comm, add_assoc]⟩

/-- `Apply2x2` on valid arguments without norm bookkeeping. -/
theorem apply2x2_plain {σ : List ℕ → List ℕ} (hσ : IsSched σ) {e : Eng} {ps : List ℕ} {o1 o2 : ℕ}
    (v : Valid e.n ps o1 o2) (m : M2) :
    apply2x2 σ e o1 o2 m (ps.map (2 ^ ·)) false =
      some { e with
        amp := pairSpec e.n ps o1 o2 (mul2 m 1) e.amp
        rn := if e.doNorm && (ps.length == 1) && decide (0 < e.rn) then 1 else e.rn } := by
  unfold apply2x2
  have c1 : ¬ (2 ^ e.n ≤ o1 ∨ 2 ^ e.n ≤ o2) := by
    have := v.s1.lt v.bound
    have := v.s2.lt v.bound
    omega
  have c2 : ¬ ((∃ p ∈ ps.map (2 ^ ·), 2 ^ e.n ≤ p) ∨ adjDup (ps.map (2 ^ ·)) = true) := by
    rintro (⟨p, hp, h⟩ | h)
    · obtain ⟨q, hq, rfl⟩ := List.mem_map.1 hp
      have := v.bound q hq
      have : 2 ^ q < 2 ^ e.n := Nat.pow_lt_pow_right (by norm_num) this
      omega
    · rw [adjDup_of_sorted] at h
      · cases h
      · rw [List.pairwise_map]
        exact v.sorted.imp fun h => Nat.pow_lt_pow_right (by norm_num) h
  rw [if_neg c1, if_neg c2]
  simp only [Bool.false_and, Bool.not_false, if_true, List.length_map]
  rw [fold_amp v hσ]
  have : ∀ nrm, kernel false e.floor nrm m = mul2 m 1 := fun nrm => by
    funext a b; simp [kernel]
  rw [this]

end Verif.Engine
