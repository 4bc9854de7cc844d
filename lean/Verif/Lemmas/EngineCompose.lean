import Verif.Model.EngineCompose
import Verif.Lemmas.EngineMeas
import Verif.Lemmas.EngineArith
import Verif.Lib.Insert

/-!
Helper lemmas about joining and splitting state vectors.
-/

namespace Verif.Engine

open Verif.ParFor Verif.Spec Verif.Bits Verif.BlockFold Classical

theorem fill_at {σ : List ℕ → List ℕ} (hσ : IsSched σ) {n : ℕ} (fresh f : ℕ → ℂ) {i : ℕ} (hi : i < 2 ^ n) :
    fill σ (2 ^ n) fresh f i = f i :=
  scatter_at (fun x => x) f (σ (parForPlan 0 (2 ^ n))) fresh (fun x _ y _ h => by rw [show x = y from h]) i
    (by rw [(hσ _).mem_iff, mem_parForPlan]; exact hi)

theorem and_low (i n : ℕ) : i &&& (2 ^ n - 1) = i % 2 ^ n := Nat.and_two_pow_sub_one_eq_mod _ _

theorem testBit_lowMask (n k : ℕ) : (2 ^ n - 1).testBit k = decide (k < n) := by
  rw [Nat.testBit_two_pow_sub_one]

theorem read_part (s l i : ℕ) : (i &&& ((2 ^ l - 1) <<< s)) >>> s = field s l i := by
  apply Nat.eq_of_testBit_eq
  intro k
  rw [testBit_field, Nat.testBit_shiftRight, Nat.testBit_and, Nat.testBit_shiftLeft, testBit_lowMask]
  by_cases h : k < l <;> simp [h]

theorem rest_top {n l i : ℕ} (hi : i < 2 ^ (n + l)) : rest n l i = i % 2 ^ n := by
  unfold rest
  rw [Nat.div_eq_of_lt hi]; simp

theorem read_rest {s l n i : ℕ} (hs : s ≤ n) (hn : n + l ≤ 64) (hi : i < 2 ^ (n + l)) :
    (i &&& (2 ^ s - 1)) ||| ((i &&& ((2 ^ (n + l) - 1) &&& ((2 ^ 64 - 1) ^^^ ((2 ^ s - 1) ||| ((2 ^ l - 1) <<< s))))) >>> l) =
      rest s l i := by
  apply Nat.eq_of_testBit_eq
  intro k
  rw [testBit_rest, Nat.testBit_or, Nat.testBit_and, testBit_lowMask, Nat.testBit_shiftRight, Nat.testBit_and,
    Nat.testBit_and, Nat.testBit_xor, Nat.testBit_or, testBit_lowMask, testBit_lowMask, testBit_lowMask,
    Nat.testBit_shiftLeft, testBit_lowMask]
  by_cases a : k < s
  · have h3 : (decide (l + k < s) || decide (l + k ≥ s) && decide (l + k - s < l)) = true := by
      by_cases c : l + k < s
      · simp [c]
      · simp [show l + k ≥ s by omega]; omega
    rw [h3]
    simp only [a, decide_true, Bool.and_true, if_true]
    by_cases c : l + k < n + l
    · simp [show l + k < 64 by omega]
    · simp [c]
  · have h3 : (decide (l + k < s) || decide (l + k ≥ s) && decide (l + k - s < l)) = false := by
      simp; omega
    rw [h3]
    simp only [a, decide_false, Bool.and_false, Bool.false_or, if_false, Bool.xor_false]
    by_cases c : l + k < n + l
    · simp [show l + k < 64 by omega, Nat.add_comm, show k < n by omega]
    · rw [lt_two_pow_iff_testBit.1 hi (k + l) (by omega)]
      simp [c]

theorem remIdx_or {s l k : ℕ} (hk : k < 2 ^ l) (i : ℕ) : remIdx s l i ||| (k <<< s) = insertAt s l k i := by
  apply Nat.eq_of_testBit_eq
  intro j
  unfold remIdx
  simp only []
  rw [testBit_insertAt hk, Nat.testBit_or, Nat.testBit_or, Nat.testBit_shiftLeft, Nat.testBit_shiftLeft,
    Nat.testBit_xor, Nat.testBit_and, Nat.testBit_and, testBit_lowMask, testBit_lowMask]
  by_cases a : j < s
  · rw [if_pos a]
    have : ¬ j ≥ s := by omega
    by_cases c : j ≥ l
    · simp [a, this, c, show j - l < s by omega]
    · simp [a, this, c]
  · rw [if_neg a]
    have h1 : j ≥ s := by omega
    by_cases b : j < s + l
    · rw [if_pos b]
      by_cases c : j ≥ l
      · simp [a, h1, c, show j - l < s by omega]
      · simp [a, h1, c]
    · rw [if_neg b]
      have : k.testBit (j - s) = false := lt_two_pow_iff_testBit.1 hk _ (by omega)
      simp [a, h1, this, show j ≥ l by omega, show ¬ j - l < s by omega]

theorem partIdx_eq {s l v : ℕ} (hv : v < 2 ^ l) (k : ℕ) : partIdx s l v k = insertAt s l v k := by
  rw [← remIdx_or hv]
  unfold partIdx remIdx
  simp only []
  rw [Nat.or_assoc, Nat.or_comm (v <<< s)]

theorem normIf_ready {σ : List ℕ → List ℕ} {e : Eng} (h : e.doNorm = true → e.rn = 1) : normIf σ e = e := by
  unfold normIf
  cases hd : e.doNorm
  · rfl
  · have hr := h hd
    rw [if_pos rfl]
    have hne : ¬ e.rn = defaultArg := by rw [hr]; unfold defaultArg; norm_num
    unfold normalizeState
    simp only [hne, if_false]
    rw [if_neg (by rw [hr]; norm_num), if_pos (by rw [hr]; norm_num)]

/-! ### Additions to the cells of an array -/

theorem accumulate_from (l : List (ℕ × ℝ)) : ∀ (s : ℕ → ℝ) (j : ℕ),
    l.foldl (fun s p => Function.update s p.1 (s p.1 + p.2)) s j =
      s j + (l.map fun p => if p.1 = j then p.2 else 0).sum := by
  induction l with
  | nil => intro s j; simp
  | cons p l ih =>
    intro s j
    rw [List.foldl_cons, ih, List.map_cons, List.sum_cons]
    by_cases h : p.1 = j
    · subst h; rw [Function.update_self, if_pos rfl]; ring
    · rw [Function.update_of_ne (Ne.symm h), if_neg h]; ring

theorem accumulate_eq (l : List (ℕ × ℝ)) (j : ℕ) :
    accumulate l j = (l.map fun p => if p.1 = j then p.2 else 0).sum := by
  unfold accumulate; rw [accumulate_from]; simp

theorem sum_flat (calls : List ℕ) (K : ℕ) (g : ℕ → ℕ → ℕ × ℝ) (h : ℕ × ℝ → ℝ) :
    ((calls.flatMap fun x => (List.range K).map fun k => g x k).map h).sum =
      (calls.map fun x => ∑ k ∈ Finset.range K, h (g x k)).sum := by
  induction calls with
  | nil => simp
  | cons x l ih =>
    rw [List.flatMap_cons, List.map_append, List.sum_append, ih, List.map_cons, List.sum_cons, List.map_map]
    congr 1

theorem sum_calls {σ : List ℕ → List ℕ} (hσ : IsSched σ) (n : ℕ) (f : ℕ → ℝ) :
    ((σ (parForPlan 0 (2 ^ n))).map f).sum = ∑ i ∈ Finset.range (2 ^ n), f i := by
  have h := sum_visited (N := 2 ^ n) (p := fun _ => True) (calls := parForPlan 0 (2 ^ n)) List.nodup_range'
    (fun i => by rw [mem_parForPlan]; simp) f
  rw [((hσ _).map f).sum_eq, h]
  simp

/-- Each call adds to its own cell. -/
theorem accumulate_own {σ : List ℕ → List ℕ} (hσ : IsSched σ) (n K : ℕ) (f : ℕ → ℕ → ℝ) {j : ℕ} (hj : j < 2 ^ n) :
    accumulate ((σ (parForPlan 0 (2 ^ n))).flatMap fun x => (List.range K).map fun k => (x, f x k)) j =
      ∑ k ∈ Finset.range K, f j k := by
  rw [accumulate_eq, sum_flat _ _ (fun x k => (x, f x k)) (fun p => if p.1 = j then p.2 else 0), sum_calls hσ,
    Finset.sum_comm]
  apply Finset.sum_congr rfl
  intro k _
  simp [hj]

/-- Each call adds to every cell. -/
theorem accumulate_all {σ : List ℕ → List ℕ} (hσ : IsSched σ) (n K : ℕ) (f : ℕ → ℕ → ℝ) {j : ℕ} (hj : j < K) :
    accumulate ((σ (parForPlan 0 (2 ^ n))).flatMap fun x => (List.range K).map fun k => (k, f x k)) j =
      ∑ i ∈ Finset.range (2 ^ n), f i j := by
  rw [accumulate_eq, sum_flat _ _ (fun x k => (k, f x k)) (fun p => if p.1 = j then p.2 else 0), sum_calls hσ]
  apply Finset.sum_congr rfl
  intro k _
  simp [hj]

end Verif.Engine
