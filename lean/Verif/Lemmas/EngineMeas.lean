import Verif.Model.EngineMeas
import Verif.Spec.Born
import Verif.Lemmas.EngineMask
import Verif.Lemmas.EngineArith
import Verif.Props.EngineUnitary
import Mathlib.Algebra.BigOperators.Intervals

/-!
Helper lemmas for measurement: reductions, sums over visited indices, elementwise loops.
-/

namespace Verif.Engine

open Verif.ParFor Verif.Bits Verif.Spec Verif.BlockFold Classical

/-! ### Reductions -/

theorem sum_listRange (n : ℕ) (f : ℕ → ℝ) : ((List.range n).map f).sum = ∑ i ∈ Finset.range n, f i := rfl

theorem reduce_fold (P : Par) (h : ∀ l, P.cpu l < P.cores) (f : ℕ → ℝ) (l : List ℕ) (b : ℕ → ℝ) :
    ((List.range P.cores).map (l.foldl
      (fun (b : ℕ → ℝ) l => Function.update b (P.cpu l) (b (P.cpu l) + f l)) b)).sum =
      ((List.range P.cores).map b).sum + (l.map f).sum := by
  induction l generalizing b with
  | nil => simp
  | cons x l ih =>
    rw [List.foldl_cons, ih, List.map_cons, List.sum_cons, ← add_assoc]
    congr 1
    rw [sum_listRange, sum_listRange]
    rw [Finset.sum_update_of_mem (Finset.mem_range.2 (h x)),
      ← Finset.add_sum_erase _ _ (Finset.mem_range.2 (h x)), Finset.sdiff_singleton_eq_erase]
    ring

theorem reduce_eq {P : Par} (hP : P.Ok) (calls : List ℕ) (f : ℕ → ℝ) : reduce P calls f = (calls.map f).sum := by
  unfold reduce
  rw [reduce_fold P hP.2]
  simp only [List.map_const', List.sum_replicate, smul_zero, zero_add]
  exact ((hP.1 calls).map f).sum_eq

/-- The sum over the visited indices is the sum over the event they enumerate. -/
theorem sum_visited {N : ℕ} {p : ℕ → Prop} {calls : List ℕ} (hnd : calls.Nodup)
    (hmem : ∀ i, i ∈ calls ↔ i < N ∧ p i) (f : ℕ → ℝ) :
    (calls.map f).sum = ∑ i ∈ Finset.range N, if p i then f i else 0 := by
  rw [← List.sum_toFinset f hnd, ← Finset.sum_filter]
  apply Finset.sum_congr _ (fun _ _ => rfl)
  ext i
  rw [List.mem_toFinset, hmem, Finset.mem_filter, Finset.mem_range]

/-- Each call contributes the value at one index. -/
theorem sum_visited_map {N : ℕ} {p : ℕ → Prop} {calls : List ℕ} (a g : ℕ → ℕ) (hnd : calls.Nodup)
    (h1 : ∀ l ∈ calls, a l < N ∧ p (a l) ∧ g (a l) = l) (h2 : ∀ i < N, p i → g i ∈ calls ∧ a (g i) = i) (f : ℕ → ℝ) :
    (calls.map fun l => f (a l)).sum = ∑ i ∈ Finset.range N, if p i then f i else 0 := by
  rw [← List.sum_toFinset _ hnd, ← Finset.sum_filter]
  refine Finset.sum_nbij' a g ?_ ?_ ?_ ?_ ?_
  · intro l hl
    have := h1 l (List.mem_toFinset.1 hl)
    exact Finset.mem_filter.2 ⟨Finset.mem_range.2 this.1, this.2.1⟩
  · intro i hi
    rw [Finset.mem_filter, Finset.mem_range] at hi
    exact List.mem_toFinset.2 (h2 i hi.1 hi.2).1
  · intro l hl; exact (h1 l (List.mem_toFinset.1 hl)).2.2
  · intro i hi
    rw [Finset.mem_filter, Finset.mem_range] at hi
    exact (h2 i hi.1 hi.2).2
  · intro l _; rfl

/-- Each call contributes the values at two indices. -/
theorem sum_visited_pair {N : ℕ} {p : ℕ → Prop} {calls : List ℕ} (a b g : ℕ → ℕ) (c : ℕ → Bool) (hnd : calls.Nodup)
    (h1 : ∀ l ∈ calls, a l < N ∧ p (a l) ∧ g (a l) = l ∧ c (a l) = false)
    (h1' : ∀ l ∈ calls, b l < N ∧ p (b l) ∧ g (b l) = l ∧ c (b l) = true)
    (h2 : ∀ i < N, p i → g i ∈ calls ∧ (if c i then b (g i) else a (g i)) = i) (f : ℕ → ℝ) :
    (calls.map fun l => f (a l) + f (b l)).sum = ∑ i ∈ Finset.range N, if p i then f i else 0 := by
  rw [List.sum_map_add]
  have e1 := sum_visited_map (N := N) (p := fun i => p i ∧ c i = false) a g hnd
    (fun l hl => ⟨(h1 l hl).1, ⟨(h1 l hl).2.1, (h1 l hl).2.2.2⟩, (h1 l hl).2.2.1⟩)
    (fun i hi hp => ⟨(h2 i hi hp.1).1, by have := (h2 i hi hp.1).2; rwa [hp.2, if_neg (by simp)] at this⟩) f
  have e2 := sum_visited_map (N := N) (p := fun i => p i ∧ c i = true) b g hnd
    (fun l hl => ⟨(h1' l hl).1, ⟨(h1' l hl).2.1, (h1' l hl).2.2.2⟩, (h1' l hl).2.2.1⟩)
    (fun i hi hp => ⟨(h2 i hi hp.1).1, by have := (h2 i hi hp.1).2; rwa [hp.2, if_pos rfl] at this⟩) f
  rw [e1, e2, ← Finset.sum_add_distrib]
  apply Finset.sum_congr rfl
  intro i _
  by_cases hp : p i <;> cases c i <;> simp [hp]

/-! ### Elementwise loops -/

theorem fold_map {σ : List ℕ → List ℕ} (hσ : IsSched σ) (n : ℕ) (F : ℕ → ℂ → ℂ) (s : ℕ → ℂ) (i : ℕ) :
    (σ (parForPlan 0 (2 ^ n))).foldl (fun s l => Function.update s l (F l (s l))) s i =
      if i < 2 ^ n then F i (s i) else s i := by
  have hm : ∀ x, x ∈ σ (parForPlan 0 (2 ^ n)) ↔ x < 2 ^ n := fun x => by
    rw [(hσ _).mem_iff, mem_parForPlan]
  have hnd : (σ (parForPlan 0 (2 ^ n))).Nodup := (hσ _).nodup_iff.2 List.nodup_range'
  obtain ⟨h1, h2⟩ := block_fold (fun (s : ℕ → ℂ) l => Function.update s l (F l (s l))) (fun x i => i = x)
    (σ (parForPlan 0 (2 ^ n))) hnd
    (fun x _ s i hi => Function.update_of_ne hi _ _)
    (fun x _ s s' h i hi => by subst hi; rw [Function.update_self, Function.update_self, h i rfl])
    (fun x _ y _ i h h' => by rw [← h, ← h']) s
  by_cases hi : i < 2 ^ n
  · rw [if_pos hi, h1 i ((hm i).2 hi) i rfl, Function.update_self]
  · rw [if_neg hi, h2 i (fun x hx hxi => hi (hxi ▸ (hm x).1 hx))]

theorem applyM_amp {σ : List ℕ → List ℕ} (hσ : IsSched σ) (e : Eng) (m r : ℕ) (k : ℂ) {i : ℕ} (hi : i < 2 ^ e.n) :
    (applyM σ e m r k).amp i = if i &&& m = r then k * e.amp i else 0 := by
  have : (applyM σ e m r k).amp = (σ (parForPlan 0 (2 ^ e.n))).foldl
      (fun s l => Function.update s l (if l &&& m = r then k * s l else 0)) e.amp := by
    unfold applyM
    simp only
    congr 1
    funext s l
    by_cases h : l &&& m = r
    · rw [if_pos h, if_pos h]
    · rw [if_neg h, if_neg h]
  rw [this, fold_map hσ e.n (fun l z => if l &&& m = r then k * z else 0), if_pos hi]

/-- An engine that is normalised and knows it. -/
def Eng.Steady (e : Eng) : Prop := totalProb e.n e.amp = 1 ∧ (e.doNorm = true → e.rn = 1)

theorem normIf_steady {σ : List ℕ → List ℕ} {e : Eng} (h : e.Steady) : normIf σ e = e := by
  unfold normIf
  cases hd : e.doNorm
  · rfl
  · have hr := h.2 hd
    rw [if_pos rfl]
    have hne : ¬ e.rn = defaultArg := by rw [hr]; unfold defaultArg; norm_num
    unfold normalizeState
    simp only [hne, if_false]
    rw [if_neg (by rw [hr]; norm_num), if_pos (by rw [hr]; norm_num)]

/-! ### Probabilities of events -/

theorem probIf_nonneg (n : ℕ) (p : ℕ → Prop) (s : ℕ → ℂ) : 0 ≤ probIf n p s := by
  unfold probIf
  apply Finset.sum_nonneg
  intro i _
  by_cases h : p i
  · rw [if_pos h]; exact Complex.normSq_nonneg _
  · rw [if_neg h]

theorem probIf_add_not (n : ℕ) (p : ℕ → Prop) (s : ℕ → ℂ) : probIf n p s + probIf n (fun i => ¬ p i) s = totalProb n s := by
  unfold probIf totalProb
  rw [← Finset.sum_add_distrib]
  apply Finset.sum_congr rfl
  intro i _
  by_cases h : p i <;> simp [h]

theorem probIf_le (n : ℕ) (p : ℕ → Prop) (s : ℕ → ℂ) : probIf n p s ≤ totalProb n s := by
  have := probIf_add_not n p s
  have := probIf_nonneg n (fun i => ¬ p i) s
  linarith

theorem probIf_congr {n : ℕ} {p q : ℕ → Prop} {s s' : ℕ → ℂ} (hp : ∀ i < 2 ^ n, (p i ↔ q i)) (hs : SameOn n s s') :
    probIf n p s = probIf n q s' := by
  unfold probIf
  apply Finset.sum_congr rfl
  intro i hi
  have hi := Finset.mem_range.1 hi
  rw [hs i hi]
  exact if_congr (hp i hi) rfl rfl

/-- An event of probability zero has no amplitude. -/
theorem probIf_eq_zero {n : ℕ} {p : ℕ → Prop} {s : ℕ → ℂ} (h : probIf n p s = 0) {i : ℕ} (hi : i < 2 ^ n) (hp : p i) :
    s i = 0 := by
  unfold probIf at h
  rw [Finset.sum_eq_zero_iff_of_nonneg] at h
  · have := h i (Finset.mem_range.2 hi)
    rw [if_pos hp] at this
    exact Complex.normSq_eq_zero.1 this
  · intro i _
    by_cases h : p i
    · rw [if_pos h]; exact Complex.normSq_nonneg _
    · rw [if_neg h]

theorem clampProb_id {x : ℝ} (h0 : 0 ≤ x) (h1 : x ≤ 1) : clampProb x = x := by
  unfold clampProb
  simp only [not_lt.2 h0, if_false]
  rw [if_neg (by linarith)]

theorem clamp_probIf {n : ℕ} {s : ℕ → ℂ} (h : totalProb n s = 1) (p : ℕ → Prop) : clampProb (probIf n p s) = probIf n p s :=
  clampProb_id (probIf_nonneg _ _ _) (h ▸ probIf_le n p s)

theorem probAll_eq {e : Eng} (h : totalProb e.n e.amp = 1) {i : ℕ} (hi : i < 2 ^ e.n) :
    probAll e i = Complex.normSq (e.amp i) := by
  unfold probAll
  apply clampProb_id (Complex.normSq_nonneg _)
  rw [← h]
  unfold totalProb
  exact Finset.single_le_sum (fun j _ => Complex.normSq_nonneg (e.amp j)) (Finset.mem_range.2 hi)

end Verif.Engine
