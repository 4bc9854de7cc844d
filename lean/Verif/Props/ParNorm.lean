import Verif.Model.ParNorm
import Verif.Props.ParFor
import Mathlib.Algebra.BigOperators.Fin
import Mathlib.Tactic.Linarith
import Mathlib.Tactic.FieldSimp
import Mathlib.Tactic.NormNum

/-!
# C89: the norm that is measured, and what normalising leaves behind

The specification: `kept T a N` is the sum of the squared moduli of those of the `N` amplitudes that reach the threshold `T`, `total` the
sum of all of them.
-/

namespace Verif.ParNorm

open Verif.ParFor

noncomputable def kept (T : ℝ) (a : ℕ → ℂ) (N : ℕ) : ℝ :=
  ∑ k ∈ (Finset.range N).filter (fun k => T ≤ Complex.normSq (a k)), Complex.normSq (a k)

noncomputable def total (a : ℕ → ℂ) (N : ℕ) : ℝ := ∑ k ∈ Finset.range N, Complex.normSq (a k)

theorem kept_eq (T : ℝ) (a : ℕ → ℂ) (N : ℕ) : kept T a N = ∑ k ∈ Finset.range N, above T a k := by
  unfold kept above
  rw [Finset.sum_filter]

theorem kept_nonpos {T : ℝ} (h : T ≤ 0) (a : ℕ → ℂ) (N : ℕ) : kept T a N = total a N := by
  unfold kept total
  rw [Finset.filter_true_of_mem]
  exact fun k _ => h.trans (Complex.normSq_nonneg _)

theorem nreach_inv {f : ℕ → ℝ} {t stride items : ℕ} {s : NSys t} (h : NReach f t stride items s) :
    Reach t 0 stride items s.base ∧ ∑ c, s.acc c = (s.base.trace.map f).sum := by
  induction h with
  | init => exact ⟨.init, by simp [initial]⟩
  | step _ hs ih =>
    obtain ⟨h1, h2⟩ := ih
    cases hs with
    | claimDone c hw hi => exact ⟨h1.step (.claimDone _ c hw hi), h2⟩
    | claimRun c hw hi => exact ⟨h1.step (.claimRun _ c hw hi), h2⟩
    | exec c l j hw hj =>
      refine ⟨h1.step (.exec _ c l j hw hj), ?_⟩
      dsimp only
      rw [List.map_append, List.sum_append, ← h2, Finset.sum_update_of_mem (Finset.mem_univ c),
        Finset.sum_eq_add_sum_sdiff_singleton_of_mem (Finset.mem_univ c)]
      simp [Nat.add_comm j l]
      ring
    | chunkEnd c l j hw hj => exact ⟨h1.step (.chunkEnd _ c l j hw hj), h2⟩

theorem foldl_add (l : List ℕ) (f : ℕ → ℝ) : ∀ x, l.foldl (fun x j => x + f j) x = x + (l.map f).sum := by
  induction l with
  | nil => simp
  | cons a l ih => intro x; rw [List.foldl_cons, ih]; simp [add_assoc]

theorem list_sum_range (f : ℕ → ℝ) (n : ℕ) : ((List.range n).map f).sum = ∑ k ∈ Finset.range n, f k := by
  induction n with
  | zero => simp
  | succ n ih => rw [List.range_succ, List.map_append, List.sum_append, ih, Finset.sum_range_succ]; simp

theorem normRun_is {f : ℕ → ℝ} {stride items numCores : ℕ} {r : ℝ} (h : NormRun f stride items numCores r) :
    r = ∑ k ∈ Finset.range items, f k := by
  cases h with
  | seq _ => rw [foldl_add, zero_add, list_sum_range]
  | par s ht hr hd =>
    obtain ⟨h1, h2⟩ := nreach_inv hr
    have hp := parForInc_calls (inc := id) (ParForInc.par s.base ht h1 hd)
    rw [← List.sum_eq_foldl, List.sum_ofFn, h2]
    rw [List.map_id, List.map_id] at hp
    rw [(hp.map f).sum_eq, ← List.range_eq_range', list_sum_range]

/-- Whatever the number of threads and their schedule, `par_norm` is the norm of the amplitudes that reach the threshold. -/
theorem parNorm_is {stride items numCores : ℕ} {a : ℕ → ℂ} {T r : ℝ} (h : ParNorm stride items numCores a T r) :
    r = kept T a items := by
  unfold ParNorm at h
  split_ifs at h with hT
  · rw [normRun_is h, kept_nonpos hT]; rfl
  · rw [normRun_is h, kept_eq]

/-- What falls below the threshold is at most the threshold per amplitude. -/
theorem total_bounds {T : ℝ} (a : ℕ → ℂ) (N : ℕ) : kept T a N ≤ total a N ∧ total a N ≤ kept T a N + N * max T 0 := by
  rw [kept_eq]
  unfold total
  constructor
  · refine Finset.sum_le_sum fun k _ => ?_
    unfold above
    split_ifs
    · exact le_rfl
    · exact Complex.normSq_nonneg _
  · have : (N : ℝ) * max T 0 = ∑ _k ∈ Finset.range N, max T 0 := by simp
    rw [this, ← Finset.sum_add_distrib]
    refine Finset.sum_le_sum fun k _ => ?_
    unfold above
    split_ifs with h
    · have := le_max_right T 0; linarith
    · have := le_max_left T 0; linarith [not_le.1 h]

/-- The total after the multiplication: the norm of what is not dropped, divided by the norm that was used. -/
theorem scale_ratio {eps nrm thresh phase : ℝ} {e : NEng} (heps : 0 ≤ eps) (hn : eps < nrm)
    (hs : ¬(|1 - nrm| ≤ eps ∧ phase * phase ≤ eps)) :
    total (scale eps nrm thresh phase e).amp e.items = kept (if thresh < 0 then e.floor else thresh) e.amp e.items / nrm := by
  generalize hT : (if thresh < 0 then e.floor else thresh) = T at *
  unfold scale
  rw [if_neg (not_le.2 hn), if_neg hs]
  simp only [hT]
  have hK0 : 0 < nrm := lt_of_le_of_lt heps hn
  have hc : Complex.normSq (((1 / Real.sqrt nrm : ℝ) : ℂ) * Complex.exp (phase * Complex.I)) = 1 / nrm := by
    rw [map_mul, Complex.normSq_ofReal, Complex.normSq_eq_norm_sq, Complex.norm_exp_ofReal_mul_I]
    rw [div_mul_div_comm, Real.mul_self_sqrt hK0.le]
    simp
  have hstep : ∀ k, Complex.normSq (if T ≤ 0 then ((1 / Real.sqrt nrm : ℝ) : ℂ) * Complex.exp (phase * Complex.I) * e.amp k
      else ((1 / Real.sqrt nrm : ℝ) : ℂ) * Complex.exp (phase * Complex.I) * (if Complex.normSq (e.amp k) < T then 0 else e.amp k)) =
      1 / nrm * above T e.amp k := by
    intro k
    unfold above
    split_ifs with h1 h2 h3 h4
    · rw [map_mul, hc]
    · exact absurd (h1.trans (Complex.normSq_nonneg _)) h2
    · exact absurd h4 (not_le.2 h3)
    · simp
    · rw [map_mul, hc]
    · rename_i h5; exact absurd (not_lt.1 h3) h5
  unfold total
  rw [Finset.sum_congr rfl fun k _ => hstep k, ← Finset.mul_sum, ← kept_eq, one_div_mul_eq_div]

theorem scale_total {eps thresh phase : ℝ} {e : NEng} (heps : 0 ≤ eps)
    (hn : eps < kept (if thresh < 0 then e.floor else thresh) e.amp e.items)
    (hs : ¬(|1 - kept (if thresh < 0 then e.floor else thresh) e.amp e.items| ≤ eps ∧ phase * phase ≤ eps)) :
    total (scale eps (kept (if thresh < 0 then e.floor else thresh) e.amp e.items) thresh phase e).amp e.items = 1 := by
  rw [scale_ratio heps hn hs, div_self (lt_of_le_of_lt heps hn).ne']

theorem update_is {stride numCores : ℕ} {eps thresh : ℝ} {e e' : NEng} (h : UpdateNorm stride numCores eps thresh e e') :
    e' = if kept (if thresh < 0 then e.floor else thresh) e.amp e.items ≤ eps then zeroAmps e
      else { e with rn := kept (if thresh < 0 then e.floor else thresh) e.amp e.items } := by
  cases h with
  | mk r hr =>
    rw [parNorm_is hr]
    rfl

theorem default_neg : defaultArg < 0 := by unfold defaultArg; norm_num

/-- `NormalizeState` on a state whose norm is not known, without arguments for norm and threshold: a state whose kept norm is negligible
becomes zero; any other state ends with total norm one up to the tolerance and to the floor for each amplitude. -/
theorem normalize_default {stride numCores : ℕ} {eps thresh phase : ℝ} {e e' : NEng} (heps : 0 ≤ eps) (hth : thresh < 0)
    (hrn : e.rn = defaultArg) (h : Normalize stride numCores eps defaultArg thresh phase e e') :
    (kept e.floor e.amp e.items ≤ eps ∧ e'.rn = 0 ∧ ∀ k, e'.amp k = 0) ∨
      (eps < kept e.floor e.amp e.items ∧ |total e'.amp e.items - 1| ≤ eps + e.items * max e.floor 0) := by
  cases h with
  | given hg => exact absurd ⟨hrn, rfl⟩ hg
  | update e₁ _ _ hu =>
    have h1 := update_is hu
    rw [if_pos default_neg] at h1
    by_cases hk : kept e.floor e.amp e.items ≤ eps
    · left
      rw [if_pos hk] at h1
      subst h1
      have : scale eps (zeroAmps e).rn thresh phase (zeroAmps e) = zeroAmps (zeroAmps e) := by
        unfold scale; rw [if_pos (by exact heps)]
      rw [this]
      exact ⟨hk, rfl, fun _ => rfl⟩
    · right
      rw [if_neg hk] at h1
      subst h1
      refine ⟨not_le.1 hk, ?_⟩
      dsimp only
      have hN : 0 ≤ (e.items : ℝ) * max e.floor 0 := mul_nonneg (Nat.cast_nonneg _) (le_max_right _ _)
      by_cases hs : |1 - kept e.floor e.amp e.items| ≤ eps ∧ phase * phase ≤ eps
      · unfold scale
        rw [if_neg hk, if_pos hs]
        dsimp only
        obtain ⟨b1, b2⟩ := total_bounds (T := e.floor) e.amp e.items
        have := abs_le.1 hs.1
        rw [abs_le]
        constructor <;> linarith [this.1, this.2]
      · have := scale_total (eps := eps) (thresh := thresh) (phase := phase)
          (e := { e with rn := kept e.floor e.amp e.items }) heps (by simpa only [if_pos hth] using not_le.1 hk)
          (by simpa only [if_pos hth] using hs)
        simp only [if_pos hth] at this
        rw [this]
        simpa using by linarith

/-- With a norm that is already recorded, or given: the total is the norm of what is not dropped, divided by that norm. -/
theorem normalize_given {stride numCores : ℕ} {eps nrm thresh phase : ℝ} {e e' : NEng} (heps : 0 ≤ eps)
    (hg : ¬(e.rn = defaultArg ∧ nrm = defaultArg)) (h : Normalize stride numCores eps nrm thresh phase e e')
    (hn : eps < if nrm < 0 then e.rn else nrm) (hs : ¬(|1 - if nrm < 0 then e.rn else nrm| ≤ eps ∧ phase * phase ≤ eps)) :
    e'.rn = 1 ∧ total e'.amp e.items =
      kept (if thresh < 0 then e.floor else thresh) e.amp e.items / (if nrm < 0 then e.rn else nrm) := by
  cases h with
  | update _ h1 h2 _ => exact absurd ⟨h1, h2⟩ hg
  | given _ =>
    refine ⟨?_, scale_ratio heps hn hs⟩
    unfold scale
    rw [if_neg (not_le.2 hn), if_neg hs]

/-- A threshold given to `NormalizeState` of a state whose norm is not known: the norm is taken with the floor of the engine, but the
amplitudes are dropped by the threshold. The norm one is recorded; the total is the quotient of the two norms. -/
theorem normalize_thresh_partial {stride numCores : ℕ} {eps thresh phase : ℝ} {e e' : NEng} (heps : 0 ≤ eps) (hth : 0 ≤ thresh)
    (hrn : e.rn = defaultArg) (h : Normalize stride numCores eps defaultArg thresh phase e e')
    (hk : eps < kept e.floor e.amp e.items) (hs : ¬(|1 - kept e.floor e.amp e.items| ≤ eps ∧ phase * phase ≤ eps)) :
    e'.rn = 1 ∧ total e'.amp e.items = kept thresh e.amp e.items / kept e.floor e.amp e.items := by
  cases h with
  | given hg => exact absurd ⟨hrn, rfl⟩ hg
  | update e₁ _ _ hu =>
    have h1 := update_is hu
    rw [if_pos default_neg, if_neg (not_le.2 hk)] at h1
    subst h1
    constructor
    · unfold scale
      rw [if_neg (not_le.2 hk), if_neg hs]
    · have := scale_ratio (eps := eps) (nrm := kept e.floor e.amp e.items) (thresh := thresh) (phase := phase)
        (e := { e with rn := kept e.floor e.amp e.items }) heps hk hs
      rw [if_neg (not_lt.2 hth)] at this
      exact this

/-- Every engine has a run: one thread. -/
theorem parNorm_exists (items : ℕ) (a : ℕ → ℂ) (T : ℝ) : ∃ r, ParNorm 1 items 1 a T r := by
  unfold ParNorm
  split_ifs
  · exact ⟨_, .seq (by unfold threadCount; omega)⟩
  · exact ⟨_, .seq (by unfold threadCount; omega)⟩

theorem normalize_exists (eps thresh phase : ℝ) (e : NEng) (hrn : e.rn = defaultArg) :
    ∃ e', Normalize 1 1 eps defaultArg thresh phase e e' := by
  obtain ⟨r, hr⟩ := parNorm_exists e.items e.amp (if defaultArg < 0 then e.floor else defaultArg)
  exact ⟨_, .update _ hrn rfl (.mk r hr)⟩

/-- Two amplitudes, 2 and 1, of a norm that is not known. -/
noncomputable def twoOne : NEng := ⟨2, fun k => if k = 0 then 2 else 1, defaultArg, 0⟩

theorem twoOne_floor : kept twoOne.floor twoOne.amp twoOne.items = 5 := by
  rw [kept_nonpos (by simp [twoOne])]
  simp [total, twoOne, Finset.sum_range_succ, Complex.normSq_ofNat]
  norm_num

theorem twoOne_thresh : kept 2 twoOne.amp twoOne.items = 4 := by
  rw [kept_eq]
  simp [above, twoOne, Finset.sum_range_succ, Complex.normSq_ofNat]
  norm_num

/-- Normalising with a threshold of its own leaves a state of norm 4/5 that is recorded as normalised. -/
theorem normalize_thresh_wrong : ∃ e e' : NEng, Normalize 1 1 0 defaultArg 2 0 e e' ∧ e'.rn = 1 ∧ total e'.amp e.items = 4 / 5 := by
  obtain ⟨e', he⟩ := normalize_exists 0 2 0 twoOne rfl
  have h := normalize_thresh_partial le_rfl (by norm_num) rfl he (by rw [twoOne_floor]; norm_num)
    (by rw [twoOne_floor]; norm_num)
  rw [twoOne_floor, twoOne_thresh] at h
  exact ⟨_, e', he, h⟩

example : ∃ e', Normalize 1 1 0 defaultArg (-1) 0 twoOne e' ∧ |total e'.amp 2 - 1| ≤ 0 + 2 * max 0 0 := by
  obtain ⟨e', he⟩ := normalize_exists 0 (-1) 0 twoOne rfl
  rcases normalize_default le_rfl (by norm_num) rfl he with h | h
  · rw [twoOne_floor] at h
    exact absurd h.1 (by norm_num)
  · exact ⟨e', he, by simpa [twoOne] using h.2⟩

/-- Two threads, two chunks of one amplitude each: a run that is not sequential. -/
example : ∃ s : NSys 2, NReach (fun k => (k + 3 : ℝ)) 2 1 2 s ∧ (∀ c, s.base.ws c = .done) ∧ s.acc 0 = 4 ∧ s.acc 1 = 3 := by
  have h0 : NReach (fun k => (k + 3 : ℝ)) 2 1 2 _ := .init
  have h1 := h0.step (.claimRun _ 1 rfl (by simp [initial]))
  have h2 := h1.step (.claimRun _ 0 (by simp [initial]) (by simp [initial]))
  have h3 := h2.step (.exec _ 0 1 0 (by simp [initial]) (by simp [maxJ]))
  have h4 := h3.step (.exec _ 1 0 0 (by simp [initial]) (by simp [maxJ]))
  have h5 := h4.step (.chunkEnd _ 0 1 1 (by simp) (by simp [maxJ]))
  have h6 := h5.step (.chunkEnd _ 1 0 1 (by simp) (by simp [maxJ]))
  have h7 := h6.step (.claimDone _ 0 (by simp) (by simp [initial]))
  have h8 := h7.step (.claimDone _ 1 (by simp) (by simp [initial]))
  refine ⟨_, h8, ?_, ?_, ?_⟩
  · intro c; fin_cases c <;> simp
  · simp; norm_num
  · simp

end Verif.ParNorm
