import Verif.Lemmas.EngineBits
import Mathlib.MeasureTheory.Measure.Lebesgue.Basic

/-!
Helper lemmas: sampling from a list of probabilities by accumulating them.
-/

namespace Verif.Engine

open Verif.Spec

/-- The accumulated probability of the first `x` outcomes. -/
noncomputable def cum (a : ℕ → ℝ) (x : ℕ) : ℝ := ∑ i ∈ Finset.range x, a i

theorem cum_succ (a : ℕ → ℝ) (x : ℕ) : cum a (x + 1) = cum a x + a x := Finset.sum_range_succ a x

theorem cum_zero (a : ℕ → ℝ) : cum a 0 = 0 := Finset.sum_range_zero a

theorem cum_mono {a : ℕ → ℝ} (ha : ∀ i, 0 ≤ a i) {x y : ℕ} (h : x ≤ y) : cum a x ≤ cum a y :=
  Finset.sum_le_sum_of_subset_of_nonneg (Finset.range_mono h) (fun i _ _ => ha i)

/-- The draws that select the outcome `x`. -/
def Picks (a : ℕ → ℝ) (r : ℝ) (x : ℕ) : Prop := cum a x < r ∧ r ≤ cum a (x + 1)

theorem picks_pos {a : ℕ → ℝ} {r : ℝ} {x : ℕ} (h : Picks a r x) : 0 < a x := by
  have := cum_succ a x
  unfold Picks at h
  linarith [h.1, h.2]

theorem picks_unique {a : ℕ → ℝ} (ha : ∀ i, 0 ≤ a i) {r : ℝ} {x y : ℕ} (hx : Picks a r x) (hy : Picks a r y) : x = y := by
  rcases lt_trichotomy x y with h | h | h
  · have := cum_mono ha (show x + 1 ≤ y from h)
    linarith [hx.2, hy.1]
  · exact h
  · have := cum_mono ha (show y + 1 ≤ x from h)
    linarith [hy.2, hx.1]

open MeasureTheory in
theorem picks_volume {a : ℕ → ℝ} (ha : ∀ i, 0 ≤ a i) {len : ℕ} (h1 : cum a len = 1) {x : ℕ} (hx : x < len) :
    volume {r : ℝ | 0 < r ∧ r < 1 ∧ Picks a r x} = ENNReal.ofReal (a x) := by
  have h0 : 0 ≤ cum a x := by rw [← cum_zero a]; exact cum_mono ha (Nat.zero_le _)
  have hle : cum a (x + 1) ≤ 1 := by rw [← h1]; exact cum_mono ha hx
  have hs := cum_succ a x
  by_cases hlt : cum a (x + 1) < 1
  · have : {r : ℝ | 0 < r ∧ r < 1 ∧ Picks a r x} = Set.Ioc (cum a x) (cum a (x + 1)) := by
      ext r
      simp only [Set.mem_setOf_eq, Set.mem_Ioc, Picks]
      constructor
      · rintro ⟨_, _, h⟩; exact h
      · rintro ⟨h2, h3⟩; exact ⟨by linarith, by linarith, h2, h3⟩
    rw [this, Real.volume_Ioc, hs]; congr 1; ring
  · have : {r : ℝ | 0 < r ∧ r < 1 ∧ Picks a r x} = Set.Ioo (cum a x) (cum a (x + 1)) := by
      ext r
      simp only [Set.mem_setOf_eq, Set.mem_Ioo, Picks]
      constructor
      · rintro ⟨_, h4, h2, h3⟩; exact ⟨h2, by linarith⟩
      · rintro ⟨h2, h3⟩; exact ⟨by linarith, by linarith, h2, h3.le⟩
    rw [this, Real.volume_Ioo, hs]; congr 1; ring

theorem sampleLoop_spec {a : ℕ → ℝ} {len : ℕ} (h1 : cum a len = 1) {r : ℝ} (hr : r < 1) :
    ∀ (fuel lcv : ℕ) (nrm : ℝ) (res : ℕ), lcv < len → len ≤ fuel + lcv → cum a lcv < r →
      ∃ x lower' nrm' res', sampleLoop a len r fuel (lcv, cum a (lcv + 1), nrm, res) = some (x, lower', nrm', res') ∧
        x < len ∧ Picks a r x := by
  intro fuel
  induction fuel with
  | zero => intro lcv nrm res hl hf; omega
  | succ fuel ih =>
    intro lcv nrm res hl hf hc
    rw [sampleLoop]
    by_cases h : cum a (lcv + 1) < r
    · rw [if_pos ⟨h, hl⟩]
      have hne : ¬ lcv + 1 = len := by
        intro he; rw [he, h1] at h; linarith
      rw [if_neg hne]
      simp only
      rw [← cum_succ]
      by_cases hp : 0 < a (lcv + 1)
      · rw [if_pos hp]
        exact ih (lcv + 1) _ _ (by omega) (by omega) h
      · rw [if_neg hp]
        exact ih (lcv + 1) _ _ (by omega) (by omega) h
    · rw [if_neg (fun hh => h hh.1)]
      exact ⟨lcv, _, _, _, rfl, hl, hc, not_lt.1 h⟩

theorem sampleBits_spec {a : ℕ → ℝ} {len : ℕ} (h1 : cum a len = 1) {r : ℝ} (h0 : 0 < r) (hr : r < 1) :
    ∃ x < len, sampleBits a len r = some (x, a x) ∧ Picks a r x := by
  have hlen : 0 < len := by
    rcases Nat.eq_zero_or_pos len with h | h
    · subst h; rw [cum_zero] at h1; norm_num at h1
    · exact h
  obtain ⟨x, l', n', r', hs, hx, hp⟩ := sampleLoop_spec h1 hr len 0 1 (len - 1) hlen (by omega) (by rw [cum_zero]; exact h0)
  refine ⟨x, hx, ?_, hp⟩
  unfold sampleBits
  have : cum a (0 + 1) = a 0 := by rw [cum_succ, cum_zero, zero_add]
  rw [this] at hs
  rw [hs]
  simp [hx]

theorem regLoop_spec {a : ℕ → ℝ} {len : ℕ} (h1 : cum a len = 1) {r : ℝ} (hr : r < 1) :
    ∀ (fuel lcv : ℕ) (nrm : ℝ) (res : ℕ), lcv ≤ len → len ≤ fuel + lcv →
      (cum a lcv < r ∨ (res < len ∧ nrm = a res ∧ Picks a r res)) →
      ∃ lcv' lower', ∃ x < len, regLoop a len r fuel (lcv, cum a lcv, nrm, res) = (lcv', lower', a x, x) ∧ Picks a r x := by
  intro fuel
  induction fuel with
  | zero =>
    intro lcv nrm res hl hf hc
    have : lcv = len := by omega
    subst this
    rcases hc with h | ⟨h2, h3, h4⟩
    · rw [h1] at h; linarith
    · subst h3; exact ⟨_, _, res, h2, rfl, h4⟩
  | succ fuel ih =>
    intro lcv nrm res hl hf hc
    rw [regLoop]
    by_cases h : cum a lcv < r
    · have hlt : lcv < len := by
        rcases Nat.lt_or_ge lcv len with h' | h'
        · exact h'
        · have : lcv = len := by omega
          rw [this, h1] at h; linarith
      rw [if_pos ⟨h, hlt⟩, ← cum_succ]
      by_cases hp : 0 < a lcv
      · rw [if_pos hp]
        apply ih (lcv + 1) _ _ (by omega) (by omega)
        by_cases h2 : cum a (lcv + 1) < r
        · exact Or.inl h2
        · exact Or.inr ⟨hlt, rfl, h, not_lt.1 h2⟩
      · rw [if_neg hp]
        apply ih (lcv + 1) _ _ (by omega) (by omega)
        left
        rw [cum_succ]; linarith [not_lt.1 hp]
    · rw [if_neg (fun hh => h hh.1)]
      rcases hc with h' | ⟨h2, h3, h4⟩
      · exact absurd h' h
      · subst h3; exact ⟨_, _, res, h2, rfl, h4⟩

theorem sampleReg_spec {a : ℕ → ℝ} {len : ℕ} (h1 : cum a len = 1) {r : ℝ} (h0 : 0 < r) (hr : r < 1) :
    ∃ x < len, sampleReg a len r = (x, a x) ∧ Picks a r x := by
  obtain ⟨l, w, x, hx, hs, hp⟩ := regLoop_spec h1 hr len 0 1 (len - 1) (Nat.zero_le _) (by omega)
    (Or.inl (by rw [cum_zero]; exact h0))
  refine ⟨x, hx, ?_, hp⟩
  unfold sampleReg
  rw [cum_zero] at hs
  rw [hs]

/-- The draws that select `x` in `MAll`. -/
def PicksR (a : ℕ → ℝ) (r : ℝ) (x : ℕ) : Prop := cum a x ≤ r ∧ r < cum a (x + 1)

theorem picksR_pos {a : ℕ → ℝ} {r : ℝ} {x : ℕ} (h : PicksR a r x) : 0 < a x := by
  have := cum_succ a x
  unfold PicksR at h
  linarith [h.1, h.2]

theorem picksR_unique {a : ℕ → ℝ} (ha : ∀ i, 0 ≤ a i) {r : ℝ} {x y : ℕ} (hx : PicksR a r x) (hy : PicksR a r y) : x = y := by
  rcases lt_trichotomy x y with h | h | h
  · have := cum_mono ha (show x + 1 ≤ y from h)
    linarith [hx.2, hy.1]
  · exact h
  · have := cum_mono ha (show y + 1 ≤ x from h)
    linarith [hy.2, hx.1]

open MeasureTheory in
theorem picksR_volume {a : ℕ → ℝ} (ha : ∀ i, 0 ≤ a i) {len : ℕ} (h1 : cum a len = 1) {x : ℕ} (hx : x < len) :
    volume {r : ℝ | 0 ≤ r ∧ r < 1 ∧ PicksR a r x} = ENNReal.ofReal (a x) := by
  have h0 : 0 ≤ cum a x := by rw [← cum_zero a]; exact cum_mono ha (Nat.zero_le _)
  have hle : cum a (x + 1) ≤ 1 := by rw [← h1]; exact cum_mono ha hx
  have : {r : ℝ | 0 ≤ r ∧ r < 1 ∧ PicksR a r x} = Set.Ico (cum a x) (cum a (x + 1)) := by
    ext r
    simp only [Set.mem_setOf_eq, Set.mem_Ico, PicksR]
    constructor
    · rintro ⟨_, _, h⟩; exact h
    · rintro ⟨h2, h3⟩; exact ⟨by linarith, by linarith, h2, h3⟩
  rw [this, Real.volume_Ico, cum_succ]; congr 1; ring

theorem mAllLoop_spec {e : Eng} (h1 : cum (probAll e) (2 ^ e.n) = 1) {r : ℝ} (hr : r < 1) :
    ∀ (k perm last : ℕ), perm + k = 2 ^ e.n → cum (probAll e) perm ≤ r →
      ∃ x < 2 ^ e.n, mAllLoop e r k perm (cum (probAll e) perm) last = x ∧ PicksR (probAll e) r x := by
  intro k
  induction k with
  | zero =>
    intro perm last hk hc
    rw [show perm = 2 ^ e.n by omega, h1] at hc
    linarith
  | succ k ih =>
    intro perm last hk hc
    rw [mAllLoop]
    simp only
    by_cases hp : 0 < probAll e perm
    · rw [if_pos hp, ← cum_succ]
      by_cases h : cum (probAll e) (perm + 1) > r
      · rw [if_pos (Or.inl h)]
        exact ⟨perm, by omega, rfl, hc, h⟩
      · rw [if_neg]
        · exact ih (perm + 1) perm (by omega) (not_lt.1 h)
        · rintro (h' | h')
          · exact h h'
          · linarith [not_lt.1 h]
    · rw [if_neg hp]
      have h0 : 0 ≤ probAll e perm := by
        unfold probAll clampProb
        simp only
        split_ifs <;> linarith
      have h00 : probAll e perm = 0 := le_antisymm (not_lt.1 hp) h0
      have : cum (probAll e) (perm + 1) = cum (probAll e) perm := by rw [cum_succ, h00, add_zero]
      rw [← this]
      exact ih (perm + 1) last (by omega) (by rw [this]; exact hc)

end Verif.Engine
