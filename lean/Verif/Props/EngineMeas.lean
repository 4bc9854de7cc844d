import Verif.Lemmas.EngineMeas
import Mathlib.MeasureTheory.Measure.Lebesgue.Basic

/-!
C20: single-qubit measurement obeys the projection rule.
-/

namespace Verif.Engine

open Verif.ParFor Verif.Bits Verif.Spec Classical

/-! ### `Prob` -/

/-- The two branches of the four-at-a-time and two-at-a-time loops visit the same amplitudes as the
definition of the probability. -/
theorem prob_sum {P : Par} (hP : P.Ok) {e : Eng} (hn : e.n ≤ 64) (h1 : e.n ≠ 1) {q : ℕ} (hq : q < e.n) :
    (if pow2 q = 1 then
      reduce P (parForPlan 0 (2 ^ e.n >>> 2)) fun lcv =>
        Complex.normSq (e.amp (lcv <<< 2 ||| 1)) + Complex.normSq (e.amp (lcv <<< 2 ||| 3))
     else
      reduce P (parForSkipPlan 64 0 (2 ^ e.n >>> 1) (pow2 q >>> 1) 1) fun lcv =>
        Complex.normSq (e.amp ((lcv <<< 1) ||| pow2 q)) + Complex.normSq (e.amp ((lcv <<< 1) ||| pow2 q ||| 1))) =
      probIf e.n (fun i => i.testBit q = true) e.amp := by
  obtain ⟨m, hm⟩ : ∃ m, e.n = m + 2 := ⟨e.n - 2, by omega⟩
  have hlow : ∀ (l c i : ℕ) , l < 2 ^ (e.n - c) → c ≤ e.n → l <<< c < 2 ^ e.n := by
    intro l c i hl hc
    rw [Nat.shiftLeft_eq]
    calc l * 2 ^ c < 2 ^ (e.n - c) * 2 ^ c := Nat.mul_lt_mul_of_pos_right hl (by positivity)
      _ = 2 ^ e.n := by rw [← pow_add]; congr 1; omega
  by_cases hq0 : pow2 q = 1
  · have hq' : q = 0 := by
      unfold pow2 at hq0
      by_contra hc
      have : 2 ^ 1 ≤ 2 ^ q := Nat.pow_le_pow_right (by norm_num) (by omega)
      omega
    subst hq'
    have hsh : 2 ^ e.n >>> 2 = 2 ^ (e.n - 2) := by
      rw [Nat.shiftRight_eq_div_pow, Nat.pow_div (by omega) (by norm_num)]
    rw [if_pos hq0, reduce_eq hP, hsh]
    unfold probIf
    refine sum_visited_pair (p := fun i => i.testBit 0 = true) (fun l => l <<< 2 ||| 1) (fun l => l <<< 2 ||| 3)
      (fun i => i >>> 2) (fun i => i.testBit 1) List.nodup_range' ?_ ?_ ?_ (fun i => Complex.normSq (e.amp i))
    · intro l hl
      have hl := mem_parForPlan.1 hl
      refine ⟨Nat.or_lt_two_pow (hlow l 2 0 hl (by omega)) (by rw [hm]; exact Nat.one_lt_two_pow (by omega)), ?_, ?_, ?_⟩
      · simp [Nat.testBit_or]
      · apply Nat.eq_of_testBit_eq; intro k
        simp [Nat.testBit_shiftRight, Nat.testBit_or, Nat.testBit_shiftLeft, Nat.testBit_one_eq_true_iff_self_eq_zero]
      · rw [Nat.testBit_or, Nat.testBit_shiftLeft, show (1 : ℕ).testBit 1 = false from rfl]; simp
    · intro l hl
      have hl := mem_parForPlan.1 hl
      refine ⟨Nat.or_lt_two_pow (hlow l 2 0 hl (by omega)) ?_, ?_, ?_, ?_⟩
      · rw [hm]
        calc 3 < 2 ^ 2 := by norm_num
          _ ≤ 2 ^ (m + 2) := Nat.pow_le_pow_right (by norm_num) (by omega)
      · simp [Nat.testBit_or]
      · apply Nat.eq_of_testBit_eq; intro k
        have : (3 : ℕ).testBit (2 + k) = false := Nat.testBit_lt_two_pow (by
          calc 3 < 2 ^ 2 := by norm_num
            _ ≤ 2 ^ (2 + k) := Nat.pow_le_pow_right (by norm_num) (by omega))
        simp [Nat.testBit_shiftRight, Nat.testBit_or, Nat.testBit_shiftLeft, this]
      · rw [Nat.testBit_or, show (3 : ℕ).testBit 1 = true from rfl, Bool.or_true]
    · intro i hi hb
      constructor
      · apply mem_parForPlan.2
        rw [Nat.shiftRight_eq_div_pow, Nat.div_lt_iff_lt_mul (by norm_num), ← pow_add]
        rwa [show e.n - 2 + 2 = e.n by omega]
      · have hcase : ∀ c : ℕ, c.testBit 0 = true → c.testBit 1 = i.testBit 1 → (∀ k, c.testBit (k + 2) = false) →
            i >>> 2 <<< 2 ||| c = i := by
          intro c h0 h1 h2
          apply Nat.eq_of_testBit_eq; intro k
          rw [Nat.testBit_or, Nat.testBit_shiftLeft, Nat.testBit_shiftRight]
          match k with
          | 0 => simp [h0, hb]
          | 1 => simp [h1]
          | k + 2 => simp [h2, show 2 + k = k + 2 by omega]
        by_cases hc : i.testBit 1 = true
        · rw [if_pos hc]
          exact hcase 3 (by decide) (by rw [hc]; decide) (fun k => Nat.testBit_lt_two_pow (by
            calc 3 < 2 ^ 2 := by norm_num
              _ ≤ 2 ^ (k + 2) := Nat.pow_le_pow_right (by norm_num) (by omega)))
        · rw [if_neg hc]
          exact hcase 1 (by decide) (by rw [Bool.not_eq_true] at hc; rw [hc]; decide)
            (fun k => Nat.testBit_lt_two_pow (Nat.one_lt_two_pow (by omega)))
  · have hq' : q ≠ 0 := by rintro rfl; exact hq0 rfl
    obtain ⟨q, rfl⟩ : ∃ r, q = r + 1 := ⟨q - 1, by omega⟩
    have hsh : 2 ^ e.n >>> 1 = 2 ^ (e.n - 1) := by
      rw [Nat.shiftRight_eq_div_pow, Nat.pow_div (by omega) (by norm_num)]
    have hsq : pow2 (q + 1) >>> 1 = 2 ^ q := by
      unfold pow2
      rw [Nat.shiftRight_eq_div_pow, Nat.pow_div (by omega) (by norm_num)]; rfl
    rw [if_neg hq0, reduce_eq hP, hsh, hsq]
    have hv := parForSkip_visits (w := 64) (n := e.n - 1) (s := q) (d := 1) (by omega) (by omega)
    have hmem : ∀ l, l ∈ parForSkipPlan 64 0 (2 ^ (e.n - 1)) (2 ^ q) 1 ↔ l < 2 ^ (e.n - 1) ∧ l.testBit q = false := by
      intro l
      rw [hv.2]
      constructor
      · rintro ⟨h1, h2⟩; exact ⟨h1, h2 q (by omega) (by omega)⟩
      · rintro ⟨h1, h2⟩; exact ⟨h1, fun k hk hk' => by rw [show k = q by omega]; exact h2⟩
    have hp : pow2 (q + 1) < 2 ^ e.n := Nat.pow_lt_pow_right (by norm_num) hq
    unfold probIf
    refine sum_visited_pair (p := fun i => i.testBit (q + 1) = true) (fun l => l <<< 1 ||| pow2 (q + 1))
      (fun l => l <<< 1 ||| pow2 (q + 1) ||| 1) (fun i => (i ^^^ pow2 (q + 1)) >>> 1) (fun i => i.testBit 0) hv.1
      ?_ ?_ ?_ (fun i => Complex.normSq (e.amp i))
    · intro l hl
      obtain ⟨h2, h3⟩ := (hmem l).1 hl
      refine ⟨Nat.or_lt_two_pow (hlow l 1 0 h2 (by omega)) hp, ?_, ?_, ?_⟩
      · simp [Nat.testBit_or, pow2, Nat.testBit_two_pow]
      · apply Nat.eq_of_testBit_eq; intro k
        rw [Nat.testBit_shiftRight, Nat.testBit_xor, Nat.testBit_or, Nat.testBit_shiftLeft, pow2, Nat.testBit_two_pow]
        by_cases hk : k = q
        · subst hk; simp [h3, add_comm]
        · simp [show ¬ (q + 1 = 1 + k) by omega]
      · simp [Nat.testBit_or, pow2, Nat.testBit_two_pow, Nat.testBit_shiftLeft]
    · intro l hl
      obtain ⟨h2, h3⟩ := (hmem l).1 hl
      refine ⟨Nat.or_lt_two_pow (Nat.or_lt_two_pow (hlow l 1 0 h2 (by omega)) hp)
        (Nat.one_lt_two_pow (by omega)), ?_, ?_, ?_⟩
      · simp [Nat.testBit_or, pow2, Nat.testBit_two_pow]
      · apply Nat.eq_of_testBit_eq; intro k
        have h1' : (1 : ℕ).testBit (1 + k) = false := Nat.testBit_lt_two_pow (Nat.one_lt_two_pow (by omega))
        rw [Nat.testBit_shiftRight, Nat.testBit_xor, Nat.testBit_or, Nat.testBit_or, Nat.testBit_shiftLeft, pow2,
          Nat.testBit_two_pow, h1']
        by_cases hk : k = q
        · subst hk; simp [h3, add_comm]
        · simp [show ¬ (q + 1 = 1 + k) by omega]
      · simp [Nat.testBit_or]
    · intro i hi hb
      have hx : (i ^^^ pow2 (q + 1)) < 2 ^ e.n := Nat.xor_lt_two_pow hi hp
      constructor
      · rw [hmem]
        constructor
        · rw [Nat.shiftRight_eq_div_pow, Nat.div_lt_iff_lt_mul (by norm_num), ← pow_add]
          rwa [show e.n - 1 + 1 = e.n by omega]
        · simp [Nat.testBit_shiftRight, Nat.testBit_xor, pow2, Nat.testBit_two_pow, add_comm 1 q, hb]
      · have hcase : ∀ c : ℕ, c.testBit 0 = i.testBit 0 → (∀ k, c.testBit (k + 1) = false) →
            (i ^^^ pow2 (q + 1)) >>> 1 <<< 1 ||| pow2 (q + 1) ||| c = i := by
          intro c h0 h2
          apply Nat.eq_of_testBit_eq; intro k
          rw [Nat.testBit_or, Nat.testBit_or, Nat.testBit_shiftLeft, Nat.testBit_shiftRight, Nat.testBit_xor, pow2,
            Nat.testBit_two_pow, Nat.testBit_two_pow]
          match k with
          | 0 => simp [h0]
          | k + 1 =>
            by_cases hk : k = q
            · subst hk; simp [hb]
            · simp [h2, show ¬ q = k by omega, show ¬ (q + 1 = 1 + k) by omega, add_comm 1 k]
        by_cases hc : i.testBit 0 = true
        · rw [if_pos hc]
          exact hcase 1 (by rw [hc]; decide) (fun k => Nat.testBit_lt_two_pow (Nat.one_lt_two_pow (by omega)))
        · rw [if_neg hc]
          have := hcase 0 (by rw [Bool.not_eq_true] at hc; rw [hc]; simp) (by simp)
          simpa using this

/-- **C20.** `Prob(q)` is the sum of the squared magnitudes of the amplitudes with bit `q` set (and the
engine is unchanged), for any number of workers. -/
theorem prob_spec {P : Par} (hP : P.Ok) {e : Eng} (hn : e.n ≤ 64) (he : e.Steady) {q : ℕ} (hq : q < e.n) :
    prob P e q = some (probIf e.n (fun i => i.testBit q = true) e.amp, e) := by
  unfold prob
  rw [if_neg (by omega), normIf_steady he]
  by_cases h1 : e.n = 1
  · have hq0 : q = 0 := by omega
    subst hq0
    simp only [h1, if_true]
    simp [probIf, h1, Finset.sum_range_succ]
  · simp only [h1, if_false]
    rw [prob_sum hP hn h1 hq, clamp_probIf he.1]

/-- The version without vector instructions gives the same number. -/
theorem probPlain_spec {P : Par} (hP : P.Ok) {e : Eng} (hn : e.n < 64) (he : e.Steady) {q : ℕ} (hq : q < e.n) :
    probPlain P e q = some (probIf e.n (fun i => i.testBit q = true) e.amp, e) := by
  unfold probPlain
  rw [if_neg (by omega), normIf_steady he]
  by_cases h1 : e.n = 1
  · have hq0 : q = 0 := by omega
    subst hq0
    simp only [h1, if_true]
    simp [probIf, h1, Finset.sum_range_succ]
  · simp only [h1, if_false]
    rw [← clamp_probIf he.1 (fun i => i.testBit q = true), reduce_eq hP]
    have hv := parForSkip_visits (w := 64) (n := e.n) (s := q) (d := 1) (by omega) hn
    have hmem : ∀ l, l ∈ parForSkipPlan 64 0 (2 ^ e.n) (2 ^ q) 1 ↔ l < 2 ^ e.n ∧ l.testBit q = false := by
      intro l
      rw [hv.2]
      constructor
      · rintro ⟨h1, h2⟩; exact ⟨h1, h2 q (by omega) (by omega)⟩
      · rintro ⟨h1, h2⟩; exact ⟨h1, fun k hk hk' => by rw [show k = q by omega]; exact h2⟩
    have hp : pow2 q < 2 ^ e.n := Nat.pow_lt_pow_right (by norm_num) hq
    congr 3
    unfold probIf
    refine sum_visited_map (p := fun i => i.testBit q = true) (fun l => l ||| pow2 q) (fun i => i ^^^ pow2 q) hv.1
      ?_ ?_ (fun i => Complex.normSq (e.amp i))
    · intro l hl
      obtain ⟨h2, h3⟩ := (hmem l).1 hl
      refine ⟨Nat.or_lt_two_pow h2 hp, by simp [Nat.testBit_or, pow2, Nat.testBit_two_pow], ?_⟩
      apply Nat.eq_of_testBit_eq; intro k
      rw [Nat.testBit_xor, Nat.testBit_or, pow2, Nat.testBit_two_pow]
      by_cases hk : q = k
      · subst hk; simp [h3]
      · simp [hk]
    · intro i hi hb
      refine ⟨(hmem _).2 ⟨Nat.xor_lt_two_pow hi hp, by simp [Nat.testBit_xor, pow2, Nat.testBit_two_pow, hb]⟩, ?_⟩
      apply Nat.eq_of_testBit_eq; intro k
      rw [Nat.testBit_or, Nat.testBit_xor, pow2, Nat.testBit_two_pow]
      by_cases hk : q = k
      · subst hk; simp [hb]
      · simp [hk]

/-! ### Projection -/

theorem nonunitaryPhase_norm (e : Eng) (u : ℝ) : Complex.normSq (nonunitaryPhase e u) = 1 := by
  unfold nonunitaryPhase
  cases e.rgp
  · simp
  · simp only [if_true, Complex.normSq_mk]
    have := Real.cos_sq_add_sin_sq (u * 2 * Real.pi)
    nlinarith [this]

theorem normFactor_normSq (e : Eng) (u : ℝ) {p : ℝ} (hp : 0 < p) : Complex.normSq (normFactor e u p) = 1 / p := by
  unfold normFactor
  rw [Complex.normSq_div, nonunitaryPhase_norm, Complex.normSq_ofReal, Real.mul_self_sqrt hp.le]

/-- A projection with the right factor collapses the state. -/
theorem applyM_collapsed {σ : List ℕ → List ℕ} (hσ : IsSched σ) (e : Eng) (m r : ℕ) (u : ℝ) {p : ℕ → Prop}
    (hp : ∀ i < 2 ^ e.n, (i &&& m = r ↔ p i)) (hpos : 0 < probIf e.n p e.amp) :
    Collapsed e.n p e.amp (applyM σ e m r (normFactor e u (probIf e.n p e.amp))).amp := by
  refine ⟨normFactor e u (probIf e.n p e.amp), ?_, ?_, ?_⟩
  · intro i hi hpi
    rw [applyM_amp hσ e _ _ _ hi, if_pos ((hp i hi).2 hpi)]
  · intro i hi hpi
    rw [applyM_amp hσ e _ _ _ hi, if_neg (fun h => hpi ((hp i hi).1 h))]
  · unfold totalProb
    have : ∀ i ∈ Finset.range (2 ^ e.n), Complex.normSq
        ((applyM σ e m r (normFactor e u (probIf e.n p e.amp))).amp i) =
        1 / probIf e.n p e.amp * (if p i then Complex.normSq (e.amp i) else 0) := by
      intro i hi
      have hi := Finset.mem_range.1 hi
      rw [applyM_amp hσ e _ _ _ hi]
      by_cases h : i &&& m = r
      · rw [if_pos h, if_pos ((hp i hi).1 h), Complex.normSq_mul, normFactor_normSq e u hpos]
      · rw [if_neg h, if_neg (fun h' => h ((hp i hi).2 h'))]; simp
    rw [Finset.sum_congr rfl this, ← Finset.mul_sum]
    exact one_div_mul_cancel hpos.ne'

/-- When the event is certain, the state is already collapsed. -/
theorem collapsed_of_certain {e : Eng} (he : totalProb e.n e.amp = 1) {p : ℕ → Prop} (hp : probIf e.n p e.amp = 1) :
    Collapsed e.n p e.amp e.amp := by
  refine ⟨1, fun i _ _ => (one_mul _).symm, fun i hi hpi => ?_, he⟩
  have h0 : probIf e.n (fun i => ¬ p i) e.amp = 0 := by
    have := probIf_add_not e.n p e.amp
    linarith
  exact probIf_eq_zero h0 hi hpi

theorem probIf_collapsed {n : ℕ} {p : ℕ → Prop} {s s' : ℕ → ℂ} (h : Collapsed n p s s') : probIf n p s' = 1 := by
  obtain ⟨k, _, h2, h3⟩ := h
  rw [← h3]
  unfold probIf totalProb
  apply Finset.sum_congr rfl
  intro i hi
  by_cases hp : p i
  · rw [if_pos hp]
  · rw [if_neg hp, h2 i (Finset.mem_range.1 hi) hp]; simp

theorem applyM_steady (σ : List ℕ → List ℕ) (e : Eng) (m r : ℕ) (k : ℂ) (h : totalProb e.n (applyM σ e m r k).amp = 1) :
    (applyM σ e m r k).Steady := ⟨h, fun _ => rfl⟩

theorem and_pow2_iff (i q : ℕ) (b : Bool) : i &&& pow2 q = (if b then pow2 q else 0) ↔ i.testBit q = b := by
  have ht : ∀ k, (i &&& pow2 q).testBit k = (i.testBit k && decide (q = k)) := by
    intro k; rw [Nat.testBit_and, pow2, Nat.testBit_two_pow]
  have hp : ∀ k, (pow2 q).testBit k = decide (q = k) := by intro k; rw [pow2, Nat.testBit_two_pow]
  constructor
  · intro h
    have h1 := ht q
    rw [h] at h1
    cases b
    · simpa using h1.symm
    · simp only [if_true, hp] at h1; simpa using h1.symm
  · intro h
    apply Nat.eq_of_testBit_eq
    intro k
    rw [ht k]
    cases b
    · simp only [Bool.false_eq_true, if_false, Nat.zero_testBit]
      by_cases hk : q = k
      · subst hk; simp [h]
      · simp [hk]
    · simp only [if_true, hp]
      by_cases hk : q = k
      · subst hk; simp [h]
      · simp [hk]

/-- The probability that qubit `q` is found in state `b`. -/
noncomputable def qProb (e : Eng) (q : ℕ) (b : Bool) : ℝ := probIf e.n (fun i => i.testBit q = b) e.amp

theorem qProb_false {e : Eng} (he : e.Steady) (q : ℕ) : 1 - qProb e q true = qProb e q false := by
  have := probIf_add_not e.n (fun i => i.testBit q = true) e.amp
  rw [he.1] at this
  unfold qProb
  rw [probIf_congr (p := fun i => i.testBit q = false) (q := fun i => ¬ i.testBit q = true) (s' := e.amp)
    (fun i _ => by simp) (fun _ _ => rfl)]
  linarith

/-- The outcome chosen by `ForceM`. -/
noncomputable def outcome (e : Eng) (q : ℕ) (result doForce : Bool) (r : ℝ) : Bool :=
  if doForce then result
  else if 1 ≤ qProb e q true then true
  else if qProb e q true ≤ 0 then false
  else decide (r ≤ qProb e q true)

theorem forceM_eq {P : Par} (hP : P.Ok) {e : Eng} (hn : e.n ≤ 64) (he : e.Steady) {q : ℕ} (hq : q < e.n)
    (result doForce doApply : Bool) (r u : ℝ) :
    forceM P e q result doForce doApply r u =
      (if qProb e q (outcome e q result doForce r) ≤ 0 then none
       else some (outcome e q result doForce r,
        if doApply ∧ 1 - qProb e q (outcome e q result doForce r) > 0
        then applyM P.σ e (pow2 q) (if outcome e q result doForce r then pow2 q else 0)
          (normFactor e u (qProb e q (outcome e q result doForce r))) else e)) := by
  unfold forceM
  rw [prob_spec hP hn he hq]
  simp only [Option.bind_some]
  have ho : (if doForce = true then result
      else if probIf e.n (fun i => i.testBit q = true) e.amp ≥ 1 then true
      else if probIf e.n (fun i => i.testBit q = true) e.amp ≤ 0 then false
      else decide (r ≤ probIf e.n (fun i => i.testBit q = true) e.amp)) = outcome e q result doForce r := rfl
  rw [ho]
  have hz : (if outcome e q result doForce r = true then probIf e.n (fun i => i.testBit q = true) e.amp
      else 1 - probIf e.n (fun i => i.testBit q = true) e.amp) = qProb e q (outcome e q result doForce r) := by
    cases outcome e q result doForce r
    · simp only [Bool.false_eq_true, if_false]; exact qProb_false he q
    · rfl
  rw [hz]

/-- **C20.** Measuring qubit `q`, forced or with any draw: the result has positive probability (a forced
result of probability zero is refused), and the new state is the old one projected on that result and
rescaled to total probability one. -/
theorem forceM_projects {P : Par} (hP : P.Ok) {e : Eng} (hn : e.n ≤ 64) (he : e.Steady) {q : ℕ} (hq : q < e.n)
    (result doForce : Bool) (r u : ℝ) :
    (doForce = true ∧ qProb e q result = 0 ∧ forceM P e q result doForce true r u = none) ∨
    ∃ b e', forceM P e q result doForce true r u = some (b, e') ∧ (doForce = true → b = result) ∧ 0 < qProb e q b ∧
      e'.n = e.n ∧ e'.Steady ∧ Collapsed e.n (fun i => i.testBit q = b) e.amp e'.amp := by
  rw [forceM_eq hP hn he hq]
  set b := outcome e q result doForce r with hb
  have hnn : 0 ≤ qProb e q b := probIf_nonneg _ _ _
  by_cases h0 : qProb e q b ≤ 0
  · left
    have hz : qProb e q b = 0 := le_antisymm h0 hnn
    have hf : doForce = true := by
      by_contra hc
      rw [Bool.not_eq_true] at hc
      subst hc
      unfold outcome at hb
      simp only [Bool.false_eq_true, if_false] at hb
      have h1 := qProb_false he q
      by_cases c1 : 1 ≤ qProb e q true
      · rw [if_pos c1] at hb; rw [hb] at hz; linarith
      · rw [if_neg c1] at hb
        by_cases c2 : qProb e q true ≤ 0
        · rw [if_pos c2] at hb; rw [hb] at hz; linarith
        · rw [if_neg c2] at hb
          cases hbb : b
          · rw [hbb] at hz; linarith
          · rw [hbb] at hz; linarith
    refine ⟨hf, ?_, if_pos h0⟩
    subst hf
    rw [hb] at hz
    simpa [outcome] using hz
  · right
    rw [if_neg h0]
    have hpos : 0 < qProb e q b := not_le.1 h0
    have hforce : doForce = true → b = result := by intro h; subst h; rw [hb]; simp [outcome]
    by_cases h1 : 1 - qProb e q b > 0
    · have hc := applyM_collapsed hP.1 e (pow2 q) (if b then pow2 q else 0) u (p := fun i => i.testBit q = b)
        (fun i _ => and_pow2_iff i q b) hpos
      refine ⟨b, _, rfl, hforce, hpos, ?_⟩
      rw [if_pos ⟨rfl, h1⟩]
      exact ⟨rfl, applyM_steady _ _ _ _ _ (by obtain ⟨k, _, _, h3⟩ := hc; exact h3), hc⟩
    · have hone : qProb e q b = 1 := by
        have : qProb e q b ≤ totalProb e.n e.amp := probIf_le _ _ _
        rw [he.1] at this
        linarith
      refine ⟨b, e, ?_, hforce, hpos, rfl, he, collapsed_of_certain he.1 hone⟩
      rw [if_neg (fun h => h1 h.2)]

/-- **C20.** After a measurement with result `b`, the same qubit is `b` with certainty: every further
measurement, with any draw, gives `b` again and changes nothing. -/
theorem forceM_repeats {P P' : Par} (hP : P.Ok) (hP' : P'.Ok) {e e' : Eng} (hn : e.n ≤ 64) (he : e.Steady) {q : ℕ}
    (hq : q < e.n) {result doForce b : Bool} {r u : ℝ} (hm : forceM P e q result doForce true r u = some (b, e'))
    (result' doApply' : Bool) (r' u' : ℝ) :
    prob P' e' q = some (if b then 1 else 0, e') ∧
    forceM P' e' q result' false doApply' r' u' = some (b, e') := by
  have : e'.n = e.n ∧ e'.Steady ∧ Collapsed e.n (fun i => i.testBit q = b) e.amp e'.amp := by
    rcases forceM_projects hP hn he hq result doForce r u with ⟨_, _, h⟩ | ⟨b', e'', h, _, _, h1, h2, h3⟩
    · rw [hm] at h; cases h
    · rw [hm] at h; cases h; exact ⟨h1, h2, h3⟩
  obtain ⟨h1, h2, h3⟩ := this
  have hone : qProb e' q b = 1 := by
    unfold qProb; rw [h1]; exact probIf_collapsed h3
  have hother : qProb e' q (!b) = 0 := by
    have := qProb_false h2 q
    cases b
    · simp only [Bool.not_false]; linarith
    · simp only [Bool.not_true]; linarith
  have htrue : qProb e' q true = if b then 1 else 0 := by
    cases b
    · simpa using hother
    · simpa using hone
  refine ⟨?_, ?_⟩
  · rw [prob_spec hP' (h1 ▸ hn) h2 (h1 ▸ hq)]
    rw [← htrue]; rfl
  · have ho : outcome e' q result' false r' = b := by
      unfold outcome
      rw [htrue]
      cases b <;> simp
    rw [forceM_eq hP' (h1 ▸ hn) h2 (h1 ▸ hq), ho, hone, if_neg (by norm_num), if_neg (by norm_num)]

open MeasureTheory in
/-- **C20.** Born's rule: with a draw uniform on `[0, 1)` the result is `b` with the probability of the
amplitudes whose bit is `b`. -/
theorem forceM_born {P : Par} (hP : P.Ok) {e : Eng} (hn : e.n ≤ 64) (he : e.Steady) {q : ℕ} (hq : q < e.n)
    (result doApply b : Bool) (u : ℝ) :
    volume {r : ℝ | 0 ≤ r ∧ r < 1 ∧ ∃ e', forceM P e q result false doApply r u = some (b, e')} =
      ENNReal.ofReal (qProb e q b) := by
  have hset : ∀ r, (∃ e', forceM P e q result false doApply r u = some (b, e')) ↔ outcome e q result false r = b := by
    intro r
    rw [forceM_eq hP hn he hq]
    constructor
    · rintro ⟨e', h⟩
      by_cases h0 : qProb e q (outcome e q result false r) ≤ 0
      · rw [if_pos h0] at h; cases h
      · rw [if_neg h0] at h
        exact (Prod.mk.inj (Option.some.inj h)).1
    · intro h
      rcases forceM_projects hP hn he hq result false r u with ⟨hc, _⟩ | ⟨b', e', h', _, hpos, _⟩
      · cases hc
      · rw [forceM_eq hP hn he hq] at h'
        by_cases h0 : qProb e q (outcome e q result false r) ≤ 0
        · rw [if_pos h0] at h'; cases h'
        · rw [if_neg h0, h]
          exact ⟨_, rfl⟩
  simp only [hset]
  have h01 : 0 ≤ qProb e q true := probIf_nonneg _ _ _
  have hle : qProb e q true ≤ 1 := by rw [← he.1]; exact probIf_le _ _ _
  have hf := qProb_false he q
  by_cases c1 : 1 ≤ qProb e q true
  · have hone : qProb e q true = 1 := le_antisymm hle c1
    have ho : ∀ r, outcome e q result false r = true := by intro r; unfold outcome; simp [c1]
    cases b
    · have : {r : ℝ | 0 ≤ r ∧ r < 1 ∧ outcome e q result false r = false} = ∅ := by
        ext r; simp [ho]
      rw [this, measure_empty, ← hf, hone]; simp
    · have : {r : ℝ | 0 ≤ r ∧ r < 1 ∧ outcome e q result false r = true} = Set.Ico 0 1 := by
        ext r; simp [ho]
      rw [this, Real.volume_Ico, hone]; simp
  · by_cases c2 : qProb e q true ≤ 0
    · have hzero : qProb e q true = 0 := le_antisymm c2 h01
      have ho : ∀ r, outcome e q result false r = false := by intro r; unfold outcome; simp [c1, c2]
      cases b
      · have : {r : ℝ | 0 ≤ r ∧ r < 1 ∧ outcome e q result false r = false} = Set.Ico 0 1 := by
          ext r; simp [ho]
        rw [this, Real.volume_Ico, ← hf, hzero]
      · have : {r : ℝ | 0 ≤ r ∧ r < 1 ∧ outcome e q result false r = true} = ∅ := by
          ext r; simp [ho]
        rw [this, measure_empty, hzero]; simp
    · have ho : ∀ r, outcome e q result false r = decide (r ≤ qProb e q true) := by
        intro r; unfold outcome; simp [c1, c2]
      cases b
      · have : {r : ℝ | 0 ≤ r ∧ r < 1 ∧ outcome e q result false r = false} = Set.Ioo (qProb e q true) 1 := by
          ext r
          simp only [ho, decide_eq_false_iff_not, not_le, Set.mem_setOf_eq, Set.mem_Ioo]
          constructor
          · rintro ⟨_, h2, h3⟩; exact ⟨h3, h2⟩
          · rintro ⟨h1, h2⟩; exact ⟨by linarith, h2, h1⟩
        rw [this, Real.volume_Ioo, hf]
      · have : {r : ℝ | 0 ≤ r ∧ r < 1 ∧ outcome e q result false r = true} = Set.Icc 0 (qProb e q true) := by
          ext r
          simp only [ho, decide_eq_true_eq, Set.mem_setOf_eq, Set.mem_Icc]
          constructor
          · rintro ⟨h1, _, h3⟩; exact ⟨h1, h3⟩
          · rintro ⟨h1, h2⟩; exact ⟨h1, by linarith, h2⟩
        rw [this, Real.volume_Icc, sub_zero]

/-- `doApply = false` leaves the state alone. -/
theorem forceM_look {P : Par} (hP : P.Ok) {e : Eng} (hn : e.n ≤ 64) (he : e.Steady) {q : ℕ} (hq : q < e.n)
    {result doForce b : Bool} {r u : ℝ} {e' : Eng} (h : forceM P e q result doForce false r u = some (b, e')) : e' = e := by
  rw [forceM_eq hP hn he hq] at h
  by_cases h0 : qProb e q (outcome e q result doForce r) ≤ 0
  · rw [if_pos h0] at h; cases h
  · rw [if_neg h0, if_neg (by simp)] at h
    exact (Prod.mk.inj (Option.some.inj h)).2.symm

/-- A qubit outside of the register is refused. -/
theorem forceM_bounds (P : Par) (e : Eng) {q : ℕ} (hq : e.n ≤ q) (result doForce doApply : Bool) (r u : ℝ) :
    forceM P e q result doForce doApply r u = none := by
  unfold forceM prob
  rw [if_pos hq]; rfl

/-- Three qubits, four workers' buffers, amplitudes 3/5 and 4i/5 on `|001⟩` and `|110⟩`. -/
example : Par.Ok ⟨List.reverse, 4, fun l => l % 4⟩ ∧
    Eng.Steady ⟨3, fun i => if i = 1 then 3 / 5 else if i = 6 then 4 / 5 * Complex.I else 0, 1, true, true, 0⟩ := by
  refine ⟨⟨fun l => List.reverse_perm l, fun l => Nat.mod_lt _ (by norm_num)⟩, ?_, fun _ => rfl⟩
  unfold totalProb
  simp only [show (2 : ℕ) ^ 3 = 8 by norm_num, Finset.sum_range_succ, Finset.sum_range_zero]
  norm_num [Complex.normSq_mul, Complex.normSq_div, Complex.normSq_ofNat]

end Verif.Engine
