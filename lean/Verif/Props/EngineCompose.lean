import Verif.Lemmas.EngineCompose

/-!
# C24: Compose is the tensor product, and what Decompose and Dispose do
-/

namespace Verif.Engine

open Verif.ParFor Verif.Spec Verif.Bits Classical

/-- C24. `Compose(toCopy)` is the tensor product, with the qubits of the other register above; the other register is
unchanged, and the returned position is the first new qubit. -/
theorem compose_tensor {maxQb : ℕ} {σ : List ℕ → List ℕ} (hσ : IsSched σ) (fresh : ℕ → ℂ) {a b : Eng} (ha : a.n ≠ 0)
    (hb : b.n ≠ 0) (hm : a.n + b.n ≤ maxQb) (hra : a.doNorm = true → a.rn = 1) (hrb : b.doNorm = true → b.rn = 1) :
    ∃ r, compose maxQb σ fresh a b = some (r, b, a.n) ∧ r.n = a.n + b.n ∧
      SameOn r.n r.amp (tensorAt a.n b.n a.amp b.amp) := by
  unfold compose
  rw [if_neg hb, if_neg (by omega), if_neg ha]
  simp only []
  rw [normIf_ready hra, if_neg (by rintro ⟨h1, h2⟩; exact h2 (hrb h1))]
  refine ⟨_, rfl, rfl, ?_⟩
  intro i hi
  have hi : i < 2 ^ (a.n + b.n) := hi
  show fill σ _ _ _ i = _
  rw [fill_at hσ _ _ hi, and_low, read_part]
  unfold tensorAt
  rw [rest_top hi]

/-- C24. Composing into an empty register copies the other one, and composing an empty register changes nothing. -/
theorem compose_empty {maxQb : ℕ} {σ : List ℕ → List ℕ} (fresh : ℕ → ℂ) {a b : Eng} :
    (b.n = 0 → compose maxQb σ fresh a b = some (a, b, a.n)) ∧
    (a.n = 0 → b.n ≠ 0 → b.n ≤ maxQb →
      compose maxQb σ fresh a b = some ({ a with n := b.n, rn := b.rn, amp := b.amp }, b, 0)) := by
  constructor
  · intro h; unfold compose; rw [if_pos h]
  · intro h h' hm; unfold compose; rw [if_neg h', if_neg (by omega), if_pos h]

/-- C24. `Compose(toCopy, start)` is the tensor product with the qubits of the other register at `[start, start + |B|)`. -/
theorem composeAt_tensor {maxQb : ℕ} {σ : List ℕ → List ℕ} (hσ : IsSched σ) (fresh : ℕ → ℂ) {a b : Eng} {start : ℕ}
    (ha : a.n ≠ 0) (hb : b.n ≠ 0) (hs : start ≤ a.n) (hm : a.n + b.n ≤ maxQb) (h64 : a.n + b.n ≤ 64)
    (hra : a.doNorm = true → a.rn = 1) (hrb : b.doNorm = true → b.rn = 1) :
    ∃ r, composeAt maxQb σ fresh a b start = some (r, b, start) ∧ r.n = a.n + b.n ∧
      SameOn r.n r.amp (tensorAt start b.n a.amp b.amp) := by
  unfold composeAt
  rw [if_neg (by omega), if_neg ha, if_neg hb, if_neg (by omega)]
  simp only []
  rw [normIf_ready hra, normIf_ready hrb]
  refine ⟨_, rfl, rfl, ?_⟩
  intro i hi
  have hi : i < 2 ^ (a.n + b.n) := hi
  show fill σ _ _ _ i = _
  rw [fill_at hσ _ _ hi, read_rest hs h64 hi, read_part]
  rfl

/-- C24. A position beyond the register is rejected. -/
theorem composeAt_invalid {maxQb : ℕ} {σ : List ℕ → List ℕ} (fresh : ℕ → ℂ) {a b : Eng} {start : ℕ} (h : a.n < start) :
    composeAt maxQb σ fresh a b start = none := by
  unfold composeAt; rw [if_pos h]

/-- C24. Composing normalised states gives a normalised state. -/
theorem composeAt_normalised {maxQb : ℕ} {σ : List ℕ → List ℕ} (hσ : IsSched σ) (fresh : ℕ → ℂ) {a b : Eng} {start : ℕ}
    (ha : a.n ≠ 0) (hb : b.n ≠ 0) (hs : start ≤ a.n) (hm : a.n + b.n ≤ maxQb) (h64 : a.n + b.n ≤ 64)
    (hra : a.Steady) (hrb : b.Steady) :
    ∃ r, composeAt maxQb σ fresh a b start = some (r, b, start) ∧ totalProb r.n r.amp = 1 := by
  obtain ⟨r, h1, h2, h3⟩ := composeAt_tensor hσ fresh ha hb hs hm h64 hra.2 hrb.2
  refine ⟨r, h1, ?_⟩
  have : totalProb r.n r.amp = totalProb r.n (tensorAt start b.n a.amp b.amp) := by
    unfold totalProb
    exact Finset.sum_congr rfl fun i hi => by rw [h3 i (Finset.mem_range.1 hi)]
  rw [this, h2, totalProb_tensorAt hs, hra.1, hrb.1, one_mul]

theorem composePlan_fold {σ : List ℕ → List ℕ} : ∀ (bs : List Eng) (n : ℕ) (A : ℕ → ℂ) (i : ℕ),
    (∀ b ∈ bs, b.doNorm = true → b.rn = 1) → i < 2 ^ (n + (bs.map Eng.n).sum) → ∀ z, z = A (i % 2 ^ n) →
    (composePlan σ n bs).foldl (fun z p => z * p.2.2 ((i &&& p.2.1) >>> p.1)) z =
      tensorAll n A (bs.map fun b => (b.n, b.amp)) i := by
  intro bs
  induction bs with
  | nil =>
    intro n A i _ hi z hz
    have hi : i < 2 ^ n := by simpa using hi
    rw [hz, Nat.mod_eq_of_lt hi]; rfl
  | cons b bs ih =>
    intro n A i hr hi z hz
    show (composePlan σ (n + b.n) bs).foldl _ (z * (normIf σ b).amp ((i &&& ((2 ^ b.n - 1) <<< n)) >>> n)) = _
    rw [normIf_ready (hr b (by simp)), read_part]
    refine ih (n + b.n) (tensorAt n b.n A b.amp) i (fun b' hb' => hr b' (by simp [hb'])) ?_ _ ?_
    · rw [List.map_cons, List.sum_cons] at hi; rw [Nat.add_assoc]; exact hi
    · have hlt : i % 2 ^ (n + b.n) < 2 ^ (n + b.n) := Nat.mod_lt _ (by positivity)
      unfold tensorAt
      rw [rest_top hlt, hz]
      congr 2
      · rw [Nat.mod_mod_of_dvd _ (pow_dvd_pow 2 (by omega))]
      · apply Nat.eq_of_testBit_eq
        intro k
        rw [testBit_field, testBit_field, Nat.testBit_mod_two_pow]
        by_cases h : k < b.n <;> simp [h]

/-- The positions at which the listed registers are put. -/
def offsets (n : ℕ) : List ℕ → List ℕ
  | [] => []
  | l :: ls => n :: offsets (n + l) ls

/-- C24. `Compose(vector)` is the tensor product of all of the registers, in the order of the list, and reports where each
begins. -/
theorem composeMany_tensor {σ : List ℕ → List ℕ} (hσ : IsSched σ) (fresh : ℕ → ℂ) {a : Eng} {bs : List Eng}
    (hra : a.doNorm = true → a.rn = 1) (hrb : ∀ b ∈ bs, b.doNorm = true → b.rn = 1) :
    (composeMany σ fresh a bs).1.n = a.n + (bs.map Eng.n).sum ∧
    SameOn (a.n + (bs.map Eng.n).sum) (composeMany σ fresh a bs).1.amp
      (tensorAll a.n a.amp (bs.map fun b => (b.n, b.amp))) ∧
    (composeMany σ fresh a bs).2 = offsets a.n (bs.map Eng.n) := by
  refine ⟨rfl, ?_, ?_⟩
  · intro i hi
    unfold composeMany
    simp only []
    rw [normIf_ready hra, fill_at hσ _ _ hi]
    exact composePlan_fold bs a.n a.amp i hrb hi _ (by rw [and_low])
  · unfold composeMany
    simp only []
    generalize a.n = n
    induction bs generalizing n with
    | nil => rfl
    | cons b bs ih =>
      show n :: (composePlan σ (n + b.n) bs).map _ = n :: offsets (n + b.n) (bs.map Eng.n)
      rw [ih (fun b' hb' => hrb b' (by simp [hb']))]

/-- C24. `Dispose` of a range in a known permutation keeps the amplitudes of that permutation. `_partial`: at least one
qubit must remain, see `disposePerm_all_wrong`. -/
theorem disposePerm_keeps_partial {σ : List ℕ → List ℕ} (hσ : IsSched σ) (fresh : ℕ → ℂ) {e : Eng} {start length perm : ℕ}
    (hs : start + length ≤ e.n) (hl : length < e.n) (hp : perm < 2 ^ length) (hr : e.doNorm = true → e.rn = 1) :
    ∃ r, disposePerm σ fresh e start length perm = some r ∧ r.n = e.n - length ∧
      ∀ i < 2 ^ (e.n - length), r.amp i = e.amp (insertAt start length perm i) := by
  unfold disposePerm
  rw [if_neg (by omega)]
  by_cases h0 : length = 0
  · rw [if_pos h0]
    subst h0
    refine ⟨e, rfl, rfl, ?_⟩
    intro i _
    have : perm = 0 := by simpa using hp
    subst this
    congr 1
    have := insertAt_field_rest start 0 i
    unfold field rest at this
    simp only [Nat.add_zero, pow_zero, Nat.mod_one] at this
    rw [Nat.mod_add_div] at this
    exact this.symm
  · rw [if_neg h0]
    simp only []
    rw [normIf_ready hr, if_neg (by omega)]
    refine ⟨_, rfl, rfl, ?_⟩
    intro i hi
    show fill σ _ _ _ i = _
    rw [fill_at hσ _ _ hi]
    show e.amp (remIdx start length i ||| (perm <<< start)) = _
    rw [remIdx_or hp]

/-- Beyond C24. Disposing every qubit leaves a register of one qubit over an array of one cell: its second amplitude is
whatever lies behind the array. -/
theorem disposePerm_all_wrong {σ : List ℕ → List ℕ} (hσ : IsSched σ) (fresh : ℕ → ℂ) {e : Eng} (hn : e.n ≠ 0) (perm : ℕ) :
    ∃ r, disposePerm σ fresh e 0 e.n perm = some r ∧ r.n = 1 ∧ r.amp 1 = fresh 1 := by
  unfold disposePerm
  rw [if_neg (by omega), if_neg hn]
  simp only []
  refine ⟨_, rfl, by simp, ?_⟩
  show fill σ _ _ _ 1 = _
  unfold fill
  refine BlockFold.scatter_off _ _ _ _ _ ?_
  intro x hx
  rw [(hσ _).mem_iff, mem_parForPlan] at hx
  simp at hx
  omega

/-! ### Decompose -/

theorem decompose_formula {σ : List ℕ → List ℕ} (hσ : IsSched σ) (fresh : ℕ → ℂ) {e : Eng} {start length : ℕ}
    (hs : start + length ≤ e.n) (h0 : length ≠ 0) (hl : length < e.n) (hr : e.doNorm = true → e.rn = 1) :
    ∃ r d, decomposeDispose σ fresh e start length = some (r, d) ∧ r.n = e.n - length ∧
      (∀ i < 2 ^ (e.n - length), r.amp i =
        polar (∑ k ∈ Finset.range (2 ^ length), Complex.normSq (e.amp (insertAt start length k i)))
          (meanAngle e.floor (∑ k ∈ Finset.range (2 ^ length), Complex.normSq (e.amp (insertAt start length k i)))
            (∑ k ∈ Finset.range (2 ^ length), argTerm e.floor (e.amp (insertAt start length k i))))) ∧
      (∀ k < 2 ^ length, d k =
        polar (∑ i ∈ Finset.range (2 ^ (e.n - length)), Complex.normSq (e.amp (insertAt start length k i)))
          (meanAngle e.floor (∑ i ∈ Finset.range (2 ^ (e.n - length)), Complex.normSq (e.amp (insertAt start length k i)))
            (∑ i ∈ Finset.range (2 ^ (e.n - length)), argTerm e.floor (e.amp (insertAt start length k i))))) := by
  unfold decomposeDispose
  rw [if_neg (by omega), if_neg h0, if_neg (by omega)]
  simp only []
  rw [normIf_ready hr]
  refine ⟨_, _, rfl, rfl, ?_, ?_⟩
  · intro i hi
    show fill σ _ _ _ i = _
    rw [fill_at hσ _ _ hi]
    have e1 := accumulate_own hσ (e.n - length) (2 ^ length)
      (fun lcv k => Complex.normSq (e.amp (remIdx start length lcv ||| (k <<< start)))) hi
    have e2 := accumulate_all hσ length (2 ^ (e.n - length))
      (fun lcv k => argTerm e.floor (e.amp (partIdx start length lcv k))) hi
    rw [e1, e2]
    have f1 : ∑ k ∈ Finset.range (2 ^ length), Complex.normSq (e.amp (remIdx start length i ||| (k <<< start))) =
        ∑ k ∈ Finset.range (2 ^ length), Complex.normSq (e.amp (insertAt start length k i)) :=
      Finset.sum_congr rfl fun k hk => by rw [remIdx_or (Finset.mem_range.1 hk)]
    have f2 : ∑ k ∈ Finset.range (2 ^ length), argTerm e.floor (e.amp (partIdx start length k i)) =
        ∑ k ∈ Finset.range (2 ^ length), argTerm e.floor (e.amp (insertAt start length k i)) :=
      Finset.sum_congr rfl fun k hk => by rw [partIdx_eq (Finset.mem_range.1 hk)]
    rw [f1, f2]
  · intro k hk
    rw [fill_at hσ _ _ hk]
    have e1 := accumulate_own hσ length (2 ^ (e.n - length))
      (fun lcv k => Complex.normSq (e.amp (partIdx start length lcv k))) hk
    have e2 := accumulate_all hσ (e.n - length) (2 ^ length)
      (fun lcv k => argTerm e.floor (e.amp (remIdx start length lcv ||| (k <<< start)))) hk
    rw [e1, e2]
    simp only [partIdx_eq hk, remIdx_or hk]

theorem normSq_polar {p : ℝ} (hp : 0 ≤ p) (t : ℝ) : Complex.normSq (polar p t) = p := by
  unfold polar
  rw [Complex.normSq_mul, Complex.normSq_ofReal, Complex.normSq_eq_norm_sq, Complex.norm_exp_ofReal_mul_I,
    Real.mul_self_sqrt hp]
  norm_num

/-- Beyond C24. `Decompose` of any state, entangled or not, gives both parts the right probabilities. -/
theorem decompose_marginals {σ : List ℕ → List ℕ} (hσ : IsSched σ) (fresh : ℕ → ℂ) {e : Eng} {start : ℕ} {dest : Eng}
    (hs : start + dest.n ≤ e.n) (h0 : dest.n ≠ 0) (hl : dest.n < e.n) (hr : e.doNorm = true → e.rn = 1) :
    ∃ r d, decompose σ fresh e start dest = some (r, d) ∧ r.n = e.n - dest.n ∧ d.n = dest.n ∧
      (∀ i < 2 ^ r.n, Complex.normSq (r.amp i) = probIf e.n (fun j => rest start dest.n j = i) e.amp) ∧
      (∀ k < 2 ^ d.n, Complex.normSq (d.amp k) = probIf e.n (fun j => field start dest.n j = k) e.amp) := by
  obtain ⟨r, d, h1, h2, h3, h4⟩ := decompose_formula hσ fresh hs h0 hl hr
  refine ⟨r, { dest with amp := d }, ?_, h2, rfl, ?_, ?_⟩
  · unfold decompose; rw [h1]; simp [h0]
  · intro i hi
    rw [h2] at hi
    rw [h3 i hi, normSq_polar (Finset.sum_nonneg fun _ _ => Complex.normSq_nonneg _)]
    unfold probIf
    rw [sum_insertAt hs, Finset.sum_comm]
    apply Finset.sum_congr rfl
    intro k hk
    have hk := Finset.mem_range.1 hk
    simp only [rest_insertAt hk]
    rw [Finset.sum_ite_eq' (Finset.range (2 ^ (e.n - dest.n))) i, if_pos (Finset.mem_range.2 hi)]
  · intro k hk
    show Complex.normSq (d k) = _
    rw [h4 k hk, normSq_polar (Finset.sum_nonneg fun _ _ => Complex.normSq_nonneg _)]
    unfold probIf
    rw [sum_insertAt hs]
    apply Finset.sum_congr rfl
    intro i _
    rw [Finset.sum_eq_single k]
    · rw [if_pos (field_insertAt hk _)]
    · intro k' hk' hne
      rw [if_neg]
      show ¬ field start dest.n (insertAt start dest.n k' i) = k
      rw [field_insertAt (Finset.mem_range.1 hk')]; exact hne
    · intro h; exact absurd (Finset.mem_range.2 hk) h

/-- No sum of the phases of one amplitude of `A` and one of `B` leaves `(-π, π]`. -/
def NoWrap (nA nB : ℕ) (A B : ℕ → ℂ) : Prop :=
  ∀ i < 2 ^ nA, ∀ k < 2 ^ nB, A i ≠ 0 → B k ≠ 0 → Complex.arg (A i * B k) = Complex.arg (A i) + Complex.arg (B k)

/-- No amplitude is so small that it is ignored. -/
def NoneIgnored (e : Eng) : Prop := 0 ≤ e.floor ∧ ∀ i < 2 ^ e.n, e.amp i ≠ 0 → e.floor < Complex.normSq (e.amp i)

/-- The average of the phases of a state. -/
noncomputable def meanPhase (n : ℕ) (A : ℕ → ℂ) : ℝ :=
  ∑ i ∈ Finset.range (2 ^ n), Complex.arg (A i) * Complex.normSq (A i)

theorem polar_factor {N : ℕ} {floor x : ℝ} {z : ℂ} {f : ℕ → ℂ} {B : ℕ → ℂ} (hf : ∀ k < N, f k = z * B k)
    (hB : ∑ k ∈ Finset.range N, Complex.normSq (B k) = 1)
    (hx : ∑ k ∈ Finset.range N, Complex.arg (B k) * Complex.normSq (B k) = x)
    (hfl : 0 ≤ floor) (hign : ∀ k < N, f k ≠ 0 → floor < Complex.normSq (f k))
    (hw : ∀ k < N, z ≠ 0 → B k ≠ 0 → Complex.arg (z * B k) = Complex.arg z + Complex.arg (B k)) :
    polar (∑ k ∈ Finset.range N, Complex.normSq (f k))
      (meanAngle floor (∑ k ∈ Finset.range N, Complex.normSq (f k)) (∑ k ∈ Finset.range N, argTerm floor (f k))) =
    Complex.exp (x * Complex.I) * z := by
  have hP : ∑ k ∈ Finset.range N, Complex.normSq (f k) = Complex.normSq z := by
    rw [← mul_one (Complex.normSq z), ← hB, Finset.mul_sum]
    exact Finset.sum_congr rfl fun k hk => by rw [hf k (Finset.mem_range.1 hk), Complex.normSq_mul]
  rw [hP]
  by_cases hz : z = 0
  · subst hz
    unfold polar
    simp
  · have hzn : 0 < Complex.normSq z := Complex.normSq_pos.2 hz
    have hA : ∑ k ∈ Finset.range N, argTerm floor (f k) = Complex.normSq z * (Complex.arg z + x) := by
      have : ∀ k ∈ Finset.range N, argTerm floor (f k) = Complex.normSq z * Complex.arg z * Complex.normSq (B k) +
          Complex.normSq z * (Complex.arg (B k) * Complex.normSq (B k)) := by
        intro k hk
        have hk := Finset.mem_range.1 hk
        unfold argTerm
        by_cases hb : B k = 0
        · rw [hf k hk, hb]; simp
        · rw [if_pos (hign k hk (by rw [hf k hk]; exact mul_ne_zero hz hb)), hf k hk, hw k hk hz hb, Complex.normSq_mul]
          ring
      rw [Finset.sum_congr rfl this, Finset.sum_add_distrib, ← Finset.mul_sum, ← Finset.mul_sum, hB, hx]
      ring
    have hex : ∃ k, k < N ∧ B k ≠ 0 := by
      by_contra hcon
      push Not at hcon
      rw [Finset.sum_eq_zero (fun k hk => by rw [hcon k (Finset.mem_range.1 hk)]; simp)] at hB
      norm_num at hB
    obtain ⟨k, hk, hbk⟩ := hex
    have hlt : floor < Complex.normSq z := by
      refine lt_of_lt_of_le (hign k hk (by rw [hf k hk]; exact mul_ne_zero hz hbk)) ?_
      rw [← hP]
      exact Finset.single_le_sum (f := fun k => Complex.normSq (f k)) (fun _ _ => Complex.normSq_nonneg _) (Finset.mem_range.2 hk)
    unfold meanAngle
    rw [if_pos hlt, hA, mul_div_cancel_left₀ _ hzn.ne']
    unfold polar
    rw [Complex.normSq_eq_norm_sq, Real.sqrt_sq (norm_nonneg _)]
    push_cast
    rw [add_mul, Complex.exp_add]
    conv_rhs => rw [← Complex.norm_mul_exp_arg_mul_I z]
    ring

/-- C24. `Decompose` of a product state returns the factors, each up to a global phase. `_partial`: only when no sum of
phases leaves `(-π, π]`, since the code averages phases, see `decompose_wrong`. -/
theorem decompose_partial {σ : List ℕ → List ℕ} (hσ : IsSched σ) (fresh : ℕ → ℂ) {e : Eng} {start : ℕ} {dest : Eng}
    (hs : start + dest.n ≤ e.n) (h0 : dest.n ≠ 0) (hl : dest.n < e.n) (hr : e.doNorm = true → e.rn = 1)
    {A B : ℕ → ℂ} (hAB : SameOn e.n e.amp (tensorAt start dest.n A B)) (hA : totalProb (e.n - dest.n) A = 1)
    (hB : totalProb dest.n B = 1) (hi : NoneIgnored e) (hw : NoWrap (e.n - dest.n) dest.n A B) :
    ∃ r d, decompose σ fresh e start dest = some (r, d) ∧ r.n = e.n - dest.n ∧ d.n = dest.n ∧
      ∃ u v : ℂ, ‖u‖ = 1 ∧ ‖v‖ = 1 ∧ SameOn r.n r.amp (fun i => u * A i) ∧ SameOn d.n d.amp (fun k => v * B k) := by
  obtain ⟨r, d, h1, h2, h3, h4⟩ := decompose_formula hσ fresh hs h0 hl hr
  refine ⟨r, { dest with amp := d }, ?_, h2, rfl, ?_⟩
  · unfold decompose; rw [h1]; simp [h0]
  have hT : ∀ i < 2 ^ (e.n - dest.n), ∀ k < 2 ^ dest.n, e.amp (insertAt start dest.n k i) = A i * B k := by
    intro i hi k hk
    rw [hAB _ (insertAt_lt hk hs hi)]
    unfold tensorAt
    rw [rest_insertAt hk, field_insertAt hk]
  refine ⟨Complex.exp ((meanPhase dest.n B : ℝ) * Complex.I), Complex.exp ((meanPhase (e.n - dest.n) A : ℝ) * Complex.I),
    Complex.norm_exp_ofReal_mul_I _, Complex.norm_exp_ofReal_mul_I _, ?_, ?_⟩
  · intro i hi'
    rw [h2] at hi'
    rw [h3 i hi']
    exact polar_factor (hT i hi') hB rfl hi.1 (fun k hk => hi.2 _ (insertAt_lt hk hs hi')) (fun k hk => hw i hi' k hk)
  · intro k hk
    have hk : k < 2 ^ dest.n := hk
    show d k = _
    rw [h4 k hk]
    refine polar_factor (fun i hi' => by rw [hT i hi' k hk, mul_comm]) hA rfl hi.1
      (fun i hi' => hi.2 _ (insertAt_lt hk hs hi')) (fun i hi' hb ha => ?_)
    rw [mul_comm, hw i hi' k hk ha hb, add_comm]

/-- C24. `Dispose` leaves the same register as `Decompose`. -/
theorem dispose_eq {σ : List ℕ → List ℕ} {fresh : ℕ → ℂ} {e : Eng} {start : ℕ} {dest r d : Eng}
    (h : decompose σ fresh e start dest = some (r, d)) : dispose σ fresh e start dest.n = some r := by
  unfold decompose at h
  unfold dispose
  obtain ⟨x, hx, hr⟩ := Option.map_eq_some_iff.1 h
  rw [hx]
  exact congrArg some (Prod.mk.inj hr).1

/-- C24. `Dispose` keeps the probabilities of the remaining qubits. -/
theorem dispose_marginals {σ : List ℕ → List ℕ} (hσ : IsSched σ) (fresh : ℕ → ℂ) {e : Eng} {start length : ℕ}
    (hs : start + length ≤ e.n) (h0 : length ≠ 0) (hl : length < e.n) (hr : e.doNorm = true → e.rn = 1) :
    ∃ r, dispose σ fresh e start length = some r ∧ r.n = e.n - length ∧
      ∀ i < 2 ^ r.n, Complex.normSq (r.amp i) = probIf e.n (fun j => rest start length j = i) e.amp := by
  obtain ⟨r, d, h1, h2, -, h3, -⟩ := decompose_marginals hσ fresh (dest := { e with n := length }) hs h0 hl hr
  exact ⟨r, dispose_eq h1, h2, h3⟩

/-- C24. `Dispose` of a factor of a product state leaves the other factor, up to a phase. `_partial`: as in
`decompose_partial`. -/
theorem dispose_partial {σ : List ℕ → List ℕ} (hσ : IsSched σ) (fresh : ℕ → ℂ) {e : Eng} {start length : ℕ}
    (hs : start + length ≤ e.n) (h0 : length ≠ 0) (hl : length < e.n) (hr : e.doNorm = true → e.rn = 1)
    {A B : ℕ → ℂ} (hAB : SameOn e.n e.amp (tensorAt start length A B)) (hA : totalProb (e.n - length) A = 1)
    (hB : totalProb length B = 1) (hi : NoneIgnored e) (hw : NoWrap (e.n - length) length A B) :
    ∃ r, dispose σ fresh e start length = some r ∧ r.n = e.n - length ∧
      ∃ u : ℂ, ‖u‖ = 1 ∧ SameOn r.n r.amp (fun i => u * A i) := by
  obtain ⟨r, d, h1, h2, -, u, v, hu, -, h3, -⟩ := decompose_partial hσ fresh (dest := { e with n := length }) hs h0 hl hr hAB hA hB hi hw
  exact ⟨r, dispose_eq h1, h2, u, hu, h3⟩

/-- C24. Composing and then decomposing gives back both registers up to a global phase. `_partial` as
`decompose_partial`. -/
theorem decompose_compose_partial {maxQb : ℕ} {σ : List ℕ → List ℕ} (hσ : IsSched σ) (fresh : ℕ → ℂ) {a b dest : Eng}
    {start : ℕ} (ha : a.n ≠ 0) (hb : b.n ≠ 0) (hs : start ≤ a.n) (hm : a.n + b.n ≤ maxQb) (h64 : a.n + b.n ≤ 64)
    (hra : a.Steady) (hrb : b.Steady) (hd : dest.n = b.n) (hf : a.floor = 0) (hw : NoWrap a.n b.n a.amp b.amp) :
    ∃ c, composeAt maxQb σ fresh a b start = some (c, b, start) ∧
    ∃ r d, decompose σ fresh c start dest = some (r, d) ∧ r.n = a.n ∧ d.n = b.n ∧
      ∃ u v : ℂ, ‖u‖ = 1 ∧ ‖v‖ = 1 ∧ SameOn a.n r.amp (fun i => u * a.amp i) ∧ SameOn b.n d.amp (fun k => v * b.amp k) := by
  obtain ⟨c, h1, h2, h3⟩ := composeAt_tensor hσ fresh ha hb hs hm h64 hra.2 hrb.2
  refine ⟨c, h1, ?_⟩
  have hc : c.doNorm = a.doNorm ∧ c.rn = a.rn ∧ c.floor = a.floor := by
    unfold composeAt at h1
    rw [if_neg (by omega), if_neg ha, if_neg hb, if_neg (by omega)] at h1
    simp only [] at h1
    rw [normIf_ready hra.2] at h1
    have := (Prod.mk.inj (Option.some.inj h1)).1
    rw [← this]; exact ⟨rfl, rfl, rfl⟩
  have hsub : c.n - dest.n = a.n := by omega
  obtain ⟨r, d, e1, e2, e3, u, v, hu, hv, e4, e5⟩ := decompose_partial hσ fresh (e := c) (start := start) (dest := dest)
    (A := a.amp) (B := b.amp) (by omega) (by omega) (by omega) (by rw [hc.1, hc.2.1]; exact hra.2)
    (by rw [hd]; exact h3) (by rw [hsub]; exact hra.1) (by rw [hd]; exact hrb.1)
    ⟨by rw [hc.2.2, hf], fun i _ hne => by rw [hc.2.2, hf]; exact Complex.normSq_pos.2 hne⟩ (by rw [hsub, hd]; exact hw)
  refine ⟨r, d, e1, by omega, by omega, u, v, hu, hv, ?_, ?_⟩
  · rw [← hsub, ← e2]; exact e4
  · rw [← hd, ← e3]; exact e5

/-- The state `|−⟩ ⊗ |−⟩`. -/
noncomputable def minusMinus : Eng where
  n := 2
  amp := fun i => if i = 0 ∨ i = 3 then 1 / 2 else -(1 / 2)
  rn := 1
  doNorm := false
  rgp := false
  floor := 0

/-- The state `|−⟩`, for amplitudes `1/√2`, `-1/√2`. -/
noncomputable def minusAmp (i : ℕ) : ℂ := if i = 0 then ((1 / Real.sqrt 2 : ℝ) : ℂ) else ((-(1 / Real.sqrt 2) : ℝ) : ℂ)

theorem argTerm_half : argTerm 0 (1 / 2 : ℂ) = 0 := by
  unfold argTerm
  rw [show (1 / 2 : ℂ) = ((1 / 2 : ℝ) : ℂ) by push_cast; ring, Complex.arg_ofReal_of_nonneg (by norm_num)]
  simp

theorem argTerm_neg_half : argTerm 0 (-(1 / 2) : ℂ) = Real.pi / 4 := by
  unfold argTerm
  rw [show (-(1 / 2) : ℂ) = ((-(1 / 2) : ℝ) : ℂ) by push_cast; ring, Complex.arg_ofReal_of_neg (by norm_num),
    Complex.normSq_ofReal, if_pos (by norm_num)]
  ring

/-- Against C24. Splitting `|−⟩ ⊗ |−⟩` gives `|+⟩` and `|+⟩`: the result is orthogonal to the state that was split. -/
theorem decompose_wrong (fresh : ℕ → ℂ) (dest : Eng) (hd : dest.n = 1) :
    totalProb 1 minusAmp = 1 ∧ SameOn 2 minusMinus.amp (tensorAt 1 1 minusAmp minusAmp) ∧
    ∀ σ, IsSched σ → ∃ r d, decompose σ fresh minusMinus 1 dest = some (r, d) ∧ r.n = 1 ∧ d.n = 1 ∧
      r.amp 0 = r.amp 1 ∧ d.amp 0 = d.amp 1 ∧ inner 2 minusMinus.amp (tensorAt 1 1 r.amp d.amp) = 0 := by
  have hs2 : (Real.sqrt 2)⁻¹ * (Real.sqrt 2)⁻¹ = 1 / 2 := by
    rw [← mul_inv, Real.mul_self_sqrt (by norm_num)]; norm_num
  refine ⟨?_, ?_, ?_⟩
  · unfold totalProb minusAmp
    rw [show 2 ^ 1 = 2 from rfl, Finset.sum_range_succ, Finset.sum_range_one]
    simp only [if_true, one_ne_zero, if_false, Complex.normSq_ofReal]
    rw [one_div, neg_mul_neg, hs2]; norm_num
  · intro i hi
    have hs2' : ((Real.sqrt 2 : ℝ) : ℂ)⁻¹ * ((Real.sqrt 2 : ℝ) : ℂ)⁻¹ = 1 / 2 := by
      rw [← Complex.ofReal_inv, ← Complex.ofReal_mul, hs2]; push_cast; ring
    have hi : i < 4 := hi
    unfold tensorAt rest field minusMinus minusAmp
    interval_cases i <;> simp [hs2'] 
  · intro σ hσ
    obtain ⟨r, d, h1, h2, h3, h4⟩ := decompose_formula hσ fresh (e := minusMinus) (start := 1) (length := 1)
      (by simp [minusMinus]) (by norm_num) (by simp [minusMinus]) (by simp [minusMinus])
    have hn : minusMinus.n - 1 = 1 := rfl
    rw [hn] at h2 h3 h4
    have r0 := h3 0 (by norm_num)
    have r1 := h3 1 (by norm_num)
    have d0 := h4 0 (by norm_num)
    have d1 := h4 1 (by norm_num)
    have hsum : ∀ f : ℕ → ℝ, ∑ k ∈ Finset.range (2 ^ 1), f k = f 0 + f 1 := fun f => by
      rw [show 2 ^ 1 = 2 from rfl, Finset.sum_range_succ, Finset.sum_range_one]
    have a0 : minusMinus.amp 0 = 1 / 2 := by simp [minusMinus]
    have a1 : minusMinus.amp 1 = -(1 / 2) := by simp [minusMinus]
    have a2 : minusMinus.amp 2 = -(1 / 2) := by simp [minusMinus]
    have a3 : minusMinus.amp 3 = 1 / 2 := by simp [minusMinus]
    have i00 : insertAt 1 1 0 0 = 0 := by decide
    have i01 : insertAt 1 1 0 1 = 1 := by decide
    have i10 : insertAt 1 1 1 0 = 2 := by decide
    have i11 : insertAt 1 1 1 1 = 3 := by decide
    have hfl : minusMinus.floor = 0 := rfl
    rw [hsum, hsum] at r0 r1 d0 d1
    rw [i00, i10, a0, a2, hfl, argTerm_half, argTerm_neg_half] at r0
    rw [i01, i11, a1, a3, hfl, argTerm_half, argTerm_neg_half] at r1
    rw [i00, i01, a0, a1, hfl, argTerm_half, argTerm_neg_half] at d0
    rw [i10, i11, a2, a3, hfl, argTerm_half, argTerm_neg_half] at d1
    have hr : r.amp 0 = r.amp 1 := by rw [r0, r1, Complex.normSq_neg, add_comm (0 : ℝ), add_zero]
    have hdd : d 0 = d 1 := by rw [d0, d1, Complex.normSq_neg, add_comm (0 : ℝ), add_zero]
    refine ⟨r, { dest with amp := d }, ?_, h2, hd, hr, hdd, ?_⟩
    · unfold decompose; rw [hd, h1]; simp
    · unfold inner
      rw [show 2 ^ 2 = 4 from rfl, Finset.sum_range_succ, Finset.sum_range_succ, Finset.sum_range_succ,
        Finset.sum_range_one, a0, a1, a2, a3]
      unfold tensorAt rest field
      simp only []
      norm_num
      rw [← hr, ← hdd]
      ring

/-! ### Example -/

/-- Two qubits and one: `(3/5, 0, 0, 4/5)` and `(3/5, 4i/5)`. -/
noncomputable def exA : Eng where
  n := 2
  amp := fun i => if i = 0 then 3 / 5 else if i = 3 then 4 / 5 else 0
  rn := 1
  doNorm := false
  rgp := false
  floor := 0

noncomputable def exB : Eng where
  n := 1
  amp := fun i => if i = 0 then 3 / 5 else 4 / 5 * Complex.I
  rn := 1
  doNorm := false
  rgp := false
  floor := 0

/-- The hypotheses of `decompose_compose_partial` hold for a genuinely complex pair of states, with the single qubit put
between the two others. -/
example : ∃ c, composeAt 32 id (fun _ => 7) exA exB 1 = some (c, exB, 1) ∧ c.amp 7 = 16 / 25 * Complex.I ∧
    ∃ r d, decompose id (fun _ => 7) c 1 exB = some (r, d) ∧ r.n = 2 ∧ d.n = 1 ∧
      ∃ u v : ℂ, ‖u‖ = 1 ∧ ‖v‖ = 1 ∧ SameOn 2 r.amp (fun i => u * exA.amp i) ∧ SameOn 1 d.amp (fun k => v * exB.amp k) := by
  have hA : exA.Steady := by
    refine ⟨?_, by simp [exA]⟩
    unfold totalProb exA
    simp only [show 2 ^ 2 = 4 from rfl, Finset.sum_range_succ, Finset.sum_range_zero]
    norm_num [Complex.normSq_apply]
  have hB : exB.Steady := by
    refine ⟨?_, by simp [exB]⟩
    unfold totalProb exB
    simp only [show 2 ^ 1 = 2 from rfl, Finset.sum_range_succ, Finset.sum_range_zero]
    norm_num [Complex.normSq_apply]
  have hw : NoWrap exA.n exB.n exA.amp exB.amp := by
    intro i _ k _ ha _
    have : ∃ x : ℝ, 0 < x ∧ exA.amp i = x := by
      unfold exA at ha ⊢
      simp only [] at ha ⊢
      by_cases h0 : i = 0
      · exact ⟨3 / 5, by norm_num, by simp [h0]⟩
      · by_cases h3 : i = 3
        · exact ⟨4 / 5, by norm_num, by simp [h3]⟩
        · simp [h0, h3] at ha
    obtain ⟨x, hx, hax⟩ := this
    rw [hax, Complex.arg_real_mul _ hx, Complex.arg_ofReal_of_nonneg hx.le, zero_add]
  have hσ : IsSched id := fun l => List.Perm.refl l
  obtain ⟨c, h1, h2⟩ := decompose_compose_partial (maxQb := 32) (σ := id) hσ (fun _ => 7) (a := exA) (b := exB)
    (dest := exB) (start := 1) (by simp [exA]) (by simp [exB]) (by simp [exA]) (by simp [exA, exB]) (by simp [exA, exB])
    hA hB rfl rfl hw
  obtain ⟨c', h1', h2', h3'⟩ := composeAt_tensor (maxQb := 32) (σ := id) hσ (fun _ => 7) (a := exA) (b := exB) (start := 1)
    (by simp [exA]) (by simp [exB]) (by simp [exA]) (by simp [exA, exB]) (by simp [exA, exB]) hA.2 hB.2
  rw [h1] at h1'
  have hcc := (Prod.mk.inj (Option.some.inj h1')).1
  subst hcc
  refine ⟨c, h1, ?_, h2⟩
  rw [h3' 7 (by rw [h2']; simp [exA, exB])]
  unfold tensorAt rest field exA exB
  norm_num
  ring

end Verif.Engine
