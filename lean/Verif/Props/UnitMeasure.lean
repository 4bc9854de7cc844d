import Verif.Lemmas.UnitMeasure
import Verif.Props.EngineUnitary
import Verif.Props.UnitEntangle
import Mathlib.LinearAlgebra.Matrix.NonsingularInverse
import Mathlib.Tactic.IntervalCases
import Mathlib.Tactic.NormNum
import Mathlib.Algebra.BigOperators.Field

/-!
# C83: reading, measuring and separating the qubits of `QUnit`

`R.joint` is the state of all qubits, as the product of what the units hold (`whole` of `Verif/Spec/Product.lean`).
-/

namespace Verif.QUE

open Verif.Spec Verif.Engine Finset

/-- Three qubits: qubits 0 and 2 share a unit (0 at place 1, 2 at place 0) in the state `3/5 |00⟩ + 4/5 |11⟩`, qubit 1 is `|1⟩`. -/
noncomputable def three : Reg where
  n := 3
  unit q := if q = 1 then 1 else 0
  pos q := if q = 0 then 1 else 0
  size u := if u = 0 then 2 else 1
  amp u j := if u = 0 then (if j = 0 then ((3 / 5 : ℝ) : ℂ) else if j = 3 then ((4 / 5 : ℝ) : ℂ) else 0) else if j = 1 then 1 else 0

theorem three_ready : three.Ready := by
  refine ⟨⟨?_, ?_⟩, ?_, ?_⟩
  · intro q hq
    change q < 3 at hq
    interval_cases q <;> decide
  · intro p hp q hq
    change p < 3 at hp
    change q < 3 at hq
    interval_cases p <;> interval_cases q <;> decide
  · intro k hk p hp
    change k < 3 at hk
    have two : ∀ p < 2, ∃ q < 3, three.unit q = 0 ∧ three.pos q = p := by
      intro p hp
      interval_cases p
      · exact ⟨2, by decide, rfl, rfl⟩
      · exact ⟨0, by decide, rfl, rfl⟩
    interval_cases k
    · exact two p hp
    · have : p = 0 := Nat.lt_one_iff.1 hp
      exact ⟨1, by decide, rfl, this.symm⟩
    · exact two p hp
  · intro k hk
    change k < 3 at hk
    have h0 : ∑ j ∈ range (2 ^ 2), Complex.normSq (three.amp 0 j) = 1 := by
      norm_num [three, sum_range_succ]
    have h1 : ∑ j ∈ range (2 ^ 1), Complex.normSq (three.amp 1 j) = 1 := by
      norm_num [three, sum_range_succ]
    interval_cases k
    · exact h0
    · exact h1
    · exact h0

/-! ## Reading -/

/-- C83. The probability that `QUnit` reads off one unit is that of the qubit in the whole register. -/
theorem prob_is {R : Reg} (h : R.Ready) {q : ℕ} (hq : q < R.n) :
    R.prob q = ∑ i ∈ range (2 ^ R.n), if i.testBit q then Complex.normSq (R.joint i) else 0 := by
  have := marginal h hq fun j => if j.testBit (R.pos q) then 1 else 0
  simp only [held_at h.valid hq, ite_mul, one_mul, zero_mul] at this
  rw [this]
  rfl

example : three.prob 2 = ∑ i ∈ range (2 ^ 3), if i.testBit 2 then Complex.normSq (three.joint i) else 0 :=
  prob_is three_ready (by decide)

theorem sign_filter (unit : ℕ → ℕ) (p : ℕ → Bool) (s : Finset ℕ) : ∀ l : List ℕ, (∀ q ∈ l, unit q ∈ s) →
    ∏ u ∈ s, (-1 : ℝ) ^ ((l.filter (unit · = u)).filter p).length = (-1) ^ (l.filter p).length
  | [], _ => by simp
  | q :: l, h => by
    have ih := sign_filter unit p s l fun q hq => h q (by simp [hq])
    have hq : unit q ∈ s := h q (by simp)
    have h1 : ∀ u ∈ s, (-1 : ℝ) ^ (((q :: l).filter (unit · = u)).filter p).length =
        (if unit q = u then (if p q then -1 else 1) else 1) * (-1) ^ ((l.filter (unit · = u)).filter p).length := by
      intro u _
      by_cases hu : unit q = u <;> by_cases hp : p q <;> simp [List.filter_cons, hu, hp, pow_succ]
    rw [prod_congr rfl h1, prod_mul_distrib, ih, prod_ite_eq, if_pos hq]
    by_cases hp : p q <;> simp [List.filter_cons, hp, pow_succ]

theorem odds_fold (p : ℕ → ℝ) : ∀ (l : List ℕ) (o : ℝ), 1 - 2 * l.foldl (fun o u => odds o (p u)) o =
    (1 - 2 * o) * (l.map fun u => 1 - 2 * p u).prod
  | [], o => by simp
  | u :: l, o => by
    rw [List.foldl_cons, odds_fold p l, List.map_cons, List.prod_cons]
    unfold odds; ring

theorem sign_sum {n : ℕ} (c : ℕ → ℕ) (w : ℕ → ℝ) (h : ∑ i ∈ range n, w i = 1) :
    ∑ i ∈ range n, (-1 : ℝ) ^ c i * w i = 1 - 2 * ∑ i ∈ range n, if c i % 2 = 1 then w i else 0 := by
  rw [mul_sum]
  refine Eq.trans ?_ (congrArg (· - ∑ i ∈ range n, 2 * if c i % 2 = 1 then w i else 0) h)
  rw [← sum_sub_distrib]
  refine sum_congr rfl fun i _ => ?_
  rcases Nat.mod_two_eq_zero_or_one (c i) with h1 | h1
  · rw [if_neg (by omega), (Nat.even_iff.2 h1).neg_one_pow]; ring
  · rw [if_pos h1, (Nat.odd_iff.2 h1).neg_one_pow]; ring

/-- C83. `ProbParity` is the probability of odd parity in the whole register, however the qubits of the mask lie in units. -/
theorem probParity_is {R : Reg} (h : R.Ready) {mask : ℕ} (hm : mask < 2 ^ R.n) :
    R.probParity mask = some (∑ i ∈ range (2 ^ R.n), if maskCount R.n mask i % 2 = 1 then Complex.normSq (R.joint i) else 0) := by
  unfold Reg.probParity
  rw [if_neg (by omega)]
  by_cases h0 : mask = 0
  · rw [if_pos h0, h0]
    simp [maskCount]
  rw [if_neg h0]
  split_ifs with h1
  · obtain ⟨b, hb⟩ := List.length_eq_one_iff.1 h1
    have hbn : b < R.n := (mem_bitsOf.1 (by rw [hb]; simp : b ∈ bitsOf R.n mask)).1
    rw [hb, List.headD_cons, prob_is h hbn]
    congr 1
    refine sum_congr rfl fun i _ => ?_
    rw [maskCount_eq, hb]
    cases hi : i.testBit b <;> simp [hi]
  · congr 1
    obtain ⟨hn, hmem, -, -⟩ := uniq_spec ((bitsOf R.n mask).map R.unit)
    set L := uniq ((bitsOf R.n mask).map R.unit) with hL
    have h2 := odds_fold (fun u => unitParity (R.size u) (maskOf (((bitsOf R.n mask).filter (R.unit · = u)).map R.pos)) (R.amp u)) L 0
    rw [mul_zero, sub_zero, one_mul] at h2
    have hsub : L.toFinset ⊆ (range R.n).image R.unit := by
      intro u hu
      rw [List.mem_toFinset, hmem, List.mem_map] at hu
      obtain ⟨q, hq, rfl⟩ := hu
      exact mem_image.2 ⟨q, mem_range.2 (mem_bitsOf.1 hq).1, rfl⟩
    have h3 := weigh h fun u j => if u ∈ L.toFinset then
      (-1 : ℝ) ^ maskCount (R.size u) (maskOf (((bitsOf R.n mask).filter (R.unit · = u)).map R.pos)) j else 1
    have h4 : ∀ i, ∏ u ∈ (range R.n).image R.unit, (if u ∈ L.toFinset then
        (-1 : ℝ) ^ maskCount (R.size u) (maskOf (((bitsOf R.n mask).filter (R.unit · = u)).map R.pos)) (R.held u i) else 1) =
        (-1) ^ maskCount R.n mask i := by
      intro i
      rw [← prod_filter, filter_mem_eq_inter, inter_eq_right.2 hsub, maskCount_eq,
        ← sign_filter R.unit (fun q => i.testBit q) L.toFinset (bitsOf R.n mask) fun q hq => by
          rw [List.mem_toFinset, hmem]; exact List.mem_map.2 ⟨q, hq, rfl⟩]
      refine prod_congr rfl fun u _ => ?_
      rw [maskCount_held h.valid (fun q hq => ?_) ((nodup_bitsOf R.n mask).filter _)]
      rw [List.mem_filter, decide_eq_true_eq] at hq
      exact ⟨(mem_bitsOf.1 hq.1).1, hq.2⟩
    have h5 : ∏ u ∈ (range R.n).image R.unit, ∑ j ∈ range (2 ^ R.size u), (if u ∈ L.toFinset then
        (-1 : ℝ) ^ maskCount (R.size u) (maskOf (((bitsOf R.n mask).filter (R.unit · = u)).map R.pos)) j else 1) *
          Complex.normSq (R.amp u j) =
        (L.map fun u => 1 - 2 * unitParity (R.size u) (maskOf (((bitsOf R.n mask).filter (R.unit · = u)).map R.pos)) (R.amp u)).prod := by
      rw [← List.prod_toFinset _ hn, ← prod_subset hsub]
      · refine prod_congr rfl fun u hu => ?_
        obtain ⟨k, hk, rfl⟩ := mem_image.1 (hsub hu)
        simp only [if_pos hu]
        rw [sign_sum _ _ (h.normal k (mem_range.1 hk))]
        rfl
      · intro u hu hu'
        obtain ⟨k, hk, rfl⟩ := mem_image.1 hu
        simp only [if_neg hu', one_mul]
        exact h.normal k (mem_range.1 hk)
    simp only [h4] at h3
    rw [h5, sign_sum _ _ (total h), ← h2] at h3
    linarith

example : three.probParity 5 = some (∑ i ∈ range (2 ^ 3), if maskCount 3 5 i % 2 = 1 then Complex.normSq (three.joint i) else 0) :=
  probParity_is three_ready (by decide)

/-- A mask beyond the register is an exception. -/
theorem probParity_throws (R : Reg) {mask : ℕ} (hm : 2 ^ R.n ≤ mask) : R.probParity mask = none := by
  unfold Reg.probParity; rw [if_pos hm]

/-! ## Separating -/

theorem alone (R : Reg) (phase : ℂ) (v : Bool) (q : ℕ) : ∀ k < R.n, k ≠ q → (R.separate phase v q).unit k ≠ (R.separate phase v q).unit q := by
  intro k hk e
  rw [sep_unit _ _ e, sep_unit_self]
  exact fresh_ne R hk

/-- The qubit has the value `v` for certain, if its probability says so. -/
theorem certain {R : Reg} (h : R.Ready) {q : ℕ} (hq : q < R.n) {v : Bool} (hp : R.prob q = if v then 1 else 0) :
    ∀ j < 2 ^ R.size (R.unit q), R.amp (R.unit q) j ≠ 0 → j.testBit (R.pos q) = v := by
  intro j hj h0
  have hn := h.normal q hq
  have hpos : 0 < Complex.normSq (R.amp (R.unit q) j) := Complex.normSq_pos.2 h0
  unfold Reg.prob unitProb at hp
  cases v
  · rw [if_neg (by decide)] at hp
    have := (sum_eq_zero_iff_of_nonneg (fun i _ => by split_ifs <;> [exact Complex.normSq_nonneg _; exact le_rfl])).1 hp j (mem_range.2 hj)
    by_contra hb
    rw [Bool.not_eq_false] at hb
    rw [if_pos hb] at this
    exact hpos.ne' this
  · rw [if_pos rfl, ← hn, ← sub_eq_zero, ← neg_eq_zero, neg_sub, ← sum_sub_distrib] at hp
    have := (sum_eq_zero_iff_of_nonneg (fun i _ => by
      split_ifs
      · rw [sub_self]
      · rw [sub_zero]; exact Complex.normSq_nonneg _)).1 hp j (mem_range.2 hj)
    by_contra hb
    rw [if_neg hb, sub_zero] at this
    exact hpos.ne' this

/-- C83. `SeparateBit` of a qubit that has its value for certain takes it out of its unit and keeps the state, but for a phase. -/
theorem separate_keeps {R : Reg} (h : R.Ready) {q : ℕ} (hq : q < R.n) {phase : ℂ} (hph : Complex.normSq phase = 1) {v : Bool}
    (hp : R.prob q = if v then 1 else 0) :
    (R.separate phase v q).Ready ∧ (∀ k < R.n, k ≠ q → (R.separate phase v q).unit k ≠ (R.separate phase v q).unit q) ∧
      ∃ z : ℂ, Complex.normSq z = 1 ∧ ∀ i, (R.separate phase v q).joint i = z * R.joint i :=
  ⟨sep_ready _ _ h hq hph (certain h hq hp), alone R phase v q, sep_joint _ _ h hq hph (certain h hq hp)⟩

theorem three_prob : three.prob 1 = 1 := by
  change unitProb 1 0 (three.amp 1) = 1
  norm_num [unitProb, three, sum_range_succ]

example : ∃ z : ℂ, Complex.normSq z = 1 ∧ ∀ i, (three.separate Complex.I true 1).joint i = z * three.joint i :=
  (separate_keeps three_ready (by decide) (by simp) (by rw [three_prob]; rfl)).2.2

/-- Without that, the state is changed: the qubit is taken to have the value, and the other amplitudes are lost. -/
theorem separate_needs : ∃ R : Reg, R.Ready ∧ ∃ q < R.n, ∃ i, R.joint i ≠ 0 ∧ (R.separate 1 true q).joint i = 0 := by
  refine ⟨three, three_ready, 0, by decide, 2, ?_, ?_⟩
  · rw [joint_eq, prod_ne_zero_iff]
    intro u hu
    have hu' : u = 0 ∨ u = 1 := by
      obtain ⟨k, -, rfl⟩ := mem_image.1 hu
      change (if k = 1 then 1 else 0) = 0 ∨ (if k = 1 then 1 else 0) = 1
      split_ifs <;> simp
    rcases hu' with rfl | rfl
    · rw [show three.held 0 2 = 0 by decide +kernel]
      norm_num [three]
    · rw [show three.held 1 2 = 1 by decide +kernel]
      norm_num [three]
  · rw [joint_split (R := three.separate 1 true 0) ⟨0, by decide, sep_unit_self 1 true⟩, sep_amp_fresh]
    dsimp only
    rw [sep_held_fresh _ _ three_ready.valid (by decide), if_neg (by decide), zero_mul]

/-! ## Measuring -/

theorem act_ready {R : Reg} (h : R.Ready) {q : ℕ} {f : (ℕ → ℂ) → ℕ → ℂ}
    (hf : ∑ j ∈ range (2 ^ R.size (R.unit q)), Complex.normSq (f (R.amp (R.unit q)) j) = 1) : (R.act (R.unit q) f).Ready := by
  refine ⟨⟨h.valid.lt, h.valid.inj⟩, h.full, ?_⟩
  intro k hk
  change k < R.n at hk
  change ∑ j ∈ range (2 ^ R.size (R.unit k)), Complex.normSq (Function.update R.amp (R.unit q) (f (R.amp (R.unit q))) (R.unit k) j) = 1
  by_cases e : R.unit k = R.unit q
  · rw [e, Function.update_self]; exact hf
  · rw [Function.update_of_ne e]; exact h.normal k hk

/-- The probability of an outcome, as the code has it. -/
noncomputable def Reg.chance (R : Reg) (v : Bool) (q : ℕ) : ℝ := if v then R.prob q else 1 - R.prob q

theorem chance_eq {R : Reg} (h : R.Ready) {q : ℕ} (hq : q < R.n) (v : Bool) :
    R.chance v q = ∑ j ∈ range (2 ^ R.size (R.unit q)), if j.testBit (R.pos q) = v then Complex.normSq (R.amp (R.unit q) j) else 0 := by
  unfold Reg.chance
  cases v
  · rw [if_neg (by decide), ← h.normal q hq]
    unfold Reg.prob unitProb
    rw [← sum_sub_distrib]
    refine sum_congr rfl fun j _ => ?_
    cases j.testBit (R.pos q) <;> simp
  · rw [if_pos rfl]; rfl

theorem chance_is {R : Reg} (h : R.Ready) {q : ℕ} (hq : q < R.n) (v : Bool) :
    R.chance v q = ∑ i ∈ range (2 ^ R.n), if i.testBit q = v then Complex.normSq (R.joint i) else 0 := by
  have := marginal h hq fun j => if j.testBit (R.pos q) = v then 1 else 0
  simp only [held_at h.valid hq, ite_mul, one_mul, zero_mul] at this
  rw [this, chance_eq h hq]

theorem chance_nonneg {R : Reg} (h : R.Ready) {q : ℕ} (hq : q < R.n) (v : Bool) : 0 ≤ R.chance v q := by
  rw [chance_eq h hq]
  exact sum_nonneg fun j _ => by split_ifs <;> [exact Complex.normSq_nonneg _; exact le_rfl]

/-- C83. `ForceM` of a qubit with an outcome that is possible projects the state of the whole register on the outcome and normalises it,
but for a phase; the qubit is in a unit of its own then, and the invariant holds. -/
theorem forceM_projects {R : Reg} (h : R.Ready) {q : ℕ} (hq : q < R.n) {phase : ℂ} (hph : Complex.normSq phase = 1) {v : Bool}
    (hv : R.chance v q ≠ 0) :
    (R.forceM phase v q).Ready ∧ (∀ k < R.n, k ≠ q → (R.forceM phase v q).unit k ≠ (R.forceM phase v q).unit q) ∧
      ∃ z : ℂ, Complex.normSq z = 1 ∧ ∀ i, (R.forceM phase v q).joint i =
        z * if i.testBit q = v then R.joint i / Real.sqrt (R.chance v q) else 0 := by
  have hs : Complex.normSq ((Real.sqrt (R.chance v q) : ℝ) : ℂ) = R.chance v q := by
    rw [Complex.normSq_ofReal, Real.mul_self_sqrt (chance_nonneg h hq v)]
  have uf : ∀ j, unitForce (R.size (R.unit q)) (R.pos q) v (R.amp (R.unit q)) j =
      if j.testBit (R.pos q) = v then R.amp (R.unit q) j / Real.sqrt (R.chance v q) else 0 := fun _ => rfl
  have hf : ∑ j ∈ range (2 ^ R.size (R.unit q)),
      Complex.normSq (unitForce (R.size (R.unit q)) (R.pos q) v (R.amp (R.unit q)) j) = 1 := by
    have h1 : ∀ j, Complex.normSq (unitForce (R.size (R.unit q)) (R.pos q) v (R.amp (R.unit q)) j) =
        (if j.testBit (R.pos q) = v then Complex.normSq (R.amp (R.unit q) j) else 0) / R.chance v q := by
      intro j
      rw [uf]
      by_cases hb : j.testBit (R.pos q) = v
      · rw [if_pos hb, if_pos hb, map_div₀, hs]
      · rw [if_neg hb, if_neg hb, map_zero, zero_div]
    rw [sum_congr rfl fun j _ => h1 j, ← Finset.sum_div, ← chance_eq h hq, div_self hv]
  have hR := act_ready h hf
  have he : ∀ j < 2 ^ (R.act (R.unit q) (unitForce (R.size (R.unit q)) (R.pos q) v)).size (R.unit q),
      (R.act (R.unit q) (unitForce (R.size (R.unit q)) (R.pos q) v)).amp (R.unit q) j ≠ 0 → j.testBit (R.pos q) = v := by
    intro j _ h0
    by_contra hb
    apply h0
    change Function.update R.amp (R.unit q) _ (R.unit q) j = 0
    rw [Function.update_self]
    unfold unitForce
    rw [if_neg hb]
  refine ⟨sep_ready _ _ hR hq hph he, alone _ phase v q, ?_⟩
  obtain ⟨z, hz, hj⟩ := sep_joint _ _ hR hq hph he
  refine ⟨z, hz, fun i => ?_⟩
  unfold Reg.forceM
  rw [hj, joint_act ⟨q, hq, rfl⟩, joint_split ⟨q, hq, rfl⟩ i]
  congr 1
  rw [uf, held_at h.valid hq]
  by_cases hb : i.testBit q = v
  · rw [if_pos hb, if_pos hb, div_mul_eq_mul_div]
  · rw [if_neg hb, if_neg hb, zero_mul]

theorem three_chance : three.chance true 2 ≠ 0 := by
  change unitProb 2 0 (three.amp 0) ≠ 0
  norm_num [unitProb, three, sum_range_succ, Nat.testBit]

example : (three.forceM 1 true 2).Ready ∧ ∃ z : ℂ, Complex.normSq z = 1 ∧ ∀ i, (three.forceM 1 true 2).joint i =
    z * if i.testBit 2 = true then three.joint i / Real.sqrt (three.chance true 2) else 0 :=
  let h := forceM_projects three_ready (by decide) (map_one _) three_chance
  ⟨h.1, h.2.2⟩

theorem measured_spec {R : Reg} (h : R.Ready) {phase : ℕ → ℂ} (hph : ∀ k, Complex.normSq (phase k) = 1) {v : ℕ → Bool} :
    ∀ m ≤ R.n, (∀ k < m, (R.measured phase v k).chance (v k) k ≠ 0) → (R.measured phase v m).Ready ∧ (R.measured phase v m).n = R.n ∧
      0 < ∏ k ∈ range m, (R.measured phase v k).chance (v k) k ∧
      ∀ i, Complex.normSq ((R.measured phase v m).joint i) = if ∀ k < m, i.testBit k = v k then
        Complex.normSq (R.joint i) / ∏ k ∈ range m, (R.measured phase v k).chance (v k) k else 0 := by
  intro m
  induction m with
  | zero => intro _ _; exact ⟨h, rfl, by simp, fun i => by simp [Reg.measured]⟩
  | succ m ih =>
    intro hm hv
    obtain ⟨h1, h2, h3, h4⟩ := ih (by omega) fun k hk => hv k (by omega)
    have hm' : m < (R.measured phase v m).n := by omega
    obtain ⟨k1, -, z, hz, k2⟩ := forceM_projects h1 hm' (hph m) (hv m (by omega))
    have hc : 0 < (R.measured phase v m).chance (v m) m := lt_of_le_of_ne (chance_nonneg h1 hm' _) (Ne.symm (hv m (by omega)))
    refine ⟨k1, h2, by rw [prod_range_succ]; exact mul_pos h3 hc, fun i => ?_⟩
    change Complex.normSq (((R.measured phase v m).forceM (phase m) (v m) m).joint i) = _
    rw [k2, map_mul, hz, one_mul]
    by_cases hb : i.testBit m = v m
    · rw [if_pos hb, map_div₀, Complex.normSq_ofReal, Real.mul_self_sqrt hc.le, h4, prod_range_succ]
      by_cases ha : ∀ k < m, i.testBit k = v k
      · rw [if_pos ha, if_pos, div_div]
        intro k hk
        rcases Nat.lt_succ_iff_lt_or_eq.1 hk with h5 | h5
        · exact ha k h5
        · rw [h5, hb]
      · rw [if_neg ha, if_neg (fun h5 => ha fun k hk => h5 k (by omega)), zero_div]
    · rw [if_neg hb, map_zero, if_neg (fun h5 => hb (h5 m (by omega)))]

/-- C83. `MAll` measures by Born's rule: the product of the probabilities with which the outcomes are drawn, one after the other, is the
probability of the joint outcome. -/
theorem mAll_born {R : Reg} (h : R.Ready) {phase : ℕ → ℂ} (hph : ∀ k, Complex.normSq (phase k) = 1) (v : ℕ → Bool) :
    ∏ k ∈ range R.n, (R.measured phase v k).chance (v k) k =
      Complex.normSq (R.joint (Nat.ofBits fun k : Fin R.n => v k)) := by
  have hV : ∀ k < R.n, (Nat.ofBits fun k : Fin R.n => v k).testBit k = v k := fun k hk => by rw [Nat.testBit_ofBits_lt _ _ hk]
  have hl : (Nat.ofBits fun k : Fin R.n => v k) < 2 ^ R.n := Nat.ofBits_lt_two_pow _
  have hx : ∀ i < 2 ^ R.n, (∀ k < R.n, i.testBit k = v k) → i = Nat.ofBits fun k : Fin R.n => v k := by
    intro i hi h5
    apply Nat.eq_of_testBit_eq
    intro k
    by_cases hk : k < R.n
    · rw [h5 k hk, hV k hk]
    · have e : ∀ c < 2 ^ R.n, c.testBit k = false := fun c hc =>
        Nat.testBit_lt_two_pow (lt_of_lt_of_le hc (Nat.pow_le_pow_right (by omega) (by omega)))
      rw [e _ hi, e _ hl]
  generalize (Nat.ofBits fun k : Fin R.n => v k) = V at hV hl hx ⊢
  by_cases hv : ∀ k < R.n, (R.measured phase v k).chance (v k) k ≠ 0
  · obtain ⟨h1, h2, h3, h4⟩ := measured_spec h hph R.n le_rfl hv
    have ht := total h1
    rw [h2, sum_eq_single V] at ht
    · rw [h4, if_pos hV, div_eq_one_iff_eq h3.ne'] at ht
      exact ht.symm
    · intro i hi hne
      rw [h4, if_neg fun h5 => hne (hx i (mem_range.1 hi) h5)]
    · intro h5
      exact absurd (mem_range.2 hl) h5
  · have hzero : R.joint V = 0 := by
      by_contra hne
      apply hv
      have all : ∀ m ≤ R.n, ∀ k < m, (R.measured phase v k).chance (v k) k ≠ 0 := by
        intro m
        induction m with
        | zero => intro _ k hk; exact absurd hk (Nat.not_lt_zero k)
        | succ m ih =>
          intro hm k hk
          rcases Nat.lt_succ_iff_lt_or_eq.1 hk with h5 | rfl
          · exact ih (by omega) k h5
          · obtain ⟨h1, h2, h3, h4⟩ := measured_spec h hph k (by omega) (ih (by omega))
            rw [chance_is h1 (by omega)]
            refine ne_of_gt (lt_of_lt_of_le ?_ (single_le_sum (fun i _ => ?_) (mem_range.2 (h2 ▸ hl))))
            · rw [if_pos (hV k (by omega)), h4, if_pos fun l hl' => hV l (by omega)]
              exact div_pos (Complex.normSq_pos.2 hne) h3
            · split_ifs <;> [exact Complex.normSq_nonneg _; exact le_rfl]
      exact all R.n le_rfl
    push Not at hv
    obtain ⟨k, hk, h0⟩ := hv
    rw [hzero, map_zero]
    exact prod_eq_zero (mem_range.2 hk) h0

example (v : ℕ → Bool) : ∏ k ∈ range 3, (three.measured (fun _ => 1) v k).chance (v k) k =
    Complex.normSq (three.joint (Nat.ofBits fun k : Fin 3 => v k)) := mAll_born three_ready (fun _ => map_one _) v

/-! ## Trying to separate -/

/-- The entries of a matrix. -/
def M2.t (m : M2) : ℂ × ℂ × ℂ × ℂ := (m.a, m.b, m.c, m.d)

theorem gate_total {n t : ℕ} (ht : t < n) {p : ℕ → Prop} [DecidablePred p] (hp : Ignores p t) {m : M2} (hm : m.IsUnitary) (s : ℕ → ℂ) :
    totalProb n (gate p t m.a m.b m.c m.d s) = totalProb n s := by
  have k1 := gate_inner ht hp hm s s
  rw [← totalProb_eq_inner, ← totalProb_eq_inner] at k1
  exact_mod_cast k1

theorem gate_scale {p : ℕ → Prop} [DecidablePred p] (t : ℕ) (a b c d z : ℂ) (s : ℕ → ℂ) :
    gate p t a b c d (fun i => z * s i) = fun i => z * gate p t a b c d s i := by
  funext i
  unfold gate
  split_ifs <;> ring

theorem M2.adj_unitary {m : M2} (hm : m.IsUnitary) : m.adj.IsUnitary := by
  obtain ⟨h1, h2, h3⟩ := hm
  have hm' : Matrix.of ![![(starRingEnd ℂ) m.a, (starRingEnd ℂ) m.c], ![(starRingEnd ℂ) m.b, (starRingEnd ℂ) m.d]] *
      Matrix.of ![![m.a, m.b], ![m.c, m.d]] = 1 := by
    have h4 := congrArg (starRingEnd ℂ) h3
    simp only [map_add, map_mul, Complex.conj_conj, map_zero] at h4
    ext i j
    fin_cases i <;> fin_cases j <;> simp [Matrix.mul_apply, Fin.sum_univ_two, h1, h2, h3]
    linear_combination h4
  have h5 := mul_eq_one_comm.1 hm'
  have e := fun i j => congrFun (congrFun h5 i) j
  have e00 := e 0 0
  have e01 := e 0 1
  have e11 := e 1 1
  simp [Matrix.mul_apply, Fin.sum_univ_two] at e00 e01 e11
  constructor <;> simp only [M2.adj, Complex.conj_conj] <;> assumption

/-- C83. `TrySeparate` of a qubit never changes the state, but for a phase, whatever angles it has found, and keeps the invariant; if it
answers `true`, the qubit shares its unit with no other. `AI` is the inverse of the unitary `IAI`. -/
theorem trySeparate_keeps {R : Reg} (h : R.Ready) {q : ℕ} (hq : q < R.n) {phase : ℂ} (hph : Complex.normSq phase = 1) {m : M2}
    (hm : m.IsUnitary) :
    let r := R.trySeparate phase (M2.t m.adj) (M2.t m) q
    (∃ z : ℂ, Complex.normSq z = 1 ∧ ∀ i, r.2.joint i = z * R.joint i) ∧ r.2.Ready ∧ r.2.n = R.n ∧
      (r.1 = true → ∀ k < R.n, k ≠ q → r.2.unit k ≠ r.2.unit q) := by
  intro r
  have hlt := h.valid.lt q hq
  by_cases hone : R.size (R.unit q) = 1
  · have hr : r = (true, R) := by
      change R.trySeparate _ _ _ _ = _
      unfold Reg.trySeparate
      simp only [if_pos hone]
    rw [hr]
    refine ⟨⟨1, map_one _, fun i => (one_mul _).symm⟩, h, rfl, fun _ k hk hkq e => hkq ?_⟩
    have hk' := h.valid.lt k hk
    change R.unit k = R.unit q at e
    rw [e] at hk'
    exact h.valid.inj k hk q hq e (by omega)
  have h1 : (R.act (R.unit q) (gate (fun _ => True) (R.pos q) m.a m.b m.c m.d)).Ready :=
    act_ready h ((gate_total hlt (fun _ => Iff.rfl) hm _).trans (h.normal q hq))
  set R1 := R.act (R.unit q) (gate (fun _ => True) (R.pos q) m.a m.b m.c m.d) with hR1
  have j1 : R1.joint = gate (fun _ => True) q m.a m.b m.c m.d R.joint := act_gate h.valid hq (fun _ => Iff.rfl) _ _ _ _
  have back : ∀ (z : ℂ) (i : ℕ), gate (fun _ => True) q m.adj.a m.adj.b m.adj.c m.adj.d (fun i => z * R1.joint i) i = z * R.joint i := by
    intro z i
    rw [gate_scale, j1]
    dsimp only
    rw [gate_adj (fun _ => Iff.rfl) hm]
  have hr : r = if 2 * R1.prob q > 0 then (false, R1.act (R1.unit q) (gate (fun _ => True) (R1.pos q) m.adj.a m.adj.b m.adj.c m.adj.d))
      else (true, (R1.separate phase false q).act ((R1.separate phase false q).unit q)
        (gate (fun _ => True) ((R1.separate phase false q).pos q) m.adj.a m.adj.b m.adj.c m.adj.d)) := by
    change R.trySeparate _ _ _ _ = _
    unfold Reg.trySeparate
    simp only [if_neg hone]
    congr 1
  by_cases hc : 2 * R1.prob q > 0
  · rw [if_pos hc] at hr
    rw [hr]
    refine ⟨⟨1, map_one _, fun i => ?_⟩, act_ready h1 ?_, rfl, fun h => absurd h Bool.false_ne_true⟩
    · rw [act_gate h1.valid (t := q) hq (p := fun _ => True) (fun _ => Iff.rfl), ← back 1 i]
      simp only [one_mul]
    · exact (gate_total (h1.valid.lt q hq) (fun _ => Iff.rfl) (M2.adj_unitary hm) _).trans (h1.normal q hq)
  · rw [if_neg hc] at hr
    have h0 : R1.prob q = 0 := by
      have : 0 ≤ R1.prob q := chance_nonneg h1 (q := q) hq true
      linarith
    obtain ⟨s1, s2, z, hz, s3⟩ := separate_keeps h1 (q := q) hq hph (v := false) (by rw [h0]; rfl)
    rw [hr]
    refine ⟨⟨z, hz, fun i => ?_⟩, act_ready s1 ?_, rfl, fun _ => s2⟩
    · rw [act_gate s1.valid (t := q) hq (p := fun _ => True) (fun _ => Iff.rfl), ← back z i]
      congr 1
      funext i
      exact s3 i
    · exact (gate_total (s1.valid.lt q hq) (fun _ => Iff.rfl) (M2.adj_unitary hm) _).trans (s1.normal q hq)

example : ∃ z : ℂ, Complex.normSq z = 1 ∧ ∀ i, (three.trySeparate 1 (0, 1, 1, 0) (0, 1, 1, 0) 2).2.joint i = z * three.joint i := by
  have hm : (⟨0, 1, 1, 0⟩ : M2).IsUnitary := by constructor <;> simp
  have := (trySeparate_keeps three_ready (q := 2) (by decide) (phase := 1) (map_one _) hm).1
  simpa [M2.adj, M2.t] using this

theorem ignores_one {perm c t : ℕ} (h : c ≠ t) : Ignores (Matches perm [c]) t := by
  intro i
  have hf : (flipBit t i).testBit c = i.testBit c := by
    unfold flipBit; rw [Nat.testBit_xor, Nat.testBit_two_pow]; simp [Ne.symm h]
  unfold Matches
  constructor
  · intro h1 k hk
    have := h1 k hk
    have hk' : k = 0 := by simpa using hk
    subst hk'
    simpa [hf] using this
  · intro h1 k hk
    have := h1 k hk
    have hk' : k = 0 := by simpa using hk
    subst hk'
    simpa [hf] using this

theorem controlled_joint {R : Reg} (h : R.Valid) {c t : ℕ} (hc : c < R.n) (ht : t < R.n) (perm : ℕ) (m : M2) :
    (R.controlled perm c t (M2.t m)).joint = gate (Matches perm [c]) t m.a m.b m.c m.d R.joint := by
  have := either_partial (cap := R.logMem (([c] ++ [t]).mergeSort (· ≤ ·))) (prob := fun _ => 0) h (cs := [c]) (by simpa using hc) ht le_rfl
    perm m.a m.b m.c m.d
  rw [← this]
  unfold Reg.either Reg.controlled
  rw [if_pos le_rfl]
  rfl

theorem controlled_valid {R : Reg} (h : R.Valid) {c t : ℕ} (hc : c < R.n) (ht : t < R.n) (perm : ℕ) (m : ℂ × ℂ × ℂ × ℂ) :
    (R.controlled perm c t m).Valid ∧ (R.controlled perm c t m).n = R.n := by
  obtain ⟨R', u, ps, h1, -, h3, h4, -⟩ := entangle_keeps h (bits := [c, t].mergeSort (· ≤ ·)) (fun b hb => by
    rw [List.mem_mergeSort] at hb
    simp only [List.mem_cons, List.not_mem_nil, or_false] at hb
    rcases hb with rfl | rfl <;> assumption) (sort_ne_nil (by simp))
  unfold Reg.controlled
  rw [h1]
  exact ⟨⟨h4.lt, h4.inj⟩, h3⟩

/-- C83. `TrySeparate` of two qubits never changes the state, but for a phase, whatever angles it has found. -/
theorem trySeparatePair_keeps {R : Reg} (h : R.Ready) {q1 q2 : ℕ} (h1 : q1 < R.n) (h2 : q2 < R.n) (hne : q1 ≠ q2)
    (hu : R.unit q1 = R.unit q2) {phase1 phase2 : ℂ} (hp1 : Complex.normSq phase1 = 1) (hp2 : Complex.normSq phase2 = 1) {c a m1 m2 : M2}
    (hc : c.IsUnitary) (ha : a.IsUnitary) (hm1 : m1.IsUnitary) (hm2 : m2.IsUnitary) :
    let r := R.trySeparatePair phase1 phase2 (M2.t c.adj) (M2.t c) (M2.t a.adj) (M2.t a) (M2.t m1.adj) (M2.t m1) (M2.t m2.adj) (M2.t m2) q1 q2
    (∃ z : ℂ, Complex.normSq z = 1 ∧ ∀ i, r.2.joint i = z * R.joint i) ∧ r.2.Valid ∧ r.2.n = R.n := by
  intro r
  have hpos : R.pos q1 ≠ R.pos q2 := fun e => hne (h.valid.inj q1 h1 q2 h2 hu e)
  have hold : ∀ (perm : ℕ) {S : Reg}, S.Valid → q1 < S.n → S.unit q1 = S.unit q2 → ∀ i,
      Matches perm [S.pos q1] (S.held (S.unit q2) i) ↔ Matches perm [q1] i := by
    intro perm S hS hq he i
    have e : (S.held (S.unit q2) i).testBit (S.pos q1) = i.testBit q1 := by rw [← he, held_at hS hq]
    unfold Matches
    constructor
    · intro h1 k hk
      have := h1 k hk
      have hk' : k = 0 := by simpa using hk
      subst hk'
      simpa [e] using this
    · intro h1 k hk
      have := h1 k hk
      have hk' : k = 0 := by simpa using hk
      subst hk'
      simpa [e] using this
  have r1 : (R.act (R.unit q2) (gate (Matches 1 [R.pos q1]) (R.pos q2) c.a c.b c.c c.d)).Ready :=
    act_ready h ((gate_total (h.valid.lt q2 h2) (ignores_one hpos) hc _).trans (h.normal q2 h2))
  have j1 : (R.act (R.unit q2) (gate (Matches 1 [R.pos q1]) (R.pos q2) c.a c.b c.c c.d)).joint =
      gate (Matches 1 [q1]) q2 c.a c.b c.c c.d R.joint := act_gate h.valid h2 (hold 1 h.valid h1 hu) _ _ _ _
  set R1 := R.act (R.unit q2) (gate (Matches 1 [R.pos q1]) (R.pos q2) c.a c.b c.c c.d) with hR1
  have r2 : (R1.act (R1.unit q2) (gate (Matches 0 [R1.pos q1]) (R1.pos q2) a.a a.b a.c a.d)).Ready :=
    act_ready r1 ((gate_total (r1.valid.lt q2 h2) (ignores_one hpos) ha _).trans (r1.normal q2 h2))
  have j2 : (R1.act (R1.unit q2) (gate (Matches 0 [R1.pos q1]) (R1.pos q2) a.a a.b a.c a.d)).joint =
      gate (Matches 0 [q1]) q2 a.a a.b a.c a.d R1.joint := act_gate r1.valid h2 (hold 0 r1.valid h1 hu) _ _ _ _
  set R2 := R1.act (R1.unit q2) (gate (Matches 0 [R1.pos q1]) (R1.pos q2) a.a a.b a.c a.d) with hR2
  obtain ⟨⟨z1, hz1, k1⟩, s1, n1, -⟩ := trySeparate_keeps r2 (q := q1) h1 hp1 hm1
  set S1 := (R2.trySeparate phase1 (M2.t m1.adj) (M2.t m1) q1) with hS1
  have n1' : S1.2.n = R.n := n1
  obtain ⟨⟨z2, hz2, k2⟩, s2, n2, -⟩ := trySeparate_keeps s1 (q := q2) (by omega) hp2 hm2
  set S2 := (S1.2.trySeparate phase2 (M2.t m2.adj) (M2.t m2) q2) with hS2
  have n2' : S2.2.n = R.n := n2.trans n1'
  have hr : r.2 = (S2.2.controlled 0 q1 q2 (M2.t a.adj)).controlled 1 q1 q2 (M2.t c.adj) := rfl
  obtain ⟨v1, w1⟩ := controlled_valid s2.valid (c := q1) (t := q2) (by omega) (by omega) 0 (M2.t a.adj)
  obtain ⟨v2, w2⟩ := controlled_valid v1 (c := q1) (t := q2) (by omega) (by omega) 1 (M2.t c.adj)
  rw [hr]
  refine ⟨⟨z2 * z1, by rw [map_mul, hz1, hz2, one_mul], fun i => ?_⟩, v2, by omega⟩
  have jS : S2.2.joint = fun i => (z2 * z1) * R2.joint i := by
    funext i; rw [k2, k1, mul_assoc]
  rw [controlled_joint v1 (by omega) (by omega), controlled_joint s2.valid (by omega) (by omega), jS, gate_scale, j2]
  have e1 : (fun i => z2 * z1 * gate (Matches 0 [q1]) q2 a.adj.a a.adj.b a.adj.c a.adj.d
      (gate (Matches 0 [q1]) q2 a.a a.b a.c a.d R1.joint) i) = fun i => (z2 * z1) * R1.joint i := by
    funext i; rw [gate_adj (ignores_one hne) ha]
  rw [e1, gate_scale, j1]
  dsimp only
  rw [gate_adj (ignores_one hne) hc]

example (c : M2) (hc : c.IsUnitary) : ∃ z : ℂ, Complex.normSq z = 1 ∧ ∀ i,
    (three.trySeparatePair 1 1 (M2.t c.adj) (M2.t c) (M2.t c.adj) (M2.t c) (M2.t c.adj) (M2.t c) (M2.t c.adj) (M2.t c) 0 2).2.joint i =
      z * three.joint i := by
  have h : three.unit 0 = three.unit 2 := by decide
  have := trySeparatePair_keeps three_ready (q1 := 0) (q2 := 2) (by decide) (by decide) (by decide) h (phase1 := 1) (phase2 := 1)
    (map_one _) (map_one _) hc hc hc hc
  exact this.1

/-! ## Shots -/

/-- C83. What `MultiShotMeasureMask` hands to the unit: always the place of qubit 0, whichever qubit is asked for. -/
theorem mappedPower_is (R : Reg) (hn : 0 < R.n) (q : ℕ) : R.mappedPower (2 ^ q) = 2 ^ R.pos 0 := by
  unfold Reg.mappedPower
  obtain ⟨m, hm⟩ : ∃ m, R.n = m + 1 := ⟨R.n - 1, by omega⟩
  rw [hm, List.range_succ_eq_map, List.find?_cons_of_pos (by simpa using Nat.one_le_two_pow)]

/-- So all bits of every shot are equal. -/
theorem shot_equal (R : Reg) (hn : 0 < R.n) (qs : List ℕ) (j : ℕ) {k l : ℕ} (hk : k < qs.length) (hl : l < qs.length) :
    (R.shot (qs.map (2 ^ ·)) j).testBit k = (R.shot (qs.map (2 ^ ·)) j).testBit l := by
  have h1 : (qs.map (2 ^ ·)).map R.mappedPower = List.replicate qs.length (2 ^ R.pos 0) := by
    rw [List.map_map, List.eq_replicate_iff]
    refine ⟨by simp, fun b hb => ?_⟩
    obtain ⟨q, -, rfl⟩ := List.mem_map.1 hb
    exact mappedPower_is R hn q
  unfold Reg.shot sample
  rw [h1, Nat.testBit_ofBits_lt _ _ (by simpa using hk), Nat.testBit_ofBits_lt _ _ (by simpa using hl)]
  simp

/-- Three qubits, the first two in a unit that is `|1⟩|0⟩` for certain: qubit 0 is set, qubit 1 is not. -/
def certainly : Reg where
  n := 3
  unit q := if q = 2 then 1 else 0
  pos q := if q = 1 then 1 else 0
  size u := if u = 0 then 2 else 1
  amp u j := if u = 0 then (if j = 1 then 1 else 0) else if j = 0 then 1 else 0

/-- C83 fails for `MultiShotMeasureMask` with an array: there is a register where qubit 0 is set and qubit 1 is not, for certain, but no shot
of the two is ever `01`. -/
theorem shot_wrong : ∃ R : Reg, R.Valid ∧ R.unit 0 = R.unit 1 ∧ (∀ i, R.joint i ≠ 0 → i.testBit 0 = true ∧ i.testBit 1 = false) ∧
    (∃ i, R.joint i ≠ 0) ∧ ∀ j, R.shot [2 ^ 0, 2 ^ 1] j ≠ 1 := by
  have hv : certainly.Valid := by
    constructor
    · intro q hq
      change q < 3 at hq
      interval_cases q <;> decide
    · intro p hp q hq
      change p < 3 at hp
      change q < 3 at hq
      interval_cases p <;> interval_cases q <;> decide
  refine ⟨certainly, hv, rfl, fun i hi => ?_, ⟨1, ?_⟩, fun j hj => ?_⟩
  · rw [joint_split ⟨0, by decide, rfl⟩] at hi
    have h1 : certainly.held 0 i = 1 := by
      by_contra h2
      apply left_ne_zero_of_mul hi
      change (if certainly.held 0 i = 1 then (1 : ℂ) else 0) = 0
      rw [if_neg h2]
    have a0 := held_at hv (q := 0) (by decide) i
    have a1 := held_at hv (q := 1) (by decide) i
    change (certainly.held 0 i).testBit 0 = _ at a0
    change (certainly.held 0 i).testBit 1 = _ at a1
    rw [h1] at a0 a1
    exact ⟨a0.symm, a1.symm⟩
  · rw [joint_eq, prod_ne_zero_iff]
    intro u hu
    have hu' : u = 0 ∨ u = 1 := by
      obtain ⟨k, -, rfl⟩ := mem_image.1 hu
      change (if k = 2 then 1 else 0) = 0 ∨ (if k = 2 then 1 else 0) = 1
      split_ifs <;> simp
    rcases hu' with rfl | rfl
    · rw [show certainly.held 0 1 = 1 by decide +kernel]
      simp [certainly]
    · rw [show certainly.held 1 1 = 0 by decide +kernel]
      simp [certainly]
  · have := shot_equal certainly (by decide) [0, 1] j (k := 0) (l := 1) (by decide) (by decide)
    change (certainly.shot [2 ^ 0, 2 ^ 1] j).testBit 0 = (certainly.shot [2 ^ 0, 2 ^ 1] j).testBit 1 at this
    rw [hj] at this
    exact absurd this (by decide)

/-- C83. The shots are right when one qubit is asked for, and it is qubit 0. -/
theorem shot_partial {R : Reg} (h : R.Valid) (hn : 0 < R.n) (i : ℕ) :
    (R.shot [2 ^ 0] (R.held (R.unit 0) i)).testBit 0 = i.testBit 0 := by
  unfold Reg.shot sample
  rw [Nat.testBit_ofBits_lt _ _ (by simp)]
  change (R.held (R.unit 0) i).testBit (Nat.log2 (R.mappedPower (2 ^ 0))) = _
  rw [mappedPower_is R hn 0, Nat.log2_two_pow, held_at h hn]

example (i : ℕ) : (three.shot [2 ^ 0] (three.held 0 i)).testBit 0 = i.testBit 0 := shot_partial three_ready.valid (by decide) i

end Verif.QUE
