import Verif.Model.UnitMeasure
import Verif.Lemmas.UnitEntangle
import Mathlib.Algebra.BigOperators.Ring.Finset
import Mathlib.Algebra.Order.BigOperators.Group.List
import Mathlib.Tactic.Linarith

/-! # Lemmas about reading and separating units of `QUnit` -/

namespace Verif.QUE

open Verif.Spec Finset

/-- The invariant of a register: places are inside the unit and none is used twice, every place belongs to a qubit, and every unit has a
state of length one. -/
structure Reg.Ready (R : Reg) : Prop where
  valid : R.Valid
  full : ∀ k < R.n, ∀ p < R.size (R.unit k), ∃ q < R.n, R.unit q = R.unit k ∧ R.pos q = p
  normal : ∀ k < R.n, ∑ j ∈ range (2 ^ R.size (R.unit k)), Complex.normSq (R.amp (R.unit k) j) = 1

/-! ## Sums over the whole register -/

theorem fubini {R : Reg} (h : R.Ready) (g : ℕ → ℕ → ℝ) :
    ∑ i ∈ range (2 ^ R.n), ∏ u ∈ (range R.n).image R.unit, g u (R.held u i) =
      ∏ u ∈ (range R.n).image R.unit, ∑ j ∈ range (2 ^ R.size u), g u j := by
  rw [Finset.prod_sum]
  refine sum_bij (fun i _ => fun u _ => R.held u i) ?_ ?_ ?_ ?_
  · intro i _
    rw [mem_pi]
    intro u _
    exact mem_range.2 (part_lt _ _ _ _ _ _)
  · intro a ha b hb hab
    apply Nat.eq_of_testBit_eq
    intro q
    by_cases hq : q < R.n
    · have := congrFun (congrFun hab (R.unit q)) (mem_image.2 ⟨q, mem_range.2 hq, rfl⟩)
      rw [← held_at h.valid hq a, this, held_at h.valid hq]
    · have e : ∀ c ∈ range (2 ^ R.n), c.testBit q = false := fun c hc =>
        Nat.testBit_lt_two_pow (lt_of_lt_of_le (mem_range.1 hc) (Nat.pow_le_pow_right (by omega) (by omega)))
      rw [e a ha, e b hb]
  · intro f hf
    rw [mem_pi] at hf
    refine ⟨Nat.ofBits fun q : Fin R.n => (f (R.unit q) (mem_image.2 ⟨q, mem_range.2 q.2, rfl⟩)).testBit (R.pos q),
      mem_range.2 (Nat.ofBits_lt_two_pow _), ?_⟩
    funext u hu
    apply held_ext h.valid
    · intro q hq hqu
      subst hqu
      rw [Nat.testBit_ofBits_lt _ _ hq]
    · intro p hp
      have hlt := mem_range.1 (hf u hu)
      obtain ⟨k, hk, rfl⟩ := mem_image.1 hu
      by_cases hps : p < R.size (R.unit k)
      · obtain ⟨q, hq, h1, h2⟩ := h.full k (mem_range.1 hk) p hps
        exact absurd h2 (hp q hq h1)
      · exact Nat.testBit_lt_two_pow (lt_of_lt_of_le hlt (Nat.pow_le_pow_right (by omega) (by omega)))
  · intro i _
    exact (prod_attach _ fun u => g u (R.held u i)).symm

/-- The sum of weights, one for every unit. -/
theorem weigh {R : Reg} (h : R.Ready) (f : ℕ → ℕ → ℝ) :
    ∑ i ∈ range (2 ^ R.n), (∏ u ∈ (range R.n).image R.unit, f u (R.held u i)) * Complex.normSq (R.joint i) =
      ∏ u ∈ (range R.n).image R.unit, ∑ j ∈ range (2 ^ R.size u), f u j * Complex.normSq (R.amp u j) := by
  rw [← fubini h fun u j => f u j * Complex.normSq (R.amp u j)]
  refine sum_congr rfl fun i _ => ?_
  rw [joint_eq, map_prod, prod_mul_distrib]

/-- The weight of what one unit holds. -/
theorem marginal {R : Reg} (h : R.Ready) {q : ℕ} (hq : q < R.n) (f : ℕ → ℝ) :
    ∑ i ∈ range (2 ^ R.n), f (R.held (R.unit q) i) * Complex.normSq (R.joint i) =
      ∑ j ∈ range (2 ^ R.size (R.unit q)), f j * Complex.normSq (R.amp (R.unit q) j) := by
  have hm : R.unit q ∈ (range R.n).image R.unit := mem_image.2 ⟨q, mem_range.2 hq, rfl⟩
  have h1 := weigh h fun u j => if u = R.unit q then f j else 1
  rw [← mul_prod_erase _ _ hm] at h1
  have h2 : ∏ u ∈ ((range R.n).image R.unit).erase (R.unit q), ∑ j ∈ range (2 ^ R.size u),
      (if u = R.unit q then f j else 1) * Complex.normSq (R.amp u j) = 1 := by
    refine prod_eq_one fun u hu => ?_
    rw [mem_erase] at hu
    obtain ⟨k, hk, rfl⟩ := mem_image.1 hu.2
    refine Eq.trans (sum_congr rfl fun j _ => ?_) (h.normal k (mem_range.1 hk))
    rw [if_neg hu.1, one_mul]
  rw [h2, mul_one] at h1
  simp only [if_true] at h1
  rw [← h1]
  refine sum_congr rfl fun i _ => ?_
  congr 1
  rw [← mul_prod_erase _ _ hm, if_pos rfl, prod_eq_one, mul_one]
  intro u hu
  rw [mem_erase] at hu
  rw [if_neg hu.1]

theorem total {R : Reg} (h : R.Ready) : ∑ i ∈ range (2 ^ R.n), Complex.normSq (R.joint i) = 1 := by
  have h1 := weigh h fun _ _ => 1
  simp only [prod_const_one, one_mul] at h1
  rw [h1]
  refine prod_eq_one fun u hu => ?_
  obtain ⟨k, hk, rfl⟩ := mem_image.1 hu
  exact h.normal k (mem_range.1 hk)

/-! ## Taking a qubit out of its unit -/

theorem testBit_insBit (p : ℕ) (v : Bool) (j k : ℕ) :
    (insBit p v j).testBit k = if k < p then j.testBit k else if k = p then v else j.testBit (k - 1) := by
  have h1 : j % 2 ^ p < 2 ^ p := Nat.mod_lt _ (by positivity)
  have h2 : 2 ^ p * v.toNat + j % 2 ^ p < 2 ^ (p + 1) := by
    rw [pow_succ]; cases v <;> simp <;> omega
  have h3 : insBit p v j = 2 ^ (p + 1) * (j / 2 ^ p) + (2 ^ p * v.toNat + j % 2 ^ p) := by unfold insBit; ring
  rw [h3, Nat.testBit_two_pow_mul_add _ h2, Nat.testBit_two_pow_mul_add _ h1]
  by_cases a : k < p
  · rw [if_pos (by omega), if_pos a, if_pos a, Nat.testBit_mod_two_pow, decide_eq_true a, Bool.true_and]
  · rw [if_neg a, if_neg a]
    by_cases b : k = p
    · subst b
      rw [if_pos (by omega), if_pos rfl, Nat.sub_self]
      cases v <;> rfl
    · rw [if_neg (by omega), if_neg b, Nat.testBit_div_two_pow]
      congr 1; omega

theorem insBit_lt {p m j : ℕ} (v : Bool) (hp : p ≤ m) (hj : j < 2 ^ m) : insBit p v j < 2 ^ (m + 1) := by
  apply Nat.lt_pow_two_of_testBit
  intro k hk
  rw [testBit_insBit, if_neg (by omega), if_neg (by omega)]
  exact Nat.testBit_lt_two_pow (lt_of_lt_of_le hj (Nat.pow_le_pow_right (by omega) (by omega)))

theorem sum_insBit {p m : ℕ} (v : Bool) (hp : p ≤ m) (f : ℕ → ℝ) :
    ∑ j ∈ range (2 ^ m), f (insBit p v j) = ∑ j ∈ range (2 ^ (m + 1)), if j.testBit p = v then f j else 0 := by
  rw [← sum_filter]
  refine sum_bij (fun j _ => insBit p v j) ?_ ?_ ?_ ?_
  · intro j hj
    rw [mem_filter, mem_range]
    exact ⟨insBit_lt v hp (mem_range.1 hj), by rw [testBit_insBit, if_neg (by omega), if_pos rfl]⟩
  · intro a _ b _ hab
    apply Nat.eq_of_testBit_eq
    intro k
    by_cases hk : k < p
    · have := congrArg (·.testBit k) hab
      simp only [testBit_insBit, if_pos hk] at this
      exact this
    · have := congrArg (·.testBit (k + 1)) hab
      simp only [testBit_insBit, if_neg (show ¬ k + 1 < p by omega), if_neg (show ¬ k + 1 = p by omega), Nat.add_sub_cancel] at this
      exact this
  · intro y hy
    rw [mem_filter, mem_range] at hy
    refine ⟨Nat.ofBits fun k : Fin m => y.testBit (if k.1 < p then k.1 else k.1 + 1), mem_range.2 (Nat.ofBits_lt_two_pow _), ?_⟩
    apply Nat.eq_of_testBit_eq
    intro k
    rw [testBit_insBit]
    by_cases a : k < p
    · rw [if_pos a, Nat.testBit_ofBits_lt _ _ (by omega), if_pos a]
    · rw [if_neg a]
      by_cases b : k = p
      · rw [if_pos b, b, hy.2]
      · rw [if_neg b]
        by_cases c : k - 1 < m
        · rw [Nat.testBit_ofBits_lt _ _ c]
          dsimp only
          rw [if_neg (by omega)]; congr 1; omega
        · rw [Nat.testBit_ofBits_ge _ _ (by omega)]
          exact (Nat.testBit_lt_two_pow (lt_of_lt_of_le hy.1 (Nat.pow_le_pow_right (by omega) (by omega)))).symm
  · intro j _; rfl

theorem fresh_ne (R : Reg) {k : ℕ} (hk : k < R.n) : R.unit k ≠ R.fresh := by
  have : R.unit k ≤ ((List.range R.n).map R.unit).sum :=
    List.single_le_sum (fun _ _ => Nat.zero_le _) _ (List.mem_map.2 ⟨k, List.mem_range.2 hk, rfl⟩)
  unfold Reg.fresh
  omega

section separate

variable {R : Reg} (phase : ℂ) (v : Bool) {q : ℕ}

theorem sep_unit_self : (R.separate phase v q).unit q = R.fresh := by unfold Reg.separate; simp

theorem sep_unit {k : ℕ} (hk : k ≠ q) : (R.separate phase v q).unit k = R.unit k := by unfold Reg.separate; simp [hk]

theorem sep_pos_self : (R.separate phase v q).pos q = 0 := by unfold Reg.separate; simp

theorem sep_pos {k : ℕ} (hk : k ≠ q) : (R.separate phase v q).pos k =
    if R.unit k = R.unit q ∧ R.pos q < R.pos k then R.pos k - 1 else R.pos k := by unfold Reg.separate; simp [hk]

theorem sep_size_fresh : (R.separate phase v q).size R.fresh = 1 := by unfold Reg.separate; simp

theorem sep_size_unit (hq : q < R.n) : (R.separate phase v q).size (R.unit q) = R.size (R.unit q) - 1 := by
  unfold Reg.separate
  dsimp only
  rw [Function.update_of_ne (fresh_ne R hq), Function.update_self]

theorem sep_size {u : ℕ} (h1 : u ≠ R.fresh) (h2 : u ≠ R.unit q) : (R.separate phase v q).size u = R.size u := by
  unfold Reg.separate
  dsimp only
  rw [Function.update_of_ne h1, Function.update_of_ne h2]

theorem sep_amp_fresh : (R.separate phase v q).amp R.fresh = fun j => if j.testBit 0 = v then phase else 0 := by
  unfold Reg.separate; simp

theorem sep_amp_unit (hq : q < R.n) : (R.separate phase v q).amp (R.unit q) = fun j => R.amp (R.unit q) (insBit (R.pos q) v j) := by
  unfold Reg.separate
  dsimp only
  rw [Function.update_of_ne (fresh_ne R hq), Function.update_self]

theorem sep_amp {u : ℕ} (h1 : u ≠ R.fresh) (h2 : u ≠ R.unit q) : (R.separate phase v q).amp u = R.amp u := by
  unfold Reg.separate
  dsimp only
  rw [Function.update_of_ne h1, Function.update_of_ne h2]

theorem sep_valid (h : R.Valid) (hq : q < R.n) : (R.separate phase v q).Valid := by
  have key : ∀ k < R.n, k ≠ q → R.unit k = R.unit q → R.pos k ≠ R.pos q := fun k hk h1 h2 h3 => h1 (h.inj k hk q hq h2 h3)
  have hq' := h.lt q hq
  constructor
  · intro k hk
    change k < R.n at hk
    by_cases h1 : k = q
    · subst h1
      rw [sep_unit_self, sep_pos_self, sep_size_fresh]; omega
    · have := h.lt k hk
      rw [sep_unit _ _ h1, sep_pos _ _ h1]
      by_cases h2 : R.unit k = R.unit q
      · have h3 := key k hk h1 h2
        rw [h2] at this
        rw [h2, sep_size_unit _ _ hq]
        split_ifs <;> omega
      · rw [sep_size _ _ (fresh_ne R hk) h2, if_neg (fun h => h2 h.1)]; exact this
  · intro a ha b hb h1 h2
    change a < R.n at ha
    change b < R.n at hb
    by_cases ea : a = q <;> by_cases eb : b = q
    · rw [ea, eb]
    · subst ea
      rw [sep_unit_self, sep_unit _ _ eb] at h1
      exact absurd h1.symm (fresh_ne R hb)
    · subst eb
      rw [sep_unit_self, sep_unit _ _ ea] at h1
      exact absurd h1 (fresh_ne R ha)
    · rw [sep_unit _ _ ea, sep_unit _ _ eb] at h1
      rw [sep_pos _ _ ea, sep_pos _ _ eb] at h2
      apply h.inj a ha b hb h1
      by_cases hu : R.unit a = R.unit q
      · have ka := key a ha ea hu
        have kb := key b hb eb (h1.symm.trans hu)
        rw [← h1] at h2
        split_ifs at h2 <;> omega
      · rw [if_neg (fun h => hu h.1), if_neg (fun h => hu (h1.trans h.1))] at h2
        exact h2

/-- What the unit holds without the qubit, with the bit put in again. -/
theorem insBit_held (h : R.Valid) (hq : q < R.n) {i : ℕ} (hi : i.testBit q = v) :
    insBit (R.pos q) v ((R.separate phase v q).held (R.unit q) i) = R.held (R.unit q) i := by
  have key : ∀ k < R.n, k ≠ q → R.unit k = R.unit q → R.pos k ≠ R.pos q := fun k hk h1 h2 h3 => h1 (h.inj k hk q hq h2 h3)
  symm
  apply held_ext h
  · intro k hk h1
    rw [testBit_insBit]
    by_cases ek : k = q
    · subst ek
      rw [if_neg (by omega), if_pos rfl, hi]
    · have h2 := key k hk ek h1
      have h3 := held_at (sep_valid phase v h hq) (q := k) hk i
      rw [sep_unit _ _ ek, sep_pos _ _ ek, h1] at h3
      by_cases h4 : R.pos k < R.pos q
      · rw [if_neg (by omega)] at h3
        rw [if_pos h4, h3]
      · rw [if_pos ⟨rfl, by omega⟩] at h3
        rw [if_neg h4, if_neg h2, h3]
  · intro p hp
    have hpq : p ≠ R.pos q := fun h1 => hp q hq rfl h1.symm
    have free : ∀ p', (p' < R.pos q → p' = p) → (R.pos q ≤ p' → p' + 1 = p) →
        ((R.separate phase v q).held (R.unit q) i).testBit p' = false := by
      intro p' e1 e2
      apply held_free
      intro k hk h1 h2
      change k < R.n at hk
      have ek : k ≠ q := by
        rintro rfl
        rw [sep_unit_self] at h1
        exact fresh_ne R hq h1.symm
      rw [sep_unit _ _ ek] at h1
      rw [sep_pos _ _ ek] at h2
      have h3 := key k hk ek h1
      by_cases h4 : R.pos q < R.pos k
      · rw [if_pos ⟨h1, h4⟩] at h2
        exact hp k hk h1 (by have := e2 (by omega); omega)
      · rw [if_neg (fun h => h4 h.2)] at h2
        exact hp k hk h1 (by have := e1 (by omega); omega)
    rw [testBit_insBit]
    by_cases h4 : p < R.pos q
    · rw [if_pos h4]; exact free p (fun _ => rfl) (fun h5 => by omega)
    · rw [if_neg h4, if_neg hpq]; exact free (p - 1) (fun h5 => by omega) (fun h5 => by omega)

theorem sep_used (hq : q < R.n) : ((range (R.separate phase v q).n).image (R.separate phase v q).unit).erase R.fresh =
    ((range R.n).erase q).image R.unit := by
  ext u
  simp only [mem_erase, mem_image, mem_range]
  constructor
  · rintro ⟨h1, k, hk, h2⟩
    change k < R.n at hk
    by_cases ek : k = q
    · subst ek; rw [sep_unit_self] at h2; exact absurd h2.symm h1
    · rw [sep_unit _ _ ek] at h2; exact ⟨k, ⟨ek, hk⟩, h2⟩
  · rintro ⟨k, ⟨ek, hk⟩, rfl⟩
    exact ⟨fresh_ne R hk, k, hk, sep_unit _ _ ek⟩

theorem sep_held_fresh (h : R.Valid) (hq : q < R.n) (i : ℕ) : ((R.separate phase v q).held R.fresh i).testBit 0 = i.testBit q := by
  have := held_at (sep_valid phase v h hq) (q := q) hq i
  rw [sep_unit_self, sep_pos_self] at this
  exact this

theorem sep_held_other {u : ℕ} (h1 : u ≠ R.fresh) (h2 : u ≠ R.unit q) (i : ℕ) : (R.separate phase v q).held u i = R.held u i := by
  apply Nat.eq_of_testBit_eq
  intro p
  unfold Reg.held
  rw [part_testBit, part_testBit, Bool.eq_iff_iff]
  simp only [Bool.and_eq_true, decide_eq_true_eq]
  rw [sep_size _ _ h1 h2]
  refine and_congr_right fun _ => ?_
  constructor
  · rintro ⟨k, hk, h3, h4, h5⟩
    have ek : k ≠ q := by rintro rfl; rw [sep_unit_self] at h3; exact h1 h3.symm
    rw [sep_unit _ _ ek] at h3
    rw [sep_pos _ _ ek, if_neg (fun h => h2 (by rw [← h3, h.1]))] at h4
    exact ⟨k, hk, h3, h4, h5⟩
  · rintro ⟨k, hk, h3, h4, h5⟩
    have ek : k ≠ q := by rintro rfl; exact h2 h3.symm
    refine ⟨k, hk, by rw [sep_unit _ _ ek, h3], ?_, h5⟩
    rw [sep_pos _ _ ek, if_neg (fun h => h2 (by rw [← h3, h.1])), h4]

/-- Separating a qubit that has its value for certain does not change the state, but for a phase. -/
theorem sep_joint (h : R.Ready) (hq : q < R.n) (hp : Complex.normSq phase = 1)
    (he : ∀ j < 2 ^ R.size (R.unit q), R.amp (R.unit q) j ≠ 0 → j.testBit (R.pos q) = v) :
    ∃ z : ℂ, Complex.normSq z = 1 ∧ ∀ i, (R.separate phase v q).joint i = z * R.joint i := by
  have hsp : ∀ i, (R.separate phase v q).joint i = (if i.testBit q = v then phase else 0) *
      ∏ u ∈ ((range R.n).erase q).image R.unit, (R.separate phase v q).amp u ((R.separate phase v q).held u i) := by
    intro i
    rw [joint_split (R := R.separate phase v q) ⟨q, hq, sep_unit_self phase v⟩, sep_amp_fresh]
    dsimp only
    rw [sep_held_fresh _ _ h.valid hq]
    unfold Reg.rest
    rw [sep_used _ _ hq]
  have hz : ∀ i, i.testBit q ≠ v → R.joint i = 0 := by
    intro i hi
    rw [joint_split ⟨q, hq, rfl⟩]
    by_contra h0
    have h1 := he (R.held (R.unit q) i) (part_lt _ _ _ _ _ _) (left_ne_zero_of_mul h0)
    rw [held_at h.valid hq] at h1
    exact hi h1
  have others : ∀ i, ∏ u ∈ ((range R.n).image R.unit).erase (R.unit q), (R.separate phase v q).amp u ((R.separate phase v q).held u i) =
      R.rest (R.unit q) i := by
    intro i
    unfold Reg.rest
    refine prod_congr rfl fun u hu => ?_
    rw [mem_erase] at hu
    obtain ⟨k, hk, rfl⟩ := mem_image.1 hu.2
    rw [sep_amp _ _ (fresh_ne R (mem_range.1 hk)) hu.1, sep_held_other _ _ (fresh_ne R (mem_range.1 hk)) hu.1]
  by_cases hc : ∃ k < R.n, k ≠ q ∧ R.unit k = R.unit q
  · refine ⟨phase, hp, fun i => ?_⟩
    rw [hsp]
    by_cases hi : i.testBit q = v
    · rw [if_pos hi]
      congr 1
      obtain ⟨k, hk, h1, h2⟩ := hc
      have hW : ((range R.n).erase q).image R.unit = (range R.n).image R.unit := by
        ext u
        simp only [mem_image, mem_erase, mem_range]
        constructor
        · rintro ⟨l, hl, rfl⟩; exact ⟨l, hl.2, rfl⟩
        · rintro ⟨l, hl, rfl⟩
          by_cases e : l = q
          · subst e; exact ⟨k, ⟨h1, hk⟩, h2⟩
          · exact ⟨l, ⟨e, hl⟩, rfl⟩
      rw [hW, ← mul_prod_erase _ _ (mem_image.2 ⟨q, mem_range.2 hq, rfl⟩), others, sep_amp_unit _ _ hq]
      dsimp only
      rw [insBit_held _ _ h.valid hq hi, joint_split ⟨q, hq, rfl⟩]
    · rw [if_neg hi, hz i hi, zero_mul, mul_zero]
  · push Not at hc
    have hs : R.size (R.unit q) = 1 ∧ R.pos q = 0 := by
      have h1 := h.valid.lt q hq
      have h2 : ∀ p < R.size (R.unit q), p = R.pos q := by
        intro p hp'
        obtain ⟨k, hk, h3, h4⟩ := h.full q hq p hp'
        by_cases e : k = q
        · rw [← h4, e]
        · exact absurd h3 (hc k hk e)
      have h3 := h2 0 (by omega)
      have h4 := h2 (R.size (R.unit q) - 1) (by omega)
      omega
    have hW : ((range R.n).erase q).image R.unit = ((range R.n).image R.unit).erase (R.unit q) := by
      ext u
      simp only [mem_image, mem_erase, mem_range]
      constructor
      · rintro ⟨l, hl, rfl⟩; exact ⟨hc l hl.2 hl.1, l, hl.2, rfl⟩
      · rintro ⟨h1, l, hl, rfl⟩; exact ⟨l, ⟨by rintro rfl; exact h1 rfl, hl⟩, rfl⟩
    have hn := h.normal q hq
    rw [hs.1, show (2 : ℕ) ^ 1 = 2 from rfl, sum_range_succ, sum_range_one] at hn
    have hv : ∀ w : Bool, w ≠ v → R.amp (R.unit q) w.toNat = 0 := by
      intro w hw
      by_contra h0
      have := he w.toNat (by rw [hs.1]; cases w <;> decide) h0
      rw [hs.2] at this
      apply hw
      rw [← this]; cases w <;> rfl
    have hnv : Complex.normSq (R.amp (R.unit q) v.toNat) = 1 := by
      cases v
      · have := hv true (by decide)
        change R.amp (R.unit q) 1 = 0 at this
        rw [this, map_zero, add_zero] at hn
        exact hn
      · have := hv false (by decide)
        change R.amp (R.unit q) 0 = 0 at this
        rw [this, map_zero, zero_add] at hn
        exact hn
    have hne : R.amp (R.unit q) v.toNat ≠ 0 := by
      intro h0; rw [h0, map_zero] at hnv; exact zero_ne_one hnv
    refine ⟨phase / R.amp (R.unit q) v.toNat, by rw [map_div₀, hp, hnv, div_one], fun i => ?_⟩
    rw [hsp, hW, others]
    by_cases hi : i.testBit q = v
    · rw [if_pos hi, joint_split ⟨q, hq, rfl⟩]
      have h1 : R.held (R.unit q) i = v.toNat := by
        have h2 := held_at h.valid hq i
        rw [hs.2, hi] at h2
        have h3 : R.held (R.unit q) i < 2 ^ R.size (R.unit q) := part_lt _ _ _ _ _ _
        rw [hs.1] at h3
        generalize R.held (R.unit q) i = y at h2 h3
        rcases (by omega : y = 0 ∨ y = 1) with rfl | rfl
        · rw [← h2]; rfl
        · rw [← h2]; rfl
      rw [h1, ← mul_assoc, div_mul_cancel₀ _ hne]
    · rw [if_neg hi, hz i hi, zero_mul, mul_zero]

theorem sep_ready (h : R.Ready) (hq : q < R.n) (hp : Complex.normSq phase = 1)
    (he : ∀ j < 2 ^ R.size (R.unit q), R.amp (R.unit q) j ≠ 0 → j.testBit (R.pos q) = v) : (R.separate phase v q).Ready := by
  have hlt := h.valid.lt q hq
  refine ⟨sep_valid phase v h.valid hq, ?_, ?_⟩
  · intro k hk p hp'
    change k < R.n at hk
    by_cases ek : k = q
    · subst ek
      rw [sep_unit_self, sep_size_fresh] at hp'
      exact ⟨k, hq, rfl, by rw [sep_pos_self]; omega⟩
    · rw [sep_unit _ _ ek] at hp' ⊢
      by_cases h1 : R.unit k = R.unit q
      · rw [h1, sep_size_unit _ _ hq] at hp'
        rw [h1]
        by_cases h2 : p < R.pos q
        · obtain ⟨l, hl, h3, h4⟩ := h.full q hq p (by omega)
          have el : l ≠ q := by rintro rfl; omega
          exact ⟨l, hl, by rw [sep_unit _ _ el, h3], by rw [sep_pos _ _ el, if_neg (by omega), h4]⟩
        · obtain ⟨l, hl, h3, h4⟩ := h.full q hq (p + 1) (by omega)
          have el : l ≠ q := by rintro rfl; omega
          exact ⟨l, hl, by rw [sep_unit _ _ el, h3], by rw [sep_pos _ _ el, if_pos ⟨h3, by omega⟩, h4]; rfl⟩
      · rw [sep_size _ _ (fresh_ne R hk) h1] at hp'
        obtain ⟨l, hl, h3, h4⟩ := h.full k hk p hp'
        have el : l ≠ q := by rintro rfl; exact h1 h3.symm
        exact ⟨l, hl, by rw [sep_unit _ _ el, h3], by rw [sep_pos _ _ el, if_neg (fun h5 => h1 (by rw [← h3, h5.1])), h4]⟩
  · intro k hk
    change k < R.n at hk
    by_cases ek : k = q
    · subst ek
      rw [sep_unit_self, sep_size_fresh, sep_amp_fresh, show (2 : ℕ) ^ 1 = 2 from rfl, sum_range_succ, sum_range_one]
      cases v <;> simp [hp]
    · rw [sep_unit _ _ ek]
      by_cases h1 : R.unit k = R.unit q
      · rw [h1, sep_size_unit _ _ hq, sep_amp_unit _ _ hq]
        have hm : R.size (R.unit q) - 1 + 1 = R.size (R.unit q) := by omega
        rw [sum_insBit (m := R.size (R.unit q) - 1) v (by omega) fun j => Complex.normSq (R.amp (R.unit q) j), hm, ← h.normal q hq]
        refine sum_congr rfl fun j hj => ?_
        split_ifs with hb
        · rfl
        · by_cases h0 : R.amp (R.unit q) j = 0
          · rw [h0, map_zero]
          · exact absurd (he j (mem_range.1 hj) h0) hb
      · rw [sep_size _ _ (fresh_ne R hk) h1, sep_amp _ _ (fresh_ne R hk) h1]
        exact h.normal k hk

end separate

end Verif.QUE
