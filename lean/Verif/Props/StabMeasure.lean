import Verif.Props.StabHistory

/-!
# C28: measurement of a stabilizer state follows the Born rule
-/

namespace Verif.Stab

open Verif.Pauli Complex

variable {n : ℕ}

/-- The part of the state in which qubit `t` has the value `b`. -/
def proj (t : Fin n) (b : Bool) (ψ : State n) : State n := fun f => if f t = b then ψ f else 0

/-- The squared norm of that part: the probability of `b`, times the squared norm of the state. -/
noncomputable def weight (t : Fin n) (b : Bool) (ψ : State n) : ℝ := ∑ f : Bits n, normSq (proj t b ψ f)

theorem zRow_op (t : Fin n) (r : ℕ) (ψ : State n) (f : Bits n) :
    (zRow t r).op ψ f = I ^ r * (if f t then -1 else 1) * ψ f := by
  rw [op_apply]
  have e : bxor f (zRow (n := n) t r).x = f := by funext j; simp [bxor, zRow]
  rw [e, prod_split1 t]
  have h1 : rest {t} (zRow t r).x (zRow t r).z f = 1 := by
    unfold rest
    refine Finset.prod_eq_one fun j hj => ?_
    have hj : j ≠ t := by simpa using hj
    simp [zRow, hj, coef_ff]
  rw [h1, one_mul]
  congr 2
  cases hf : f t <;> simp [zRow, coef_ft0, coef_ft1]

/-- A generator with an `X` or `Y` at `t` that stabilises the state makes both values of qubit `t` equally likely. -/
theorem equal_weight {w : Row n} {ψ : State n} (h : w.op ψ = ψ) {t : Fin n} (hx : w.x t = true) :
    weight t true ψ = weight t false ψ := by
  have hinv : ∀ f : Bits n, bxor (bxor f w.x) w.x = f := by
    intro f; funext j; simp [bxor]
  have hn : ∀ f, normSq (ψ f) = normSq (ψ (bxor f w.x)) := by
    intro f
    conv_lhs => rw [← h, op_apply]
    rw [map_mul, map_mul, map_prod, map_pow, normSq_I, one_pow, one_mul, Finset.prod_eq_one, one_mul]
    intro j _
    cases w.x j <;> cases w.z j <;> cases f j <;> simp [coef_ff, coef_tf, coef_ft0, coef_ft1, coef_tt0, coef_tt1]
  unfold weight
  refine Finset.sum_bij' (fun f _ => bxor f w.x) (fun f _ => bxor f w.x) (fun _ _ => Finset.mem_univ _)
    (fun _ _ => Finset.mem_univ _) (fun f _ => hinv f) (fun f _ => hinv f) ?_
  intro f _
  unfold proj
  have : bxor f w.x t = !f t := by simp [bxor, hx]
  rw [this]
  cases hf : f t
  · simp
  · simpa using hn f

/-- A qubit reported as random: both outcomes have the same weight; whatever is drawn or asked for is reported; and the
generators left behind satisfy the relations and stabilise the state projected on that outcome. -/
theorem measure_random {T : Tab n} (h : Inv T) {t : ℕ} (ht : t < n) (hr : isSeparableZ T t = some false) {ψ : State n}
    (hψ : Stabilises T ψ) (result doForce rnd : Bool) :
    weight ⟨t, ht⟩ true ψ = weight ⟨t, ht⟩ false ψ ∧
    ∃ T', forceM T t result doForce true rnd = some (if doForce then result else rnd, T') ∧ Inv T' ∧
      Stabilises T' (proj ⟨t, ht⟩ (if doForce then result else rnd) ψ) := by
  have hex : ∃ p, findRow n (fun p => (T (p + n)).x ⟨t, ht⟩) = some p := by
    cases hf : findRow n (fun p => (T (p + n)).x ⟨t, ht⟩) with
    | some p => exact ⟨p, rfl⟩
    | none =>
      have := findRow_none hf
      unfold isSeparableZ at hr
      rw [dif_pos ht, Option.some.injEq, List.all_eq_false] at hr
      obtain ⟨p, hp, hx⟩ := hr
      rw [List.mem_range] at hp
      rw [this p hp] at hx
      simp at hx
  obtain ⟨p, hf⟩ := hex
  have hp := findRow_some hf
  have hw : (T (p + n)).op ψ = ψ := hψ _ (by omega) (by omega)
  have hfc := forceM_rand T ht result doForce true rnd (by simp) hf
  simp only [if_true] at hfc
  generalize (if doForce then result else rnd) = b at hfc ⊢
  refine ⟨equal_weight hw hp.2.1, _, hfc, collapse_inv h hp.1 hp.2.1 _, ?_⟩
  -- the rows left behind that commute with `Z_t` and stabilise `ψ` stabilise its projection
  have keep : ∀ w : Row n, w.x ⟨t, ht⟩ = false → w.op ψ = ψ → w.op (proj ⟨t, ht⟩ b ψ) = proj ⟨t, ht⟩ b ψ := by
    intro w hwx hwψ
    funext f
    have hb : bxor f w.x ⟨t, ht⟩ = f ⟨t, ht⟩ := by simp [bxor, hwx]
    have := congrFun hwψ f
    rw [op_apply] at this ⊢
    unfold proj
    rw [hb]
    split_ifs
    · exact this
    · simp
  intro i hi hi'
  rw [collapse_apply hp.1]
  rw [if_neg (by omega)]
  by_cases h1 : i = p + n
  · rw [if_pos h1]
    funext f
    rw [zRow_op]
    unfold proj
    cases b <;> cases hfv : f ⟨t, ht⟩ <;> simp
  · rw [if_neg h1]
    by_cases h2 : i < 2 * n ∧ (T i).x ⟨t, ht⟩ = true
    · rw [if_pos h2]
      refine keep _ ?_ ?_
      · simp only [rowmult, h2.2, hp.2.1]; rfl
      · rw [rowmult_op, hψ i hi hi', hw]
    · rw [if_neg h2]
      refine keep _ ?_ (hψ i hi hi')
      simpa [hi'] using h2

/-- Neither part vanishes, so either outcome can be forced. -/
theorem random_possible {T : Tab n} {t : ℕ} (ht : t < n) (hr : isSeparableZ T t = some false) {ψ : State n}
    (hψ : Stabilises T ψ) (h0 : ψ ≠ 0) (b : Bool) : proj ⟨t, ht⟩ b ψ ≠ 0 := by
  obtain ⟨p, hp, hx⟩ : ∃ p, p < n ∧ (T (p + n)).x ⟨t, ht⟩ = true := by
    unfold isSeparableZ at hr
    rw [dif_pos ht, Option.some.injEq, List.all_eq_false] at hr
    obtain ⟨p, hp, hx⟩ := hr
    exact ⟨p, List.mem_range.mp hp, by simpa using hx⟩
  have he := equal_weight (hψ (p + n) (by omega) (by omega)) hx
  intro hc
  have hz : ∀ b', weight ⟨t, ht⟩ b' ψ = 0 := by
    have : weight ⟨t, ht⟩ b ψ = 0 := by unfold weight; rw [hc]; simp
    intro b'
    cases b <;> cases b' <;> first | exact this | (rw [he]; exact this) | (rw [← he]; exact this)
  apply h0
  funext f
  have := hz (f ⟨t, ht⟩)
  unfold weight at this
  rw [Finset.sum_eq_zero_iff_of_nonneg (fun _ _ => normSq_nonneg _)] at this
  have := this f (Finset.mem_univ _)
  rw [normSq_eq_zero] at this
  simpa [proj] using this

/-- A qubit reported as determined has one value `v`: every state the generators stabilise has amplitude zero wherever the
qubit has the other value; an unforced measurement reports `v`, forcing `v` succeeds, forcing the other value throws, and
the generators are left as they were. -/
theorem measure_determined {T : Tab n} (h : Inv T) {t : ℕ} (ht : t < n) (hr : isSeparableZ T t = some true) :
    ∃ v, (∀ ψ, Stabilises T ψ → ∀ f, f ⟨t, ht⟩ ≠ v → ψ f = 0) ∧
      (∀ result doApply rnd, ∃ T', forceM T t result false doApply rnd = some (v, T') ∧ ∀ i, i < 2 * n → T' i = T i) ∧
      (∀ rnd, ∃ T', forceM T t v true true rnd = some (v, T') ∧ ∀ i, i < 2 * n → T' i = T i) ∧
      (∀ rnd, forceM T t (!v) true true rnd = none) := by
  have hsep : ∀ p < n, (T (p + n)).x ⟨t, ht⟩ = false := by
    unfold isSeparableZ at hr
    rw [dif_pos ht, Option.some.injEq, List.all_eq_true] at hr
    intro p hp
    simpa using hr p (List.mem_range.mpr hp)
  have hf : findRow n (fun p => (T (p + n)).x ⟨t, ht⟩) = none := by
    unfold findRow
    rw [List.find?_eq_none]
    intro p hp
    rw [hsep p (List.mem_range.mp hp)]; simp
  obtain ⟨m, hm⟩ : ∃ m, findRow n (fun m => (T m).x ⟨t, ht⟩) = some m := by
    cases hm : findRow n (fun m => (T m).x ⟨t, ht⟩) with
    | some m => exact ⟨m, rfl⟩
    | none =>
      exfalso
      obtain ⟨i, hi, hx⟩ := some_x h ⟨t, ht⟩
      by_cases hin : i < n
      · have := findRow_none hm i hin
        simp only [hx] at this; simp at this
      · have := hsep (i - n) (by omega)
        rw [Nat.sub_add_cancel (by omega), hx] at this; simp at this
  have hm' := findRow_some hm
  obtain ⟨r, hr2, hS, hst⟩ := scratch_is_z h hsep hm'.1 hm'.2.1 hm'.2.2
  have hv : decide ((scratchRow T ⟨t, ht⟩ m (2 * n)).r ≠ 0) = decide (r ≠ 0) := by rw [hS]; rfl
  have hrow : ∀ i, i < 2 * n → scratchRow T ⟨t, ht⟩ m i = T i := by
    intro i hi; rw [scratchRow_eq hm'.1, Function.update_of_ne (by omega)]
  refine ⟨decide (r ≠ 0), ?_, ?_, ?_, ?_⟩
  · intro ψ hψ f hne
    have h1 := congrFun (hst ψ hψ) f
    rw [zRow_op] at h1
    have h2 : (2 : ℂ) * ψ f = 0 := by
      rcases hr2 with rfl | rfl
      · have hft : f ⟨t, ht⟩ = true := by simpa using hne
        rw [hft] at h1
        simp only [pow_zero, if_true, one_mul] at h1
        linear_combination -h1
      · have hft : f ⟨t, ht⟩ = false := by simpa using hne
        rw [hft] at h1
        simp only [I_sq, Bool.false_eq_true, if_false] at h1
        linear_combination -h1
    simpa using h2
  · intro result doApply rnd
    refine ⟨scratchRow T ⟨t, ht⟩ m, ?_, hrow⟩
    rw [forceM_det T ht _ _ _ _ (by simp) hf hm, if_neg (by simp), hv]
  · intro rnd
    refine ⟨scratchRow T ⟨t, ht⟩ m, ?_, hrow⟩
    rw [forceM_det T ht _ _ _ _ (by simp) hf hm, hv, if_neg (by simp)]
  · intro rnd
    rw [forceM_det T ht _ _ _ _ (by simp) hf hm, hv, if_pos]
    refine ⟨rfl, ?_⟩
    cases decide (r ≠ 0) <;> simp

/-- Looking without applying, or forcing without applying, leaves the generators as they were. -/
theorem measure_look {T : Tab n} {t : ℕ} {result doForce rnd v : Bool} {T' : Tab n}
    (hT : forceM T t result doForce false rnd = some (v, T')) : ∀ i, i < 2 * n → T' i = T i := by
  by_cases ht : t < n
  swap
  · unfold forceM at hT; rw [dif_neg ht] at hT; simp at hT
  cases doForce
  swap
  · rw [forceM_skip T ht, Option.some.injEq, Prod.mk.injEq] at hT
    rw [← hT.2]; exact fun _ _ => rfl
  have h1 : (false && !false) = false := rfl
  cases hf : findRow n (fun p => (T (p + n)).x ⟨t, ht⟩) with
  | some p =>
    rw [forceM_rand T ht _ _ _ _ h1 hf, Option.some.injEq, Prod.mk.injEq] at hT
    rw [← hT.2]; exact fun _ _ => rfl
  | none =>
    cases hm : findRow n (fun m => (T m).x ⟨t, ht⟩) with
    | none =>
      rw [forceM_zero T ht _ _ _ _ h1 hf hm, Option.some.injEq, Prod.mk.injEq] at hT
      rw [← hT.2]; exact fun _ _ => rfl
    | some m =>
      rw [forceM_det T ht _ _ _ _ h1 hf hm, if_neg (by simp), Option.some.injEq, Prod.mk.injEq] at hT
      intro i hi
      rw [← hT.2, scratchRow_eq (findRow_some hm).1, Function.update_of_ne (by omega)]

/-- `Prob` is the Born probability of reading 1: its share of the squared norm. -/
theorem prob_born {T : Tab n} (h : Inv T) {t : ℕ} (ht : t < n) {ψ : State n} (hψ : Stabilises T ψ) (rnd : Bool) :
    ∃ k T', probT T t rnd = some (k, T') ∧ (∀ i, i < 2 * n → T' i = T i) ∧
      2 * weight ⟨t, ht⟩ true ψ = k * (weight ⟨t, ht⟩ true ψ + weight ⟨t, ht⟩ false ψ) := by
  obtain ⟨b, hb⟩ : ∃ b, isSeparableZ T t = some b := by
    unfold isSeparableZ; rw [dif_pos ht]; exact ⟨_, rfl⟩
  cases b
  · refine ⟨1, T, by unfold probT; rw [hb], fun _ _ => rfl, ?_⟩
    have := (measure_random h ht hb hψ true true true).1
    rw [← this]; push_cast; ring
  · obtain ⟨v, hv, hm, -, -⟩ := measure_determined h ht hb
    obtain ⟨T', hT', hrow⟩ := hm false true rnd
    refine ⟨if v then 2 else 0, T', by unfold probT; rw [hb]; simp only [hT', Option.map_some], hrow, ?_⟩
    have hz : weight ⟨t, ht⟩ (!v) ψ = 0 := by
      unfold weight
      refine Finset.sum_eq_zero fun f _ => ?_
      unfold proj
      split_ifs with hf
      · rw [hv ψ hψ f (by rw [hf]; cases v <;> simp), map_zero]
      · exact map_zero _
    cases v
    · have hz : weight ⟨t, ht⟩ true ψ = 0 := hz
      rw [hz]; simp
    · have hz : weight ⟨t, ht⟩ false ψ = 0 := hz
      rw [hz]; simp

/-- The hypotheses are met: the Bell pair made from `|00⟩` has a random qubit 1, and after reading it as 1 qubit 0 is
determined. -/
example : isSeparableZ (parFor (parFor (setPermutation 2 (idRow 2) 0) (rowH 0)) (rowCNOT 0 1)) 1 = some false ∧
    (forceM (parFor (parFor (setPermutation 2 (idRow 2) 0) (rowH 0)) (rowCNOT 0 1)) 1 false false true true).bind
      (fun s => (isSeparableZ s.2 0).bind fun b => (forceM s.2 0 false false true false).map fun u => (s.1, b, u.1)) =
      some (true, true, true) := by decide

end Verif.Stab
