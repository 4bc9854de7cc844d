import Verif.Model.UnitRead
import Verif.Props.UnitClifford
import Verif.Props.StabReadMore

/-!
Sums over the units of a `QUnitClifford`.
-/

namespace Verif.Units

open Verif.Stab Verif.Pauli
open Complex (normSq)

variable {n : ℕ}

/-! ### The bits of a unit as a number -/

theorem fold_or_testBit {α : Type} (P : α → Bool) (m : α → ℕ) (j : ℕ) (l : List α) : ∀ a : ℕ,
    (l.foldl (fun a i => if P i then a ||| 2 ^ m i else a) a).testBit j = (a.testBit j || l.any fun i => P i && decide (m i = j)) := by
  induction l with
  | nil => intro a; simp
  | cons x l ih =>
    intro a
    rw [List.foldl_cons, ih, List.any_cons]
    cases hx : P x
    · simp
    · rw [if_pos rfl, Nat.testBit_or, Nat.testBit_two_pow]
      cases a.testBit j <;> cases decide (m x = j) <;> simp

theorem unitPerm_testBit (Q : QUC n) (u perm j : ℕ) : (Q.unitPerm u perm).testBit j = sub Q (bitsOf n perm) u j := by
  unfold QUC.unitPerm sub
  have e : (fun (a : ℕ) (i : Fin n) => if Q.unit i = u ∧ perm.testBit i.val = true then a ||| 2 ^ Q.mapped i else a) =
      fun a i => if (decide (Q.unit i = u) && perm.testBit i.val) = true then a ||| 2 ^ Q.mapped i else a := by
    funext a i
    refine if_congr ?_ rfl rfl
    simp
  rw [e, fold_or_testBit, Nat.zero_testBit, Bool.false_or, Bool.eq_iff_iff, decide_eq_true_iff, List.any_eq_true]
  constructor
  · rintro ⟨i, -, hi⟩
    simp only [Bool.and_eq_true, decide_eq_true_eq] at hi
    exact ⟨i, hi.1.1, hi.2, hi.1.2⟩
  · rintro ⟨i, h1, h2, h3⟩
    exact ⟨i, List.mem_finRange i, by simp only [Bool.and_eq_true, decide_eq_true_eq]; exact ⟨⟨h1, h3⟩, h2⟩⟩

theorem unitPerm_lt {Q : QUC n} (hQ : WF Q) (u perm : ℕ) (hu : u ∈ used Q) : Q.unitPerm u perm < 2 ^ (Q.heap u).size := by
  refine Nat.lt_pow_two_of_testBit _ fun j hj => ?_
  rw [unitPerm_testBit]
  unfold sub
  rw [decide_eq_false_iff_not]
  rintro ⟨i, h1, h2, -⟩
  have := hQ.lt i
  rw [h1, h2] at this
  omega

theorem unitPerm_bits (Q : QUC n) (u perm : ℕ) : bitsOf (Q.heap u).size (Q.unitPerm u perm) = subF Q (bitsOf n perm) u _ := by
  funext j
  exact unitPerm_testBit Q u perm j

/-! ### Products and sums over the units -/

theorem units_spec (Q : QUC n) : Q.units.Nodup ∧ Q.units.toFinset = used Q := by
  obtain ⟨h1, h2, -, -⟩ := uniq_spec ((List.finRange n).map Q.unit)
  refine ⟨h1, ?_⟩
  ext u
  rw [List.mem_toFinset]
  show u ∈ uniq _ ↔ _
  rw [h2, List.mem_map, used, Finset.mem_image]
  constructor
  · rintro ⟨i, -, hi⟩; exact ⟨i, Finset.mem_univ i, hi⟩
  · rintro ⟨i, -, hi⟩; exact ⟨i, List.mem_finRange i, hi⟩

theorem ampLoop_eq (ph : ℕ → ℂ) (Q : QUC n) (perm : ℕ) (l : List ℕ) : ∀ r,
    ampLoop ph Q perm l r = r * (l.map fun u => (Stab.getAmplitude (ph u) (Q.heap u).tab (Q.unitPerm u perm)).2).prod := by
  induction l with
  | nil => intro r; simp [ampLoop]
  | cons u l ih =>
    intro r
    unfold ampLoop
    dsimp only
    rw [List.map_cons, List.prod_cons]
    split_ifs with hz
    · have : r * (Stab.getAmplitude (ph u) (Q.heap u).tab (Q.unitPerm u perm)).2 = 0 :=
        Complex.normSq_eq_zero.1 (le_antisymm hz (Complex.normSq_nonneg _))
      rw [← mul_assoc, this, zero_mul]
    · rw [ih]; ring

/-- States of the units of norm one. -/
theorem rep_normed {Q : QUC n} {Ψ : State n} (h : Rep Q Ψ) : ∃ (k : ℂ) (ψ : (u : ℕ) → State (Q.heap u).size), k ≠ 0 ∧
    (∀ u ∈ used Q, Holds (Q.heap u).tab (ψ u) ∧ norm2 (ψ u) = 1) ∧ (∀ b, Ψ b = k * ∏ u ∈ used Q, ψ u (subF Q b u _)) ∧
    normSq k = norm2 Ψ := by
  obtain ⟨k, ψ, hk, hψ, hΨ⟩ := rep_states h
  have hpos : ∀ u ∈ used Q, norm2 (ψ u) ≠ 0 := fun u hu => norm2_ne.2 (hψ u hu).2.2
  let c : ℕ → ℂ := fun u => ((Real.sqrt (norm2 (ψ u)))⁻¹ : ℝ)
  have hnn : ∀ u, 0 ≤ norm2 (ψ u) := fun u => Finset.sum_nonneg fun f _ => Complex.normSq_nonneg _
  have hc : ∀ u ∈ used Q, c u ≠ 0 := fun u hu => by
    simp only [c, ne_eq, Complex.ofReal_eq_zero, inv_eq_zero, Real.sqrt_eq_zero (hnn u)]
    exact hpos u hu
  have hcn : ∀ u ∈ used Q, normSq (c u) * norm2 (ψ u) = 1 := fun u hu => by
    simp only [c, Complex.normSq_ofReal]
    rw [← mul_inv, Real.mul_self_sqrt (hnn u), inv_mul_cancel₀ (hpos u hu)]
  have hnorm : ∀ u ∈ used Q, norm2 (fun f => c u * ψ u f) = 1 := fun u hu => by
    rw [← hcn u hu]
    unfold norm2
    rw [Finset.mul_sum]
    exact Finset.sum_congr rfl fun f _ => Complex.normSq_mul _ _
  have hprod : (∏ u ∈ used Q, c u) ≠ 0 := Finset.prod_ne_zero_iff.2 hc
  have hΨ' : ∀ b, Ψ b = k * (∏ u ∈ used Q, c u)⁻¹ * ∏ u ∈ used Q, (fun f => c u * ψ u f) (subF Q b u _) := by
    intro b
    dsimp only
    rw [Finset.prod_mul_distrib, hΨ]
    field_simp
  refine ⟨_, fun u f => c u * ψ u f, mul_ne_zero hk (inv_ne_zero hprod), fun u hu => ⟨holds_smul (hψ u hu) (hc u hu), hnorm u hu⟩, hΨ', ?_⟩
  rw [norm2_rep (ψ := fun u f => c u * ψ u f) h.1 hΨ', Finset.prod_eq_one hnorm, mul_one]

/-- An average over all bits of a function of the bits of one unit is an average in that unit. -/
theorem unit_average {Q : QUC n} (hQ : WF Q) {Ψ : State n} {k : ℂ} {ψ : (u : ℕ) → State (Q.heap u).size}
    (hψ : ∀ u ∈ used Q, norm2 (ψ u) = 1) (hΨ : ∀ b, Ψ b = k * ∏ u ∈ used Q, ψ u (subF Q b u _)) {u : ℕ} (hu : u ∈ used Q)
    (G : (ℕ → Bool) → ℝ) : ∑ b : Bits n, G (sub Q b u) * normSq (Ψ b) =
      normSq k * ∑ g : Bits (Q.heap u).size, G (fun j => if h : j < (Q.heap u).size then g ⟨j, h⟩ else false) * normSq (ψ u g) := by
  let H : (u : ℕ) → Bits (Q.heap u).size → ℝ := fun v g => normSq (ψ v g)
  let H' := Function.update H u fun g => G (fun j => if h : j < (Q.heap u).size then g ⟨j, h⟩ else false) * normSq (ψ u g)
  have key := sum_prod hQ H'
  have e1 : ∏ v ∈ used Q, ∑ g : Bits (Q.heap v).size, H' v g =
      ∑ g : Bits (Q.heap u).size, G (fun j => if h : j < (Q.heap u).size then g ⟨j, h⟩ else false) * normSq (ψ u g) := by
    rw [← Finset.mul_prod_erase _ _ hu]
    have : ∏ v ∈ (used Q).erase u, ∑ g : Bits (Q.heap v).size, H' v g = 1 := by
      refine Finset.prod_eq_one fun v hv => ?_
      have hvu := Finset.mem_erase.1 hv
      simp only [H', Function.update_of_ne hvu.1]
      exact hψ v hvu.2
    rw [this, mul_one]
    simp only [H', Function.update_self]
  rw [e1] at key
  rw [← key, Finset.mul_sum]
  refine Finset.sum_congr rfl fun b _ => ?_
  rw [hΨ, Complex.normSq_mul, normSq_prod, ← Finset.mul_prod_erase _ _ hu, ← Finset.mul_prod_erase _ _ hu]
  have e2 : ∏ v ∈ (used Q).erase u, H' v (subF Q b v _) = ∏ v ∈ (used Q).erase u, normSq (ψ v (subF Q b v _)) := by
    refine Finset.prod_congr rfl fun v hv => ?_
    simp only [H', Function.update_of_ne (Finset.mem_erase.1 hv).1]
    rfl
  rw [e2]
  have e3 : H' u (subF Q b u _) = G (sub Q b u) * normSq (ψ u (subF Q b u _)) := by
    simp only [H', Function.update_self]
    congr 2
    funext j
    by_cases hj : j < (Q.heap u).size
    · rw [dif_pos hj]; rfl
    · rw [dif_neg hj]
      unfold sub
      rw [Eq.comm, decide_eq_false_iff_not]
      rintro ⟨i, h1, h2, -⟩
      have := hQ.lt i
      rw [h1, h2] at this
      exact hj this
  rw [e3]
  ring

/-! ### Lists grouped by unit -/

/-- What a list of items weighs, given the bits of the places. -/
noncomputable def wsum (l : List (Item ℝ)) (β : ℕ → Bool) : ℝ := (l.map fun i => if β i.place then i.w1 else i.w0).sum

theorem bitWeight_items (l : List (Item ℝ)) (p : ℕ) :
    bitWeight (l.map Item.place) (fun k => (l.flatMap fun i => [i.w0, i.w1]).getD k 0) p = wsum l p.testBit := by
  unfold bitWeight wsum
  induction l with
  | nil => simp
  | cons x l ih =>
    rw [List.map_cons, List.length_cons, Finset.sum_range_succ', List.map_cons, List.sum_cons, ← ih, add_comm]
    congr 1

theorem bitIndex_items (l : List (Item ℕ)) (offset p : ℕ) :
    ((bitIndex (l.map Item.place) (l.flatMap fun i => [i.w0, i.w1]) offset p : ℕ) : ℝ) =
      offset + (l.map fun i => if p.testBit i.place then (i.w1 : ℝ) else i.w0).sum := by
  unfold bitIndex
  push_cast
  congr 1
  induction l with
  | nil => simp
  | cons x l ih =>
    rw [List.map_cons, List.length_cons, Finset.sum_range_succ', List.map_cons, List.sum_cons, ← ih, add_comm]
    congr 1

theorem group_sum {α : Type} (φ : Item α → ℝ) {us : List ℕ} (hn : us.Nodup) : ∀ l : List (Item α), (∀ i ∈ l, i.unit ∈ us) →
    (us.map fun u => ((l.filter fun i => i.unit = u).map φ).sum).sum = (l.map φ).sum := by
  intro l
  induction l with
  | nil => intro _; simp
  | cons x l ih =>
    intro h
    have e : (us.map fun u => (((x :: l).filter fun i => i.unit = u).map φ).sum) =
        us.map fun u => (if x.unit = u then φ x else 0) + ((l.filter fun i => i.unit = u).map φ).sum := by
      refine List.map_congr_left fun u _ => ?_
      rw [List.filter_cons]
      by_cases hx : x.unit = u
      · simp [hx]
      · simp [hx]
    rw [e, List.sum_map_add, ih fun i hi => h i (by simp [hi]), List.map_cons, List.sum_cons]
    congr 1
    rw [← List.sum_toFinset _ hn, Finset.sum_ite_eq us.toFinset x.unit, if_pos (List.mem_toFinset.2 (h x (by simp)))]

theorem sumUnits_some {f : ℕ → Option ℝ} {g : ℕ → ℝ} (l : List ℕ) (h : ∀ u ∈ l, f u = some (g u)) : sumUnits f l = some ((l.map g).sum) := by
  induction l with
  | nil => simp [sumUnits]
  | cons u l ih =>
    unfold sumUnits
    rw [h u (by simp), Option.bind_some, ih fun v hv => h v (by simp [hv])]
    simp

end Verif.Units
