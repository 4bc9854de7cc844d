import Verif.Lemmas.UnitCliffordOps
import Mathlib.Algebra.BigOperators.Ring.Finset

/-!
Sums over all bits of a register of products over its units.
-/

namespace Verif.Units

open Verif.Stab Verif.Pauli
open Complex (normSq)

variable {n : ℕ}

theorem subF_join {Q : QUC n} (hQ : WF Q) (g : (u : {u // u ∈ used Q}) → Bits (Q.heap u.1).size) (u : {u // u ∈ used Q}) :
    subF Q (fun i => g ⟨Q.unit i, mem_used i⟩ ⟨Q.mapped i, hQ.lt i⟩) u.1 (Q.heap u.1).size = g u := by
  obtain ⟨u, hu⟩ := u
  obtain ⟨i, rfl⟩ := of_used hu
  funext p
  obtain ⟨j, hj, hjp⟩ := hQ.surj i p.val p.isLt
  refine (sub_comp hQ j hj hjp _).trans ?_
  have : ∀ (v : ℕ) (hv : v ∈ used Q) (hp : p.val < (Q.heap v).size), v = Q.unit i → g ⟨v, hv⟩ ⟨p.val, hp⟩ = g ⟨Q.unit i, hu⟩ p := by
    rintro v hv hp rfl; rfl
  have e := this (Q.unit j) (mem_used j) (by rw [hj]; exact p.isLt) hj
  rw [← e]
  congr 1
  exact Fin.ext hjp

/-- A sum over all bits of a product over the units is the product of the units' sums. -/
theorem sum_prod {Q : QUC n} (hQ : WF Q) (h : (u : ℕ) → Bits (Q.heap u).size → ℝ) :
    ∑ b : Bits n, ∏ u ∈ used Q, h u (subF Q b u _) = ∏ u ∈ used Q, ∑ g : Bits (Q.heap u).size, h u g := by
  have e1 : ∏ u ∈ used Q, ∑ g : Bits (Q.heap u).size, h u g = ∏ u : {u // u ∈ used Q}, ∑ g : Bits (Q.heap u.1).size, h u.1 g :=
    (Finset.prod_coe_sort (used Q) fun u => ∑ g : Bits (Q.heap u).size, h u g).symm
  rw [e1, Finset.prod_univ_sum]
  refine Finset.sum_bij' (fun b _ => fun u => subF Q b u.1 _) (fun g _ => fun i => g ⟨Q.unit i, mem_used i⟩ ⟨Q.mapped i, hQ.lt i⟩)
    (fun _ _ => by simp) (fun _ _ => Finset.mem_univ _) (fun b _ => ?_) (fun g _ => ?_) (fun b _ => ?_)
  · funext i; exact subF_at hQ b i _
  · funext u; exact subF_join hQ g u
  · exact (Finset.prod_coe_sort (used Q) fun u => h u (subF Q b u _)).symm

/-- The register's state is the product of states of the units. -/
theorem rep_states {Q : QUC n} {Ψ : State n} (h : Rep Q Ψ) : ∃ (k : ℂ) (ψ : (u : ℕ) → State (Q.heap u).size), k ≠ 0 ∧
    (∀ u ∈ used Q, Holds (Q.heap u).tab (ψ u)) ∧ ∀ b, Ψ b = k * ∏ u ∈ used Q, ψ u (subF Q b u _) := by
  obtain ⟨hQ, k, F, hk, hF, hΨ⟩ := h
  have : ∀ u, ∃ ψ : State (Q.heap u).size, u ∈ used Q → Holds (Q.heap u).tab ψ ∧ ∀ b, F u b = ψ fun p => b p.val := by
    intro u
    by_cases hu : u ∈ used Q
    · obtain ⟨i, rfl⟩ := of_used hu
      obtain ⟨ψ, h1, h2⟩ := hF i
      exact ⟨ψ, fun _ => ⟨h1, h2⟩⟩
    · exact ⟨fun _ => 0, fun hu' => absurd hu' hu⟩
  choose ψ hψ using this
  refine ⟨k, ψ, hk, fun u hu => (hψ u hu).1, fun b => ?_⟩
  rw [hΨ]
  congr 1
  exact Finset.prod_congr rfl fun u hu => (hψ u hu).2 _

theorem normSq_prod {ι : Type} (s : Finset ι) (f : ι → ℂ) : normSq (∏ i ∈ s, f i) = ∏ i ∈ s, normSq (f i) :=
  map_prod normSq f s

theorem norm2_rep {Q : QUC n} (hQ : WF Q) {Ψ : State n} {k : ℂ} {ψ : (u : ℕ) → State (Q.heap u).size}
    (hΨ : ∀ b, Ψ b = k * ∏ u ∈ used Q, ψ u (subF Q b u _)) : norm2 Ψ = normSq k * ∏ u ∈ used Q, norm2 (ψ u) := by
  unfold norm2
  rw [← sum_prod hQ fun u g => normSq (ψ u g), Finset.mul_sum]
  refine Finset.sum_congr rfl fun b _ => ?_
  rw [hΨ, Complex.normSq_mul, normSq_prod]

/-- The weight of a value of one qubit is the same part of the norm in the register as in the qubit's unit. -/
theorem weight_rep {Q : QUC n} (hQ : WF Q) {Ψ : State n} {k : ℂ} {ψ : (u : ℕ) → State (Q.heap u).size}
    (hΨ : ∀ b, Ψ b = k * ∏ u ∈ used Q, ψ u (subF Q b u _)) (t : Fin n) (v : Bool) :
    weight t v Ψ = normSq k * (weight ⟨Q.mapped t, hQ.lt t⟩ v (ψ (Q.unit t)) *
      ∏ u ∈ (used Q).erase (Q.unit t), norm2 (ψ u)) := by
  have key := norm2_rep (Q := Q) hQ (Ψ := proj t v Ψ) (k := k)
    (ψ := Function.update ψ (Q.unit t) (proj ⟨Q.mapped t, hQ.lt t⟩ v (ψ (Q.unit t)))) (fun b => by
      rw [← Finset.mul_prod_erase _ _ (mem_used t), Function.update_self]
      have : ∏ u ∈ (used Q).erase (Q.unit t), Function.update ψ (Q.unit t) (proj ⟨Q.mapped t, hQ.lt t⟩ v (ψ (Q.unit t))) u (subF Q b u _) =
          ∏ u ∈ (used Q).erase (Q.unit t), ψ u (subF Q b u _) := by
        refine Finset.prod_congr rfl fun u hu => ?_
        rw [Function.update_of_ne (Finset.mem_erase.1 hu).1]
      rw [this]
      unfold proj
      rw [subF_at hQ]
      split_ifs with hb
      · rw [hΨ, ← Finset.mul_prod_erase _ _ (mem_used t)]
      · ring)
  have e : weight t v Ψ = norm2 (proj t v Ψ) := rfl
  rw [e, key, ← Finset.mul_prod_erase _ _ (mem_used t), Function.update_self]
  congr 2
  refine Finset.prod_congr rfl fun u hu => ?_
  rw [Function.update_of_ne (Finset.mem_erase.1 hu).1]

end Verif.Units
