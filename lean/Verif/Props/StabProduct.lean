import Verif.Lemmas.StabRow
import Mathlib.Tactic.IntervalCases
import Mathlib.Tactic.NormNum

/-!
# C29: multiplication of rows is the product of the operators
-/

namespace Verif.Stab

open Verif.Pauli Complex

variable {n : ℕ}

/-- `rowmult(i, k)` leaves in row `i` the operator product of row `k` and row `i`, power of `i` included. -/
theorem rowmult_op (i k : Row n) (ψ : State n) : (rowmult i k).op ψ = k.op (i.op ψ) := by
  funext f
  simp only [op_apply]
  have e : bxor (bxor f k.x) i.x = bxor f (rowmult i k).x := by
    funext j; simp only [bxor, rowmult]; cases f j <;> cases i.x j <;> cases k.x j <;> rfl
  have h : (∏ j, coef (k.x j) (k.z j) (f j)) * (∏ j, coef (i.x j) (i.z j) (bxor f k.x j)) =
      (∏ j, dphase (i.x j) (i.z j) (k.x j) (k.z j)) *
        ∏ j, coef ((rowmult i k).x j) ((rowmult i k).z j) (f j) := by
    rw [← Finset.prod_mul_distrib, ← Finset.prod_mul_distrib]
    exact Finset.prod_congr rfl fun j _ => coef_mul _ _ _ _ _
  rw [e, show (rowmult i k).r = clifford i k from rfl, clifford_phase]
  linear_combination -(I ^ k.r * I ^ i.r * ψ (bxor f (rowmult i k).x)) * h

/-- The phase stays a power of `i` below 4. -/
theorem rowmult_phase (i k : Row n) : (rowmult i k).r < 4 := by
  show clifford i k < 4
  unfold clifford
  rw [show (3 : ℕ) = 2 ^ 2 - 1 from rfl, Nat.and_two_pow_sub_one_eq_mod]
  exact Nat.mod_lt _ (by norm_num)

/-- The only row standing for the product: a Pauli operator determines its bits and its phase modulo 4. -/
theorem op_inj {w v : Row n} (hw : w.r < 4) (hv : v.r < 4) (h : ∀ ψ, w.op ψ = v.op ψ) : w = v := by
  have key : ∀ f : Bits n, v.x = w.x ∧ I ^ w.r * (∏ j, coef (w.x j) (w.z j) (f j)) = I ^ v.r * (∏ j, coef (v.x j) (v.z j) (f j)) := by
    intro f
    have hne : ∀ (x z : Fin n → Bool) (r : ℕ), I ^ r * (∏ j, coef (x j) (z j) (f j)) ≠ 0 := by
      intro x z r
      refine mul_ne_zero (pow_ne_zero _ I_ne_zero) (Finset.prod_ne_zero_iff.mpr ?_)
      intro j _
      cases x j <;> cases z j <;> cases f j <;> simp [coef_ff, coef_tf, coef_ft0, coef_ft1, coef_tt0, coef_tt1]
    have h1 := congrFun (h (fun g => if g = bxor f w.x then 1 else 0)) f
    simp only [op_apply, if_true, mul_one] at h1
    by_cases hx : bxor f v.x = bxor f w.x
    · rw [if_pos hx, mul_one] at h1
      refine ⟨?_, h1⟩
      funext j
      have := congrFun hx j
      simp only [bxor] at this
      revert this
      cases f j <;> cases v.x j <;> cases w.x j <;> simp
    · rw [if_neg hx, mul_zero] at h1
      exact absurd h1 (hne _ _ _)
  have hx : v.x = w.x := (key fun _ => false).1
  have hflip : ∀ t, v.z t = w.z t := by
    intro t
    have h0 := (key fun _ => false).2
    have h1 := (key (Function.update (fun _ => false) t true)).2
    rw [hx, prod_split1 t, prod_split1 t w.x v.z] at h0 h1
    have e1 : ∀ z, rest {t} w.x z (Function.update (fun _ => false) t true) = rest {t} w.x z fun _ => false := fun z =>
      rest_congr (fun _ _ => rfl) (fun _ _ => rfl) (fun j hj => Function.update_of_ne (by simpa using hj) _ _)
    rw [e1, e1, Function.update_self] at h1
    have hr : ∀ (z : Fin n → Bool) (r : ℕ), I ^ r * rest {t} w.x z (fun _ => false) ≠ 0 := by
      intro z r
      refine mul_ne_zero (pow_ne_zero _ I_ne_zero) (Finset.prod_ne_zero_iff.mpr ?_)
      intro j _
      cases w.x j <;> cases z j <;> simp [coef_ff, coef_tf, coef_ft0, coef_ft1, coef_tt0, coef_tt1]
    rw [← mul_assoc, ← mul_assoc] at h0 h1
    have ha := hr w.z w.r
    have hb := hr v.z v.r
    set A := I ^ w.r * rest {t} w.x w.z (fun _ => false)
    set B := I ^ v.r * rest {t} w.x v.z (fun _ => false)
    cases hz : w.z t <;> cases hz' : v.z t <;> cases hx' : w.x t <;>
      simp only [hz, hz', hx', coef_ff, coef_tf, coef_ft0, coef_ft1, coef_tt0, coef_tt1] at h0 h1 <;>
      first
      | rfl
      | (exfalso; apply ha
         have h2 : A + A = 0 := by linear_combination h0 + h1
         have : (2 : ℂ) * A = 0 := by linear_combination h2
         simpa using this)
      | (exfalso; apply hb
         have h2 : (2 : ℂ) * (B * I) = 0 := by linear_combination h0 - h1
         simpa using h2)
      | (exfalso; apply ha
         have h2 : (2 : ℂ) * (A * I) = 0 := by linear_combination h0 - h1
         simpa using h2)
      | (exfalso; apply ha
         have h2 : (2 : ℂ) * (A * I) = 0 := by linear_combination h1 - h0
         simpa using h2)
      | (exfalso; apply hb
         have h2 : (2 : ℂ) * (B * I) = 0 := by linear_combination h1 - h0
         simpa using h2)
      | (exfalso; apply hb
         have h2 : (2 : ℂ) * B = 0 := by linear_combination h1 - h0
         simpa using h2)
      | (exfalso; apply hb
         have h2 : (2 : ℂ) * B = 0 := by linear_combination h0 - h1
         simpa using h2)
      | (exfalso; apply ha
         have h2 : (2 : ℂ) * A = 0 := by linear_combination h0 - h1
         simpa using h2)
  have hz : v.z = w.z := funext hflip
  have hr : w.r = v.r := by
    have h0 := (key fun _ => false).2
    rw [hx, hz] at h0
    have hp : (∏ j, coef (w.x j) (w.z j) false) ≠ 0 := by
      refine Finset.prod_ne_zero_iff.mpr ?_
      intro j _
      cases w.x j <;> cases w.z j <;> simp [coef_ff, coef_tf, coef_ft0, coef_ft1, coef_tt0, coef_tt1]
    have h1 := mul_right_cancel₀ hp h0
    generalize w.r = a at hw h1
    generalize v.r = b at hv h1
    interval_cases a <;> interval_cases b <;>
      simp [I_three, Complex.ext_iff] at h1 ⊢ <;> norm_num at h1
  exact Row.ext hx.symm hz.symm hr

/-- So the stored row is determined by the product alone. -/
theorem rowmult_unique {i k p : Row n} (hp : p.r < 4) (h : ∀ ψ, p.op ψ = k.op (i.op ψ)) : p = rowmult i k :=
  op_inj hp (rowmult_phase i k) fun ψ => by rw [h, rowmult_op]

/-- `(X)(Z)` on one qubit is `-i Y`: multiplying the row `Z` by the row `X`. -/
example : rowmult (zRow (0 : Fin 1) 0) (xRow 0) = { x := fun _ => true, z := fun _ => true, r := 3 } := by
  apply Row.ext
  · funext j; fin_cases j; rfl
  · funext j; fin_cases j; rfl
  · decide

/-- Signs of the factors enter: `(-Z)(-Z) = 1`, and `YY` on two qubits times `XX` is `-ZZ`. -/
example : (rowmult (zRow (1 : Fin 2) 2) (zRow 1 2)).r = 0 ∧
    (rowmult (⟨fun _ => true, fun _ => true, 0⟩ : Row 2) ⟨fun _ => true, fun _ => false, 0⟩).r = 2 := by decide

/-- Two rows anticommute exactly when the symplectic form is 1. -/
theorem rows_commute_iff (w v : Row n) : (∀ ψ, w.op (v.op ψ) = v.op (w.op ψ)) ↔ sp w v = 0 := by
  constructor
  · intro h
    by_contra hc
    have hs : sg (sp w v) = -1 := if_neg hc
    let ψ : State n := fun _ => 1
    have h1 := op_comm w v ψ (fun _ => false)
    rw [h ψ, hs] at h1
    have h2 : v.op (w.op ψ) (fun _ => false) = 0 := by
      have : (2 : ℂ) * v.op (w.op ψ) (fun _ => false) = 0 := by linear_combination h1
      simpa using this
    rw [op_apply, op_apply] at h2
    have hne : ∀ (u : Row n) (f : Bits n), I ^ u.r * (∏ j, coef (u.x j) (u.z j) (f j)) ≠ 0 := by
      intro u f
      refine mul_ne_zero (pow_ne_zero _ I_ne_zero) (Finset.prod_ne_zero_iff.mpr ?_)
      intro j _
      cases u.x j <;> cases u.z j <;> cases f j <;> simp [coef_ff, coef_tf, coef_ft0, coef_ft1, coef_tt0, coef_tt1]
    exact mul_ne_zero (hne _ _) (mul_ne_zero (hne _ _) one_ne_zero) h2
  · intro h ψ
    funext f
    rw [op_comm, h]
    simp [sg]

end Verif.Stab
