import Verif.Lemmas.StabTable
import Mathlib.Data.ZMod.Basic
import Mathlib.Tactic.FinCases
import Mathlib.Algebra.BigOperators.Fin
import Mathlib.Algebra.BigOperators.Pi

/-!
Helper lemmas: products of rows, the symplectic form.
-/

namespace Verif.Stab

open Verif.Pauli Complex

variable {n : ℕ}

/-! ### Phase of a product -/

theorem I_pow_and3 (m : ℕ) : I ^ (m &&& 3) = I ^ m := by
  rw [show (3 : ℕ) = 2 ^ 2 - 1 from rfl, Nat.and_two_pow_sub_one_eq_mod, show (2 : ℕ) ^ 2 = 4 from rfl, I_pow_mod]

theorem I_pow_mod256 (m : ℕ) : I ^ (m % 256) = I ^ m := by
  rw [← I_pow_mod (m % 256), Nat.mod_mod_of_dvd _ (by norm_num : 4 ∣ 256), I_pow_mod]

theorem I_255 : I ^ 255 = -I := by
  rw [← I_pow_mod]; exact I_three

theorem I_256 : I ^ 256 = 1 := by
  rw [← I_pow_mod]; simp

/-- The phase one qubit contributes to a product. -/
noncomputable def dphase (xi zi xk zk : Bool) : ℂ := I ^ cliffordStep xi zi xk zk 0

theorem cliffordStep_phase (xi zi xk zk : Bool) (e : ℕ) :
    I ^ cliffordStep xi zi xk zk e = I ^ e * dphase xi zi xk zk := by
  unfold dphase
  cases xi <;> cases zi <;> cases xk <;> cases zk <;>
    simp only [cliffordStep, Bool.not_false, Bool.not_true, Bool.and_false, Bool.and_true, Bool.toNat_false,
      Bool.toNat_true, if_true, if_false, Bool.false_eq_true, I_pow_mod256, Nat.sub_zero, pow_add, I_256, I_255,
      pow_zero, pow_one, mul_one, Nat.reduceSub, one_mul]

theorem coef_mul (xi zi xk zk b : Bool) :
    coef xk zk b * coef xi zi (b ^^ xk) = dphase xi zi xk zk * coef (xi ^^ xk) (zi ^^ zk) b := by
  unfold dphase
  cases xi <;> cases zi <;> cases xk <;> cases zk <;> cases b <;>
    simp only [cliffordStep, Bool.not_false, Bool.not_true, Bool.and_false, Bool.and_true, Bool.toNat_false,
      Bool.toNat_true, if_true, if_false, Bool.false_eq_true, I_pow_mod256, Nat.sub_zero, pow_add, I_256, I_255,
      pow_zero, pow_one, mul_one, Nat.reduceSub, one_mul, coef_ff, coef_tf, coef_ft0, coef_ft1, coef_tt0, coef_tt1,
      Bool.xor_false, Bool.xor_true, Bool.false_xor, Bool.true_xor] <;>
    first | done | ring1 | (ring_nf; done) | (ring_nf; simp only [I_sq, I_three]; done) | (ring_nf; simp only [I_sq, I_three]; ring1)

theorem fold_phase (i k : Row n) (l : List (Fin n)) (e : ℕ) :
    I ^ (l.foldl (fun e j => cliffordStep (i.x j) (i.z j) (k.x j) (k.z j) e) e) =
      I ^ e * (l.map fun j => dphase (i.x j) (i.z j) (k.x j) (k.z j)).prod := by
  induction l generalizing e with
  | nil => simp
  | cons j l ih => rw [List.foldl_cons, ih, cliffordStep_phase, List.map_cons, List.prod_cons, mul_assoc]

theorem clifford_phase (i k : Row n) :
    I ^ clifford i k = I ^ k.r * I ^ i.r * ∏ j, dphase (i.x j) (i.z j) (k.x j) (k.z j) := by
  unfold clifford
  rw [I_pow_and3, pow_add, pow_add, fold_phase, Fin.prod_univ_def]
  ring

theorem op_apply (w : Row n) (ψ : State n) (f : Bits n) :
    w.op ψ f = I ^ w.r * (∏ j, coef (w.x j) (w.z j) (f j)) * ψ (bxor f w.x) := pauliOp_apply _ _ _ _ _

/-! ### Symplectic form -/

/-- One qubit's contribution to the symplectic form. -/
def sp1 (x z x' z' : Bool) : ZMod 2 := if (x && z') ^^ (z && x') then 1 else 0

/-- The symplectic form of two rows: 1 if the operators anticommute. -/
def sp (w v : Row n) : ZMod 2 := ∑ j, sp1 (w.x j) (w.z j) (v.x j) (v.z j)

theorem sp1_comm (x z x' z' : Bool) : sp1 x z x' z' = sp1 x' z' x z := by
  revert x z x' z'; decide

theorem sp_comm (w v : Row n) : sp w v = sp v w := Finset.sum_congr rfl fun _ _ => sp1_comm _ _ _ _

theorem sp_self (w : Row n) : sp w w = 0 := by
  unfold sp
  apply Finset.sum_eq_zero
  intro j _
  cases w.x j <;> cases w.z j <;> decide

theorem sp1_add (x z y u x' z' : Bool) : sp1 (x ^^ y) (z ^^ u) x' z' = sp1 x z x' z' + sp1 y u x' z' := by
  revert x z y u x' z'; decide

theorem sp_rowmult (i k v : Row n) : sp (rowmult i k) v = sp i v + sp k v := by
  unfold sp rowmult
  rw [← Finset.sum_add_distrib]
  exact Finset.sum_congr rfl fun _ _ => sp1_add _ _ _ _ _ _

theorem sp_rowmult' (i k v : Row n) : sp v (rowmult i k) = sp v i + sp v k := by
  rw [sp_comm, sp_rowmult, sp_comm i, sp_comm k]

theorem sp_zRow (w : Row n) (t : Fin n) (r : ℕ) : sp w (zRow t r) = if w.x t then 1 else 0 := by
  unfold sp
  rw [Finset.sum_eq_single t]
  · simp [sp1, zRow]
  · intro j _ hj; simp [sp1, zRow, hj]
  · intro h; exact absurd (Finset.mem_univ _) h

theorem sp_xRow (w : Row n) (t : Fin n) : sp w (xRow t) = if w.z t then 1 else 0 := by
  unfold sp
  rw [Finset.sum_eq_single t]
  · simp [sp1, xRow]
  · intro j _ hj; simp [sp1, xRow, hj]
  · intro h; exact absurd (Finset.mem_univ _) h

/-- Sign of a form value. -/
def sg (a : ZMod 2) : ℂ := if a = 0 then 1 else -1

theorem sg_add (a b : ZMod 2) : sg (a + b) = sg a * sg b := by
  have h0 : ∀ a : ZMod 2, a = 0 ∨ a = 1 := by decide
  have h2 : (1 : ZMod 2) + 1 = 0 := by decide
  rcases h0 a with h | h <;> rcases h0 b with h' | h' <;> subst h <;> subst h' <;> simp [sg, h2]

theorem sg_sum {ι : Type*} (s : Finset ι) (f : ι → ZMod 2) : sg (∑ j ∈ s, f j) = ∏ j ∈ s, sg (f j) := by
  classical
  induction s using Finset.induction_on with
  | empty => simp [sg]
  | insert a s ha ih => rw [Finset.sum_insert ha, Finset.prod_insert ha, sg_add, ih]

theorem coef_comm (x z x' z' b : Bool) :
    coef x z b * coef x' z' (b ^^ x) = sg (sp1 x z x' z') * (coef x' z' b * coef x z (b ^^ x')) := by
  cases x <;> cases z <;> cases x' <;> cases z' <;> cases b <;>
    simp [sp1, sg, coef_ff, coef_tf, coef_ft0, coef_ft1, coef_tt0, coef_tt1]

theorem op_comm (w v : Row n) (ψ : State n) (f : Bits n) : w.op (v.op ψ) f = sg (sp w v) * v.op (w.op ψ) f := by
  simp only [op_apply]
  have e : bxor (bxor f w.x) v.x = bxor (bxor f v.x) w.x := by
    funext j; simp only [bxor]; cases f j <;> cases w.x j <;> cases v.x j <;> rfl
  have h : (∏ j, coef (w.x j) (w.z j) (f j)) * (∏ j, coef (v.x j) (v.z j) (bxor f w.x j)) =
      sg (sp w v) * ((∏ j, coef (v.x j) (v.z j) (f j)) * (∏ j, coef (w.x j) (w.z j) (bxor f v.x j))) := by
    unfold sp
    rw [sg_sum, ← Finset.prod_mul_distrib, ← Finset.prod_mul_distrib, ← Finset.prod_mul_distrib]
    exact Finset.prod_congr rfl fun j _ => coef_comm _ _ _ _ _
  rw [e]
  linear_combination (I ^ w.r * I ^ v.r * ψ (bxor (bxor f v.x) w.x)) * h

/-! ### Gates preserve the form -/

theorem sp_table1 {t : Fin n} {F : Row n → Row n} {A : Bool → Bool → Act1} (hF : Table1 t F A)
    (hA : ∀ x z x' z', sp1 (A x z).x (A x z).z (A x' z').x (A x' z').z = sp1 x z x' z') (w v : Row n) :
    sp (F w) (F v) = sp w v := by
  unfold sp
  rw [hF w, hF v]
  apply Finset.sum_congr rfl
  intro j _
  by_cases hj : j = t
  · subst hj; simp [hA]
  · simp [Function.update_of_ne hj]

theorem sp_table2 {c t : Fin n} (hct : c ≠ t) {F : Row n → Row n} {A : Bool → Bool → Bool → Bool → Act2}
    (hF : Table2 c t F A)
    (hA : ∀ xc zc xt zt xc' zc' xt' zt',
      sp1 (A xc zc xt zt).xc (A xc zc xt zt).zc (A xc' zc' xt' zt').xc (A xc' zc' xt' zt').zc +
      sp1 (A xc zc xt zt).xt (A xc zc xt zt).zt (A xc' zc' xt' zt').xt (A xc' zc' xt' zt').zt =
      sp1 xc zc xc' zc' + sp1 xt zt xt' zt') (w v : Row n) :
    sp (F w) (F v) = sp w v := by
  unfold sp
  rw [← Finset.sum_sdiff (Finset.subset_univ {c, t}), ← Finset.sum_sdiff (Finset.subset_univ {c, t}),
    Finset.sum_pair hct, Finset.sum_pair hct, hF w, hF v]
  congr 1
  · apply Finset.sum_congr rfl
    intro j hj
    have h : j ≠ c ∧ j ≠ t := by simpa using hj
    simp [Function.update_of_ne h.1, Function.update_of_ne h.2]
  · simp only [Function.update_self, Function.update_of_ne hct]
    exact hA _ _ _ _ _ _ _ _

theorem r_table1 {t : Fin n} {F : Row n → Row n} {A : Bool → Bool → Act1} (hF : Table1 t F A) (w : Row n) :
    ∃ s, (F w).r = sgn s w.r := ⟨_, by rw [hF w]⟩

theorem r_table2 {c t : Fin n} {F : Row n → Row n} {A : Bool → Bool → Bool → Bool → Act2} (hF : Table2 c t F A)
    (w : Row n) : ∃ s, (F w).r = sgn s w.r := ⟨_, by rw [hF w]⟩

theorem sgn_even {s : Bool} {r : ℕ} (h : r = 0 ∨ r = 2) : sgn s r = 0 ∨ sgn s r = 2 := by
  cases s <;> rcases h with h | h <;> subst h <;> decide

/-! ### Phase of a product of commuting rows -/

theorem step_parity (xi zi xk zk : Bool) (e : ℕ) :
    ((cliffordStep xi zi xk zk e : ℕ) : ZMod 2) = e + sp1 xi zi xk zk := by
  have hm : ∀ m : ℕ, ((m % 256 : ℕ) : ZMod 2) = m := fun m => by
    rw [ZMod.natCast_eq_natCast_iff]
    exact (Nat.mod_modEq m 256).of_dvd (by norm_num)
  cases xi <;> cases zi <;> cases xk <;> cases zk <;>
    simp [cliffordStep, sp1] <;> rw [hm] <;> push_cast <;> first | rfl | (congr 1; done) | (rw [add_assoc]; congr 1)

theorem fold_parity (i k : Row n) (l : List (Fin n)) (e : ℕ) :
    ((l.foldl (fun e j => cliffordStep (i.x j) (i.z j) (k.x j) (k.z j) e) e : ℕ) : ZMod 2) =
      e + (l.map fun j => sp1 (i.x j) (i.z j) (k.x j) (k.z j)).sum := by
  induction l generalizing e with
  | nil => simp
  | cons j l ih => rw [List.foldl_cons, ih, step_parity, List.map_cons, List.sum_cons, add_assoc]

theorem clifford_even {i k : Row n} (hi : i.r = 0 ∨ i.r = 2) (hk : k.r = 0 ∨ k.r = 2) (h : sp i k = 0) :
    clifford i k = 0 ∨ clifford i k = 2 := by
  unfold clifford
  set m := (List.finRange n).foldl (fun e j => cliffordStep (i.x j) (i.z j) (k.x j) (k.z j) e) 0 with hm
  have h2 : ((m : ℕ) : ZMod 2) = 0 := by
    rw [hm, fold_parity, ← Fin.sum_univ_def]
    simpa [sp] using h
  rw [ZMod.natCast_eq_zero_iff] at h2
  rw [show (3 : ℕ) = 2 ^ 2 - 1 from rfl, Nat.and_two_pow_sub_one_eq_mod]
  omega

end Verif.Stab
