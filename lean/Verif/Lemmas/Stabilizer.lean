import Verif.Model.Stabilizer
import Mathlib.Tactic.Ring
import Mathlib.Tactic.LinearCombination

/-!
Helper lemmas: closed form of Pauli operators, and reduction of gate conjugation to one or two qubits.
-/

namespace Verif.Pauli

open Complex

variable {n : ℕ}

/-- The nonzero entry of a Pauli matrix in row `a`. -/
noncomputable def coef (x z a : Bool) : ℂ := entry x z a (a ^^ x)

theorem entry_off {x z a b : Bool} (h : b ≠ (a ^^ x)) : entry x z a b = 0 := by
  cases x <;> cases z <;> cases a <;> cases b <;> simp_all [entry]

/-- Bitwise exclusive or. -/
def bxor (f x : Fin n → Bool) : Fin n → Bool := fun j => f j ^^ x j

theorem pauliOp_apply (r : ℕ) (x z : Fin n → Bool) (ψ : State n) (f : Bits n) :
    pauliOp r x z ψ f = I ^ r * (∏ j, coef (x j) (z j) (f j)) * ψ (bxor f x) := by
  unfold pauliOp
  rw [Finset.sum_eq_single (bxor f x)]
  · simp only [coef, bxor, mul_assoc]
  · intro g _ hg
    have : ∃ j, g j ≠ (f j ^^ x j) := by
      by_contra hc
      push Not at hc
      exact hg (funext hc)
    obtain ⟨j, hj⟩ := this
    rw [Finset.prod_eq_zero (Finset.mem_univ j) (entry_off hj), zero_mul]
  · intro h; exact absurd (Finset.mem_univ _) h

theorem I_pow_mod (m : ℕ) : I ^ (m % 4) = I ^ m := by
  conv_rhs => rw [← Nat.div_add_mod m 4, pow_add, pow_mul, I_pow_four, one_pow, one_mul]

theorem I_pow_neg (r : ℕ) : I ^ ((r + 2) &&& 3) = - I ^ r := by
  rw [show (3 : ℕ) = 2 ^ 2 - 1 from rfl, Nat.and_two_pow_sub_one_eq_mod, show (2 : ℕ) ^ 2 = 4 from rfl, I_pow_mod, pow_add, I_sq]
  ring

/-- A one-qubit operator given by its action on the pair of amplitudes. -/
def loc1 (t : Fin n) (L : (Bool → ℂ) → Bool → ℂ) (ψ : State n) : State n := fun f =>
  L (fun b => ψ (Function.update f t b)) (f t)

/-- A two-qubit operator given by its action on the four amplitudes. -/
def loc2 (c t : Fin n) (L : (Bool → Bool → ℂ) → Bool → Bool → ℂ) (ψ : State n) : State n := fun f =>
  L (fun a b => ψ (Function.update (Function.update f c a) t b)) (f c) (f t)

/-- Product of the coefficients of all qubits but those in `S`. -/
noncomputable def rest (S : Finset (Fin n)) (x z : Fin n → Bool) (f : Bits n) : ℂ :=
  ∏ j ∈ Finset.univ \ S, coef (x j) (z j) (f j)

theorem rest_congr {S : Finset (Fin n)} {x z f x' z' f' : Fin n → Bool} (hx : ∀ j ∉ S, x j = x' j)
    (hz : ∀ j ∉ S, z j = z' j) (hf : ∀ j ∉ S, f j = f' j) : rest S x z f = rest S x' z' f' := by
  unfold rest
  apply Finset.prod_congr rfl
  intro j hj
  simp only [Finset.mem_sdiff, Finset.mem_univ, true_and] at hj
  rw [hx j hj, hz j hj, hf j hj]

theorem prod_split1 (t : Fin n) (x z f : Fin n → Bool) :
    ∏ j, coef (x j) (z j) (f j) = rest {t} x z f * coef (x t) (z t) (f t) := by
  unfold rest
  rw [← Finset.prod_sdiff (Finset.subset_univ {t}), Finset.prod_singleton]

theorem prod_split2 {c t : Fin n} (h : c ≠ t) (x z f : Fin n → Bool) :
    ∏ j, coef (x j) (z j) (f j) =
      rest {c, t} x z f * (coef (x c) (z c) (f c) * coef (x t) (z t) (f t)) := by
  unfold rest
  rw [← Finset.prod_sdiff (Finset.subset_univ {c, t}), Finset.prod_pair h]

/-- The action of a Pauli on the pair of amplitudes of one qubit. -/
noncomputable def pauli1 (r : ℕ) (x z : Bool) (u : Bool → ℂ) (b : Bool) : ℂ := I ^ r * coef x z b * u (b ^^ x)

/-- The action of a Pauli on the four amplitudes of two qubits. -/
noncomputable def pauli2 (r : ℕ) (xc zc xt zt : Bool) (u : Bool → Bool → ℂ) (a b : Bool) : ℂ :=
  I ^ r * (coef xc zc a * coef xt zt b) * u (a ^^ xc) (b ^^ xt)

/-- A local operator is linear: multiplying all amplitudes by a scalar multiplies the result. -/
def Lin1 (L : (Bool → ℂ) → Bool → ℂ) : Prop := ∀ (k : ℂ) u b, L (fun b => k * u b) b = k * L u b
def Lin2 (L : (Bool → Bool → ℂ) → Bool → Bool → ℂ) : Prop := ∀ (k : ℂ) u a b, L (fun a b => k * u a b) a b = k * L u a b

theorem conj1 {t : Fin n} {L : (Bool → ℂ) → Bool → ℂ} (hL : Lin1 L) {x z x' z' : Fin n → Bool} {r r' : ℕ}
    (hx : ∀ j ≠ t, x' j = x j) (hz : ∀ j ≠ t, z' j = z j)
    (h : ∀ u b, pauli1 r' (x' t) (z' t) (L u) b = L (pauli1 r (x t) (z t) u) b) (ψ : State n) :
    pauliOp r' x' z' (loc1 t L ψ) = loc1 t L (pauliOp r x z ψ) := by
  funext f
  rw [pauliOp_apply, prod_split1 t]
  have hK : rest {t} x' z' f = rest {t} x z f :=
    rest_congr (fun j hj => hx j (by simpa using hj)) (fun j hj => hz j (by simpa using hj)) (fun j _ => rfl)
  have hu : ∀ b, Function.update (bxor f x') t b = Function.update (bxor f x) t b := by
    intro b; funext j
    by_cases hj : j = t
    · subst hj; simp
    · simp [Function.update_of_ne hj, bxor, hx j hj]
  set u : Bool → ℂ := fun b => ψ (Function.update (bxor f x) t b) with hudef
  have h1 : loc1 t L ψ (bxor f x') = L u (f t ^^ x' t) := by
    unfold loc1; simp only [hu]; rfl
  have h2 : loc1 t L (pauliOp r x z ψ) f = rest {t} x z f * L (pauli1 r (x t) (z t) u) (f t) := by
    unfold loc1
    rw [← hL]
    congr 1
    funext b
    rw [pauliOp_apply, prod_split1 t]
    have e1 : rest {t} x z (Function.update f t b) = rest {t} x z f :=
      rest_congr (fun _ _ => rfl) (fun _ _ => rfl) (fun j hj => Function.update_of_ne (by simpa using hj) _ _)
    have e2 : bxor (Function.update f t b) x = Function.update (bxor f x) t (b ^^ x t) := by
      funext j
      by_cases hj : j = t
      · subst hj; simp [bxor]
      · simp [bxor, Function.update_of_ne hj]
    rw [e1, e2, Function.update_self]
    simp only [pauli1, hudef]; ring
  rw [h1, h2, ← h, pauli1, hK]; ring

theorem update2_other {c t j : Fin n} (hc : j ≠ c) (ht : j ≠ t) (f : Bits n) (a b : Bool) :
    Function.update (Function.update f c a) t b j = f j := by
  rw [Function.update_of_ne ht, Function.update_of_ne hc]

theorem conj2 {c t : Fin n} (hct : c ≠ t) {L : (Bool → Bool → ℂ) → Bool → Bool → ℂ} (hL : Lin2 L)
    {x z x' z' : Fin n → Bool} {r r' : ℕ}
    (hx : ∀ j, j ≠ c → j ≠ t → x' j = x j) (hz : ∀ j, j ≠ c → j ≠ t → z' j = z j)
    (h : ∀ u a b, pauli2 r' (x' c) (z' c) (x' t) (z' t) (L u) a b =
      L (pauli2 r (x c) (z c) (x t) (z t) u) a b) (ψ : State n) :
    pauliOp r' x' z' (loc2 c t L ψ) = loc2 c t L (pauliOp r x z ψ) := by
  funext f
  rw [pauliOp_apply, prod_split2 hct]
  have hmem : ∀ {j : Fin n}, j ∉ ({c, t} : Finset (Fin n)) → j ≠ c ∧ j ≠ t := by
    intro j hj; simpa using hj
  have hK : rest {c, t} x' z' f = rest {c, t} x z f :=
    rest_congr (fun j hj => hx j (hmem hj).1 (hmem hj).2) (fun j hj => hz j (hmem hj).1 (hmem hj).2) (fun j _ => rfl)
  have hu : ∀ a b, Function.update (Function.update (bxor f x') c a) t b =
      Function.update (Function.update (bxor f x) c a) t b := by
    intro a b; funext j
    by_cases hj : j = t
    · subst hj; simp
    · rw [Function.update_of_ne hj, Function.update_of_ne hj]
      by_cases hj' : j = c
      · subst hj'; simp
      · simp [Function.update_of_ne hj', bxor, hx j hj' hj]
  set u : Bool → Bool → ℂ := fun a b => ψ (Function.update (Function.update (bxor f x) c a) t b) with hudef
  have h1 : loc2 c t L ψ (bxor f x') = L u (f c ^^ x' c) (f t ^^ x' t) := by
    unfold loc2; simp only [hu]; rfl
  have h2 : loc2 c t L (pauliOp r x z ψ) f = rest {c, t} x z f * L (pauli2 r (x c) (z c) (x t) (z t) u) (f c) (f t) := by
    unfold loc2
    rw [← hL]
    congr 1
    funext a b
    rw [pauliOp_apply, prod_split2 hct]
    have e1 : rest {c, t} x z (Function.update (Function.update f c a) t b) = rest {c, t} x z f :=
      rest_congr (fun _ _ => rfl) (fun _ _ => rfl) (fun j hj => update2_other (hmem hj).1 (hmem hj).2 _ _ _)
    have e2 : bxor (Function.update (Function.update f c a) t b) x =
        Function.update (Function.update (bxor f x) c (a ^^ x c)) t (b ^^ x t) := by
      funext j
      by_cases hj : j = t
      · subst hj; simp [bxor]
      · by_cases hj' : j = c
        · subst hj'; simp [bxor, Function.update_of_ne hj]
        · simp [bxor, Function.update_of_ne hj, Function.update_of_ne hj']
    rw [e1, e2, Function.update_self, Function.update_of_ne hct, Function.update_self]
    simp only [pauli2, hudef]; ring
  rw [h1, h2, ← h, pauli2, hK]; ring

/-! ### Gates as local operators -/

/-- Local form of `gate1`. -/
def mat1 (a b c d : ℂ) (u : Bool → ℂ) (v : Bool) : ℂ :=
  if v then c * u false + d * u true else a * u false + b * u true

theorem gate1_eq (t : Fin n) (a b c d : ℂ) : gate1 t a b c d = loc1 t (mat1 a b c d) := rfl

theorem lin_mat1 (a b c d : ℂ) : Lin1 (mat1 a b c d) := by
  intro k u v; unfold mat1; split_ifs <;> ring

/-- Local form of a controlled gate. -/
def cmat (v : Bool) (a b c d : ℂ) (u : Bool → Bool → ℂ) (p q : Bool) : ℂ :=
  if p = v then mat1 a b c d (u p) q else u p q

theorem ctrl_eq {c t : Fin n} (hct : c ≠ t) (v : Bool) (a b d e : ℂ) :
    ctrl v c (gate1 t a b d e) = loc2 c t (cmat v a b d e) := by
  funext ψ f
  unfold ctrl loc2 cmat
  rw [gate1_eq]
  simp only [Function.update_eq_self, loc1]

theorem lin_cmat (v : Bool) (a b c d : ℂ) : Lin2 (cmat v a b c d) := by
  intro k u p q; unfold cmat; split_ifs
  · exact lin_mat1 a b c d k (u p) q
  · rfl

/-- Local form of the swaps. -/
def smat (w : ℂ) (u : Bool → Bool → ℂ) (p q : Bool) : ℂ := (if p = q then 1 else w) * u q p

theorem swap_eq {c t : Fin n} (hct : c ≠ t) (w : ℂ) : swapOp c t w = loc2 c t (smat w) := by
  funext ψ f
  unfold swapOp loc2 smat
  congr 2
  funext j
  by_cases hj : j = t
  · subst hj; simp
  · by_cases hj' : j = c
    · subst hj'; simp [Function.update_of_ne hj]
    · simp [Function.update_of_ne hj, Function.update_of_ne hj', Equiv.swap_apply_of_ne_of_ne hj' hj]

theorem lin_smat (w : ℂ) : Lin2 (smat w) := by
  intro k u p q; unfold smat; ring

end Verif.Pauli
