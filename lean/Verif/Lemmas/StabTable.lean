import Verif.Lemmas.Stabilizer

/-!
Helper lemmas: the row updates of the gates as tables on the bits of the qubits they touch, and the conjugation of the
Paulis of those qubits.
-/

namespace Verif.Stab

open Verif.Pauli Complex

variable {n : ℕ}

/-- The operator a row stands for. -/
noncomputable def Row.op (w : Row n) : State n → State n := pauliOp w.r w.x w.z

/-- The new bits of qubits `c`, `t` and whether the sign changes. -/
structure Act2 where
  xc : Bool
  zc : Bool
  xt : Bool
  zt : Bool
  s : Bool
  deriving DecidableEq

/-- The new bits of a qubit and whether the sign changes. -/
structure Act1 where
  x : Bool
  z : Bool
  s : Bool
  deriving DecidableEq

/-- `r`, negated if `s`. -/
def sgn (s : Bool) (r : ℕ) : ℕ := if s then (r + 2) &&& 3 else r

theorem I_sgn (s : Bool) (r : ℕ) : I ^ sgn s r = (if s then -1 else 1) * I ^ r := by
  cases s <;> simp [sgn, I_pow_neg]

/-- A row update that acts on one qubit by a table. -/
def Table1 (t : Fin n) (F : Row n → Row n) (A : Bool → Bool → Act1) : Prop :=
  ∀ w, F w = { x := Function.update w.x t (A (w.x t) (w.z t)).x
               z := Function.update w.z t (A (w.x t) (w.z t)).z
               r := sgn (A (w.x t) (w.z t)).s w.r }

/-- A row update that acts on two qubits by a table. -/
def Table2 (c t : Fin n) (F : Row n → Row n) (A : Bool → Bool → Bool → Bool → Act2) : Prop :=
  ∀ w, F w = { x := Function.update (Function.update w.x c (A (w.x c) (w.z c) (w.x t) (w.z t)).xc) t
                  (A (w.x c) (w.z c) (w.x t) (w.z t)).xt
               z := Function.update (Function.update w.z c (A (w.x c) (w.z c) (w.x t) (w.z t)).zc) t
                  (A (w.x c) (w.z c) (w.x t) (w.z t)).zt
               r := sgn (A (w.x c) (w.z c) (w.x t) (w.z t)).s w.r }

/-- Conjugation of the four one-qubit Paulis. -/
def Conj1 (L : (Bool → ℂ) → Bool → ℂ) (A : Bool → Bool → Act1) : Prop :=
  ∀ x z u b,
    (if (A x z).s then -1 else 1) * coef (A x z).x (A x z).z b * L u (b ^^ (A x z).x) =
      L (fun b => coef x z b * u (b ^^ x)) b

/-- Conjugation of the sixteen two-qubit Paulis. -/
def Conj2 (L : (Bool → Bool → ℂ) → Bool → Bool → ℂ) (A : Bool → Bool → Bool → Bool → Act2) : Prop :=
  ∀ xc zc xt zt u a b,
    (if (A xc zc xt zt).s then -1 else 1) * (coef (A xc zc xt zt).xc (A xc zc xt zt).zc a *
      coef (A xc zc xt zt).xt (A xc zc xt zt).zt b) * L u (a ^^ (A xc zc xt zt).xc) (b ^^ (A xc zc xt zt).xt) =
      L (fun a b => coef xc zc a * coef xt zt b * u (a ^^ xc) (b ^^ xt)) a b

theorem conj_table1 {t : Fin n} {F : Row n → Row n} {A : Bool → Bool → Act1}
    (hF : Table1 t F A) {L : (Bool → ℂ) → Bool → ℂ} (hL : Lin1 L) (h : Conj1 L A) (w : Row n)
    (ψ : State n) : (F w).op (loc1 t L ψ) = loc1 t L (w.op ψ) := by
  unfold Row.op
  rw [hF w]
  refine conj1 hL ?_ ?_ ?_ _
  · intro j hj; simp [Function.update_of_ne hj]
  · intro j hj; simp [Function.update_of_ne hj]
  · intro u b
    have := h (w.x t) (w.z t) u b
    have e : L (pauli1 w.r (w.x t) (w.z t) u) b =
        I ^ w.r * L (fun b => coef (w.x t) (w.z t) b * u (b ^^ w.x t)) b := by
      rw [← hL]; congr 1; funext b; rw [pauli1, mul_assoc]
    rw [e, ← this, pauli1]
    simp only [Function.update_self]
    rw [I_sgn]; ring

theorem conj_table2 {c t : Fin n} (hct : c ≠ t) {F : Row n → Row n} {A : Bool → Bool → Bool → Bool → Act2}
    (hF : Table2 c t F A) {L : (Bool → Bool → ℂ) → Bool → Bool → ℂ} (hL : Lin2 L) (h : Conj2 L A) (w : Row n)
    (ψ : State n) : (F w).op (loc2 c t L ψ) = loc2 c t L (w.op ψ) := by
  unfold Row.op
  rw [hF w]
  refine conj2 hct hL ?_ ?_ ?_ _
  · intro j hj hj'; simp [Function.update_of_ne hj, Function.update_of_ne hj']
  · intro j hj hj'; simp [Function.update_of_ne hj, Function.update_of_ne hj']
  · intro u a b
    have := h (w.x c) (w.z c) (w.x t) (w.z t) u a b
    have e : L (pauli2 w.r (w.x c) (w.z c) (w.x t) (w.z t) u) a b =
        I ^ w.r * L (fun a b => coef (w.x c) (w.z c) a * coef (w.x t) (w.z t) b * u (a ^^ w.x c) (b ^^ w.x t)) a b := by
      rw [← hL]; congr 1; funext a b; rw [pauli2, mul_assoc]
    rw [e, ← this, pauli2]
    simp only [Function.update_self, Function.update_of_ne hct]
    rw [I_sgn]; ring

/-- The row `w` with the bits of qubits `c`, `t` and the phase replaced. -/
def mk2 (c t : Fin n) (w : Row n) (xc zc xt zt : Bool) (r : ℕ) : Row n :=
  { x := Function.update (Function.update w.x c xc) t xt, z := Function.update (Function.update w.z c zc) t zt, r := r }

section mk2

variable {c t : Fin n} (w : Row n) (xc zc xt zt b : Bool) (r : ℕ)

theorem mk2_self (w : Row n) : mk2 c t w (w.x c) (w.z c) (w.x t) (w.z t) w.r = w := by simp [mk2]

theorem mk2_xt : (mk2 c t w xc zc xt zt r).x t = xt := by simp [mk2]
theorem mk2_zt : (mk2 c t w xc zc xt zt r).z t = zt := by simp [mk2]
theorem mk2_xc (h : c ≠ t) : (mk2 c t w xc zc xt zt r).x c = xc := by simp [mk2, Function.update_of_ne h]
theorem mk2_zc (h : c ≠ t) : (mk2 c t w xc zc xt zt r).z c = zc := by simp [mk2, Function.update_of_ne h]
theorem mk2_setXt : (mk2 c t w xc zc xt zt r).setX t b = mk2 c t w xc zc b zt r := by simp [mk2, Row.setX]
theorem mk2_setZt : (mk2 c t w xc zc xt zt r).setZ t b = mk2 c t w xc zc xt b r := by simp [mk2, Row.setZ]
theorem mk2_setXc (h : c ≠ t) : (mk2 c t w xc zc xt zt r).setX c b = mk2 c t w b zc xt zt r := by
  simp [mk2, Row.setX, Function.update_comm h]
theorem mk2_setZc (h : c ≠ t) : (mk2 c t w xc zc xt zt r).setZ c b = mk2 c t w xc b xt zt r := by
  simp [mk2, Row.setZ, Function.update_comm h]
theorem mk2_neg : (mk2 c t w xc zc xt zt r).neg = mk2 c t w xc zc xt zt ((r + 2) &&& 3) := rfl
theorem mk2_swap (h : c ≠ t) : (mk2 c t w xc zc xt zt r).swapBits c t = mk2 c t w xt zt xc zc r := by
  simp only [mk2, Row.swapBits, Function.update_of_ne h, Function.update_self]
  congr 1
  · funext j
    by_cases hj : j = t
    · subst hj; simp
    · by_cases hj' : j = c
      · subst hj'; simp [Function.update_of_ne hj]
      · simp [Function.update_of_ne hj, Function.update_of_ne hj']
  · funext j
    by_cases hj : j = t
    · subst hj; simp
    · by_cases hj' : j = c
      · subst hj'; simp [Function.update_of_ne hj]
      · simp [Function.update_of_ne hj, Function.update_of_ne hj']

end mk2

theorem table2_mk {c t : Fin n} {F : Row n → Row n} {A : Bool → Bool → Bool → Bool → Act2}
    (h : ∀ xc zc xt zt w r, F (mk2 c t w xc zc xt zt r) = mk2 c t w (A xc zc xt zt).xc (A xc zc xt zt).zc
      (A xc zc xt zt).xt (A xc zc xt zt).zt (sgn (A xc zc xt zt).s r)) : Table2 c t F A := by
  intro w
  have := h (w.x c) (w.z c) (w.x t) (w.z t) w w.r
  rw [mk2_self] at this
  exact this

macro "table_two" d:ident c:ident t:ident hct:ident : tactic => `(tactic| (
  refine table2_mk ?_
  intro xc zc xt zt w r
  cases xc <;> cases zc <;> cases xt <;> cases zt <;>
    simp only [$d:ident, sgn, mk2_xt, mk2_zt, mk2_xc _ _ _ _ _ _ $hct, mk2_zc _ _ _ _ _ _ $hct, mk2_setXt, mk2_setZt,
      mk2_setXc _ _ _ _ _ _ _ $hct, mk2_setZc _ _ _ _ _ _ _ $hct, mk2_neg, mk2_swap _ _ _ _ _ _ $hct, Bool.xor_false,
      Bool.xor_true, Bool.false_xor, Bool.true_xor, Bool.not_false, Bool.not_true, Bool.and_false, Bool.and_true,
      Bool.false_and, Bool.true_and, Bool.or_false, Bool.or_true, Bool.false_or, Bool.true_or, beq_self_eq_true,
      bne_self_eq_false, Bool.false_beq, Bool.true_beq, Bool.bne_false, Bool.bne_true, Bool.false_bne, Bool.true_bne,
      if_true, if_false, reduceCtorEq, Bool.false_eq_true]))

/-- The row `w` with the bits of qubit `t` and the phase replaced. -/
def mk1 (t : Fin n) (w : Row n) (x z : Bool) (r : ℕ) : Row n :=
  { x := Function.update w.x t x, z := Function.update w.z t z, r := r }

section mk1

variable {t : Fin n} (w : Row n) (x z b : Bool) (r : ℕ)

theorem mk1_self (w : Row n) : mk1 t w (w.x t) (w.z t) w.r = w := by simp [mk1]

theorem mk1_x : (mk1 t w x z r).x t = x := by simp [mk1]
theorem mk1_z : (mk1 t w x z r).z t = z := by simp [mk1]
theorem mk1_setX : (mk1 t w x z r).setX t b = mk1 t w b z r := by simp [mk1, Row.setX]
theorem mk1_setZ : (mk1 t w x z r).setZ t b = mk1 t w x b r := by simp [mk1, Row.setZ]
theorem mk1_neg : (mk1 t w x z r).neg = mk1 t w x z ((r + 2) &&& 3) := rfl

end mk1

theorem table1_mk {t : Fin n} {F : Row n → Row n} {A : Bool → Bool → Act1}
    (h : ∀ x z w r, F (mk1 t w x z r) = mk1 t w (A x z).x (A x z).z (sgn (A x z).s r)) : Table1 t F A := by
  intro w
  have := h (w.x t) (w.z t) w w.r
  rw [mk1_self] at this
  exact this

theorem rowH_mk1 (t : Fin n) (w : Row n) (x z : Bool) (r : ℕ) :
    rowH t (mk1 t w x z r) = if z && x then (mk1 t w z x r).neg else mk1 t w z x r := by
  simp [rowH, mk1]

macro "table_one" d:ident t:ident : tactic => `(tactic| (
  refine table1_mk ?_
  intro x z w r
  cases x <;> cases z <;>
    simp only [$d:ident, sgn, mk1_x, mk1_z, mk1_setX, mk1_setZ, mk1_neg, Bool.xor_false,
      Bool.xor_true, Bool.false_xor, Bool.true_xor, Bool.not_false, Bool.not_true, Bool.and_false, Bool.and_true,
      Bool.false_and, Bool.true_and, if_true, if_false, reduceCtorEq, Bool.false_eq_true]))

/-! ### The tables of the gates -/

theorem I_three : I ^ 3 = -I := by rw [pow_succ, I_sq]; ring

theorem coef_ff (b : Bool) : coef false false b = 1 := by cases b <;> simp [coef, entry]
theorem coef_tf (b : Bool) : coef true false b = 1 := by cases b <;> simp [coef, entry]
theorem coef_ft0 : coef false true false = 1 := by simp [coef, entry]
theorem coef_ft1 : coef false true true = -1 := by simp [coef, entry]
theorem coef_tt0 : coef true true false = -I := by simp [coef, entry]
theorem coef_tt1 : coef true true true = I := by simp [coef, entry]

macro "conj_close" d:ident : tactic => `(tactic| (
  try simp only [$d:ident, mat1, cmat, smat, coef_ff, coef_tf, coef_ft0, coef_ft1, coef_tt0, coef_tt1, Bool.xor_false,
    Bool.xor_true, Bool.false_xor, Bool.true_xor, Bool.not_false, Bool.not_true, Bool.and_false, Bool.and_true,
    Bool.false_and, Bool.true_and, Bool.or_false, Bool.or_true, Bool.false_or, Bool.true_or, beq_self_eq_true,
    bne_self_eq_false, Bool.false_beq, Bool.true_beq, Bool.bne_false, Bool.bne_true,
    Bool.false_bne, Bool.true_bne, if_true, if_false, reduceCtorEq, Bool.false_eq_true]
  first | ring1 | (ring_nf; simp only [I_sq, I_three]; ring1)))

def tCNOT (xc zc xt zt : Bool) : Act2 := ⟨xc, zc ^^ zt, xt ^^ xc, zt, xc && zt && (xt == zc)⟩

theorem table_CNOT {c t : Fin n} (h : c ≠ t) : Table2 c t (rowCNOT c t) tCNOT := by
  unfold tCNOT
  table_two rowCNOT c t h

theorem conj_CNOT : Conj2 (cmat true 0 1 1 0) tCNOT := by
  intro xc zc xt zt u a b
  cases xc <;> cases zc <;> cases xt <;> cases zt <;> cases a <;> cases b <;>
    conj_close tCNOT

def tAntiCNOT (xc zc xt zt : Bool) : Act2 := ⟨xc, zc ^^ zt, xt ^^ xc, zt, zt && (!xc || (xt != zc))⟩

theorem table_AntiCNOT {c t : Fin n} (h : c ≠ t) : Table2 c t (rowAntiCNOT c t) tAntiCNOT := by
  unfold tAntiCNOT
  table_two rowAntiCNOT c t h

theorem conj_AntiCNOT : Conj2 (cmat false 0 1 1 0) tAntiCNOT := by
  intro xc zc xt zt u a b
  cases xc <;> cases zc <;> cases xt <;> cases zt <;> cases a <;> cases b <;>
    conj_close tAntiCNOT

def tCY (xc zc xt zt : Bool) : Act2 := ⟨xc, zc ^^ zt ^^ xt, xt ^^ xc, zt ^^ xc, (zt ^^ xt) && xc && ((!xt) == zc)⟩

theorem table_CY {c t : Fin n} (h : c ≠ t) : Table2 c t (rowCY c t) tCY := by
  unfold tCY
  table_two rowCY c t h

theorem conj_CY : Conj2 (cmat true 0 (-I) I 0) tCY := by
  intro xc zc xt zt u a b
  cases xc <;> cases zc <;> cases xt <;> cases zt <;> cases a <;> cases b <;>
    conj_close tCY

def tAntiCY (xc zc xt zt : Bool) : Act2 := ⟨xc, zc ^^ zt ^^ xt, xt ^^ xc, zt ^^ xc, (zt ^^ xt) && (!xc || ((xt ^^ xc) != zc))⟩

theorem table_AntiCY {c t : Fin n} (h : c ≠ t) : Table2 c t (rowAntiCY c t) tAntiCY := by
  unfold tAntiCY
  table_two rowAntiCY c t h

theorem conj_AntiCY : Conj2 (cmat false 0 (-I) I 0) tAntiCY := by
  intro xc zc xt zt u a b
  cases xc <;> cases zc <;> cases xt <;> cases zt <;> cases a <;> cases b <;>
    conj_close tAntiCY

def tCZ (xc zc xt zt : Bool) : Act2 := ⟨xc, zc ^^ xt, xt, zt ^^ xc, xt && xc && (zt == !zc)⟩

theorem table_CZ {c t : Fin n} (h : c ≠ t) : Table2 c t (rowCZ c t) tCZ := by
  unfold tCZ
  table_two rowCZ c t h

theorem conj_CZ : Conj2 (cmat true 1 0 0 (-1)) tCZ := by
  intro xc zc xt zt u a b
  cases xc <;> cases zc <;> cases xt <;> cases zt <;> cases a <;> cases b <;>
    conj_close tCZ

def tAntiCZ (xc zc xt zt : Bool) : Act2 := ⟨xc, zc ^^ xt, xt, zt ^^ xc, xt && (!xc || (zt != !zc))⟩

theorem table_AntiCZ {c t : Fin n} (h : c ≠ t) : Table2 c t (rowAntiCZ c t) tAntiCZ := by
  unfold tAntiCZ
  table_two rowAntiCZ c t h

theorem conj_AntiCZ : Conj2 (cmat false 1 0 0 (-1)) tAntiCZ := by
  intro xc zc xt zt u a b
  cases xc <;> cases zc <;> cases xt <;> cases zt <;> cases a <;> cases b <;>
    conj_close tAntiCZ

def tSwap (xc zc xt zt : Bool) : Act2 := ⟨xt, zt, xc, zc, false⟩

theorem table_Swap {c t : Fin n} (h : c ≠ t) : Table2 c t (rowSwap c t) tSwap := by
  unfold tSwap
  table_two rowSwap c t h

theorem conj_Swap : Conj2 (smat 1) tSwap := by
  intro xc zc xt zt u a b
  cases xc <;> cases zc <;> cases xt <;> cases zt <;> cases a <;> cases b <;>
    conj_close tSwap

def tISwap (xc zc xt zt : Bool) : Act2 := ⟨xt, zt ^^ xc ^^ xt, xc, zc ^^ xc ^^ xt, (xc && !xt && zc) ^^ (xt && (zt ^^ xc) && !xc)⟩

theorem table_ISwap {c t : Fin n} (h : c ≠ t) : Table2 c t (rowISwap c t) tISwap := by
  unfold tISwap
  table_two rowISwap c t h

theorem conj_ISwap : Conj2 (smat I) tISwap := by
  intro xc zc xt zt u a b
  cases xc <;> cases zc <;> cases xt <;> cases zt <;> cases a <;> cases b <;>
    conj_close tISwap

def tIISwap (xc zc xt zt : Bool) : Act2 := ⟨xt, zt ^^ xc ^^ xt, xc, zc ^^ xc ^^ xt, (xc && !xt && (zc ^^ xc)) ^^ (xt && !xc && (zt ^^ xt ^^ xc))⟩

theorem table_IISwap {c t : Fin n} (h : c ≠ t) : Table2 c t (rowIISwap c t) tIISwap := by
  unfold tIISwap
  table_two rowIISwap c t h

theorem conj_IISwap : Conj2 (smat (-I)) tIISwap := by
  intro xc zc xt zt u a b
  cases xc <;> cases zc <;> cases xt <;> cases zt <;> cases a <;> cases b <;>
    conj_close tIISwap

def tH (x z : Bool) : Act1 := ⟨z, x, x && z⟩

theorem table_H (t : Fin n) : Table1 t (rowH t) tH := by
  unfold tH
  table_one rowH_mk1 t

theorem conj_H : Conj1 (mat1 rt rt rt (-rt)) tH := by
  intro x z u b
  cases x <;> cases z <;> cases b <;>
    conj_close tH

def tX (x z : Bool) : Act1 := ⟨x, z, z⟩

theorem table_X (t : Fin n) : Table1 t (rowX t) tX := by
  unfold tX
  table_one rowX t

theorem conj_X : Conj1 (mat1 0 1 1 0) tX := by
  intro x z u b
  cases x <;> cases z <;> cases b <;>
    conj_close tX

def tY (x z : Bool) : Act1 := ⟨x, z, z ^^ x⟩

theorem table_Y (t : Fin n) : Table1 t (rowY t) tY := by
  unfold tY
  table_one rowY t

theorem conj_Y : Conj1 (mat1 0 (-I) I 0) tY := by
  intro x z u b
  cases x <;> cases z <;> cases b <;>
    conj_close tY

def tZ (x z : Bool) : Act1 := ⟨x, z, x⟩

theorem table_Z (t : Fin n) : Table1 t (rowZ t) tZ := by
  unfold tZ
  table_one rowZ t

theorem conj_Z : Conj1 (mat1 1 0 0 (-1)) tZ := by
  intro x z u b
  cases x <;> cases z <;> cases b <;>
    conj_close tZ

def tS (x z : Bool) : Act1 := ⟨x, z ^^ x, x && z⟩

theorem table_S (t : Fin n) : Table1 t (rowS t) tS := by
  unfold tS
  table_one rowS t

theorem conj_S : Conj1 (mat1 1 0 0 I) tS := by
  intro x z u b
  cases x <;> cases z <;> cases b <;>
    conj_close tS

def tIS (x z : Bool) : Act1 := ⟨x, z ^^ x, x && !z⟩

theorem table_IS (t : Fin n) : Table1 t (rowIS t) tIS := by
  unfold tIS
  table_one rowIS t

theorem conj_IS : Conj1 (mat1 1 0 0 (-I)) tIS := by
  intro x z u b
  cases x <;> cases z <;> cases b <;>
    conj_close tIS

end Verif.Stab
