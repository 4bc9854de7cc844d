import Verif.Lemmas.StabInv

/-!
# C26: the stabilizer gates are Clifford conjugations

The unitaries are those of `Verif.Spec.Pauli`.
-/

namespace Verif.Stab

open Verif.Pauli Complex

variable {n : ℕ}

/-! ### Every row, every gate -/

theorem rowCNOT_conj {c t : Fin n} (h : c ≠ t) (w : Row n) (ψ : State n) :
    (rowCNOT c t w).op (ctrl true c (xGate t) ψ) = ctrl true c (xGate t) (w.op ψ) := by
  unfold xGate
  rw [ctrl_eq h]
  exact conj_table2 h (table_CNOT h) (lin_cmat _ _ _ _ _) conj_CNOT w ψ

theorem rowAntiCNOT_conj {c t : Fin n} (h : c ≠ t) (w : Row n) (ψ : State n) :
    (rowAntiCNOT c t w).op (ctrl false c (xGate t) ψ) = ctrl false c (xGate t) (w.op ψ) := by
  unfold xGate
  rw [ctrl_eq h]
  exact conj_table2 h (table_AntiCNOT h) (lin_cmat _ _ _ _ _) conj_AntiCNOT w ψ

theorem rowCY_conj {c t : Fin n} (h : c ≠ t) (w : Row n) (ψ : State n) :
    (rowCY c t w).op (ctrl true c (yGate t) ψ) = ctrl true c (yGate t) (w.op ψ) := by
  unfold yGate
  rw [ctrl_eq h]
  exact conj_table2 h (table_CY h) (lin_cmat _ _ _ _ _) conj_CY w ψ

theorem rowAntiCY_conj {c t : Fin n} (h : c ≠ t) (w : Row n) (ψ : State n) :
    (rowAntiCY c t w).op (ctrl false c (yGate t) ψ) = ctrl false c (yGate t) (w.op ψ) := by
  unfold yGate
  rw [ctrl_eq h]
  exact conj_table2 h (table_AntiCY h) (lin_cmat _ _ _ _ _) conj_AntiCY w ψ

theorem rowCZ_conj {c t : Fin n} (h : c ≠ t) (w : Row n) (ψ : State n) :
    (rowCZ c t w).op (ctrl true c (zGate t) ψ) = ctrl true c (zGate t) (w.op ψ) := by
  unfold zGate
  rw [ctrl_eq h]
  exact conj_table2 h (table_CZ h) (lin_cmat _ _ _ _ _) conj_CZ w ψ

theorem rowAntiCZ_conj {c t : Fin n} (h : c ≠ t) (w : Row n) (ψ : State n) :
    (rowAntiCZ c t w).op (ctrl false c (zGate t) ψ) = ctrl false c (zGate t) (w.op ψ) := by
  unfold zGate
  rw [ctrl_eq h]
  exact conj_table2 h (table_AntiCZ h) (lin_cmat _ _ _ _ _) conj_AntiCZ w ψ

theorem rowSwap_conj {c t : Fin n} (h : c ≠ t) (w : Row n) (ψ : State n) :
    (rowSwap c t w).op (swapOp c t 1 ψ) = swapOp c t 1 (w.op ψ) := by
  rw [swap_eq h]
  exact conj_table2 h (table_Swap h) (lin_smat _) conj_Swap w ψ

theorem rowISwap_conj {c t : Fin n} (h : c ≠ t) (w : Row n) (ψ : State n) :
    (rowISwap c t w).op (swapOp c t I ψ) = swapOp c t I (w.op ψ) := by
  rw [swap_eq h]
  exact conj_table2 h (table_ISwap h) (lin_smat _) conj_ISwap w ψ

theorem rowIISwap_conj {c t : Fin n} (h : c ≠ t) (w : Row n) (ψ : State n) :
    (rowIISwap c t w).op (swapOp c t (-I) ψ) = swapOp c t (-I) (w.op ψ) := by
  rw [swap_eq h]
  exact conj_table2 h (table_IISwap h) (lin_smat _) conj_IISwap w ψ

theorem rowH_conj (t : Fin n) (w : Row n) (ψ : State n) : (rowH t w).op (hGate t ψ) = hGate t (w.op ψ) := by
  unfold hGate
  rw [gate1_eq]
  exact conj_table1 (table_H t) (lin_mat1 _ _ _ _) conj_H w ψ

theorem rowX_conj (t : Fin n) (w : Row n) (ψ : State n) : (rowX t w).op (xGate t ψ) = xGate t (w.op ψ) := by
  unfold xGate
  rw [gate1_eq]
  exact conj_table1 (table_X t) (lin_mat1 _ _ _ _) conj_X w ψ

theorem rowY_conj (t : Fin n) (w : Row n) (ψ : State n) : (rowY t w).op (yGate t ψ) = yGate t (w.op ψ) := by
  unfold yGate
  rw [gate1_eq]
  exact conj_table1 (table_Y t) (lin_mat1 _ _ _ _) conj_Y w ψ

theorem rowZ_conj (t : Fin n) (w : Row n) (ψ : State n) : (rowZ t w).op (zGate t ψ) = zGate t (w.op ψ) := by
  unfold zGate
  rw [gate1_eq]
  exact conj_table1 (table_Z t) (lin_mat1 _ _ _ _) conj_Z w ψ

theorem rowS_conj (t : Fin n) (w : Row n) (ψ : State n) : (rowS t w).op (sGate t ψ) = sGate t (w.op ψ) := by
  unfold sGate
  rw [gate1_eq]
  exact conj_table1 (table_S t) (lin_mat1 _ _ _ _) conj_S w ψ

theorem rowIS_conj (t : Fin n) (w : Row n) (ψ : State n) : (rowIS t w).op (isGate t ψ) = isGate t (w.op ψ) := by
  unfold isGate
  rw [gate1_eq]
  exact conj_table1 (table_IS t) (lin_mat1 _ _ _ _) conj_IS w ψ

/-! ### The tableau -/

/-- The unitary a gate names, for qubits of the register. -/
noncomputable def Gate.U (n : ℕ) : Gate → State n → State n
  | .cnot c t => if h : c < n ∧ t < n then ctrl true ⟨c, h.1⟩ (xGate ⟨t, h.2⟩) else id
  | .antiCnot c t => if h : c < n ∧ t < n then ctrl false ⟨c, h.1⟩ (xGate ⟨t, h.2⟩) else id
  | .cy c t => if h : c < n ∧ t < n then ctrl true ⟨c, h.1⟩ (yGate ⟨t, h.2⟩) else id
  | .antiCy c t => if h : c < n ∧ t < n then ctrl false ⟨c, h.1⟩ (yGate ⟨t, h.2⟩) else id
  | .cz c t => if h : c < n ∧ t < n then ctrl true ⟨c, h.1⟩ (zGate ⟨t, h.2⟩) else id
  | .antiCz c t => if h : c < n ∧ t < n then ctrl false ⟨c, h.1⟩ (zGate ⟨t, h.2⟩) else id
  | .swap c t => if h : c < n ∧ t < n then swapOp ⟨c, h.1⟩ ⟨t, h.2⟩ 1 else id
  | .iswap c t => if h : c < n ∧ t < n then swapOp ⟨c, h.1⟩ ⟨t, h.2⟩ I else id
  | .iiswap c t => if h : c < n ∧ t < n then swapOp ⟨c, h.1⟩ ⟨t, h.2⟩ (-I) else id
  | .h t => if h : t < n then hGate ⟨t, h⟩ else id
  | .x t => if h : t < n then xGate ⟨t, h⟩ else id
  | .y t => if h : t < n then yGate ⟨t, h⟩ else id
  | .z t => if h : t < n then zGate ⟨t, h⟩ else id
  | .s t => if h : t < n then sGate ⟨t, h⟩ else id
  | .is t => if h : t < n then isGate ⟨t, h⟩ else id

/-- The qubits a gate acts on; a two-qubit gate needs two different ones. -/
def Gate.Valid (n : ℕ) : Gate → Prop
  | .cnot c t | .antiCnot c t | .cy c t | .antiCy c t | .cz c t | .antiCz c t | .swap c t | .iswap c t | .iiswap c t =>
    c < n ∧ t < n ∧ c ≠ t
  | .h t | .x t | .y t | .z t | .s t | .is t => t < n

instance (n : ℕ) (g : Gate) : Decidable (g.Valid n) := by
  cases g <;> unfold Gate.Valid <;> infer_instance

theorem run2_stab {f : Fin n → Fin n → Row n → Row n} {U : Fin n → Fin n → State n → State n}
    (hf : ∀ c t, c ≠ t → ∀ w φ, (f c t w).op (U c t φ) = U c t (w.op φ)) {c t : ℕ} (hc : c < n) (ht : t < n) (hct : c ≠ t)
    {T : Tab n} {ψ : State n} (h : Stabilises T ψ) :
    ∃ T', run2 f c t T = some T' ∧ Stabilises T' (U ⟨c, hc⟩ ⟨t, ht⟩ ψ) := by
  refine ⟨parFor T (f ⟨c, hc⟩ ⟨t, ht⟩), ?_, ?_⟩
  · unfold run2; rw [dif_pos ⟨hc, ht⟩]
  · exact stab_parFor h (hf _ _ (by simpa [Fin.ext_iff] using hct))

theorem run1_stab {f : Fin n → Row n → Row n} {U : Fin n → State n → State n}
    (hf : ∀ t w φ, (f t w).op (U t φ) = U t (w.op φ)) {t : ℕ} (ht : t < n) {T : Tab n} {ψ : State n}
    (h : Stabilises T ψ) : ∃ T', run1 f t T = some T' ∧ Stabilises T' (U ⟨t, ht⟩ ψ) := by
  refine ⟨parFor T (f ⟨t, ht⟩), ?_, ?_⟩
  · unfold run1; rw [dif_pos ht]
  · exact stab_parFor h (hf _)

/-- If the stored generators stabilise `ψ`, the gate runs, and the generators it leaves stabilise the gate's unitary applied
to `ψ`; whatever is left in the scratch row. -/
theorem gate_stabilises (scr : Row n) {g : Gate} (hg : g.Valid n) {T : Tab n} {ψ : State n} (h : Stabilises T ψ) :
    ∃ T', g.run scr T = some T' ∧ Stabilises T' (g.U n ψ) := by
  cases g with
  | cnot c t =>
    obtain ⟨hc, ht, hct⟩ := hg
    simp only [Gate.run, Gate.U, dif_pos (And.intro hc ht)]
    exact run2_stab (U := fun c t => ctrl true c (xGate t)) (fun _ _ h => rowCNOT_conj h) hc ht hct h
  | antiCnot c t =>
    obtain ⟨hc, ht, hct⟩ := hg
    simp only [Gate.run, Gate.U, dif_pos (And.intro hc ht)]
    exact run2_stab (U := fun c t => ctrl false c (xGate t)) (fun _ _ h => rowAntiCNOT_conj h) hc ht hct h
  | cy c t =>
    obtain ⟨hc, ht, hct⟩ := hg
    simp only [Gate.run, Gate.U, dif_pos (And.intro hc ht)]
    exact run2_stab (U := fun c t => ctrl true c (yGate t)) (fun _ _ h => rowCY_conj h) hc ht hct h
  | antiCy c t =>
    obtain ⟨hc, ht, hct⟩ := hg
    simp only [Gate.run, Gate.U, dif_pos (And.intro hc ht)]
    exact run2_stab (U := fun c t => ctrl false c (yGate t)) (fun _ _ h => rowAntiCY_conj h) hc ht hct h
  | cz c t =>
    obtain ⟨hc, ht, hct⟩ := hg
    simp only [Gate.run, Gate.U, dif_pos (And.intro hc ht)]
    exact run2_stab (U := fun c t => ctrl true c (zGate t)) (fun _ _ h => rowCZ_conj h) hc ht hct h
  | antiCz c t =>
    obtain ⟨hc, ht, hct⟩ := hg
    simp only [Gate.run, Gate.U, dif_pos (And.intro hc ht)]
    exact run2_stab (U := fun c t => ctrl false c (zGate t)) (fun _ _ h => rowAntiCZ_conj h) hc ht hct h
  | swap c t =>
    obtain ⟨hc, ht, hct⟩ := hg
    simp only [Gate.run, Gate.U, dif_pos (And.intro hc ht), if_neg hct]
    exact run2_stab (U := fun c t => swapOp c t 1) (fun _ _ h => rowSwap_conj h) hc ht hct h
  | iswap c t =>
    obtain ⟨hc, ht, hct⟩ := hg
    simp only [Gate.run, Gate.U, dif_pos (And.intro hc ht), if_neg hct]
    exact run2_stab (U := fun c t => swapOp c t I) (fun _ _ h => rowISwap_conj h) hc ht hct h
  | iiswap c t =>
    obtain ⟨hc, ht, hct⟩ := hg
    simp only [Gate.run, Gate.U, dif_pos (And.intro hc ht), if_neg hct]
    exact run2_stab (U := fun c t => swapOp c t (-I)) (fun _ _ h => rowIISwap_conj h) hc ht hct h
  | h t =>
    have ht : t < n := hg
    simp only [Gate.run, Gate.U, dif_pos ht]
    exact run1_stab (U := hGate) rowH_conj ht h
  | x t =>
    have ht : t < n := hg
    simp only [Gate.run, Gate.U, dif_pos ht]
    exact run1_stab (U := xGate) rowX_conj ht h
  | y t =>
    have ht : t < n := hg
    simp only [Gate.run, Gate.U, dif_pos ht]
    exact run1_stab (U := yGate) rowY_conj ht h
  | s t =>
    have ht : t < n := hg
    simp only [Gate.run, Gate.U, dif_pos ht]
    exact run1_stab (U := sGate) rowS_conj ht h
  | is t =>
    have ht : t < n := hg
    simp only [Gate.run, Gate.U, dif_pos ht]
    exact run1_stab (U := isGate) rowIS_conj ht h
  | z t =>
    have ht : t < n := hg
    simp only [Gate.run, Gate.U, dif_pos ht]
    obtain ⟨T', h1, h2⟩ := run1_stab (U := zGate) rowZ_conj ht h
    exact ⟨getAmplitudeT T' scr, by rw [h1]; rfl, stab_scratch (stab_gaussian h2) scr⟩

/-- A qubit index outside the register throws; only a swap of a qubit with itself returns before the check. -/
theorem gate_throws (scr : Row n) (T : Tab n) (c t : ℕ) (h : n ≤ c ∨ n ≤ t) :
    (Gate.cnot c t).run scr T = none ∧ (Gate.antiCnot c t).run scr T = none ∧ (Gate.cy c t).run scr T = none ∧
    (Gate.antiCy c t).run scr T = none ∧ (Gate.cz c t).run scr T = none ∧ (Gate.antiCz c t).run scr T = none ∧
    (c ≠ t → (Gate.swap c t).run scr T = none ∧ (Gate.iswap c t).run scr T = none ∧ (Gate.iiswap c t).run scr T = none) := by
  have h2 : ∀ f : Fin n → Fin n → Row n → Row n, run2 f c t T = none := by
    intro f; unfold run2; rw [dif_neg (by omega)]
  refine ⟨h2 _, h2 _, h2 _, h2 _, h2 _, h2 _, fun hct => ?_⟩
  simp only [Gate.run, if_neg hct]
  exact ⟨h2 _, h2 _, h2 _⟩

theorem gate_throws_one (scr : Row n) (T : Tab n) (t : ℕ) (h : n ≤ t) :
    (Gate.h t).run scr T = none ∧ (Gate.x t).run scr T = none ∧ (Gate.y t).run scr T = none ∧
    (Gate.z t).run scr T = none ∧ (Gate.s t).run scr T = none ∧ (Gate.is t).run scr T = none := by
  have h2 : ∀ f : Fin n → Row n → Row n, run1 f t T = none := by
    intro f; unfold run1; rw [dif_neg (by omega)]
  refine ⟨h2 _, h2 _, h2 _, ?_, h2 _, h2 _⟩
  simp only [Gate.run, h2, Option.map_none]

/-- The amplitudes of a computational basis state. -/
def ket (b : Bits n) : State n := fun f => if f = b then 1 else 0

theorem rowX_init (T : Tab n) (b : Bits n) (h : Stabilises T (ket b)) (t : Fin n) :
    Stabilises (parFor T (rowX t)) (ket (Function.update b t (!b t))) := by
  have := stab_parFor h (rowX_conj t)
  convert this using 1
  funext f
  simp only [ket, xGate, gate1, zero_mul, one_mul, zero_add, add_zero]
  have key : ∀ v, (Function.update f t v = b) ↔ (f = Function.update b t (f t) ∧ v = b t) := by
    intro v
    constructor
    · intro h; subst h; simp
    · rintro ⟨h, rfl⟩
      funext j
      by_cases hj : j = t
      · subst hj; simp
      · rw [h]; simp [Function.update_of_ne hj]
  have hk : (f = Function.update b t (!b t)) ↔ (f = Function.update b t (f t) ∧ f t = !b t) := by
    constructor
    · intro h
      have : f t = !b t := by rw [h]; simp
      exact ⟨by rw [this]; exact h, this⟩
    · rintro ⟨h, h'⟩; rw [← h']; exact h
  rw [if_congr hk rfl rfl]
  by_cases hf : f t = true
  · rw [if_pos hf]
    simp only [key, hf]
    refine if_congr (and_congr_right fun _ => ?_) rfl rfl
    cases b t <;> simp
  · rw [if_neg hf]
    simp only [key]
    rw [Bool.not_eq_true] at hf
    simp only [hf]
    refine if_congr (and_congr_right fun _ => ?_) rfl rfl
    cases b t <;> simp

theorem initTab_stab (scr : Row n) : Stabilises (initTab n scr) (ket fun _ => false) := by
  intro i hi hi'
  unfold initTab
  rw [dif_neg (by omega), dif_pos (by omega)]
  funext f
  rw [op_apply]
  have e : bxor f (zRow (n := n) ⟨i - n, by omega⟩ 0).x = f := by funext j; simp [bxor, zRow]
  rw [e]
  unfold ket
  split_ifs with h
  · subst h
    rw [Finset.prod_eq_one]
    · simp [zRow]
    · intro j _
      simp only [zRow]
      by_cases hj : j = ⟨i - n, by omega⟩
      · simp [hj, coef_ft0]
      · simp [hj, coef_ff]
  · simp

/-- After `SetPermutation(perm)` the generators stabilise the basis state `perm`. -/
theorem setPermutation_stabilises (scr : Row n) (perm : ℕ) :
    Stabilises (setPermutation n scr perm) (ket fun j => perm.testBit j) := by
  have key : ∀ (l : List (Fin n)), l.Nodup → ∀ (T : Tab n) (b : Bits n), Stabilises T (ket b) →
      Stabilises (l.foldl (fun T (j : Fin n) => if perm.testBit j.val then parFor T (rowX j) else T) T)
        (ket fun j => if j ∈ l then b j ^^ perm.testBit j else b j) := by
    intro l
    induction l with
    | nil => intro _ T b h; simpa using h
    | cons a l ih =>
      intro hl T b h
      rw [List.nodup_cons] at hl
      rw [List.foldl_cons]
      by_cases hp : perm.testBit a.val = true
      · rw [if_pos hp]
        have := ih hl.2 _ _ (rowX_init T b h a)
        convert this using 2
        funext j
        by_cases hj : j = a
        · subst hj; simp [hl.1, hp]
        · simp [hj, Function.update_of_ne hj]
      · rw [if_neg hp]
        have := ih hl.2 _ _ h
        convert this using 2
        funext j
        by_cases hj : j = a
        · subst hj; simp [hl.1, hp]
        · simp [hj]
  have := key (List.finRange n) (List.nodup_finRange n) _ _ (initTab_stab scr)
  simp only [List.mem_finRange, if_true, Bool.false_xor] at this
  exact this

/-- Three qubits set to `|5⟩`: the hypothesis of `gate_stabilises` is met, for instance for a `CNOT` from qubit 2 to 1. -/
example : ∃ T', (Gate.cnot 2 1).run (idRow 3) (setPermutation 3 (idRow 3) 5) = some T' ∧
    Stabilises T' ((Gate.cnot 2 1).U 3 (ket fun j => Nat.testBit 5 j)) :=
  gate_stabilises _ (by decide) (setPermutation_stabilises _ 5)

end Verif.Stab
