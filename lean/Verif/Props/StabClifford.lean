import Verif.Lemmas.StabClifford

/-!
# C30: recognition of Clifford matrices

A matrix that is accepted is applied, up to a scalar; a refused call leaves the tableau as it was.
-/

namespace Verif.Stab

open Verif.Pauli Complex

variable {n : ℕ}

/-- What a call may do to `T`: finish with generators that satisfy the relations and stabilise `U ψ` for every stabilised
`ψ` (so that the state is `U ψ` up to a scalar), or throw and leave the tableau alone. -/
def Good (T : Tab n) (out : Tab n × Bool) (U : State n → State n) : Prop :=
  (out.2 = false → Inv out.1 ∧ ∀ ψ, Stabilises T ψ → Stabilises out.1 (U ψ)) ∧ (out.2 = true → out.1 = T)

theorem good_throw (T : Tab n) (U : State n → State n) : Good T (T, true) U :=
  ⟨fun h => absurd h (by simp), fun _ => rfl⟩

theorem good_seq {T : Tab n} (h : Inv T) (scr : Row n) {gs : List Gate} (hg : ∀ g ∈ gs, g.Valid n) {U : State n → State n}
    (k : ℂ) (hU : ∀ ψ, U ψ = fun f => k * seqU n gs ψ f) : Good T (runSeq scr gs T) U := by
  obtain ⟨T', h1, h2, h3⟩ := runSeq_ok scr gs hg h
  rw [h1]
  refine ⟨fun _ => ⟨h2, fun ψ hψ => ?_⟩, fun h => absurd h (by simp)⟩
  rw [hU]
  exact stab_smul (h3 ψ hψ) k

theorem good_same {T : Tab n} (h : Inv T) {U : State n → State n} (k : ℂ) (hU : ∀ ψ, U ψ = fun f => k * ψ f) :
    Good T (T, false) U := by
  refine ⟨fun _ => ⟨h, fun ψ hψ => ?_⟩, fun h => absurd h (by simp)⟩
  rw [hU]
  exact stab_smul hψ k

theorem div_I {a b : ℂ} (h : a = I * b) : b = -I * a := by rw [h]; ring_nf; rw [I_sq]; ring
theorem div_nI {a b : ℂ} (h : a = -I * b) : b = I * a := by rw [h]; ring_nf; rw [I_sq]; ring
theorem div_n {a b : ℂ} (h : a = -b) : b = -a := by rw [h]; ring

theorem rt_sq : rt ^ 2 = 1 / 2 := by rw [pow_two, rt_mul]

theorem seq1_good {T : Tab n} (h : Inv T) (scr : Row n) {t : ℕ} (ht : t < n) (gs : List Gate)
    (hgs : ∀ g ∈ gs, g.Valid n) {p q r s : ℂ} (hU : ∀ ψ, seqU n gs ψ = gate1 ⟨t, ht⟩ p q r s ψ) {a b c d : ℂ} (k : ℂ)
    (ha : a = k * p) (hb : b = k * q) (hc : c = k * r) (hd : d = k * s) :
    Good T (runSeq scr gs T) (gate1 ⟨t, ht⟩ a b c d) := by
  refine good_seq h scr hgs k fun ψ => ?_
  rw [hU, ha, hb, hc, hd, gate1_smul]

macro "seq_unit" ht:ident : tactic => `(tactic| (
    intro ψ
    simp only [seqU, List.foldl_cons, List.foldl_nil, Gate.U, dif_pos $ht, hGate, xGate, yGate, zGate, sGate, isGate,
      gate1_comp]
    exact rfl))

macro "seq_valid" ht:ident : tactic => `(tactic| simp [Gate.Valid, $ht:ident])

macro "arith" : tactic => `(tactic| first | ring1 | (ring_nf; simp only [rt_sq, I_sq, I_three]; first | done | ring1))

theorem onSeparable_good {T : Tab n} (h : Inv T) {t : ℕ} (ht : t < n) (rnd : Bool) {k : Bool → Tab n → Tab n × Bool}
    {U : State n → State n}
    (hk : ∀ v T', (∀ i, i < 2 * n → T' i = T i) → (∀ ψ, Stabilises T ψ → ∀ f : Bits n, f ⟨t, ht⟩ ≠ v → ψ f = 0) →
      (k v T').2 = false ∧ Inv (k v T').1 ∧ ∀ ψ, Stabilises T ψ → Stabilises (k v T').1 (U ψ)) :
    Good T (onSeparable T t rnd k) U := by
  obtain ⟨b, hb⟩ : ∃ b, isSeparableZ T t = some b := by
    unfold isSeparableZ; rw [dif_pos ht]; exact ⟨_, rfl⟩
  unfold onSeparable
  rw [hb]
  cases b
  · exact good_throw T U
  · obtain ⟨v, hv, hm, -, -⟩ := measure_determined h ht hb
    obtain ⟨T', hT', hrow⟩ := hm false true rnd
    simp only [hT']
    obtain ⟨h1, h2, h3⟩ := hk v T' hrow hv
    exact ⟨fun _ => ⟨h2, h3⟩, fun h => absurd h (by rw [h1]; simp)⟩

theorem inv_of_rows {T T' : Tab n} (h : Inv T) (hr : ∀ i, i < 2 * n → T' i = T i) : Inv T' := by
  constructor
  · intro i hi; rw [hr i hi]; exact h.herm i hi
  · intro i j hi hj; rw [hr i hi, hr j hj]; exact h.comm i j hi hj

theorem stab_of_rows {T T' : Tab n} {ψ : State n} (h : Stabilises T ψ) (hr : ∀ i, i < 2 * n → T' i = T i) :
    Stabilises T' ψ := by
  intro i hi hi'; rw [hr i hi']; exact h i hi hi'

/-- `Phase` applies the diagonal matrix it is given, or refuses. -/
theorem phase_good {T : Tab n} (h : Inv T) (scr : Row n) (a d : ℂ) {t : ℕ} (ht : t < n) (rnd : Bool) :
    Good T (phaseG scr a d t rnd T) (gate1 ⟨t, ht⟩ a 0 0 d) := by
  unfold phaseG
  split_ifs with h1 h2 h3 h4
  · subst h1
    refine good_same h a fun ψ => ?_
    funext f
    simp only [gate1]
    split_ifs with hf
    · rw [← hf, Function.update_eq_self]; ring
    · have : Function.update f ⟨t, ht⟩ false = f := by
        rw [Bool.not_eq_true] at hf; rw [← hf, Function.update_eq_self]
      rw [this]; ring
  · obtain rfl := div_n h2
    refine seq1_good h scr ht _ (by seq_valid ht) (by seq_unit ht) a ?_ ?_ ?_ ?_ <;> arith
  · obtain rfl := div_nI h3
    refine seq1_good h scr ht _ (by seq_valid ht) (by seq_unit ht) a ?_ ?_ ?_ ?_ <;> arith
  · obtain rfl := div_I h4
    refine seq1_good h scr ht _ (by seq_valid ht) (by seq_unit ht) a ?_ ?_ ?_ ?_ <;> arith
  · refine onSeparable_good h ht rnd ?_
    intro v T' hr hv
    refine ⟨rfl, inv_of_rows h hr, fun ψ hψ => ?_⟩
    have e : gate1 ⟨t, ht⟩ a 0 0 d ψ = fun f => (if v then d else a) * ψ f := by
      funext f
      simp only [gate1]
      by_cases hf : f ⟨t, ht⟩ = v
      · cases v
        · rw [if_neg (by simp [hf]), ← hf, Function.update_eq_self]; simp [hf]
        · rw [if_pos hf, ← hf, Function.update_eq_self]; simp [hf]
      · rw [hv ψ hψ f hf, mul_zero]
        cases v
        · have hf : f ⟨t, ht⟩ = true := by simpa using hf
          rw [if_pos hf, ← hf, Function.update_eq_self, hv ψ hψ f (by simp [hf])]; simp
        · have hf : f ⟨t, ht⟩ = false := by simpa using hf
          rw [if_neg (by simp [hf]), ← hf, Function.update_eq_self, hv ψ hψ f (by simp [hf])]; simp
    rw [e]
    exact stab_smul (stab_of_rows hψ hr) _

/-- `Invert` applies the antidiagonal matrix it is given, or refuses. -/
theorem invert_good {T : Tab n} (h : Inv T) (scr : Row n) (b c : ℂ) {t : ℕ} (ht : t < n) (rnd : Bool) :
    Good T (invertG scr b c t rnd T) (gate1 ⟨t, ht⟩ 0 b c 0) := by
  unfold invertG
  split_ifs with h1 h2 h3 h4
  · subst h1
    refine seq1_good h scr ht _ (by seq_valid ht) (by seq_unit ht) b ?_ ?_ ?_ ?_ <;> arith
  · obtain rfl := div_n h2
    refine seq1_good h scr ht _ (by seq_valid ht) (by seq_unit ht) (I * b) ?_ ?_ ?_ ?_ <;> arith
  · obtain rfl := div_nI h3
    refine seq1_good h scr ht _ (by seq_valid ht) (by seq_unit ht) b ?_ ?_ ?_ ?_ <;> arith
  · obtain rfl := div_I h4
    refine seq1_good h scr ht _ (by seq_valid ht) (by seq_unit ht) b ?_ ?_ ?_ ?_ <;> arith
  · refine onSeparable_good h ht rnd ?_
    intro v T' hr hv
    have hvalid : ∀ g ∈ [Gate.x t], g.Valid n := by seq_valid ht
    obtain ⟨T2, e1, e2, e3⟩ := runSeq_ok scr [Gate.x t] hvalid (inv_of_rows h hr)
    rw [e1]
    refine ⟨rfl, e2, fun ψ hψ => ?_⟩
    have e : gate1 ⟨t, ht⟩ 0 b c 0 ψ = fun f => (if v then b else c) * seqU n [Gate.x t] ψ f := by
      funext f
      simp only [seqU, List.foldl_cons, List.foldl_nil, Gate.U, dif_pos ht, xGate, gate1]
      have hz : ∀ w, w ≠ v → ψ (Function.update f ⟨t, ht⟩ w) = 0 := fun w hw => hv ψ hψ _ (by simpa using hw)
      cases v <;> split_ifs <;> simp_all
    rw [e]
    exact stab_smul (e3 ψ (stab_of_rows hψ hr)) _

set_option maxHeartbeats 1000000 in
/-- `Mtrx` applies the matrix it is given, or refuses: every complex matrix, every qubit. -/
theorem mtrx_good {T : Tab n} (h : Inv T) (scr : Row n) (a b c d : ℂ) {t : ℕ} (ht : t < n) (rnd : Bool) :
    Good T (mtrxG scr a b c d t rnd T) (gate1 ⟨t, ht⟩ a b c d) := by
  unfold mtrxG
  by_cases h1 : b = 0 ∧ c = 0
  · rw [if_pos h1]
    obtain ⟨rfl, rfl⟩ := h1; exact phase_good h scr a d ht rnd
  rw [if_neg h1]
  by_cases h2 : a = 0 ∧ d = 0
  · rw [if_pos h2]
    obtain ⟨rfl, rfl⟩ := h2; exact invert_good h scr b c ht rnd
  rw [if_neg h2]
  by_cases h3 : a = b ∧ a = c ∧ a = -d
  · rw [if_pos h3]
    obtain ⟨hb, hc, hd⟩ := h3
    exact seq1_good h scr ht _ (by seq_valid ht) (by seq_unit ht) (2 * rt * a) (by arith) (by rw [Eq.symm hb]; arith)
      (by rw [Eq.symm hc]; arith) (by rw [div_n hd]; arith)
  rw [if_neg h3]
  by_cases h4 : a = b ∧ a = -c ∧ a = d
  · rw [if_pos h4]
    obtain ⟨hb, hc, hd⟩ := h4
    exact seq1_good h scr ht _ (by seq_valid ht) (by seq_unit ht) (2 * rt * a) (by arith) (by rw [Eq.symm hb]; arith)
      (by rw [div_n hc]; arith) (by rw [Eq.symm hd]; arith)
  rw [if_neg h4]
  by_cases h5 : a = -b ∧ a = c ∧ a = d
  · rw [if_pos h5]
    obtain ⟨hb, hc, hd⟩ := h5
    exact seq1_good h scr ht _ (by seq_valid ht) (by seq_unit ht) (2 * rt * a) (by arith) (by rw [div_n hb]; arith)
      (by rw [Eq.symm hc]; arith) (by rw [Eq.symm hd]; arith)
  rw [if_neg h5]
  by_cases h6 : a = -b ∧ a = -c ∧ a = -d
  · rw [if_pos h6]
    obtain ⟨hb, hc, hd⟩ := h6
    exact seq1_good h scr ht _ (by seq_valid ht) (by seq_unit ht) (-(2 * rt * a)) (by arith) (by rw [div_n hb]; arith)
      (by rw [div_n hc]; arith) (by rw [div_n hd]; arith)
  rw [if_neg h6]
  by_cases h7 : a = b ∧ a = -I * c ∧ a = I * d
  · rw [if_pos h7]
    obtain ⟨hb, hc, hd⟩ := h7
    exact seq1_good h scr ht _ (by seq_valid ht) (by seq_unit ht) (2 * rt * a) (by arith) (by rw [Eq.symm hb]; arith)
      (by rw [div_nI hc]; arith) (by rw [div_I hd]; arith)
  rw [if_neg h7]
  by_cases h8 : a = b ∧ a = I * c ∧ a = -I * d
  · rw [if_pos h8]
    obtain ⟨hb, hc, hd⟩ := h8
    exact seq1_good h scr ht _ (by seq_valid ht) (by seq_unit ht) (2 * rt * a) (by arith) (by rw [Eq.symm hb]; arith)
      (by rw [div_I hc]; arith) (by rw [div_nI hd]; arith)
  rw [if_neg h8]
  by_cases h9 : a = -b ∧ a = I * c ∧ a = I * d
  · rw [if_pos h9]
    obtain ⟨hb, hc, hd⟩ := h9
    exact seq1_good h scr ht _ (by seq_valid ht) (by seq_unit ht) (2 * rt * a) (by arith) (by rw [div_n hb]; arith)
      (by rw [div_I hc]; arith) (by rw [div_I hd]; arith)
  rw [if_neg h9]
  by_cases h10 : a = -b ∧ a = -I * c ∧ a = -I * d
  · rw [if_pos h10]
    obtain ⟨hb, hc, hd⟩ := h10
    exact seq1_good h scr ht _ (by seq_valid ht) (by seq_unit ht) (2 * rt * a) (by arith) (by rw [div_n hb]; arith)
      (by rw [div_nI hc]; arith) (by rw [div_nI hd]; arith)
  rw [if_neg h10]
  by_cases h11 : a = I * b ∧ a = c ∧ a = -I * d
  · rw [if_pos h11]
    obtain ⟨hb, hc, hd⟩ := h11
    exact seq1_good h scr ht _ (by seq_valid ht) (by seq_unit ht) (2 * rt * a) (by arith) (by rw [div_I hb]; arith)
      (by rw [Eq.symm hc]; arith) (by rw [div_nI hd]; arith)
  rw [if_neg h11]
  by_cases h12 : a = -I * b ∧ a = c ∧ a = I * d
  · rw [if_pos h12]
    obtain ⟨hb, hc, hd⟩ := h12
    exact seq1_good h scr ht _ (by seq_valid ht) (by seq_unit ht) (2 * rt * a) (by arith) (by rw [div_nI hb]; arith)
      (by rw [Eq.symm hc]; arith) (by rw [div_I hd]; arith)
  rw [if_neg h12]
  by_cases h13 : a = -I * b ∧ a = -c ∧ a = -I * d
  · rw [if_pos h13]
    obtain ⟨hb, hc, hd⟩ := h13
    exact seq1_good h scr ht _ (by seq_valid ht) (by seq_unit ht) (2 * rt * a) (by arith) (by rw [div_nI hb]; arith)
      (by rw [div_n hc]; arith) (by rw [div_nI hd]; arith)
  rw [if_neg h13]
  by_cases h14 : a = I * b ∧ a = -c ∧ a = I * d
  · rw [if_pos h14]
    obtain ⟨hb, hc, hd⟩ := h14
    exact seq1_good h scr ht _ (by seq_valid ht) (by seq_unit ht) (2 * rt * a) (by arith) (by rw [div_I hb]; arith)
      (by rw [div_n hc]; arith) (by rw [div_I hd]; arith)
  rw [if_neg h14]
  by_cases h15 : a = I * b ∧ a = I * c ∧ a = d
  · rw [if_pos h15]
    obtain ⟨hb, hc, hd⟩ := h15
    exact seq1_good h scr ht _ (by seq_valid ht) (by seq_unit ht) (2 * rt * a) (by arith) (by rw [div_I hb]; arith)
      (by rw [div_I hc]; arith) (by rw [Eq.symm hd]; arith)
  rw [if_neg h15]
  by_cases h16 : a = -I * b ∧ a = -I * c ∧ a = d
  · rw [if_pos h16]
    obtain ⟨hb, hc, hd⟩ := h16
    exact seq1_good h scr ht _ (by seq_valid ht) (by seq_unit ht) (2 * rt * a) (by arith) (by rw [div_nI hb]; arith)
      (by rw [div_nI hc]; arith) (by rw [Eq.symm hd]; arith)
  rw [if_neg h16]
  by_cases h17 : a = I * b ∧ a = -I * c ∧ a = -d
  · rw [if_pos h17]
    obtain ⟨hb, hc, hd⟩ := h17
    exact seq1_good h scr ht _ (by seq_valid ht) (by seq_unit ht) (2 * rt * a) (by arith) (by rw [div_I hb]; arith)
      (by rw [div_nI hc]; arith) (by rw [div_n hd]; arith)
  rw [if_neg h17]
  by_cases h18 : a = -I * b ∧ a = I * c ∧ a = -d
  · rw [if_pos h18]
    obtain ⟨hb, hc, hd⟩ := h18
    exact seq1_good h scr ht _ (by seq_valid ht) (by seq_unit ht) (2 * rt * a) (by arith) (by rw [div_nI hb]; arith)
      (by rw [div_I hc]; arith) (by rw [div_n hd]; arith)
  rw [if_neg h18]
  exact good_throw T _

/-! ### One control -/

/-- The unitary meant by a controlled call: with no control the gate itself, with one control the gate under it. -/
noncomputable def ctrlOp (v : Bool) (t : Fin n) (a b c d : ℂ) : List (Fin n) → State n → State n
  | [] => gate1 t a b c d
  | q :: qs => ctrl v q (ctrlOp v t a b c d qs)

macro "cseq_valid" v:ident hc:ident ht:ident hct:ident : tactic => `(tactic|
  (cases $v:ident <;> simp [cX, cY, cZ, Gate.Valid, $hc:ident, $ht:ident, $hct:ident]))

theorem cX_U (v : Bool) {c t : ℕ} (hc : c < n) (ht : t < n) :
    (cX v c t).U n = ctrl v ⟨c, hc⟩ (gate1 ⟨t, ht⟩ 0 1 1 0) := by
  cases v <;> simp [cX, Gate.U, hc, ht, xGate]
theorem cY_U (v : Bool) {c t : ℕ} (hc : c < n) (ht : t < n) :
    (cY v c t).U n = ctrl v ⟨c, hc⟩ (gate1 ⟨t, ht⟩ 0 (-I) I 0) := by
  cases v <;> simp [cY, Gate.U, hc, ht, yGate]
theorem cZ_U (v : Bool) {c t : ℕ} (hc : c < n) (ht : t < n) :
    (cZ v c t).U n = ctrl v ⟨c, hc⟩ (gate1 ⟨t, ht⟩ 1 0 0 (-1)) := by
  cases v <;> simp [cZ, Gate.U, hc, ht, zGate]

theorem ctrl_seq_good {T : Tab n} (h : Inv T) (scr : Row n) (v : Bool) {c t : ℕ} (hc : c < n) (ht : t < n) (gs : List Gate)
    (hgs : ∀ g ∈ gs, g.Valid n) {p q r s : ℂ}
    (hU : ∀ ψ, seqU n gs ψ = ctrl v ⟨c, hc⟩ (gate1 ⟨t, ht⟩ p q r s) ψ) {a b c' d : ℂ}
    (ha : a = p) (hb : b = q) (hc' : c' = r) (hd : d = s) :
    Good T (runSeq scr gs T) (ctrlOp v ⟨t, ht⟩ a b c' d [⟨c, hc⟩]) := by
  refine good_seq h scr hgs 1 fun ψ => ?_
  rw [hU, ha, hb, hc', hd]
  simp only [ctrlOp, one_mul]

macro "cseq_unit" hc:ident ht:ident hct:ident : tactic => `(tactic| (
    intro ψ
    simp only [seqU, List.foldl_cons, List.foldl_nil, cX_U _ $hc:ident $ht:ident, cY_U _ $hc:ident $ht:ident,
      cZ_U _ $hc:ident $ht:ident, ctrl_comp $hct:ident]
    exact rfl))

theorem ctrl_one {v : Bool} {q : Fin n} (t : Fin n) : ctrlOp v t 1 0 0 1 [q] = id := by
  funext ψ f
  simp only [ctrlOp, ctrl, gate1, id]
  split_ifs with h1 h2
  · rw [← h2, Function.update_eq_self]; ring
  · rw [Bool.not_eq_true] at h2; rw [← h2, Function.update_eq_self]; ring
  · rfl

theorem ctrlOp_one {v : Bool} (t : Fin n) (qs : List (Fin n)) : ctrlOp v t 1 0 0 1 qs = id := by
  induction qs with
  | nil =>
    funext ψ f
    simp only [ctrlOp, gate1, id]
    split_ifs with h2
    · rw [← h2, Function.update_eq_self]; ring
    · rw [Bool.not_eq_true] at h2; rw [← h2, Function.update_eq_self]; ring
  | cons q qs ih =>
    funext ψ f
    rw [ctrlOp, ih]
    simp [ctrl]

macro "cgood" h:ident v:ident hc:ident ht:ident hct:ident hf:ident : tactic => `(tactic|
  exact ctrl_seq_good $h:ident _ $v:ident $hc:ident $ht:ident _ (by cseq_valid $v:ident $hc:ident $ht:ident $hct:ident)
    (by cseq_unit $hc:ident $ht:ident $hf:ident) (by arith) (by arith) (by arith) (by arith))

/-- `MCPhase` and `MACPhase` apply the diagonal matrix under the controls, or refuse. -/
theorem mcPhase_good {T : Tab n} (h : Inv T) (scr : Row n) (v : Bool) (qs : List (Fin n)) (a d : ℂ) (t : Fin n)
    (hq : t ∉ qs) (rnd : Bool) :
    Good T (mcPhaseG v scr (qs.map Fin.val) a d t rnd T) (ctrlOp v t a 0 0 d qs) := by
  unfold mcPhaseG
  by_cases h0 : a = 1 ∧ d = 1
  · rw [if_pos h0, h0.1, h0.2, ctrlOp_one]
    exact good_same h 1 fun ψ => by simp
  rw [if_neg h0]
  match qs, hq with
  | [], _ => exact phase_good h scr a d t.2 rnd
  | [q], hq =>
    obtain ⟨c, hc⟩ := q
    obtain ⟨t, ht⟩ := t
    have hct : c ≠ t := by rintro rfl; simp at hq
    have hf : (⟨c, hc⟩ : Fin n) ≠ ⟨t, ht⟩ := by simpa [Fin.ext_iff] using hct
    simp only [List.map_cons, List.map_nil]
    by_cases h1 : a = 1
    · rw [if_pos h1]
      by_cases h2 : d = 1
      · exact absurd ⟨h1, h2⟩ h0
      rw [if_neg h2]
      by_cases h3 : d = -1
      · rw [if_pos h3]; subst h1 h3; cgood h v hc ht hct hf
      · rw [if_neg h3]; exact good_throw T _
    rw [if_neg h1]
    by_cases h1 : a = -1
    · rw [if_pos h1]
      by_cases h2 : d = 1
      · rw [if_pos h2]; subst h1 h2; cgood h v hc ht hct hf
      rw [if_neg h2]
      by_cases h3 : d = -1
      · rw [if_pos h3]; subst h1 h3; cgood h v hc ht hct hf
      · rw [if_neg h3]; exact good_throw T _
    rw [if_neg h1]
    by_cases h1 : a = I
    · rw [if_pos h1]
      by_cases h2 : d = I
      · rw [if_pos h2]; subst h1 h2; cgood h v hc ht hct hf
      rw [if_neg h2]
      by_cases h3 : d = -I
      · rw [if_pos h3]; subst h1 h3; cgood h v hc ht hct hf
      · rw [if_neg h3]; exact good_throw T _
    rw [if_neg h1]
    by_cases h1 : a = -I
    · rw [if_pos h1]
      by_cases h2 : d = I
      · rw [if_pos h2]; subst h1 h2; cgood h v hc ht hct hf
      rw [if_neg h2]
      by_cases h3 : d = -I
      · rw [if_pos h3]; subst h1 h3; cgood h v hc ht hct hf
      · rw [if_neg h3]; exact good_throw T _
    rw [if_neg h1]
    exact good_throw T _
  | _ :: _ :: _, _ => exact good_throw T _

/-- `MCInvert` and `MACInvert` apply the antidiagonal matrix under the controls, or refuse. -/
theorem mcInvert_good {T : Tab n} (h : Inv T) (scr : Row n) (v : Bool) (qs : List (Fin n)) (b e : ℂ) (t : Fin n)
    (hq : t ∉ qs) (rnd : Bool) :
    Good T (mcInvertG v scr (qs.map Fin.val) b e t rnd T) (ctrlOp v t 0 b e 0 qs) := by
  unfold mcInvertG
  match qs, hq with
  | [], _ => exact invert_good h scr b e t.2 rnd
  | [q], hq =>
    obtain ⟨c, hc⟩ := q
    obtain ⟨t, ht⟩ := t
    have hct : c ≠ t := by rintro rfl; simp at hq
    have hf : (⟨c, hc⟩ : Fin n) ≠ ⟨t, ht⟩ := by simpa [Fin.ext_iff] using hct
    simp only [List.map_cons, List.map_nil]
    by_cases h1 : b = 1
    · rw [if_pos h1]
      by_cases h2 : e = 1
      · rw [if_pos h2]; subst h1 h2; cgood h v hc ht hct hf
      rw [if_neg h2]
      by_cases h3 : e = -1
      · rw [if_pos h3]; subst h1 h3; cgood h v hc ht hct hf
      · rw [if_neg h3]; exact good_throw T _
    rw [if_neg h1]
    by_cases h1 : b = -1
    · rw [if_pos h1]
      by_cases h2 : e = 1
      · rw [if_pos h2]; subst h1 h2; cgood h v hc ht hct hf
      rw [if_neg h2]
      by_cases h3 : e = -1
      · rw [if_pos h3]; subst h1 h3; cgood h v hc ht hct hf
      · rw [if_neg h3]; exact good_throw T _
    rw [if_neg h1]
    by_cases h1 : b = I
    · rw [if_pos h1]
      by_cases h2 : e = I
      · rw [if_pos h2]; subst h1 h2; cgood h v hc ht hct hf
      rw [if_neg h2]
      by_cases h3 : e = -I
      · rw [if_pos h3]; subst h1 h3; cgood h v hc ht hct hf
      · rw [if_neg h3]; exact good_throw T _
    rw [if_neg h1]
    by_cases h1 : b = -I
    · rw [if_pos h1]
      by_cases h2 : e = I
      · rw [if_pos h2]; subst h1 h2; cgood h v hc ht hct hf
      rw [if_neg h2]
      by_cases h3 : e = -I
      · rw [if_pos h3]; subst h1 h3; cgood h v hc ht hct hf
      · rw [if_neg h3]; exact good_throw T _
    rw [if_neg h1]
    exact good_throw T _
  | _ :: _ :: _, _ => exact good_throw T _

/-- `MCMtrx` and `MACMtrx` apply the matrix under the controls, or refuse. -/
theorem mcMtrx_good {T : Tab n} (h : Inv T) (scr : Row n) (v : Bool) (qs : List (Fin n)) (a b c d : ℂ) (t : Fin n)
    (hq : t ∉ qs) (rnd : Bool) :
    Good T (mcMtrxG v scr (qs.map Fin.val) a b c d t rnd T) (ctrlOp v t a b c d qs) := by
  unfold mcMtrxG
  by_cases h1 : b = 0 ∧ c = 0
  · rw [if_pos h1]; obtain ⟨rfl, rfl⟩ := h1; exact mcPhase_good h scr v qs a d t hq rnd
  rw [if_neg h1]
  by_cases h2 : a = 0 ∧ d = 0
  · rw [if_pos h2]; obtain ⟨rfl, rfl⟩ := h2; exact mcInvert_good h scr v qs b c t hq rnd
  rw [if_neg h2]
  exact good_throw T _

/-! ### Which matrices are accepted -/

/-- Products of the Hadamard and phase matrices, with any non-zero factor: the one-qubit Clifford matrices. -/
inductive Clifford : ℂ → ℂ → ℂ → ℂ → Prop
  | scalar {k : ℂ} : k ≠ 0 → Clifford k 0 0 k
  | h {a b c d : ℂ} : Clifford a b c d → Clifford (rt * (a + c)) (rt * (b + d)) (rt * (a - c)) (rt * (b - d))
  | s {a b c d : ℂ} : Clifford a b c d → Clifford a b (I * c) (I * d)

/-- A fourth root of one. -/
def Unit4 (u : ℂ) : Prop := u = 1 ∨ u = -1 ∨ u = I ∨ u = -I

/-- The shapes that the decision table knows. -/
def Shape (a b c d : ℂ) : Prop :=
  (a ≠ 0 ∧ b = 0 ∧ c = 0 ∧ ∃ u, Unit4 u ∧ d = u * a) ∨ (b ≠ 0 ∧ a = 0 ∧ d = 0 ∧ ∃ u, Unit4 u ∧ c = u * b) ∨
  (a ≠ 0 ∧ ∃ u v, Unit4 u ∧ Unit4 v ∧ b = u * a ∧ c = v * a ∧ d = -(u * v * a))

theorem unit4_I {u : ℂ} (h : Unit4 u) : Unit4 (I * u) := by
  unfold Unit4 at *
  rcases h with rfl | rfl | rfl | rfl <;> simp

theorem unit4_neg {u : ℂ} (h : Unit4 u) : Unit4 (-u) := by
  unfold Unit4 at *
  rcases h with rfl | rfl | rfl | rfl <;> simp

theorem unit4_mul {u v : ℂ} (h : Unit4 u) (hv : Unit4 v) : Unit4 (u * v) := by
  unfold Unit4 at *
  rcases h with rfl | rfl | rfl | rfl <;> rcases hv with rfl | rfl | rfl | rfl <;> simp

theorem rt_ne : rt ≠ 0 := by
  intro h; have := rt_mul; rw [h] at this; norm_num at this

theorem one_add_I : (1 : ℂ) + I ≠ 0 := by intro h; have := congrArg Complex.re h; simp at this
theorem one_sub_I : (1 : ℂ) - I ≠ 0 := by intro h; have := congrArg Complex.re h; simp at this

theorem shape_of_clifford {a b c d : ℂ} (h : Clifford a b c d) : Shape a b c d := by
  induction h with
  | scalar hk => exact Or.inl ⟨hk, rfl, rfl, 1, Or.inl rfl, by ring⟩
  | @s a b c d _ ih =>
    rcases ih with ⟨h1, h2, h3, u, hu, h4⟩ | ⟨h1, h2, h3, u, hu, h4⟩ | ⟨h1, u, v, hu, hv, h2, h3, h4⟩
    · exact Or.inl ⟨h1, h2, by rw [h3, mul_zero], I * u, unit4_I hu, by rw [h4]; ring⟩
    · exact Or.inr (Or.inl ⟨h1, h2, by rw [h3, mul_zero], I * u, unit4_I hu, by rw [h4]; ring⟩)
    · exact Or.inr (Or.inr ⟨h1, u, I * v, hu, unit4_I hv, h2, by rw [h3]; ring, by rw [h4]; ring⟩)
  | @h a b c d _ ih =>
    rcases ih with ⟨h1, h2, h3, u, hu, h4⟩ | ⟨h1, h2, h3, u, hu, h4⟩ | ⟨h1, u, v, hu, hv, h2, h3, h4⟩
    · subst h2 h3 h4
      refine Or.inr (Or.inr ⟨by simpa using ⟨rt_ne, h1⟩, u, 1, hu, Or.inl rfl, by ring, by ring, by ring⟩)
    · subst h2 h3 h4
      refine Or.inr (Or.inr ⟨?_, ?_⟩)
      · refine mul_ne_zero rt_ne ?_
        rw [zero_add]
        refine mul_ne_zero ?_ h1
        rcases hu with rfl | rfl | rfl | rfl <;> simp
      · rcases hu with rfl | rfl | rfl | rfl
        · exact ⟨1, -1, Or.inl rfl, Or.inr (Or.inl rfl), by ring, by ring, by ring⟩
        · exact ⟨-1, -1, Or.inr (Or.inl rfl), Or.inr (Or.inl rfl), by ring, by ring, by ring⟩
        · exact ⟨-I, -1, by simp [Unit4], by simp [Unit4], by ring_nf; simp only [I_sq]; ring, by ring, by
            ring_nf; simp only [I_sq]; ring⟩
        · exact ⟨I, -1, by simp [Unit4], by simp [Unit4], by ring_nf; simp only [I_sq]; ring, by ring, by
            ring_nf; simp only [I_sq]; ring⟩
    · subst h2 h3 h4
      rcases hv with rfl | rfl | rfl | rfl
      · exact Or.inl ⟨mul_ne_zero rt_ne (by
          rw [one_mul, ← two_mul]; exact mul_ne_zero two_ne_zero h1), by ring, by ring, u, hu, by ring⟩
      · refine Or.inr (Or.inl ⟨?_, by ring, by ring, ?_⟩)
        · refine mul_ne_zero rt_ne ?_
          have : u * a + -(u * -1 * a) = 2 * (u * a) := by ring
          rw [this]
          refine mul_ne_zero two_ne_zero (mul_ne_zero ?_ h1)
          rcases hu with rfl | rfl | rfl | rfl <;> simp
        · rcases hu with rfl | rfl | rfl | rfl
          · exact ⟨1, by simp [Unit4], by ring⟩
          · exact ⟨-1, by simp [Unit4], by ring⟩
          · exact ⟨-I, by simp [Unit4], by ring_nf; simp only [I_sq]; ring⟩
          · exact ⟨I, by simp [Unit4], by ring_nf; simp only [I_sq]; ring⟩
      · refine Or.inr (Or.inr ⟨?_, -I * u, -I, ?_, by simp [Unit4], ?_, ?_, ?_⟩)
        · refine mul_ne_zero rt_ne ?_
          rw [show a + I * a = (1 + I) * a by ring]
          exact mul_ne_zero one_add_I h1
        · rw [neg_mul]; exact unit4_neg (unit4_I hu)
        · ring_nf; simp only [I_sq]; ring
        · ring_nf; simp only [I_sq]; ring
        · ring_nf; simp only [I_sq, I_three]; ring
      · refine Or.inr (Or.inr ⟨?_, I * u, I, unit4_I hu, by simp [Unit4], ?_, ?_, ?_⟩)
        · refine mul_ne_zero rt_ne ?_
          rw [show a + -I * a = (1 - I) * a by ring]
          exact mul_ne_zero one_sub_I h1
        · ring_nf; simp only [I_sq]; ring
        · ring_nf; simp only [I_sq]; ring
        · ring_nf; simp only [I_sq, I_three]; ring

theorem clifford_s_pow {a b c d u : ℂ} (h : Clifford a b c d) (hu : Unit4 u) : Clifford a b (u * c) (u * d) := by
  rcases hu with rfl | rfl | rfl | rfl
  · simpa using h
  · have := h.s.s
    rw [← mul_assoc, ← mul_assoc, I_mul_I] at this; exact this
  · exact h.s
  · have := h.s.s.s
    rw [← mul_assoc I I, ← mul_assoc I I, I_mul_I, ← mul_assoc, ← mul_assoc] at this
    simpa using this

theorem clifford_third {a u v : ℂ} (ha : a ≠ 0) (hu : Unit4 u) (hv : Unit4 v) :
    Clifford a (u * a) (v * a) (-(u * v * a)) := by
  have h1 : Clifford (2 * rt * a) 0 (u * 0) (u * (2 * rt * a)) :=
    clifford_s_pow (Clifford.scalar (mul_ne_zero (mul_ne_zero two_ne_zero rt_ne) ha)) hu
  have h2 := clifford_s_pow h1.h hv
  convert h2 using 1 <;> (ring_nf; simp only [rt_sq]; ring)

theorem clifford_of_shape {a b c d : ℂ} (h : Shape a b c d) : Clifford a b c d := by
  rcases h with ⟨h1, h2, h3, u, hu, h4⟩ | ⟨h1, h2, h3, u, hu, h4⟩ | ⟨h1, u, v, hu, hv, h2, h3, h4⟩
  · subst h2 h3 h4
    simpa using clifford_s_pow (Clifford.scalar h1) hu
  · subst h2 h3 h4
    have h2 := clifford_s_pow (clifford_third (a := rt * b) (u := 1) (v := -1) (mul_ne_zero rt_ne h1) (Or.inl rfl)
      (Or.inr (Or.inl rfl))).h hu
    convert h2 using 1 <;> (ring_nf; try simp only [rt_sq]; try ring1)
  · subst h2 h3 h4
    exact clifford_third h1 hu hv

theorem runSeq_accepts (scr : Row n) (gs : List Gate) (hg : ∀ g ∈ gs, g.Valid n) {T : Tab n} (h : Inv T) :
    (runSeq scr gs T).2 = false := by
  obtain ⟨T', h1, -⟩ := runSeq_ok scr gs hg h
  rw [h1]

set_option maxHeartbeats 1000000 in
/-- Every one-qubit Clifford matrix is accepted, whatever its factor. -/
theorem clifford_accepted {T : Tab n} (h : Inv T) (scr : Row n) {a b c d : ℂ} {t : ℕ} (ht : t < n) (rnd : Bool)
    (hm : Clifford a b c d) : (mtrxG scr a b c d t rnd T).2 = false := by
  have hs := shape_of_clifford hm
  have key : ∀ gs : List Gate, (∀ g ∈ gs, g.Valid n) → (runSeq scr gs T).2 = true → False := by
    intro gs hg hh; rw [runSeq_accepts scr gs hg h] at hh; simp at hh
  rw [← Bool.not_eq_true]
  intro hthrow
  unfold mtrxG at hthrow
  by_cases h1 : b = 0 ∧ c = 0
  · rw [if_pos h1] at hthrow
    unfold phaseG at hthrow
    rcases hs with ⟨-, -, -, u, hu, h4⟩ | ⟨h2, -⟩ | ⟨h2, u, v, hu, hv, h3, -⟩
    · by_cases e1 : a = d
      · rw [if_pos e1] at hthrow; simp at hthrow
      rw [if_neg e1] at hthrow
      by_cases e2 : a = -d
      · rw [if_pos e2] at hthrow; exact key _ (by seq_valid ht) hthrow
      rw [if_neg e2] at hthrow
      by_cases e3 : a = -I * d
      · rw [if_pos e3] at hthrow; exact key _ (by seq_valid ht) hthrow
      rw [if_neg e3] at hthrow
      by_cases e4 : a = I * d
      · rw [if_pos e4] at hthrow; exact key _ (by seq_valid ht) hthrow
      rcases hu with rfl | rfl | rfl | rfl
      · exact e1 (by rw [h4]; ring)
      · exact e2 (by rw [h4]; ring)
      · exact e3 (by rw [h4, ← mul_assoc]; simp)
      · exact e4 (by rw [h4, ← mul_assoc]; simp)
    · exact h2 h1.1
    · rw [h1.1] at h3
      rcases hu with rfl | rfl | rfl | rfl <;> simp at h3 <;> first | exact h2 h3 | exact h2 h3.symm
  rw [if_neg h1] at hthrow
  by_cases h2 : a = 0 ∧ d = 0
  · rw [if_pos h2] at hthrow
    unfold invertG at hthrow
    rcases hs with ⟨h3, -⟩ | ⟨-, -, -, u, hu, h4⟩ | ⟨h3, -⟩
    · exact h3 h2.1
    · by_cases e1 : b = c
      · rw [if_pos e1] at hthrow; exact key _ (by seq_valid ht) hthrow
      rw [if_neg e1] at hthrow
      by_cases e2 : b = -c
      · rw [if_pos e2] at hthrow; exact key _ (by seq_valid ht) hthrow
      rw [if_neg e2] at hthrow
      by_cases e3 : b = -I * c
      · rw [if_pos e3] at hthrow; exact key _ (by seq_valid ht) hthrow
      rw [if_neg e3] at hthrow
      by_cases e4 : b = I * c
      · rw [if_pos e4] at hthrow; exact key _ (by seq_valid ht) hthrow
      rcases hu with rfl | rfl | rfl | rfl
      · exact e1 (by rw [h4]; ring)
      · exact e2 (by rw [h4]; ring)
      · exact e3 (by rw [h4, ← mul_assoc]; simp)
      · exact e4 (by rw [h4, ← mul_assoc]; simp)
    · exact h3 h2.1
  rw [if_neg h2] at hthrow
  rcases hs with ⟨-, h3, h4, -⟩ | ⟨-, h3, h4, -⟩ | ⟨-, u, v, hu, hv, hb, hc, hd⟩
  · exact h1 ⟨h3, h4⟩
  · exact h2 ⟨h3, h4⟩
  by_cases g0 : a = b ∧ a = c ∧ a = -d
  · rw [if_pos g0] at hthrow; exact key _ (by seq_valid ht) hthrow
  rw [if_neg g0] at hthrow
  by_cases g1 : a = b ∧ a = -c ∧ a = d
  · rw [if_pos g1] at hthrow; exact key _ (by seq_valid ht) hthrow
  rw [if_neg g1] at hthrow
  by_cases g2 : a = -b ∧ a = c ∧ a = d
  · rw [if_pos g2] at hthrow; exact key _ (by seq_valid ht) hthrow
  rw [if_neg g2] at hthrow
  by_cases g3 : a = -b ∧ a = -c ∧ a = -d
  · rw [if_pos g3] at hthrow; exact key _ (by seq_valid ht) hthrow
  rw [if_neg g3] at hthrow
  by_cases g4 : a = b ∧ a = -I * c ∧ a = I * d
  · rw [if_pos g4] at hthrow; exact key _ (by seq_valid ht) hthrow
  rw [if_neg g4] at hthrow
  by_cases g5 : a = b ∧ a = I * c ∧ a = -I * d
  · rw [if_pos g5] at hthrow; exact key _ (by seq_valid ht) hthrow
  rw [if_neg g5] at hthrow
  by_cases g6 : a = -b ∧ a = I * c ∧ a = I * d
  · rw [if_pos g6] at hthrow; exact key _ (by seq_valid ht) hthrow
  rw [if_neg g6] at hthrow
  by_cases g7 : a = -b ∧ a = -I * c ∧ a = -I * d
  · rw [if_pos g7] at hthrow; exact key _ (by seq_valid ht) hthrow
  rw [if_neg g7] at hthrow
  by_cases g8 : a = I * b ∧ a = c ∧ a = -I * d
  · rw [if_pos g8] at hthrow; exact key _ (by seq_valid ht) hthrow
  rw [if_neg g8] at hthrow
  by_cases g9 : a = -I * b ∧ a = c ∧ a = I * d
  · rw [if_pos g9] at hthrow; exact key _ (by seq_valid ht) hthrow
  rw [if_neg g9] at hthrow
  by_cases g10 : a = -I * b ∧ a = -c ∧ a = -I * d
  · rw [if_pos g10] at hthrow; exact key _ (by seq_valid ht) hthrow
  rw [if_neg g10] at hthrow
  by_cases g11 : a = I * b ∧ a = -c ∧ a = I * d
  · rw [if_pos g11] at hthrow; exact key _ (by seq_valid ht) hthrow
  rw [if_neg g11] at hthrow
  by_cases g12 : a = I * b ∧ a = I * c ∧ a = d
  · rw [if_pos g12] at hthrow; exact key _ (by seq_valid ht) hthrow
  rw [if_neg g12] at hthrow
  by_cases g13 : a = -I * b ∧ a = -I * c ∧ a = d
  · rw [if_pos g13] at hthrow; exact key _ (by seq_valid ht) hthrow
  rw [if_neg g13] at hthrow
  by_cases g14 : a = I * b ∧ a = -I * c ∧ a = -d
  · rw [if_pos g14] at hthrow; exact key _ (by seq_valid ht) hthrow
  rw [if_neg g14] at hthrow
  by_cases g15 : a = -I * b ∧ a = I * c ∧ a = -d
  · rw [if_pos g15] at hthrow; exact key _ (by seq_valid ht) hthrow
  rw [if_neg g15] at hthrow
  clear hthrow key
  rcases hu with rfl | rfl | rfl | rfl <;> rcases hv with rfl | rfl | rfl | rfl
  · refine g0 ⟨?_, ?_, ?_⟩ <;> first | rw [hb] | rw [hc] | rw [hd]
    all_goals (ring_nf; try simp only [I_sq, I_three]; try ring1)
  · refine g1 ⟨?_, ?_, ?_⟩ <;> first | rw [hb] | rw [hc] | rw [hd]
    all_goals (ring_nf; try simp only [I_sq, I_three]; try ring1)
  · refine g4 ⟨?_, ?_, ?_⟩ <;> first | rw [hb] | rw [hc] | rw [hd]
    all_goals (ring_nf; try simp only [I_sq, I_three]; try ring1)
  · refine g5 ⟨?_, ?_, ?_⟩ <;> first | rw [hb] | rw [hc] | rw [hd]
    all_goals (ring_nf; try simp only [I_sq, I_three]; try ring1)
  · refine g2 ⟨?_, ?_, ?_⟩ <;> first | rw [hb] | rw [hc] | rw [hd]
    all_goals (ring_nf; try simp only [I_sq, I_three]; try ring1)
  · refine g3 ⟨?_, ?_, ?_⟩ <;> first | rw [hb] | rw [hc] | rw [hd]
    all_goals (ring_nf; try simp only [I_sq, I_three]; try ring1)
  · refine g7 ⟨?_, ?_, ?_⟩ <;> first | rw [hb] | rw [hc] | rw [hd]
    all_goals (ring_nf; try simp only [I_sq, I_three]; try ring1)
  · refine g6 ⟨?_, ?_, ?_⟩ <;> first | rw [hb] | rw [hc] | rw [hd]
    all_goals (ring_nf; try simp only [I_sq, I_three]; try ring1)
  · refine g9 ⟨?_, ?_, ?_⟩ <;> first | rw [hb] | rw [hc] | rw [hd]
    all_goals (ring_nf; try simp only [I_sq, I_three]; try ring1)
  · refine g10 ⟨?_, ?_, ?_⟩ <;> first | rw [hb] | rw [hc] | rw [hd]
    all_goals (ring_nf; try simp only [I_sq, I_three]; try ring1)
  · refine g13 ⟨?_, ?_, ?_⟩ <;> first | rw [hb] | rw [hc] | rw [hd]
    all_goals (ring_nf; try simp only [I_sq, I_three]; try ring1)
  · refine g15 ⟨?_, ?_, ?_⟩ <;> first | rw [hb] | rw [hc] | rw [hd]
    all_goals (ring_nf; try simp only [I_sq, I_three]; try ring1)
  · refine g8 ⟨?_, ?_, ?_⟩ <;> first | rw [hb] | rw [hc] | rw [hd]
    all_goals (ring_nf; try simp only [I_sq, I_three]; try ring1)
  · refine g11 ⟨?_, ?_, ?_⟩ <;> first | rw [hb] | rw [hc] | rw [hd]
    all_goals (ring_nf; try simp only [I_sq, I_three]; try ring1)
  · refine g14 ⟨?_, ?_, ?_⟩ <;> first | rw [hb] | rw [hc] | rw [hd]
    all_goals (ring_nf; try simp only [I_sq, I_three]; try ring1)
  · refine g12 ⟨?_, ?_, ?_⟩ <;> first | rw [hb] | rw [hc] | rw [hd]
    all_goals (ring_nf; try simp only [I_sq, I_three]; try ring1)

/-- On a qubit that is not in a `Z` eigenstate nothing else is accepted: an accepted invertible matrix is a Clifford matrix. -/
theorem only_clifford {T : Tab n} (scr : Row n) {a b c d : ℂ} {t : ℕ} (rnd : Bool)
    (hsep : isSeparableZ T t = some false) (hdet : a * d - b * c ≠ 0) (hacc : (mtrxG scr a b c d t rnd T).2 = false) :
    Clifford a b c d := by
  apply clifford_of_shape
  unfold mtrxG at hacc
  by_cases h1 : b = 0 ∧ c = 0
  · rw [if_pos h1] at hacc
    obtain ⟨rfl, rfl⟩ := h1
    have ha : a ≠ 0 := by rintro rfl; simp at hdet
    refine Or.inl ⟨ha, rfl, rfl, ?_⟩
    unfold phaseG onSeparable at hacc
    rw [hsep] at hacc
    by_cases e1 : a = d
    · exact ⟨1, by simp [Unit4], by rw [e1]; ring⟩
    rw [if_neg e1] at hacc
    by_cases e2 : a = -d
    · exact ⟨-1, by simp [Unit4], by rw [e2]; ring⟩
    rw [if_neg e2] at hacc
    by_cases e3 : a = -I * d
    · exact ⟨I, by simp [Unit4], div_nI e3⟩
    rw [if_neg e3] at hacc
    by_cases e4 : a = I * d
    · exact ⟨-I, by simp [Unit4], div_I e4⟩
    rw [if_neg e4] at hacc
    simp at hacc
  rw [if_neg h1] at hacc
  by_cases h2 : a = 0 ∧ d = 0
  · rw [if_pos h2] at hacc
    obtain ⟨rfl, rfl⟩ := h2
    have hb : b ≠ 0 := by rintro rfl; simp at hdet
    refine Or.inr (Or.inl ⟨hb, rfl, rfl, ?_⟩)
    unfold invertG onSeparable at hacc
    rw [hsep] at hacc
    by_cases e1 : b = c
    · exact ⟨1, by simp [Unit4], by rw [e1]; ring⟩
    rw [if_neg e1] at hacc
    by_cases e2 : b = -c
    · exact ⟨-1, by simp [Unit4], by rw [e2]; ring⟩
    rw [if_neg e2] at hacc
    by_cases e3 : b = -I * c
    · exact ⟨I, by simp [Unit4], div_nI e3⟩
    rw [if_neg e3] at hacc
    by_cases e4 : b = I * c
    · exact ⟨-I, by simp [Unit4], div_I e4⟩
    rw [if_neg e4] at hacc
    simp at hacc
  rw [if_neg h2] at hacc
  have ha : ∀ u v w : ℂ, b = u * a → c = v * a → d = w * a → a ≠ 0 := by
    rintro u v w hb hc hd rfl
    apply hdet; rw [hb, hc, hd]; ring
  by_cases e : a = b ∧ a = c ∧ a = -d
  · have hb := (e.1.symm.trans (one_mul a).symm)
    have hc := (e.2.1.symm.trans (one_mul a).symm)
    have hd := ((div_n e.2.2).trans (neg_one_mul a).symm)
    exact Or.inr (Or.inr ⟨ha _ _ _ hb hc hd, 1, 1, by simp [Unit4], by simp [Unit4], hb, hc, by
      rw [hd]; first | ring1 | (ring_nf; simp only [I_sq]; ring1)⟩)
  rw [if_neg e] at hacc
  by_cases e : a = b ∧ a = -c ∧ a = d
  · have hb := (e.1.symm.trans (one_mul a).symm)
    have hc := ((div_n e.2.1).trans (neg_one_mul a).symm)
    have hd := (e.2.2.symm.trans (one_mul a).symm)
    exact Or.inr (Or.inr ⟨ha _ _ _ hb hc hd, 1, (-1), by simp [Unit4], by simp [Unit4], hb, hc, by
      rw [hd]; first | ring1 | (ring_nf; simp only [I_sq]; ring1)⟩)
  rw [if_neg e] at hacc
  by_cases e : a = -b ∧ a = c ∧ a = d
  · have hb := ((div_n e.1).trans (neg_one_mul a).symm)
    have hc := (e.2.1.symm.trans (one_mul a).symm)
    have hd := (e.2.2.symm.trans (one_mul a).symm)
    exact Or.inr (Or.inr ⟨ha _ _ _ hb hc hd, (-1), 1, by simp [Unit4], by simp [Unit4], hb, hc, by
      rw [hd]; first | ring1 | (ring_nf; simp only [I_sq]; ring1)⟩)
  rw [if_neg e] at hacc
  by_cases e : a = -b ∧ a = -c ∧ a = -d
  · have hb := ((div_n e.1).trans (neg_one_mul a).symm)
    have hc := ((div_n e.2.1).trans (neg_one_mul a).symm)
    have hd := ((div_n e.2.2).trans (neg_one_mul a).symm)
    exact Or.inr (Or.inr ⟨ha _ _ _ hb hc hd, (-1), (-1), by simp [Unit4], by simp [Unit4], hb, hc, by
      rw [hd]; first | ring1 | (ring_nf; simp only [I_sq]; ring1)⟩)
  rw [if_neg e] at hacc
  by_cases e : a = b ∧ a = -I * c ∧ a = I * d
  · have hb := (e.1.symm.trans (one_mul a).symm)
    have hc := (div_nI e.2.1)
    have hd := (div_I e.2.2)
    exact Or.inr (Or.inr ⟨ha _ _ _ hb hc hd, 1, I, by simp [Unit4], by simp [Unit4], hb, hc, by
      rw [hd]; first | ring1 | (ring_nf; simp only [I_sq]; ring1)⟩)
  rw [if_neg e] at hacc
  by_cases e : a = b ∧ a = I * c ∧ a = -I * d
  · have hb := (e.1.symm.trans (one_mul a).symm)
    have hc := (div_I e.2.1)
    have hd := (div_nI e.2.2)
    exact Or.inr (Or.inr ⟨ha _ _ _ hb hc hd, 1, (-I), by simp [Unit4], by simp [Unit4], hb, hc, by
      rw [hd]; first | ring1 | (ring_nf; simp only [I_sq]; ring1)⟩)
  rw [if_neg e] at hacc
  by_cases e : a = -b ∧ a = I * c ∧ a = I * d
  · have hb := ((div_n e.1).trans (neg_one_mul a).symm)
    have hc := (div_I e.2.1)
    have hd := (div_I e.2.2)
    exact Or.inr (Or.inr ⟨ha _ _ _ hb hc hd, (-1), (-I), by simp [Unit4], by simp [Unit4], hb, hc, by
      rw [hd]; first | ring1 | (ring_nf; simp only [I_sq]; ring1)⟩)
  rw [if_neg e] at hacc
  by_cases e : a = -b ∧ a = -I * c ∧ a = -I * d
  · have hb := ((div_n e.1).trans (neg_one_mul a).symm)
    have hc := (div_nI e.2.1)
    have hd := (div_nI e.2.2)
    exact Or.inr (Or.inr ⟨ha _ _ _ hb hc hd, (-1), I, by simp [Unit4], by simp [Unit4], hb, hc, by
      rw [hd]; first | ring1 | (ring_nf; simp only [I_sq]; ring1)⟩)
  rw [if_neg e] at hacc
  by_cases e : a = I * b ∧ a = c ∧ a = -I * d
  · have hb := (div_I e.1)
    have hc := (e.2.1.symm.trans (one_mul a).symm)
    have hd := (div_nI e.2.2)
    exact Or.inr (Or.inr ⟨ha _ _ _ hb hc hd, (-I), 1, by simp [Unit4], by simp [Unit4], hb, hc, by
      rw [hd]; first | ring1 | (ring_nf; simp only [I_sq]; ring1)⟩)
  rw [if_neg e] at hacc
  by_cases e : a = -I * b ∧ a = c ∧ a = I * d
  · have hb := (div_nI e.1)
    have hc := (e.2.1.symm.trans (one_mul a).symm)
    have hd := (div_I e.2.2)
    exact Or.inr (Or.inr ⟨ha _ _ _ hb hc hd, I, 1, by simp [Unit4], by simp [Unit4], hb, hc, by
      rw [hd]; first | ring1 | (ring_nf; simp only [I_sq]; ring1)⟩)
  rw [if_neg e] at hacc
  by_cases e : a = -I * b ∧ a = -c ∧ a = -I * d
  · have hb := (div_nI e.1)
    have hc := ((div_n e.2.1).trans (neg_one_mul a).symm)
    have hd := (div_nI e.2.2)
    exact Or.inr (Or.inr ⟨ha _ _ _ hb hc hd, I, (-1), by simp [Unit4], by simp [Unit4], hb, hc, by
      rw [hd]; first | ring1 | (ring_nf; simp only [I_sq]; ring1)⟩)
  rw [if_neg e] at hacc
  by_cases e : a = I * b ∧ a = -c ∧ a = I * d
  · have hb := (div_I e.1)
    have hc := ((div_n e.2.1).trans (neg_one_mul a).symm)
    have hd := (div_I e.2.2)
    exact Or.inr (Or.inr ⟨ha _ _ _ hb hc hd, (-I), (-1), by simp [Unit4], by simp [Unit4], hb, hc, by
      rw [hd]; first | ring1 | (ring_nf; simp only [I_sq]; ring1)⟩)
  rw [if_neg e] at hacc
  by_cases e : a = I * b ∧ a = I * c ∧ a = d
  · have hb := (div_I e.1)
    have hc := (div_I e.2.1)
    have hd := (e.2.2.symm.trans (one_mul a).symm)
    exact Or.inr (Or.inr ⟨ha _ _ _ hb hc hd, (-I), (-I), by simp [Unit4], by simp [Unit4], hb, hc, by
      rw [hd]; first | ring1 | (ring_nf; simp only [I_sq]; ring1)⟩)
  rw [if_neg e] at hacc
  by_cases e : a = -I * b ∧ a = -I * c ∧ a = d
  · have hb := (div_nI e.1)
    have hc := (div_nI e.2.1)
    have hd := (e.2.2.symm.trans (one_mul a).symm)
    exact Or.inr (Or.inr ⟨ha _ _ _ hb hc hd, I, I, by simp [Unit4], by simp [Unit4], hb, hc, by
      rw [hd]; first | ring1 | (ring_nf; simp only [I_sq]; ring1)⟩)
  rw [if_neg e] at hacc
  by_cases e : a = I * b ∧ a = -I * c ∧ a = -d
  · have hb := (div_I e.1)
    have hc := (div_nI e.2.1)
    have hd := ((div_n e.2.2).trans (neg_one_mul a).symm)
    exact Or.inr (Or.inr ⟨ha _ _ _ hb hc hd, (-I), I, by simp [Unit4], by simp [Unit4], hb, hc, by
      rw [hd]; first | ring1 | (ring_nf; simp only [I_sq]; ring1)⟩)
  rw [if_neg e] at hacc
  by_cases e : a = -I * b ∧ a = I * c ∧ a = -d
  · have hb := (div_nI e.1)
    have hc := (div_I e.2.1)
    have hd := ((div_n e.2.2).trans (neg_one_mul a).symm)
    exact Or.inr (Or.inr ⟨ha _ _ _ hb hc hd, I, (-I), by simp [Unit4], by simp [Unit4], hb, hc, by
      rw [hd]; first | ring1 | (ring_nf; simp only [I_sq]; ring1)⟩)
  rw [if_neg e] at hacc
  simp at hacc

/-- More than one control is always refused, apart from the identity. -/
theorem two_controls_refused (T : Tab n) (scr : Row n) (v : Bool) (q q' : ℕ) (qs : List ℕ) (a b c d : ℂ) (t : ℕ) (rnd : Bool)
    (hne : ¬(a = 1 ∧ b = 0 ∧ c = 0 ∧ d = 1)) : mcMtrxG v scr (q :: q' :: qs) a b c d t rnd T = (T, true) := by
  unfold mcMtrxG
  by_cases h1 : b = 0 ∧ c = 0
  · rw [if_pos h1]
    unfold mcPhaseG
    rw [if_neg (fun h => hne ⟨h.1, h1.1, h1.2, h.2⟩)]
  rw [if_neg h1]
  by_cases h2 : a = 0 ∧ d = 0
  · rw [if_pos h2]; rfl
  rw [if_neg h2]

/-- A Bell pair meets the hypotheses: its first qubit is not separable, so `H · S` with a factor of three is accepted there and
`diag(1, (1 + i) / √2)` is not. -/
example (scr : Row 2) (rnd : Bool) : ∃ T : Tab 2, Inv T ∧ isSeparableZ T 0 = some false ∧
    (mtrxG scr (rt * 3) (rt * (I * 3)) (rt * 3) (-(rt * (I * 3))) 0 rnd T).2 = false ∧
    mtrxG scr 1 0 0 (rt * (1 + I)) 0 rnd T = (T, true) := by
  have hr : (runCalls [.gate (.h 0) (idRow 2), .gate (.cnot 0 1) (idRow 2)] (setPermutation 2 (idRow 2) 0)).isSome = true ∧
    ((runCalls [.gate (.h 0) (idRow 2), .gate (.cnot 0 1) (idRow 2)] (setPermutation 2 (idRow 2) 0)).bind
      fun T => isSeparableZ T 0) = some false := by decide
  obtain ⟨T, hT⟩ := Option.isSome_iff_exists.mp hr.1
  have hs := hr.2
  rw [hT] at hs
  have hi : Inv T := by
    refine history_inv _ _ _ ?_ hT
    intro c hc
    simp only [List.mem_cons, List.not_mem_nil, or_false] at hc
    rcases hc with rfl | rfl <;> simp [Call.Valid, Gate.Valid]
  refine ⟨T, hi, hs, clifford_accepted hi scr (by norm_num) rnd ?_, ?_⟩
  · convert (Clifford.scalar (k := 3) (by norm_num)).s.h using 1 <;> ring
  · have hd : (mtrxG scr 1 0 0 (rt * (1 + I)) 0 rnd T).2 ≠ false := by
      intro hacc
      have hne : (1 : ℂ) * (rt * (1 + I)) - 0 * 0 ≠ 0 := by simpa using ⟨rt_ne, one_add_I⟩
      have hsq : (rt * (1 + I)) ^ 2 = I := by
        rw [mul_pow, rt_sq]; ring_nf; rw [I_sq]; ring
      rcases shape_of_clifford (only_clifford scr rnd hs hne hacc) with ⟨-, -, -, u, hu, h4⟩ | ⟨h2, -⟩ | ⟨-, u, v, hu, -, h3, -⟩
      · rw [mul_one] at h4
        rw [h4] at hsq
        rcases hu with rfl | rfl | rfl | rfl
        · have := congrArg Complex.re hsq; simp at this
        · have := congrArg Complex.re hsq; simp at this
        · rw [I_sq] at hsq; have := congrArg Complex.re hsq; simp at this
        · rw [neg_sq, I_sq] at hsq; have := congrArg Complex.re hsq; simp at this
      · exact h2 rfl
      · have h0 : u = 0 := by simpa using h3.symm
        rcases hu with rfl | rfl | rfl | rfl <;> norm_num at h0
    have hg := (mtrx_good hi scr 1 0 0 (rt * (1 + I)) (show 0 < 2 by norm_num) rnd).2 (by simpa using hd)
    exact Prod.ext hg (by simpa using hd)

end Verif.Stab
