import Verif.Props.Rotations

/-!
# C65: `TimeEvolve` applies the exponentials of the terms of the Hamiltonian

The documentation promises `e^{-iH_{N-1}t} ... e^{-iH_0 t}` (`include/qinterface.hpp:635-650`). That holds for diagonal
terms. Other terms evolve backwards up to a phase, since `exp2x2` takes the exponential of the adjugate (C42); uniformly
controlled terms lack the factor `i` and do not keep the norm.
-/

namespace Verif.Defaults

open Verif.Engine Verif.Spec Verif.Spec.Rotation Verif.Bits Complex Classical

/-! ## Specification -/

/-- The evolution of a term for a time: `e^{-iMt}`. -/
noncomputable def evolution (dt : ℝ) (M : Matrix (Fin 2) (Fin 2) ℂ) : Matrix (Fin 2) (Fin 2) ℂ := NormedSpace.exp ((-(dt : ℂ) * I) • M)

/-- A term acts on the basis states where every control is set, or clear for an anti-controlled term; a toggle exchanges the two. -/
def Active (o : HamOp) (i : ℕ) : Prop := ∀ j (h : j < o.controls.length), i.testBit o.controls[j] = (!o.anti ^^ o.toggles.getD j false)

/-- A matrix on the basis states that satisfy a condition. -/
noncomputable def actOn (p : ℕ → Prop) (M : Matrix (Fin 2) (Fin 2) ℂ) (q : ℕ) (ψ : ℕ → ℂ) : ℕ → ℂ :=
  gate p q (M 0 0) (M 0 1) (M 1 0) (M 1 1) ψ

/-- The documented evolution, first term first. -/
noncomputable def evolved (dt : ℝ) (H : List HamOp) (ψ : ℕ → ℂ) : ℕ → ℂ :=
  H.foldl (fun ψ o => actOn (Active o) (evolution dt (mat (o.mats 0))) o.target ψ) ψ

/-- Terms on `n` qubits with distinct qubits, a Hermitian matrix, and a toggle for every control, if any. -/
structure HamOp.Ok (n : ℕ) (o : HamOp) : Prop where
  nodup : (o.controls ++ [o.target]).Nodup
  lt : ∀ k ∈ o.controls ++ [o.target], k < n
  toggles : o.toggles = [] ∨ o.controls.length ≤ o.toggles.length
  herm : (mat (o.mats 0)).IsHermitian

/-- Diagonal matrices. -/
def Diag (m : M2) : Prop := m.b = 0 ∧ m.c = 0

/-! ## Exponentials -/

theorem mat_smul' (k : ℂ) (m : M2) : mat (smul k m) = k • mat m := by
  rw [mat_smul, mat, smul]; simp only [mul_comm k]

theorem exp2_diag {m : M2} (h : Diag m) : ∃ m', exp2 m = some m' ∧ mat m' = NormedSpace.exp (mat m) := by
  obtain ⟨o, h1, h2⟩ := Matrix2.exp2x2_diag_partial ⟨m.a, m.b, m.c, m.d⟩ h
  exact ⟨⟨o.m0, o.m1, o.m2, o.m3⟩, by rw [exp2, h1]; rfl, h2⟩

theorem exp2_herm {m : M2} (hh : (mat m).IsHermitian) (hd : ¬ Diag m) {dt : ℝ} (ht : dt ≠ 0) :
    ∃ m', exp2 (smul I (smul (-dt) m)) = some m' ∧ mat m' = evolution dt (mat m).adjugate := by
  have hbc : m.c = (starRingEnd ℂ) m.b := by
    have := congrFun (congrFun hh 1) 0
    simpa [mat, Matrix.conjTranspose_apply] using this.symm
  have hb : m.b ≠ 0 := fun h => hd ⟨h, by rw [hbc, h, map_zero]⟩
  have ha : (starRingEnd ℂ) m.a = m.a := by simpa [mat, Matrix.conjTranspose_apply] using congrFun (congrFun hh 0) 0
  have hdd : (starRingEnd ℂ) m.d = m.d := by simpa [mat, Matrix.conjTranspose_apply] using congrFun (congrFun hh 1) 1
  have htC : (dt : ℂ) ≠ 0 := by exact_mod_cast ht
  set n : Matrix2.Mtrx := ⟨m.a * -dt * I, m.b * -dt * I, m.c * -dt * I, m.d * -dt * I⟩ with hn
  have hc : m.c ≠ 0 := by rw [hbc]; simpa using hb
  have hr := Matrix2.root_sq n
  have hnd : ¬(n.m1 = 0 ∧ n.m2 = 0) := by
    intro h
    have : m.b * -dt * I = 0 := h.1
    simp [hb, ht] at this
  have hne : n.m1 * n.m2 ≠ 0 := by
    show m.b * -dt * I * (m.c * -dt * I) ≠ 0
    simp [hb, hc, ht]
  have h1 : Matrix2.eig1 n ≠ n.m0 := by
    intro h
    have hroot : Matrix2.root n = n.m0 - n.m3 := by
      unfold Matrix2.eig1 at h; linear_combination 2 * h
    rw [hroot] at hr
    apply hne
    linear_combination -hr / 4
  have h2 : Matrix2.root n ≠ 0 := by
    intro h0
    rw [h0] at hr
    obtain ⟨x, hx⟩ : ∃ x : ℝ, m.a = x := ⟨m.a.re, (Complex.conj_eq_iff_re.mp ha).symm⟩
    obtain ⟨y, hy⟩ : ∃ y : ℝ, m.d = y := ⟨m.d.re, (Complex.conj_eq_iff_re.mp hdd).symm⟩
    have hz : (m.a - m.d) ^ 2 + 4 * (m.b * m.c) = 0 := by
      have : (dt : ℂ) ^ 2 * ((m.a - m.d) ^ 2 + 4 * (m.b * m.c)) = 0 := by
        rw [hn] at hr
        dsimp only at hr
        linear_combination hr + (dt : ℂ) ^ 2 * ((m.a - m.d) ^ 2 + 4 * (m.b * m.c)) * (I_sq)
      simpa [htC, ht] using this
    rw [hbc, Complex.mul_conj, hx, hy] at hz
    have hz' : (x - y) ^ 2 + 4 * Complex.normSq m.b = 0 := by exact_mod_cast hz
    have := Complex.normSq_pos.mpr hb
    nlinarith [sq_nonneg (x - y)]
  obtain ⟨o, ho⟩ := Matrix2.exp2x2_defined hnd h1 h2
  have hadj := Matrix2.exp2x2_adjugate hnd ho
  refine ⟨⟨o.m0, o.m1, o.m2, o.m3⟩, ?_, ?_⟩
  · rw [exp2]
    show (Matrix2.exp2x2 n).map _ = _
    rw [ho]; rfl
  · show o.mat = _
    rw [hadj, evolution]
    congr 1
    rw [hn, Matrix2.Mtrx.mat, mat, Matrix.adjugate_fin_two_of, Matrix.adjugate_fin_two_of]
    ext i k; fin_cases i <;> fin_cases k <;> simp <;> ring

/-- The adjugate of a 2x2 matrix. -/
theorem adjugate_trace (M : Matrix (Fin 2) (Fin 2) ℂ) : M.adjugate = M.trace • 1 - M := by
  rw [Matrix.adjugate_fin_two, Matrix.trace_fin_two]
  ext i k; fin_cases i <;> fin_cases k <;> simp

theorem herm_adjugate {M : Matrix (Fin 2) (Fin 2) ℂ} (h : M.IsHermitian) : M.adjugate.IsHermitian := h.adjugate

theorem evolution_unitary {M : Matrix (Fin 2) (Fin 2) ℂ} (h : M.IsHermitian) (dt : ℝ) :
    (evolution dt M).conjTranspose * evolution dt M = 1 := by
  have e : ((-(dt : ℂ) * I) • M).conjTranspose = -((-(dt : ℂ) * I) • M) := by
    rw [Matrix.conjTranspose_smul, h, ← neg_smul]
    congr 1; simp
  rw [evolution, ← Matrix.exp_conjTranspose, e,
    ← Matrix.exp_add_of_commute _ _ (Commute.refl ((-(dt : ℂ) * I) • M)).neg_left, neg_add_cancel, NormedSpace.exp_zero]

theorem evolution_zero (M : Matrix (Fin 2) (Fin 2) ℂ) : evolution 0 M = 1 := by
  rw [evolution, ofReal_zero, neg_zero, zero_mul, zero_smul, NormedSpace.exp_zero]

/-- A traceless term that is not diagonal evolves backwards. -/
theorem evolution_adjugate {M : Matrix (Fin 2) (Fin 2) ℂ} (h : M.trace = 0) (dt : ℝ) :
    evolution dt M.adjugate = evolution (-dt) M := by
  rw [adjugate_trace, h, zero_smul, zero_sub, evolution, evolution, smul_neg, ← neg_smul]
  congr 2; push_cast; ring

theorem actOn_one (p : ℕ → Prop) (q : ℕ) (ψ : ℕ → ℂ) : actOn p 1 q ψ = ψ := by funext i; unfold actOn; simp [gate_id]

/-! ## One term -/

theorem sem_toggle {o : HamOp} (hnd : o.controls.Nodup) (ht : o.toggles = [] ∨ o.controls.length ≤ o.toggles.length) :
    ∃ tg, toggleX o = some tg ∧ ∃ mask : ℕ, (∀ s, sem tg s = fun i => s (i ^^^ mask)) ∧ (∀ k, k ∉ o.controls → mask.testBit k = false) ∧
      ∀ j (h : j < o.controls.length), mask.testBit o.controls[j] = o.toggles.getD j false := by
  unfold toggleX
  by_cases h0 : o.toggles = []
  · rw [if_pos h0]
    refine ⟨[], rfl, 0, fun s => by simp [sem_nil], by simp, by simp [h0]⟩
  · rw [if_neg h0, if_neg (by have := ht.resolve_left h0; omega)]
    obtain ⟨perm, hp⟩ : ∃ perm : ℕ, ∀ j < o.controls.length, perm.testBit j = o.toggles.getD j false :=
      ⟨Nat.ofBits (fun j : Fin o.controls.length => o.toggles.getD j false), fun j hj => by rw [Nat.testBit_ofBits_lt _ _ hj]⟩
    obtain ⟨mask, h1, h2, h3⟩ := sem_xWhere hnd true perm
    refine ⟨_, rfl, mask, fun s => ?_, h2, fun j hj => ?_⟩
    · rw [← h1 s]
      congr 1
      unfold xWhere
      apply List.flatMap_congr
      intro j hj
      rw [hp j (List.mem_range.1 hj)]
    · rw [h3 j hj, hp j hj]; cases o.toggles.getD j false <;> rfl

theorem fine_toggle {Adm : M2 → Prop} {n : ℕ} (hU : ∀ m : M2, m.IsUnitary → Adm m) {o : HamOp} (hlt : ∀ c ∈ o.controls, c < n)
    {tg : List Prim} (h : toggleX o = some tg) : Fine Adm n tg := by
  unfold toggleX at h
  split_ifs at h
  · obtain rfl := Option.some.inj h; exact fine_nil
  · obtain rfl := Option.some.inj h
    refine fine_flatMap fun j hj => ?_
    split_ifs
    · refine fine_x hU (hlt _ ?_)
      rw [List.getD_eq_getElem _ _ (List.mem_range.1 hj)]; exact List.getElem_mem _
    · exact fine_nil

theorem sem_evolveOp {o : HamOp} (hnd : (o.controls ++ [o.target]).Nodup) (ht : o.toggles = [] ∨ o.controls.length ≤ o.toggles.length)
    (hu : o.uniform = false) {dt : ℝ} {m : M2} (hm : exp2 (smul I (smul (-dt) (o.mats 0))) = some m) :
    ∃ p, evolveOp dt o = some p ∧ (∀ ψ, sem p ψ = actOn (Active o) (mat m) o.target ψ) ∧
      ∀ {Adm : M2 → Prop} {n : ℕ}, (∀ m : M2, m.IsUnitary → Adm m) → Adm m → (∀ k ∈ o.controls ++ [o.target], k < n) → Fine Adm n p := by
  have hq : o.target ∉ o.controls := notMem_of_nodup hnd
  obtain ⟨tg, h1, mask, h2, h3, h4⟩ := sem_toggle (List.nodup_append.1 hnd).1 ht
  unfold evolveOp
  rw [h1, Option.bind_some, if_neg (by rw [hu]; simp), hm, Option.map_some, Option.map_some]
  refine ⟨_, rfl, fun ψ => ?_, fun hU hA hlt => ?_⟩
  · rw [sem_append, sem_append, h2, h2]
    have key : ∀ v : Bool, v = (!o.anti) → (fun i => gate (AllAre v o.controls) o.target m.a m.b m.c m.d (fun j => ψ (j ^^^ mask)) (i ^^^ mask)) =
        actOn (Active o) (mat m) o.target ψ := by
      intro v hv
      rw [gate_xorMask _ (h3 _ hq)]
      show _ = gate (Active o) o.target m.a m.b m.c m.d ψ
      refine gate_ext (fun i => ?_) ..
      rw [allAre_iff_getElem, Active]
      refine forall₂_congr fun j hj => ?_
      rw [Nat.testBit_xor, h4 j hj, hv]
      cases i.testBit o.controls[j] <;> cases o.anti <;> cases o.toggles.getD j false <;> simp
    by_cases hc : o.controls = []
    · rw [if_pos hc]
      have := key (!o.anti) rfl
      rw [← this]
      have e : ∀ φ, gate (AllAre (!o.anti) o.controls) o.target m.a m.b m.c m.d φ = gate (fun _ => True) o.target m.a m.b m.c m.d φ := fun φ =>
        gate_ext (fun i => by simp [AllAre, hc]) ..
      simp only [e]; rfl
    · rw [if_neg hc]
      by_cases ha : o.anti = true
      · rw [if_pos ha, sem_macMtrx hq]; exact key false (by rw [ha]; rfl)
      · rw [if_neg ha]; exact key true (by simpa using ha)
  · have hlt' : ∀ c ∈ o.controls, c < _ := fun c hc => hlt c (by simp [hc])
    have htg := fine_toggle hU hlt' h1
    refine fine_append.2 ⟨fine_append.2 ⟨htg, ?_⟩, htg⟩
    split_ifs
    · exact fine_mtrx hA (hlt _ (by simp))
    · exact fine_macMtrx hU hA hnd hlt
    · exact fine_mc hA hnd hlt

/-- The matrix whose exponential a term really applies. -/
noncomputable def applied (m : M2) : Matrix (Fin 2) (Fin 2) ℂ := if Diag m then mat m else (mat m).adjugate

theorem exp2_applied {m : M2} (hh : (mat m).IsHermitian) {dt : ℝ} (ht : dt ≠ 0) :
    ∃ m', exp2 (smul I (smul (-dt) m)) = some m' ∧ mat m' = evolution dt (applied m) ∧ m'.IsUnitary := by
  by_cases hd : Diag m
  · obtain ⟨m', h1, h2⟩ := exp2_diag (m := smul I (smul (-dt) m)) ⟨by simp [smul, hd.1], by simp [smul, hd.2]⟩
    have e : mat m' = evolution dt (mat m) := by
      rw [h2, mat_smul', mat_smul', smul_smul, evolution]; congr 2; ring
    refine ⟨m', h1, by rw [applied, if_pos hd, e], ?_⟩
    rw [unitary_mat, e]; exact evolution_unitary hh dt
  · obtain ⟨m', h1, h2⟩ := exp2_herm hh hd ht
    refine ⟨m', h1, by rw [applied, if_neg hd, h2], ?_⟩
    rw [unitary_mat, h2]; exact evolution_unitary (herm_adjugate hh) dt

section
variable {S : Type} {B : Backend S} {Adm : M2 → Prop} {size : S → ℕ} {view : S → ℕ → ℂ} {Good : S → Prop}

/-- Every Hamiltonian without uniformly controlled terms: the terms are applied in order, each with the exponential of `applied`. -/
theorem timeEvolve_applies (L : Lawful B Adm size view Good) {s : S} (hs : Good s) {dt : ℝ} (ht : dt ≠ 0) {H : List HamOp}
    (hH : ∀ o ∈ H, o.Ok (size s) ∧ o.uniform = false) :
    ∃ p, timeEvolve dt H = some p ∧
      Performs B size view Good p (fun ψ => H.foldl (fun ψ o => actOn (Active o) (evolution dt (applied (o.mats 0))) o.target ψ) ψ) s := by
  have key : ∀ H : List HamOp, (∀ o ∈ H, o.Ok (size s) ∧ o.uniform = false) →
      ∃ p, H.foldr (fun o rest => (evolveOp dt o).bind fun p => rest.map (p ++ ·)) (some []) = some p ∧ Fine Adm (size s) p ∧
        ∀ ψ, sem p ψ = H.foldl (fun ψ o => actOn (Active o) (evolution dt (applied (o.mats 0))) o.target ψ) ψ := by
    intro H
    induction H with
    | nil => intro _; exact ⟨[], rfl, fine_nil, fun ψ => rfl⟩
    | cons o H ih =>
      intro hH
      obtain ⟨ho, hu⟩ := hH o (by simp)
      obtain ⟨p, e1, e2, e3⟩ := ih fun o' ho' => hH o' (by simp [ho'])
      obtain ⟨m', x1, x2, x3⟩ := exp2_applied ho.herm ht
      obtain ⟨r, y1, y2, y3⟩ := sem_evolveOp ho.nodup ho.toggles hu x1
      refine ⟨r ++ p, ?_, fine_append.2 ⟨y3 L.unitary (L.unitary _ x3) ho.lt, e2⟩, fun ψ => ?_⟩
      · rw [List.foldr_cons, e1, y1]; rfl
      · rw [sem_append, e3, y2, x2, List.foldl_cons]
  obtain ⟨p, e1, e2, e3⟩ := key H hH
  refine ⟨p, ?_, performs_eq L hs e2 (e3 _)⟩
  unfold timeEvolve
  rw [if_neg (by rw [not_le]; exact abs_pos.mpr ht), e1]

/-- Diagonal terms: the documented evolution. Missing for the full claim: terms that are not diagonal (`timeEvolve_backwards`,
`timeEvolve_wrong`) and uniformly controlled terms (`uniform_wrong`). -/
theorem timeEvolve_partial (L : Lawful B Adm size view Good) {s : S} (hs : Good s) (dt : ℝ) {H : List HamOp}
    (hH : ∀ o ∈ H, o.Ok (size s) ∧ o.uniform = false ∧ Diag (o.mats 0)) :
    ∃ p, timeEvolve dt H = some p ∧ Performs B size view Good p (evolved dt H) s := by
  by_cases ht : dt = 0
  · subst ht
    refine ⟨[], by simp [timeEvolve], performs_eq L hs fine_nil ?_⟩
    have : ∀ (H : List HamOp) (ψ : ℕ → ℂ), evolved 0 H ψ = ψ := by
      intro H
      induction H with
      | nil => intro ψ; rfl
      | cons o H ih =>
        intro ψ
        show evolved 0 H _ = ψ
        rw [ih]
        dsimp only
        rw [evolution_zero, actOn_one]
    rw [this, sem_nil]
  · obtain ⟨p, h1, h2⟩ := timeEvolve_applies L hs ht (H := H) fun o ho => ⟨(hH o ho).1, (hH o ho).2.1⟩
    refine ⟨p, h1, ?_⟩
    have : (fun ψ => H.foldl (fun ψ o => actOn (Active o) (evolution dt (applied (o.mats 0))) o.target ψ) ψ) = evolved dt H := by
      funext ψ
      unfold evolved
      apply List.foldl_ext
      intro ψ o ho
      rw [applied, if_pos (hH o ho).2.2]
    rwa [this] at h2

/-- The energy of a basis state under diagonal terms. -/
noncomputable def energy (H : List HamOp) (i : ℕ) : ℂ :=
  (H.map fun o => if Active o i then (if i.testBit o.target = true then (o.mats 0).d else (o.mats 0).a) else 0).sum

/-- Diagonal terms: every basis state turns with its energy. -/
theorem timeEvolve_energy_partial (L : Lawful B Adm size view Good) {s : S} (hs : Good s) (dt : ℝ) {H : List HamOp}
    (hH : ∀ o ∈ H, o.Ok (size s) ∧ o.uniform = false ∧ Diag (o.mats 0)) :
    ∃ p, timeEvolve dt H = some p ∧ Performs B size view Good p (fun ψ i => Complex.exp (-I * dt * energy H i) * ψ i) s := by
  obtain ⟨p, h1, h2⟩ := timeEvolve_partial L hs dt hH
  refine ⟨p, h1, ?_⟩
  have : ∀ (H : List HamOp), (∀ o ∈ H, Diag (o.mats 0)) → ∀ ψ : ℕ → ℂ, evolved dt H ψ = fun i => Complex.exp (-I * dt * energy H i) * ψ i := by
    intro H
    induction H with
    | nil => intro _ ψ; funext i; simp [evolved, energy]
    | cons o H ih =>
      intro hD ψ
      obtain ⟨hb, hc⟩ := hD o (by simp)
      show evolved dt H _ = _
      rw [ih fun o' ho' => hD o' (by simp [ho'])]
      have e : evolution dt (mat (o.mats 0)) =
          Matrix.diagonal ![Complex.exp (-I * dt * (o.mats 0).a), Complex.exp (-I * dt * (o.mats 0).d)] := by
        have e0 : (-(dt : ℂ) * I) • mat (o.mats 0) = Matrix.diagonal ![-I * dt * (o.mats 0).a, -I * dt * (o.mats 0).d] := by
          have e1 : -(dt : ℂ) * I = -I * dt := by ring
          rw [e1]
          ext i k; fin_cases i <;> fin_cases k <;> simp [mat, hb, hc]
        rw [evolution, e0, Matrix2.exp_diag2]
      funext i
      dsimp only
      have e2 : energy (o :: H) i = (if Active o i then (if i.testBit o.target = true then (o.mats 0).d else (o.mats 0).a) else 0) + energy H i := by
        simp [energy]
      rw [e2, e, actOn, gate, mul_add, Complex.exp_add]
      by_cases ha : Active o i
      · rw [if_pos ha, if_pos ha]
        by_cases hb' : i.testBit o.target = true <;> simp [hb'] <;> ring
      · rw [if_neg ha, if_neg ha]; simp
  obtain ⟨s', a, b, c, d, e⟩ := h2
  exact ⟨s', a, b, c, d, by rwa [this H (fun o ho => (hH o ho).2.2)] at e⟩

/-- Traceless terms that are not diagonal, for example `X` and `Y`: the evolution for the negative time. -/
theorem timeEvolve_backwards (L : Lawful B Adm size view Good) {s : S} (hs : Good s) {dt : ℝ} (ht : dt ≠ 0) {H : List HamOp}
    (hH : ∀ o ∈ H, o.Ok (size s) ∧ o.uniform = false ∧ ¬ Diag (o.mats 0) ∧ (mat (o.mats 0)).trace = 0) :
    ∃ p, timeEvolve dt H = some p ∧ Performs B size view Good p (evolved (-dt) H) s := by
  obtain ⟨p, h1, h2⟩ := timeEvolve_applies L hs ht (H := H) fun o ho => ⟨(hH o ho).1, (hH o ho).2.1⟩
  refine ⟨p, h1, ?_⟩
  have : (fun ψ => H.foldl (fun ψ o => actOn (Active o) (evolution dt (applied (o.mats 0))) o.target ψ) ψ) = evolved (-dt) H := by
    funext ψ
    unfold evolved
    apply List.foldl_ext
    intro ψ o ho
    rw [applied, if_neg (hH o ho).2.2.1, evolution_adjugate (hH o ho).2.2.2]
  rwa [this] at h2

/-- Uniformly controlled terms: the exponential of `-tM`, without the factor `i`, and of the adjugate if the matrix is not diagonal. -/
theorem uniform_applies (L : Lawful B Adm size view Good) {s : S} (hs : Good s) {dt : ℝ} {o : HamOp}
    (hnd : (o.controls ++ [o.target]).Nodup) (hb : ∀ k ∈ o.controls ++ [o.target], k < size s) (ht : o.toggles = []) (hu : o.uniform = true)
    (hw : o.controls.length ≤ 128) {ms : ℕ → M2} (hm : ∀ j, exp2 (smul (-dt) (o.mats j)) = some (ms j)) (hA : ∀ j, Adm (ms j)) :
    ∃ p, evolveOp dt o = some p ∧ ∃ s', exec B p s = some s' ∧ Good s' ∧ size s' = size s ∧ B.rgp s' = B.rgp s ∧
      ∃ w : ℂ, ‖w‖ = 1 ∧ (B.rgp s = false → w = 1) ∧ ∀ i < 2 ^ size s, ∀ v, IsCtrlValue o.controls i v →
        w * view s' i = act (NormedSpace.exp (-(dt : ℂ) • (if Diag (o.mats v) then mat (o.mats v) else (mat (o.mats v)).adjugate))) o.target
          (view s) i := by
  have hms : (fun j => (exp2 (smul (-dt) (o.mats j))).getD ⟨0, 0, 0, 0⟩) = ms := by funext j; rw [hm j]; rfl
  have hp : evolveOp dt o = some (uniform o.controls o.target ms [] 0) := by
    unfold evolveOp toggleX
    rw [if_pos ht, Option.bind_some, if_pos hu, if_pos (fun j _ => by rw [hm j]; rfl), hms]
    simp
  refine ⟨_, hp, ?_⟩
  obtain ⟨s', h1, h2, h3, h4, w, w1, w2, w3⟩ := uniform_spec L hs (ms := ms) hA hnd hb (ps := []) (by simp) (by simpa using hw) 0
  refine ⟨s', h1, h2, h3, h4, w, w1, w2, fun i hi v hv => ?_⟩
  rw [w3 i hi v v hv (matrixIndex_none v)]
  have e : mat (ms v) = NormedSpace.exp (-(dt : ℂ) • (if Diag (o.mats v) then mat (o.mats v) else (mat (o.mats v)).adjugate)) := by
    by_cases hd : Diag (o.mats v)
    · obtain ⟨m', x1, x2⟩ := exp2_diag (m := smul (-dt) (o.mats v)) ⟨by simp [smul, hd.1], by simp [smul, hd.2]⟩
      rw [hm v, Option.some.injEq] at x1
      rw [x1, x2, mat_smul', if_pos hd]
    · have hv' := hm v
      unfold exp2 at hv'
      obtain ⟨o', ho', ho''⟩ := Option.map_eq_some_iff.1 hv'
      by_cases h0 : dt = 0
      · subst h0
        have hd0 : Diag (smul (-(0 : ℝ)) (o.mats v)) := by simp [Diag, smul]
        obtain ⟨m', x1, x2⟩ := exp2_diag hd0
        rw [hm v, Option.some.injEq] at x1
        rw [x1, x2, mat_smul']
        simp
      · have hnd' : ¬((o.mats v).b * -dt = 0 ∧ (o.mats v).c * -dt = 0) := by
          intro h; apply hd; simpa [h0, Diag] using h
        have := Matrix2.exp2x2_adjugate hnd' ho'
        have e2 : mat (ms v) = o'.mat := by rw [← ho'']; rfl
        rw [e2, this, if_neg hd, Matrix2.Mtrx.mat, mat, Matrix.adjugate_fin_two_of, Matrix.adjugate_fin_two_of]
        congr 1
        ext i k; fin_cases i <;> fin_cases k <;> simp [smul] <;> ring
  rw [← e]; rfl

end

/-! ## Where the claim fails -/

/-- `X` on one qubit. -/
def hamX : HamOp := { target := 0, anti := false, uniform := false, mats := fun _ => ⟨0, 1, 1, 0⟩, controls := [], toggles := [] }

theorem hamX_ok (n : ℕ) (h : 0 < n) : hamX.Ok n :=
  ⟨by decide, by simpa [hamX] using h, Or.inl rfl, by
    rw [Matrix.IsHermitian]; ext i k; fin_cases i <;> fin_cases k <;> simp [hamX, mat, Matrix.conjTranspose_apply]⟩

/-- Evolution under `X` from `|110⟩`: the amplitude of `|111⟩` is `+i sin t`; documented is `-i sin t`. -/
theorem timeEvolve_wrong {dt : ℝ} (ht : Real.sin dt ≠ 0) :
    ∃ p e', timeEvolve dt [hamX] = some p ∧ exec (cpu id) p three = some e' ∧ e'.amp 7 = I * Real.sin dt ∧
      evolved dt [hamX] three.amp 7 = -I * Real.sin dt ∧ e'.amp 7 ≠ evolved dt [hamX] three.amp 7 := by
  have h0 : dt ≠ 0 := fun h => ht (by rw [h, Real.sin_zero])
  obtain ⟨p, h1, e', h2, -, -, -, w, -, w2, w3⟩ := timeEvolve_backwards (cpu_lawful id_sched) three_good h0 (H := [hamX]) (by
    intro o ho
    obtain rfl := List.mem_singleton.1 ho
    exact ⟨hamX_ok _ (by simp [three]), rfl, by simp [Diag, hamX], by simp [hamX, mat, Matrix.trace_fin_two]⟩)
  obtain rfl : w = 1 := w2 rfl
  have ev : ∀ t : ℝ, evolved t [hamX] three.amp 7 = -I * Real.sin t := by
    intro t
    have hm : mat (hamX.mats 0) = σx := rfl
    have hact : Active hamX 7 := fun j hj => absurd hj (by simp [hamX])
    show actOn (Active hamX) (evolution t (mat (hamX.mats 0))) hamX.target three.amp 7 = _
    rw [hm, evolution, exp_pauliX, (exp_two t).1, (exp_two t).2]
    unfold actOn gate
    rw [if_pos hact]
    simp [hamX, three, σx, flipBit, Nat.testBit, mul_comm]
  have e7 : e'.amp 7 = I * Real.sin dt := by
    rw [← one_mul (e'.amp 7), w3 7 (by simp [three])]
    show evolved (-dt) [hamX] three.amp 7 = _
    rw [ev, Real.sin_neg]; push_cast; ring
  refine ⟨p, e', h1, h2, e7, ev dt, ?_⟩
  rw [e7, ev dt]
  intro h
  have : 2 * I * (Real.sin dt : ℂ) = 0 := by linear_combination h
  simp [-ofReal_sin] at this
  exact ht this

/-- `Z` on the lowest qubit, whatever the control. -/
def hamU : HamOp := { target := 0, anti := false, uniform := true, mats := fun _ => ⟨1, 0, 0, -1⟩, controls := [1], toggles := [] }

/-- A uniformly controlled `Z` shrinks `|110⟩` to `e^{-t}` instead of turning it by `e^{-it}`. -/
theorem uniform_wrong {dt : ℝ} (ht : dt ≠ 0) :
    ∃ p e', timeEvolve dt [hamU] = some p ∧ exec (cpu id) p three = some e' ∧ e'.amp 6 = Real.exp (-dt) ∧ ‖e'.amp 6‖ ≠ ‖three.amp 6‖ := by
  have hd : Diag (smul (-dt) (hamU.mats 0)) := by simp [Diag, smul, hamU]
  obtain ⟨m', x1, x2⟩ := exp2_diag hd
  have e0 : mat (smul (-dt) (hamU.mats 0)) = Matrix.diagonal ![(-dt : ℂ), (dt : ℂ)] := by
    ext i k; fin_cases i <;> fin_cases k <;> simp [mat, smul, hamU]
  rw [e0, Matrix2.exp_diag2] at x2
  have ma : m'.a = Complex.exp (-dt) := by simpa [mat] using congrFun (congrFun x2 0) 0
  have md : m'.d = Complex.exp dt := by simpa [mat] using congrFun (congrFun x2 1) 1
  have hP : PhaseOk m' := by
    intro _ _ h
    rw [ma, md] at h
    exfalso
    have : Real.exp (-dt) = Real.exp dt := by exact_mod_cast h
    have := Real.exp_injective this
    exact ht (by linarith)
  obtain ⟨p, h1, e', h2, -, -, -, w, -, w2, w3⟩ := uniform_applies (cpu_lawful id_sched) three_good (dt := dt) (o := hamU) (by decide)
    (by simp [three, hamU]) rfl rfl (by simp [hamU]) (ms := fun _ => m') (fun _ => x1) (fun _ => hP)
  obtain rfl : w = 1 := w2 rfl
  have hv : IsCtrlValue hamU.controls 6 1 := by
    refine ⟨by simp [hamU], fun j hj => ?_⟩
    obtain rfl : j = 0 := by simpa [hamU] using hj
    simp [hamU, Nat.testBit]
  have e6 : e'.amp 6 = Real.exp (-dt) := by
    rw [← one_mul (e'.amp 6), w3 6 (by simp [three]) 1 hv, if_pos (by simp [Diag, hamU])]
    have : -(dt : ℂ) • mat (hamU.mats 1) = Matrix.diagonal ![(-dt : ℂ), (dt : ℂ)] := by
      ext i k; fin_cases i <;> fin_cases k <;> simp [mat, hamU]
    rw [this, Matrix2.exp_diag2]
    simp [act, gate, hamU, three, Nat.testBit]
  refine ⟨p, e', ?_, h2, e6, ?_⟩
  · unfold timeEvolve
    rw [if_neg (by rw [not_le]; exact abs_pos.mpr ht), List.foldr_cons, List.foldr_nil, h1]
    simp
  · have h3 : three.amp 6 = 1 := rfl
    rw [e6, h3, Complex.norm_real, Real.norm_eq_abs, Real.abs_exp, norm_one]
    intro h
    rw [Real.exp_eq_one_iff] at h
    exact ht (by linarith)

/-! ## Examples -/

/-- A diagonal term with a toggled control. -/
def hamZ : HamOp := { target := 0, anti := false, uniform := false, mats := fun _ => ⟨1, 0, 0, -1⟩, controls := [1, 2], toggles := [true, false] }

theorem hamZ_ok : hamZ.Ok 3 ∧ hamZ.uniform = false ∧ Diag (hamZ.mats 0) :=
  ⟨⟨by decide, by simp [hamZ], Or.inr (by simp [hamZ]), by
    rw [Matrix.IsHermitian]; ext i k; fin_cases i <;> fin_cases k <;> simp [hamZ, mat, Matrix.conjTranspose_apply]⟩, rfl, by simp [Diag, hamZ]⟩

example : ∃ p, timeEvolve 2 [hamZ] = some p ∧
    Performs (cpu id) (fun e => e.n) (fun e => e.amp) (fun e => e.n ≤ 64 ∧ e.doNorm = false) p (evolved 2 [hamZ]) three :=
  timeEvolve_partial (cpu_lawful id_sched) three_good 2 (by simpa [three] using hamZ_ok)

example : Active hamZ 4 ∧ ¬ Active hamZ 6 := by
  constructor
  · intro j hj
    have : j < 2 := hj
    interval_cases j <;> simp [hamZ, Nat.testBit]
  · intro h
    have := h 0 (by simp [hamZ])
    simp [hamZ, Nat.testBit] at this

end Verif.Defaults
