import Verif.Lemmas.OclMask

/-!
# C60: mask, parity and uniformly controlled gates on an OpenCL register

`Settled e` means that no normalisation is pending. Every theorem holds for every device `d`, every schedule `σ`, `τ` of
the work-items and all left-over contents `old` of the argument buffers.
-/

namespace Verif.Ocl

open Verif.ParFor Verif.Bits Verif.PairFold Verif.Spec Verif.Engine Classical

variable {d : Dev} {σ : List (ℕ × ℕ) → List (ℕ × ℕ)} {τ : List ℕ → List ℕ}

/-- `XMask` flips exactly the masked qubits. -/
theorem xMask_flips (hd : d.Ok) (hσ : IsSched2 σ) (hτ : IsSched τ) (old : Bufs) {e : Eng} (hn : e.n ≤ 64)
    (hs : Settled e) {mask : ℕ} (hm : mask < 2 ^ e.n) :
    ∃ e', xMask d σ τ old e mask = some e' ∧ Applies e e' (fun s i => s (i ^^^ mask)) ∧ e'.rn = e.rn := by
  unfold xMask
  by_cases h0 : mask = 0
  · rw [if_pos h0]
    exact ⟨e, rfl, ⟨rfl, rfl, rfl, rfl, fun i _ => by simp [h0]⟩, rfl⟩
  rw [if_neg h0]
  by_cases hp : isPowerOfTwo mask = true
  · rw [if_pos hp]
    obtain ⟨l, h1, h2⟩ := isPowerOfTwo_iff hp
    rw [h2]
    have hl : l < e.n := (Nat.pow_lt_pow_iff_right (by norm_num : 1 < 2)).1 (h1 ▸ hm)
    obtain ⟨e', k1, k2, k3, k4, k5, k6, k7⟩ := gateX_flips hd hσ hτ old hn hl
    refine ⟨e', k1, ⟨k2, k5, k3, k4, fun i hi => ?_⟩, by rw [k7, settled_rn hs]⟩
    rw [k6 i hi, scale_one hs, h1, flipBit]
    simp
  · rw [if_neg hp, if_neg (by omega)]
    obtain ⟨l, h1, h2, h3⟩ := runLoop_list hd hσ e.n
    have hb : bitMaskArgs e.n mask old.ul 0 = 2 ^ e.n := rfl
    dsimp only
    rw [hb, h3]
    refine ⟨_, rfl, ⟨rfl, rfl, rfl, rfl, fun i hi => ?_⟩, rfl⟩
    dsimp only
    have hst : xmaskStep (bitMaskArgs e.n mask old.ul) = xMaskStep e.n mask := by
      funext s x
      rfl
    rw [hst]
    exact xMask_fold hm h0 h1 h2 _ i hi

theorem zFold (hd : d.Ok) (hσ : IsSched2 σ) (hτ : IsSched τ) (old : Bufs) : ∀ (l : List ℕ) {e : Eng}, e.n ≤ 64 →
    Settled e → (∀ q ∈ l, q < e.n) → ∃ e', l.foldlM (fun e q => gateZ d σ τ old e q) e = some e' ∧
      Applies e e' (fun s i => (-1) ^ l.countP (fun q => i.testBit q) * s i) ∧ e'.rn = e.rn := by
  intro l
  induction l with
  | nil => intro e _ _ _; exact ⟨e, rfl, ⟨rfl, rfl, rfl, rfl, fun i _ => by simp⟩, rfl⟩
  | cons q l ih =>
    intro e hn hs hq
    obtain ⟨e1, k1, k2, k3, k4, k5, k6, k7⟩ := gateZ_signs hd hσ hτ old hn (hq q (by simp))
    have hs1 : Settled e1 := by
      rcases hs with h | h
      · exact Or.inl (by rw [k3, h])
      · exact Or.inr (by rw [k7, settled_rn (Or.inr h), h])
    obtain ⟨e2, j1, j2, j3⟩ := ih (e := e1) (by rw [k2]; exact hn) hs1 (fun p hp => by rw [k2]; exact hq p (by simp [hp]))
    refine ⟨e2, by rw [List.foldlM_cons, k1]; exact j1, ⟨by rw [j2.n, k2], by rw [j2.rgp, k5], by rw [j2.doNorm, k3],
      by rw [j2.floor, k4], fun i hi => ?_⟩, by rw [j3, k7, settled_rn hs]⟩
    rw [j2.amp i (by rw [k2]; exact hi), k6 i hi, scale_one hs, List.countP_cons]
    cases i.testBit q
    · simp
    · simp [pow_succ]

/-- `ZMask` multiplies each amplitude by `-1` to the number of masked qubits that are set. -/
theorem zMask_signs (hd : d.Ok) (hσ : IsSched2 σ) (hτ : IsSched τ) (old : Bufs) {e : Eng} (hn : e.n ≤ 64)
    (hs : Settled e) {mask : ℕ} (hm : mask < 2 ^ e.n) :
    ∃ e', zMask d σ τ old e mask = some e' ∧ Applies e e' (fun s i => (-1) ^ maskCount e.n mask i * s i) ∧
      e'.rn = e.rn := by
  have hq : ∀ q ∈ maskQubits mask, q < e.n := by
    intro q hq
    by_contra hge
    rw [(maskQubits_spec mask).2, lt_two_pow_iff_testBit.1 hm q (by omega)] at hq
    cases hq
  obtain ⟨e', h1, h2, h3⟩ := zFold hd hσ hτ old (maskQubits mask) hn hs hq
  refine ⟨e', h1, ⟨h2.n, h2.rgp, h2.doNorm, h2.floor, fun i hi => ?_⟩, h3⟩
  rw [h2.amp i hi, maskCount_eq_countP hm]

/-- `PhaseParity(θ, mask)` multiplies an amplitude by `e^{iθ/2}` when an odd number of masked qubits is set and by
`e^{-iθ/2}` otherwise, up to one factor `ω` of modulus one where global phases are dropped. -/
theorem phaseParity_factor (hd : d.Ok) (hσ : IsSched2 σ) (hτ : IsSched τ) (old : Bufs) {e : Eng} (hn : e.n ≤ 64)
    (hs : Settled e) {mask : ℕ} (h0 : mask ≠ 0) (hm : mask < 2 ^ e.n) (θ : ℝ) :
    ∃ e' ω, phaseParity d σ τ old e θ mask = some e' ∧ Complex.normSq ω = 1 ∧
      (e.rgp = false ∨ isPowerOfTwo mask = false → ω = 1) ∧ e'.n = e.n ∧ e'.rn = e.rn ∧
      ∀ i < 2 ^ e.n, ω * e'.amp i = parityFactor (θ / 2) (maskCount e.n mask i) * e.amp i := by
  unfold phaseParity
  rw [if_neg h0]
  set f := Complex.exp (((θ / 2 : ℝ) : ℂ) * Complex.I) with hf
  have hinv : 1 / f = Complex.exp (((-(θ / 2) : ℝ) : ℂ) * Complex.I) := by
    rw [hf, one_div, ← Complex.exp_neg]; congr 1; push_cast; ring
  have hpf : ∀ c, parityFactor (θ / 2) c = if c % 2 = 1 then f else 1 / f := by
    intro c
    unfold parityFactor
    split_ifs
    · rw [hf, mul_comm]
    · rw [hinv, mul_comm]
  dsimp only
  by_cases hp : isPowerOfTwo mask = true
  · rw [if_pos hp]
    obtain ⟨l, h1, h2⟩ := isPowerOfTwo_iff hp
    rw [h2]
    have hl : l < e.n := (Nat.pow_lt_pow_iff_right (by norm_num : 1 < 2)).1 (h1 ▸ hm)
    have hcnt : ∀ i, parityFactor (θ / 2) (maskCount e.n mask i) = if i.testBit l then f else 1 / f := by
      intro i
      rw [hpf, h1, maskCount_two_pow hl]
      cases i.testBit l <;> simp
    have hn1 : Complex.normSq (1 / f) = 1 := by
      rw [hinv, Complex.normSq_eq_norm_sq, Complex.norm_exp_ofReal_mul_I]; norm_num
    obtain ⟨e', ω, k1, k2, k3, k4⟩ := phase_gate hd hσ hτ old hn (1 / f) f hl
    rcases k4 with ⟨rfl, ht, hr⟩ | ⟨k4, k5⟩
    · refine ⟨_, 1 / f, k1, hn1, fun h => ?_, rfl, rfl, fun i hi => ?_⟩
      · rcases hr with h' | h'
        · exact h'
        · rcases h with h | h
          · rw [h] at h'; cases h'
          · rw [hp] at h; cases h
      · rw [hcnt]
        cases i.testBit l
        · simp
        · simp only [if_true]; rw [ht]
    · refine ⟨e', ω, k1, ?_, fun h => ?_, k2, by rw [k5, settled_rn hs], fun i hi => ?_⟩
      · rcases k3 with h | ⟨-, -, h⟩
        · rw [h]; simp
        · rw [h, hn1]
      · rcases k3 with h' | ⟨h', -, -⟩
        · exact h'
        · rcases h with h | h
          · rw [h] at h'; cases h'
          · rw [hp] at h; cases h
      · rw [k4 i hi, scale_one hs, hcnt]; simp
  · rw [if_neg hp, if_neg (by omega)]
    obtain ⟨l, h1, h2, h3⟩ := runLoop_list hd hσ e.n
    have hb : bitMaskArgs e.n mask old.ul 0 = 2 ^ e.n := rfl
    rw [hb, h3]
    refine ⟨_, 1, rfl, by simp, fun _ => rfl, rfl, rfl, fun i hi => ?_⟩
    dsimp only
    rw [one_mul, cell_fold h1 h2 (fun x z => parityFactor (θ / 2) (maskCount e.n mask x) * z) _ _ _ i hi]
    intro s x hx
    unfold phaseparityStep
    have hb1 : bitMaskArgs e.n mask old.ul 1 = mask := rfl
    have hb2 : bitMaskArgs e.n mask old.ul 2 = (2 ^ e.n - 1) ^^^ mask := rfl
    have hc0 : writeBuf 2 (fun i => if i = 0 then f else 1 / f) old.cx 0 = f := rfl
    have hc1 : writeBuf 2 (fun i => if i = 0 then f else 1 / f) old.cx 1 = 1 / f := rfl
    dsimp only
    rw [hb1, hb2, hc0, hc1, (and_or_other hm hx).1, zmul_eq, hpf]
    have := par_maskCount (i := x) hn hm
    by_cases hc : maskCount e.n mask x % 2 = 1
    · rw [if_pos (this.2 hc), if_pos hc]
    · rw [if_neg (fun h => hc (this.1 h)), if_neg hc]

/-- The `PhaseRootNMask` factor: `-2π/2^n` for each masked qubit that is set, for masks of any width up to 64 qubits.
From `n = 64` on the code shifts by more than the word size. -/
theorem phaseRootNMask_factor (hd : d.Ok) (hσ : IsSched2 σ) (hτ : IsSched τ) (old : Bufs) {e : Eng} (hn : e.n ≤ 64)
    (hs : Settled e) {mask : ℕ} (hm : mask < 2 ^ e.n) {n : ℕ} (hn1 : 1 ≤ n) (hn2 : n < 64) :
    ∃ e', phaseRootNMask d σ τ old e n mask = some e' ∧ e'.n = e.n ∧ e'.rn = e.rn ∧ ∀ i < 2 ^ e.n,
      e'.amp i = Complex.exp (((-2 * Real.pi / 2 ^ n * maskCount e.n mask i : ℝ) : ℂ) * Complex.I) * e.amp i := by
  unfold phaseRootNMask
  rw [if_neg (by omega)]
  by_cases h0 : mask = 0
  · subst h0
    rw [if_pos (Or.inr rfl)]
    refine ⟨e, rfl, rfl, rfl, fun i hi => ?_⟩
    simp [maskCount]
  rw [if_neg (by omega)]
  obtain ⟨p, rfl⟩ := Nat.exists_eq_add_of_le' hn1
  by_cases hp0 : p = 0
  · subst hp0
    rw [if_pos rfl]
    obtain ⟨e', h1, h2, h3⟩ := zMask_signs hd hσ hτ old hn hs hm
    refine ⟨e', h1, h2.n, h3, fun i hi => ?_⟩
    rw [h2.amp i hi]
    congr 1
    have : ((-2 * Real.pi / 2 ^ (0 + 1) * (maskCount e.n mask i) : ℝ) : ℂ) * Complex.I =
        (maskCount e.n mask i : ℂ) * (-(Real.pi * Complex.I)) := by push_cast; ring
    rw [this, Complex.exp_nat_mul, Complex.exp_neg, Complex.exp_pi_mul_I]
    norm_num
  rw [if_neg (by omega), if_neg (by omega)]
  have hrad : (-Real.pi / 2 ^ (p + 1 - 1) : ℝ) = -2 * Real.pi / 2 ^ (p + 1) := by
    rw [Nat.add_sub_cancel, pow_succ]; field_simp
  rw [hrad]
  dsimp only
  set r : ℝ := -2 * Real.pi / 2 ^ (p + 1) with hr
  by_cases hp : isPowerOfTwo mask = true
  · rw [if_pos hp]
    obtain ⟨l, h1, h2⟩ := isPowerOfTwo_iff hp
    rw [h2]
    have hl : l < e.n := (Nat.pow_lt_pow_iff_right (by norm_num : 1 < 2)).1 (h1 ▸ hm)
    obtain ⟨e', ω, k1, k2, k3, k4⟩ := phase_gate hd hσ hτ old hn 1 (Complex.exp ((r : ℂ) * Complex.I)) hl
    have hω : ω = 1 := by
      rcases k3 with h | ⟨-, -, h⟩ <;> exact h
    rcases k4 with ⟨rfl, ht, -⟩ | ⟨k4, k5⟩
    · refine ⟨_, k1, rfl, rfl, fun i hi => ?_⟩
      rw [h1, maskCount_two_pow hl]
      cases i.testBit l
      · simp
      · simp [← ht]
    · refine ⟨e', k1, k2, by rw [k5, settled_rn hs], fun i hi => ?_⟩
      have := k4 i hi
      rw [hω, one_mul, scale_one hs] at this
      rw [this, h1, maskCount_two_pow hl]
      cases i.testBit l <;> simp
  · rw [if_neg hp]
    obtain ⟨l, h1, h2, h3⟩ := runLoop_list hd hσ e.n
    generalize hul : writeBuf 4 (arr [2 ^ e.n, mask, 2 ^ (p + 1), 2 ^ (p + 1 - 1)]) old.ul = ul
    have hu0 : ul 0 = 2 ^ e.n := by rw [← hul]; rfl
    have hu1 : ul 1 = mask := by rw [← hul]; rfl
    have hu2 : ul 2 = 2 ^ (p + 1) := by rw [← hul]; rfl
    have hu3 : ul 3 = 2 ^ (p + 1 - 1) := by rw [← hul]; rfl
    rw [hu0, h3]
    refine ⟨_, rfl, rfl, rfl, fun i hi => ?_⟩
    dsimp only
    rw [cell_fold h1 h2 (fun x z => Complex.exp (((r * maskCount e.n mask x : ℝ) : ℂ) * Complex.I) * z)
      _ _ _ i hi]
    intro s x hx
    unfold phasemaskStep
    dsimp only
    rw [hu1, hu2, hu3, popLoop_maskCount hn hm, zmul_eq]
    have hang : (-Real.pi / ((2 ^ (p + 1 - 1) : ℕ) : ℝ)) = r := by
      rw [← hrad]; push_cast; rfl
    rw [hang]
    set c := maskCount e.n mask x
    have hper : Complex.exp ((((c % 2 ^ (p + 1) : ℕ) * r : ℝ) : ℂ) * Complex.I) =
        Complex.exp (((r * c : ℝ) : ℂ) * Complex.I) := by
      rw [Complex.exp_eq_exp_iff_exists_int]
      refine ⟨((c / 2 ^ (p + 1) : ℕ) : ℤ), ?_⟩
      have hc : ((c % 2 ^ (p + 1) : ℕ) : ℂ) = (c : ℂ) - 2 ^ (p + 1) * ((c / 2 ^ (p + 1) : ℕ) : ℂ) := by
        have := Nat.mod_add_div c (2 ^ (p + 1))
        have h3 : ((c % 2 ^ (p + 1) + 2 ^ (p + 1) * (c / 2 ^ (p + 1)) : ℕ) : ℂ) = (c : ℂ) := by rw [this]
        push_cast at h3 ⊢
        linear_combination h3
      rw [hr]
      generalize c % 2 ^ (p + 1) = u at hc ⊢
      generalize c / 2 ^ (p + 1) = w at hc ⊢
      push_cast
      rw [hc]
      field_simp
      ring
    by_cases hst : c % 2 ^ (p + 1) ≠ 0
    · rw [if_pos hst, hper]
    · rw [if_neg hst]
      have h0 : c % 2 ^ (p + 1) = 0 := by simpa using hst
      rw [← hper, h0]
      simp

/-- The factor with which the uniform gates normalise; with an unknown norm there is none. -/
noncomputable def unit (rn : ℝ) : ℝ := if 0 < rn then 1 / Real.sqrt rn else 1

/-- `UniformParityRZ` is the parity rotation by `e^{±iθ}` of the normalised state, for masks of any width (on a CPU
register the mask is cut off at 32 qubits, `Verif.Engine.popCount_wrong`). -/
theorem uniformParityRZ_factor (hd : d.Ok) (hσ : IsSched2 σ) (old : Bufs) {e : Eng} (hn : e.n ≤ 64) {mask : ℕ}
    (hm : mask < 2 ^ e.n) (θ : ℝ) :
    ∃ e', uniformParityRZ d σ old e mask θ = some e' ∧
      Applies e e' (fun s i => unit e.rn * (parityFactor θ (maskCount e.n mask i) * s i)) ∧ e'.rn = 1 := by
  unfold uniformParityRZ
  rw [if_neg (by omega)]
  obtain ⟨l, h1, h2, h3⟩ := runLoop_list hd hσ e.n
  dsimp only
  generalize hul : writeBuf 2 (arr [2 ^ e.n, mask]) old.ul = ul
  have hu0 : ul 0 = 2 ^ e.n := by rw [← hul]; rfl
  have hu1 : ul 1 = mask := by rw [← hul]; rfl
  generalize hcx : writeBuf 3 _ old.cx = cx
  have hc0 : cx 0 = ⟨Real.cos θ, Real.sin θ⟩ := by rw [← hcx]; rfl
  have hc1 : cx 1 = ⟨Real.cos θ, -Real.sin θ⟩ := by rw [← hcx]; rfl
  have hc2 : cx 2 = unit e.rn := by
    rw [← hcx]
    simp only [writeBuf, unit]
    split_ifs <;> simp_all
  rw [hu0, h3]
  refine ⟨_, rfl, ⟨rfl, rfl, rfl, rfl, fun i hi => ?_⟩, rfl⟩
  dsimp only
  rw [cell_fold h1 h2 (fun x z => unit e.rn * (parityFactor θ (maskCount e.n mask x) * z)) _ _ _ i hi]
  intro s x hx
  unfold uniformparityrzStep
  dsimp only
  rw [hu1, kernighan_maskCount hn hm, hc0, hc1, hc2, zmul_eq, zmul_eq, parityFactor_cos]
  simp only [and_one_ne]
  by_cases h1' : e.rn = 1
  · simp only [h1', ne_eq, not_true_eq_false, decide_false, Bool.false_eq_true, if_false]
    rw [mul_comm]
    simp [unit]
  · simp only [h1', ne_eq, not_false_eq_true, decide_true, if_true]
    rw [mul_comm (s x)]

theorem parityFactor_normSq (θ : ℝ) (c : ℕ) : Complex.normSq (parityFactor θ c) = 1 := by
  unfold parityFactor
  rw [mul_comm]
  split_ifs
  · rw [Complex.normSq_eq_norm_sq, Complex.norm_exp_ofReal_mul_I]; norm_num
  · rw [Complex.normSq_eq_norm_sq, Complex.norm_exp_ofReal_mul_I]; norm_num

/-- Afterwards the running norm, one, is the total probability if it was so before. -/
theorem uniformParityRZ_norm (hd : d.Ok) (hσ : IsSched2 σ) (old : Bufs) {e : Eng} (hn : e.n ≤ 64) {mask : ℕ}
    (hm : mask < 2 ^ e.n) (θ : ℝ) (hr : e.rn = totalProb e.n e.amp) (h0 : 0 < e.rn) :
    ∃ e', uniformParityRZ d σ old e mask θ = some e' ∧ e'.rn = 1 ∧ totalProb e.n e'.amp = 1 := by
  obtain ⟨e', h1, h2, h3⟩ := uniformParityRZ_factor hd hσ old hn hm θ
  refine ⟨e', h1, h3, ?_⟩
  have : totalProb e.n e'.amp = (unit e.rn) ^ 2 * totalProb e.n e.amp := by
    unfold totalProb
    rw [Finset.mul_sum]
    refine Finset.sum_congr rfl fun i hi => ?_
    rw [h2.amp i (Finset.mem_range.1 hi), Complex.normSq_mul, Complex.normSq_mul, parityFactor_normSq,
      Complex.normSq_ofReal]
    ring
  rw [this, ← hr, unit, if_pos h0, div_pow, Real.sq_sqrt h0.le]
  field_simp

/-- With an unknown norm (`runningNorm` is `-999` or 0) the amplitudes are not scaled, and yet the running norm is set
to one: it is then wrong for every state that was not normalised. -/
theorem uniformParityRZ_unknown_wrong (hd : d.Ok) (hσ : IsSched2 σ) (old : Bufs) {e : Eng} (hn : e.n ≤ 64) {mask : ℕ}
    (hm : mask < 2 ^ e.n) (θ : ℝ) (h0 : e.rn ≤ 0) (ht : totalProb e.n e.amp ≠ 1) :
    ∃ e', uniformParityRZ d σ old e mask θ = some e' ∧ e'.rn = 1 ∧ totalProb e.n e'.amp ≠ 1 := by
  obtain ⟨e', h1, h2, h3⟩ := uniformParityRZ_factor hd hσ old hn hm θ
  refine ⟨e', h1, h3, ?_⟩
  have : totalProb e.n e'.amp = totalProb e.n e.amp := by
    unfold totalProb
    refine Finset.sum_congr rfl fun i hi => ?_
    rw [h2.amp i (Finset.mem_range.1 hi), Complex.normSq_mul, Complex.normSq_mul, parityFactor_normSq,
      unit, if_neg (not_lt.2 h0)]
    simp
  rwa [this]

/-- `CUniformParityRZ` where all controls are set: the parity rotation over all masked qubits, also those that are
controls (on a CPU register these do not count, `Verif.Engine.cUniformParityRZ_wrong`); elsewhere nothing. -/
theorem cUniformParityRZ_factor (hd : d.Ok) (hσ : IsSched2 σ) (old : Bufs) {e : Eng} (hn : e.n ≤ 64) {cs : List ℕ}
    (hne : cs ≠ []) {mask : ℕ} (hm : mask < 2 ^ e.n) (hnd : cs.Nodup) (hb : ∀ c ∈ cs, c < e.n) (θ : ℝ) :
    ∃ e', cUniformParityRZ d σ old e cs mask θ = some e' ∧ e'.rn = 1 ∧
      Applies e e' (fun s i => if AllAre true cs i then parityFactor θ (maskCount e.n mask i) * s i else s i) := by
  unfold cUniformParityRZ
  rw [if_neg hne, if_neg (by omega), if_neg (by simpa using ⟨hb, hnd⟩)]
  have hperm := List.mergeSort_perm cs (· ≤ ·)
  set ps := cs.mergeSort (· ≤ ·) with hps
  have hlen : ps.length = cs.length := hperm.length_eq
  have hsort : ps.Pairwise (· < ·) := by
    have h1 : ps.Pairwise (· ≤ ·) := by
      have := List.pairwise_mergeSort' (r := (· ≤ ·)) cs
      simpa using this
    have h2 : ps.Nodup := hperm.nodup_iff.2 hnd
    exact (h1.and h2).imp fun ⟨a, b⟩ => lt_of_le_of_ne a b
  have hpb : ∀ p ∈ ps, p < e.n := fun p hp => hb p (hperm.mem_iff.1 hp)
  have hle : cs.length ≤ e.n := by
    have h1 : cs.toFinset ⊆ Finset.range e.n := fun c hc => Finset.mem_range.2 (hb c (List.mem_toFinset.1 hc))
    have h2 := Finset.card_le_card h1
    rwa [List.toFinset_card_of_nodup hnd, Finset.card_range] at h2
  have hmax : 2 ^ e.n / 2 ^ cs.length = 2 ^ (e.n - ps.length) := by
    rw [hlen, Nat.pow_div hle (by norm_num)]
  have hcm : ∀ k, ((cs.map pow2).foldl (· ||| ·) 0).testBit k = decide (k ∈ cs) := by
    intro k
    rw [testBit_foldl_or]
    simp
  dsimp only
  generalize (cs.map pow2).foldl (· ||| ·) 0 = C at hcm ⊢
  rw [hmax]
  generalize hul : writeBuf 4 (arr [2 ^ (e.n - ps.length), mask, C, cs.length]) old.ul = ul
  have hu0 : ul 0 = 2 ^ (e.n - ps.length) := by rw [← hul]; rfl
  have hu1 : ul 1 = mask := by rw [← hul]; rfl
  have hu2 : ul 2 = C := by rw [← hul]; rfl
  have hu3 : ul 3 = ps.length := by rw [← hul, hlen]; rfl
  generalize hcx : writeBuf 2 _ old.cx = cx
  have hc0 : cx 0 = ⟨Real.cos θ, Real.sin θ⟩ := by rw [← hcx]; rfl
  have hc1 : cx 1 = ⟨Real.cos θ, -Real.sin θ⟩ := by rw [← hcx]; rfl
  obtain ⟨l, hl1, hl2, hl3⟩ := runLoop_bases hd hσ hsort hpb
  let K : ℕ → ℂ → ℂ := fun x z => z * if kernighan 64 ((x ||| C) &&& mask) &&& 1 ≠ 0 then
    (⟨Real.cos θ, Real.sin θ⟩ : ℂ) else ⟨Real.cos θ, -Real.sin θ⟩
  rw [hu0, hl3 _ (cstep (fun x => x ||| C) K)]
  swap
  · intro s lcv hlt
    unfold cuniformparityrzStep cstep
    dsimp only
    rw [hu1, hu2, hu3, hc0, hc1, zmul_eq, pushApart_eq hsort (n := e.n - ps.length) _ hlt (by omega)]
    intro i hi
    rw [sortPows_map]
    simp [arr, hi, ← hps]
  refine ⟨_, rfl, rfl, rfl, rfl, rfl, rfl, fun i hi => ?_⟩
  dsimp only
  have hinj : ∀ x ∈ l, ∀ y ∈ l, (x ||| C) = (y ||| C) → x = y := by
    intro x hx y hy hxy
    apply Nat.eq_of_testBit_eq
    intro k
    by_cases hk : k ∈ cs
    · rw [((hl2 x).1 hx).2 k (hperm.mem_iff.2 hk), ((hl2 y).1 hy).2 k (hperm.mem_iff.2 hk)]
    · have := congrArg (fun z => z.testBit k) hxy
      simpa [Nat.testBit_or, hcm, hk] using this
  obtain ⟨hf1, hf2⟩ := cfold_spec (fun x => x ||| C) K l hl1 hinj e.amp
  by_cases hA : AllAre true cs i
  · rw [if_pos hA]
    have hx : ∃ x, x ∈ l ∧ (x ||| C) = i := by
      refine ⟨i &&& (C ^^^ (2 ^ e.n - 1)), (hl2 _).2 ⟨lt_of_le_of_lt Nat.and_le_left hi, fun p hp => ?_⟩, ?_⟩
      · rw [Nat.testBit_and, Nat.testBit_xor, hcm, Nat.testBit_two_pow_sub_one]
        simp [hperm.mem_iff.1 hp, hpb p hp]
      · apply Nat.eq_of_testBit_eq
        intro k
        rw [Nat.testBit_or, Nat.testBit_and, Nat.testBit_xor, hcm, Nat.testBit_two_pow_sub_one]
        by_cases hk : k ∈ cs
        · simp [hk, hA k hk]
        · by_cases hkn : k < e.n
          · simp [hk, hkn]
          · have := Nat.testBit_lt_two_pow (lt_of_lt_of_le hi (Nat.pow_le_pow_right (by norm_num) (not_lt.1 hkn)))
            simp [hk, hkn, this]
    obtain ⟨x, hx1, hx2⟩ := hx
    have := hf1 x hx1
    simp only [hx2] at this
    rw [this]
    simp only [K, hx2]
    rw [parityFactor_cos, kernighan_maskCount hn hm, mul_comm]
    simp only [and_one_ne]
  · rw [if_neg hA]
    refine hf2 i fun x hx he => hA fun c hc => ?_
    rw [he, Nat.testBit_or, hcm]
    simp [hc]

/-- The controlled gate does not scale the amplitudes, but sets the running norm to one: it is then wrong for every state
that was not normalised, however well known its norm was. -/
theorem cUniformParityRZ_norm_wrong (hd : d.Ok) (hσ : IsSched2 σ) (old : Bufs) {e : Eng} (hn : e.n ≤ 64) {cs : List ℕ}
    (hne : cs ≠ []) {mask : ℕ} (hm : mask < 2 ^ e.n) (hnd : cs.Nodup) (hb : ∀ c ∈ cs, c < e.n) (θ : ℝ)
    (ht : totalProb e.n e.amp ≠ 1) :
    ∃ e', cUniformParityRZ d σ old e cs mask θ = some e' ∧ e'.rn = 1 ∧ totalProb e.n e'.amp ≠ 1 := by
  obtain ⟨e', h1, h2, h3⟩ := cUniformParityRZ_factor hd hσ old hn hne hm hnd hb θ
  refine ⟨e', h1, h2, ?_⟩
  have : totalProb e.n e'.amp = totalProb e.n e.amp := by
    unfold totalProb
    refine Finset.sum_congr rfl fun i hi => ?_
    rw [h3.amp i (Finset.mem_range.1 hi)]
    split_ifs
    · rw [Complex.normSq_mul, parityFactor_normSq, one_mul]
    · rfl
  rwa [this]

/-- On each value of the control register, `UniformlyControlledSingleBit` applies the matrix listed for that value to the
normalised state; with skipped controls, the matrix at the index that has the fixed bits `val` at the skipped positions
`ps`. -/
theorem uniformlyControlled_gate (hd : d.Ok) (hσ : IsSched2 σ) (τ : List ℕ → List ℕ) (old : Bufs) {e : Eng}
    (hn : e.n ≤ 64) {controls : List ℕ} (hne : controls ≠ []) {t : ℕ} (hnd : (controls ++ [t]).Nodup)
    (hb : ∀ k ∈ controls ++ [t], k < e.n) (ms : ℕ → M2) {ps : List ℕ} (hps : ps.Pairwise (· < ·))
    (hw : controls.length + ps.length ≤ 64) (val : ℕ) :
    ∃ e', uniformlyControlled d σ τ old e controls t ms (ps.map pow2) val = some e' ∧ e'.n = e.n ∧ e'.rn = 1 ∧
      ∀ i < 2 ^ e.n, ∀ v idx, IsCtrlValue controls i v → IsMatrixIndex ps val v idx →
        e'.amp i = unit e.rn * gate (fun _ => True) t (ms idx).a (ms idx).b (ms idx).c (ms idx).d e.amp i := by
  have ht : t < e.n := hb t (by simp)
  have htc : t ∉ controls := by
    intro h
    have := List.nodup_append.1 hnd
    exact this.2.2 t h t (by simp) rfl
  have hbad : Utils.throwIfBad controls e.n = false := by
    rw [Utils.throwIfBad_correct]
    exact ⟨fun c hc => hb c (by simp [hc]), (List.nodup_append.1 hnd).1⟩
  unfold uniformlyControlled
  rw [if_neg hne, if_neg (by omega), hbad, if_neg (by simp)]
  have hmax : 2 ^ e.n / 2 = 2 ^ (e.n - [t].length) := by
    have := Nat.pow_div (x := 2) (m := e.n) (n := 1) (by omega) (by norm_num)
    simpa using this
  dsimp only
  rw [hmax]
  generalize hul : writeBuf 5 (arr [2 ^ (e.n - [t].length), pow2 t, controls.length, (ps.map pow2).length, val]) old.ul = ul
  have hu0 : ul 0 = 2 ^ (e.n - [t].length) := by rw [← hul]; rfl
  have hu1 : ul 1 = 2 ^ t := by rw [← hul]; rfl
  have hu2 : ul 2 = controls.length := by rw [← hul]; rfl
  have hu3 : ul 3 = ps.length := by rw [← hul]; simp [writeBuf, arr]
  have hu4 : ul 4 = val := by rw [← hul]; rfl
  obtain ⟨l, hl1, hl2, hl3⟩ := runLoop_bases hd hσ (n := e.n) (ps := [t]) (by simp) (by simpa using ht)
  have hunit : (if 0 < e.rn then 1 / Real.sqrt e.rn else 1) = unit e.rn := rfl
  rw [hunit, hu0, hl3 _ (ucStep controls t ms (ps.map pow2) val (unit e.rn : ℝ))]
  swap
  · intro s lcv hlt
    have hlt' : lcv < 2 ^ (e.n - 1) := hlt
    unfold uniformlycontrolledStep ucStep
    dsimp only
    have hp1 : pushApart1 (2 ^ t - 1) lcv = insAll [t] lcv := by
      refine pushApart1_eq ?_
      have := insZero_lt (p := t) hlt'
      exact lt_of_lt_of_le this (Nat.pow_le_pow_right (by norm_num) (by omega))
    rw [hu1, hu2, hu3, hu4, hp1, show ps.length = (ps.map pow2).length by simp]
    set x := insAll [t] lcv
    have hoff : (List.range controls.length).foldl
        (fun o p => if x &&& arr (controls.map pow2 ++ ps.map pow2) p ≠ 0 then o ||| 2 ^ p else o) 0 =
        ctrlOffset controls x := by
      unfold ctrlOffset
      apply List.foldl_ext
      intro o p hp
      have hp' : p < controls.length := List.mem_range.1 hp
      have : arr (controls.map pow2 ++ ps.map pow2) p = pow2 (controls.getD p 0) := by
        unfold arr
        rw [List.getD_append _ _ _ _ (by simpa using hp')]
        simp [hp']
      rw [this]; rfl
    rw [hoff]
    have hidx : pushApart (fun p => arr (controls.map pow2 ++ ps.map pow2) (controls.length + p)) (ps.map pow2).length
        (ctrlOffset controls x) = Utils.pushApartAux 64 (ps.map pow2) 0 (ctrlOffset controls x) := by
      exact pushApart_aux _ fun i hi => by
        have h1 : i < (ps.map pow2).length := hi
        have h2 : (controls.map pow2).length ≤ controls.length + i := by simp
        have h3 : controls.length + i - (controls.map pow2).length = i := by simp
        unfold arr
        rw [List.getD_append_right _ _ _ _ h2, h3, List.getD_eq_getElem _ _ h1]
    rw [hidx]
    have hz : ∀ c : ℕ → ℂ, zmatrixmul (unit e.rn) c (s x) (s (x ||| 2 ^ t)) =
        ((unit e.rn : ℂ) * (c 0 * s x + c 1 * s (x ||| 2 ^ t)), (unit e.rn : ℂ) * (c 2 * s x + c 3 * s (x ||| 2 ^ t))) := by
      intro c
      exact zmatrixmul_eq _ _ _ _
    rw [hz]
    rfl
  refine ⟨_, rfl, rfl, rfl, fun i hi v idx hv hidx => ?_⟩
  dsimp only
  have hmem : ∀ i, i ∈ l ↔ (i < 2 ^ e.n ∧ i.testBit t = false) := by
    intro i
    rw [hl2]
    simp [MaskClear]
  rw [ucFold_list ht hl1 hmem htc ms (ps.map pow2) val _ _ i hi]
  have h1 := (ctrlOffset_isCtrlValue controls i).unique hv
  have h2 := (ucIndex_isMatrixIndex hps (val := val) (ctrlOffset_isCtrlValue controls i).1 hw)
  rw [h1] at h2
  rw [h1, h2.unique hidx]

/-- `NormalizeState()` with a running norm that is right or marked as unknown, and no amplitude below the floor: the state
is divided by the square root of its total probability, and the running norm is one. -/
theorem normalizeState_unit (hd : d.Ok) (hσ : IsSched2 σ) (hτ : IsSched τ) (old : Bufs) {e : Eng}
    (hf : e.floor ≤ 0) (hr : e.rn = totalProb e.n e.amp ∨ e.rn = -999) (h0 : 0 < totalProb e.n e.amp) :
    ∃ e', normalizeState d σ τ old e (-999) (-999) 0 = some e' ∧ e'.n = e.n ∧ e'.rn = 1 ∧
      totalProb e.n e'.amp = 1 ∧
      ∀ i < 2 ^ e.n, e'.amp i = (1 / Real.sqrt (totalProb e.n e.amp) : ℝ) * e.amp i := by
  -- the state with its running norm
  obtain ⟨e1, h1, h2, h3, h4, h5⟩ : ∃ e1, (if e.rn = -999 ∧ (-999 : ℝ) = -999 then updateRunningNorm d τ e else some e) =
      some e1 ∧ e1.n = e.n ∧ e1.floor = e.floor ∧ SameOn e.n e1.amp e.amp ∧ e1.rn = totalProb e.n e.amp := by
    by_cases hu : e.rn = -999
    · rw [if_pos ⟨hu, rfl⟩]
      obtain ⟨e1, k1, k2, -, k3, -, k4, k5⟩ := updateRunningNorm_total hd hτ hf
      exact ⟨e1, k1, k2, k3, k4, k5⟩
    · rw [if_neg fun h => hu h.1]
      refine ⟨e, rfl, rfl, rfl, fun _ _ => rfl, ?_⟩
      rcases hr with h | h
      · exact h
      · exact absurd h hu
  have key : ∀ a : ℕ → ℂ, (∀ i < 2 ^ e.n, a i = (1 / Real.sqrt (totalProb e.n e.amp) : ℝ) * e.amp i) →
      totalProb e.n a = 1 := by
    intro a ha
    have : totalProb e.n a = (1 / Real.sqrt (totalProb e.n e.amp)) ^ 2 * totalProb e.n e.amp := by
      conv_lhs => unfold totalProb
      conv_rhs => rhs; unfold totalProb
      rw [Finset.mul_sum]
      refine Finset.sum_congr rfl fun i hi => ?_
      rw [ha i (Finset.mem_range.1 hi), Complex.normSq_mul, Complex.normSq_ofReal]
      ring
    rw [this, div_pow, Real.sq_sqrt h0.le]
    field_simp
  unfold normalizeState
  rw [h1, Option.bind_some]
  dsimp only
  rw [if_pos (by norm_num : (-999 : ℝ) < 0), if_neg (by rw [h5]; exact not_le.2 h0)]
  by_cases hone : e1.rn = 1 ∧ (0 : ℝ) = 0
  · rw [if_pos hone]
    have h6 : ∀ i < 2 ^ e.n, e1.amp i = (1 / Real.sqrt (totalProb e.n e.amp) : ℝ) * e.amp i := by
      intro i hi
      rw [h4 i hi, ← h5, hone.1]
      simp
    exact ⟨e1, rfl, h2, hone.1, key _ h6, h6⟩
  rw [if_neg hone, if_pos (by norm_num : (-999 : ℝ) < 0), h2, if_pos (sizes_ok hd e.n)]
  generalize hcx : writeBuf 2 _ old.cx = cx
  have hc0 : (cx 0).re = e1.floor := by rw [← hcx]; simp [writeBuf]
  have hc1 : cx 1 = (1 / Real.sqrt e1.rn : ℝ) := by rw [← hcx]; simp [writeBuf]
  generalize hpl : (if 2 ^ e.n = ngc d (2 ^ e.n) then _ else _ : List (ℕ × ℕ)) = plan
  have hplan : (plan.map Prod.snd).Perm (List.range (2 ^ e.n)) := by
    rw [← hpl]
    split_ifs with hg
    · rw [widePlan_snd, ← hg]
    · exact loopPlan_perm (ngc_pos hd e.n)
  have hp : ((σ plan).map Prod.snd).Perm (List.range (2 ^ e.n)) := ((hσ _).map _).trans hplan
  have h6 : ∀ i < 2 ^ e.n, (σ plan).foldl (fun s p => nrmlzeStep cx s p.2) e1.amp i =
      (1 / Real.sqrt (totalProb e.n e.amp) : ℝ) * e.amp i := by
    intro i hi
    have := cell_fold (hp.nodup_iff.2 List.nodup_range) (fun i => hp.mem_iff.trans List.mem_range)
      (fun _ z => ((1 / Real.sqrt e1.rn : ℝ) : ℂ) * z) (nrmlzeStep cx) (fun s x _ => by
        unfold nrmlzeStep
        have : ¬ Complex.normSq (s x) < (cx 0).re := by
          rw [hc0, h3]
          have := Complex.normSq_nonneg (s x)
          linarith
        dsimp only
        rw [if_neg this, zmul_eq, hc1]) e1.amp i hi
    rw [List.foldl_map] at this
    rw [this, h5, h4 i hi]
  exact ⟨_, rfl, rfl, rfl, key _ h6, h6⟩

/-- A bounded version of the uniform gates' inputs: three of four qubits masked, with gaps, of which one is a control. -/
example : (0b1101 : ℕ) < 2 ^ 4 ∧ maskCount 4 0b1101 0b0111 = 2 ∧ isPowerOfTwo 0b1101 = false ∧
    AllAre true [0, 1] 0b0111 ∧ ([0, 1] ++ [2]).Nodup := by decide

/-- A state whose norm is known not to be one, as `cUniformParityRZ_norm_wrong` needs it. -/
example : totalProb 2 (fun i => if i = 3 then 1 / 2 else 0) ≠ 1 ∧
    Settled ⟨2, fun i => if i = 3 then 1 / 2 else 0, 1 / 4, false, false, 0⟩ := by
  constructor
  · simp [totalProb, Finset.sum_range_succ]; norm_num
  · exact Or.inl rfl

end Verif.Ocl
