import Verif.Lemmas.EngineMask
import Mathlib.Tactic.FieldSimp

/-!
# C07: mask gates are the product of the per-qubit gates

`Spec.maskCount n mask i` counts the qubits of `mask` that are set in the basis state `i`.
-/

namespace Verif.Engine

open Verif.ParFor Verif.Bits Verif.PairFold Verif.Spec Classical

/-- `XMask` flips exactly the masked qubits, for every order in which the loop visits the register. -/
theorem xMask_flips {σ : List ℕ → List ℕ} (hσ : IsSched σ) {e : Eng} (hn : e.n ≤ 64) {mask : ℕ}
    (hm : mask < 2 ^ e.n) :
    ∃ e', xMask σ e mask = some e' ∧ Applies e e' (fun s i => s (i ^^^ mask)) := by
  unfold xMask
  rw [if_neg (by omega)]
  split_ifs with h0 hp
  · exact ⟨e, rfl, rfl, rfl, rfl, rfl, fun i _ => by simp [h0]⟩
  · obtain ⟨l, h1, h2⟩ := isPowerOfTwo_iff hp
    rw [h2]
    have hl : l < e.n := (Nat.pow_lt_pow_iff_right (by norm_num : 1 < 2)).1 (h1 ▸ hm)
    obtain ⟨e', h3, h4⟩ := gateX_applies hσ hn hl
    refine ⟨e', h3, h4.n, h4.rgp, h4.doNorm, h4.floor, fun i hi => ?_⟩
    rw [h4.amp i hi, h1, flipBit]
  · obtain ⟨h1, h2⟩ := plan_for (n := e.n) hσ
    exact ⟨_, rfl, rfl, rfl, rfl, rfl, fun i hi => xMask_fold hm h0 h1 h2 _ i hi⟩

theorem foldl_flip (l : List ℕ) (s : ℕ → ℂ) (i : ℕ) :
    l.foldl (fun s q => fun i => s (flipBit q i)) s i = s (l.foldr (fun q i => flipBit q i) i) := by
  induction l generalizing s i with
  | nil => rfl
  | cons q l ih => rw [List.foldl_cons, ih, List.foldr_cons]

theorem foldr_flip (mask i : ℕ) :
    (maskQubits mask).foldr (fun q i => flipBit q i) i = i ^^^ mask := by
  obtain ⟨hnd, hmem⟩ := maskQubits_spec mask
  have h : ∀ l : List ℕ, l.Nodup → ∀ k,
      (l.foldr (fun q i => flipBit q i) i).testBit k = (i.testBit k ^^ decide (k ∈ l)) := by
    intro l
    induction l with
    | nil => intro _ k; simp
    | cons q l ih =>
      intro hl k
      obtain ⟨h1, h2⟩ := List.nodup_cons.1 hl
      rw [List.foldr_cons, flipBit, Nat.testBit_xor, ih h2, Nat.testBit_two_pow]
      by_cases hk : q = k
      · subst hk; simp [h1]
      · have : k ≠ q := fun h => hk h.symm
        simp [hk, this]
  apply Nat.eq_of_testBit_eq
  intro k
  rw [h _ hnd, Nat.testBit_xor]
  congr 1
  rw [Bool.eq_iff_iff]
  simp [hmem]

/-- The generic `QInterface::XMask` does the same. -/
theorem xMaskDefault_flips {σ : List ℕ → List ℕ} (hσ : IsSched σ) {e : Eng} (hn : e.n ≤ 64)
    {mask : ℕ} (hm : mask < 2 ^ e.n) :
    ∃ e', xMaskDefault σ e mask = some e' ∧ Applies e e' (fun s i => s (i ^^^ mask)) := by
  have hq : ∀ q ∈ maskQubits mask, q < e.n := by
    intro q hq
    by_contra hge
    rw [(maskQubits_spec mask).2, lt_two_pow_iff_testBit.1 hm q (by omega)] at hq
    cases hq
  obtain ⟨e', h1, h2⟩ := foldlM_applies (G := fun e q => gateX σ e q)
    (f := fun q s i => s (flipBit q i)) e.n e.rgp
    (fun e1 q h1 _ h3 => gateX_applies hσ (by omega) (by omega))
    (fun q hq s s' h i hi => h _ (flip_lt hq hi)) (maskQubits mask) hq e rfl rfl
  refine ⟨e', h1, h2.n, h2.rgp, h2.doNorm, h2.floor, fun i hi => ?_⟩
  rw [h2.amp i hi, foldl_flip, foldr_flip]

theorem foldl_sign (l : List ℕ) (s : ℕ → ℂ) (i : ℕ) :
    l.foldl (fun s q => fun i => (if i.testBit q then (-1 : ℂ) else 1) * s i) s i =
      (-1) ^ l.countP (fun q => i.testBit q) * s i := by
  induction l generalizing s with
  | nil => simp
  | cons q l ih =>
    rw [List.foldl_cons, ih, List.countP_cons]
    cases i.testBit q
    · simp
    · simp [pow_succ]

/-- `ZMask` multiplies each amplitude by `-1` to the number of masked qubits that are set. -/
theorem zMask_signs {σ : List ℕ → List ℕ} (hσ : IsSched σ) {e : Eng} (hn : e.n ≤ 64)
    {mask : ℕ} (hm : mask < 2 ^ e.n) :
    ∃ e', zMask σ e mask = some e' ∧
      Applies e e' (fun s i => (-1) ^ maskCount e.n mask i * s i) := by
  have hq : ∀ q ∈ maskQubits mask, q < e.n := by
    intro q hq
    by_contra hge
    rw [(maskQubits_spec mask).2, lt_two_pow_iff_testBit.1 hm q (by omega)] at hq
    cases hq
  have hne : (1 : ℂ) ≠ -1 := by norm_num
  obtain ⟨e', h1, h2⟩ := foldlM_applies (G := fun e q => gateZ σ e q)
    (f := fun q s i => (if i.testBit q then (-1 : ℂ) else 1) * s i) e.n e.rgp
    (fun e1 q h1 _ h3 => phase_applies hσ (by omega) (by omega) (Or.inl hne))
    (fun q hq s s' h i hi => by simp only [h i hi]) (maskQubits mask) hq e rfl rfl
  refine ⟨e', h1, h2.n, h2.rgp, h2.doNorm, h2.floor, fun i hi => ?_⟩
  rw [h2.amp i hi, foldl_sign, maskCount_eq_countP hm]

theorem maskCount_compl {n mask i : ℕ} :
    maskCount n mask (i ^^^ mask) + maskCount n mask i = maskCount n mask mask := by
  unfold maskCount
  rw [← Finset.card_union_of_disjoint]
  · congr 1
    ext k
    simp only [Finset.mem_union, Finset.mem_filter, Nat.testBit_xor]
    cases mask.testBit k <;> cases i.testBit k <;> simp
  · rw [Finset.disjoint_left]
    intro k
    simp only [Finset.mem_filter, Nat.testBit_xor]
    cases mask.testBit k <;> cases i.testBit k <;> simp

theorem parity4_eq {n mask : ℕ} (hm : mask < 2 ^ n) : parity4 mask = maskCount n mask mask % 4 := by
  rw [parity4, maskCount_eq_countP hm, List.countP_eq_length.2]
  intro q hq
  exact ((maskQubits_spec mask).2 q).1 hq

theorem I_pow_mod (k : ℕ) : Complex.I ^ k = Complex.I ^ (k % 4) := Complex.I_pow_eq_pow_mod k

/-- `YMask` is Pauli Y on each masked qubit: the amplitude of `i` becomes the product, over the masked
qubits, of `I` for a set bit and `-I` for a clear bit (that is, `(-I)^k (-1)^c`), times the amplitude
of `i` with the masked qubits flipped. When the engine is allowed to drop global phases
(`randGlobalPhase`) it is so up to one unit factor. -/
theorem yMask_ys {σ : List ℕ → List ℕ} (hσ : IsSched σ) {e : Eng} (hn : e.n ≤ 64)
    {mask : ℕ} (h0 : mask ≠ 0) (hm : mask < 2 ^ e.n) :
    ∃ e' ω, yMask σ e mask = some e' ∧ (e.rgp = false → ω = 1) ∧ Complex.normSq ω = 1 ∧
      Applies e e' (fun s i => ω * ((-Complex.I) ^ maskCount e.n mask mask *
        (-1) ^ maskCount e.n mask i * s (i ^^^ mask))) := by
  have hn0 : 0 < e.n := by
    rcases Nat.eq_zero_or_pos e.n with h | h
    · rw [h] at hm; omega
    · exact h
  unfold yMask
  by_cases hp : 2 ^ Nat.log2 mask = mask
  · rw [if_pos hp]
    set l := Nat.log2 mask with hl
    have hln : l < e.n := (Nat.pow_lt_pow_iff_right (by norm_num : 1 < 2)).1 (hp ▸ hm)
    obtain ⟨e', h1, h2⟩ := gateY_applies hσ hn hln
    refine ⟨e', 1, h1, fun _ => rfl, by simp, h2.n, h2.rgp, h2.doNorm, h2.floor, fun i hi => ?_⟩
    rw [h2.amp i hi, ← hp, maskCount_two_pow hln, maskCount_two_pow hln, Nat.testBit_two_pow_self,
      flipBit]
    cases i.testBit l <;> simp
  · rw [if_neg hp]
    obtain ⟨e1, h1, h2⟩ := zMask_signs hσ hn hm
    obtain ⟨e2, h3, h4⟩ := xMask_flips hσ (e := e1) (by rw [h2.n]; exact hn) (mask := mask)
      (by rw [h2.n]; exact hm)
    rw [h1, Option.bind_some, h3, Option.bind_some]
    set k := maskCount e.n mask mask with hk
    have hx : ∀ i < 2 ^ e.n, e2.amp i = (-1) ^ k * (-1) ^ maskCount e.n mask i * e.amp (i ^^^ mask) := by
      intro i hi
      rw [h4.amp i (by rw [h2.n]; exact hi), h2.amp _ (Nat.xor_lt_two_pow hi hm), hk,
        ← maskCount_compl (i := i), pow_add]
      have hsq : ((-1 : ℂ) ^ maskCount e.n mask i) * (-1) ^ maskCount e.n mask i = 1 := by
        rw [← pow_add, ← two_mul, pow_mul]; norm_num
      linear_combination (-(-1 : ℂ) ^ maskCount e.n mask (i ^^^ mask) * e.amp (i ^^^ mask)) * hsq
    have hI : (-Complex.I) ^ k = Complex.I ^ k * (-1) ^ k := by
      rw [← mul_pow]; congr 1; ring
    by_cases hr : e2.rgp = true
    · rw [if_pos hr]
      refine ⟨e2, (-Complex.I) ^ k, rfl, ?_, by simp, ?_⟩
      · intro h; rw [h4.rgp, h2.rgp, h] at hr; cases hr
      · refine ⟨by rw [h4.n, h2.n], by rw [h4.rgp, h2.rgp], by rw [h4.doNorm, h2.doNorm],
          by rw [h4.floor, h2.floor], fun i hi => ?_⟩
        rw [hx i hi]
        have : (-Complex.I) ^ k * (-Complex.I) ^ k = (-1) ^ k := by
          rw [← mul_pow]; congr 1; simp
        linear_combination -((-1) ^ maskCount e.n mask i * e.amp (i ^^^ mask)) * this
    · rw [if_neg hr]
      have hrf : e2.rgp = false := by simpa using hr
      rw [parity4_eq hm, ← hk]
      have hph : ∀ z : ℂ, ∃ e', phase σ e2 z z 0 = some e' ∧ Applies e2 e' (fun s i => z * s i) := by
        intro z
        obtain ⟨e', h5, h6⟩ := phase_applies hσ (e := e2) (by rw [h4.n, h2.n]; exact hn) (q := 0)
          (by rw [h4.n, h2.n]; exact hn0) (tl := z) (br := z) (Or.inr hrf)
        exact ⟨e', h5, h6.n, h6.rgp, h6.doNorm, h6.floor, fun i hi => by rw [h6.amp i hi]; simp⟩
      have fin : ∀ (z : ℂ) (e' : Eng), z = Complex.I ^ k → Applies e2 e' (fun s i => z * s i) →
          Applies e e' (fun s i => 1 * ((-Complex.I) ^ k *
            (-1) ^ maskCount e.n mask i * s (i ^^^ mask))) := by
        intro z e' hz h
        refine ⟨by rw [h.n, h4.n, h2.n], by rw [h.rgp, h4.rgp, h2.rgp],
          by rw [h.doNorm, h4.doNorm, h2.doNorm], by rw [h.floor, h4.floor, h2.floor], fun i hi => ?_⟩
        rw [h.amp i (by rw [h4.n, h2.n]; exact hi), hx i hi, hz, hI]
        ring
      have hk4 : k % 4 < 4 := Nat.mod_lt _ (by norm_num)
      rw [I_pow_mod] at fin
      split_ifs with c1 c2 c3
      · obtain ⟨e', h5, h6⟩ := hph Complex.I
        exact ⟨e', 1, h5, fun _ => rfl, by simp, fin _ e' (by rw [c1]; simp) h6⟩
      · obtain ⟨e', h5, h6⟩ := hph (-1)
        exact ⟨e', 1, h5, fun _ => rfl, by simp, fin _ e' (by rw [c2]; simp) h6⟩
      · obtain ⟨e', h5, h6⟩ := hph (-Complex.I)
        exact ⟨e', 1, h5, fun _ => rfl, by simp, fin _ e' (by rw [c3]; simp) h6⟩
      · refine ⟨e2, 1, rfl, fun _ => rfl, by simp, fin 1 e2 ?_ ⟨rfl, rfl, rfl, rfl, fun i _ => by simp⟩⟩
        have : k % 4 = 0 := by omega
        rw [this]; simp

/-- The factor of a parity rotation. -/
noncomputable def parityFactor (θ : ℝ) (c : ℕ) : ℂ :=
  Complex.exp (Complex.I * (if c % 2 = 1 then θ else -θ))

theorem parityFactor_cos (θ : ℝ) (c : ℕ) : parityFactor θ c =
    if c % 2 = 1 then ⟨Real.cos θ, Real.sin θ⟩ else ⟨Real.cos θ, -Real.sin θ⟩ := by
  unfold parityFactor
  split_ifs
  · rw [mul_comm, Complex.exp_mul_I]
    apply Complex.ext <;> simp [← Complex.ofReal_cos, ← Complex.ofReal_sin]
  · rw [mul_comm, Complex.exp_mul_I]
    apply Complex.ext <;> simp [← Complex.ofReal_cos, ← Complex.ofReal_sin]

theorem par_maskCount {n mask i : ℕ} (hn : n ≤ 64) (hm : mask < 2 ^ n) :
    parityBit (i &&& mask) ≠ 0 ↔ maskCount n mask i % 2 = 1 := by
  have hlt : i &&& mask < 2 ^ n := lt_of_le_of_lt Nat.and_le_right hm
  rw [parityBit_eq, par_popCount, popCount_ge hlt hn, popCount_and]
  by_cases h : maskCount n mask i % 2 = 1 <;> simp [h]

/-- `PhaseParity(θ, mask)` multiplies an amplitude by `e^{iθ/2}` when an odd number of masked qubits
is set and by `e^{-iθ/2}` otherwise. (A power-of-two mask goes through `Phase`, which may skip the
gate when both factors are equal and global phases are dropped.) -/
theorem phaseParity_factor {σ : List ℕ → List ℕ} (hσ : IsSched σ) {e : Eng} (hn : e.n ≤ 64)
    {mask : ℕ} (h0 : mask ≠ 0) (hm : mask < 2 ^ e.n) (θ : ℝ)
    (hr : e.rgp = false ∨ isPowerOfTwo mask = false ∨ Real.sin (θ / 2) ≠ 0) :
    ∃ e', phaseParity σ e θ mask = some e' ∧
      Applies e e' (fun s i => parityFactor (θ / 2) (maskCount e.n mask i) * s i) := by
  unfold phaseParity
  rw [if_neg (by omega), if_neg h0]
  split_ifs with hp
  · obtain ⟨l, h1, h2⟩ := isPowerOfTwo_iff hp
    rw [h2]
    have hl : l < e.n := (Nat.pow_lt_pow_iff_right (by norm_num : 1 < 2)).1 (h1 ▸ hm)
    set f := Complex.exp (((θ / 2 : ℝ) : ℂ) * Complex.I) with hf
    have hinv : 1 / f = Complex.exp (Complex.I * ((-(θ / 2) : ℝ) : ℂ)) := by
      rw [hf, one_div, ← Complex.exp_neg]; congr 1; push_cast; ring
    have hne : 1 / f ≠ f ∨ e.rgp = false := by
      rcases hr with h | h | h
      · exact Or.inr h
      · rw [hp] at h; cases h
      · left
        intro hE
        have h3 := congrArg Complex.im hE
        rw [hinv, hf, mul_comm Complex.I, Complex.exp_ofReal_mul_I_im,
          Complex.exp_ofReal_mul_I_im, Real.sin_neg] at h3
        exact h (by linarith)
    obtain ⟨e', h3, h4⟩ := phase_applies hσ hn hl hne
    refine ⟨e', h3, h4.n, h4.rgp, h4.doNorm, h4.floor, fun i hi => ?_⟩
    rw [h4.amp i hi, h1, maskCount_two_pow hl, parityFactor, hinv, hf]
    cases i.testBit l
    · simp
    · simp [mul_comm]
  · obtain ⟨h1, h2⟩ := plan_for (n := e.n) hσ
    refine ⟨_, rfl, rfl, rfl, rfl, rfl, fun i hi => ?_⟩
    dsimp only
    rw [cell_fold h1 h2 (fun x z => parityFactor (θ / 2) (maskCount e.n mask x) * z) _ _ _ i hi]
    intro s x hx
    unfold phaseParityStep
    dsimp only
    rw [(and_or_other hm hx).1, parityFactor_cos]
    have := par_maskCount (i := x) hn hm
    by_cases hc : maskCount e.n mask x % 2 = 1
    · rw [if_pos (this.2 hc), if_pos hc]
    · rw [if_neg (fun h => hc (this.1 h)), if_neg hc]

/-- A mask beyond the register is rejected. -/
theorem mask_invalid {σ : List ℕ → List ℕ} {e : Eng} {mask : ℕ} (hm : 2 ^ e.n ≤ mask) (θ : ℝ) :
    xMask σ e mask = none ∧ phaseParity σ e θ mask = none := by
  simp [xMask, phaseParity, hm]

theorem popCountOcl_maskCount {cpp20 : Bool} {n mask i : ℕ} (hn : n ≤ 64) (hm : mask < 2 ^ n)
    (h32 : cpp20 = true ∨ mask < 2 ^ 32) :
    popCountOcl cpp20 (i &&& mask) = maskCount n mask i := by
  have hlt : i &&& mask < 2 ^ n := lt_of_le_of_lt Nat.and_le_right hm
  unfold popCountOcl
  cases cpp20 with
  | true => simp only [if_true]; rw [popCount_ge hlt hn, popCount_and]
  | false =>
    rcases h32 with h | h
    · cases h
    · have hlt' : i &&& mask < 2 ^ 32 := lt_of_le_of_lt Nat.and_le_right h
      simp only [Bool.false_eq_true, if_false]
      rcases le_total n 32 with hle | hle
      · rw [popCount_ge hlt hle, popCount_and]
      · rw [← popCount_ge hlt' hle, popCount_and]

theorem and_one_ne (c : ℕ) : (c &&& 1 ≠ 0) ↔ c % 2 = 1 := by
  rw [Nat.and_one_is_mod]; omega

/-- `UniformParityRZ` is the parity rotation by `e^{±iθ}`, provided set bits are counted in 64 bits or
the mask lies in the low 32 qubits. Missing: masks above qubit 31 with the pre-C++20 popcount, for
which it is false (`popCount_wrong`). -/
theorem uniformParityRZ_partial {cpp20 : Bool} {σ : List ℕ → List ℕ} (hσ : IsSched σ) {e : Eng}
    (hn : e.n ≤ 64) {mask : ℕ} (hm : mask < 2 ^ e.n) (h32 : cpp20 = true ∨ mask < 2 ^ 32) (θ : ℝ) :
    ∃ e', uniformParityRZ cpp20 σ e mask θ = some e' ∧
      Applies e e' (fun s i => parityFactor θ (maskCount e.n mask i) * s i) := by
  unfold uniformParityRZ
  rw [if_neg (by omega)]
  obtain ⟨h1, h2⟩ := plan_for (n := e.n) hσ
  refine ⟨_, rfl, rfl, rfl, rfl, rfl, fun i hi => ?_⟩
  dsimp only
  rw [cell_fold h1 h2 (fun x z => parityFactor θ (maskCount e.n mask x) * z) _ _ _ i hi]
  intro s x hx
  rw [parityFactor_cos, popCountOcl_maskCount hn hm h32, mul_comm]
  simp only [and_one_ne]

/-- With the default C++14 build the popcount is 32 bits wide, and `UniformParityRZ` on qubits 32 and
up acts on every basis state as if the masked qubits were clear. -/
theorem popCount_wrong : ∃ e : Eng, e.n ≤ 64 ∧ ∃ mask, mask < 2 ^ e.n ∧ ∃ (θ : ℝ) (e' : Eng),
    uniformParityRZ false id e mask θ = some e' ∧
    ¬ Applies e e' (fun s i => parityFactor θ (maskCount e.n mask i) * s i) := by
  refine ⟨⟨33, fun _ => 1, 1, false, false, 0⟩, by norm_num, 2 ^ 32, by norm_num, Real.pi / 2, ?_⟩
  unfold uniformParityRZ
  rw [if_neg (by norm_num)]
  refine ⟨_, rfl, fun h => ?_⟩
  have hi : (2 : ℕ) ^ 32 < 2 ^ 33 := by norm_num
  have ha := h.amp (2 ^ 32) hi
  obtain ⟨h1, h2⟩ := plan_for (n := 33) (σ := id) (fun l => List.Perm.refl l)
  dsimp only at ha
  rw [cell_fold h1 h2 (fun x z => z * if popCountOcl false (x &&& 2 ^ 32) &&& 1 ≠ 0 then
    (⟨Real.cos (Real.pi / 2), Real.sin (Real.pi / 2)⟩ : ℂ) else
    ⟨Real.cos (Real.pi / 2), -Real.sin (Real.pi / 2)⟩) _ (fun s x _ => rfl) _ _ hi] at ha
  have hp : popCountOcl false (2 ^ 32 &&& 2 ^ 32) = 0 := by decide
  rw [hp, maskCount_two_pow (by norm_num : 32 < 33), Nat.testBit_two_pow_self, parityFactor_cos] at ha
  have := congrArg Complex.im ha
  norm_num at this

/-- The `PhaseRootNMask` factor: `-2π/2^n` for each masked qubit that is set (`n ≥ 2`; `n = 1` is
`ZMask`). Same popcount restriction as `uniformParityRZ_partial`; from `n = 64` on the code shifts by
more than the word size. -/
theorem phaseRootNMask_partial {cpp20 : Bool} {σ : List ℕ → List ℕ} (hσ : IsSched σ) {e : Eng}
    (hn : e.n ≤ 64) {mask : ℕ} (hm : mask < 2 ^ e.n) (h32 : cpp20 = true ∨ mask < 2 ^ 32)
    {n : ℕ} (hn1 : 1 ≤ n) (hn2 : n < 64) :
    ∃ e', phaseRootNMask cpp20 σ e n mask = some e' ∧
      Applies e e' (fun s i =>
        Complex.exp (((-2 * Real.pi / 2 ^ n * maskCount e.n mask i : ℝ) : ℂ) * Complex.I) * s i) := by
  unfold phaseRootNMask
  rw [if_neg (by omega)]
  by_cases h0 : mask = 0
  · subst h0
    rw [if_pos (Or.inr rfl)]
    refine ⟨e, rfl, rfl, rfl, rfl, rfl, fun i hi => ?_⟩
    simp [maskCount]
  rw [if_neg (by omega)]
  obtain ⟨d, rfl⟩ := Nat.exists_eq_add_of_le' hn1
  by_cases hd : d = 0
  · subst hd
    rw [if_pos rfl]
    obtain ⟨e', h1, h2⟩ := zMask_signs hσ hn hm
    refine ⟨e', h1, h2.n, h2.rgp, h2.doNorm, h2.floor, fun i hi => ?_⟩
    rw [h2.amp i hi]
    congr 1
    have : ((-2 * Real.pi / 2 ^ (0 + 1) * (maskCount e.n mask i) : ℝ) : ℂ) * Complex.I =
        (maskCount e.n mask i : ℂ) * (-(Real.pi * Complex.I)) := by push_cast; ring
    rw [this, Complex.exp_nat_mul, Complex.exp_neg, Complex.exp_pi_mul_I]
    norm_num
  rw [if_neg (by omega), if_neg (by omega)]
  have hrad : (-Real.pi / 2 ^ (d + 1 - 1) : ℝ) = -2 * Real.pi / 2 ^ (d + 1) := by
    rw [Nat.add_sub_cancel, pow_succ]; field_simp
  rw [hrad]
  dsimp only
  set r : ℝ := -2 * Real.pi / 2 ^ (d + 1) with hr
  by_cases hp : isPowerOfTwo mask = true
  · rw [if_pos hp]
    obtain ⟨l, h1, h2⟩ := isPowerOfTwo_iff hp
    rw [h2]
    have hl : l < e.n := (Nat.pow_lt_pow_iff_right (by norm_num : 1 < 2)).1 (h1 ▸ hm)
    have hne : (1 : ℂ) ≠ Complex.exp ((r : ℂ) * Complex.I) := by
      intro hE
      obtain ⟨z, hz⟩ := Complex.exp_eq_one_iff.1 hE.symm
      have hpi : (Real.pi : ℂ) ≠ 0 := by exact_mod_cast Real.pi_ne_zero
      have hz' : ((-1 : ℝ) : ℂ) = ((z * 2 ^ (d + 1) : ℝ) : ℂ) := by
        rw [hr] at hz
        push_cast at hz ⊢
        field_simp at hz
        linear_combination hz
      have hz2 : (-1 : ℝ) = z * 2 ^ (d + 1) := by exact_mod_cast hz'
      have hz3 : (-1 : ℤ) = z * 2 ^ (d + 1) := by exact_mod_cast hz2
      rw [pow_succ] at hz3
      have : (-1 : ℤ) = 2 * (z * 2 ^ d) := by rw [hz3]; ring
      omega
    obtain ⟨e', h3, h4⟩ := phase_applies hσ hn hl (Or.inl hne)
    refine ⟨e', h3, h4.n, h4.rgp, h4.doNorm, h4.floor, fun i hi => ?_⟩
    rw [h4.amp i hi, h1, maskCount_two_pow hl]
    cases i.testBit l <;> simp
  · rw [if_neg hp, if_neg (by omega)]
    obtain ⟨h1, h2⟩ := plan_for (n := e.n) hσ
    refine ⟨_, rfl, rfl, rfl, rfl, rfl, fun i hi => ?_⟩
    dsimp only
    rw [cell_fold h1 h2 (fun x z => Complex.exp (((r * maskCount e.n mask x : ℝ) : ℂ) * Complex.I) * z)
      _ _ _ i hi]
    intro s x hx
    rw [popCountOcl_maskCount hn hm h32]
    set c := maskCount e.n mask x
    have hper : Complex.exp (((r * (c % 2 ^ (d + 1) : ℕ) : ℝ) : ℂ) * Complex.I) =
        Complex.exp (((r * c : ℝ) : ℂ) * Complex.I) := by
      rw [Complex.exp_eq_exp_iff_exists_int]
      refine ⟨((c / 2 ^ (d + 1) : ℕ) : ℤ), ?_⟩
      have hc : ((c % 2 ^ (d + 1) : ℕ) : ℂ) = (c : ℂ) - 2 ^ (d + 1) * ((c / 2 ^ (d + 1) : ℕ) : ℂ) := by
        have := Nat.mod_add_div c (2 ^ (d + 1))
        have h3 : ((c % 2 ^ (d + 1) + 2 ^ (d + 1) * (c / 2 ^ (d + 1)) : ℕ) : ℂ) = (c : ℂ) := by rw [this]
        push_cast at h3 ⊢
        linear_combination h3
      rw [hr]
      generalize c % 2 ^ (d + 1) = u at hc ⊢
      generalize c / 2 ^ (d + 1) = w at hc ⊢
      push_cast
      rw [hc]
      field_simp
      ring
    split_ifs with hs
    · rw [hper]
    · have : c % 2 ^ (d + 1) = 0 := by simpa using hs
      rw [← hper, this]
      simp

/-- A non-trivial instance: three masked qubits out of four, with gaps. -/
example : (0b1101 : ℕ) < 2 ^ 4 ∧ maskCount 4 0b1101 0b0111 = 2 ∧ 0b0111 ^^^ 0b1101 = 0b1010 ∧
    isPowerOfTwo 0b1101 = false := by decide

end Verif.Engine
