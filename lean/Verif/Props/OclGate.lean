import Verif.Lemmas.OclGate
import Verif.Props.EngineUnitary
import Verif.Props.EngineSwap

/-!
# C60: the gates of the OpenCL engine

Specification: `Verif/Spec/Gate.lean`, the same as for `QEngineCPU`. In every theorem the device `d` is any
that `SetDevice` can produce, `σ` and `τ` are arbitrary schedules of the work-items of a launch and of the rounds of a
reduction, and `old` is whatever earlier calls left in the argument buffers.
-/

namespace Verif.Ocl

open Verif.Engine Verif.Bits Verif.ParFor Verif.Spec Classical

variable {d : Dev} {σ : List (ℕ × ℕ) → List (ℕ × ℕ)} {τ : List ℕ → List ℕ}

/-- The engine leaves the state alone: a multiple of the identity, and global phases do not matter, or the identity. -/
def Skipped (rgp : Bool) (m : M2) : Prop := m.b = 0 ∧ m.c = 0 ∧ m.a = m.d ∧ (m.a = 1 ∨ rgp = true)

theorem isIdentity_iff {rgp : Bool} {m : M2} : isIdentity rgp m false = true ↔ Skipped rgp m := by
  refine ⟨isIdentity_plain, fun ⟨h1, h2, h3, h4⟩ => ?_⟩
  unfold isIdentity
  rw [if_neg (by simp [h3, M2.isPhase, h1, h2]), if_neg]
  rcases h4 with h | h <;> simp [h]

/-- `Mtrx`: the amplitudes are those of the operator `m ⊗ 1`, times `1/√runningNorm` when a normalisation is pending;
and `runningNorm` is recomputed, or reset to 1, accordingly. -/
theorem mtrx_gate (hd : d.Ok) (hσ : IsSched2 σ) (hτ : IsSched τ) (old : Bufs) {e : Eng} (hn : e.n ≤ 64) (m : M2) {q : ℕ}
    (hq : q < e.n) :
    ∃ e', mtrx d σ τ old e m q = some e' ∧ e'.n = e.n ∧ e'.doNorm = e.doNorm ∧ e'.floor = e.floor ∧ e'.rgp = e.rgp ∧
      (Skipped e.rgp m → e' = e) ∧
      (¬ Skipped e.rgp m →
        (∀ i < 2 ^ e.n, e'.amp i = (if e.doNorm = true ∧ 0 < e.rn then ((1 / Real.sqrt e.rn : ℝ) : ℂ) else 1) *
          gate (fun _ => True) q m.a m.b m.c m.d e.amp i) ∧
        e'.rn = if e.doNorm = false then e.rn
          else if m.isPhase ∨ m.isInvert then (if 0 < e.rn then 1 else e.rn)
          else totalProb e.n e'.amp) := by
  unfold mtrx
  by_cases hid : isIdentity e.rgp m false = true
  · rw [if_pos hid]
    exact ⟨e, rfl, rfl, rfl, rfl, rfl, fun _ => rfl, fun h => absurd (isIdentity_iff.1 hid) h⟩
  · rw [if_neg hid]
    obtain ⟨e', h1, h2, h3, h4, h5, h6, h7⟩ := apply_single hd hσ hτ old hn hq m
      (e.doNorm && !decide (m.isPhase ∨ m.isInvert)) .none (-999) (fun _ => rfl) trivial
    refine ⟨e', h1, h2, h3, h4, h5, fun h => absurd (isIdentity_iff.2 h) hid, fun _ => ⟨fun i hi => ?_, ?_⟩⟩
    · rw [h6 i hi, scale]
      unfold NormOn
      by_cases hc : e.doNorm = true ∧ 0 < e.rn
      · rw [if_pos ⟨hc.1, rfl, hc.2⟩, if_pos hc]
      · rw [if_neg (fun h => hc ⟨h.1, h.2.2⟩), if_neg hc, Complex.ofReal_one]
    · rw [h7]
      unfold NormOn
      cases hdn : e.doNorm
      · simp
      · by_cases hpi : m.isPhase ∨ m.isInvert
        · simp [hpi]
        · by_cases hr : 0 < e.rn
          · simp [hpi, hr]
          · simp [hpi, not_lt.1 hr]

/-- Without normalisation, or with nothing pending, this is the operator `m ⊗ 1`. -/
theorem mtrx_gate_plain (hd : d.Ok) (hσ : IsSched2 σ) (hτ : IsSched τ) (old : Bufs) {e : Eng} (hn : e.n ≤ 64) (m : M2)
    {q : ℕ} (hq : q < e.n) (h1 : e.doNorm = false ∨ e.rn = 1) (hm : ¬ Dropped e.rgp m) :
    ∃ e', mtrx d σ τ old e m q = some e' ∧ SameOn e.n e'.amp (gate (fun _ => True) q m.a m.b m.c m.d e.amp) := by
  obtain ⟨e', k1, -, -, -, -, k2, k3⟩ := mtrx_gate hd hσ hτ old hn m hq
  refine ⟨e', k1, fun i hi => ?_⟩
  by_cases hs : Skipped e.rgp m
  · rw [k2 hs]
    obtain ⟨a1, a2, a3, a4 | a4⟩ := hs
    · rw [a1, a2, ← a3, a4, gate_id]
    · exact absurd ⟨a4, a1, a2, a3⟩ hm
  · rw [(k3 hs).1 i hi]
    rcases h1 with h | h
    · simp [h]
    · rw [h]; simp

/-- The two engines agree on uncontrolled gates as long as nothing is pending. -/
theorem mtrx_engines_agree (hd : d.Ok) (hσ : IsSched2 σ) (hτ : IsSched τ) (old : Bufs) {σ' : List ℕ → List ℕ}
    (hσ' : IsSched σ') {e : Eng} (hn : e.n ≤ 64) (m : M2) {q : ℕ} (hq : q < e.n) (h1 : e.doNorm = false) :
    ∃ e' f, mtrx d σ τ old e m q = some e' ∧ Verif.Engine.mtrx σ' e m q = some f ∧ SameOn e.n e'.amp f.amp ∧
      e'.rn = f.rn := by
  obtain ⟨e', k1, -, -, -, -, k2, k3⟩ := mtrx_gate hd hσ hτ old hn m hq
  obtain ⟨f, j1, -, j2, -, -, -, j3, -⟩ := Verif.Engine.mtrx_gate hσ' hn (m := m) (Or.inl h1) hq
  refine ⟨e', f, k1, j1, ?_, ?_⟩
  · by_cases hs : Skipped e.rgp m
    · rw [k2 hs]
      have : Verif.Engine.mtrx σ' e m q = some e := by
        unfold Verif.Engine.mtrx
        rw [if_pos (isIdentity_iff.2 hs)]
      rw [this] at j1
      cases j1
      exact fun i _ => rfl
    · intro i hi
      rw [(k3 hs).1 i hi, j3 _ i hi]
      · simp [h1]
      · rintro ⟨a1, a2, a3, a4⟩
        exact hs ⟨a2, a3, a4, Or.inr a1⟩
  · rw [j2 h1]
    by_cases hs : Skipped e.rgp m
    · rw [k2 hs]
    · rw [(k3 hs).2, if_pos h1]

/-- The promise of `include/qengine.hpp:36-37` holds here: a unitary gate keeps `runningNorm` equal to the total
probability (for `QEngineCPU` it does not, `Verif.Engine.runningNorm_wrong`). -/
theorem runningNorm_right (hd : d.Ok) (hσ : IsSched2 σ) (hτ : IsSched τ) (old : Bufs) {e : Eng} (hn : e.n ≤ 64) {m : M2}
    (hm : m.IsUnitary) {q : ℕ} (hq : q < e.n) (hr : e.rn = totalProb e.n e.amp) (hpos : 0 < e.rn) :
    ∃ e', mtrx d σ τ old e m q = some e' ∧ e'.rn = totalProb e.n e'.amp := by
  obtain ⟨e', k1, -, -, -, -, k2, k3⟩ := mtrx_gate hd hσ hτ old hn m hq
  refine ⟨e', k1, ?_⟩
  by_cases hs : Skipped e.rgp m
  · rw [k2 hs, hr]
  obtain ⟨ka, kr⟩ := k3 hs
  have hg : totalProb e.n (gate (fun _ => True) q m.a m.b m.c m.d e.amp) = totalProb e.n e.amp := by
    have := gate_inner hq (p := fun _ => True) (fun _ => Iff.rfl) hm e.amp e.amp
    rw [← totalProb_eq_inner, ← totalProb_eq_inner] at this
    exact_mod_cast this
  have hsc : ∀ r : ℝ, totalProb e.n (fun i => (r : ℂ) * gate (fun _ => True) q m.a m.b m.c m.d e.amp i) =
      r ^ 2 * totalProb e.n e.amp := by
    intro r
    rw [← hg]
    unfold totalProb
    rw [Finset.mul_sum]
    refine Finset.sum_congr rfl fun i _ => ?_
    rw [Complex.normSq_mul, Complex.normSq_ofReal]; ring
  cases hdn : e.doNorm
  · rw [hdn] at ka kr
    rw [kr, if_pos rfl, hr, totalProb_congr (s := e'.amp) (s' := fun i => ((1 : ℝ) : ℂ) *
      gate (fun _ => True) q m.a m.b m.c m.d e.amp i) (fun i hi => by rw [ka i hi]; simp), hsc]
    simp
  · rw [hdn] at ka kr
    rw [kr, if_neg (by simp)]
    by_cases hpi : m.isPhase ∨ m.isInvert
    · rw [if_pos hpi, if_pos hpos, totalProb_congr (s := e'.amp) (s' := fun i => ((1 / Real.sqrt e.rn : ℝ) : ℂ) *
        gate (fun _ => True) q m.a m.b m.c m.d e.amp i) (fun i hi => by rw [ka i hi, if_pos ⟨rfl, hpos⟩]), hsc, ← hr,
        div_pow, Real.sq_sqrt hpos.le, one_pow, one_div, inv_mul_cancel₀ hpos.ne']
    · rw [if_neg hpi]

/-- `X`, `Z`: the kernels for Pauli gates, or, when a normalisation is pending, the general kernel. -/
theorem gateX_flips (hd : d.Ok) (hσ : IsSched2 σ) (hτ : IsSched τ) (old : Bufs) {e : Eng} (hn : e.n ≤ 64) {q : ℕ}
    (hq : q < e.n) : ∃ e', gateX d σ τ old e q = some e' ∧ e'.n = e.n ∧ e'.doNorm = e.doNorm ∧ e'.floor = e.floor ∧
      e'.rgp = e.rgp ∧ (∀ i < 2 ^ e.n, e'.amp i = scale e 1 * e.amp (flipBit q i)) ∧
      e'.rn = if NormOn e 1 then 1 else e.rn := by
  obtain ⟨e', h1, h2, h3, h4, h5, h6, h7⟩ := apply_single hd hσ hτ old hn hq ⟨0, 1, 1, 0⟩ false .pauliX (-999)
    (by simp) ⟨rfl, rfl, rfl⟩
  refine ⟨e', h1, h2, h3, h4, h5, fun i hi => ?_, by simpa using h7⟩
  rw [h6 i hi]
  congr 1
  unfold gate
  cases i.testBit q <;> simp

theorem gateZ_signs (hd : d.Ok) (hσ : IsSched2 σ) (hτ : IsSched τ) (old : Bufs) {e : Eng} (hn : e.n ≤ 64) {q : ℕ}
    (hq : q < e.n) : ∃ e', gateZ d σ τ old e q = some e' ∧ e'.n = e.n ∧ e'.doNorm = e.doNorm ∧ e'.floor = e.floor ∧
      e'.rgp = e.rgp ∧ (∀ i < 2 ^ e.n, e'.amp i = scale e 1 * ((if i.testBit q then -1 else 1) * e.amp i)) ∧
      e'.rn = if NormOn e 1 then 1 else e.rn := by
  obtain ⟨e', h1, h2, h3, h4, h5, h6, h7⟩ := apply_single hd hσ hτ old hn hq ⟨1, 0, 0, -1⟩ false .pauliZ (-999)
    (by simp) ⟨rfl, rfl, rfl⟩
  refine ⟨e', h1, h2, h3, h4, h5, fun i hi => ?_, by simpa using h7⟩
  rw [h6 i hi]
  congr 1
  unfold gate
  cases i.testBit q <;> simp

/-- `Invert`: the antidiagonal gate, up to the factor `tr` when global phases do not matter and both entries are equal. -/
theorem invert_gate (hd : d.Ok) (hσ : IsSched2 σ) (hτ : IsSched τ) (old : Bufs) {e : Eng} (hn : e.n ≤ 64) (tr bl : ℂ)
    {q : ℕ} (hq : q < e.n) :
    ∃ e' ω, invert d σ τ old e tr bl q = some e' ∧ e'.n = e.n ∧ (ω = 1 ∨ (e.rgp = true ∧ tr = bl ∧ ω = tr)) ∧
      (∀ i < 2 ^ e.n, ω * e'.amp i = scale e 1 * gate (fun _ => True) q 0 tr bl 0 e.amp i) ∧
      e'.rn = if NormOn e 1 then 1 else e.rn := by
  unfold invert
  by_cases hc : (e.rgp = true ∨ 1 - tr = 0) ∧ tr - bl = 0
  · rw [if_pos hc]
    obtain ⟨e', h1, h2, -, -, -, h6, h7⟩ := gateX_flips hd hσ hτ old hn hq
    obtain ⟨hc1, hc2⟩ := hc
    have heq : tr = bl := sub_eq_zero.1 hc2
    refine ⟨e', tr, h1, h2, ?_, fun i hi => ?_, h7⟩
    · rcases hc1 with h | h
      · exact Or.inr ⟨h, heq, rfl⟩
      · exact Or.inl (sub_eq_zero.1 h).symm
    · rw [h6 i hi, ← heq]
      unfold gate
      cases i.testBit q <;> simp <;> ring
  · rw [if_neg hc]
    obtain ⟨e', h1, h2, -, -, -, h6, h7⟩ := apply_single hd hσ hτ old hn hq ⟨0, tr, bl, 0⟩ false .invert (-999)
      (by simp) ⟨rfl, rfl, rfl, rfl⟩
    exact ⟨e', 1, h1, h2, Or.inl rfl, fun i hi => by rw [h6 i hi, one_mul], by simpa using h7⟩

/-- `Phase`: the diagonal gate, up to one factor when global phases do not matter; the identity is skipped. -/
theorem phase_gate (hd : d.Ok) (hσ : IsSched2 σ) (hτ : IsSched τ) (old : Bufs) {e : Eng} (hn : e.n ≤ 64) (tl br : ℂ)
    {q : ℕ} (hq : q < e.n) :
    ∃ e' ω, phase d σ τ old e tl br q = some e' ∧ e'.n = e.n ∧
      (ω = 1 ∨ (e.rgp = true ∧ (tl = br ∨ tl = -br) ∧ ω = tl)) ∧
      ((e' = e ∧ tl = br ∧ (tl = 1 ∨ e.rgp = true)) ∨
        ((∀ i < 2 ^ e.n, ω * e'.amp i = scale e 1 * ((if i.testBit q then br else tl) * e.amp i)) ∧
          e'.rn = if NormOn e 1 then 1 else e.rn)) := by
  unfold phase
  by_cases hc : (e.rgp = true ∨ 1 - tl = 0) ∧ tl - br = 0
  · rw [if_pos hc]
    obtain ⟨hc1, hc2⟩ := hc
    have heq : tl = br := sub_eq_zero.1 hc2
    refine ⟨e, 1, rfl, rfl, Or.inl rfl, Or.inl ⟨rfl, heq, ?_⟩⟩
    rcases hc1 with h | h
    · exact Or.inr h
    · exact Or.inl (sub_eq_zero.1 h).symm
  rw [if_neg hc]
  by_cases hz : (e.rgp = true ∨ 1 - tl = 0) ∧ tl + br = 0
  · rw [if_pos hz]
    obtain ⟨e', h1, h2, -, -, -, h6, h7⟩ := gateZ_signs hd hσ hτ old hn hq
    obtain ⟨hc1, hc2⟩ := hz
    have heq : tl = -br := eq_neg_of_add_eq_zero_left hc2
    have heq' : br = -tl := eq_neg_of_add_eq_zero_right hc2
    refine ⟨e', tl, h1, h2, ?_, Or.inr ⟨fun i hi => ?_, h7⟩⟩
    · rcases hc1 with h | h
      · exact Or.inr ⟨h, Or.inr heq, rfl⟩
      · exact Or.inl (sub_eq_zero.1 h).symm
    · rw [h6 i hi, heq']
      split_ifs <;> ring
  · rw [if_neg hz]
    obtain ⟨e', h1, h2, -, -, -, h6, h7⟩ := apply_single hd hσ hτ old hn hq ⟨tl, 0, 0, br⟩ false .phase (-999)
      (by simp) ⟨rfl, rfl, rfl, rfl⟩
    refine ⟨e', 1, h1, h2, Or.inl rfl, Or.inr ⟨fun i hi => ?_, by simpa using h7⟩⟩
    rw [h6 i hi, one_mul]
    congr 1
    unfold gate
    cases i.testBit q <;> simp

/-- `UpdateRunningNorm`: with a floor that is not positive, the amplitudes stay and `runningNorm` is the total
probability. -/
theorem updateRunningNorm_total (hd : d.Ok) (hτ : IsSched τ) {e : Eng} (hf : e.floor ≤ 0) :
    ∃ e', updateRunningNorm d τ e = some e' ∧ e'.n = e.n ∧ e'.doNorm = e.doNorm ∧ e'.floor = e.floor ∧
      e'.rgp = e.rgp ∧ SameOn e.n e'.amp e.amp ∧ e'.rn = totalProb e.n e.amp := by
  unfold updateRunningNorm
  rw [reduceKernel_eq' hd hτ]
  have hs : (∑ x ∈ Finset.range (2 ^ e.n), if Complex.normSq (e.amp x) < e.floor then 0 else Complex.normSq (e.amp x)) =
      totalProb e.n e.amp := by
    unfold totalProb
    refine Finset.sum_congr rfl fun i _ => ?_
    rw [if_neg]
    have := Complex.normSq_nonneg (e.amp i)
    linarith
  rw [hs, Option.map_some]
  by_cases hz : totalProb e.n e.amp ≤ 0
  · rw [if_pos hz]
    have h0 : totalProb e.n e.amp = 0 := le_antisymm hz (Finset.sum_nonneg fun _ _ => Complex.normSq_nonneg _)
    refine ⟨_, rfl, rfl, rfl, rfl, rfl, fun i hi => ?_, h0.symm⟩
    have := (Finset.sum_eq_zero_iff_of_nonneg (fun _ _ => Complex.normSq_nonneg _)).1 h0 i (Finset.mem_range.2 hi)
    exact (Complex.normSq_eq_zero.1 this).symm
  · rw [if_neg hz]
    exact ⟨_, rfl, rfl, rfl, rfl, rfl, fun i _ => rfl, rfl⟩

/-- `MCMtrx`, `MACMtrx`. -/
theorem eitherMtrx_gate (hd : d.Ok) (hσ : IsSched2 σ) (hτ : IsSched τ) (old : Bufs) {e : Eng} (hn : e.n ≤ 64)
    (hfl : e.doNorm = false ∨ e.floor ≤ 0) {cs : List ℕ} (hne : cs ≠ []) (m : M2) {t : ℕ}
    (hnd : (cs ++ [t]).Nodup) (hb : ∀ k ∈ cs ++ [t], k < e.n) (anti : Bool) :
    ∃ e', eitherMtrx d σ τ old e cs m t anti = some e' ∧ e'.n = e.n ∧
      ∀ i < 2 ^ e.n, e'.amp i = gate (AllAre (!anti) cs) t m.a m.b m.c m.d e.amp i := by
  unfold eitherMtrx
  rw [if_neg hne]
  by_cases hid : isIdentity e.rgp m true = true
  · rw [if_pos hid]
    obtain ⟨h1, h2, h3, h4⟩ := isIdentity_ctrl hid
    exact ⟨e, rfl, rfl, fun i _ => by rw [h1, h2, h3, h4, gate_id]⟩
  rw [if_neg hid]
  have key : ∃ e', applyCtrl d σ τ old e cs t m anti = some e' ∧ e'.n = e.n ∧ e'.floor = e.floor ∧
      ∀ i < 2 ^ e.n, e'.amp i = gate (AllAre (!anti) cs) t m.a m.b m.c m.d e.amp i := by
    unfold applyCtrl
    cases anti
    · obtain ⟨e', h, h1, -, -, h2, -, h3⟩ := apply_ctrl hd hσ hτ old hn hne hnd hb
        (o := (cs.map pow2).foldl (· ||| ·) 0)
        (by intro k hk; rw [testBit_foldl_or] at hk; simpa using hk)
        (AllAre true cs) (fun i => by
          simp only [AllAre, Pat, testBit_foldl_or, Nat.zero_testBit, Bool.false_or]
          exact forall₂_congr fun c hc => by simp [hc]) m
      exact ⟨e', h, h1, h2, h3⟩
    · obtain ⟨e', h, h1, -, -, h2, -, h3⟩ := apply_ctrl hd hσ hτ old hn hne hnd hb (o := 0)
        (by intro k hk; simp at hk) (AllAre false cs) (fun i => by simp [AllAre, Pat]) m
      rw [Nat.zero_or] at h
      exact ⟨e', h, h1, h2, h3⟩
  obtain ⟨e', h, h1, h2, h3⟩ := key
  simp only [h]
  by_cases hnorm : (e.doNorm && !decide (m.isPhase ∨ m.isInvert)) = true
  · rw [if_pos hnorm]
    have hfl' : e.floor ≤ 0 := by
      rcases hfl with h' | h'
      · rw [h'] at hnorm; simp at hnorm
      · exact h'
    obtain ⟨f, k1, k2, -, -, -, k3, -⟩ := updateRunningNorm_total hd hτ (e := e') (by rw [h2]; exact hfl')
    refine ⟨f, k1, k2.trans h1, fun i hi => ?_⟩
    rw [k3 i (by rw [h1]; exact hi)]
    exact h3 i hi
  · rw [if_neg hnorm]
    exact ⟨e', rfl, h1, h3⟩

/-- `UCMtrx`. -/
theorem ucMtrx_gate (hd : d.Ok) (hσ : IsSched2 σ) (hτ : IsSched τ) (old : Bufs) {e : Eng} (hn : e.n ≤ 64)
    {cs : List ℕ} (hne : cs ≠ []) (m : M2) {t : ℕ} (hnd : (cs ++ [t]).Nodup)
    (hb : ∀ k ∈ cs ++ [t], k < e.n) (perm : ℕ) :
    ∃ e', ucMtrx d σ τ old e cs m t perm = some e' ∧ e'.n = e.n ∧
      ∀ i < 2 ^ e.n, e'.amp i = gate (Matches perm cs) t m.a m.b m.c m.d e.amp i := by
  unfold ucMtrx
  rw [if_neg hne]
  by_cases hid : isIdentity e.rgp m true = true
  · rw [if_pos hid]
    obtain ⟨h1, h2, h3, h4⟩ := isIdentity_ctrl hid
    exact ⟨e, rfl, rfl, fun i _ => by rw [h1, h2, h3, h4, gate_id]⟩
  · rw [if_neg hid]
    have hcs : cs.Nodup := (List.nodup_append.1 hnd).1
    have hbit : ∀ k (h : k < cs.length), (permMask perm 0 cs).testBit cs[k] = perm.testBit k := by
      intro k h
      rw [Bool.eq_iff_iff, testBit_permMask]
      constructor
      · rintro ⟨i, hi, h1, h2⟩
        have := (List.Nodup.getElem_inj_iff hcs).1 h1
        subst this
        simpa using h2
      · intro hp
        exact ⟨k, h, rfl, by simpa using hp⟩
    obtain ⟨e', h, h1, -, -, -, -, h3⟩ := apply_ctrl hd hσ hτ old hn hne hnd hb (o := permMask perm 0 cs)
      (by
        intro k hk
        obtain ⟨i, hi, h1, -⟩ := (testBit_permMask perm cs 0 k).1 hk
        exact h1 ▸ List.getElem_mem hi)
      (Matches perm cs) (fun i => by
        constructor
        · intro h c hc
          obtain ⟨k, hk, rfl⟩ := List.getElem_of_mem hc
          rw [h k hk, hbit k hk]
        · intro h k hk
          rw [h _ (List.getElem_mem hk), hbit k hk]) m
    exact ⟨e', h, h1, h3⟩

/-- Error cases: a repeated qubit among controls and target, or one outside the register, is rejected unless the matrix
is the identity. -/
theorem ucMtrx_invalid {old : Bufs} {e : Eng} {cs : List ℕ} (hne : cs ≠ []) {m : M2} {t : ℕ}
    (hm : ¬ (m.a = 1 ∧ m.b = 0 ∧ m.c = 0 ∧ m.d = 1)) (perm : ℕ)
    (hbad : ¬ (cs ++ [t]).Nodup ∨ ∃ k ∈ cs ++ [t], e.n ≤ k) : ucMtrx d σ τ old e cs m t perm = none := by
  unfold ucMtrx
  rw [if_neg hne, if_neg (fun hid => hm (isIdentity_ctrl hid))]
  have : cs.map pow2 ++ [pow2 t] = (cs ++ [t]).map pow2 := by simp
  dsimp only
  rw [this]
  rcases hbad with h | ⟨k, hk, h⟩
  · exact apply_dup m h _
  · exact apply_bound m hk h _

theorem eitherMtrx_invalid {old : Bufs} {e : Eng} {cs : List ℕ} (hne : cs ≠ []) {m : M2} {t : ℕ}
    (hm : ¬ (m.a = 1 ∧ m.b = 0 ∧ m.c = 0 ∧ m.d = 1)) (anti : Bool)
    (hbad : ¬ (cs ++ [t]).Nodup ∨ ∃ k ∈ cs ++ [t], e.n ≤ k) : eitherMtrx d σ τ old e cs m t anti = none := by
  unfold eitherMtrx
  rw [if_neg hne, if_neg (fun hid => hm (isIdentity_ctrl hid))]
  have hl : cs.map pow2 ++ [pow2 t] = (cs ++ [t]).map pow2 := by simp
  have hr : applyCtrl d σ τ old e cs t m anti = none := by
    unfold applyCtrl
    rw [hl]
    rcases hbad with h | ⟨k, hk, h⟩ <;> cases anti <;> simp only [if_true, Bool.false_eq_true, if_false]
    · exact apply_dup m h _
    · exact apply_dup m h _
    · exact apply_bound m hk h _
    · exact apply_bound m hk h _
  simp [hr]

/-- `Swap`, `ISwap`, `IISwap`, `SqrtSwap`, `ISqrtSwap`. -/
theorem swapLike_exchange (hd : d.Ok) (hσ : IsSched2 σ) (hτ : IsSched τ) (old : Bufs) {e : Eng} (hn : e.n ≤ 64)
    {m : M2} (h1 : m.d = m.a) (h2 : m.c = m.b) {q1 q2 : ℕ} (hq1 : q1 < e.n) (hq2 : q2 < e.n) :
    ∃ e', swapLike d σ τ old e m q1 q2 = some e' ∧ e'.n = e.n ∧ e'.rn = e.rn ∧ e'.doNorm = e.doNorm ∧
      e'.floor = e.floor ∧ e'.rgp = e.rgp ∧
      SameOn e.n e'.amp (exchange (fun _ => True) q1 q2 m.a m.b e.amp) := by
  unfold swapLike
  by_cases hq : q1 = q2
  · rw [if_pos hq]
    subst hq
    exact ⟨e, rfl, rfl, rfl, rfl, rfl, rfl, fun i _ => by simp [exchange]⟩
  · rw [if_neg hq]
    have hlt : min q1 q2 < max q1 q2 := by omega
    obtain ⟨e', k1, k2, k3, k4, k5, k6, k7⟩ := apply_exchange hd hσ hτ old (cs := []) (a := min q1 q2)
      (b := max q1 q2) (o := 0) hn (by simp; omega)
      (by intro k hk; simp at hk; rcases hk with rfl | rfl <;> omega)
      (by intro k hk; simp at hk) (fun _ => True) (by simp [Pat]) h1 h2
    have hs : sortPows ([].map pow2 ++ [pow2 (min q1 q2), pow2 (max q1 q2)]) =
        [pow2 (min q1 q2), pow2 (max q1 q2)] := by
      have := Nat.pow_lt_pow_right (a := 2) (by norm_num) hlt
      unfold sortPows pow2
      simp only [List.map_nil, List.nil_append]
      apply List.mergeSort_of_pairwise
      simp; omega
    rw [hs] at k1
    simp only [Nat.zero_or] at k1
    refine ⟨e', k1, k2, k3, k4, k5, k6, fun i hi => ?_⟩
    rw [k7 i hi, exchange_minmax]

/-- `CSwap`, `CSqrtSwap`, `CISqrtSwap` and the `Anti` versions. -/
theorem cswapLike_exchange (hd : d.Ok) (hσ : IsSched2 σ) (hτ : IsSched τ) (old : Bufs) {e : Eng} (hn : e.n ≤ 64)
    {m : M2} (h1 : m.d = m.a) (h2 : m.c = m.b) {cs : List ℕ} {q1 q2 : ℕ}
    (hnd : (cs ++ [q1, q2]).Nodup) (hb : ∀ k ∈ cs ++ [q1, q2], k < e.n) (anti : Bool) :
    ∃ e', cswapLike d σ τ old e m cs q1 q2 anti = some e' ∧ e'.n = e.n ∧
      SameOn e.n e'.amp (exchange (AllAre (!anti) cs) q1 q2 m.a m.b e.amp) := by
  have hab : q1 ≠ q2 := by
    have := (List.nodup_append.1 hnd).2.1
    simpa using this
  unfold cswapLike
  rw [if_neg hab]
  by_cases hc : cs = []
  · rw [if_pos hc]
    subst hc
    obtain ⟨e', k1, k2, -, -, -, -, k3⟩ := swapLike_exchange hd hσ hτ old hn h1 h2
      (hb q1 (by simp)) (hb q2 (by simp))
    refine ⟨e', k1, k2, fun i hi => ?_⟩
    rw [k3 i hi]
    simp [exchange, AllAre]
  · rw [if_neg hc]
    have hperm : (cs ++ [min q1 q2, max q1 q2]).Perm (cs ++ [q1, q2]) := by
      apply List.Perm.append_left
      rcases le_total q1 q2 with h | h
      · rw [min_eq_left h, max_eq_right h]
      · rw [min_eq_right h, max_eq_left h]; exact List.Perm.swap _ _ _
    cases anti
    · obtain ⟨e', k1, k2, -, -, -, -, k3⟩ := apply_exchange hd hσ hτ old (cs := cs) (a := min q1 q2)
        (b := max q1 q2) (o := (cs.map pow2).foldl (· ||| ·) 0) hn (hperm.nodup_iff.2 hnd)
        (fun k hk => hb k (hperm.mem_iff.1 hk))
        (by intro k hk; rw [testBit_foldl_or] at hk; simpa using hk) (AllAre true cs) (fun i => by
          simp only [AllAre, Pat, testBit_foldl_or, Nat.zero_testBit, Bool.false_or]
          exact forall₂_congr fun c hc => by simp [hc]) h1 h2
      refine ⟨e', k1, k2, fun i hi => ?_⟩
      rw [k3 i hi, exchange_minmax]; rfl
    · obtain ⟨e', k1, k2, -, -, -, -, k3⟩ := apply_exchange hd hσ hτ old (cs := cs) (a := min q1 q2)
        (b := max q1 q2) (o := 0) hn (hperm.nodup_iff.2 hnd)
        (fun k hk => hb k (hperm.mem_iff.1 hk))
        (by intro k hk; simp at hk) (AllAre false cs) (fun i => by simp [AllAre, Pat]) h1 h2
      refine ⟨e', k1, k2, fun i hi => ?_⟩
      rw [k3 i hi, exchange_minmax]; rfl

/-- `Apply2x2` does not depend on `norm_thresh`: the host stores it where the kernel does not look (`cmplx[5]`, while the
kernels read the tenth number, the imaginary part of `cmplx[4]`). -/
theorem threshold_ignored (hd : d.Ok) (hσ : IsSched2 σ) (hτ : IsSched τ) (old : Bufs) {e : Eng} (hn : e.n ≤ 64) {q : ℕ}
    (hq : q < e.n) (m : M2) (thr thr' : ℝ) (dc : Bool) :
    ∃ e' f, apply2x2 d σ τ old e 0 (pow2 q) m [pow2 q] dc .none thr = some e' ∧
      apply2x2 d σ τ old e 0 (pow2 q) m [pow2 q] dc .none thr' = some f ∧ SameOn e.n e'.amp f.amp ∧ e'.rn = f.rn := by
  obtain ⟨e', h1, -, -, -, -, h2, h3⟩ := apply_single hd hσ hτ old hn hq m dc .none thr (fun _ => rfl) trivial
  obtain ⟨f, k1, -, -, -, -, k2, k3⟩ := apply_single hd hσ hτ old hn hq m dc .none thr' (fun _ => rfl) trivial
  have hs : SameOn e.n e'.amp f.amp := fun i hi => by rw [h2 i hi, k2 i hi]
  refine ⟨e', f, h1, k1, hs, ?_⟩
  rw [h3, k3, totalProb_congr hs]

/-- A rotation with small sine on the state `|0⟩`, with normalisation on and amplitude floor `1/2`. -/
noncomputable def floorEng : Eng := ⟨1, fun i => if i = 0 then 1 else 0, 1, true, false, 1 / 2⟩
noncomputable def floorGate : M2 := ⟨12 / 13, -(5 / 13), 5 / 13, 12 / 13⟩

/-- The amplitude floor is ignored: amplitudes of probability below it, which `QEngineCPU` rounds to zero, are kept. -/
theorem floor_ignored (hd : d.Ok) (hσ : IsSched2 σ) (hτ : IsSched τ) (old : Bufs) {σ' : List ℕ → List ℕ}
    (hσ' : IsSched σ') :
    (∃ e', mtrx d σ τ old floorEng floorGate 0 = some e' ∧ e'.amp 1 ≠ 0 ∧ Complex.normSq (e'.amp 1) < floorEng.floor) ∧
    ∃ f, Verif.Engine.mtrx σ' floorEng floorGate 0 = some f ∧ f.amp 1 = 0 := by
  constructor
  · obtain ⟨e', k1, -, -, -, -, -, k3⟩ := mtrx_gate hd hσ hτ old (e := floorEng) (by simp [floorEng]) floorGate (q := 0)
      (by simp [floorEng])
    have hs : ¬ Skipped floorEng.rgp floorGate := by
      rintro ⟨h, -⟩
      norm_num [floorGate] at h
    have ha : e'.amp 1 = 5 / 13 := by
      rw [(k3 hs).1 1 (by simp [floorEng])]
      simp [floorEng, floorGate, gate, flipBit]
    refine ⟨e', k1, by rw [ha]; norm_num, ?_⟩
    rw [ha]
    have : (5 / 13 : ℂ) = ((5 / 13 : ℝ) : ℂ) := by push_cast; rfl
    rw [this, Complex.normSq_ofReal]
    norm_num [floorEng]
  · have hid : isIdentity floorEng.rgp floorGate false = false := by
      unfold isIdentity; rw [if_pos]; right; rintro ⟨h, -⟩; norm_num [floorGate] at h
    have hcn : (floorEng.doNorm && !decide (floorGate.isPhase ∨ floorGate.isInvert)) = true := by
      norm_num [floorEng, floorGate, M2.isPhase, M2.isInvert]
    unfold Verif.Engine.mtrx
    rw [hid, hcn, if_neg (by simp)]
    have v : Valid floorEng.n [0] 0 (2 ^ 0) := valid_single (by simp [floorEng]) (by simp [floorEng])
    unfold Verif.Engine.apply2x2 pow2
    rw [if_neg (by simp [floorEng]), if_neg (by simp [floorEng, adjDup])]
    have hamp := fold_amp v hσ' true floorEng.floor (1 / Real.sqrt floorEng.rn) floorGate floorEng.amp 0
    have hnrm := fold_norm (n := floorEng.n) (t := 0) (by simp [floorEng]) (by simp [floorEng]) hσ' floorEng.floor
      (1 / Real.sqrt floorEng.rn) floorGate floorEng.amp
    have hda : (floorEng.doNorm && ([2 ^ 0].length == 1) && decide (0 < floorEng.rn)) = true := by simp [floorEng]
    simp only [List.map_cons, List.map_nil] at hamp
    simp only [hda, Bool.true_or, Bool.true_and, Bool.not_true, if_true, Bool.false_eq_true, if_false]
    rw [hnrm, hamp]
    have h1 : pairSpec floorEng.n [0] 0 (2 ^ 0) (kernel true floorEng.floor (1 / Real.sqrt floorEng.rn) floorGate)
        floorEng.amp 1 = 0 := by
      simp [pairSpec, Pat, kernel, mul2_fst, mul2_snd, floorEng, floorGate, clip]
      norm_num
    split_ifs
    · exact ⟨_, rfl, rfl⟩
    · exact ⟨_, rfl, h1⟩

/-- One qubit in the state `(1/2, 0)` with a pending normalisation. -/
noncomputable def pendingEng : Eng := ⟨1, fun i => if i = 0 then 1 / 2 else 0, 1 / 4, true, false, 0⟩

/-- With a pending normalisation the engines disagree on diagonal and antidiagonal gates: this one applies it,
`QEngineCPU` forgets it. Here `Z` on the unnormalised `|0⟩` gives the amplitude 1 and the amplitude 1/2; both engines
record that nothing is pending any more. -/
theorem pending_engines_differ (hd : d.Ok) (hσ : IsSched2 σ) (hτ : IsSched τ) (old : Bufs) {σ' : List ℕ → List ℕ}
    (hσ' : IsSched σ') :
    ∃ e' f, mtrx d σ τ old pendingEng ⟨1, 0, 0, -1⟩ 0 = some e' ∧
      Verif.Engine.mtrx σ' pendingEng ⟨1, 0, 0, -1⟩ 0 = some f ∧ e'.amp 0 = 1 ∧ f.amp 0 = 1 / 2 ∧ e'.rn = 1 := by
  obtain ⟨e', k1, -, -, -, -, -, k3⟩ := mtrx_gate hd hσ hτ old (e := pendingEng) (by simp [pendingEng]) ⟨1, 0, 0, -1⟩
    (q := 0) (by simp [pendingEng])
  obtain ⟨f, j1, -, -, -, -, -, j2, -⟩ := Verif.Engine.mtrx_gate hσ' (e := pendingEng) (by simp [pendingEng])
    (m := ⟨1, 0, 0, -1⟩) (Or.inr (Or.inl ⟨rfl, rfl⟩)) (q := 0) (by simp [pendingEng])
  have hs : ¬ Skipped pendingEng.rgp ⟨1, 0, 0, -1⟩ := by
    rintro ⟨-, -, h, -⟩
    norm_num at h
  have hs' : ¬ Dropped pendingEng.rgp ⟨1, 0, 0, -1⟩ := by
    rintro ⟨h, -⟩
    simp [pendingEng] at h
  refine ⟨e', f, k1, j1, ?_, ?_, ?_⟩
  · rw [(k3 hs).1 0 (by simp)]
    have : Real.sqrt (1 / 4) = 1 / 2 := by
      rw [show (1 / 4 : ℝ) = (1 / 2) ^ 2 by norm_num, Real.sqrt_sq (by norm_num)]
    simp only [pendingEng, gate, Nat.zero_testBit, this]
    norm_num
  · rw [j2 hs' 0 (by simp)]
    simp [pendingEng, gate]
  · rw [(k3 hs).2]
    simp [pendingEng, M2.isPhase]

/-- The hypotheses can be met: the device of `SetDevice` on hardware with 40 compute units, preferred multiple 32, and
work groups of up to 1024 items; a register of five qubits. -/
example : (setDevice 40 32 1024 0).Ok := setDevice_ok' _ _ _ _
example : IsSched2 List.reverse := fun l => List.reverse_perm l
example : ([3, 0] ++ [4]).Nodup ∧ ∀ k ∈ [3, 0] ++ [4], k < 5 := by decide
example : ([2] ++ [4, 0]).Nodup ∧ ∀ k ∈ [2] ++ [4, 0], k < 5 := by decide

end Verif.Ocl
