import Verif.Lemmas.CapiPauli
import Verif.Spec.PauliOps
import Verif.Spec.Observable
import Verif.Model.Capi

/-!
# C79: the Pauli operations of the C API
-/

namespace Verif.CapiPauli

open Verif.Engine Verif.ParFor Verif.Spec Verif.Spec.Observable Verif.Bits Classical

/-- The call names distinct qubits of the register. -/
structure Names (e : Eng) (pos : ℕ → ℕ) (l : Ops) : Prop where
  distinct : (l.map fun x => pos x.1).Nodup
  inside : ∀ x ∈ l, pos x.1 < e.n

theorem Names.nodup {e : Eng} {pos : ℕ → ℕ} {l : Ops} (h : Names e pos l) : ((at' pos l).map (·.1)).Nodup := by
  have := h.distinct
  simpa [at', List.map_map, Function.comp_def] using this

theorem Names.lt {e : Eng} {pos : ℕ → ℕ} {l : Ops} (h : Names e pos l) : ∀ x ∈ at' pos l, x.1 < e.n := by
  intro x hx
  obtain ⟨y, hy, rfl⟩ := List.mem_map.1 hx
  exact h.inside y hy

theorem product_at (pos : ℕ → ℕ) (l : Ops) (s : ℕ → ℂ) :
    paulis (at' pos l) s = pauliProduct (l.map fun x => pos x.1) (l.map (·.2)) s := by
  rw [paulis_eq]; simp [at', List.map_map, Function.comp_def]

/-- The mask of the call's helper: the positions. -/
theorem posMask_eq (pos : ℕ → ℕ) (l : Ops) :
    (removeIdentities l).foldl (fun mask x => mask ||| 2 ^ pos x.1) 0 = makeMask ((removeIdentities (at' pos l)).map (·.1)) := by
  unfold makeMask
  rw [remove_at, at', List.map_map, List.foldl_map]
  rfl

theorem remove_sub (l : Ops) : (removeIdentities l).Sublist l := by
  rw [removeIdentities_eq]; exact List.filter_sublist

theorem Names.mask_lt {e : Eng} {pos : ℕ → ℕ} {l : Ops} (h : Names e pos l) {n : ℕ} (hn : ∀ x ∈ l, pos x.1 < n) :
    makeMask ((removeIdentities (at' pos l)).map (·.1)) < 2 ^ n := by
  refine CapiPauli.mask_lt fun q hq => ?_
  obtain ⟨x, hx, rfl⟩ := List.mem_map.1 hq
  obtain ⟨y, hy, rfl⟩ := List.mem_map.1 ((remove_sub _).subset hx)
  exact hn y hy

theorem paulis_none : ∀ {l : Ops}, removeIdentities l = [] → ∀ s, paulis l s = s
  | [], _, _ => rfl
  | (q, .I) :: l, h, s => by
    simp only [paulis, pauliGate]
    exact paulis_none (by simpa [removeIdentities] using h) s
  | (q, .X) :: l, h, _ => by simp [removeIdentities] at h
  | (q, .Y) :: l, h, _ => by simp [removeIdentities] at h
  | (q, .Z) :: l, h, _ => by simp [removeIdentities] at h

theorem paulis_remove : ∀ (l : Ops) (s : ℕ → ℂ), paulis (removeIdentities l) s = paulis l s
  | [], _ => rfl
  | (q, .I) :: l, s => by simp only [paulis, removeIdentities, pauliGate]; exact paulis_remove l s
  | (q, .X) :: l, s => by simp only [paulis, removeIdentities]; rw [paulis_remove l s]
  | (q, .Y) :: l, s => by simp only [paulis, removeIdentities]; rw [paulis_remove l s]
  | (q, .Z) :: l, s => by simp only [paulis, removeIdentities]; rw [paulis_remove l s]

theorem jointHelper_none {P : Par} {cpp20 : Bool} {pos : ℕ → ℕ} {e : Eng} {l : Ops} (h : removeIdentities l = []) (m : Bool) (r : ℝ) :
    jointHelper P cpp20 pos e l m r = some (0, e) := by
  unfold jointHelper
  rw [h]
  simp

theorem normalizeState_doNorm (σ : List ℕ → List ℕ) (e : Eng) : (normalizeState σ e).doNorm = e.doNorm := by
  have h : (updateRunningNorm e).doNorm = e.doNorm := by unfold updateRunningNorm; dsimp only; split_ifs <;> rfl
  unfold normalizeState
  dsimp only
  split_ifs <;> first | rfl | exact h

/-! ## Probability and measurement -/

/-- The projector, carried back. -/
theorem backs_parity {n : ℕ} {l : Ops} (hd : (l.map (·.1)).Nodup) (hl : ∀ x ∈ l, x.1 < n) (b : Bool) (k : ℂ) (s : ℕ → ℂ) :
    backs l (fun i => if HasParity n (makeMask ((removeIdentities l).map (·.1))) b i then k * turns l s i else 0) =
      fun i => k * ((s i + (if b then -1 else 1) * paulis l s i) / 2) := by
  have h1 : (fun i => if HasParity n (makeMask ((removeIdentities l).map (·.1))) b i then k * turns l s i else 0) =
      fun i => (k / 2) * turns l s i + (k / 2 * (if b then -1 else 1)) * zs l (turns l s) i := by
    funext i
    rw [zs_mask hd hl]
    unfold HasParity
    by_cases h : maskCount n (makeMask ((removeIdentities l).map (·.1))) i % 2 = 1 <;> cases b <;> simp [h] <;> ring
  rw [h1, backs_lin, backs_turns hd, backs_zs_turns hd]
  funext i
  ring

theorem probIf_eq_total (n : ℕ) (p : ℕ → Prop) (s : ℕ → ℂ) : probIf n p s = totalProb n (fun i => if p i then 1 * s i else 0) := by
  unfold probIf totalProb
  refine Finset.sum_congr rfl fun i _ => ?_
  by_cases h : p i <;> simp [h]

/-- The probability of a parity in the turned basis is that of the eigenspace. -/
theorem probIf_turns {n : ℕ} {l : Ops} (hd : (l.map (·.1)).Nodup) (hl : ∀ x ∈ l, x.1 < n) (b : Bool) (s : ℕ → ℂ) :
    probIf n (HasParity n (makeMask ((removeIdentities l).map (·.1))) b) (turns l s) =
      totalProb n (fun i => (s i + (if b then -1 else 1) * paulis l s i) / 2) := by
  rw [probIf_eq_total, ← totalProb_backs hl, backs_parity hd hl b 1 s]
  simp only [one_mul]

/-- **C79, partial.** `JointEnsembleProbability` is the probability of the eigenvalue `-1` of the product of the Pauli operators, and
leaves the state as it was. Full statement: for every choice of distinct qubits of the register; with `popCountOcl` counting in a
32-bit word (C41) the named positions have to be below 32. -/
theorem jointProb_partial {P : Par} (hP : P.Ok) {cpp20 : Bool} {pos : ℕ → ℕ} {e : Eng} (hn : e.n ≤ 64) (he : e.Steady)
    (hd : e.doNorm = false) {l : Ops} (hl : Names e pos l) (h32 : cpp20 = true ∨ ∀ x ∈ l, pos x.1 < 32) :
    ∃ e', jointProb P cpp20 pos e l =
        some (totalProb e.n (eigenPart true (l.map fun x => pos x.1) (l.map (·.2)) e.amp), e') ∧
      Like e e' ∧ SameOn e.n e'.amp e.amp := by
  obtain ⟨f, f1, f2, f3⟩ := transform_ok hP.1 pos l hn hd hl.inside
  obtain ⟨g, g1', g2, g3⟩ := revert_ok hP.1 pos l (e := f) (by rw [f2.size]; exact hn) (by rw [f2.doNorm]; exact hd)
    (fun x hx => by rw [f2.size]; exact hl.inside x hx)
  rw [f2.size] at g3
  have hback : SameOn e.n g.amp e.amp := fun i hi => by
    rw [g3 i hi, backs_same hl.lt f3 i hi, backs_turns hl.nodup]
  have hzero : removeIdentities l = [] →
      totalProb e.n (eigenPart true (l.map fun x => pos x.1) (l.map (·.2)) e.amp) = 0 := by
    intro h0
    unfold totalProb
    refine Finset.sum_eq_zero fun i _ => ?_
    unfold eigenPart
    rw [← product_at, paulis_none (by rw [remove_at, h0]; rfl)]
    simp
  refine ⟨g, ?_, f2.trans g2, hback⟩
  unfold jointProb
  simp only [f1, Option.bind_some]
  by_cases h0 : removeIdentities l = []
  · rw [jointHelper_none h0 false 0]
    simp only [Option.bind_some, g1', Option.map_some]
    rw [hzero h0]
  · have hl0 : l.length ≠ 0 := by
      intro h; rw [List.length_eq_zero_iff] at h; subst h; exact h0 rfl
    unfold jointHelper
    rw [if_neg hl0, if_neg (by rw [List.length_eq_zero_iff]; exact h0)]
    simp only [Bool.false_eq_true, if_false]
    have hfs : f.Steady := by
      refine ⟨?_, fun h => by rw [f2.doNorm, hd] at h; cases h⟩
      rw [f2.size]
      have : totalProb e.n f.amp = totalProb e.n (turns (at' pos l) e.amp) :=
        Finset.sum_congr rfl fun i hi => by rw [f3 i (Finset.mem_range.1 hi)]
      rw [this, totalProb_turns hl.lt]
      exact he.1
    rw [posMask_eq, probParity_spec hP (by rw [f2.size]; exact hn) hfs (by rw [f2.size]; exact hl.mask_lt hl.inside)
      (h32.imp id fun h => hl.mask_lt h)]
    simp only [Option.bind_some, g1', Option.map_some]
    congr 2
    rw [f2.size, probIf_congr (fun _ _ => Iff.rfl) f3, probIf_turns hl.nodup hl.lt]
    unfold eigenPart
    simp only [product_at]

/-- **C79, partial.** `Measure` reports `0` or `1`, the reported value has positive probability, and the state that remains is the
normalized part of the state in the eigenspace of the product of the Pauli operators with eigenvalue `(-1)^result`. Full statement: as
for `jointProb_partial`. -/
theorem measure_partial {P : Par} (hP : P.Ok) {cpp20 : Bool} {pos : ℕ → ℕ} {e : Eng} (hn : e.n ≤ 64) (he : e.Steady)
    (hd : e.doNorm = false) (hfl : e.floor = 0) {l : Ops} (hl : Names e pos l) (h32 : cpp20 = true ∨ ∀ x ∈ l, pos x.1 < 32)
    {r : ℝ} (h0 : 0 < r) (h1 : r < 1) :
    ∃ (b : Bool) (e' : Eng) (k : ℂ), measure P cpp20 pos e l r = some (if b then 1 else 0, e') ∧ e'.n = e.n ∧
      0 < totalProb e.n (eigenPart b (l.map fun x => pos x.1) (l.map (·.2)) e.amp) ∧ totalProb e.n e'.amp = 1 ∧
      SameOn e.n e'.amp fun i => k * eigenPart b (l.map fun x => pos x.1) (l.map (·.2)) e.amp i := by
  obtain ⟨f, f1, f2, f3⟩ := transform_ok hP.1 pos l hn hd hl.inside
  have hfn : f.n ≤ 64 := by rw [f2.size]; exact hn
  have hfd : f.doNorm = false := by rw [f2.doNorm]; exact hd
  have hfs : f.Steady := by
    refine ⟨?_, fun h => by rw [hfd] at h; cases h⟩
    rw [f2.size]
    have : totalProb e.n f.amp = totalProb e.n (turns (at' pos l) e.amp) :=
      Finset.sum_congr rfl fun i hi => by rw [f3 i (Finset.mem_range.1 hi)]
    rw [this, totalProb_turns hl.lt]
    exact he.1
  by_cases hr : removeIdentities l = []
  · obtain ⟨g, g1', g2, g3⟩ := revert_ok hP.1 pos l (e := f) hfn hfd (fun x hx => by rw [f2.size]; exact hl.inside x hx)
    rw [f2.size] at g3
    have hback : SameOn e.n g.amp e.amp := fun i hi => by
      rw [g3 i hi, backs_same hl.lt f3 i hi, backs_turns hl.nodup]
    have heig : eigenPart false (l.map fun x => pos x.1) (l.map (·.2)) e.amp = e.amp := by
      funext i
      unfold eigenPart
      rw [← product_at, paulis_none (by rw [remove_at, hr]; rfl)]
      simp
    refine ⟨false, g, 1, ?_, (f2.trans g2).size, ?_, ?_, ?_⟩
    · unfold measure
      simp only [f1, Option.bind_some]
      rw [jointHelper_none hr true r]
      simp only [Option.bind_some, g1', Option.map_some]
      norm_num
    · rw [heig, he.1]; norm_num
    · rw [← he.1]
      exact Finset.sum_congr rfl fun i hi => by rw [hback i (Finset.mem_range.1 hi)]
    · intro i hi
      dsimp only
      rw [heig, hback i hi, one_mul]
  · have hl0 : l.length ≠ 0 := by
      intro h; rw [List.length_eq_zero_iff] at h; subst h; exact hr rfl
    have hm0 : makeMask ((removeIdentities (at' pos l)).map (·.1)) ≠ 0 := by
      apply mask_ne
      rw [remove_at]
      simpa [at'] using hr
    obtain ⟨b, m, m1, m2, m3, m4, m5⟩ := forceMParity_measures hP hfn hfs (by rw [f2.floor]; exact hfl)
      (mask := makeMask ((removeIdentities (at' pos l)).map (·.1))) (by rw [f2.size]; exact hl.mask_lt hl.inside) hm0
      (h32.imp id fun h => hl.mask_lt h) false h0 h1
    have hmd : m.doNorm = false := by
      have key := m1
      unfold forceMParity at key
      rw [if_neg (by rw [f2.size]; exact not_le.2 (hl.mask_lt hl.inside)), if_neg hm0] at key
      simp only [Bool.false_eq_true, if_false] at key
      rw [probParity_spec hP hfn hfs (by rw [f2.size]; exact hl.mask_lt hl.inside) (h32.imp id fun h => hl.mask_lt h)] at key
      simp only [Option.map_some, Option.some.injEq, Prod.mk.injEq] at key
      rw [← key.2]
      simp only [hfd, Bool.not_false, if_true]
      rw [normalizeState_doNorm]
    have hni : normIf P.σ m = m := (by unfold normIf; rw [hmd]; rfl)
    rw [hni, f2.size] at m3
    rw [hni, f2.size] at m5
    rw [f2.size] at m2
    obtain ⟨g, g1', g2, g3⟩ := revert_ok hP.1 pos l (e := m) (by rw [m3]; exact hn) hmd (fun x hx => by rw [m3]; exact hl.inside x hx)
    rw [m3] at g3
    obtain ⟨k, k1, k2, k3⟩ := m5
    have hm : SameOn e.n m.amp (fun i => if HasParity e.n (makeMask ((removeIdentities (at' pos l)).map (·.1))) b i
        then k * turns (at' pos l) e.amp i else 0) := by
      intro i hi
      by_cases hp : HasParity e.n (makeMask ((removeIdentities (at' pos l)).map (·.1))) b i
      · dsimp only; rw [if_pos hp, k1 i hi hp, f3 i hi]
      · dsimp only; rw [if_neg hp, k2 i hi hp]
    refine ⟨b, g, k, ?_, by rw [g2.size, m3], ?_, ?_, ?_⟩
    · unfold measure jointHelper
      simp only [f1, Option.bind_some]
      rw [if_neg hl0, if_neg (by rw [List.length_eq_zero_iff]; exact hr)]
      simp only [if_true, posMask_eq, m1, Option.map_some, Option.bind_some, g1']
      cases b <;> norm_num
    · rw [probIf_congr (fun _ _ => Iff.rfl) f3, probIf_turns hl.nodup hl.lt] at m2
      unfold eigenPart
      simpa only [product_at] using m2
    · rw [← k3, ← totalProb_backs hl.lt m.amp]
      exact Finset.sum_congr rfl fun i hi => by rw [g3 i (Finset.mem_range.1 hi)]
    · intro i hi
      rw [g3 i hi, backs_same hl.lt hm i hi, backs_parity hl.nodup hl.lt]
      dsimp only [eigenPart]
      rw [product_at]

/-! ## Rotations -/

theorem gate_up {σ : List ℕ → List ℕ} (hσ : IsSched σ) {e : Eng} (hn : e.n ≤ 64) (hd : e.doNorm = false) {q : ℕ} (hq : q < e.n)
    {m : M2} (hm : m.b = 0 → ‖m.a‖ = 1) :
    ∃ f, mtrx σ e m q = some f ∧ Like e f ∧ UpToPhase e.n (g1 q m.a m.b m.c m.d e.amp) f.amp := by
  obtain ⟨f, h1, h2, _, h4, h5, h6, h7, h8⟩ := mtrx_gate hσ hn (m := m) (Or.inl hd) hq
  refine ⟨f, h1, ⟨h2, h4, h5, h6⟩, ?_⟩
  by_cases hdr : Dropped e.rgp m
  · have ha : ‖m.a‖ = 1 := hm hdr.2.1
    have ha0 : m.a ≠ 0 := by intro h; rw [h, norm_zero] at ha; norm_num at ha
    refine ⟨m.a⁻¹, by rw [norm_inv, ha, inv_one], fun i hi => ?_⟩
    rw [g1, ← h8 hdr i hi, ← mul_assoc, inv_mul_cancel₀ ha0, one_mul]
  · exact ⟨1, norm_one, fun i hi => by rw [h7 hdr i hi, one_mul]⟩

theorem phase_up {σ : List ℕ → List ℕ} (hσ : IsSched σ) {e : Eng} (hn : e.n ≤ 64) (hd : e.doNorm = false) {q : ℕ} (hq : q < e.n)
    {tl br : ℂ} (ht : ‖tl‖ = 1) :
    ∃ f, phase σ e tl br q = some f ∧ Like e f ∧ UpToPhase e.n (g1 q tl 0 0 br e.amp) f.amp := by
  unfold phase
  split_ifs with h
  · have hb : br = tl := (sub_eq_zero.1 h.2).symm
    have ha0 : tl ≠ 0 := by intro h; rw [h, norm_zero] at ht; norm_num at ht
    refine ⟨e, rfl, Like.refl e, tl⁻¹, by rw [norm_inv, ht, inv_one], fun i _ => ?_⟩
    subst hb
    simp only [g1, gate, if_true]
    split_ifs
    · rw [zero_mul, zero_add, ← mul_assoc, inv_mul_cancel₀ ha0, one_mul]
    · rw [zero_mul, add_zero, ← mul_assoc, inv_mul_cancel₀ ha0, one_mul]
  · exact gate_up hσ hn hd hq (m := ⟨tl, 0, 0, br⟩) (fun _ => ht)

theorem re_im (c s : ℝ) : (⟨c, s⟩ : ℂ) = (c : ℂ) + Complex.I * (s : ℂ) := by
  apply Complex.ext <;> simp

theorem norm_cs (x : ℝ) : ‖(⟨Real.cos x, -Real.sin x⟩ : ℂ)‖ = 1 := by
  rw [Complex.norm_def, Real.sqrt_eq_one, Complex.normSq_mk]
  linarith [Real.sin_sq_add_cos_sq x, sq (Real.sin x), sq (Real.cos x)]

/-- The matrices of the rotations are the exponentials. -/
theorem rx_exp (φ : ℝ) (q : ℕ) (s : ℕ → ℂ) :
    g1 q ⟨Real.cos (φ / 2), 0⟩ ⟨0, -Real.sin (φ / 2)⟩ ⟨0, -Real.sin (φ / 2)⟩ ⟨Real.cos (φ / 2), 0⟩ s = expPauli (-φ / 2) [q] [.X] s := by
  funext i
  simp only [expPauli, pauliProduct, pauliGate, g1, gate, if_true, neg_div, Real.cos_neg, Real.sin_neg, re_im]
  split_ifs <;> push_cast <;> ring

theorem ry_exp (φ : ℝ) (q : ℕ) (s : ℕ → ℂ) :
    g1 q (Real.cos (φ / 2) : ℂ) (-Real.sin (φ / 2) : ℂ) (Real.sin (φ / 2) : ℂ) (Real.cos (φ / 2) : ℂ) s = expPauli (-φ / 2) [q] [.Y] s := by
  funext i
  simp only [expPauli, pauliProduct, pauliGate, g1, gate, if_true, neg_div, Real.cos_neg, Real.sin_neg]
  split_ifs
  · push_cast; linear_combination (Complex.sin (φ / 2) * s (flipBit q i)) * Complex.I_sq
  · push_cast; linear_combination (-(Complex.sin (φ / 2) * s (flipBit q i))) * Complex.I_sq

theorem rz_exp (φ : ℝ) (q : ℕ) (s : ℕ → ℂ) :
    g1 q ⟨Real.cos (φ / 2), -Real.sin (φ / 2)⟩ 0 0 ⟨Real.cos (φ / 2), Real.sin (φ / 2)⟩ s = expPauli (-φ / 2) [q] [.Z] s := by
  funext i
  simp only [expPauli, pauliProduct, pauliGate, g1, gate, if_true, neg_div, Real.cos_neg, Real.sin_neg, re_im]
  split_ifs <;> push_cast <;> ring

/-- **C79.** `R`: the rotation `e^{-iφP/2}` about the axis of the operator, up to a global phase. -/
theorem rHelper_rotates {σ : List ℕ → List ℕ} (hσ : IsSched σ) {pos : ℕ → ℕ} {e : Eng} (hn : e.n ≤ 64) (hd : e.doNorm = false)
    (b : PauliName) (φ : ℝ) {q : ℕ} (hq : pos q < e.n) :
    ∃ e', rHelper σ pos e b φ q = some e' ∧ Like e e' ∧ UpToPhase e.n (expPauli (-φ / 2) [pos q] [b] e.amp) e'.amp := by
  cases b
  · obtain ⟨f, f1, f2, u, hu, f3⟩ := phase_up hσ hn hd hq (tl := Complex.exp (((φ / 4 : ℝ) : ℂ) * Complex.I))
      (br := Complex.exp (((φ / 4 : ℝ) : ℂ) * Complex.I)) (Complex.norm_exp_ofReal_mul_I _)
    refine ⟨f, f1, f2, u * Complex.exp (((φ / 4 : ℝ) : ℂ) * Complex.I) * Complex.exp (((φ / 2 : ℝ) : ℂ) * Complex.I), ?_, fun i hi => ?_⟩
    · rw [norm_mul, norm_mul, hu, Complex.norm_exp_ofReal_mul_I, Complex.norm_exp_ofReal_mul_I]; norm_num
    · have h1 : expPauli (-φ / 2) [pos q] [.I] e.amp i = Complex.exp (((-φ / 2 : ℝ) : ℂ) * Complex.I) * e.amp i := by
        rw [Complex.exp_mul_I, ← Complex.ofReal_cos, ← Complex.ofReal_sin]
        simp only [expPauli, pauliProduct, pauliGate]
        ring
      have h2 : Complex.exp (((φ / 2 : ℝ) : ℂ) * Complex.I) * Complex.exp (((-φ / 2 : ℝ) : ℂ) * Complex.I) = 1 := by
        rw [← Complex.exp_add, ← add_mul, ← Complex.ofReal_add]
        have : φ / 2 + -φ / 2 = 0 := by ring
        rw [this]; simp
      rw [f3 i hi, h1]
      have h3 : g1 (pos q) (Complex.exp (((φ / 4 : ℝ) : ℂ) * Complex.I)) 0 0 (Complex.exp (((φ / 4 : ℝ) : ℂ) * Complex.I)) e.amp i =
          Complex.exp (((φ / 4 : ℝ) : ℂ) * Complex.I) * e.amp i := by
        simp only [g1, gate, if_true]
        split_ifs <;> ring
      rw [h3]
      linear_combination (-(u * Complex.exp (((φ / 4 : ℝ) : ℂ) * Complex.I) * e.amp i)) * h2
  · have := gate_up hσ hn hd hq (m := Defaults.rxM φ) (fun h => by
      have h0 : Real.sin (φ / 2) = 0 := by
        have := congrArg Complex.im h
        simpa [Defaults.rxM] using this
      have h1 := Real.sin_sq_add_cos_sq (φ / 2)
      rw [h0] at h1
      simp only [Defaults.rxM]
      rw [Complex.norm_def, Real.sqrt_eq_one, Complex.normSq_mk]
      linarith [sq (Real.cos (φ / 2))])
    rw [show g1 (pos q) (Defaults.rxM φ).a (Defaults.rxM φ).b (Defaults.rxM φ).c (Defaults.rxM φ).d e.amp =
      expPauli (-φ / 2) [pos q] [.X] e.amp from rx_exp φ (pos q) e.amp] at this
    exact this
  · have := gate_up hσ hn hd hq (m := Defaults.ryM φ) (fun h => by
      have h0 : Real.sin (φ / 2) = 0 := by
        have h' : -((Real.sin (φ / 2) : ℝ) : ℂ) = 0 := h
        exact Complex.ofReal_eq_zero.1 (neg_eq_zero.1 h')
      have h1 := Real.sin_sq_add_cos_sq (φ / 2)
      rw [h0] at h1
      show ‖((Real.cos (φ / 2) : ℝ) : ℂ)‖ = 1
      rw [Complex.norm_real, Real.norm_eq_abs, ← sq_eq_sq₀ (abs_nonneg _) (by norm_num), sq_abs]
      linarith)
    rw [show g1 (pos q) (Defaults.ryM φ).a (Defaults.ryM φ).b (Defaults.ryM φ).c (Defaults.ryM φ).d e.amp =
      expPauli (-φ / 2) [pos q] [.Y] e.amp from ry_exp φ (pos q) e.amp] at this
    exact this
  · have := phase_up hσ hn hd hq (tl := ⟨Real.cos (φ / 2), -Real.sin (φ / 2)⟩) (br := ⟨Real.cos (φ / 2), Real.sin (φ / 2)⟩)
      (norm_cs _)
    rw [rz_exp] at this
    exact this

/-- A gate under control, from its exponential. -/
theorem gate_control {cs : List ℕ} {t : ℕ} {a b c d : ℂ} {s : ℕ → ℂ} {F : (ℕ → ℂ) → ℕ → ℂ} (h : g1 t a b c d s = F s) (i : ℕ) :
    gate (AllAre true cs) t a b c d s i = underControl cs F s i := by
  unfold underControl
  rw [← h]
  simp only [g1, gate, if_true]

theorem mcPhase_ok {σ : List ℕ → List ℕ} (hσ : IsSched σ) {e : Eng} (hn : e.n ≤ 64) (hd : e.doNorm = false) {cs : List ℕ} (hne : cs ≠ [])
    {t : ℕ} (hnd : (cs ++ [t]).Nodup) (hb : ∀ k ∈ cs ++ [t], k < e.n) (tl br : ℂ) :
    ∃ e', mcPhase σ e cs tl br t = some e' ∧ Like e e' ∧ SameOn e.n e'.amp (gate (AllAre true cs) t tl 0 0 br e.amp) := by
  unfold mcPhase
  split_ifs with h
  · refine ⟨e, rfl, Like.refl e, fun i _ => ?_⟩
    rw [← sub_eq_zero.1 h.1, ← sub_eq_zero.1 h.2, gate_id]
  · obtain ⟨f, f1, f2, f3⟩ := eitherMtrx_gate hσ hn (Or.inl hd) hne ⟨tl, 0, 0, br⟩ hnd hb false
    obtain ⟨_, m2, m3, m4⟩ := eitherMtrx_meta f1
    exact ⟨f, f1, ⟨f2, m3, m4, m2⟩, f3⟩

/-- **C79, partial.** `MCR` is `R` under control of the listed qubits. Full statement: for every operator; for the identity the phase is
another one (`mcrHelper_identity`, `mcrHelper_identity_wrong`), and there it can be observed. -/
theorem mcrHelper_partial {σ : List ℕ → List ℕ} (hσ : IsSched σ) {pos : ℕ → ℕ} {e : Eng} (hn : e.n ≤ 64) (hd : e.doNorm = false)
    {b : PauliName} (hbI : b ≠ .I) (φ : ℝ) {cs : List ℕ} (hne : cs ≠ []) {q : ℕ} (hnd : (cs.map pos ++ [pos q]).Nodup)
    (hb : ∀ k ∈ cs.map pos ++ [pos q], k < e.n) :
    ∃ e', mcrHelper σ pos e b φ cs q = some e' ∧ Like e e' ∧
      SameOn e.n e'.amp (underControl (cs.map pos) (expPauli (-φ / 2) [pos q] [b]) e.amp) := by
  have hne' : cs.map pos ≠ [] := by simpa using hne
  cases b
  · exact absurd rfl hbI
  · obtain ⟨f, f1, f2, f3⟩ := eitherMtrx_gate hσ hn (Or.inl hd) hne'
      ⟨⟨Real.cos (φ / 2), 0⟩, ⟨0, -Real.sin (φ / 2)⟩, ⟨0, -Real.sin (φ / 2)⟩, ⟨Real.cos (φ / 2), 0⟩⟩ hnd hb false
    obtain ⟨_, m2, m3, m4⟩ := eitherMtrx_meta f1
    exact ⟨f, f1, ⟨f2, m3, m4, m2⟩, fun i hi => (f3 i hi).trans (gate_control (rx_exp φ (pos q) e.amp) i)⟩
  · obtain ⟨f, f1, f2, f3⟩ := eitherMtrx_gate hσ hn (Or.inl hd) hne'
      ⟨⟨Real.cos (φ / 2), 0⟩, ⟨-Real.sin (φ / 2), 0⟩, ⟨Real.sin (φ / 2), 0⟩, ⟨Real.cos (φ / 2), 0⟩⟩ hnd hb false
    obtain ⟨_, m2, m3, m4⟩ := eitherMtrx_meta f1
    refine ⟨f, f1, ⟨f2, m3, m4, m2⟩, fun i hi => (f3 i hi).trans (gate_control ?_ i)⟩
    rw [← ry_exp]
    have : (⟨-Real.sin (φ / 2), 0⟩ : ℂ) = -((Real.sin (φ / 2) : ℝ) : ℂ) := by
      apply Complex.ext
      · rw [Complex.neg_re, Complex.ofReal_re]
      · rw [Complex.neg_im, Complex.ofReal_im, neg_zero]
    rw [← this]
    rfl
  · obtain ⟨f, f1, f2, f3⟩ := mcPhase_ok hσ hn hd hne' hnd hb ⟨Real.cos (φ / 2), -Real.sin (φ / 2)⟩ ⟨Real.cos (φ / 2), Real.sin (φ / 2)⟩
    exact ⟨f, f1, f2, fun i hi => (f3 i hi).trans (gate_control (rz_exp φ (pos q) e.amp) i)⟩

/-- **C79.** What `MCR` does for the identity: the phase `e^{iφ/4}` when all controls are set. -/
theorem mcrHelper_identity {σ : List ℕ → List ℕ} (hσ : IsSched σ) {pos : ℕ → ℕ} {e : Eng} (hn : e.n ≤ 64) (hd : e.doNorm = false)
    (φ : ℝ) {cs : List ℕ} (hne : cs ≠ []) {q : ℕ} (hnd : (cs.map pos ++ [pos q]).Nodup) (hb : ∀ k ∈ cs.map pos ++ [pos q], k < e.n) :
    ∃ e', mcrHelper σ pos e .I φ cs q = some e' ∧ Like e e' ∧
      SameOn e.n e'.amp (underControl (cs.map pos) (fun s i => Complex.exp (((φ / 4 : ℝ) : ℂ) * Complex.I) * s i) e.amp) := by
  obtain ⟨f, f1, f2, f3⟩ := mcPhase_ok hσ hn hd (by simpa using hne) hnd hb (Complex.exp (((φ / 4 : ℝ) : ℂ) * Complex.I))
    (Complex.exp (((φ / 4 : ℝ) : ℂ) * Complex.I))
  refine ⟨f, f1, f2, fun i hi => (f3 i hi).trans (gate_control ?_ i)⟩
  funext i
  simp only [g1, gate, if_true]
  split_ifs <;> ring

/-! ## Exponentials -/

/-- The factor of `UniformParityRZ`, carried back. -/
theorem backs_factor {n : ℕ} {l : Ops} (hd : (l.map (·.1)).Nodup) (hl : ∀ x ∈ l, x.1 < n) (φ : ℝ) (s : ℕ → ℂ) :
    backs l (fun i => parityFactor (-φ) (maskCount n (makeMask ((removeIdentities l).map (·.1))) i) * turns l s i) =
      fun i => (Real.cos φ : ℂ) * s i + Complex.I * (Real.sin φ : ℂ) * paulis l s i := by
  have h1 : (fun i => parityFactor (-φ) (maskCount n (makeMask ((removeIdentities l).map (·.1))) i) * turns l s i) =
      fun i => (Real.cos φ : ℂ) * turns l s i + (Complex.I * (Real.sin φ : ℂ)) * zs l (turns l s) i := by
    funext i
    rw [zs_mask hd hl, parityFactor_cos]
    simp only [Real.cos_neg, Real.sin_neg, re_im]
    by_cases h : maskCount n (makeMask ((removeIdentities l).map (·.1))) i % 2 = 1 <;> simp only [h, if_true, if_false] <;> push_cast <;> ring
  rw [h1, backs_lin, backs_turns hd, backs_zs_turns hd]

theorem ids_mask {pos : ℕ → ℕ} {l : Ops} (hid : ∀ x ∈ l, x.2 ≠ .I → pos x.1 = x.1) :
    (removeIdentities l).map (·.1) = (removeIdentities (at' pos l)).map (·.1) := by
  rw [remove_at, at', List.map_map]
  refine List.map_congr_left fun x hx => ?_
  rw [removeIdentities_eq, List.mem_filter] at hx
  exact (hid x hx.1 (by simpa using hx.2)).symm

theorem single_paulis {l : Ops} {q : ℕ} {b : PauliName} (pos : ℕ → ℕ) (h : removeIdentities l = [(q, b)]) (s : ℕ → ℂ) :
    pauliProduct (l.map fun x => pos x.1) (l.map (·.2)) s = pauliProduct [pos q] [b] s := by
  rw [← product_at, ← paulis_remove, remove_at, h]
  rfl

theorem mem_remove {l : Ops} {x : ℕ × PauliName} (h : x ∈ removeIdentities l) : x ∈ l := (remove_sub l).subset h

/-- **C79, partial.** `Exp` is `e^{iφP}` for the product `P` of the Pauli operators, up to a global phase. Full statement: for every
assignment of ids to positions; with two or more operators the code makes the mask of the ids instead of the positions
(`exp_ids_wrong`), so here the two have to agree; the positions have to be below 32 as in `jointProb_partial`. -/
theorem exp_partial {cpp20 : Bool} {σ : List ℕ → List ℕ} (hσ : IsSched σ) {pos : ℕ → ℕ} {e : Eng} (hn : e.n ≤ 64) (hd : e.doNorm = false)
    {l : Ops} (hl : Names e pos l) (h32 : cpp20 = true ∨ ∀ x ∈ l, pos x.1 < 32)
    (hid : 2 ≤ (removeIdentities l).length → ∀ x ∈ l, x.2 ≠ .I → pos x.1 = x.1) (φ : ℝ) :
    ∃ e', exp cpp20 σ pos e l φ = some e' ∧ Like e e' ∧
      UpToPhase e.n (expPauli φ (l.map fun x => pos x.1) (l.map (·.2)) e.amp) e'.amp := by
  match hl' : l with
  | [] =>
    refine ⟨e, rfl, Like.refl e, Complex.exp (((-φ : ℝ) : ℂ) * Complex.I), Complex.norm_exp_ofReal_mul_I _, fun i _ => ?_⟩
    have h1 : expPauli φ [] [] e.amp i = Complex.exp ((φ : ℂ) * Complex.I) * e.amp i := by
      rw [Complex.exp_mul_I, ← Complex.ofReal_cos, ← Complex.ofReal_sin]
      simp only [expPauli, pauliProduct]
      ring
    simp only [List.map_nil]
    rw [h1, ← mul_assoc, ← Complex.exp_add]
    simp
  | (q0, b0) :: l' =>
    rw [← hl'] at hl h32 hid ⊢
    have hexp : exp cpp20 σ pos e l φ = match removeIdentities l with
        | [] => rHelper σ pos e .I (-2 * φ) q0
        | [(q, b)] => rHelper σ pos e b (-2 * φ) q
        | qs =>
          (transformBasis σ pos e l).bind fun e =>
            (uniformParityRZ cpp20 σ e (makeMask (qs.map (·.1))) (-φ)).bind fun e => revertBasis σ pos e l := by
      rw [hl']; rfl
    have hφ : -(-2 * φ) / 2 = φ := by ring
    rw [hexp]
    match hr : removeIdentities l with
    | [] =>
      have hq : pos q0 < e.n := hl.inside (q0, b0) (by rw [hl']; simp)
      obtain ⟨f, f1, f2, f3⟩ := rHelper_rotates hσ hn hd .I (-2 * φ) hq
      refine ⟨f, f1, f2, ?_⟩
      rw [hφ] at f3
      have : expPauli φ (l.map fun x => pos x.1) (l.map (·.2)) e.amp = expPauli φ [pos q0] [.I] e.amp := by
        funext i
        unfold expPauli
        rw [← product_at, paulis_none (by rw [remove_at, hr]; rfl)]
        rfl
      rw [this]; exact f3
    | [(q, b)] =>
      have hq : pos q < e.n := hl.inside (q, b) (mem_remove (by rw [hr]; simp))
      obtain ⟨f, f1, f2, f3⟩ := rHelper_rotates hσ hn hd b (-2 * φ) hq
      refine ⟨f, f1, f2, ?_⟩
      rw [hφ] at f3
      have : expPauli φ (l.map fun x => pos x.1) (l.map (·.2)) e.amp = expPauli φ [pos q] [b] e.amp := by
        funext i
        unfold expPauli
        rw [single_paulis pos hr]
      rw [this]; exact f3
    | x :: y :: r =>
      dsimp only
      rw [← hr]
      have hid' := hid (by rw [hr]; simp)
      obtain ⟨f, f1, f2, f3⟩ := transform_ok hσ pos l hn hd hl.inside
      obtain ⟨g, g1', g2⟩ := uniformParityRZ_partial hσ (e := f) (cpp20 := cpp20) (by rw [f2.size]; exact hn)
        (mask := makeMask ((removeIdentities l).map (·.1))) (by rw [f2.size, ids_mask hid']; exact hl.mask_lt hl.inside)
        (h32.imp id fun h => by rw [ids_mask hid']; exact hl.mask_lt h) (-φ)
      have hgn : g.n = e.n := g2.n.trans f2.size
      obtain ⟨k, k1, k2, k3⟩ := revert_ok hσ pos l (e := g) (by rw [hgn]; exact hn) (by rw [g2.doNorm, f2.doNorm]; exact hd)
        (fun x hx => by rw [hgn]; exact hl.inside x hx)
      refine ⟨k, by simp only [f1, Option.bind_some, g1', k1], ?_, 1, norm_one, fun i hi => ?_⟩
      · exact f2.trans (Like.trans ⟨g2.n, g2.doNorm, g2.floor, g2.rgp⟩ k2)
      · rw [hgn] at k3
        rw [k3 i hi, one_mul]
        have hg : SameOn e.n g.amp (fun i => parityFactor (-φ) (maskCount e.n (makeMask ((removeIdentities (at' pos l)).map (·.1))) i) *
            turns (at' pos l) e.amp i) := by
          intro i hi
          rw [g2.amp i (by rw [f2.size]; exact hi)]
          dsimp only
          rw [f2.size, f3 i hi, ids_mask hid']
        rw [backs_same hl.lt hg i hi, backs_factor hl.nodup hl.lt]
        dsimp only [expPauli]
        rw [product_at]

/-- **C79, partial.** `MCExp` is `e^{iφP}` under control. Full statement: as for `exp_partial`, and for every product; when all operators
are identities the phase is another one (`mcExp_identity_wrong`); in the longer branch the ids of the controls are used as positions, too. -/
theorem mcExp_partial {cpp20 : Bool} {σ : List ℕ → List ℕ} (hσ : IsSched σ) {pos : ℕ → ℕ} {e : Eng} (hn : e.n ≤ 64) (hd : e.doNorm = false)
    {l : Ops} (hl : Names e pos l) (h32 : cpp20 = true ∨ ∀ x ∈ l, pos x.1 < 32) (hnI : removeIdentities l ≠ [])
    {cs : List ℕ} (hne : cs ≠ []) (hcd : (cs.map pos).Nodup) (hcb : ∀ c ∈ cs, pos c < e.n) (hdis : ∀ c ∈ cs, ∀ x ∈ l, pos c ≠ pos x.1)
    (hid : 2 ≤ (removeIdentities l).length → (∀ x ∈ l, x.2 ≠ .I → pos x.1 = x.1) ∧ ∀ c ∈ cs, pos c = c) (φ : ℝ) :
    ∃ e', mcExp cpp20 σ pos e l φ cs = some e' ∧ Like e e' ∧
      SameOn e.n e'.amp (underControl (cs.map pos) (expPauli φ (l.map fun x => pos x.1) (l.map (·.2))) e.amp) := by
  match hl' : l with
  | [] => exact absurd rfl hnI
  | (q0, b0) :: l' =>
    rw [← hl'] at hl h32 hid hnI hdis ⊢
    have hexp : mcExp cpp20 σ pos e l φ cs = match removeIdentities l with
        | [] => mcrHelper σ pos e .I (-2 * φ) cs q0
        | [(q, b)] => mcrHelper σ pos e b (-2 * φ) cs q
        | qs =>
          (transformBasis σ pos e l).bind fun e =>
            (cUniformParityRZ cpp20 σ e cs (makeMask (qs.map (·.1))) (-φ)).bind fun e => revertBasis σ pos e l := by
      rw [hl']; rfl
    have hφ : -(-2 * φ) / 2 = φ := by ring
    rw [hexp]
    match hr : removeIdentities l with
    | [] => exact absurd hr hnI
    | [(q, b)] =>
      have hm : (q, b) ∈ removeIdentities l := by rw [hr]; simp
      have hq : pos q < e.n := hl.inside (q, b) (mem_remove hm)
      have hbI : b ≠ .I := by
        rw [removeIdentities_eq, List.mem_filter] at hm
        simpa using hm.2
      obtain ⟨f, f1, f2, f3⟩ := mcrHelper_partial hσ hn hd hbI (-2 * φ) hne (q := q) (by
          rw [List.nodup_append]
          refine ⟨hcd, by simp, fun x hx y hy => ?_⟩
          obtain ⟨c, hc, rfl⟩ := List.mem_map.1 hx
          rw [List.mem_singleton] at hy
          rw [hy]
          exact hdis c hc (q, b) (mem_remove hm)) (by
          intro k hk
          rcases List.mem_append.1 hk with h | h
          · obtain ⟨c, hc, rfl⟩ := List.mem_map.1 h; exact hcb c hc
          · rw [List.mem_singleton] at h; rw [h]; exact hq)
      refine ⟨f, f1, f2, ?_⟩
      rw [hφ] at f3
      have : expPauli φ (l.map fun x => pos x.1) (l.map (·.2)) = expPauli φ [pos q] [b] := by
        funext s i
        unfold expPauli
        rw [single_paulis pos hr]
      rw [this]; exact f3
    | x :: y :: r =>
      dsimp only
      rw [← hr]
      have hid' := (hid (by rw [hr]; simp)).1
      have hcs : cs.map pos = cs := by
        have := (hid (by rw [hr]; simp)).2
        calc cs.map pos = cs.map id := List.map_congr_left this
          _ = cs := List.map_id cs
      rw [hcs] at hcd ⊢
      have hcp : ∀ c ∈ cs, pos c = c := (hid (by rw [hr]; simp)).2
      obtain ⟨f, f1, f2, f3⟩ := transform_ok hσ pos l hn hd hl.inside
      obtain ⟨g, g1', g2⟩ := cUniformParityRZ_partial hσ (e := f) (cpp20 := cpp20) (by rw [f2.size]; exact hn) (cs := cs)
        (mask := makeMask ((removeIdentities l).map (·.1))) (by rw [f2.size, ids_mask hid']; exact hl.mask_lt hl.inside)
        (h32.imp id fun h => by rw [ids_mask hid']; exact hl.mask_lt h) hcd
        (fun c hc => by rw [f2.size, ← hcp c hc]; exact hcb c hc) (fun c hc => by
          rw [mask_testBit]
          refine decide_eq_false fun hmem => ?_
          obtain ⟨x, hx, hxc⟩ := List.mem_map.1 hmem
          rw [removeIdentities_eq, List.mem_filter] at hx
          refine hdis c hc x hx.1 ?_
          rw [hid' x hx.1 (by simpa using hx.2), hcp c hc]
          exact hxc.symm) (-φ)
      have hgn : g.n = e.n := g2.n.trans f2.size
      obtain ⟨k, k1, k2, k3⟩ := revert_ok hσ pos l (e := g) (by rw [hgn]; exact hn) (by rw [g2.doNorm, f2.doNorm]; exact hd)
        (fun x hx => by rw [hgn]; exact hl.inside x hx)
      refine ⟨k, by simp only [f1, Option.bind_some, g1', k1], ?_, fun i hi => ?_⟩
      · exact f2.trans (Like.trans ⟨g2.n, g2.doNorm, g2.floor, g2.rgp⟩ k2)
      · rw [hgn] at k3
        rw [k3 i hi]
        have hg : SameOn e.n g.amp (fun i => if AllAre true cs i then
            parityFactor (-φ) (maskCount e.n (makeMask ((removeIdentities (at' pos l)).map (·.1))) i) * turns (at' pos l) e.amp i
            else turns (at' pos l) e.amp i) := by
          intro i hi
          rw [g2.amp i (by rw [f2.size]; exact hi)]
          dsimp only
          rw [f2.size, f3 i hi, ids_mask hid']
        have hig : ∀ x ∈ at' pos l, Ignores (AllAre true cs) x.1 := by
          intro x hx
          obtain ⟨y, hy, rfl⟩ := List.mem_map.1 hx
          exact ignores_allAre fun h => hdis _ h y hy (hcp _ h)
        have hb := backs_cond hig (fun i => parityFactor (-φ) (maskCount e.n (makeMask ((removeIdentities (at' pos l)).map (·.1))) i) *
          turns (at' pos l) e.amp i) (turns (at' pos l) e.amp)
        rw [backs_same hl.lt hg i hi]
        unfold underControl
        have hb' := congrFun hb i
        simp only [backs_factor hl.nodup hl.lt, backs_turns hl.nodup] at hb'
        by_cases hA : AllAre true cs i
        · rw [if_pos hA]; rw [if_pos hA] at hb'
          dsimp only [expPauli]
          rw [← product_at, ← hb']
          congr 2
          funext j
          congr
        · rw [if_neg hA]; rw [if_neg hA] at hb'
          rw [← hb']
          congr 2
          funext j
          congr

/-! ## Disagreements -/

/-- Qubit 0 in `|+⟩`, the others clear. -/
noncomputable def plusFirst (n : ℕ) : Eng := ⟨n, fun i => if i < 2 then ((1 / Real.sqrt 2 : ℝ) : ℂ) else 0, 1, false, true, 0⟩

theorem plusFirst_ne : ((1 / Real.sqrt 2 : ℝ) : ℂ) ≠ 0 := by
  intro h
  have := half_sqrt
  rw [h] at this
  norm_num at this

theorem plusFirst_steady (k : ℕ) : (plusFirst (k + 1)).Steady := by
  refine ⟨?_, fun h => by cases h⟩
  have h2 : Complex.normSq ((1 / Real.sqrt 2 : ℝ) : ℂ) = 1 / 2 := by
    rw [Complex.normSq_ofReal, div_mul_div_comm, Real.mul_self_sqrt (by norm_num)]; norm_num
  have key : ∀ m : ℕ, ∑ i ∈ Finset.range (2 + m), Complex.normSq (if i < 2 then ((1 / Real.sqrt 2 : ℝ) : ℂ) else 0) = 1 := by
    intro m
    induction m with
    | zero => rw [Finset.sum_range_succ, Finset.sum_range_one]; simp only [show (0 : ℕ) < 2 by norm_num, show (1 : ℕ) < 2 by norm_num, if_true, h2]; norm_num
    | succ m ih => rw [← add_assoc, Finset.sum_range_succ, ih, if_neg (by omega)]; simp
  have h3 : 2 ^ (k + 1) = 2 + (2 ^ (k + 1) - 2) := by
    have : 2 ≤ 2 ^ (k + 1) := by rw [pow_succ]; have := Nat.one_le_two_pow (n := k); omega
    omega
  unfold totalProb plusFirst
  dsimp only
  rw [h3]
  exact key _

/-- Against C79: `MCR` of the identity by `2π` under control of a qubit in `|+⟩` gives it the phase `i` instead of `-1`. -/
theorem mcrHelper_identity_wrong {σ : List ℕ → List ℕ} (hσ : IsSched σ) :
    ∃ e', mcrHelper σ id (plusFirst 2) .I (2 * Real.pi) [0] 1 = some e' ∧
      ¬ UpToPhase 2 (underControl [0] (expPauli (-(2 * Real.pi) / 2) [1] [.I]) (plusFirst 2).amp) e'.amp := by
  obtain ⟨f, f1, f2, f3⟩ := mcrHelper_identity hσ (pos := id) (e := plusFirst 2) (by decide) rfl (2 * Real.pi) (cs := [0]) (by simp) (q := 1)
    (by decide) (by decide)
  refine ⟨f, f1, ?_⟩
  rintro ⟨u, _, hu⟩
  have g0 := f3 0 (by decide)
  have g1' := f3 1 (by decide)
  rw [hu 0 (by decide)] at g0
  rw [hu 1 (by decide)] at g1'
  have a0 : ¬ AllAre true [0] 0 := by simp [AllAre]
  have a1 : AllAre true [0] 1 := by simp [AllAre]
  have hI : Complex.exp (((2 * Real.pi / 4 : ℝ) : ℂ) * Complex.I) = Complex.I := by
    rw [show 2 * Real.pi / 4 = Real.pi / 2 by ring]
    push_cast
    exact Complex.exp_pi_div_two_mul_I
  simp only [underControl, List.map_cons, List.map_nil, id, a0, a1, if_true, if_false, hI, expPauli, pauliProduct, pauliGate] at g0 g1'
  have hp : -(2 * Real.pi) / 2 = -Real.pi := by ring
  rw [hp, Real.cos_neg, Real.sin_neg, Real.cos_pi, Real.sin_pi] at g1'
  simp only [plusFirst, show (0 : ℕ) < 2 by norm_num, show (1 : ℕ) < 2 by norm_num, if_true] at g0 g1'
  have hne := plusFirst_ne
  set c := ((1 / Real.sqrt 2 : ℝ) : ℂ)
  have hu1 : u = 1 := mul_right_cancel₀ hne (g0.trans (one_mul c).symm)
  rw [hu1] at g1'
  have h := mul_right_cancel₀ hne (show (-1 : ℂ) * c = Complex.I * c by rw [← g1']; push_cast; ring)
  have := congrArg Complex.im h
  simp at this

/-- Against C79: `MCExp` of the identity by `π` under control of a qubit in `|+⟩` gives it the phase `-i` instead of `-1`. -/
theorem mcExp_identity_wrong {cpp20 : Bool} {σ : List ℕ → List ℕ} (hσ : IsSched σ) :
    ∃ e', mcExp cpp20 σ id (plusFirst 2) [(1, .I)] Real.pi [0] = some e' ∧
      ¬ UpToPhase 2 (underControl [0] (expPauli Real.pi [1] [.I]) (plusFirst 2).amp) e'.amp := by
  obtain ⟨f, f1, f2, f3⟩ := mcrHelper_identity hσ (pos := id) (e := plusFirst 2) (by decide) rfl (-2 * Real.pi) (cs := [0]) (by simp) (q := 1)
    (by decide) (by decide)
  refine ⟨f, f1, ?_⟩
  rintro ⟨u, _, hu⟩
  have g0 := f3 0 (by decide)
  have g1' := f3 1 (by decide)
  rw [hu 0 (by decide)] at g0
  rw [hu 1 (by decide)] at g1'
  have a0 : ¬ AllAre true [0] 0 := by simp [AllAre]
  have a1 : AllAre true [0] 1 := by simp [AllAre]
  have hI : Complex.exp (((-2 * Real.pi / 4 : ℝ) : ℂ) * Complex.I) = -Complex.I := by
    rw [show -2 * Real.pi / 4 = -(Real.pi / 2) by ring, Complex.exp_mul_I, ← Complex.ofReal_cos, ← Complex.ofReal_sin, Real.cos_neg, Real.sin_neg,
      Real.cos_pi_div_two, Real.sin_pi_div_two]
    push_cast; ring
  simp only [underControl, List.map_cons, List.map_nil, id, a0, a1, if_true, if_false, hI, expPauli, pauliProduct, pauliGate] at g0 g1'
  rw [Real.cos_pi, Real.sin_pi] at g1'
  simp only [plusFirst, show (0 : ℕ) < 2 by norm_num, show (1 : ℕ) < 2 by norm_num, if_true] at g0 g1'
  have hne := plusFirst_ne
  set c := ((1 / Real.sqrt 2 : ℝ) : ℂ)
  have hu1 : u = 1 := mul_right_cancel₀ hne (g0.trans (one_mul c).symm)
  rw [hu1] at g1'
  have h := mul_right_cancel₀ hne (show (-1 : ℂ) * c = -Complex.I * c by rw [← g1']; push_cast; ring)
  have := congrArg Complex.im h
  simp at this

/-- The positions of ids 1, 2, 3 after qubit 0 of four was released. -/
def afterRelease (q : ℕ) : ℕ := q - 1

/-- The assignment is what `release` leaves (C43). -/
example : (Capi.release ⟨[100, 101, 102, 103], [(0, 0), (1, 1), (2, 2), (3, 3)]⟩ 0).map
    (fun s => s.map fun s => [1, 2, 3].map (Capi.addr s)) = some (some ([1, 2, 3].map fun q => some (afterRelease q))) := by decide +kernel

/-- Against C79: after a release `Exp` of `ZZ` on two qubits acts on others: the qubit in `|+⟩` at position 0 is named by the call and
is not touched. -/
theorem exp_ids_wrong {cpp20 : Bool} {σ : List ℕ → List ℕ} (hσ : IsSched σ) :
    ∃ e', exp cpp20 σ afterRelease (plusFirst 3) [(1, .Z), (2, .Z)] (Real.pi / 2) = some e' ∧
      ¬ UpToPhase 3 (expPauli (Real.pi / 2) [0, 1] [.Z, .Z] (plusFirst 3).amp) e'.amp := by
  obtain ⟨f, f1, f2⟩ := uniformParityRZ_partial (cpp20 := cpp20) hσ (e := plusFirst 3) (by decide) (mask := 6) (by decide)
    (Or.inr (by norm_num)) (-(Real.pi / 2))
  refine ⟨f, ?_, ?_⟩
  · simp only [exp, removeIdentities, transformBasis, revertBasis, Option.bind_some]
    have : makeMask (List.map (fun x : ℕ × PauliName => x.1) [(1, .Z), (2, .Z)]) = 6 := by decide
    rw [this, f1]
    rfl
  · rintro ⟨u, _, hu⟩
    have g0 := f2.amp 0 (by decide)
    have g1' := f2.amp 1 (by decide)
    rw [hu 0 (by decide)] at g0
    rw [hu 1 (by decide)] at g1'
    have m0 : maskCount (plusFirst 3).n 6 0 = 0 := by show maskCount 3 6 0 = 0; decide
    have m1 : maskCount (plusFirst 3).n 6 1 = 0 := by show maskCount 3 6 1 = 0; decide
    have b0 : Nat.testBit 1 0 = true := by decide
    have b1 : Nat.testBit 1 1 = false := by decide
    have c0 : Nat.testBit 0 0 = false := by decide
    have c1 : Nat.testBit 0 1 = false := by decide
    simp only [m0, m1, parityFactor_cos, expPauli, pauliProduct, pauliGate, gate, b0, b1, c0, c1, if_true, Bool.false_eq_true, if_false,
      Real.cos_neg, Real.sin_neg, Real.cos_pi_div_two, Real.sin_pi_div_two, show ¬ (0 % 2 = 1) by decide] at g0 g1'
    simp only [plusFirst, show (0 : ℕ) < 2 by norm_num, show (1 : ℕ) < 2 by norm_num, if_true, re_im] at g0 g1'
    have hne := plusFirst_ne
    set c := ((1 / Real.sqrt 2 : ℝ) : ℂ)
    push_cast at g0 g1'
    have h0 : u = 1 := by
      have := mul_right_cancel₀ (mul_ne_zero Complex.I_ne_zero hne) (show u * (Complex.I * c) = 1 * (Complex.I * c) by linear_combination g0)
      exact this
    rw [h0] at g1'
    have h := mul_right_cancel₀ (mul_ne_zero Complex.I_ne_zero hne) (show (-1 : ℂ) * (Complex.I * c) = 1 * (Complex.I * c) by linear_combination g1')
    norm_num at h

/-- Against C79: with fewer qubits the same call is rejected, though it names qubits of the register. -/
theorem exp_ids_rejected (cpp20 : Bool) (σ : List ℕ → List ℕ) (φ : ℝ) :
    Names (plusFirst 2) afterRelease [(1, .Z), (2, .Z)] ∧ exp cpp20 σ afterRelease (plusFirst 2) [(1, .Z), (2, .Z)] φ = none := by
  refine ⟨⟨by decide, by intro x hx; simp only [List.mem_cons, List.not_mem_nil, or_false] at hx; rcases hx with rfl | rfl <;> decide⟩, ?_⟩
  simp only [exp, removeIdentities, transformBasis, revertBasis, Option.bind_some]
  have : makeMask (List.map (fun x : ℕ × PauliName => x.1) [(1, .Z), (2, .Z)]) = 6 := by decide
  rw [this]
  unfold uniformParityRZ
  rw [if_pos (by decide)]
  rfl

/-! ## Cases that meet the hypotheses -/

theorem case_names : Names (plusFirst 3) id [(0, .X), (2, .I), (1, .Y)] := by
  refine ⟨by decide, ?_⟩
  intro x hx
  simp only [List.mem_cons, List.not_mem_nil, or_false] at hx
  rcases hx with rfl | rfl | rfl <;> decide

/-- Three operators, one of them the identity. -/
example {P : Par} (hP : P.Ok) : ∃ e', jointProb P true id (plusFirst 3) [(0, .X), (2, .I), (1, .Y)] =
    some (totalProb 3 (eigenPart true [0, 2, 1] [.X, .I, .Y] (plusFirst 3).amp), e') ∧ SameOn 3 e'.amp (plusFirst 3).amp := by
  obtain ⟨f, f1, _, f3⟩ := jointProb_partial hP (cpp20 := true) (e := plusFirst 3) (by decide) (plusFirst_steady 2) rfl case_names (Or.inl rfl)
  exact ⟨f, f1, f3⟩

/-- The draw one half. -/
example {P : Par} (hP : P.Ok) : ∃ (b : Bool) (e' : Eng), measure P false id (plusFirst 3) [(0, .X), (2, .I), (1, .Y)] (1 / 2) =
    some (if b then 1 else 0, e') ∧ totalProb 3 e'.amp = 1 := by
  obtain ⟨b, f, k, f1, _, _, f4, _⟩ := measure_partial hP (cpp20 := false) (e := plusFirst 3) (by decide) (plusFirst_steady 2) rfl rfl case_names
    (Or.inr (by intro x hx; simp only [List.mem_cons, List.not_mem_nil, or_false] at hx; rcases hx with rfl | rfl | rfl <;> decide))
    (r := 1 / 2) (by norm_num) (by norm_num)
  exact ⟨b, f, f1, f4⟩

/-- `e^{iφ X ⊗ Y}`. -/
example {σ : List ℕ → List ℕ} (hσ : IsSched σ) (φ : ℝ) : ∃ e', exp true σ id (plusFirst 3) [(0, .X), (2, .I), (1, .Y)] φ = some e' ∧
    UpToPhase 3 (expPauli φ [0, 2, 1] [.X, .I, .Y] (plusFirst 3).amp) e'.amp := by
  obtain ⟨f, f1, _, f3⟩ := exp_partial hσ (cpp20 := true) (e := plusFirst 3) (by decide) rfl case_names (Or.inl rfl) (fun _ _ _ _ => rfl) φ
  exact ⟨f, f1, f3⟩

/-- One operator: ids and positions may differ. -/
example {σ : List ℕ → List ℕ} (hσ : IsSched σ) (φ : ℝ) : ∃ e', exp true σ afterRelease (plusFirst 3) [(2, .X)] φ = some e' ∧
    UpToPhase 3 (expPauli φ [1] [.X] (plusFirst 3).amp) e'.amp := by
  obtain ⟨f, f1, _, f3⟩ := exp_partial hσ (cpp20 := true) (pos := afterRelease) (e := plusFirst 3) (l := [(2, .X)]) (by decide) rfl
    ⟨by decide, by simp [afterRelease, plusFirst]⟩ (Or.inl rfl) (fun h => absurd h (by decide)) φ
  exact ⟨f, f1, f3⟩

/-- `MCR` about Y with two controls; ids and positions may differ. -/
example {σ : List ℕ → List ℕ} (hσ : IsSched σ) (φ : ℝ) : ∃ e', mcrHelper σ afterRelease (plusFirst 4) .Y φ [1, 3] 2 = some e' ∧
    SameOn 4 e'.amp (underControl [0, 2] (expPauli (-φ / 2) [1] [.Y]) (plusFirst 4).amp) := by
  obtain ⟨f, f1, _, f3⟩ := mcrHelper_partial hσ (pos := afterRelease) (e := plusFirst 4) (by decide) rfl (b := .Y) (by simp) φ (cs := [1, 3])
    (by simp) (q := 2) (by decide) (by decide)
  exact ⟨f, f1, f3⟩

/-- `e^{iφ X ⊗ Y}` under control. -/
example {σ : List ℕ → List ℕ} (hσ : IsSched σ) (φ : ℝ) : ∃ e', mcExp true σ id (plusFirst 4) [(0, .X), (1, .Y)] φ [3] = some e' ∧
    SameOn 4 e'.amp (underControl [3] (expPauli φ [0, 1] [.X, .Y]) (plusFirst 4).amp) := by
  obtain ⟨f, f1, _, f3⟩ := mcExp_partial hσ (cpp20 := true) (pos := id) (e := plusFirst 4) (l := [(0, .X), (1, .Y)]) (cs := [3]) (by decide) rfl
    ⟨by decide, by simp [plusFirst]⟩ (Or.inl rfl) (by decide) (by simp) (by decide) (by simp [plusFirst]) (by simp)
    (fun _ => ⟨fun _ _ _ => rfl, fun _ _ => rfl⟩) φ
  exact ⟨f, f1, f3⟩

end Verif.CapiPauli
