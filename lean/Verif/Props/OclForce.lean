import Verif.Lemmas.OclForce

/-!
# C61: measurement on an OpenCL register

The OpenCL engine does exactly what the CPU engine does, so the theorems of `Verif/Props/EngineMeas.lean` and
`Verif/Props/EngineMeasReg.lean` carry over. `P` is any way for the CPU engine to run its parallel loops.
-/

namespace Verif.Ocl

open Verif.ParFor Verif.Bits Verif.PairFold Verif.Spec Verif.Engine Classical MeasureTheory

variable {R : Rt} {e : Eng} {P : Par}

/-- **C61.** Single-qubit measurement is that of the CPU engine. -/
theorem forceM_same (hR : R.Ok) (hP : P.Ok) (hn : e.n ≤ 64) (he : e.Steady) (q : ℕ) (result doForce doApply : Bool) (r u : ℝ) :
    forceM R e q result doForce doApply r u = Engine.forceM P e q result doForce doApply r u := by
  by_cases hq : q < e.n
  · unfold forceM Engine.forceM
    rw [prob_is hR hn he hq, prob_spec hP hn he hq]
    simp only [Option.bind_some]
    generalize (if doForce = true then result
      else if probIf e.n (fun i => i.testBit q = true) e.amp ≥ 1 then true
      else if probIf e.n (fun i => i.testBit q = true) e.amp ≤ 0 then false
      else decide (r ≤ probIf e.n (fun i => i.testBit q = true) e.amp)) = b
    generalize (if b = true then probIf e.n (fun i => i.testBit q = true) e.amp
      else 1 - probIf e.n (fun i => i.testBit q = true) e.amp) = nrm
    by_cases h1 : nrm ≤ 0
    · rw [if_pos h1, if_pos h1]
    · rw [if_neg h1, if_neg h1]
      by_cases h2 : doApply = true ∧ 1 - nrm > 0
      · rw [if_pos h2, if_pos h2, applyMBit_eq hR hP hn hq, Option.map_some]
      · rw [if_neg h2, if_neg h2]
  · rw [forceM_bounds P e (by omega)]
    unfold forceM prob
    rw [if_pos (by omega)]
    rfl

/-- **C61.** Measuring projects and normalises; a forced outcome of probability zero is refused. -/
theorem forceM_projects' (hR : R.Ok) (hn : e.n ≤ 64) (he : e.Steady) {q : ℕ} (hq : q < e.n) (result doForce : Bool)
    (r u : ℝ) :
    (doForce = true ∧ qProb e q result = 0 ∧ forceM R e q result doForce true r u = none) ∨
    ∃ b e', forceM R e q result doForce true r u = some (b, e') ∧ (doForce = true → b = result) ∧ 0 < qProb e q b ∧
      e'.n = e.n ∧ e'.Steady ∧ Collapsed e.n (fun i => i.testBit q = b) e.amp e'.amp := by
  have hP : Par.Ok ⟨id, 1, fun _ => 0⟩ := ⟨fun _ => List.Perm.refl _, by simp⟩
  rw [forceM_same hR hP hn he]
  exact forceM_projects hP hn he hq result doForce r u

/-- **C61.** The outcome is drawn with the Born probability. -/
theorem forceM_born' (hR : R.Ok) (hn : e.n ≤ 64) (he : e.Steady) {q : ℕ} (hq : q < e.n) (result doApply b : Bool) (u : ℝ) :
    volume {r : ℝ | 0 ≤ r ∧ r < 1 ∧ ∃ e', forceM R e q result false doApply r u = some (b, e')} =
      ENNReal.ofReal (qProb e q b) := by
  have hP : Par.Ok ⟨id, 1, fun _ => 0⟩ := ⟨fun _ => List.Perm.refl _, by simp⟩
  simp only [forceM_same hR hP hn he]
  exact forceM_born hP hn he hq result doApply b u

/-- **C61.** Measuring again, on any device, gives the same outcome and changes nothing. -/
theorem forceM_repeats' {R' : Rt} (hR : R.Ok) (hR' : R'.Ok) {e' : Eng} (hn : e.n ≤ 64) (he : e.Steady) {q : ℕ}
    (hq : q < e.n) {result doForce b : Bool} {r u : ℝ} (hm : forceM R e q result doForce true r u = some (b, e'))
    (result' doApply' : Bool) (r' u' : ℝ) :
    prob R' e' q = some (if b then 1 else 0, e') ∧
    forceM R' e' q result' false doApply' r' u' = some (b, e') := by
  have hP : Par.Ok ⟨id, 1, fun _ => 0⟩ := ⟨fun _ => List.Perm.refl _, by simp⟩
  rcases forceM_projects' hR hn he hq result doForce r u with ⟨_, _, h⟩ | ⟨b', e'', h, _, _, h4, h5, _⟩
  · rw [h] at hm; cases hm
  · rw [h] at hm
    obtain ⟨rfl, rfl⟩ : b' = b ∧ e'' = e' := by simpa using hm
    rw [forceM_same hR hP hn he] at h
    obtain ⟨k1, k2⟩ := forceM_repeats hP hP hn he hq h result' doApply' r' u'
    rw [forceM_same hR' hP (by omega) h5, prob_is hR' (by omega) h5 (by omega)]
    rw [prob_spec hP (by omega) h5 (by omega)] at k1
    exact ⟨k1, k2⟩

theorem values_sub (bits : List ℕ) (values : List Bool) (q : ℕ)
    (h : ((bits.zip values).foldl (fun r (p : ℕ × Bool) => if p.2 then r ||| pow2 p.1 else r) 0).testBit q = true) :
    q ∈ bits := by
  change ((bits.zip values).foldl (fun r (x : ℕ × Bool) => match x with | (b, v) => if v then r ||| pow2 b else r) 0).testBit
    q = true at h
  rw [values_bits] at h
  simp only [Nat.zero_testBit, Bool.false_or, decide_eq_true_eq] at h
  exact (List.of_mem_zip h).1

theorem sub_and {bits : List ℕ} {v : ℕ} (hv : ∀ q, v.testBit q = true → q ∈ bits) : v &&& maskOf bits = v := by
  apply Nat.eq_of_testBit_eq
  intro k
  rw [Nat.testBit_and, testBit_maskOf]
  cases hk : v.testBit k
  · simp
  · simp [hv k hk]

/-- **C61.** Measuring listed qubits is as on the CPU engine, provided that the buffers can be created: not all the qubits
(unless the device is large), and some qubit. -/
theorem forceMBits_same (hR : R.Ok) (hP : P.Ok) (hn : e.n ≤ 64) (he : e.Steady) (fresh : ℕ → ℝ) {bits : List ℕ}
    (hnd : bits.Nodup) (h0 : bits ≠ [])
    (hall : 2 ^ bits.length * 2 ^ bits.length < R.d.count ∨ bits.length < e.n ∨ bits.length = 1) (values : List Bool)
    (hvals : values = [] ∨ bits.length = values.length) (hb : ∀ b ∈ bits, b < e.n) (doApply : Bool) (r u : ℝ) :
    forceMBits R fresh e bits values doApply r u = Engine.forceMBits P e bits values doApply r u := by
  have hm := maskOf_lt hb
  have hml : (maskQubits (maskOf bits)).length = bits.length := by
    rw [maskQubits_maskOf hnd]; exact (List.mergeSort_perm _ _).length_eq
  by_cases hl : bits.length = 1
  · obtain ⟨b, rfl⟩ := List.length_eq_one_iff.1 hl
    unfold forceMBits Engine.forceMBits
    simp only [forceM_same hR hP hn he]
  · rw [forceMBits_many hl hvals hb]
    have e1 : forceMBits R fresh e bits values doApply r u =
      (let powers := sortPows (bits.map pow2)
       let regMask := maskOf bits
       if values ≠ [] then
        let result := (bits.zip values).foldl (fun r (b, v) => if v then r ||| pow2 b else r) 0
        (probMask R e regMask result).bind fun (nrmlzr, e) =>
          if nrmlzr = 0 then none
          else if 1 - nrmlzr > 0 then
            (applyMReg R e regMask result (normFactor e u nrmlzr)).map fun e => (result, e)
          else some (result, e)
       else
        (normIf R e).bind fun e =>
        (probMaskAll R fresh e regMask).bind fun (probs, e) =>
        (sampleBits probs (2 ^ bits.length) r).bind fun (res, nrmlzr) =>
          if nrmlzr = 0 then none
          else
            let result := spreadBits powers res
            if doApply ∧ 1 - nrmlzr > 0 then
              (applyMReg R e regMask result (normFactor e u nrmlzr)).map fun e => (result, e)
            else some (result, e)) := by
      unfold forceMBits maskOf
      rw [if_neg (by rintro ⟨h1, h2⟩; rcases hvals with h | h; exact h1 h; exact h2 h),
        if_neg (by rintro ⟨b, hb1, hb2⟩; have := hb b hb1; omega)]
      match bits, hl with
      | [], _ => rfl
      | [b], hl => exact absurd rfl hl
      | a :: b :: c, _ => rfl
    rw [e1]
    simp only []
    by_cases hv : values = []
    · rw [if_neg (by simpa using hv), if_neg (by simpa using hv), normIf_steady' he, normIf_steady he, Option.bind_some]
      have hne : maskOf bits ≠ 0 := by
        obtain ⟨b, hb'⟩ := List.exists_mem_of_ne_nil _ h0
        intro h
        have := testBit_maskOf bits b
        rw [h] at this
        simp [hb'] at this
      obtain ⟨a, ha, hav⟩ := probMaskAll_is hR hn he hm (by
        rw [hml]
        rcases hall with h | h | h
        · exact Or.inl h
        · refine Or.inr ⟨hne, fun hc => ?_⟩
          have hlc := length_compl hm
          rw [hc, Nat.xor_self, maskQubits_zero, List.length_nil, ← hc, hml] at hlc
          omega
        · exact absurd h hl) fresh
      rw [ha, Option.bind_some]
      simp only []
      rw [hml] at hav
      rw [sampleBits_congr (b := Engine.probMaskAll e (maskOf bits)) (fun v hv => by rw [hav v hv, probMaskAll_spec he])
        (Nat.two_pow_pos _)]
      cases sampleBits (Engine.probMaskAll e (maskOf bits)) (2 ^ bits.length) r with
      | none => rfl
      | some st =>
        obtain ⟨res, nrm⟩ := st
        simp only [Option.bind_some]
        by_cases h1 : nrm = 0
        · rw [if_pos h1, if_pos h1]
        · rw [if_neg h1, if_neg h1]
          by_cases h2 : doApply = true ∧ 1 - nrm > 0
          · rw [if_pos h2, if_pos h2, applyMReg_eq hR hP hm, Option.map_some]
          · rw [if_neg h2, if_neg h2]
    · have hne : maskOf bits ≠ 0 := by
        obtain ⟨b, hb'⟩ := List.exists_mem_of_ne_nil _ h0
        intro h
        have := testBit_maskOf bits b
        rw [h] at this
        simp [hb'] at this
      rw [if_pos hv, if_pos hv]
      have hsub := sub_and (values_sub bits values)
      rw [probMask_is hR hn he hm hne hsub, probMask_spec hP hn he hm hsub]
      simp only [Option.bind_some]
      split_ifs
      · rfl
      · rw [applyMReg_eq hR hP hm, Option.map_some]
      · rfl

/-- **C61.** Measuring several qubits returns values of positive probability and projects. -/
theorem forceMBits_measures' (hR : R.Ok) (hn : e.n ≤ 64) (he : e.Steady) (fresh : ℕ → ℝ) {bits : List ℕ}
    (hnd : bits.Nodup) (h0 : bits ≠ [])
    (hall : 2 ^ bits.length * 2 ^ bits.length < R.d.count ∨ bits.length < e.n ∨ bits.length = 1)
    (hb : ∀ b ∈ bits, b < e.n) {r : ℝ} (hr0 : 0 < r) (hr1 : r < 1) (u : ℝ) :
    ∃ v e', forceMBits R fresh e bits [] true r u = some (v, e') ∧ Measured e bits v e' := by
  have hP : Par.Ok ⟨id, 1, fun _ => 0⟩ := ⟨fun _ => List.Perm.refl _, by simp⟩
  rw [forceMBits_same hR hP hn he fresh hnd h0 hall [] (Or.inl rfl) hb]
  exact forceMBits_measures hP hn he hnd hb hr0 hr1 u

/-- **C61.** Several qubits are drawn with their joint Born probability. -/
theorem forceMBits_born' (hR : R.Ok) (hn : e.n ≤ 64) (he : e.Steady) (fresh : ℕ → ℝ) {bits : List ℕ}
    (hnd : bits.Nodup) (h0 : bits ≠ []) (hl : bits.length ≠ 1)
    (hall : 2 ^ bits.length * 2 ^ bits.length < R.d.count ∨ bits.length < e.n)
    (hb : ∀ b ∈ bits, b < e.n) (doApply : Bool) (u : ℝ) {v : ℕ} (hv : ∀ q, v.testBit q = true → q ∈ bits) :
    volume {r : ℝ | 0 < r ∧ r < 1 ∧ ∃ e', forceMBits R fresh e bits [] doApply r u = some (v, e')} =
      ENNReal.ofReal (probIf e.n (Agrees bits v) e.amp) := by
  have hP : Par.Ok ⟨id, 1, fun _ => 0⟩ := ⟨fun _ => List.Perm.refl _, by simp⟩
  simp only [forceMBits_same hR hP hn he fresh hnd h0 (hall.imp id Or.inl) [] (Or.inl rfl) hb]
  exact forceMBits_born hP he hnd hb hl doApply u hv

/-- **C61 fails**: measuring all the qubits of a register together throws (unless the register is tiny). -/
theorem forceMBits_all_wrong (he : e.Steady) (hn1 : e.n ≠ 1) (hc : R.d.count ≤ 2 ^ e.n * 2 ^ e.n) (fresh : ℕ → ℝ)
    (doApply : Bool) (r u : ℝ) : forceMBits R fresh e (List.range e.n) [] doApply r u = none := by
  have hmask : maskOf (List.range e.n) = 2 ^ e.n - 1 := by
    apply Nat.eq_of_testBit_eq
    intro k
    rw [testBit_maskOf, Nat.testBit_two_pow_sub_one]
    simp
  have hfull := probMaskAll_full he hc fresh
  rw [← hmask] at hfull
  unfold forceMBits
  unfold maskOf at hfull
  rw [if_neg (by simp), if_neg (by rintro ⟨b, h1, h2⟩; rw [List.mem_range] at h1; omega)]
  generalize hbits : List.range e.n = bits at *
  have hlen : bits.length ≠ 1 := by rw [← hbits, List.length_range]; exact hn1
  match bits, hlen with
  | [], _ => 
    simp only [ne_eq, not_true_eq_false, if_false]
    rw [normIf_steady' he, Option.bind_some, hfull, Option.bind_none]
  | [b], hl => exact absurd rfl hl
  | a :: b :: c, _ =>
    simp only [ne_eq, not_true_eq_false, if_false]
    rw [normIf_steady' he, Option.bind_some, hfull, Option.bind_none]

/-- **C61.** Register measurement is that of the CPU engine (a forced measurement of no qubits is refused). -/
theorem forceMReg_same (hR : R.Ok) (hP : P.Ok) (hn : e.n < 64) (he : e.Steady) (fresh : ℕ → ℝ) {start length result : ℕ}
    (hr : start + length ≤ e.n) {doForce : Bool} (hf : doForce = true → length ≠ 0 ∧ result < 2 ^ length) (doApply : Bool)
    (r u : ℝ) :
    forceMReg R fresh e start length result doForce doApply r u =
      Engine.forceMReg P e start length result doForce doApply r u := by
  have hmlt : (2 ^ length - 1) <<< start < 2 ^ e.n := by
    rw [lt_two_pow_iff_testBit]
    intro k hk
    rw [Nat.testBit_shiftLeft, Nat.testBit_two_pow_sub_one]
    simp; omega
  unfold forceMReg Engine.forceMReg
  by_cases hbad : Utils.isBadBitRange start length e.n = true
  · rw [if_pos hbad, if_pos hbad]
  · rw [if_neg hbad, if_neg hbad]
    by_cases h1 : length = 1
    · rw [if_pos h1, if_pos h1, forceM_same hR hP (by omega) he]
    · rw [if_neg h1, if_neg h1]
      simp only []
      obtain ⟨x, nrm, hx1, hx2⟩ : ∃ x nrm,
          (if doForce = true then (probMask R e ((2 ^ length - 1) <<< start) (result <<< start)).map
            fun (p, e) => ((result, p), e)
          else (normIf R e).bind fun e => (probRegAll R fresh e start length).map fun (probs, e) =>
            (sampleReg probs (2 ^ length) r, e)) = some ((x, nrm), e) ∧
          (if doForce = true then (Engine.probMask P e ((2 ^ length - 1) <<< start) (result <<< start)).map
            fun (p, e) => ((result, p), e)
          else some (sampleReg (Engine.probRegAll (Engine.normIf P.σ e) start length) (2 ^ length) r,
            Engine.normIf P.σ e)) = some ((x, nrm), e) := by
        cases doForce with
        | true =>
          obtain ⟨hl, hres⟩ := hf rfl
          have hsub : (result <<< start) &&& ((2 ^ length - 1) <<< start) = result <<< start := by
            rw [regMask_iff hres]
            unfold field
            rw [Nat.shiftLeft_eq, Nat.mul_div_cancel _ (Nat.two_pow_pos _), Nat.mod_eq_of_lt hres]
          have hm0 : (2 ^ length - 1) <<< start ≠ 0 := by
            intro h
            have := congrArg (fun z => z.testBit start) h
            simp [Nat.testBit_shiftLeft] at this
            exact hl this
          rw [if_pos rfl, if_pos rfl, probMask_is hR (by omega) he hmlt hm0 hsub, probMask_spec hP (by omega) he hmlt hsub]
          exact ⟨_, _, rfl, rfl⟩
        | false =>
          rw [if_neg (by simp), if_neg (by simp), normIf_steady' he, normIf_steady he, Option.bind_some]
          obtain ⟨a, ha, hav⟩ := probRegAll_is hR (by omega) he hr fresh
          refine ⟨(sampleReg (Engine.probRegAll e start length) (2 ^ length) r).1,
            (sampleReg (Engine.probRegAll e start length) (2 ^ length) r).2, ?_, rfl⟩
          rw [ha, Option.map_some]
          simp only []
          rw [sampleReg_congr (a := a) (b := Engine.probRegAll e start length)
            (fun v hv => by rw [hav v hv, probRegAll_spec he])]
      rw [hx1, hx2]
      simp only [Option.bind_some, applyMReg_eq hR hP hmlt, Option.map_some]

/-- **C61.** Measuring a register returns a value of positive probability and projects. -/
theorem forceMReg_measures' (hR : R.Ok) (hn : e.n < 64) (he : e.Steady) (fresh : ℕ → ℝ) {start length : ℕ}
    (hr : start + length ≤ e.n) (result : ℕ) {r : ℝ} (h0 : 0 < r) (h1 : r < 1) (u : ℝ) :
    ∃ v e', forceMReg R fresh e start length result false true r u = some (v, e') ∧ MeasuredReg e start length v e' := by
  have hP : Par.Ok ⟨id, 1, fun _ => 0⟩ := ⟨fun _ => List.Perm.refl _, by simp⟩
  rw [forceMReg_same hR hP hn he fresh hr (by simp)]
  exact forceMReg_measures hP hn he hr result h0 h1 u

/-- **C61.** The value of a register is drawn with its Born probability. -/
theorem forceMReg_born' (hR : R.Ok) (hn : e.n < 64) (he : e.Steady) (fresh : ℕ → ℝ) {start length v : ℕ}
    (hr : start + length ≤ e.n) (hl : length ≠ 1) (hv : v < 2 ^ length) (result : ℕ) (u : ℝ) :
    volume {r : ℝ | 0 < r ∧ r < 1 ∧ ∃ e', forceMReg R fresh e start length result false true r u = some (v, e')} =
      ENNReal.ofReal (regProb e start length v) := by
  have hP : Par.Ok ⟨id, 1, fun _ => 0⟩ := ⟨fun _ => List.Perm.refl _, by simp⟩
  simp only [forceMReg_same hR hP hn he fresh hr (show false = true → _ by simp)]
  exact forceMReg_born hP hn he hr hl hv result u

/-! ## Measuring everything -/

theorem mAllLoop_same (he : e.Steady) (r : ℝ) : ∀ (k perm : ℕ) (tot : ℝ) (last : ℕ), perm + k ≤ 2 ^ e.n →
    mAllLoop e.amp r k perm tot last = Engine.mAllLoop e r k perm tot last := by
  intro k
  induction k with
  | zero => intro perm tot last _; rfl
  | succ k ih =>
    intro perm tot last h
    rw [mAllLoop, Engine.mAllLoop, Engine.probAll_eq he.1 (by omega)]
    simp only []
    rw [ih _ _ _ (by omega), ih _ _ _ (by omega)]

/-- **C61.** `MAll` of a normalised register is that of the CPU engine. -/
theorem mAll_same (he : e.Steady) (r u : ℝ) : mAll e r u = Engine.mAll P e r u := by
  unfold mAll Engine.mAll
  rw [normIf_steady he]
  simp only []
  rw [mAllLoop_same he r _ _ _ _ (by omega)]

/-- **C61.** `MAll` of a normalised register draws a basis state with its Born probability and leaves it. -/
theorem mAll_measures' (he : e.Steady) {r : ℝ} (h0 : 0 ≤ r) (h1 : r < 1) (u : ℝ) :
    (mAll e r u).1 < 2 ^ e.n ∧ 0 < Complex.normSq (e.amp (mAll e r u).1) ∧ (mAll e r u).2.n = e.n ∧
      (mAll e r u).2.Steady ∧ Collapsed e.n (fun i => i = (mAll e r u).1) e.amp (mAll e r u).2.amp := by
  rw [mAll_same (P := ⟨id, 1, fun _ => 0⟩) he]
  exact mAll_measures he h0 h1 u

theorem mAll_born' (he : e.Steady) (u : ℝ) {x : ℕ} (hx : x < 2 ^ e.n) :
    volume {r : ℝ | 0 ≤ r ∧ r < 1 ∧ (mAll e r u).1 = x} = ENNReal.ofReal (Complex.normSq (e.amp x)) := by
  simp only [mAll_same (P := ⟨id, 1, fun _ => 0⟩) he]
  exact mAll_born he u hx

/-- **C61 fails**: `MAll` does not normalise first. After `SetQuantumState` with the amplitudes `(1, 1)`, both outcomes have
probability 1/2, but the outcome is 0 whatever is drawn. -/
theorem mAll_pending_wrong (hR : R.Ok) : ∃ e : Eng, setQuantumState R ⟨1, fun _ => 0, 1, true, false, 0⟩ (fun _ => 1) = some e ∧
    (∃ e', normIf R e = some e' ∧ qProb e' 0 true = 1 / 2) ∧ ∀ r u : ℝ, r < 1 → (mAll e r u).1 = 0 := by
  obtain ⟨e, h1, h2, h3, h4, h5, h6, h7⟩ := updateRunningNorm_total (d := R.d) (τ := R.τ) hR.d hR.τ
    (e := ⟨1, fun _ => 1, 1, true, false, 0⟩) (le_refl _)
  refine ⟨e, h1, ?_, ?_⟩
  · have hn : e.n = 1 := h2
    have ha : ∀ i < 2, e.amp i = 1 := fun i hi => h6 i (by simpa using hi)
    have ht : totalProb e.n e.amp = 2 := by
      rw [hn]; unfold totalProb
      rw [show (2 : ℕ) ^ 1 = 2 from rfl, Finset.sum_range_succ, Finset.sum_range_one, ha 0 (by norm_num), ha 1 (by norm_num)]
      norm_num
    have hrn : e.rn = totalProb e.n e.amp := by
      rw [h7, ht]; unfold totalProb
      simp [Finset.sum_range_succ]
    obtain ⟨e', k1, k2, k3, k4, k5⟩ := normalizeState_unit (d := R.d) (σ := R.σ) (τ := R.τ) hR.d hR.σ hR.τ R.old (e := e)
      (by rw [h4]) (Or.inl hrn) (by rw [ht]; norm_num)
    refine ⟨e', ?_, ?_⟩
    · unfold normIf
      rw [h3, if_pos rfl, k1]
    · unfold qProb probIf
      rw [k2, hn, show (2 : ℕ) ^ 1 = 2 from rfl, Finset.sum_range_succ, Finset.sum_range_one]
      rw [k5 1 (by rw [hn]; norm_num), ha 1 (by norm_num), ht]
      simp [Complex.normSq_ofReal, Real.mul_self_sqrt]
  · intro r u hr
    have hn : e.n = 1 := h2
    have ha : e.amp 0 = 1 := h6 0 (by norm_num)
    unfold mAll
    rw [hn]
    simp only [pow_one]
    rw [mAllLoop, ha]
    simp

/-! ## Non-trivial cases -/

example : Rt.Ok ⟨⟨64, 32⟩, List.reverse, List.reverse, ⟨fun _ => 7, fun _ => 5, fun _ => 3⟩⟩ ∧
    Eng.Steady ⟨3, fun i => if i = 1 then 3 / 5 else if i = 6 then 4 / 5 * Complex.I else 0, 1, true, true, 0⟩ ∧
    [2, 0].Nodup ∧ [2, 0].length < 3 := by
  refine ⟨⟨⟨by norm_num, 5, by norm_num⟩, fun l => List.reverse_perm l, fun l => List.reverse_perm l⟩, ⟨?_, fun _ => rfl⟩, by decide,
    by decide⟩
  unfold totalProb
  simp [Finset.sum_range_succ, Complex.normSq_apply]
  norm_num

end Verif.Ocl
