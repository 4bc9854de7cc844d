import Verif.Lemmas.OclMeas

/-!
# C61: probabilities and measurement on an OpenCL register

`Rt.Ok R` says that the device can launch kernels and that the schedules run every work-item once; `e.Steady` that the
register is normalised (as a register with pending normalisation is after `NormalizeState`). The measurement theorems say
that the OpenCL engine does exactly what the CPU engine does, so every theorem of `Verif/Props/EngineMeas.lean` and
`Verif/Props/EngineMeasReg.lean` carries over; the main ones are restated.
-/

namespace Verif.Ocl

open Verif.ParFor Verif.Bits Verif.PairFold Verif.Spec Verif.Engine Classical MeasureTheory

variable {R : Rt} {e : Eng}

/-! ## Probabilities -/

theorem probx_eq (hR : R.Ok) (he : e.Steady) (term : (ℕ → ℕ) → (ℕ → ℂ) → ℕ → ℝ) {a : ℕ} {l : List ℕ} {p : ℕ → Prop}
    (h : ∀ ul : ℕ → ℕ, (∀ i < 4, ul i = arr (2 ^ a :: l) i) →
      ∑ x ∈ Finset.range (2 ^ a), term ul e.amp x = probIf e.n p e.amp) :
    probx R e term (2 ^ a :: l) = some (probIf e.n p e.amp, e) := by
  unfold probx
  rw [normIf_steady' he]
  simp only [Option.bind_some]
  generalize hul : writeBuf 4 (arr (2 ^ a :: l)) R.old.ul = ul
  have hi : ∀ i < 4, ul i = arr (2 ^ a :: l) i := by
    intro i hi; rw [← hul, writeBuf, if_pos hi]
  have h0 : ul 0 = 2 ^ a := by rw [hi 0 (by norm_num)]; rfl
  rw [h0, reduceKernel_eq' hR.d hR.τ, h ul hi, Option.map_some, clamp_probIf he.1]

theorem probAll_eq' (he : e.Steady) {i : ℕ} (hi : i < 2 ^ e.n) : probAll R e i = some (Complex.normSq (e.amp i), e) := by
  unfold probAll
  rw [normIf_steady' he, Option.bind_some, if_neg (by omega)]
  have := Engine.probAll_eq he.1 hi
  unfold Engine.probAll at this
  rw [this]

/-- **C61.** `Prob` is the probability that the qubit is 1. -/
theorem prob_is (hR : R.Ok) (hn : e.n ≤ 64) (he : e.Steady) {q : ℕ} (hq : q < e.n) :
    prob R e q = some (probIf e.n (fun i => i.testBit q = true) e.amp, e) := by
  unfold prob
  rw [if_neg (by omega)]
  by_cases h1 : e.n = 1
  · rw [if_pos h1, probAll_eq' he (by rw [h1]; norm_num)]
    have hq0 : q = 0 := by omega
    subst hq0
    unfold probIf
    rw [h1]
    simp [Finset.sum_range_succ]
  · rw [if_neg h1, half_eq (by omega)]
    exact probx_eq hR he _ fun ul hul => sum_probTerm hn hq (by rw [hul 1 (by norm_num)]; rfl) _

/-- **C61.** `CProb` and `ACProb` are the conditional probabilities. -/
theorem ctrlOrAntiProb_is (hR : R.Ok) (hn : e.n ≤ 64) (he : e.Steady) {c t : ℕ} (hc : c < e.n) (ht : t < e.n) (hct : c ≠ t)
    (b : Bool) (hpos : 0 < qProb e c b) :
    ctrlOrAntiProb R e b c t =
      some (probIf e.n (fun i => i.testBit c = b ∧ i.testBit t = true) e.amp / qProb e c b, e) := by
  have hb : (if b = true then probIf e.n (fun i => i.testBit c = true) e.amp
      else 1 - probIf e.n (fun i => i.testBit c = true) e.amp) = qProb e c b := by
    cases b
    · exact qProb_false he c
    · rfl
  unfold ctrlOrAntiProb
  rw [prob_is hR hn he hc, Option.bind_some]
  simp only [hb]
  rw [if_neg (by linarith)]
  have hle : qProb e c b ≤ 1 := by
    have := probIf_le e.n (fun i => i.testBit c = b) e.amp
    rw [he.1] at this
    exact this
  by_cases h1 : 1 - qProb e c b ≤ 0
  · have hq1 : qProb e c b = 1 := by linarith
    rw [if_pos h1, prob_is hR hn he ht, hq1, div_one]
    congr 2
    have hz : probIf e.n (fun i => ¬ i.testBit c = b) e.amp = 0 := by
      have := probIf_add_not e.n (fun i => i.testBit c = b) e.amp
      rw [he.1] at this
      unfold qProb at hq1
      linarith
    unfold probIf
    apply Finset.sum_congr rfl
    intro i hi
    by_cases h : i.testBit c = b
    · simp [h]
    · rw [probIf_eq_zero hz (Finset.mem_range.1 hi) h]; simp
  · rw [if_neg h1, if_neg (by omega), shr_eq (by omega),
      probx_eq hR he _ (p := fun i => i.testBit c = b ∧ i.testBit t = true) fun ul hul =>
        sum_cprobTerm hn hc ht hct b (by rw [hul 1 (by norm_num)]; rfl) (by rw [hul 2 (by norm_num)]; rfl)
          (by rw [hul 3 (by norm_num)]; rfl) _]
    rw [Option.map_some]
    congr 2
    apply clampProb_id
    · exact div_nonneg (probIf_nonneg _ _ _) hpos.le
    · rw [div_le_one hpos]
      show probIf _ _ _ ≤ _
      unfold qProb probIf
      apply Finset.sum_le_sum
      intro i _
      by_cases h : i.testBit c = b
      · by_cases h' : i.testBit t = true
        · simp [h, h']
        · simp [h, h', Complex.normSq_nonneg]
      · simp [h]

/-- **C61.** `ProbReg` is the marginal probability of the register value. -/
theorem probReg_is (hR : R.Ok) (hn : e.n ≤ 64) (he : e.Steady) {start length perm : ℕ} (hr : start + length ≤ e.n)
    (hp : perm < 2 ^ length) : probReg R e start length perm = some (regProb e start length perm, e) := by
  unfold probReg regProb
  have hlt : ∀ i < 2 ^ (e.n - length), insertAt start length perm i < 2 ^ 64 := fun i hi =>
    lt_of_lt_of_le (insertAt_lt hp hr hi) (Nat.pow_le_pow_right (by norm_num) hn)
  by_cases h : start = 0 ∧ e.n = length
  · rw [if_pos h, probAll_eq' he (by rw [h.2]; exact hp)]
    congr 2
    obtain ⟨rfl, h⟩ := h
    have := probIf_field hr hp e.amp
    rw [← this, h, Nat.sub_self]
    simp [insertAt]
  · rw [if_neg h, shr_eq (by omega)]
    refine probx_eq hR he _ fun ul hul => ?_
    have h1 : ul 1 = perm <<< start % 2 ^ 64 := by rw [hul 1 (by norm_num)]; rfl
    have h2 : ul 2 = start := by rw [hul 2 (by norm_num)]; rfl
    have h3 : ul 3 = length := by rw [hul 3 (by norm_num)]; rfl
    refine Eq.trans (Finset.sum_congr rfl fun i hi => ?_) (probIf_field hr hp e.amp)
    unfold probregTerm
    rw [h1, h2, h3, shift_lt hp (hlt i (Finset.mem_range.1 hi)), regIdx_or hp (hlt i (Finset.mem_range.1 hi))]

theorem foldl_sum (f : ℕ → ℝ) (N : ℕ) : (List.range N).foldl (fun t x => t + f x) 0 = ∑ x ∈ Finset.range N, f x := by
  rw [foldl_add_eq, zero_add]
  exact sum_listRange N f

/-- **C61.** `ProbRegAll` fills the array with the marginal distribution of the register. -/
theorem probRegAll_is (hR : R.Ok) (hn : e.n ≤ 64) (he : e.Steady) {start length : ℕ} (hr : start + length ≤ e.n)
    (fresh : ℕ → ℝ) :
    ∃ a, probRegAll R fresh e start length = some (a, e) ∧ ∀ v < 2 ^ length, a v = regProb e start length v := by
  unfold probRegAll
  rw [normIf_steady' he, Option.bind_some]
  simp only []
  generalize hul : writeBuf 4 (arr [2 ^ length, 2 ^ e.n >>> length, start, length]) R.old.ul = ul
  have h0 : ul 0 = 2 ^ length := by rw [← hul]; rfl
  have h1 : ul 1 = 2 ^ (e.n - length) := by rw [← hul, ← shr_eq (by omega)]; rfl
  have h2 : ul 2 = start := by rw [← hul]; rfl
  have h3 : ul 3 = length := by rw [← hul]; rfl
  rw [h0]
  have := launch_update hR length (fun v _ => (List.range (ul 1)).foldl (fun t lcv2 =>
    t + Complex.normSq (e.amp (regIdx (ul 2) (ul 3) lcv2 ||| (v <<< ul 2 % 2 ^ 64)))) 0) fresh
  rw [show (launch R (2 ^ length) (2 ^ length) (probregallStep ul e.amp) fresh) = _ from this, Option.map_some]
  refine ⟨_, rfl, fun v hv => ?_⟩
  rw [if_pos hv, foldl_sum, h1, h2, h3]
  refine Eq.trans (Finset.sum_congr rfl fun i hi => ?_) (probIf_field hr hv e.amp)
  have hlt := lt_of_lt_of_le (insertAt_lt hv hr (Finset.mem_range.1 hi)) (Nat.pow_le_pow_right (by norm_num) hn)
  rw [shift_lt hv hlt, regIdx_or hv hlt]

/-- **C61.** `ProbMask` is the probability of the masked pattern. A mask of no qubits is refused: `probMask_none`. -/
theorem probMask_is (hR : R.Ok) (hn : e.n ≤ 64) (he : e.Steady) {mask perm : ℕ} (hm : mask < 2 ^ e.n) (h0 : mask ≠ 0)
    (hp : perm &&& mask = perm) :
    probMask R e mask perm = some (probIf e.n (fun i => i &&& mask = perm) e.amp, e) := by
  have hb : ∀ q ∈ maskQubits mask, q < e.n := by
    intro q hq
    by_contra h
    rw [mask_mem, lt_two_pow_iff_testBit.1 hm q (by omega)] at hq
    cases hq
  have hl := length_le_of_pairwise_lt _ e.n (maskQubits_sorted mask) hb
  have hlen : (maskPowers mask).length = (maskQubits mask).length := by rw [maskPowers_eq, List.length_map]
  have hne : maskPowers mask ≠ [] := by rw [maskPowers]; simp [h0]
  unfold probMask
  rw [if_neg (by omega), normIf_steady' he, Option.bind_some]
  simp only [makeBuffer, if_neg hne, Option.bind_some]
  generalize hul : writeBuf 4 (arr [2 ^ e.n >>> (maskPowers mask).length, mask, perm, (maskPowers mask).length]) R.old.ul = ul
  have hu0 : ul 0 = 2 ^ (e.n - (maskQubits mask).length) := by
    rw [← hul, ← shr_eq hl, ← hlen]; rfl
  have hu2 : ul 2 = perm := by rw [← hul]; rfl
  have hu3 : ul 3 = (maskPowers mask).length := by rw [← hul]; rfl
  rw [hu0, reduceKernel_eq' hR.d hR.τ, Option.map_some]
  congr 2
  rw [show (∑ x ∈ Finset.range (2 ^ (e.n - (maskQubits mask).length)), probmaskTerm (arr (maskPowers mask)) ul e.amp x) =
    probIf e.n (fun i => i &&& mask = perm) e.amp from ?_, clamp_probIf he.1]
  unfold probmaskTerm probIf
  rw [hu2, hu3]
  exact (sum_pushApart hn hm hp (fun i => Complex.normSq (e.amp i))).trans
    (Finset.sum_congr rfl fun i _ => by congr)

/-- **C61 fails**: the probability of an empty pattern is 1, but the kernel's buffer of powers cannot be created. -/
theorem probMask_none (he : e.Steady) (perm : ℕ) : probMask R e 0 perm = none := by
  unfold probMask
  rw [if_neg (by have := Nat.pos_of_ne_zero (pow_ne_zero e.n (two_ne_zero)); omega), normIf_steady' he, Option.bind_some]
  have : maskPowers 0 = [] := by rw [maskPowers]; simp
  simp [makeBuffer, this]

/-- **C61.** `ProbMaskAll` fills the array with the distribution of the masked qubits. The mask of all qubits (and, on a
device with one work-item, the empty one) is refused: `probMaskAll_full`. -/
theorem probMaskAll_is (hR : R.Ok) (hn : e.n ≤ 64) (he : e.Steady) {mask : ℕ} (hm : mask < 2 ^ e.n)
    (h : 2 ^ (maskQubits mask).length * 2 ^ (maskQubits mask).length < R.d.count ∨ mask ≠ 0 ∧ mask ≠ 2 ^ e.n - 1)
    (fresh : ℕ → ℝ) :
    ∃ a, probMaskAll R fresh e mask = some (a, e) ∧ ∀ v < 2 ^ (maskQubits mask).length,
      a v = probIf e.n (fun i => valueOf (maskQubits mask) i = v) e.amp := by
  have hlen := length_compl hm
  have hpl : ∀ m, (maskPowers m).length = (maskQubits m).length := fun m => by rw [maskPowers_eq, List.length_map]
  unfold probMaskAll
  rw [if_neg (by omega), normIf_steady' he, Option.bind_some]
  simp only []
  rw [hpl mask]
  by_cases hs : 2 ^ (maskQubits mask).length * 2 ^ (maskQubits mask).length < R.d.count
  · rw [if_pos hs]
    exact ⟨_, rfl, fun v _ => probMaskAll_spec he mask v⟩
  · obtain ⟨h0, h1⟩ := h.resolve_left hs
    have hne : ∀ m, m ≠ 0 → maskPowers m ≠ [] := by intro m hm; rw [maskPowers]; simp [hm]
    have hx : (2 ^ e.n - 1) ^^^ mask ≠ 0 := by
      intro hx
      exact h1 (Nat.xor_eq_zero_iff.1 hx).symm
    rw [if_neg hs]
    simp only [makeBuffer, if_neg (hne mask h0), if_neg (hne _ hx), Option.bind_some]
    rw [shr_eq (show (maskQubits mask).length ≤ e.n by omega), ← hpl mask]
    generalize hul : writeBuf 4 (arr [2 ^ (maskPowers mask).length, 2 ^ (e.n - (maskPowers mask).length),
      (maskPowers mask).length, (maskPowers ((2 ^ e.n - 1) ^^^ mask)).length]) R.old.ul = ul
    have u0 : ul 0 = 2 ^ (maskPowers mask).length := by rw [← hul]; rfl
    have u1 : ul 1 = 2 ^ (e.n - (maskPowers mask).length) := by rw [← hul]; rfl
    have u2 : ul 2 = (maskPowers mask).length := by rw [← hul]; rfl
    have u3 : ul 3 = (maskPowers ((2 ^ e.n - 1) ^^^ mask)).length := by rw [← hul]; rfl
    rw [u0]
    have := launch_update hR (maskPowers mask).length (fun v _ => (List.range (ul 1)).foldl (fun t lcv2 =>
      t + Complex.normSq (e.amp (pushApart (arr (maskPowers mask)) (ul 2) lcv2 |||
        pushApart (arr (maskPowers ((2 ^ e.n - 1) ^^^ mask))) (ul 3) v))) 0) fresh
    rw [show (launch R (2 ^ (maskPowers mask).length) (2 ^ (maskPowers mask).length)
      (probmaskallStep (arr (maskPowers mask)) (arr (maskPowers ((2 ^ e.n - 1) ^^^ mask))) ul e.amp) fresh) = _ from this,
      Option.map_some]
    refine ⟨_, rfl, fun v hv => ?_⟩
    rw [if_pos hv, foldl_sum, u1, u2, u3]
    rw [hpl mask] at hv
    rw [pushApart_maskPowers hv (by omega)]
    have hand := insAll_compl_and hm hv
    have := sum_pushApart hn hm hand (fun i => Complex.normSq (e.amp i))
    rw [hpl mask] at this ⊢
    rw [this]
    unfold probIf
    apply Finset.sum_congr rfl
    intro i _
    by_cases hi : valueOf (maskQubits mask) i = v
    · rw [if_pos hi, if_pos ((insAll_compl hm hv i).2 hi)]
    · rw [if_neg hi, if_neg fun hc => hi ((insAll_compl hm hv i).1 hc)]

/-- **C61 fails**: the mask of all qubits (beyond the smallest registers) is refused, because the buffer of the other
qubits' powers cannot be created. So `ProbMaskAll` of everything and the measurement of all listed qubits throw. -/
theorem probMaskAll_full (he : e.Steady) (hc : R.d.count ≤ 2 ^ e.n * 2 ^ e.n) (fresh : ℕ → ℝ) :
    probMaskAll R fresh e (2 ^ e.n - 1) = none := by
  have hm : 2 ^ e.n - 1 < 2 ^ e.n := by have := Nat.two_pow_pos e.n; omega
  have hlen := length_compl hm
  have h0 : maskQubits 0 = [] := maskQubits_zero
  rw [Nat.xor_self, h0, List.length_nil, Nat.zero_add] at hlen
  unfold probMaskAll
  rw [if_neg (by omega), normIf_steady' he, Option.bind_some]
  simp only []
  rw [show (maskPowers (2 ^ e.n - 1)).length = e.n by rw [maskPowers_eq, List.length_map, hlen], if_neg (by omega),
    Nat.xor_self]
  have : maskPowers 0 = [] := by rw [maskPowers]; simp
  simp only [this, makeBuffer, if_true, Option.bind_none]
  cases hx : (if maskPowers (2 ^ e.n - 1) = [] then none else some (arr (maskPowers (2 ^ e.n - 1)))) <;> rfl

/-- **C61.** `ProbParity` is the probability of odd parity (for every mask, unlike `QEngineCPU`). -/
theorem probParity_is (hR : R.Ok) (hn : e.n ≤ 64) (he : e.Steady) {mask : ℕ} (hm : mask < 2 ^ e.n) :
    probParity R e mask = some (probIf e.n (HasParity e.n mask true) e.amp, e) := by
  unfold probParity
  rw [if_neg (by omega)]
  by_cases h0 : mask = 0
  · rw [if_pos h0]
    congr 2
    subst h0
    unfold probIf
    symm
    apply Finset.sum_eq_zero
    intro i _
    rw [if_neg]
    unfold HasParity
    simp [maskCount]
  · rw [if_neg h0]
    by_cases h1 : isPowerOfTwo mask = true
    · rw [if_pos h1]
      obtain ⟨q, hmq, hlog⟩ := isPowerOfTwo_iff h1
      have hq : q < e.n := by rw [hmq] at hm; exact (Nat.pow_lt_pow_iff_right (by norm_num)).1 hm
      rw [hlog, prob_is hR hn he hq, hmq]
      congr 2
      apply probIf_congr _ (fun _ _ => rfl)
      intro i _
      unfold HasParity
      rw [maskCount_two_pow hq]
      cases i.testBit q <;> simp
    · rw [if_neg h1]
      refine probx_eq hR he _ fun ul hul => ?_
      have hu1 : ul 1 = mask := by rw [hul 1 (by norm_num)]; rfl
      unfold probIf
      apply Finset.sum_congr rfl
      intro i _
      unfold probparityTerm
      rw [hu1, parityLoop_mask hn hm]
      unfold HasParity
      congr

/-! ## Non-trivial cases -/

/-- A device, schedules and left-over buffers, a normalised register, and a mask, a value, a range and controls that meet the
hypotheses above. -/
example : Rt.Ok ⟨⟨64, 32⟩, List.reverse, List.reverse, ⟨fun _ => 7, fun _ => 5, fun _ => 3⟩⟩ ∧
    Eng.Steady ⟨3, fun i => if i = 1 then 3 / 5 else if i = 6 then 4 / 5 * Complex.I else 0, 1, true, true, 0⟩ ∧
    (5 : ℕ) < 2 ^ 3 ∧ 4 &&& 5 = 4 ∧ (5 : ℕ) ≠ 2 ^ 3 - 1 ∧ 1 + 2 ≤ 3 ∧
    0 < qProb ⟨3, fun i => if i = 1 then 3 / 5 else if i = 6 then 4 / 5 * Complex.I else 0, 1, true, true, 0⟩ 1 true := by
  refine ⟨⟨⟨by norm_num, 5, by norm_num⟩, fun l => List.reverse_perm l, fun l => List.reverse_perm l⟩, ⟨?_, fun _ => rfl⟩,
    by norm_num, by decide, by norm_num, by norm_num, ?_⟩
  · unfold totalProb
    simp [Finset.sum_range_succ, Complex.normSq_apply]
    norm_num
  · unfold qProb probIf
    simp [Finset.sum_range_succ, Complex.normSq_apply, Nat.testBit]

end Verif.Ocl
