import Verif.Lemmas.EngineBits
import Verif.Props.EngineMeas

/-!
C22: marginal probabilities are consistent.
-/

namespace Verif.Engine

open Verif.ParFor Verif.Bits Verif.Spec Classical

/-- The probability that the register `[start, start + length)` holds `v`. -/
noncomputable def regProb (e : Eng) (start length v : ℕ) : ℝ := probIf e.n (fun i => field start length i = v) e.amp

/-- **C22.** `ProbReg` is the marginal probability of the register value. -/
theorem probReg_spec {P : Par} (hP : P.Ok) {e : Eng} (hn : e.n < 64) (he : e.Steady) {start length perm : ℕ}
    (hr : start + length ≤ e.n) (hp : perm < 2 ^ length) :
    probReg P e start length perm = (regProb e start length perm, e) := by
  unfold probReg regProb
  rw [normIf_steady he]
  simp only
  rw [← clamp_probIf he.1 (fun i => field start length i = perm), reduce_eq hP]
  congr 2
  have hv := parForSkip_visits (w := 64) (n := e.n) (s := start) (d := length) hr hn
  have hmem : ∀ l, l ∈ parForSkipPlan 64 0 (2 ^ e.n) (pow2 start) length ↔ l < 2 ^ e.n ∧ field start length l = 0 := by
    intro l
    rw [pow2, hv.2, field_eq_zero]
  unfold probIf
  refine sum_visited_map (p := fun i => field start length i = perm) (fun l => l ||| (perm <<< start))
    (fun i => setField start length 0 i) hv.1 ?_ ?_ (fun i => Complex.normSq (e.amp i))
  · intro l hl
    obtain ⟨h2, h3⟩ := (hmem l).1 hl
    simp only [or_field h3 hp]
    refine ⟨setField_lt hr h2, by rw [field_setField, Nat.mod_eq_of_lt hp], ?_⟩
    rw [setField_setField]
    conv_rhs => rw [← setField_field start length l, h3]
  · intro i hi hb
    have h0 : field start length (setField start length 0 i) = 0 := by rw [field_setField]; simp
    refine ⟨(hmem _).2 ⟨setField_lt hr hi, h0⟩, ?_⟩
    simp only [or_field h0 hp]
    rw [setField_setField, ← hb, setField_field]

/-- **C22.** The probabilities of all values of a register add up to one. -/
theorem regProb_total {e : Eng} (he : e.Steady) (start length : ℕ) :
    ∑ v ∈ Finset.range (2 ^ length), regProb e start length v = 1 := by
  rw [← he.1]
  exact sum_probIf e.n e.amp (field start length) (fun i _ => field_lt start length i)

/-- **C22.** `ProbRegAll` lists the marginal probabilities of all values. -/
theorem probRegAll_spec {e : Eng} (he : e.Steady) (start length v : ℕ) :
    probRegAll e start length v = regProb e start length v := by
  unfold probRegAll regProb
  rw [hist_eq he.1 (fun i => (i >>> start) &&& (2 ^ length - 1)) v]
  apply probIf_congr _ (fun _ _ => rfl)
  intro i _
  rw [mask_eq_mod, Nat.shiftRight_eq_div_pow]; rfl

/-- The loop of `ProbMask` visits exactly the amplitudes that match. -/
theorem probMask_sum {P : Par} (hP : P.Ok) {e : Eng} (hn : e.n ≤ 64) {mask perm : ℕ}
    (hm : mask < 2 ^ e.n) (hp : perm &&& mask = perm) :
    (reduce P (parForMaskPlan 64 0 (2 ^ e.n) (maskPowers mask)) fun lcv => Complex.normSq (e.amp (lcv ||| perm))) =
      probIf e.n (fun i => i &&& mask = perm) e.amp := by
  rw [reduce_eq hP]
  have hb : ∀ q ∈ maskQubits mask, q < e.n := by
    intro q hq
    rw [(maskQubits_spec mask).2] at hq
    by_contra hc
    rw [lt_two_pow_iff_testBit.1 hm q (by omega)] at hq
    cases hq
  have hv := parForMask_visits (w := 64) (maskQubits_sorted mask) hb hn
  have hmem : ∀ l, l ∈ parForMaskPlan 64 0 (2 ^ e.n) (maskPowers mask) ↔
      l < 2 ^ e.n ∧ ∀ q, mask.testBit q = true → l.testBit q = false := by
    intro l
    rw [maskPowers_eq, hv.2]
    unfold MaskClear
    constructor
    · rintro ⟨h1, h2⟩; exact ⟨h1, fun q hq => h2 q (((maskQubits_spec mask).2 q).2 hq)⟩
    · rintro ⟨h1, h2⟩; exact ⟨h1, fun q hq => h2 q (((maskQubits_spec mask).2 q).1 hq)⟩
  have hpb : ∀ q, perm.testBit q = (perm.testBit q && mask.testBit q) := by
    intro q; rw [← Nat.testBit_and, hp]
  have hplt : perm < 2 ^ e.n := lt_of_le_of_lt (hp ▸ Nat.and_le_right) hm
  unfold probIf
  rw [maskPowers_eq]
  refine sum_visited_map (p := fun i => i &&& mask = perm) (fun l => l ||| perm)
    (fun i => i ^^^ perm) hv.1 ?_ ?_ (fun i => Complex.normSq (e.amp i))
  · intro l hl
    obtain ⟨h2, h3⟩ := (hmem l).1 (by rw [maskPowers_eq]; exact hl)
    refine ⟨Nat.or_lt_two_pow h2 hplt, ?_, ?_⟩
    · apply Nat.eq_of_testBit_eq; intro k
      rw [Nat.testBit_and, Nat.testBit_or]
      have := hpb k
      cases hk : mask.testBit k
      · rw [hk, Bool.and_false] at this; rw [this]; simp
      · simp [h3 k hk]
    · apply Nat.eq_of_testBit_eq; intro k
      rw [Nat.testBit_xor, Nat.testBit_or]
      have := hpb k
      cases hk : mask.testBit k
      · rw [hk, Bool.and_false] at this; rw [this]; simp
      · simp [h3 k hk]
  · intro i hi hq
    have hqb : ∀ k, (i.testBit k && mask.testBit k) = perm.testBit k := by
      intro k; rw [← Nat.testBit_and, hq]
    refine ⟨?_, ?_⟩
    · rw [← maskPowers_eq, hmem]
      refine ⟨Nat.xor_lt_two_pow hi hplt, fun k hk => ?_⟩
      rw [Nat.testBit_xor, ← hqb k, hk]; simp
    · apply Nat.eq_of_testBit_eq; intro k
      rw [Nat.testBit_or, Nat.testBit_xor, ← hqb k]
      cases i.testBit k <;> cases mask.testBit k <;> rfl

/-- **C22.** `ProbMask` is the marginal probability of the masked bits, for a permutation within the mask. -/
theorem probMask_spec {P : Par} (hP : P.Ok) {e : Eng} (hn : e.n ≤ 64) (he : e.Steady) {mask perm : ℕ}
    (hm : mask < 2 ^ e.n) (hp : perm &&& mask = perm) :
    probMask P e mask perm = some (probIf e.n (fun i => i &&& mask = perm) e.amp, e) := by
  unfold probMask
  rw [if_neg (by omega), normIf_steady he]
  simp only
  rw [← clamp_probIf he.1 (fun i => i &&& mask = perm), probMask_sum hP hn hm hp]

/-- **C22.** The default `ProbMask` computes the same number. -/
theorem probMaskDefault_spec {e : Eng} (he : e.Steady) {mask perm : ℕ} (hp : perm < 2 ^ e.n) :
    probMaskDefault e mask perm = probIf e.n (fun i => i &&& mask = perm) e.amp := by
  unfold probMaskDefault
  by_cases hm : 2 ^ e.n - 1 = mask
  · rw [if_pos hm, probAll_eq he.1 hp, ← hm]
    unfold probIf
    rw [Finset.sum_eq_single perm]
    · rw [if_pos (show perm &&& (2 ^ e.n - 1) = perm by rw [mask_eq_mod, Nat.mod_eq_of_lt hp])]
    · intro i hi hne
      rw [if_neg]
      show ¬ i &&& (2 ^ e.n - 1) = perm
      rw [mask_eq_mod, Nat.mod_eq_of_lt (Finset.mem_range.1 hi)]
      exact hne
    · intro h; exact absurd (Finset.mem_range.2 hp) h
  · rw [if_neg hm, sum_listRange, ← clamp_probIf he.1]
    congr 1
    unfold probIf
    apply Finset.sum_congr rfl
    intro i hi
    rw [probAll_eq he.1 (Finset.mem_range.1 hi)]
    by_cases h : i &&& mask = perm <;> simp [h]

/-- **C22.** `ProbMaskAll` lists the probabilities of all values of the masked qubits, lowest qubit first. -/
theorem probMaskAll_spec {e : Eng} (he : e.Steady) (mask v : ℕ) :
    probMaskAll e mask v = probIf e.n (fun i => valueOf (maskQubits mask) i = v) e.amp := by
  unfold probMaskAll
  rw [hist_eq he.1 (fun i => gather (maskPowers mask) i) v]
  apply probIf_congr _ (fun _ _ => rfl)
  intro i _
  rw [maskPowers_eq, ← gather_eq]; rfl

theorem valueOf_range_eq (n i : ℕ) (hi : i < 2 ^ n) : valueOf (List.range n) i = i := by
  have key : ∀ k j, valueOf (List.range' j k) i = i / 2 ^ j % 2 ^ k := by
    intro k
    induction k with
    | zero => intro j; simp [valueOf, Nat.mod_one]
    | succ k ih =>
      intro j
      rw [List.range'_succ, valueOf, ih (j + 1), pow_succ 2 k, mul_comm (2 ^ k) 2, Nat.mod_mul, Nat.testBit_eq_decide_div_mod_eq,
        pow_succ 2 j, ← Nat.div_div_eq_div_mul]
      have := Nat.mod_two_eq_zero_or_one (i / 2 ^ j)
      rcases this with h | h <;> simp [h]
  rw [List.range_eq_range', key n 0]
  simp [Nat.mod_eq_of_lt hi]

/-- **C22.** `ProbBitsAll` lists the probabilities of all values of the listed qubits, in the order of the list. -/
theorem probBitsAll_spec {e : Eng} (he : e.Steady) (bits : List ℕ) {v : ℕ} (hv : v < 2 ^ bits.length) :
    probBitsAll e bits v = probIf e.n (fun i => valueOf bits i = v) e.amp := by
  unfold probBitsAll
  by_cases h : bits = List.range e.n
  · rw [if_pos h]
    unfold probIf
    have hv' : v < 2 ^ e.n := by rw [h, List.length_range] at hv; exact hv
    rw [Finset.sum_eq_single v]
    · rw [if_pos (show valueOf bits v = v by rw [h, valueOf_range_eq _ _ hv'])]
    · intro i hi hne
      rw [if_neg]
      show ¬ valueOf bits i = v
      rw [h, valueOf_range_eq _ _ (Finset.mem_range.1 hi)]
      exact hne
    · intro h; exact absurd (Finset.mem_range.2 hv') h
  · rw [if_neg h, hist_eq he.1 (fun i => gather (bits.map pow2) i) v]
    apply probIf_congr _ (fun _ _ => rfl)
    intro i _
    rw [gather_eq]

/-- **C22.** Those probabilities add up to one. -/
theorem probBitsAll_total {e : Eng} (he : e.Steady) (bits : List ℕ) :
    ∑ v ∈ Finset.range (2 ^ bits.length), probBitsAll e bits v = 1 := by
  rw [Finset.sum_congr rfl (fun v hv => probBitsAll_spec he bits (Finset.mem_range.1 hv)), ← he.1]
  exact sum_probIf e.n e.amp (valueOf bits) (fun i _ => valueOf_lt bits i)

/-- **C22.** `CtrlOrAntiProb` of the CPU engine is the conditional probability. -/
theorem ctrlOrAntiProb_spec {P : Par} (hP : P.Ok) {e : Eng} (hn : e.n < 64) (he : e.Steady) {c t : ℕ} (hc : c < e.n)
    (ht : t < e.n) (hct : c ≠ t) (b : Bool) (hpos : 0 < qProb e c b) :
    ctrlOrAntiProb P e b c t =
      some (probIf e.n (fun i => i.testBit c = b ∧ i.testBit t = true) e.amp / qProb e c b, e) := by
  unfold ctrlOrAntiProb
  rw [prob_spec hP (by omega) he hc]
  simp only [Option.bind_some]
  have hcp : (if b = true then probIf e.n (fun i => i.testBit c = true) e.amp
      else 1 - probIf e.n (fun i => i.testBit c = true) e.amp) = qProb e c b := by
    cases b
    · simp only [Bool.false_eq_true, if_false]; exact qProb_false he c
    · rfl
  rw [hcp, if_neg (not_le.2 hpos)]
  have hle1 : qProb e c b ≤ 1 := by rw [← he.1]; exact probIf_le _ _ _
  by_cases h1 : 1 - qProb e c b ≤ 0
  · rw [if_pos h1, prob_spec hP (by omega) he ht]
    have hone : qProb e c b = 1 := by linarith
    rw [hone, div_one]
    congr 2
    unfold probIf
    apply Finset.sum_congr rfl
    intro i hi
    have hi := Finset.mem_range.1 hi
    by_cases hb : i.testBit c = b
    · simp [hb]
    · have h0 : probIf e.n (fun i => ¬ i.testBit c = b) e.amp = 0 := by
        have := probIf_add_not e.n (fun i => i.testBit c = b) e.amp
        have h2 : probIf e.n (fun i => i.testBit c = b) e.amp = 1 := hone
        rw [he.1] at this
        linarith
      rw [probIf_eq_zero h0 hi hb]; simp
  · rw [if_neg h1, if_neg (by omega)]
    have hsum : reduce P (parForSkipPlan 64 0 (2 ^ e.n) (pow2 t) 1) (fun lcv =>
        if lcv &&& pow2 c = (if b then pow2 c else 0) then Complex.normSq (e.amp (lcv ||| pow2 t)) else 0) =
        probIf e.n (fun i => i.testBit c = b ∧ i.testBit t = true) e.amp := by
      rw [reduce_eq hP]
      have hv := parForSkip_visits (w := 64) (n := e.n) (s := t) (d := 1) (by omega) hn
      have hmem : ∀ l, l ∈ parForSkipPlan 64 0 (2 ^ e.n) (2 ^ t) 1 ↔ l < 2 ^ e.n ∧ l.testBit t = false := by
        intro l
        rw [hv.2]
        constructor
        · rintro ⟨h1, h2⟩; exact ⟨h1, h2 t (by omega) (by omega)⟩
        · rintro ⟨h1, h2⟩; exact ⟨h1, fun k hk hk' => by rw [show k = t by omega]; exact h2⟩
      have hp : pow2 t < 2 ^ e.n := Nat.pow_lt_pow_right (by norm_num) ht
      have hcong : ∀ l, (if l &&& pow2 c = (if b then pow2 c else 0) then Complex.normSq (e.amp (l ||| pow2 t)) else 0) =
          (fun i => if i.testBit c = b then Complex.normSq (e.amp i) else 0) (l ||| pow2 t) := by
        intro l
        have : (l ||| pow2 t).testBit c = l.testBit c := by
          rw [Nat.testBit_or, pow2, Nat.testBit_two_pow]; simp [Ne.symm hct]
        simp only [and_pow2_iff, this]
      simp only [hcong]
      rw [show pow2 t = 2 ^ t from rfl] at *
      rw [sum_visited_map (N := 2 ^ e.n) (p := fun i => i.testBit t = true) (fun l => l ||| 2 ^ t) (fun i => i ^^^ 2 ^ t)
        hv.1 ?_ ?_ (fun i => if i.testBit c = b then Complex.normSq (e.amp i) else 0)]
      · unfold probIf
        apply Finset.sum_congr rfl
        intro i _
        by_cases h1 : i.testBit t = true <;> by_cases h2 : i.testBit c = b <;> simp [h1, h2]
      · intro l hl
        obtain ⟨h2, h3⟩ := (hmem l).1 hl
        refine ⟨Nat.or_lt_two_pow h2 hp, by simp [Nat.testBit_or, Nat.testBit_two_pow], ?_⟩
        apply Nat.eq_of_testBit_eq; intro k
        rw [Nat.testBit_xor, Nat.testBit_or, Nat.testBit_two_pow]
        by_cases hk : t = k
        · subst hk; simp [h3]
        · simp [hk]
      · intro i hi hb
        refine ⟨(hmem _).2 ⟨Nat.xor_lt_two_pow hi hp, by simp [Nat.testBit_xor, Nat.testBit_two_pow, hb]⟩, ?_⟩
        apply Nat.eq_of_testBit_eq; intro k
        rw [Nat.testBit_or, Nat.testBit_xor, Nat.testBit_two_pow]
        by_cases hk : t = k
        · subst hk; simp [hb]
        · simp [hk]
    rw [hsum]
    congr 2
    apply clampProb_id
    · exact div_nonneg (probIf_nonneg _ _ _) hpos.le
    · rw [div_le_one hpos]
      unfold qProb probIf
      apply Finset.sum_le_sum
      intro i _
      by_cases h1 : i.testBit c = b <;> by_cases h2 : i.testBit t = true <;> simp [h1, h2, Complex.normSq_nonneg]

/-! ### The default `ProbReg` -/

/-- Full statement of C22 for the default `ProbReg`: `probRegDefault e start length perm = regProb e start length perm`
for every register in range. It holds only when the value is zero or the register starts at its own length, because the
value is shifted by the length of the register instead of its start. -/
theorem probRegDefault_partial {e : Eng} (he : e.Steady) {start length perm : ℕ} (hr : start + length ≤ e.n)
    (hp : perm < 2 ^ length) (hs : perm = 0 ∨ start = length) :
    probRegDefault e start length perm = regProb e start length perm := by
  unfold probRegDefault regProb
  have hsh : 2 ^ e.n >>> length = 2 ^ (e.n - length) := by
    rw [Nat.shiftRight_eq_div_pow, Nat.pow_div (by omega) (by norm_num)]
  rw [hsh, ← clamp_probIf he.1]
  congr 1
  have hidx : ∀ l, (l &&& (pow2 start - 1)) ||| (((l ^^^ (l &&& (pow2 start - 1))) ||| perm) <<< length) =
      setField start length perm ((l % 2 ^ start) + 2 ^ (start + length) * (l / 2 ^ start)) := by
    intro l
    apply Nat.eq_of_testBit_eq; intro k
    have hx : ∀ k, (l % 2 ^ start + 2 ^ (start + length) * (l / 2 ^ start)).testBit k =
        if k < start + length then (decide (k < start) && l.testBit k) else l.testBit (k - length) := by
      intro k
      have hlt : l % 2 ^ start < 2 ^ (start + length) :=
        lt_of_lt_of_le (Nat.mod_lt _ (by positivity)) (Nat.pow_le_pow_right (by norm_num) (by omega))
      rw [add_comm, Nat.testBit_two_pow_mul_add _ hlt]
      by_cases h1 : k < start + length
      · rw [if_pos h1, if_pos h1, Nat.testBit_mod_two_pow]
      · rw [if_neg h1, if_neg h1, Nat.testBit_div_two_pow]
        congr 1; omega
    rw [testBit_setField, hx, Nat.testBit_or, Nat.testBit_and, Nat.testBit_shiftLeft, Nat.testBit_or, Nat.testBit_xor,
      Nat.testBit_and, pow2, Nat.testBit_two_pow_sub_one, Nat.testBit_two_pow_sub_one]
    by_cases h1 : k < start
    · rw [if_pos h1, if_pos (by omega)]
      rcases hs with rfl | rfl
      · by_cases h2 : length ≤ k
        · simp [h1, h2, show k - length < start by omega]
        · simp [h1, h2]
      · simp [h1]
    · rw [if_neg h1]
      by_cases h2 : k < start + length
      · rw [if_pos h2]
        rcases hs with rfl | rfl
        · by_cases h3 : length ≤ k
          · simp [h1, h3, show k - length < start by omega]
          · simp [h1, h3]
        · simp [h1, show start ≤ k by omega, show k - start < start by omega]
      · rw [if_neg h2, if_neg h2]
        have hpk : perm.testBit (k - length) = false := by
          rcases hs with rfl | rfl
          · simp
          · exact lt_two_pow_iff_testBit.1 hp _ (by omega)
        simp [h1, show length ≤ k by omega, show ¬ k - length < start by omega, hpk]
  have hlt : ∀ l < 2 ^ (e.n - length), (l % 2 ^ start) + 2 ^ (start + length) * (l / 2 ^ start) < 2 ^ e.n := by
    intro l hl
    have h1 : l / 2 ^ start < 2 ^ (e.n - length - start) := by
      rw [Nat.div_lt_iff_lt_mul (by positivity), ← pow_add]
      rwa [show e.n - length - start + start = e.n - length by omega]
    have h2 : l % 2 ^ start < 2 ^ (start + length) :=
      lt_of_lt_of_le (Nat.mod_lt _ (by positivity)) (Nat.pow_le_pow_right (by norm_num) (by omega))
    calc l % 2 ^ start + 2 ^ (start + length) * (l / 2 ^ start)
        < 2 ^ (start + length) + 2 ^ (start + length) * (l / 2 ^ start) := by omega
      _ = 2 ^ (start + length) * (l / 2 ^ start + 1) := by ring
      _ ≤ 2 ^ (start + length) * 2 ^ (e.n - length - start) := Nat.mul_le_mul_left _ h1
      _ = 2 ^ e.n := by rw [← pow_add]; congr 1; omega
  have hmap : ((List.range (2 ^ (e.n - length))).map fun lcv =>
      probAll e ((lcv &&& (pow2 start - 1)) ||| (((lcv ^^^ (lcv &&& (pow2 start - 1))) ||| perm) <<< length))) =
      (List.range (2 ^ (e.n - length))).map fun l => (fun i => Complex.normSq (e.amp i))
        (setField start length perm ((l % 2 ^ start) + 2 ^ (start + length) * (l / 2 ^ start))) := by
    apply List.map_congr_left
    intro l hl
    rw [hidx, probAll_eq he.1 (setField_lt hr (hlt l (List.mem_range.1 hl)))]
  simp only [hmap]
  unfold probIf
  refine sum_visited_map (p := fun i => field start length i = perm)
    (fun l => setField start length perm ((l % 2 ^ start) + 2 ^ (start + length) * (l / 2 ^ start)))
    (fun i => i % 2 ^ start + 2 ^ start * (i / 2 ^ (start + length))) List.nodup_range ?_ ?_
    (fun i => Complex.normSq (e.amp i))
  · intro l hl
    have hl := List.mem_range.1 hl
    refine ⟨setField_lt hr (hlt l hl), by rw [field_setField, Nat.mod_eq_of_lt hp], ?_⟩
    have h1 : (l % 2 ^ start + 2 ^ (start + length) * (l / 2 ^ start)) / 2 ^ (start + length) = l / 2 ^ start := by
      have h2 : l % 2 ^ start < 2 ^ (start + length) :=
        lt_of_lt_of_le (Nat.mod_lt _ (by positivity)) (Nat.pow_le_pow_right (by norm_num) (by omega))
      rw [Nat.add_mul_div_left _ _ (by positivity), Nat.div_eq_of_lt h2, zero_add]
    have h3 : (l % 2 ^ start + 2 ^ (start + length) * (l / 2 ^ start)) % 2 ^ start = l % 2 ^ start := by
      rw [pow_add, mul_assoc, Nat.add_mul_mod_self_left, Nat.mod_mod]
    unfold setField
    rw [h1, h3]
    have h4 : 2 ^ start * (perm % 2 ^ length) + l % 2 ^ start < 2 ^ (start + length) := by
      have := Nat.mod_lt l (show 0 < 2 ^ start by positivity)
      have h5 : perm % 2 ^ length + 1 ≤ 2 ^ length := Nat.mod_lt _ (by positivity)
      calc 2 ^ start * (perm % 2 ^ length) + l % 2 ^ start < 2 ^ start * (perm % 2 ^ length) + 2 ^ start := by omega
        _ = 2 ^ start * (perm % 2 ^ length + 1) := by ring
        _ ≤ 2 ^ start * 2 ^ length := Nat.mul_le_mul_left _ h5
        _ = 2 ^ (start + length) := by rw [pow_add]
    have h6 : (2 ^ (start + length) * (l / 2 ^ start) + (2 ^ start * (perm % 2 ^ length) + l % 2 ^ start)) %
        2 ^ start = l % 2 ^ start := by
      rw [pow_add, mul_assoc, Nat.mul_add_mod, Nat.mul_add_mod, Nat.mod_mod]
    have h7 : (2 ^ (start + length) * (l / 2 ^ start) + (2 ^ start * (perm % 2 ^ length) + l % 2 ^ start)) /
        2 ^ (start + length) = l / 2 ^ start := by
      rw [Nat.mul_add_div (by positivity), Nat.div_eq_of_lt h4, add_zero]
    rw [h6, h7, add_comm, Nat.div_add_mod]
  · intro i hi hb
    have hg : i % 2 ^ start + 2 ^ start * (i / 2 ^ (start + length)) < 2 ^ (e.n - length) := by
      have h1 : i / 2 ^ (start + length) + 1 ≤ 2 ^ (e.n - length - start) := by
        apply Nat.succ_le_of_lt
        rw [Nat.div_lt_iff_lt_mul (by positivity), ← pow_add]
        rwa [show e.n - length - start + (start + length) = e.n by omega]
      have := Nat.mod_lt i (show 0 < 2 ^ start by positivity)
      calc i % 2 ^ start + 2 ^ start * (i / 2 ^ (start + length))
          < 2 ^ start + 2 ^ start * (i / 2 ^ (start + length)) := by omega
        _ = 2 ^ start * (i / 2 ^ (start + length) + 1) := by ring
        _ ≤ 2 ^ start * 2 ^ (e.n - length - start) := Nat.mul_le_mul_left _ h1
        _ = 2 ^ (e.n - length) := by rw [← pow_add]; congr 1; omega
    refine ⟨List.mem_range.2 hg, ?_⟩
    have h1 : (i % 2 ^ start + 2 ^ start * (i / 2 ^ (start + length))) / 2 ^ start = i / 2 ^ (start + length) := by
      rw [Nat.add_mul_div_left _ _ (by positivity), Nat.div_eq_of_lt (Nat.mod_lt _ (by positivity)), zero_add]
    have h2 : (i % 2 ^ start + 2 ^ start * (i / 2 ^ (start + length))) % 2 ^ start = i % 2 ^ start := by
      rw [Nat.add_mul_mod_self_left, Nat.mod_mod]
    simp only [h1, h2]
    have h3 : setField start length perm i = i := by rw [← hb, setField_field]
    conv_rhs => rw [← h3]
    unfold setField
    have h4 : i % 2 ^ start < 2 ^ (start + length) :=
      lt_of_lt_of_le (Nat.mod_lt _ (by positivity)) (Nat.pow_le_pow_right (by norm_num) (by omega))
    rw [Nat.add_mul_div_left _ _ (by positivity), Nat.div_eq_of_lt h4, zero_add, pow_add, mul_assoc,
      Nat.add_mul_mod_self_left, Nat.mod_mod]

/-- The code violates C22 in the default `ProbReg`: in the state `|010⟩` the probability that qubit 2 is set is
reported as one, and it is zero. -/
theorem probRegDefault_wrong : ∃ e : Eng, e.Steady ∧ e.n = 3 ∧ probRegDefault e 2 1 1 = 1 ∧ regProb e 2 1 1 = 0 := by
  refine ⟨⟨3, fun i => if i = 2 then 1 else 0, 1, false, true, 0⟩, ⟨?_, fun _ => rfl⟩, rfl, ?_, ?_⟩
  · unfold totalProb
    simp [Finset.sum_range_succ, show (2 : ℕ) ^ 3 = 8 by norm_num]
  · unfold probRegDefault
    simp [show (8 : ℕ) >>> 1 = 4 from rfl, List.range_succ, probAll, pow2, clampProb]
    norm_num
  · unfold regProb probIf
    simp [Finset.sum_range_succ, show (2 : ℕ) ^ 3 = 8 by norm_num, field]

/-- Qubits 2 and 0 of a three-qubit register, in this order: the value 2 of the list is reached by `|001⟩` and by `|011⟩`,
and the mask form of the same event asks for bit 0 set and bit 2 clear. -/
example : valueOf [2, 0] 1 = 2 ∧ valueOf [2, 0] 3 = 2 ∧ valueOf [2, 0] 4 = 1 ∧ (2 : ℕ) < 2 ^ [2, 0].length ∧
    (1 : ℕ) &&& 5 = 1 ∧ (3 : ℕ) &&& 5 = 1 := by
  decide

end Verif.Engine
