import Verif.Model.EngineExpect
import Verif.Props.EngineProb
import Verif.Props.EngineUnitary

/-!
C23: expectation values and variances.
-/

namespace Verif.Engine

open Verif.ParFor Verif.Bits Verif.Spec Classical

/-! ### Reading the weights -/

theorem flat_length {α : Type} (ws : List (α × α)) : (flat ws).length = 2 * ws.length := by
  induction ws with
  | nil => rfl
  | cons w ws ih => simp only [flat, List.length_cons, ih]; ring

theorem flat_getD {α : Type} (d : α) (ws : List (α × α)) (rest : List α) (k : ℕ) (hk : k < ws.length) :
    (flat ws ++ rest).getD (2 * k) d = (ws[k]).1 ∧ (flat ws ++ rest).getD (2 * k + 1) d = (ws[k]).2 := by
  induction ws generalizing k with
  | nil => simp at hk
  | cons w ws ih =>
    cases k with
    | zero => simp [flat]
    | succ k =>
      have := ih k (by simpa using hk)
      rw [show 2 * (k + 1) = 2 * k + 1 + 1 by ring]
      simpa [flat] using this

theorem shl_one (p : ℕ) : p <<< 1 = 2 * p ∧ (p <<< 1) ||| 1 = 2 * p + 1 := by
  have h : p <<< 1 = 2 * p := by rw [Nat.shiftLeft_eq]; ring
  refine ⟨h, ?_⟩
  rw [h]
  apply Nat.eq_of_testBit_eq
  intro k
  cases k with
  | zero => simp [Nat.testBit_or, Nat.testBit_zero]
  | succ k => rw [Nat.testBit_or, Nat.testBit_succ, Nat.testBit_succ, Nat.testBit_succ]; simp; congr 1; omega

theorem two_mul_or_one (p : ℕ) : 2 * p ||| 1 = 2 * p + 1 := by rw [← (shl_one p).1, (shl_one p).2, (shl_one p).1]

theorem badArgs_false {α : Type} {e : Eng} {bits : List ℕ} {ws : List (α × α)} {rest : List α}
    (hnd : bits.Nodup) (hb : ∀ b ∈ bits, b < e.n) (hlen : ws.length = bits.length) : badArgs e bits (flat ws ++ rest) = false := by
  unfold badArgs
  rw [Bool.or_eq_false_iff]
  refine ⟨?_, (Utils.throwIfBad_correct bits e.n).2 ⟨hb, hnd⟩⟩
  rw [decide_eq_false_iff_not, (shl_one _).1, List.length_append, flat_length, hlen]
  omega

theorem retIndex_aux (bits : List ℕ) (ws : List (ℕ × ℕ)) (rest : List ℕ) (lcv : ℕ) :
    ∀ (bs : List ℕ) (us : List (ℕ × ℕ)) (j r : ℕ), us = ws.drop j → us.length = bs.length → r + weightOf bs us lcv < 2 ^ 128 →
      ((bs.map pow2).zipIdx j).foldl (fun r (x : ℕ × ℕ) =>
        (r + if lcv &&& x.1 ≠ 0 then (flat ws ++ rest).getD ((x.2 <<< 1) ||| 1) 0 else
          (flat ws ++ rest).getD (x.2 <<< 1) 0) % 2 ^ 128) r = r + weightOf bs us lcv := by
  intro bs
  induction bs with
  | nil => intro us j r _ _ _; simp [weightOf]
  | cons b bs ih =>
    intro us j r hus hlen hlt
    cases us with
    | nil => simp at hlen
    | cons u us =>
      have hj : j < ws.length := by
        by_contra hc
        rw [List.drop_eq_nil_of_le (by omega)] at hus
        cases hus
      have hu : ws[j] = u := by
        have := List.drop_eq_getElem_cons hj
        rw [← hus] at this
        exact (List.cons.inj this).1.symm
      have hus' : us = ws.drop (j + 1) := by
        have := List.drop_eq_getElem_cons hj
        rw [← hus] at this
        exact (List.cons.inj this).2
      obtain ⟨h1, h2⟩ := flat_getD 0 ws rest j hj
      rw [hu] at h1 h2
      rw [List.map_cons, List.zipIdx_cons, List.foldl_cons]
      simp only [(shl_one j).1, two_mul_or_one, h1, h2, and_pow_ne_bits]
      rw [weightOf] at hlt ⊢
      have hmod : (r + if lcv.testBit b = true then u.2 else u.1) % 2 ^ 128 = r + if lcv.testBit b = true then u.2 else u.1 :=
        Nat.mod_eq_of_lt (by omega)
      rw [hmod]
      have := ih us (j + 1) (r + if lcv.testBit b = true then u.2 else u.1) hus' (by simpa using hlen) (by omega)
      rw [this]; ring

theorem retIndex_eq {bits : List ℕ} {ws : List (ℕ × ℕ)} {rest : List ℕ} (hlen : ws.length = bits.length) {offset lcv : ℕ}
    (hlt : offset + weightOf bits ws lcv < 2 ^ 128) :
    retIndex bits (flat ws ++ rest) offset lcv = offset + weightOf bits ws lcv :=
  retIndex_aux bits ws rest lcv bits ws 0 offset (by simp) hlen hlt

theorem floats_aux (ws : List (ℝ × ℝ)) (rest : List ℝ) (lcv : ℕ) :
    ∀ (bs : List ℕ) (us : List (ℝ × ℝ)) (j : ℕ) (r : ℝ), us = ws.drop j → us.length = bs.length →
      ((bs.map pow2).zipIdx j).foldl (fun (r : ℝ) (x : ℕ × ℕ) =>
        r + if lcv &&& x.1 ≠ 0 then (flat ws ++ rest).getD ((x.2 <<< 1) ||| 1) 0 else
          (flat ws ++ rest).getD (x.2 <<< 1) 0) r = r + weightOf bs us lcv := by
  intro bs
  induction bs with
  | nil => intro us j r _ _; simp [weightOf]
  | cons b bs ih =>
    intro us j r hus hlen
    cases us with
    | nil => simp at hlen
    | cons u us =>
      have hj : j < ws.length := by
        by_contra hc
        rw [List.drop_eq_nil_of_le (by omega)] at hus
        cases hus
      have hu : ws[j] = u := by
        have := List.drop_eq_getElem_cons hj
        rw [← hus] at this
        exact (List.cons.inj this).1.symm
      have hus' : us = ws.drop (j + 1) := by
        have := List.drop_eq_getElem_cons hj
        rw [← hus] at this
        exact (List.cons.inj this).2
      obtain ⟨h1, h2⟩ := flat_getD 0 ws rest j hj
      rw [hu] at h1 h2
      rw [List.map_cons, List.zipIdx_cons, List.foldl_cons]
      simp only [(shl_one j).1, two_mul_or_one, h1, h2, and_pow_ne_bits]
      rw [weightOf]
      have := ih us (j + 1) (r + if lcv.testBit b = true then u.2 else u.1) hus' (by simpa using hlen)
      rw [this]; ring

/-! ### Averages -/

theorem mean_sum {e : Eng} (he : e.Steady) (f g : ℕ → ℝ) (h : ∀ i < 2 ^ e.n, g i = f i) :
    ((List.range (2 ^ e.n)).map fun i => g i * probAll e i).sum = mean e.n f e.amp := by
  rw [sum_listRange]
  unfold mean
  apply Finset.sum_congr rfl
  intro i hi
  have hi := Finset.mem_range.1 hi
  rw [h i hi, probAll_eq he.1 hi]

theorem mean_bit {e : Eng} (he : e.Steady) (b : ℕ) (x y : ℝ) (f : ℕ → ℝ)
    (hf : ∀ i < 2 ^ e.n, f i = if i.testBit b then y else x) :
    x * (1 - probIf e.n (fun i => i.testBit b = true) e.amp) + y * probIf e.n (fun i => i.testBit b = true) e.amp =
      mean e.n f e.amp := by
  have h0 := qProb_false he b
  unfold qProb at h0
  rw [h0]
  unfold probIf mean
  rw [Finset.mul_sum, Finset.mul_sum, ← Finset.sum_add_distrib]
  apply Finset.sum_congr rfl
  intro i hi
  rw [hf i (Finset.mem_range.1 hi)]
  cases h : i.testBit b <;> simp [h]

theorem variance_eq_mean (n : ℕ) (f : ℕ → ℝ) (s : ℕ → ℂ) : variance n f s = mean n (fun i => (f i - mean n f s) ^ 2) s := rfl

theorem weight_single {α : Type} [AddMonoid α] (b : ℕ) (w : α × α) (i : ℕ) : weightOf [b] [w] i = if i.testBit b then w.2 else w.1 := by
  simp [weightOf]

/-- **C23.** `ExpectationBitsFactorized` is the average of the value associated with each outcome, if the sums fit into
128 bits. -/
theorem expectationBits_spec {P : Par} (hP : P.Ok) {e : Eng} (hn : e.n ≤ 64) (he : e.Steady) {bits : List ℕ} (hne : bits ≠ [])
    (hnd : bits.Nodup) (hb : ∀ b ∈ bits, b < e.n) {ws : List (ℕ × ℕ)} (hlen : ws.length = bits.length) (rest : List ℕ)
    {offset : ℕ} (hlt : ∀ i < 2 ^ e.n, offset + weightOf bits ws i < 2 ^ 128) :
    expectationBits P e bits (flat ws ++ rest) offset =
      some (mean e.n (fun i => ((offset + weightOf bits ws i : ℕ) : ℝ)) e.amp, e) := by
  unfold expectationBits
  rw [badArgs_false hnd hb hlen]
  simp only [Bool.false_eq_true, if_false]
  match bits, hne, ws, hlen with
  | [b], _, [w], _ =>
    have hbn := hb b (by simp)
    dsimp only
    rw [prob_spec hP hn he hbn]
    simp only [Option.map_some, flat, List.cons_append, List.getD_cons_zero, List.getD_cons_succ]
    congr 2
    have hlo : (w.1 + offset) % 2 ^ 128 = offset + w.1 := by
      have := hlt 0 (by positivity)
      rw [weight_single] at this
      simp only [Nat.zero_testBit, Bool.false_eq_true, if_false] at this
      rw [Nat.mod_eq_of_lt (by omega), add_comm]
    have hhi : (w.2 + offset) % 2 ^ 128 = offset + w.2 := by
      have := hlt (2 ^ b) (Nat.pow_lt_pow_right (by norm_num) hbn)
      rw [weight_single] at this
      simp only [Nat.testBit_two_pow_self, if_true] at this
      rw [Nat.mod_eq_of_lt (by omega), add_comm]
    rw [hlo, hhi]
    refine mean_bit he b _ _ _ (fun i _ => ?_)
    rw [weight_single]
    cases i.testBit b <;> simp
  | b :: c :: bs, _, ws, hlen =>
    simp only
    congr 2
    exact mean_sum he _ (fun i => (retIndex (b :: c :: bs) (flat ws ++ rest) offset i : ℝ))
      (fun i hi => by rw [retIndex_eq hlen (hlt i hi)])

/-- **C23.** `VarianceBitsFactorized` is the mean squared deviation. -/
theorem varianceBits_spec {P : Par} (hP : P.Ok) {e : Eng} (hn : e.n ≤ 64) (he : e.Steady) {bits : List ℕ} (hne : bits ≠ [])
    (hnd : bits.Nodup) (hb : ∀ b ∈ bits, b < e.n) {ws : List (ℕ × ℕ)} (hlen : ws.length = bits.length) (rest : List ℕ)
    {offset : ℕ} (hlt : ∀ i < 2 ^ e.n, offset + weightOf bits ws i < 2 ^ 128) :
    varianceBits P e bits (flat ws ++ rest) offset =
      some (variance e.n (fun i => ((offset + weightOf bits ws i : ℕ) : ℝ)) e.amp, e) := by
  have hexp := expectationBits_spec hP hn he hne hnd hb hlen rest hlt
  unfold varianceBits
  rw [badArgs_false hnd hb hlen]
  simp only [Bool.false_eq_true, if_false]
  set m := mean e.n (fun i => ((offset + weightOf bits ws i : ℕ) : ℝ)) e.amp with hm
  match bits, hne, ws, hlen with
  | [b], _, [w], _ =>
    have hbn := hb b (by simp)
    dsimp only
    rw [hexp]
    simp only [Option.bind_some]
    rw [prob_spec hP hn he hbn]
    simp only [Option.map_some, flat, List.cons_append, List.getD_cons_zero, List.getD_cons_succ]
    congr 2
    have hlo : (w.1 + offset) % 2 ^ 128 = offset + w.1 := by
      have := hlt 0 (by positivity)
      rw [weight_single] at this
      simp only [Nat.zero_testBit, Bool.false_eq_true, if_false] at this
      rw [Nat.mod_eq_of_lt (by omega), add_comm]
    have hhi : (w.2 + offset) % 2 ^ 128 = offset + w.2 := by
      have := hlt (2 ^ b) (Nat.pow_lt_pow_right (by norm_num) hbn)
      rw [weight_single] at this
      simp only [Nat.testBit_two_pow_self, if_true] at this
      rw [Nat.mod_eq_of_lt (by omega), add_comm]
    rw [hlo, hhi, variance_eq_mean, ← hm]
    refine mean_bit he b _ _ _ (fun i _ => ?_)
    rw [weight_single]
    cases i.testBit b <;> simp [sq]
  | b :: c :: bs, _, ws, hlen =>
    simp only
    rw [hexp]
    simp only [Option.map_some]
    congr 2
    rw [variance_eq_mean, ← hm]
    exact mean_sum he _ (fun i => ((retIndex (b :: c :: bs) (flat ws ++ rest) offset i : ℝ) - m) *
      ((retIndex (b :: c :: bs) (flat ws ++ rest) offset i : ℝ) - m))
      (fun i hi => by rw [retIndex_eq hlen (hlt i hi)]; ring)

/-- The weights of `ExpVarBitsAll`. -/
def bitWeights (k : ℕ) : List (ℕ × ℕ) := (List.range k).map fun i => (0, 2 ^ i)

theorem bitPerms_flat (bits : List ℕ) : bitPerms bits = flat (bitWeights bits.length) := by
  unfold bitPerms bitWeights
  generalize List.range bits.length = l
  induction l with
  | nil => rfl
  | cons i l ih => rw [List.flatMap_cons, ih]; rfl

theorem weightOf_bits (bits : List ℕ) (i : ℕ) : weightOf bits (bitWeights bits.length) i = valueOf bits i := by
  have key : ∀ (bs : List ℕ) (j : ℕ), weightOf bs ((List.range' j bs.length).map fun k => ((0 : ℕ), 2 ^ k)) i = 2 ^ j * valueOf bs i := by
    intro bs
    induction bs with
    | nil => intro j; simp [weightOf, valueOf]
    | cons b bs ih =>
      intro j
      rw [List.length_cons, List.range'_succ, List.map_cons, weightOf, valueOf, ih (j + 1), pow_succ]
      cases i.testBit b <;> simp <;> ring
  have := key bits 0
  rw [pow_zero, one_mul] at this
  unfold bitWeights
  rw [List.range_eq_range']
  exact this

/-- **C23.** `ExpectationBitsAll` is the average, and `VarianceBitsAll` the variance, of the integer that the listed
qubits spell, lowest first, plus the offset. -/
theorem expVarBitsAll_spec {P : Par} (hP : P.Ok) {e : Eng} (hn : e.n ≤ 64) (he : e.Steady) {bits : List ℕ} (hne : bits ≠ [])
    (hnd : bits.Nodup) (hb : ∀ b ∈ bits, b < e.n) {offset : ℕ} (hlt : offset + 2 ^ bits.length ≤ 2 ^ 128) :
    expVarBitsAll P e true bits offset = some (mean e.n (fun i => ((offset + valueOf bits i : ℕ) : ℝ)) e.amp, e) ∧
    expVarBitsAll P e false bits offset = some (variance e.n (fun i => ((offset + valueOf bits i : ℕ) : ℝ)) e.amp, e) := by
  have hlen : (bitWeights bits.length).length = bits.length := by simp [bitWeights]
  have hlt' : ∀ i < 2 ^ e.n, offset + weightOf bits (bitWeights bits.length) i < 2 ^ 128 := by
    intro i _
    rw [weightOf_bits]
    have := valueOf_lt bits i
    omega
  have h1 := expectationBits_spec hP hn he hne hnd hb hlen [] hlt'
  have h2 := varianceBits_spec hP hn he hne hnd hb hlen [] hlt'
  rw [List.append_nil, ← bitPerms_flat] at h1 h2
  simp only [weightOf_bits] at h1 h2
  exact ⟨h1, h2⟩

/-- **C23.** `ExpectationFloatsFactorized` is the average of the sum of the weights. -/
theorem expectationFloats_spec {P : Par} (hP : P.Ok) {e : Eng} (hn : e.n ≤ 64) (he : e.Steady) {bits : List ℕ} (hne : bits ≠ [])
    (hnd : bits.Nodup) (hb : ∀ b ∈ bits, b < e.n) {ws : List (ℝ × ℝ)} (hlen : ws.length = bits.length) (rest : List ℝ) :
    expectationFloats P e bits (flat ws ++ rest) = some (mean e.n (weightOf bits ws) e.amp, e) := by
  unfold expectationFloats
  rw [badArgs_false hnd hb hlen]
  simp only [Bool.false_eq_true, if_false]
  match bits, hne, ws, hlen with
  | [b], _, [w], _ =>
    have hbn := hb b (by simp)
    dsimp only
    rw [prob_spec hP hn he hbn]
    simp only [Option.map_some, flat, List.cons_append, List.getD_cons_zero, List.getD_cons_succ]
    congr 2
    refine mean_bit he b _ _ _ (fun i _ => ?_)
    rw [weight_single]
  | b :: c :: bs, _, ws, hlen =>
    simp only
    congr 2
    refine mean_sum he _ _ (fun i hi => ?_)
    have := floats_aux ws rest i (b :: c :: bs) ws 0 0 (by simp) hlen
    rw [zero_add] at this
    exact this

/-- **C23, partial.** `VarianceFloatsFactorized` of one qubit is the variance. Full statement: the same for every
non-empty list of distinct qubits, `varianceFloats P e bits (flat ws ++ rest) = some (variance e.n (weightOf bits ws) e.amp, e)`;
it is false for two qubits (`varianceFloats_wrong`). -/
theorem varianceFloats_partial {P : Par} (hP : P.Ok) {e : Eng} (hn : e.n ≤ 64) (he : e.Steady) {b : ℕ} (hb : b < e.n)
    (w : ℝ × ℝ) (rest : List ℝ) :
    varianceFloats P e [b] (flat [w] ++ rest) = some (variance e.n (weightOf [b] [w]) e.amp, e) := by
  have hnd : [b].Nodup := by simp
  have hb' : ∀ c ∈ [b], c < e.n := by simpa using hb
  have hexp := expectationFloats_spec hP hn he (by simp) hnd hb' (ws := [w]) rfl rest
  unfold varianceFloats
  rw [badArgs_false hnd hb' rfl]
  simp only [Bool.false_eq_true, if_false]
  rw [hexp]
  simp only [Option.bind_some]
  rw [prob_spec hP hn he hb]
  simp only [Option.map_some, flat, List.cons_append, List.getD_cons_zero, List.getD_cons_succ]
  congr 2
  rw [variance_eq_mean]
  refine mean_bit he b _ _ _ (fun i _ => ?_)
  rw [weight_single]
  cases i.testBit b <;> simp [sq]

/-- **C23.** `GetExpectation` is the average of the register. -/
theorem getExpectation_spec {e : Eng} (he : totalProb e.n e.amp = 1) (start length : ℕ) :
    getExpectation e start length = mean e.n (fun i => ((field start length i : ℕ) : ℝ)) e.amp := by
  unfold getExpectation
  have hf : ∀ i : ℕ, (i &&& ((2 ^ length - 1) <<< start)) >>> start = field start length i := by
    intro i
    apply Nat.eq_of_testBit_eq
    intro k
    rw [testBit_field, Nat.testBit_shiftRight, Nat.testBit_and, Nat.testBit_shiftLeft, Nat.testBit_two_pow_sub_one]
    simp only [ge_iff_le, Nat.le_add_right, decide_true, Bool.true_and, Nat.add_sub_cancel_left]
    rw [Bool.and_comm]
  simp only [hf]
  have key : ∀ (l : List ℕ) (a : ℝ × ℝ), l.foldl (fun (acc : ℝ × ℝ) i =>
      (acc.1 + Complex.normSq (e.amp i) * ((field start length i : ℕ) : ℝ), acc.2 + Complex.normSq (e.amp i))) a =
      (a.1 + (l.map fun i => ((field start length i : ℕ) : ℝ) * Complex.normSq (e.amp i)).sum,
       a.2 + (l.map fun i => Complex.normSq (e.amp i)).sum) := by
    intro l
    induction l with
    | nil => intro a; simp
    | cons i l ih =>
      intro a
      rw [List.foldl_cons, ih, List.map_cons, List.map_cons, List.sum_cons, List.sum_cons]
      congr 1 <;> ring
  rw [key]
  simp only [zero_add, sum_listRange]
  have h1 : ∑ i ∈ Finset.range (2 ^ e.n), Complex.normSq (e.amp i) = 1 := he
  rw [h1, if_pos (by norm_num), div_one]
  rfl

/-! ### One Pauli operator -/

theorem sum_flip_real {n t : ℕ} (ht : t < n) (f : ℕ → ℝ) :
    ∑ i ∈ Finset.range (2 ^ n), f (flipBit t i) = ∑ i ∈ Finset.range (2 ^ n), f i := by
  refine Finset.sum_bij' (fun x _ => flipBit t x) (fun x _ => flipBit t x) ?_ ?_ ?_ ?_ ?_
  · intro x hx; exact Finset.mem_range.2 (flip_lt ht (Finset.mem_range.1 hx))
  · intro x hx; exact Finset.mem_range.2 (flip_lt ht (Finset.mem_range.1 hx))
  · intro x _; exact flip_flip t x
  · intro x _; exact flip_flip t x
  · intro x _; rfl

/-- The sign of qubit `q`. -/
noncomputable def sgn (q i : ℕ) : ℝ := if i.testBit q then -1 else 1

/-- Measuring qubit `q` after `H·diag(1, w)`: the average sign is the average of the off-diagonal part. -/
theorem mean_hadamard {n q : ℕ} (hq : q < n) (s : ℕ → ℂ) (w : ℂ) (hw : Complex.normSq w = 1) (s' : ℕ → ℂ)
    (hs : ∀ i < 2 ^ n, s' i = gate (fun _ => True) q ((1 / Real.sqrt 2 : ℝ) : ℂ) ((1 / Real.sqrt 2 : ℝ) : ℂ)
      ((1 / Real.sqrt 2 : ℝ) : ℂ) (-((1 / Real.sqrt 2 : ℝ) : ℂ)) (fun i => if i.testBit q then w * s i else s i) i) :
    mean n (sgn q) s' = ∑ i ∈ Finset.range (2 ^ n),
      ((starRingEnd ℂ) (s i) * (if i.testBit q then (starRingEnd ℂ) w else w) * s (flipBit q i)).re := by
  have hr2 : (1 / Real.sqrt 2) * (1 / Real.sqrt 2) = 1 / 2 := by
    rw [div_mul_div_comm, Real.mul_self_sqrt (by norm_num)]; norm_num
  have hpt : ∀ i < 2 ^ n, sgn q i * Complex.normSq (s' i) =
      (sgn q i * Complex.normSq (s i) + sgn q i * Complex.normSq (s (flipBit q i))) / 2 +
      ((starRingEnd ℂ) (s i) * (if i.testBit q then (starRingEnd ℂ) w else w) * s (flipBit q i)).re := by
    intro i hi
    rw [hs i hi]
    unfold gate sgn
    have hf : (flipBit q i).testBit q = !i.testBit q := by rw [testBit_flip]; simp
    simp only [if_true]
    cases h : i.testBit q
    · simp only [hf, h, Bool.false_eq_true, if_false, Bool.not_false, if_true]
      rw [← mul_add, Complex.normSq_mul, Complex.normSq_ofReal, hr2, Complex.normSq_add, Complex.normSq_mul, hw]
      have : (s i * (starRingEnd ℂ) (w * s (flipBit q i))).re = ((starRingEnd ℂ) (s i) * w * s (flipBit q i)).re := by
        rw [← Complex.conj_re]; congr 1; simp; ring
      rw [this]; ring
    · simp only [hf, h, Bool.false_eq_true, if_false, Bool.not_true, if_true]
      rw [show ((1 / Real.sqrt 2 : ℝ) : ℂ) * s (flipBit q i) + -((1 / Real.sqrt 2 : ℝ) : ℂ) * (w * s i) =
        ((1 / Real.sqrt 2 : ℝ) : ℂ) * (s (flipBit q i) - w * s i) by ring, Complex.normSq_mul, Complex.normSq_ofReal, hr2,
        Complex.normSq_sub, Complex.normSq_mul, hw]
      have : (s (flipBit q i) * (starRingEnd ℂ) (w * s i)).re =
          ((starRingEnd ℂ) (s i) * (starRingEnd ℂ) w * s (flipBit q i)).re := by
        congr 1; simp; ring
      rw [this]; ring
  unfold mean
  rw [Finset.sum_congr rfl (fun i hi => hpt i (Finset.mem_range.1 hi)), Finset.sum_add_distrib, ← Finset.sum_div,
    Finset.sum_add_distrib]
  have hzero : ∑ i ∈ Finset.range (2 ^ n), sgn q i * Complex.normSq (s (flipBit q i)) =
      - ∑ i ∈ Finset.range (2 ^ n), sgn q i * Complex.normSq (s i) := by
    rw [← sum_flip_real hq (fun i => sgn q i * Complex.normSq (s i)), ← Finset.sum_neg_distrib]
    apply Finset.sum_congr rfl
    intro i _
    unfold sgn
    rw [testBit_flip]
    cases h : i.testBit q <;> simp
  rw [hzero]; ring

/-- The Hadamard matrix of `gateH`. -/
noncomputable def hMat : M2 := ⟨((1 / Real.sqrt 2 : ℝ) : ℂ), ((1 / Real.sqrt 2 : ℝ) : ℂ), ((1 / Real.sqrt 2 : ℝ) : ℂ),
    -((1 / Real.sqrt 2 : ℝ) : ℂ)⟩

theorem half_sqrt : ((1 / Real.sqrt 2 : ℝ) : ℂ) * ((1 / Real.sqrt 2 : ℝ) : ℂ) = 1 / 2 := by
  rw [← Complex.ofReal_mul, div_mul_div_comm, Real.mul_self_sqrt (by norm_num)]; norm_num

theorem gate_hh (q : ℕ) (s : ℕ → ℂ) (i : ℕ) : gate (fun _ => True) q hMat.a hMat.b hMat.c hMat.d
    (gate (fun _ => True) q hMat.a hMat.b hMat.c hMat.d s) i = s i := by
  have hf : (flipBit q i).testBit q = !i.testBit q := by rw [testBit_flip]; simp
  have h2 := half_sqrt
  unfold gate hMat
  simp only [if_true]
  rw [hf, flip_flip]
  set c := ((1 / Real.sqrt 2 : ℝ) : ℂ)
  cases i.testBit q
  · simp only [Bool.false_eq_true, if_false, Bool.not_false, if_true]
    linear_combination (2 * s i) * h2
  · simp only [Bool.false_eq_true, if_false, Bool.not_true, if_true]
    linear_combination (2 * s i) * h2

theorem totalProb_hadamard {n q : ℕ} (hq : q < n) (s : ℕ → ℂ) :
    totalProb n (gate (fun _ => True) q hMat.a hMat.b hMat.c hMat.d s) = totalProb n s := by
  have hm : hMat.IsUnitary := by
    have h2 := half_sqrt
    constructor <;> simp only [hMat, Complex.conj_ofReal, map_neg]
    · linear_combination 2 * h2
    · linear_combination 2 * h2
    · ring
  have key := gate_inner hq (p := fun _ => True) (fun _ => Iff.rfl) hm s s
  rw [← totalProb_eq_inner, ← totalProb_eq_inner] at key
  exact_mod_cast key

theorem mtrx_ok {σ : List ℕ → List ℕ} (hσ : IsSched σ) {f : Eng} (hn : f.n ≤ 64) (hd : f.doNorm = false) {q : ℕ} (hq : q < f.n)
    {m : M2} (hm : ¬ Dropped f.rgp m) :
    ∃ f', mtrx σ f m q = some f' ∧ f'.n = f.n ∧ f'.doNorm = false ∧ f'.rgp = f.rgp ∧
      SameOn f.n f'.amp (gate (fun _ => True) q m.a m.b m.c m.d f.amp) := by
  obtain ⟨f', h1, h2, _, h4, _, h6, h7, _⟩ := mtrx_gate hσ hn (m := m) (Or.inl hd) hq
  exact ⟨f', h1, h2, by rw [h4, hd], h6, h7 hm⟩

theorem hMat_kept (rgp : Bool) : ¬ Dropped rgp hMat := by
  rintro ⟨_, hb, _⟩
  have : ((1 / Real.sqrt 2 : ℝ) : ℂ) = 0 := hb
  rw [Complex.ofReal_eq_zero] at this
  have h2 : Real.sqrt 2 ≠ 0 := by positivity
  exact h2 (by simpa using this)

theorem phase_ok {σ : List ℕ → List ℕ} (hσ : IsSched σ) {f : Eng} (hn : f.n ≤ 64) (hd : f.doNorm = false) {q : ℕ} (hq : q < f.n)
    {w : ℂ} (hw : w ≠ 1) :
    ∃ f', phase σ f 1 w q = some f' ∧ f'.n = f.n ∧ f'.doNorm = false ∧ f'.rgp = f.rgp ∧
      SameOn f.n f'.amp (fun i => if i.testBit q then w * f.amp i else f.amp i) := by
  obtain ⟨f', h1, h2, h3, h4, h5⟩ := mtrx_ok hσ hn hd hq (m := ⟨1, 0, 0, w⟩) (by rintro ⟨_, _, _, h⟩; exact hw h.symm)
  refine ⟨f', ?_, h2, h3, h4, fun i hi => ?_⟩
  · unfold phase
    rw [if_neg (by rintro ⟨_, h⟩; exact hw (sub_eq_zero.1 h).symm)]
    exact h1
  · rw [h5 i hi]
    unfold gate
    by_cases hb : i.testBit q = true <;> simp [hb]

/-- **C23, partial.** `ExpectationPauliAll` of a single Pauli operator other than the identity is its expectation value
`⟨ψ|P|ψ⟩`, and the state comes back unchanged. Full statement: for all lists, `expectationPauli P e bits paulis` returns
`(inner e.n e.amp (pauliProduct bits paulis e.amp)).re`; it is false for two operators (`expectationPauli_sum_wrong`) and
with identities (`expectationPauli_identity_wrong`). -/
theorem expectationPauli_partial {P : Par} (hP : P.Ok) {e : Eng} (hn : e.n ≤ 64) (he : e.Steady) (hd : e.doNorm = false)
    {q : ℕ} (hq : q < e.n) {p : PauliName} (hp : p ≠ .I) :
    ∃ e', expectationPauli P e [q] [p] = some ((Spec.inner e.n e.amp (pauliProduct [q] [p] e.amp)).re, e') ∧
      SameOn e.n e'.amp e.amp := by
  have hdrop : dropIdentities 1 0 [q] [p] = ([q], [p]) := by
    unfold dropIdentities
    simp [hp, dropIdentities]
  have hw : [(1 : ℝ), -1] ++ [] = flat [((1 : ℝ), (-1 : ℝ))] ++ [] := rfl
  have hmean : ∀ s : ℕ → ℂ, mean e.n (weightOf [q] [((1 : ℝ), (-1 : ℝ))]) s = mean e.n (sgn q) s := by
    intro s
    unfold mean
    apply Finset.sum_congr rfl
    intro i _
    rw [weight_single]; rfl
  have hexp : ∀ f : Eng, f.n = e.n → f.doNorm = false → totalProb e.n f.amp = 1 →
      expectationFloats P f [q] ([(1 : ℝ), -1] ++ []) = some (mean e.n (sgn q) f.amp, f) := by
    intro f hfn hfd hft
    rw [hw, expectationFloats_spec hP (by omega) ⟨by rw [hfn]; exact hft, fun h => by rw [hfd] at h; cases h⟩ (by simp)
      (by simp) (by intro c hc; rw [List.mem_singleton] at hc; omega) rfl [], hfn, hmean]
  unfold expectationPauli
  rw [show [q].length = 1 from rfl, hdrop]
  simp only [List.zip_cons_cons, List.zip_nil_right, List.cons_ne_self, if_false, reduceCtorEq, List.flatMap_cons,
    List.flatMap_nil]
  cases p with
  | I => exact absurd rfl hp
  | Z =>
    simp only [toBasis, fromBasis, Option.bind_some]
    rw [hexp e rfl hd he.1]
    refine ⟨e, ?_, fun _ _ => rfl⟩
    simp only [Option.bind_some, Option.map_some]
    congr 2
    unfold mean Spec.inner
    rw [Complex.re_sum]
    apply Finset.sum_congr rfl
    intro i _
    unfold sgn pauliProduct pauliGate pauliProduct gate
    simp only [if_true]
    cases i.testBit q
    · simp only [Bool.false_eq_true, if_false]
      rw [one_mul, zero_mul, add_zero, one_mul, ← Complex.normSq_eq_conj_mul_self, Complex.ofReal_re]
    · simp only [if_true]
      rw [zero_mul, zero_add, ← mul_assoc, mul_comm _ (-1 : ℂ), mul_assoc, ← Complex.normSq_eq_conj_mul_self, neg_one_mul,
        neg_one_mul, Complex.neg_re, Complex.ofReal_re]
  | X =>
    obtain ⟨f, h1, h2, h3, h4, h5⟩ := mtrx_ok hP.1 hn hd hq (hMat_kept e.rgp)
    have hHe : gateH P.σ e q = some f := h1
    obtain ⟨g, k1, k2, k3, k4, k5⟩ := mtrx_ok hP.1 (f := f) (by omega) h3 (q := q) (by omega) (hMat_kept f.rgp)
    have hHf : gateH P.σ f q = some g := k1
    have hft : totalProb e.n f.amp = 1 := by
      rw [totalProb_congr h5, totalProb_hadamard hq]; exact he.1
    simp only [toBasis, fromBasis, hHe, Option.bind_some]
    rw [hexp f h2 h3 hft]
    simp only [hHf, Option.bind_some, Option.map_some]
    refine ⟨g, ?_, ?_⟩
    · congr 2
      rw [mean_hadamard hq e.amp 1 (by simp) f.amp (fun i hi => by rw [h5 i hi]; simp [hMat])]
      unfold Spec.inner
      rw [Complex.re_sum]
      apply Finset.sum_congr rfl
      intro i _
      unfold pauliProduct pauliGate pauliProduct gate
      by_cases hb : i.testBit q = true <;> simp [hb]
    · intro i hi
      rw [k5 i (by rw [h2]; exact hi), gate_congr hq _ _ _ _ _ h5 i hi, gate_hh]
  | Y =>
    have hI : -Complex.I ≠ 1 := by intro h; have := congrArg Complex.re h; simp at this
    have hI' : Complex.I ≠ 1 := by intro h; have := congrArg Complex.re h; simp at this
    obtain ⟨a, a1, a2, a3, a4, a5⟩ := phase_ok hP.1 hn hd hq hI
    obtain ⟨f, h1, h2, h3, h4, h5⟩ := mtrx_ok hP.1 (f := a) (by omega) a3 (q := q) (by omega) (hMat_kept a.rgp)
    have hHe : gateH P.σ a q = some f := h1
    obtain ⟨g, k1, k2, k3, k4, k5⟩ := mtrx_ok hP.1 (f := f) (by omega) h3 (q := q) (by omega) (hMat_kept f.rgp)
    have hHf : gateH P.σ f q = some g := k1
    obtain ⟨z, z1, z2, z3, z4, z5⟩ := phase_ok hP.1 (f := g) (by omega) k3 (q := q) (by omega) hI'
    have hat : totalProb e.n a.amp = 1 := by
      rw [totalProb_congr a5, ← he.1]
      unfold totalProb
      apply Finset.sum_congr rfl
      intro i _
      by_cases hb : i.testBit q = true <;> simp [hb]
    rw [a2] at h5
    have hft : totalProb e.n f.amp = 1 := by
      rw [totalProb_congr h5, totalProb_hadamard hq]; exact hat
    simp only [toBasis, fromBasis, a1, hHe, Option.bind_some]
    rw [hexp f (by omega) h3 hft]
    simp only [hHf, z1, Option.bind_some, Option.map_some]
    refine ⟨z, ?_, ?_⟩
    · congr 2
      rw [mean_hadamard hq e.amp (-Complex.I) (by simp) f.amp (fun i hi => by
        rw [h5 i hi, gate_congr hq _ _ _ _ _ a5 i hi]; rfl)]
      unfold Spec.inner
      rw [Complex.re_sum]
      apply Finset.sum_congr rfl
      intro i _
      unfold pauliProduct pauliGate pauliProduct gate
      by_cases hb : i.testBit q = true <;> simp [hb, mul_assoc]
    · intro i hi
      rw [z5 i (by rw [k2, h2, a2]; exact hi)]
      have : g.amp i = a.amp i := by
        rw [k5 i (by rw [h2, a2]; exact hi), gate_congr hq _ _ _ _ _ h5 i hi, gate_hh]
      simp only [this]
      rw [a5 i hi]
      by_cases hb : i.testBit q = true <;> simp [hb, ← mul_assoc]

/-! ### Where the code fails -/

/-- A basis state of two qubits. -/
noncomputable def basis2 (k : ℕ) : Eng := ⟨2, fun i => if i = k then 1 else 0, 1, false, true, 0⟩

theorem basis2_steady {k : ℕ} (hk : k < 4) : (basis2 k).Steady := by
  refine ⟨?_, fun _ => rfl⟩
  unfold totalProb basis2
  rw [Finset.sum_eq_single k]
  · simp
  · intro i _ h; simp [h]
  · intro h; exact absurd (Finset.mem_range.2 (by simpa using hk)) h

theorem mean_basis2 {k : ℕ} (hk : k < 4) (f : ℕ → ℝ) : mean 2 f (basis2 k).amp = f k := by
  unfold mean basis2
  rw [Finset.sum_eq_single k]
  · simp
  · intro i _ h; simp [h]
  · intro h; exact absurd (Finset.mem_range.2 (by simpa using hk)) h

/-- The code violates C23: the variance of a state with a certain outcome is zero, and for two qubits in `|00⟩` with
weights `±1` the code returns one. -/
theorem varianceFloats_wrong : ∃ (P : Par) (e : Eng), P.Ok ∧ e.Steady ∧
    varianceFloats P e [0, 1] (flat [(1, -1), (1, -1)]) = some (1, e) ∧
    variance e.n (weightOf [0, 1] [(1, -1), (1, -1)]) e.amp = 0 := by
  have hP : Par.Ok ⟨id, 1, fun _ => 0⟩ := ⟨fun l => List.Perm.refl l, fun _ => by norm_num⟩
  have he := basis2_steady (k := 0) (by norm_num)
  refine ⟨⟨id, 1, fun _ => 0⟩, basis2 0, hP, he, ?_, ?_⟩
  · have hexp := expectationFloats_spec hP (e := basis2 0) (by norm_num [basis2]) he (bits := [0, 1]) (by simp) (by simp)
      (by simp [basis2]) (ws := [(1, -1), (1, -1)]) rfl []
    rw [List.append_nil] at hexp
    unfold varianceFloats
    have hbad := badArgs_false (e := basis2 0) (bits := [0, 1]) (ws := [((1 : ℝ), (-1 : ℝ)), (1, -1)]) (rest := []) (by simp)
      (by simp [basis2]) rfl
    rw [List.append_nil] at hbad
    rw [hbad]
    simp only [Bool.false_eq_true, if_false]
    rw [hexp]
    simp only [Option.map_some]
    congr 2
    rw [mean_sum he (fun i => ([0, 1].map pow2).zipIdx.foldl (fun w (x : ℕ × ℕ) =>
          w * if i &&& x.1 = 0 then (flat [((1 : ℝ), (-1 : ℝ)), (1, -1)]).getD (x.2 <<< 1) 0
            else (flat [((1 : ℝ), (-1 : ℝ)), (1, -1)]).getD ((x.2 <<< 1) ||| 1) 0) 1) _ (fun _ _ => rfl)]
    rw [show (basis2 0).n = 2 from rfl, mean_basis2 (by norm_num)]
    simp [flat, List.zipIdx]
  · rw [variance_eq_mean, show (basis2 0).n = 2 from rfl, mean_basis2 (by norm_num), mean_basis2 (by norm_num)]
    simp

/-- The code violates C23 for the empty list: the value is the offset, and the code returns one. -/
theorem expectation_empty_wrong : ∃ (P : Par) (e : Eng), P.Ok ∧ e.Steady ∧
    expVarBitsAll P e true [] 0 = some (1, e) ∧ mean e.n (fun i => ((0 + valueOf [] i : ℕ) : ℝ)) e.amp = 0 ∧
    expVarBitsAll P e false [] 0 = some (1, e) ∧ variance e.n (fun i => ((0 + valueOf [] i : ℕ) : ℝ)) e.amp = 0 := by
  have hP : Par.Ok ⟨id, 1, fun _ => 0⟩ := ⟨fun l => List.Perm.refl l, fun _ => by norm_num⟩
  refine ⟨⟨id, 1, fun _ => 0⟩, basis2 0, hP, basis2_steady (by norm_num), ?_, ?_, ?_, ?_⟩
  · simp [expVarBitsAll, expectationBits, badArgs, bitPerms, Utils.throwIfBad, Utils.throwIfBadAux]
  · rw [show (basis2 0).n = 2 from rfl, mean_basis2 (by norm_num)]; simp [valueOf]
  · simp [expVarBitsAll, varianceBits, badArgs, bitPerms, Utils.throwIfBad, Utils.throwIfBadAux]
  · rw [variance_eq_mean, show (basis2 0).n = 2 from rfl, mean_basis2 (by norm_num), mean_basis2 (by norm_num)]; simp [valueOf]

/-- The code violates C23: the expectation of `Z ⊗ Z` in `|00⟩` is one, and `ExpectationPauliAll` returns two, because it
adds the eigenvalues. -/
theorem expectationPauli_sum_wrong : ∃ (P : Par) (e : Eng), P.Ok ∧ e.Steady ∧
    expectationPauli P e [0, 1] [.Z, .Z] = some (2, e) ∧ Spec.inner e.n e.amp (pauliProduct [0, 1] [.Z, .Z] e.amp) = 1 := by
  have hP : Par.Ok ⟨id, 1, fun _ => 0⟩ := ⟨fun l => List.Perm.refl l, fun _ => by norm_num⟩
  have he := basis2_steady (k := 0) (by norm_num)
  refine ⟨⟨id, 1, fun _ => 0⟩, basis2 0, hP, he, ?_, ?_⟩
  · have hexp := expectationFloats_spec hP (e := basis2 0) (by norm_num [basis2]) he (bits := [0, 1]) (by simp) (by simp)
      (by simp [basis2]) (ws := [(1, -1), (1, -1)]) rfl []
    rw [show (basis2 0).n = 2 from rfl, mean_basis2 (by norm_num)] at hexp
    have hw : weightOf [0, 1] [((1 : ℝ), (-1 : ℝ)), (1, -1)] 0 = 2 := by simp [weightOf]; norm_num
    rw [hw] at hexp
    have hdrop : dropIdentities 2 0 [0, 1] [PauliName.Z, .Z] = ([0, 1], [PauliName.Z, .Z]) := by decide
    unfold expectationPauli
    rw [show [0, 1].length = 2 from rfl, hdrop]
    simp only [List.zip_cons_cons, List.zip_nil_right, toBasis, fromBasis]
    simp only [reduceCtorEq, if_false, Option.bind_some, List.flatMap_cons, List.flatMap_nil]
    have : flat [((1 : ℝ), (-1 : ℝ)), (1, -1)] ++ [] = [1, -1] ++ ([1, -1] ++ []) := rfl
    rw [← this, hexp]
    rfl
  · unfold Spec.inner
    rw [show (basis2 0).n = 2 from rfl, show (2 : ℕ) ^ 2 = 4 by norm_num]
    simp [Finset.sum_range_succ, basis2, pauliProduct, pauliGate, gate]

/-- The code violates C23: the expectation of the identity is one, and for `I ⊗ I` in `|11⟩` the code returns minus one,
because the loop that drops identities skips one of them. -/
theorem expectationPauli_identity_wrong : ∃ (P : Par) (e : Eng), P.Ok ∧ e.Steady ∧
    expectationPauli P e [0, 1] [.I, .I] = some (-1, e) ∧ Spec.inner e.n e.amp (pauliProduct [0, 1] [.I, .I] e.amp) = 1 := by
  have hP : Par.Ok ⟨id, 1, fun _ => 0⟩ := ⟨fun l => List.Perm.refl l, fun _ => by norm_num⟩
  have he := basis2_steady (k := 3) (by norm_num)
  refine ⟨⟨id, 1, fun _ => 0⟩, basis2 3, hP, he, ?_, ?_⟩
  · have hexp := expectationFloats_spec hP (e := basis2 3) (by norm_num [basis2]) he (bits := [0]) (by simp) (by simp)
      (by simp [basis2]) (ws := [(1, -1)]) rfl []
    rw [show (basis2 3).n = 2 from rfl, mean_basis2 (by norm_num)] at hexp
    have hw : weightOf [0] [((1 : ℝ), (-1 : ℝ))] 3 = -1 := by
      rw [weight_single, if_pos (show (3 : ℕ).testBit 0 = true from rfl)]
    rw [hw] at hexp
    have hdrop : dropIdentities 2 0 [0, 1] [PauliName.I, .I] = ([0], [PauliName.I]) := by decide
    unfold expectationPauli
    rw [show [0, 1].length = 2 from rfl, hdrop]
    simp only [List.zip_cons_cons, List.zip_nil_right, toBasis, fromBasis]
    simp only [reduceCtorEq, if_false, Option.bind_some, List.flatMap_cons, List.flatMap_nil]
    have : flat [((1 : ℝ), (-1 : ℝ))] ++ [] = [1, -1] ++ [] := rfl
    rw [← this, hexp]
    rfl
  · unfold Spec.inner
    rw [show (basis2 3).n = 2 from rfl, show (2 : ℕ) ^ 2 = 4 by norm_num]
    simp [Finset.sum_range_succ, basis2, pauliProduct, pauliGate]

/-- Three qubits, the two lowest listed out of order; weights and offset far below the overflow. -/
example : [1, 0] ≠ [] ∧ [1, 0].Nodup ∧ (∀ b ∈ [1, 0], b < 3) ∧ 5 + 2 ^ [1, 0].length ≤ 2 ^ 128 ∧
    (∀ i < 2 ^ 3, 5 + weightOf [1, 0] [(0, 7), (3, 10)] i < 2 ^ 128) ∧ weightOf [1, 0] [(0, 7), (3, 10)] 2 = 10 := by
  refine ⟨by simp, by simp, by simp, by norm_num, ?_, by decide⟩
  decide

end Verif.Engine
