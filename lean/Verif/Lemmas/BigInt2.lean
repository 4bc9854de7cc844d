import Verif.Lemmas.BigInt
import Mathlib.Data.Nat.Size

/-! Shifts, logarithm, multiplication and division of the multi-word integer model. -/

namespace Verif.BigInt

open Verif.Limbs
open Function (update update_self update_of_ne)

theorem div_mod_of {w j b x : ℕ} (hb : b < w) (h : x = j * w + b) : x / w = j ∧ x % w = b := by
  subst h
  have hw : 0 < w := by omega
  constructor
  · rw [add_comm, Nat.add_mul_div_right _ _ hw, Nat.div_eq_of_lt hb, zero_add]
  · rw [add_comm, Nat.add_mul_mod_self_right, Nat.mod_eq_of_lt hb]

theorem opShl_wf {wb N : ℕ} {L : Limbs} (h : WF (2 ^ wb) N L) (r : ℕ) :
    WF (2 ^ wb) N (opShl wb N L r) := by
  have h1 := wf_biLshiftWord (r := r / wb) h (by positivity)
  unfold opShl
  dsimp only
  split_ifs with hm
  · exact h1
  · intro i hi
    rw [(lshiftBits_spec _ _ _ _).1, if_pos hi]
    apply Nat.or_lt_two_pow
    · split_ifs
      · positivity
      · exact lt_of_le_of_lt (Nat.shiftRight_le _ _) (h1 _ (by omega))
    · exact Nat.mod_lt _ (by positivity)

/-- Bit-level description of the left bit-shift loop applied to well-formed words. -/
theorem lshiftBits_val {wb N m : ℕ} (hw : 0 < wb) (hm : m < wb) {S : Limbs}
    (h : WF (2 ^ wb) N S) :
    val (2 ^ wb) N (lshiftBits wb m S N).1 = (val (2 ^ wb) N S <<< m) % 2 ^ (wb * N) := by
  have hwf : WF (2 ^ wb) N (lshiftBits wb m S N).1 := by
    intro i hi
    rw [(lshiftBits_spec _ _ _ _).1, if_pos hi]
    apply Nat.or_lt_two_pow
    · split_ifs
      · positivity
      · exact lt_of_le_of_lt (Nat.shiftRight_le _ _) (h _ (by omega))
    · exact Nat.mod_lt _ (by positivity)
  apply Nat.eq_of_testBit_eq
  intro k
  rw [val_testBit hw hwf, Nat.testBit_mod_two_pow, Nat.testBit_shiftLeft]
  have hkk : k = (k / wb) * wb + k % wb := (Nat.div_add_mod' k wb).symm
  have hb := Nat.mod_lt k hw
  generalize k / wb = i at *
  generalize k % wb = b at *
  by_cases hi : i < N
  · have hk : k < wb * N := by
      have : (i + 1) * wb ≤ N * wb := Nat.mul_le_mul_right _ hi
      rw [hkk]; nlinarith
    rw [(lshiftBits_spec _ _ _ _).1, if_pos hi]
    simp only [hi, hk, decide_true, Bool.true_and, Nat.testBit_or, Nat.testBit_mod_two_pow, hb,
      Nat.testBit_shiftLeft]
    by_cases hbm : m ≤ b
    · have e : k - m = i * wb + (b - m) := by omega
      obtain ⟨e1, e2⟩ := div_mod_of (by omega : b - m < wb) e
      rw [val_testBit hw h, e1, e2]
      have hmk : m ≤ k := by omega
      have hz : (if i = 0 then 0 else S (i - 1) >>> (wb - m)).testBit b = false := by
        split_ifs with h0
        · simp
        · rw [Nat.testBit_shiftRight]
          exact Nat.testBit_lt_two_pow (lt_of_lt_of_le (h _ (by omega))
            (Nat.pow_le_pow_right (by norm_num) (by omega)))
      simp [hz, hbm, hmk, hi]
    · have hz : decide (b ≥ m) = false := by simp; omega
      simp only [hz, Bool.false_and, Bool.or_false]
      by_cases h0 : i = 0
      · subst h0
        have : decide (k ≥ m) = false := by simp; omega
        simp [this]
      · have e : k - m = (i - 1) * wb + (wb - m + b) := by
          obtain ⟨i', rfl⟩ : ∃ i', i = i' + 1 := ⟨i - 1, by omega⟩
          simp only [Nat.add_sub_cancel]
          rw [hkk]
          have : (i' + 1) * wb = i' * wb + wb := by ring
          omega
        obtain ⟨e1, e2⟩ := div_mod_of (by omega : wb - m + b < wb) e
        have hmk : m ≤ k := by
          have : 1 * wb ≤ i * wb := Nat.mul_le_mul_right _ (by omega)
          omega
        rw [val_testBit hw h, e1, e2, if_neg h0, Nat.testBit_shiftRight]
        simp [hmk, show i - 1 < N by omega]
  · have hk : ¬ k < wb * N := by
      have : N * wb ≤ i * wb := Nat.mul_le_mul_right _ (by omega)
      rw [mul_comm] at this
      omega
    simp [hi, hk]

theorem biLshiftWord_val {wb N q : ℕ} (hw : 0 < wb) {L : Limbs} (h : WF (2 ^ wb) N L) :
    val (2 ^ wb) N (biLshiftWord N L q) = (val (2 ^ wb) N L <<< (wb * q)) % 2 ^ (wb * N) := by
  apply Nat.eq_of_testBit_eq
  intro k
  rw [val_testBit hw (wf_biLshiftWord h (by positivity)), Nat.testBit_mod_two_pow,
    Nat.testBit_shiftLeft]
  have hkk : k = (k / wb) * wb + k % wb := (Nat.div_add_mod' k wb).symm
  have hb := Nat.mod_lt k hw
  generalize k / wb = i at *
  generalize k % wb = b at *
  by_cases hi : i < N
  · have hk : k < wb * N := by
      have : (i + 1) * wb ≤ N * wb := Nat.mul_le_mul_right _ hi
      rw [hkk]; nlinarith
    rw [biLshiftWord_apply _ hi]
    by_cases hq : q ≤ i
    · have hm : q * wb ≤ i * wb := Nat.mul_le_mul_right _ hq
      have e : k - wb * q = (i - q) * wb + b := by
        rw [Nat.sub_mul, mul_comm wb q]; omega
      obtain ⟨e1, e2⟩ := div_mod_of hb e
      rw [val_testBit hw h, e1, e2]
      have : wb * q ≤ k := by rw [mul_comm]; omega
      simp [hq, hi, hk, this, show i - q < N by omega]
    · have hm : (i + 1) * wb ≤ q * wb := Nat.mul_le_mul_right _ (by omega)
      have : ¬ wb * q ≤ k := by rw [mul_comm]; nlinarith
      simp [hq, this]
  · have hk : ¬ k < wb * N := by
      have : N * wb ≤ i * wb := Nat.mul_le_mul_right _ (by omega)
      rw [mul_comm] at this
      omega
    simp [hi, hk]

theorem shl_mod_shl (v a m M : ℕ) :
    ((v <<< a % 2 ^ M) <<< m) % 2 ^ M = (v <<< (a + m)) % 2 ^ M := by
  rw [Nat.shiftLeft_eq, Nat.shiftLeft_eq, Nat.shiftLeft_eq, Nat.mod_mul_mod, pow_add, mul_assoc]

theorem opShl_val {wb N : ℕ} (hw : 0 < wb) {L : Limbs} (h : WF (2 ^ wb) N L) (r : ℕ) :
    val (2 ^ wb) N (opShl wb N L r) = (val (2 ^ wb) N L <<< r) % 2 ^ (wb * N) := by
  unfold opShl
  dsimp only
  have e : wb * (r / wb) + r % wb = r := Nat.div_add_mod r wb
  split_ifs with hm
  · rw [biLshiftWord_val hw h]
    rw [hm, add_zero] at e
    rw [e]
  · rw [lshiftBits_val hw (Nat.mod_lt _ hw) (wf_biLshiftWord h (by positivity)),
      biLshiftWord_val hw h, shl_mod_shl, e]

/-! Right shifts -/

theorem rshiftBits_wf {wb N m : ℕ} {S : Limbs} (h : WF (2 ^ wb) N S) :
    WF (2 ^ wb) N (rshiftBits wb N m S N).1 := by
  intro i hi
  rw [(rshiftBits_spec _ _ _ _ _ le_rfl).1 i hi, if_pos (by omega)]
  apply Nat.or_lt_two_pow
  · split_ifs
    · exact Nat.mod_lt _ (by positivity)
    · positivity
  · exact lt_of_le_of_lt (Nat.shiftRight_le _ _) (h _ hi)

theorem rshiftBits_val {wb N m : ℕ} (hw : 0 < wb) (hm : m < wb) {S : Limbs}
    (h : WF (2 ^ wb) N S) :
    val (2 ^ wb) N (rshiftBits wb N m S N).1 = val (2 ^ wb) N S >>> m := by
  apply Nat.eq_of_testBit_eq
  intro k
  rw [val_testBit hw (rshiftBits_wf h), Nat.testBit_shiftRight]
  have hkk : k = (k / wb) * wb + k % wb := (Nat.div_add_mod' k wb).symm
  have hb := Nat.mod_lt k hw
  generalize k / wb = i at *
  generalize k % wb = b at *
  by_cases hi : i < N
  · rw [(rshiftBits_spec _ _ _ _ _ le_rfl).1 i hi, if_pos (by omega)]
    simp only [hi, decide_true, Bool.true_and, Nat.testBit_or, Nat.testBit_shiftRight]
    by_cases hbm : m + b < wb
    · obtain ⟨e1, e2⟩ := div_mod_of hbm (show m + k = i * wb + (m + b) by omega)
      rw [val_testBit hw h, e1, e2]
      have hz : (if i + 1 < N then (S (i + 1) <<< (wb - m)) % 2 ^ wb else 0).testBit b = false := by
        split_ifs with h0
        · rw [Nat.testBit_mod_two_pow, Nat.testBit_shiftLeft]
          have : ¬ (wb - m ≤ b) := by omega
          simp [this]
        · simp
      simp [hz, hi]
    · have e : m + k = (i + 1) * wb + (m + b - wb) := by
        have : (i + 1) * wb = i * wb + wb := by ring
        omega
      obtain ⟨e1, e2⟩ := div_mod_of (by omega : m + b - wb < wb) e
      rw [val_testBit hw h, e1, e2]
      have hz : (S i).testBit (m + b) = false :=
        Nat.testBit_lt_two_pow (lt_of_lt_of_le (h _ hi)
            (Nat.pow_le_pow_right (by norm_num) (by omega)))
      rw [hz, Bool.or_false]
      split_ifs with h0
      · rw [Nat.testBit_mod_two_pow, Nat.testBit_shiftLeft]
        have h1 : wb - m ≤ b := by omega
        have h2 : b - (wb - m) = m + b - wb := by omega
        simp [h1, hb, h0, h2]
      · simp [h0]
  · simp only [hi, decide_false, Bool.false_and]
    symm
    apply Nat.testBit_lt_two_pow
    have h1 := val_lt h
    rw [← pow_mul] at h1
    refine lt_of_lt_of_le h1 (Nat.pow_le_pow_right (by norm_num) ?_)
    have : N * wb ≤ i * wb := Nat.mul_le_mul_right _ (by omega)
    rw [mul_comm] at this
    omega

theorem biRshiftWord_val {wb N q : ℕ} (hw : 0 < wb) {L : Limbs} (h : WF (2 ^ wb) N L) :
    val (2 ^ wb) N (biRshiftWord N L q) = val (2 ^ wb) N L >>> (wb * q) := by
  apply Nat.eq_of_testBit_eq
  intro k
  rw [val_testBit hw (wf_biRshiftWord h (by positivity)), Nat.testBit_shiftRight, val_testBit hw h]
  have hkk : k = (k / wb) * wb + k % wb := (Nat.div_add_mod' k wb).symm
  have hb := Nat.mod_lt k hw
  obtain ⟨e1, e2⟩ := div_mod_of hb (show wb * q + k = (k / wb + q) * wb + k % wb by
    rw [add_mul, mul_comm wb q]; omega)
  rw [e1, e2]
  by_cases hi : k / wb < N
  · rw [biRshiftWord_apply _ hi]
    split_ifs with h1 <;> simp [h1, hi]
  · have : ¬ (k / wb + q < N) := by omega
    simp [hi, this]

theorem opShr_wf {wb N : ℕ} {L : Limbs} (h : WF (2 ^ wb) N L) (r : ℕ) :
    WF (2 ^ wb) N (opShr wb N L r) := by
  have h1 := wf_biRshiftWord (r := r / wb) h (by positivity)
  unfold opShr
  dsimp only
  split_ifs with hm
  · exact h1
  · exact rshiftBits_wf h1

theorem opShr_val {wb N : ℕ} (hw : 0 < wb) {L : Limbs} (h : WF (2 ^ wb) N L) (r : ℕ) :
    val (2 ^ wb) N (opShr wb N L r) = val (2 ^ wb) N L >>> r := by
  unfold opShr
  dsimp only
  have e : wb * (r / wb) + r % wb = r := Nat.div_add_mod r wb
  split_ifs with hm
  · rw [biRshiftWord_val hw h]
    rw [hm, add_zero] at e
    rw [e]
  · rw [rshiftBits_val hw (Nat.mod_lt _ hw) (wf_biRshiftWord h (by positivity)),
      biRshiftWord_val hw h, ← Nat.shiftRight_add, e]

/-! In-place word shifts -/

theorem rshiftCopy_spec (r : ℕ) (L : Limbs) (hr : 0 < r) (n : ℕ) :
    ∀ i, ((List.range' r n).foldl (fun S i => update S (i - r) (S i)) L) i =
      if i < n then L (i + r) else L i := by
  induction n with
  | zero => intro i; simp
  | succ n ih =>
    intro i
    rw [List.range'_1_concat, List.foldl_append, List.foldl_cons, List.foldl_nil]
    have e : r + n - r = n := by omega
    rw [e]
    by_cases hi : i = n
    · subst hi
      rw [update_self, ih, if_neg (by omega), if_pos (by omega), add_comm]
    · rw [update_of_ne hi, ih]
      by_cases h : i < n
      · rw [if_pos h, if_pos (by omega)]
      · rw [if_neg h, if_neg (by omega)]

theorem biRshiftWordIp_eq {N r : ℕ} (L : Limbs) (hr : r ≤ N) :
    ∃ S, biRshiftWordIp N L r = some S ∧ ∀ i < N, S i = biRshiftWord N L r i := by
  unfold biRshiftWordIp
  by_cases h0 : r = 0
  · subst h0; exact ⟨L, by simp, fun i _ => by simp [biRshiftWord]⟩
  · rw [if_neg h0, if_neg (by omega)]
    refine ⟨_, rfl, fun i hi => ?_⟩
    rw [biRshiftWord_apply _ hi]
    simp only [rshiftCopy_spec r L (by omega)]
    by_cases h : i + r < N
    · rw [if_neg (by omega), if_pos (by omega), if_pos h]
    · rw [if_pos (by omega), if_neg h]

theorem rshiftBits_congr {wb N m : ℕ} {S S' : Limbs} (h : ∀ i < N, S i = S' i) :
    ∀ i < N, (rshiftBits wb N m S N).1 i = (rshiftBits wb N m S' N).1 i := by
  intro i hi
  rw [(rshiftBits_spec _ _ _ _ _ le_rfl).1 i hi, (rshiftBits_spec _ _ _ _ _ le_rfl).1 i hi, h i hi]
  by_cases h1 : i + 1 < N
  · rw [h _ h1]
  · simp [h1]

theorem lshiftBits_congr {wb N m : ℕ} {S S' : Limbs} (h : ∀ i < N, S i = S' i) :
    ∀ i < N, (lshiftBits wb m S N).1 i = (lshiftBits wb m S' N).1 i := by
  intro i hi
  rw [(lshiftBits_spec _ _ _ _).1 i, (lshiftBits_spec _ _ _ _).1 i, h i hi, h (i - 1) (by omega)]

theorem biRshiftIp_eq {wb N r : ℕ} (L : Limbs) (hr : r / wb ≤ N) :
    ∃ S, biRshiftIp wb N L r = some S ∧ ∀ i < N, S i = opShr wb N L r i := by
  obtain ⟨S, hS, h⟩ := biRshiftWordIp_eq L hr
  unfold biRshiftIp opShr
  rw [hS]
  simp only [Option.bind_eq_bind, Option.bind_some]
  split_ifs
  · exact ⟨S, rfl, h⟩
  · exact ⟨_, rfl, rshiftBits_congr h⟩

theorem lshiftCopy_spec (r : ℕ) (L : Limbs) (n : ℕ) (hn : n ≤ r) :
    ∀ i, ((List.range' r n).foldl (lshiftCopy r) L) i =
      if r ≤ i ∧ i < r + n then L (i - r) else L i := by
  induction n with
  | zero =>
    intro i
    have : ¬ (r ≤ i ∧ i < r + 0) := by omega
    rw [if_neg this]; simp
  | succ n ih =>
    intro i
    rw [List.range'_1_concat, List.foldl_append, List.foldl_cons, List.foldl_nil, lshiftCopy]
    by_cases hi : i = r + n
    · subst hi
      rw [update_self, ih (by omega), if_neg (by omega), if_pos (by omega)]
    · rw [update_of_ne hi, ih (by omega)]
      by_cases h : r ≤ i ∧ i < r + n
      · rw [if_pos h, if_pos (by omega)]
      · rw [if_neg h, if_neg (by omega)]

theorem biLshiftWordIp_eq {N r : ℕ} (L : Limbs) (hr : r = 0 ∨ (r ≤ N ∧ r < 64 ∧ N ≤ 2 * r)) :
    ∃ S, biLshiftWordIp N L r = some S ∧ ∀ i < N, S i = biLshiftWord N L r i := by
  unfold biLshiftWordIp
  by_cases h0 : r = 0
  · subst h0; exact ⟨L, by simp, fun i _ => by simp [biLshiftWord]⟩
  · obtain ⟨h1, h2, h3⟩ : r ≤ N ∧ r < 64 ∧ N ≤ 2 * r := by tauto
    have : r % 64 = r := Nat.mod_eq_of_lt h2
    simp only [this]
    rw [if_neg h0, if_neg (by omega)]
    refine ⟨_, rfl, fun i hi => ?_⟩
    rw [biLshiftWord_apply _ hi]
    simp only [lshiftCopy_spec r L (N - r) (by omega)]
    by_cases h : r ≤ i
    · rw [if_neg (by omega), if_pos (by omega), if_pos h]
    · rw [if_pos (by omega), if_neg h]

theorem biLshiftIp_eq {wb N r : ℕ} (L : Limbs)
    (hr : r / wb = 0 ∨ (r / wb ≤ N ∧ r / wb < 64 ∧ N ≤ 2 * (r / wb))) :
    ∃ S, biLshiftIp wb N L r = some S ∧ ∀ i < N, S i = opShl wb N L r i := by
  obtain ⟨S, hS, h⟩ := biLshiftWordIp_eq L hr
  unfold biLshiftIp opShl
  rw [hS]
  simp only [Option.bind_eq_bind, Option.bind_some]
  split_ifs
  · exact ⟨S, rfl, h⟩
  · exact ⟨_, rfl, lshiftBits_congr h⟩

/-! Logarithm -/

theorem wf_of_eq {B N : ℕ} {S S' : Limbs} (h : ∀ i < N, S i = S' i) (w : WF B N S') : WF B N S :=
  fun i hi => by rw [h i hi]; exact w i hi

theorem log2Loop_spec {wb N : ℕ} (hw : 1 < wb) (fuel : ℕ) (p : Limbs) (pw : ℕ)
    (h : WF (2 ^ wb) N p) (hf : (val (2 ^ wb) N p).size < fuel) :
    log2Loop wb N fuel p pw = some (pw + (val (2 ^ wb) N p).size) := by
  induction fuel generalizing p pw with
  | zero => omega
  | succ fuel ih =>
    rw [log2Loop, biCompare0_spec (B := 2 ^ wb) (by positivity)]
    by_cases h0 : val (2 ^ wb) N p = 0
    · simp [h0]
    · obtain ⟨S, hS, hS'⟩ := biRshiftIp_eq (wb := wb) (N := N) (r := 1) p (by
        rw [Nat.div_eq_of_lt hw]; omega)
      have hv : val (2 ^ wb) N S = val (2 ^ wb) N p >>> 1 := by
        rw [val_congr hS', opShr_val (by omega) h]
      have hsz : (val (2 ^ wb) N p).size = (val (2 ^ wb) N S).size + 1 := by
        rw [hv]
        have hpos : 0 < val (2 ^ wb) N p := by omega
        generalize val (2 ^ wb) N p = v at *
        have hv2 : v = Nat.bit (v.bodd) (v >>> 1) := by
          rw [Nat.shiftRight_one]; exact (Nat.bit_bodd_div2 v).symm.trans (by rw [Nat.div2_val])
        conv_lhs => rw [hv2]
        rw [Nat.size_bit]
        rw [← hv2]; exact h0
      rw [if_neg (by simp [h0]), hS]
      simp only [Option.bind_eq_bind, Option.bind_some]
      rw [ih S (pw + 1) (wf_of_eq hS' (opShr_wf h 1)) (by omega), hsz]
      congr 1; omega

theorem size_le_of_wf {wb N : ℕ} {L : Limbs} (h : WF (2 ^ wb) N L) :
    (val (2 ^ wb) N L).size ≤ wb * N := by
  rw [Nat.size_le, pow_mul]; exact val_lt h

theorem biLog2_spec {wb N : ℕ} (hw : 1 < wb) {L : Limbs} (h : WF (2 ^ wb) N L) :
    biLog2 wb N L = some (Nat.log2 (val (2 ^ wb) N L)) := by
  unfold biLog2
  have hs := opShr_val (by omega) h 1
  rw [log2Loop_spec hw _ _ _ (opShr_wf h 1) (by
    have := size_le_of_wf (opShr_wf h 1); omega), hs]
  congr 1
  rw [zero_add]
  by_cases h0 : val (2 ^ wb) N L = 0
  · rw [h0]; simp [Nat.log2]
  · generalize val (2 ^ wb) N L = v at *
    have h1 := Nat.lt_size_self (v >>> 1)
    apply le_antisymm
    · rw [Nat.size_le, Nat.shiftRight_one]
      have := Nat.lt_log2_self (n := v)
      rw [pow_succ] at this
      omega
    · have : Nat.log2 v < (v >>> 1).size + 1 := by
        rw [Nat.log2_lt h0, pow_succ]
        rw [Nat.shiftRight_one] at *
        omega
      omega

end Verif.BigInt
