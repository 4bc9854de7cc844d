import Verif.Props.EngineArith

/-!
# C10: addition and subtraction with carry
-/

namespace Verif.Engine

open Verif.Spec Verif.BlockFold Verif.ParFor

/-- Basis state `i` with the low `len` bits of `total` in the register and bit `len` of `total` in the carry qubit. -/
def sumIdx (start len carry total i : ℕ) : ℕ := setField carry 1 (total / 2 ^ len) (setField start len total i)

theorem setBit_self {c i : ℕ} {b : Bool} (h : i.testBit c = b) : setField c 1 b.toNat i = i := by
  apply Nat.eq_of_testBit_eq
  intro k
  rw [testBit_setBit]
  by_cases hk : k = c
  · rw [if_pos hk, hk, h]
  · rw [if_neg hk]

theorem field_sumIdx {start len carry total i : ℕ} (h : carry < start ∨ start + len ≤ carry) :
    field start len (sumIdx start len carry total i) = total % 2 ^ len := by
  unfold sumIdx
  rw [field_setField_disjoint (by omega), field_setField]

theorem sumIdx_restore {start len carry total i : ℕ} (h : carry < start ∨ start + len ≤ carry)
    (hc : i.testBit carry = false) :
    setField carry 1 0 (setField start len (field start len i) (sumIdx start len carry total i)) = i := by
  unfold sumIdx
  rw [setField_comm (s := start) (by omega), setField_setField, setField_setField, setField_field]
  exact setBit_self hc

theorem sumIdx_inj {start len carry m i j : ℕ} (h : carry < start ∨ start + len ≤ carry)
    (hi : i.testBit carry = false) (hj : j.testBit carry = false)
    (hij : sumIdx start len carry (field start len i + m) i = sumIdx start len carry (field start len j + m) j) :
    i = j := by
  have h1 : (field start len i + m) % 2 ^ len = (field start len j + m) % 2 ^ len := by
    rw [← field_sumIdx (i := i) h, hij, field_sumIdx h]
  have h2 : field start len i = field start len j := by
    have := Nat.ModEq.add_right_cancel' m h1
    rw [Nat.ModEq, Nat.mod_eq_of_lt (field_lt _ _ _), Nat.mod_eq_of_lt (field_lt _ _ _)] at this
    exact this
  rw [← sumIdx_restore h hi (total := field start len i + m), hij, h2, sumIdx_restore h hj]

theorem carryOut_eq {n start len carry m i : ℕ} (hr : start + len ≤ n) (hc : carry < n)
    (h : carry < start ∨ start + len ≤ carry) (hi : i < 2 ^ n) (hm : m < 2 ^ len) :
    carryOut n m start len carry i = sumIdx start len carry (field start len i + m) i := by
  have hf := field_lt start len i
  have hdiv : (field start len i + m) / 2 ^ len = (decide (¬ field start len i + m < 2 ^ len)).toNat := by
    by_cases hlt : field start len i + m < 2 ^ len
    · simp [Nat.div_eq_of_lt hlt, hlt]
    · rw [decide_eq_true hlt, Bool.toNat_true]
      apply Nat.div_eq_of_lt_le <;> omega
  unfold carryOut sumIdx
  dsimp only
  rw [read_field, hdiv]
  by_cases hlt : field start len i + m < 2 ^ len
  · rw [if_pos hlt]
    have := write_field_bit (decide (¬ field start len i + m < 2 ^ len)) hr hc h hi hlt
    rw [← this]
    simp [hlt]
  · rw [if_neg hlt]
    have hv : field start len i + m - 2 ^ len < 2 ^ len := by omega
    have := write_field_bit (decide (¬ field start len i + m < 2 ^ len)) hr hc h hi hv
    rw [setField_congr (s := start) (l := len) (w := field start len i + m)] at this
    · rw [← this, decide_eq_true hlt]; simp
    · rw [← Nat.add_mod_right, Nat.sub_add_cancel (by omega)]

theorem field_bit_zero {c i : ℕ} : field c 1 i = 0 ↔ i.testBit c = false := by
  have := testBit_field c 1 i 0
  simp only [Nat.lt_one_iff, decide_true, Bool.true_and, Nat.add_zero] at this
  rw [← this]
  have hlt := field_lt c 1 i
  have : field c 1 i = 0 ∨ field c 1 i = 1 := by omega
  rcases this with h | h <;> simp [h]

/-- C10. `INCDECC` adds `toMod` modulo `2^length` to the register on the states with a clear carry and puts the
carry-out into the carry qubit; different states have different images; nothing is written elsewhere. -/
theorem incdecc_adds {σ : List ℕ → List ℕ} (hσ : IsSched σ) {e : Eng} (hn : e.n < 64)
    {toMod start length carry : ℕ} (h : start + length ≤ e.n) (hc : carry < e.n)
    (hd : carry < start ∨ start + length ≤ carry) :
    ∃ a, incdeccE σ e toMod start length carry = some (e.reset a) ∧
      (∀ i < 2 ^ e.n, i.testBit carry = false →
        a (sumIdx start length carry (field start length i + toMod % 2 ^ length) i) = e.amp i) ∧
      (toMod % 2 ^ length ≠ 0 → ∀ j, (∀ i < 2 ^ e.n, i.testBit carry = false →
        sumIdx start length carry (field start length i + toMod % 2 ^ length) i ≠ j) → a j = 0) := by
  unfold incdeccE
  rw [rangeOk h hn]
  simp only [Bool.false_eq_true, if_false]
  rw [if_neg (by omega)]
  have hid : toMod % 2 ^ length = 0 → ∀ i, i.testBit carry = false →
      sumIdx start length carry (field start length i + toMod % 2 ^ length) i = i := by
    intro hz i hi
    unfold sumIdx
    rw [hz, Nat.add_zero, Nat.div_eq_of_lt (field_lt _ _ _), setField_field]
    exact setBit_self hi
  by_cases hl : length = 0
  · rw [if_pos hl]
    have hz : toMod % 2 ^ length = 0 := by subst hl; simp [Nat.mod_one]
    exact ⟨e.amp, rfl, fun i _ hi => by rw [hid hz i hi], fun hnz => absurd hz hnz⟩
  rw [if_neg hl]
  have hmask : ocl toMod &&& (2 ^ length - 1) = toMod % 2 ^ length := by
    rw [mask_eq_mod, ocl, Nat.mod_mod_of_dvd _ (pow_dvd_pow 2 (by omega))]
  rw [hmask]
  by_cases hz : toMod % 2 ^ length = 0
  · rw [if_pos hz]
    exact ⟨e.amp, rfl, fun i _ hi => by rw [hid hz i hi], fun hnz => absurd hz hnz⟩
  rw [if_neg hz]
  have hout : ∀ i < 2 ^ e.n, carryOut e.n (toMod % 2 ^ length) start length carry i =
      sumIdx start length carry (field start length i + toMod % 2 ^ length) i := fun i hi =>
    carryOut_eq h hc hd hi (Nat.mod_lt _ (by positivity))
  obtain ⟨h1, h2⟩ := scatter_skip hσ (s := carry) (d := 1) (by omega) hn (init := fun _ => (0 : ℂ)) (val := e.amp)
    (out := carryOut e.n (toMod % 2 ^ length) start length carry) (by
      intro i hi hfi j hj hfj hij
      rw [hout i hi, hout j hj] at hij
      rw [sumIdx_inj hd (field_bit_zero.1 hfi) (field_bit_zero.1 hfj) hij])
  refine ⟨_, rfl, fun i hi hci => ?_, fun _ j hj => ?_⟩
  · rw [← hout i hi]
    exact h1 i hi (field_bit_zero.2 hci)
  · refine h2 j fun i hi hfi => ?_
    rw [hout i hi]
    exact hj i hi (field_bit_zero.1 hfi)

/-- C10: on a state whose carry qubit is clear, `INCDECC` loses nothing and DEC-style restoring is possible: the
images of different carry-clear states differ. -/
theorem incdecc_injective {start len carry m i j : ℕ} (h : carry < start ∨ start + len ≤ carry)
    (hi : i.testBit carry = false) (hj : j.testBit carry = false)
    (hij : sumIdx start len carry (field start len i + m) i = sumIdx start len carry (field start len j + m) j) :
    i = j := sumIdx_inj h hi hj hij

theorem sumIdx_flip {start len carry total i : ℕ} (h : carry < start ∨ start + len ≤ carry) :
    sumIdx start len carry total (flipBit carry i) = sumIdx start len carry total i := by
  apply Nat.eq_of_testBit_eq
  intro k
  unfold sumIdx flipBit
  simp only [testBit_setField, Nat.testBit_xor, Nat.testBit_two_pow]
  by_cases hk : k = carry
  · subst hk; simp
  · have : decide (carry = k) = false := decide_eq_false (Ne.symm hk)
    rw [this, Bool.xor_false]

theorem field_flip {start len carry i : ℕ} (h : carry < start ∨ start + len ≤ carry) :
    field start len (flipBit carry i) = field start len i := by
  apply Nat.eq_of_testBit_eq
  intro k
  rw [testBit_field, testBit_field, flipBit, Nat.testBit_xor, Nat.testBit_two_pow]
  by_cases hk : k < len
  · have : decide (carry = start + k) = false := decide_eq_false (by omega)
    rw [this, Bool.xor_false]
  · simp [hk]

/-- The carry qubit is flipped away and `m` is added. -/
theorem flip_then_add {σ : List ℕ → List ℕ} (hσ : IsSched σ) {e : Eng} (hn : e.n < 64)
    {toMod start length carry : ℕ} (h : start + length ≤ e.n) (hc : carry < e.n)
    (hd : carry < start ∨ start + length ≤ carry) :
    ∃ e', ((gateX σ e carry).bind fun e => incdeccE σ e toMod start length carry) = some e' ∧ e'.n = e.n ∧
      ∀ i < 2 ^ e.n, i.testBit carry = true →
        e'.amp (sumIdx start length carry (field start length i + toMod % 2 ^ length) i) = e.amp i := by
  obtain ⟨e1, h1, h2⟩ := gateX_applies hσ hn.le hc
  have hn1 : e1.n = e.n := h2.n
  obtain ⟨a, h3, h4, -⟩ := incdecc_adds hσ (e := e1) (by rw [hn1]; exact hn) (toMod := toMod) (start := start)
    (length := length) (by rw [hn1]; exact h) (by rw [hn1]; exact hc) hd
  refine ⟨e1.reset a, by rw [h1]; exact h3, hn1, fun i hi hci => ?_⟩
  have hlt : flipBit carry i < 2 ^ e.n :=
    Nat.xor_lt_two_pow hi (Nat.pow_lt_pow_right (by norm_num) hc)
  have := h4 (flipBit carry i) (by rw [hn1]; exact hlt) (by rw [flipBit, Nat.testBit_xor, hci]; simp)
  rw [sumIdx_flip hd, field_flip hd, h2.amp _ hlt] at this
  show a _ = _
  rw [this]
  congr 1
  rw [flipBit, flipBit, Nat.xor_assoc, Nat.xor_self, Nat.xor_zero]

/-- C10, `INCC`, in full: on the states whose carry qubit is the measured `c`, the register and the carry end
up holding `v + toAdd + c`. Missing: it is false when `c` is set and `toAdd + 1` is a multiple of `2^length`, see
`incc_wrong`. -/
theorem incc_adds_partial {σ : List ℕ → List ℕ} (hσ : IsSched σ) {e : Eng} (hn : e.n < 64) (c : Bool)
    {toAdd start length carry : ℕ} (h : start + length ≤ e.n) (hc : carry < e.n)
    (hd : carry < start ∨ start + length ≤ carry)
    (hx : c = true → 0 < length → (toAdd + 1) % 2 ^ length ≠ 0) :
    ∃ e', inccE σ e c toAdd start length carry = some e' ∧ e'.n = e.n ∧ ∀ i < 2 ^ e.n, i.testBit carry = c →
      e'.amp (sumIdx start length carry (field start length i + toAdd % 2 ^ length + c.toNat) i) = e.amp i := by
  unfold inccE
  by_cases hl : length = 0
  · rw [if_pos hl]
    refine ⟨e, rfl, rfl, fun i _ hi => ?_⟩
    subst hl
    congr 1
    unfold sumIdx
    rw [setField_zero_len, field_zero_len, pow_zero, Nat.mod_one, Nat.div_one, Nat.zero_add]
    exact setBit_self hi
  rw [if_neg hl]
  cases c with
  | false =>
    obtain ⟨a, h1, h2, -⟩ := incdecc_adds hσ hn (toMod := toAdd) h hc hd
    simp only [Bool.false_eq_true, if_false]
    exact ⟨_, h1, rfl, fun i hi hci => h2 i hi hci⟩
  | true =>
    obtain ⟨e', h1, h2, h3⟩ := flip_then_add hσ hn (toMod := (toAdd + 1) % 2 ^ 128) h hc hd
    rw [if_pos rfl]
    refine ⟨e', h1, h2, fun i hi hci => ?_⟩
    have := h3 i hi hci
    rw [Nat.mod_mod_of_dvd _ (pow_dvd_pow 2 (by omega))] at this
    have hlt := Nat.mod_lt toAdd (show 0 < 2 ^ length by positivity)
    have h4 : (toAdd + 1) % 2 ^ length = toAdd % 2 ^ length + 1 := by
      have hx' := hx rfl (by omega)
      have e1 : (toAdd + 1) % 2 ^ length = (toAdd % 2 ^ length + 1) % 2 ^ length := by rw [Nat.mod_add_mod]
      by_cases hcase : toAdd % 2 ^ length + 1 < 2 ^ length
      · rw [e1, Nat.mod_eq_of_lt hcase]
      · exfalso; apply hx'
        rw [e1, show toAdd % 2 ^ length + 1 = 2 ^ length by omega, Nat.mod_self]
    rw [h4] at this
    rw [Bool.toNat_true, Nat.add_assoc]
    exact this

/-- C10 fails: when the carry is set and `toAdd + 1` is a multiple of `2^length`, the true sum is
`v + 2^length` (same register, carry set), but `INCC` clears the carry. -/
theorem incc_wrong {σ : List ℕ → List ℕ} (hσ : IsSched σ) {e : Eng} (hn : e.n < 64)
    {toAdd start length carry : ℕ} (h : start + length ≤ e.n) (hc : carry < e.n)
    (hd : carry < start ∨ start + length ≤ carry) (hl : 0 < length) (hx : (toAdd + 1) % 2 ^ length = 0) :
    (∀ i, i.testBit carry = true →
      sumIdx start length carry (field start length i + toAdd % 2 ^ length + 1) i = i) ∧
    ∃ e', inccE σ e true toAdd start length carry = some e' ∧
      ∀ i < 2 ^ e.n, i.testBit carry = true → e'.amp (flipBit carry i) = e.amp i := by
  constructor
  · intro i hi
    have hp : 1 < 2 ^ length := Nat.one_lt_two_pow (by omega)
    have hlt := Nat.mod_lt toAdd (show 0 < 2 ^ length by positivity)
    have h5 : toAdd % 2 ^ length + 1 = 2 ^ length := by
      have e1 : (toAdd + 1) % 2 ^ length = (toAdd % 2 ^ length + 1) % 2 ^ length := by rw [Nat.mod_add_mod]
      rw [hx] at e1
      by_contra hne
      rw [Nat.mod_eq_of_lt (by omega)] at e1
      omega
    rw [Nat.add_assoc, h5]
    unfold sumIdx
    rw [setField_congr (s := start) (l := length) (w := field start length i) (by simp), setField_field]
    have : (field start length i + 2 ^ length) / 2 ^ length = true.toNat := by
      rw [Nat.add_div_right _ (by positivity), Nat.div_eq_of_lt (field_lt _ _ _)]; rfl
    rw [this]
    exact setBit_self hi
  · unfold inccE
    rw [if_neg (by omega), if_pos rfl]
    obtain ⟨e', h1, h2, h3⟩ := flip_then_add hσ hn (toMod := (toAdd + 1) % 2 ^ 128) h hc hd
    refine ⟨e', h1, fun i hi hci => ?_⟩
    have := h3 i hi hci
    rw [Nat.mod_mod_of_dvd _ (pow_dvd_pow 2 (by omega)), hx, Nat.add_zero] at this
    rw [← this]
    congr 1
    unfold sumIdx
    rw [setField_field, Nat.div_eq_of_lt (field_lt _ _ _)]
    apply Nat.eq_of_testBit_eq
    intro k
    rw [show (0 : ℕ) = false.toNat from rfl, testBit_setBit, flipBit, Nat.testBit_xor, Nat.testBit_two_pow]
    by_cases hk : k = carry
    · subst hk; simp [hci]
    · simp [hk, Ne.symm hk]

/-- C10, `DECC`, in full: on the states whose carry qubit is the measured `c`, the register and the carry end up
holding `v + 2^length - toSub - (1 - c)`. Missing: it is false when `c` is set and `toSub` is a multiple of
`2^length`, see `decc_wrong`. -/
theorem decc_subtracts_partial {σ : List ℕ → List ℕ} (hσ : IsSched σ) {e : Eng} (hn : e.n < 64) (c : Bool)
    {toSub start length carry : ℕ} (hs : toSub < 2 ^ 128) (h : start + length ≤ e.n) (hc : carry < e.n)
    (hd : carry < start ∨ start + length ≤ carry) (hx : c = true → toSub % 2 ^ length ≠ 0) :
    ∃ e', deccE σ e c toSub start length carry = some e' ∧ e'.n = e.n ∧ ∀ i < 2 ^ e.n, i.testBit carry = c →
      e'.amp (sumIdx start length carry
        (field start length i + (2 ^ length - toSub % 2 ^ length) - (1 - c.toNat)) i) = e.amp i := by
  have hlt := Nat.mod_lt toSub (show 0 < 2 ^ length by positivity)
  have hneg := Circ.add_negAddend (toSub := toSub) (len := length) (by omega) hs
  have hneg' : toSub % 2 ^ length ≠ 0 → Circ.negAddend toSub length % 2 ^ length = 2 ^ length - toSub % 2 ^ length := by
    intro h0
    have hlt' := Nat.mod_lt (Circ.negAddend toSub length) (show 0 < 2 ^ length by positivity)
    rw [Nat.add_mod] at hneg
    rcases Nat.lt_or_ge (toSub % 2 ^ length + Circ.negAddend toSub length % 2 ^ length) (2 ^ length) with h1 | h1
    · rw [Nat.mod_eq_of_lt h1] at hneg; omega
    · rw [Nat.mod_eq_sub_mod h1, Nat.mod_eq_of_lt (by omega)] at hneg; omega
  have hneg1 : toSub % 2 ^ length = 0 → Circ.negAddend toSub length % 2 ^ length = 0 := by
    intro h0
    rwa [Nat.add_mod, h0, Nat.zero_add, Nat.mod_mod] at hneg
  unfold deccE
  cases c with
  | true =>
    obtain ⟨e', h1, h2, h3⟩ := flip_then_add hσ hn (toMod := Circ.negAddend toSub length) h hc hd
    simp only [if_true]
    refine ⟨e', h1, h2, fun i hi hci => ?_⟩
    have := h3 i hi hci
    rw [hneg' (hx rfl)] at this
    rw [Bool.toNat_true, Nat.sub_self, Nat.sub_zero]
    exact this
  | false =>
    obtain ⟨a, h1, h2, -⟩ := incdecc_adds hσ hn
      (toMod := (Circ.negAddend toSub length + (2 ^ 128 - 1)) % 2 ^ 128) h hc hd
    simp only [Bool.false_eq_true, if_false]
    refine ⟨_, h1, rfl, fun i hi hci => ?_⟩
    have := h2 i hi hci
    have hd128 : 2 ^ length ∣ 2 ^ 128 := pow_dvd_pow 2 (by omega)
    have hval : (Circ.negAddend toSub length + (2 ^ 128 - 1)) % 2 ^ 128 % 2 ^ length =
        2 ^ length - toSub % 2 ^ length - 1 := by
      rw [Nat.mod_mod_of_dvd _ hd128]
      have hr : (2 ^ 128 - 1) % 2 ^ length = 2 ^ length - 1 := by
        obtain ⟨q, hq⟩ := hd128
        have hq0 : 0 < q := by
          rcases Nat.eq_zero_or_pos q with h0 | h0
          · rw [h0] at hq; norm_num at hq
          · exact h0
        have hp : 0 < 2 ^ length := by positivity
        rw [hq, show 2 ^ length * q - 1 = 2 ^ length - 1 + 2 ^ length * (q - 1) by
          obtain ⟨q', rfl⟩ : ∃ q', q = q' + 1 := ⟨q - 1, by omega⟩
          rw [Nat.add_sub_cancel, Nat.mul_succ]; omega]
        rw [Nat.add_mul_mod_self_left, Nat.mod_eq_of_lt (by omega)]
      rw [Nat.add_mod, hr]
      by_cases h0 : toSub % 2 ^ length = 0
      · rw [hneg1 h0, h0, Nat.zero_add, Nat.mod_eq_of_lt (by omega)]
        omega
      · rw [hneg' h0, show 2 ^ length - toSub % 2 ^ length + (2 ^ length - 1) =
          2 ^ length - toSub % 2 ^ length - 1 + 2 ^ length by omega, Nat.add_mod_right, Nat.mod_eq_of_lt (by omega)]
    rw [hval] at this
    rw [Bool.toNat_false, Nat.sub_zero]
    rw [show field start length i + (2 ^ length - toSub % 2 ^ length) - 1 =
      field start length i + (2 ^ length - toSub % 2 ^ length - 1) by omega]
    exact this

/-- C10 fails: with the carry set (no borrow), subtracting a multiple of `2^length` should leave register and carry
alone, but `DECC` clears the carry. -/
theorem decc_wrong {σ : List ℕ → List ℕ} (hσ : IsSched σ) {e : Eng} (hn : e.n < 64)
    {start length carry : ℕ} (h : start + length ≤ e.n) (hc : carry < e.n)
    (hd : carry < start ∨ start + length ≤ carry) :
    (∀ i, i.testBit carry = true →
      sumIdx start length carry (field start length i + (2 ^ length - 0) - (1 - 1)) i = i) ∧
    ∃ e', deccE σ e true 0 start length carry = some e' ∧
      ∀ i < 2 ^ e.n, i.testBit carry = true → e'.amp (flipBit carry i) = e.amp i := by
  constructor
  · intro i hi
    rw [Nat.sub_self, Nat.sub_zero, Nat.sub_zero]
    unfold sumIdx
    rw [setField_congr (s := start) (l := length) (w := field start length i) (by simp), setField_field]
    have : (field start length i + 2 ^ length) / 2 ^ length = true.toNat := by
      rw [Nat.add_div_right _ (by positivity), Nat.div_eq_of_lt (field_lt _ _ _)]; rfl
    rw [this]
    exact setBit_self hi
  · unfold deccE
    simp only [if_true]
    obtain ⟨e', h1, h2, h3⟩ := flip_then_add hσ hn (toMod := Circ.negAddend 0 length) h hc hd
    refine ⟨e', h1, fun i hi hci => ?_⟩
    have := h3 i hi hci
    have hz : Circ.negAddend 0 length % 2 ^ length = 0 := by
      have := Circ.add_negAddend (toSub := 0) (len := length) (by omega) (by norm_num)
      rwa [Nat.zero_add] at this
    rw [hz, Nat.add_zero] at this
    rw [← this]
    congr 1
    unfold sumIdx
    rw [setField_field, Nat.div_eq_of_lt (field_lt _ _ _)]
    apply Nat.eq_of_testBit_eq
    intro k
    rw [show (0 : ℕ) = false.toNat from rfl, testBit_setBit, flipBit, Nat.testBit_xor, Nat.testBit_two_pow]
    by_cases hk : k = carry
    · subst hk; simp [hci]
    · simp [hk, Ne.symm hk]

/-- Non-vacuity: register `[0, 3)`, carry 3. 6 + 5 = 11 = 8 + 3; 6 + 5 + 1 = 8 + 4. -/
example : sumIdx 0 3 3 (field 0 3 6 + 5) 6 = 8 + 3 ∧ sumIdx 0 3 3 (field 0 3 14 + 5 + 1) 14 = 8 + 4 ∧
    sumIdx 0 3 3 (field 0 3 6 + 1) 6 = 7 := by decide

end Verif.Engine
