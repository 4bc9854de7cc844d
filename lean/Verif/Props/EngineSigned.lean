import Verif.Props.EngineCarry
import Mathlib.Tactic.Linarith

/-!
# C11: signed addition
-/

namespace Verif.Engine

open Verif.Spec Verif.BlockFold Verif.ParFor

/-- The two's complement value of an `L`-bit word. -/
def signed (L v : ℕ) : ℤ := if 2 * v < 2 ^ L then v else (v : ℤ) - 2 ^ L

/-- The two's complement sum of two `L`-bit words does not fit in `L` bits. -/
def Overflows (L a b : ℕ) : Prop :=
  2 * (signed L a + signed L b) < - 2 ^ L ∨ 2 ^ L ≤ 2 * (signed L a + signed L b)

instance (L a b : ℕ) : Decidable (Overflows L a b) := by unfold Overflows; infer_instance

theorem and_sign_ne {x L : ℕ} : x &&& 2 ^ L ≠ 0 ↔ x.testBit L = true := by
  rw [Nat.and_two_pow]; cases x.testBit L <;> simp

theorem testBit_bnot {w x k : ℕ} (hk : k < w) : (Utils.bnot w x).testBit k = !x.testBit k := by
  rw [Utils.bnot, Nat.testBit_xor, Nat.testBit_two_pow_sub_one, decide_eq_true hk, Bool.true_xor]

theorem testBit_top {L a : ℕ} (ha : a < 2 ^ (L + 1)) : a.testBit L = decide (2 ^ L ≤ a) := by
  rw [Nat.testBit_eq_decide_div_mod_eq]
  rw [pow_succ] at ha
  by_cases h : 2 ^ L ≤ a
  · have : a / 2 ^ L = 1 := by
      apply Nat.div_eq_of_lt_le <;> omega
    simp [this, h]
  · rw [Nat.div_eq_of_lt (by omega)]; simp; omega

theorem bnot_mask {L a : ℕ} (hL : L ≤ 64) (ha : a < 2 ^ L) :
    (Utils.bnot 64 a &&& (2 ^ L - 1)) = 2 ^ L - (a + 1) := by
  apply Nat.eq_of_testBit_eq
  intro k
  rw [Nat.testBit_and, Nat.testBit_two_pow_sub_one, Nat.testBit_two_pow_sub_succ ha]
  by_cases hk : k < L
  · rw [testBit_bnot (by omega)]; simp [hk]
  · simp [hk]

/-- C11. `isOverflowAdd` is the two's complement overflow test, for every length up to 63. -/
theorem isOverflowAdd_correct {L a b : ℕ} (hL : 0 < L) (hL' : L ≤ 63) (ha : a < 2 ^ L) (hb : b < 2 ^ L) :
    Utils.isOverflowAdd a b (2 ^ (L - 1)) (2 ^ L) = true ↔ Overflows L a b := by
  obtain ⟨K, rfl⟩ : ∃ K, L = K + 1 := ⟨L - 1, by omega⟩
  rw [Nat.add_sub_cancel]
  have hp : 2 ^ (K + 1) ≤ 2 ^ 63 := Nat.pow_le_pow_right (by norm_num) hL'
  have hpz : (2 : ℤ) ^ (K + 1) = 2 * 2 ^ K := by rw [pow_succ]; ring
  have hpn : 2 ^ (K + 1) = 2 * 2 ^ K := by rw [pow_succ]; ring
  have hcast : (2 : ℤ) ^ K = ((2 ^ K : ℕ) : ℤ) := by push_cast; rfl
  have hta := testBit_top ha
  have htb := testBit_top hb
  unfold Utils.isOverflowAdd Overflows signed
  have c1 : a &&& b &&& 2 ^ K ≠ 0 ↔ 2 ^ K ≤ a ∧ 2 ^ K ≤ b := by
    rw [and_sign_ne, Nat.testBit_and, hta, htb]; simp
  have c2 : Utils.bnot 64 a &&& Utils.bnot 64 b &&& 2 ^ K ≠ 0 ↔ a < 2 ^ K ∧ b < 2 ^ K := by
    rw [and_sign_ne, Nat.testBit_and, testBit_bnot (by omega), testBit_bnot (by omega), hta, htb]; simp
  rw [bnot_mask (by omega) ha, bnot_mask (by omega) hb]
  rw [hpn] at ha hb hp
  simp only [c1, c2]
  rw [hpz, hcast, hpn]
  by_cases h1 : 2 ^ K ≤ a ∧ 2 ^ K ≤ b
  · rw [if_pos h1, if_neg (by omega), if_neg (by omega), Nat.mod_eq_of_lt (by omega)]
    simp only [gt_iff_lt, decide_eq_true_eq]
    omega
  · rw [if_neg h1]
    by_cases h2 : a < 2 ^ K ∧ b < 2 ^ K
    · rw [if_pos h2, if_pos (by omega), if_pos (by omega), Nat.mod_eq_of_lt (by omega)]
      simp only [ge_iff_le, decide_eq_true_eq]
      omega
    · rw [if_neg h2]
      by_cases h3 : a < 2 ^ K
      · rw [if_pos (by omega), if_neg (by omega)]
        simp only [Bool.false_eq_true, false_iff]; omega
      · rw [if_neg (by omega), if_pos (by omega)]
        simp only [Bool.false_eq_true, false_iff]; omega

/-- C11. `isOverflowSub` is the two's complement overflow test of the difference, for every length up to 63. -/
theorem isOverflowSub_correct {L a b : ℕ} (hL : 0 < L) (hL' : L ≤ 63) (ha : a < 2 ^ L) (hb : b < 2 ^ L) :
    Utils.isOverflowSub a b (2 ^ (L - 1)) (2 ^ L) = true ↔
      (2 * (signed L a - signed L b) < - 2 ^ L ∨ 2 ^ L ≤ 2 * (signed L a - signed L b)) := by
  obtain ⟨K, rfl⟩ : ∃ K, L = K + 1 := ⟨L - 1, by omega⟩
  rw [Nat.add_sub_cancel]
  have hp : 2 ^ (K + 1) ≤ 2 ^ 63 := Nat.pow_le_pow_right (by norm_num) hL'
  have hpz : (2 : ℤ) ^ (K + 1) = 2 * 2 ^ K := by rw [pow_succ]; ring
  have hpn : 2 ^ (K + 1) = 2 * 2 ^ K := by rw [pow_succ]; ring
  have hcast : (2 : ℤ) ^ K = ((2 ^ K : ℕ) : ℤ) := by push_cast; rfl
  have hta := testBit_top ha
  have htb := testBit_top hb
  unfold Utils.isOverflowSub signed
  have c1 : a &&& Utils.bnot 64 b &&& 2 ^ K ≠ 0 ↔ 2 ^ K ≤ a ∧ b < 2 ^ K := by
    rw [and_sign_ne, Nat.testBit_and, testBit_bnot (by omega), hta, htb]; simp
  have c2 : Utils.bnot 64 a &&& b &&& 2 ^ K ≠ 0 ↔ a < 2 ^ K ∧ 2 ^ K ≤ b := by
    rw [and_sign_ne, Nat.testBit_and, testBit_bnot (by omega), hta, htb]; simp
  rw [bnot_mask (by omega) ha, bnot_mask (by omega) hb]
  rw [hpn] at ha hb hp
  simp only [c1, c2]
  rw [hpz, hcast, hpn]
  by_cases h1 : 2 ^ K ≤ a ∧ b < 2 ^ K
  · rw [if_pos h1, if_neg (by omega), if_pos (by omega), Nat.mod_eq_of_lt (by omega)]
    simp only [gt_iff_lt, decide_eq_true_eq]
    omega
  · rw [if_neg h1]
    by_cases h2 : a < 2 ^ K ∧ 2 ^ K ≤ b
    · rw [if_pos h2, if_pos (by omega), if_neg (by omega), Nat.mod_eq_of_lt (by omega)]
      simp only [ge_iff_le, decide_eq_true_eq]
      omega
    · rw [if_neg h2]
      by_cases h3 : a < 2 ^ K
      · rw [if_pos (by omega), if_pos (by omega)]
        simp only [Bool.false_eq_true, false_iff]; omega
      · rw [if_neg (by omega), if_neg (by omega)]
        simp only [Bool.false_eq_true, false_iff]; omega

/-- Non-vacuity: 8-bit 100 + 100 overflows, 100 + (-56) does not, (-100) + (-100) does. -/
example : Overflows 8 100 100 ∧ ¬ Overflows 8 100 200 ∧ Overflows 8 156 156 ∧ signed 8 200 = -56 := by decide

theorem not_overflows_zero {L a : ℕ} (ha : a < 2 ^ L) : ¬ Overflows L a 0 := by
  have hpz : (2 : ℤ) ^ L = ((2 ^ L : ℕ) : ℤ) := by push_cast; rfl
  have h0 : signed L 0 = 0 := by unfold signed; rw [if_pos (by rw [Nat.mul_zero]; positivity)]; rfl
  unfold Overflows
  rw [h0]
  unfold signed
  rw [hpz]
  by_cases h2 : 2 * a < 2 ^ L
  · rw [if_pos h2]; omega
  · rw [if_neg h2]; omega

/-- C11. `INCS` adds modulo `2^length` and negates the amplitude exactly on the basis states that overflow in
two's complement (with the overflow qubit set, as documented). -/
theorem incs_adds {σ : List ℕ → List ℕ} (hσ : IsSched σ) {e : Eng} (hn : e.n < 64)
    {toAdd start length overflow : ℕ} (h : start + length ≤ e.n) (ho : overflow < e.n)
    (hd : overflow < start ∨ start + length ≤ overflow) :
    ∃ a, incsE σ e toAdd start length overflow = some (e.reset a) ∧ ∀ i < 2 ^ e.n,
      a (setField start length (field start length i + toAdd) i) =
        if 0 < length ∧ Overflows length (field start length i) (toAdd % 2 ^ length) ∧ i.testBit overflow = true
        then - e.amp i else e.amp i := by
  unfold incsE
  rw [rangeOk h hn]
  simp only [Bool.false_eq_true, if_false]
  rw [if_neg (by omega)]
  by_cases hl : length = 0
  · rw [if_pos hl]
    refine ⟨e.amp, rfl, fun i _ => ?_⟩
    subst hl; rw [setField_zero_len, if_neg (by simp)]
  rw [if_neg hl]
  have hmask : ocl toAdd &&& (2 ^ length - 1) = toAdd % 2 ^ length := by
    rw [mask_eq_mod, ocl, Nat.mod_mod_of_dvd _ (pow_dvd_pow 2 (by omega))]
  rw [hmask]
  have hm := Nat.mod_lt toAdd (show 0 < 2 ^ length by positivity)
  by_cases hz : toAdd % 2 ^ length = 0
  · rw [if_pos hz]
    refine ⟨e.amp, rfl, fun i _ => ?_⟩
    rw [setField_congr (w := field start length i), setField_field, if_neg]
    · rintro ⟨-, h1, -⟩
      rw [hz] at h1
      exact not_overflows_zero (field_lt _ _ _) h1
    · rw [Nat.add_mod, hz, Nat.add_zero, Nat.mod_mod]
  rw [if_neg hz]
  have hout : ∀ i < 2 ^ e.n,
      (if (i &&& (2 ^ length - 1) <<< start) >>> start + toAdd % 2 ^ length < 2 ^ length then
        (((i &&& (2 ^ length - 1) <<< start) >>> start + toAdd % 2 ^ length) <<< start) |||
          (i &&& otherMask e.n ((2 ^ length - 1) <<< start))
       else (((i &&& (2 ^ length - 1) <<< start) >>> start + toAdd % 2 ^ length - 2 ^ length) <<< start) |||
          (i &&& otherMask e.n ((2 ^ length - 1) <<< start))) =
      setField start length (field start length i + toAdd) i := by
    intro i hi
    have hf := field_lt start length i
    rw [read_field]
    by_cases hlt : field start length i + toAdd % 2 ^ length < 2 ^ length
    · rw [if_pos hlt, write_field h hi hlt]
      apply setField_congr
      rw [Nat.add_mod_mod]
    · rw [if_neg hlt, write_field h hi (by omega)]
      apply setField_congr
      rw [← Nat.add_mod_right, Nat.sub_add_cancel (by omega), Nat.add_mod_mod]
  refine ⟨_, rfl, fun i hi => ?_⟩
  rw [scatter_all_as hσ hout (fun i _ j _ hij => addField_inj hij) hi]
  have hb : setField start length (field start length i + toAdd) i &&& 2 ^ overflow = 2 ^ overflow ↔
      i.testBit overflow = true := by
    rw [Nat.and_two_pow, testBit_setField]
    have : (if overflow < start then i.testBit overflow else if overflow < start + length then
        (field start length i + toAdd).testBit (overflow - start) else i.testBit overflow) = i.testBit overflow := by
      rcases hd with hd | hd
      · rw [if_pos hd]
      · rw [if_neg (by omega), if_neg (by omega)]
    rw [this]
    cases i.testBit overflow
    · simp; positivity
    · simp
  have hov := isOverflowAdd_correct (L := length) (by omega) (by omega) (field_lt start length i) hm
  refine if_congr ?_ rfl rfl
  rw [hout i hi, read_field, hov, hb]
  constructor
  · rintro ⟨h1, h2⟩; exact ⟨by omega, h1, h2⟩
  · rintro ⟨_, h1, h2⟩; exact ⟨h1, h2⟩

/-- C11. `INCDECSC`, with or without an overflow qubit: addition with carry-out on the carry-clear states, the
amplitude negated exactly on two's complement overflow (and overflow qubit set, if there is one). -/
theorem incdecsc_adds {σ : List ℕ → List ℕ} (hσ : IsSched σ) {e : Eng} (hn : e.n < 64)
    {toMod start length carry : ℕ} {overflow : Option ℕ} (h : start + length ≤ e.n) (hc : carry < e.n)
    (hd : carry < start ∨ start + length ≤ carry)
    (ho : ∀ o ∈ overflow, o < e.n ∧ (o < start ∨ start + length ≤ o) ∧ o ≠ carry) :
    ∃ a, incdecscE σ e toMod start length overflow carry = some (e.reset a) ∧
      ∀ i < 2 ^ e.n, i.testBit carry = false →
        a (sumIdx start length carry (field start length i + toMod % 2 ^ length) i) =
          if 0 < length ∧ Overflows length (field start length i) (toMod % 2 ^ length) ∧
            (∀ o ∈ overflow, i.testBit o = true)
          then - e.amp i else e.amp i := by
  unfold incdecscE
  rw [rangeOk h hn]
  simp only [Bool.false_eq_true, if_false]
  rw [if_neg (by omega), if_neg (by rintro ⟨o, ho1, ho2⟩; have := (ho o ho1).1; omega)]
  have hid : toMod % 2 ^ length = 0 → ∀ i, i.testBit carry = false →
      sumIdx start length carry (field start length i + toMod % 2 ^ length) i = i := by
    intro hz i hi
    unfold sumIdx
    rw [hz, Nat.add_zero, Nat.div_eq_of_lt (field_lt _ _ _), setField_field]
    exact setBit_self hi
  have hno : toMod % 2 ^ length = 0 → ∀ i, ¬ Overflows length (field start length i) (toMod % 2 ^ length) := by
    intro hz i h1
    rw [hz] at h1
    exact not_overflows_zero (field_lt _ _ _) h1
  by_cases hl : length = 0
  · rw [if_pos hl]
    have hz : toMod % 2 ^ length = 0 := by subst hl; simp [Nat.mod_one]
    refine ⟨e.amp, rfl, fun i _ hi => ?_⟩
    rw [hid hz i hi, if_neg (fun hh => hno hz i hh.2.1)]
  rw [if_neg hl]
  have hmask : ocl toMod &&& (2 ^ length - 1) = toMod % 2 ^ length := by
    rw [mask_eq_mod, ocl, Nat.mod_mod_of_dvd _ (pow_dvd_pow 2 (by omega))]
  rw [hmask]
  by_cases hz : toMod % 2 ^ length = 0
  · rw [if_pos hz]
    refine ⟨e.amp, rfl, fun i _ hi => ?_⟩
    rw [hid hz i hi, if_neg (fun hh => hno hz i hh.2.1)]
  rw [if_neg hz]
  have hm := Nat.mod_lt toMod (show 0 < 2 ^ length by positivity)
  have hout : ∀ i < 2 ^ e.n, carryOut e.n (toMod % 2 ^ length) start length carry i =
      sumIdx start length carry (field start length i + toMod % 2 ^ length) i := fun i hi =>
    carryOut_eq h hc hd hi hm
  obtain ⟨h1, h2⟩ := scatter_skip hσ (s := carry) (d := 1) (by omega) hn (init := fun _ => (0 : ℂ))
    (val := fun lcv => if Utils.isOverflowAdd ((lcv &&& (2 ^ length - 1) <<< start) >>> start) (toMod % 2 ^ length)
        (2 ^ (length - 1)) (2 ^ length) = true ∧
      (∀ o ∈ overflow, carryOut e.n (toMod % 2 ^ length) start length carry lcv &&& 2 ^ o = 2 ^ o)
      then - e.amp lcv else e.amp lcv)
    (out := carryOut e.n (toMod % 2 ^ length) start length carry) (by
      intro i hi hfi j hj hfj hij
      rw [hout i hi, hout j hj] at hij
      rw [sumIdx_inj hd (field_bit_zero.1 hfi) (field_bit_zero.1 hfj) hij])
  refine ⟨_, rfl, fun i hi hci => ?_⟩
  rw [← hout i hi]
  refine (h1 i hi (field_bit_zero.2 hci)).trans ?_
  have hov := isOverflowAdd_correct (L := length) (by omega) (by omega) (field_lt start length i) hm
  have hb : (∀ o ∈ overflow, carryOut e.n (toMod % 2 ^ length) start length carry i &&& 2 ^ o = 2 ^ o) ↔
      ∀ o ∈ overflow, i.testBit o = true := by
    refine forall₂_congr fun o hoo => ?_
    obtain ⟨ho1, ho2, ho3⟩ := ho o hoo
    rw [hout i hi, sumIdx, Nat.and_two_pow, testBit_setField, testBit_setField]
    have e1 : ∀ a b : Bool, (if o < carry then a else if o < carry + 1 then b else a) = a := by
      intro a b
      by_cases h1 : o < carry
      · rw [if_pos h1]
      · rw [if_neg h1, if_neg (by omega)]
    have e2 : ∀ a b : Bool, (if o < start then a else if o < start + length then b else a) = a := by
      intro a b
      by_cases h1 : o < start
      · rw [if_pos h1]
      · rw [if_neg h1, if_neg (by omega)]
    rw [e1, e2]
    cases i.testBit o
    · simp; positivity
    · simp
  refine if_congr ?_ rfl rfl
  rw [hb, read_field, hov]
  constructor
  · rintro ⟨h1, h2⟩; exact ⟨by omega, h1, h2⟩
  · rintro ⟨_, h1, h2⟩; exact ⟨h1, h2⟩

/-- Beyond C11's addend form: `DECS` negates the addend first, which is wrong for the most negative number.
Subtracting `-4` from `1` in three bits overflows (`5 > 3`), but the addend `DECS` passes on is `-4` again, and
`1 + (-4)` does not overflow. -/
theorem decs_min_wrong : (2 * (signed 3 1 - signed 3 4) < -2 ^ 3 ∨ 2 ^ 3 ≤ 2 * (signed 3 1 - signed 3 4)) ∧
    Circ.negAddend 4 3 = 4 ∧ ¬ Overflows 3 1 (Circ.negAddend 4 3 % 2 ^ 3) := by
  refine ⟨by decide, by decide, by decide⟩

/-- Beyond C11's addend form: with the carry set `INCSC` folds the carry into the addend first, which is wrong
for the most positive addend. In three bits `0 + 3 + 1 = 4 > 3` overflows, but the addend passed on is
`3 + 1 = -4`, and `0 + (-4)` does not. -/
theorem incsc_carry_wrong : 2 ^ 3 ≤ 2 * (signed 3 0 + signed 3 3 + 1) ∧ ¬ Overflows 3 0 ((3 + 1) % 2 ^ 128 % 2 ^ 3) := by
  decide

end Verif.Engine
