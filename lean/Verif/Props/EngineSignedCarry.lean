import Verif.Props.EngineSigned
import Verif.Props.EngineCtrl
import Verif.Props.GateAdd

/-!
# C11 and C13, continued: `DECS`, `INCSC`, `DECSC` and `CPOWModNOut`
-/

namespace Verif.Engine

open Verif.Spec Verif.BlockFold Verif.ParFor

/-- `v` does not fit a signed `L`-bit number. -/
def Unfit (L : ℕ) (v : ℤ) : Prop := 2 * v < - 2 ^ L ∨ 2 ^ L ≤ 2 * v

instance (L : ℕ) (v : ℤ) : Decidable (Unfit L v) := by unfold Unfit; infer_instance

theorem overflows_iff {L a b : ℕ} : Overflows L a b ↔ Unfit L (signed L a + signed L b) := Iff.rfl

theorem signed_neg {L b : ℕ} (hL : 0 < L) (hb : b < 2 ^ L) (hmin : b ≠ 2 ^ (L - 1)) :
    signed L ((2 ^ L - b) % 2 ^ L) = - signed L b := by
  obtain ⟨K, rfl⟩ : ∃ K, L = K + 1 := ⟨L - 1, by omega⟩
  rw [Nat.add_sub_cancel] at hmin
  have hpn : 2 ^ (K + 1) = 2 * 2 ^ K := by rw [pow_succ]; ring
  have hp : 0 < 2 ^ K := by positivity
  unfold signed
  rw [show (2 : ℤ) ^ (K + 1) = ((2 * 2 ^ K : ℕ) : ℤ) by push_cast; ring, hpn]
  rw [hpn] at hb
  generalize 2 ^ K = P at *
  by_cases h0 : b = 0
  · subst h0; rw [Nat.sub_zero, Nat.mod_self]; simp [hp]
  · rw [Nat.mod_eq_of_lt (by omega)]
    split_ifs <;> omega

theorem signed_succ {L b : ℕ} (hL : 0 < L) (hb : b + 1 < 2 ^ L) (hmax : b + 1 ≠ 2 ^ (L - 1)) :
    signed L (b + 1) = signed L b + 1 := by
  obtain ⟨K, rfl⟩ : ∃ K, L = K + 1 := ⟨L - 1, by omega⟩
  rw [Nat.add_sub_cancel] at hmax
  have hpn : 2 ^ (K + 1) = 2 * 2 ^ K := by rw [pow_succ]; ring
  unfold signed
  rw [show (2 : ℤ) ^ (K + 1) = ((2 * 2 ^ K : ℕ) : ℤ) by push_cast; ring, hpn]
  rw [hpn] at hb
  generalize 2 ^ K = P at *
  split_ifs <;> omega

theorem signed_compl {L b : ℕ} (hL : 0 < L) (hb : b < 2 ^ L) : signed L (2 ^ L - b - 1) = - signed L b - 1 := by
  obtain ⟨K, rfl⟩ : ∃ K, L = K + 1 := ⟨L - 1, by omega⟩
  have hpn : 2 ^ (K + 1) = 2 * 2 ^ K := by rw [pow_succ]; ring
  unfold signed
  rw [show (2 : ℤ) ^ (K + 1) = ((2 * 2 ^ K : ℕ) : ℤ) by push_cast; ring, hpn]
  rw [hpn] at hb
  generalize 2 ^ K = P at *
  split_ifs <;> omega

theorem negAddend_mod {toSub L : ℕ} (hL : L < 64) (hs : toSub < 2 ^ 128) :
    Circ.negAddend toSub L % 2 ^ L = (2 ^ L - toSub % 2 ^ L) % 2 ^ L := by
  have hneg := Circ.add_negAddend (toSub := toSub) (len := L) (by omega) hs
  have hlt := Nat.mod_lt toSub (show 0 < 2 ^ L by positivity)
  have hlt' := Nat.mod_lt (Circ.negAddend toSub L) (show 0 < 2 ^ L by positivity)
  rw [Nat.add_mod] at hneg
  generalize toSub % 2 ^ L = u at *
  generalize Circ.negAddend toSub L % 2 ^ L = v at *
  rcases Nat.lt_or_ge (u + v) (2 ^ L) with h1 | h1
  · rw [Nat.mod_eq_of_lt h1] at hneg
    have hu : u = 0 := by omega
    subst hu
    rw [Nat.sub_zero, Nat.mod_self]; omega
  · rw [Nat.mod_eq_sub_mod h1, Nat.mod_eq_of_lt (by omega)] at hneg
    rw [Nat.mod_eq_of_lt (by omega)]; omega

theorem negAddend_pred {toSub L : ℕ} (hL : L < 64) (hs : toSub < 2 ^ 128) :
    (Circ.negAddend toSub L + (2 ^ 128 - 1)) % 2 ^ 128 % 2 ^ L = 2 ^ L - toSub % 2 ^ L - 1 := by
  have hlt := Nat.mod_lt toSub (show 0 < 2 ^ L by positivity)
  have hd128 : 2 ^ L ∣ 2 ^ 128 := pow_dvd_pow 2 (by omega)
  rw [Nat.mod_mod_of_dvd _ hd128]
  have hr : (2 ^ 128 - 1) % 2 ^ L = 2 ^ L - 1 := by
    obtain ⟨q, hq⟩ := hd128
    have hq0 : 0 < q := by
      rcases Nat.eq_zero_or_pos q with h0 | h0
      · rw [h0] at hq; norm_num at hq
      · exact h0
    have hp : 0 < 2 ^ L := by positivity
    rw [hq, show 2 ^ L * q - 1 = 2 ^ L - 1 + 2 ^ L * (q - 1) by
      obtain ⟨q', rfl⟩ : ∃ q', q = q' + 1 := ⟨q - 1, by omega⟩
      rw [Nat.add_sub_cancel, Nat.mul_succ]; omega]
    rw [Nat.add_mul_mod_self_left, Nat.mod_eq_of_lt (by omega)]
  rw [Nat.add_mod, hr, negAddend_mod hL hs]
  generalize toSub % 2 ^ L = u at *
  by_cases h0 : u = 0
  · subst h0
    rw [Nat.sub_zero, Nat.mod_self, Nat.zero_add, Nat.mod_eq_of_lt (by omega)]
  · rw [Nat.mod_eq_of_lt (show 2 ^ L - u < 2 ^ L by omega),
      show 2 ^ L - u + (2 ^ L - 1) = 2 ^ L - u - 1 + 2 ^ L by omega, Nat.add_mod_right, Nat.mod_eq_of_lt (by omega)]

/-- C11. `DECS` subtracts in two's complement, and flips the phase exactly when the signed difference does not fit and
the overflow qubit is set: the amplitude that ends up at `i` is the one at the state `j` whose register is `i`'s plus
`toSub`. Missing: the most negative subtrahend, where the overflow test is wrong, see `decs_min_wrong`. -/
theorem decs_subtracts_partial {σ : List ℕ → List ℕ} (hσ : IsSched σ) {e : Eng} (hn : e.n < 64)
    {toSub start length overflow : ℕ} (hs : toSub < 2 ^ 128) (h : start + length ≤ e.n) (ho : overflow < e.n)
    (hd : overflow < start ∨ start + length ≤ overflow) (hmin : toSub % 2 ^ length ≠ 2 ^ (length - 1)) :
    ∃ a, decsE σ e toSub start length overflow = some (e.reset a) ∧ ∀ i < 2 ^ e.n,
      a i =
        let j := setField start length (field start length i + toSub) i
        if 0 < length ∧ Unfit length (signed length (field start length j) - signed length (toSub % 2 ^ length)) ∧
          i.testBit overflow = true
        then - e.amp j else e.amp j := by
  obtain ⟨a, h1, h2⟩ := incs_adds hσ hn (toAdd := Circ.negAddend toSub length) h ho hd
  refine ⟨a, h1, fun i hi => ?_⟩
  have := h2 _ (setField_lt (v := field start length i + toSub) h hi)
  dsimp only at this ⊢
  rw [setField_add_add, setField_congr (w := field start length i), setField_field] at this
  · rw [this]
    refine if_congr (and_congr_right fun hL => and_congr ?_ ?_) rfl rfl
    · rw [overflows_iff, negAddend_mod (by omega) hs, signed_neg hL (Nat.mod_lt _ (by positivity)) hmin, sub_eq_add_neg]
    · rw [testBit_setField]
      rcases hd with hd | hd
      · rw [if_pos hd]
      · rw [if_neg (by omega), if_neg (by omega)]
  · rw [Nat.add_mod, Circ.add_negAddend (by omega) hs, Nat.add_zero, Nat.mod_mod]

/-- The carry qubit is flipped away and `toMod` is added with the signed overflow test. -/
theorem flip_then_addS {σ : List ℕ → List ℕ} (hσ : IsSched σ) {e : Eng} (hn : e.n < 64)
    {toMod start length carry : ℕ} {overflow : Option ℕ} (h : start + length ≤ e.n) (hc : carry < e.n)
    (hd : carry < start ∨ start + length ≤ carry)
    (ho : ∀ o ∈ overflow, o < e.n ∧ (o < start ∨ start + length ≤ o) ∧ o ≠ carry) :
    ∃ e', ((gateX σ e carry).bind fun e => incdecscE σ e toMod start length overflow carry) = some e' ∧ e'.n = e.n ∧
      ∀ i < 2 ^ e.n, i.testBit carry = true →
        e'.amp (sumIdx start length carry (field start length i + toMod % 2 ^ length) i) =
          if 0 < length ∧ Overflows length (field start length i) (toMod % 2 ^ length) ∧
            (∀ o ∈ overflow, i.testBit o = true)
          then - e.amp i else e.amp i := by
  obtain ⟨e1, h1, h2⟩ := gateX_applies hσ hn.le hc
  have hn1 : e1.n = e.n := h2.n
  obtain ⟨a, h3, h4⟩ := incdecsc_adds hσ (e := e1) (by rw [hn1]; exact hn) (toMod := toMod) (start := start)
    (length := length) (overflow := overflow) (by rw [hn1]; exact h) (by rw [hn1]; exact hc) hd
    (by rw [hn1]; exact ho)
  refine ⟨e1.reset a, by rw [h1]; exact h3, hn1, fun i hi hci => ?_⟩
  have hlt : flipBit carry i < 2 ^ e.n :=
    Nat.xor_lt_two_pow hi (Nat.pow_lt_pow_right (by norm_num) hc)
  have := h4 (flipBit carry i) (by rw [hn1]; exact hlt) (by rw [flipBit, Nat.testBit_xor, hci]; simp)
  rw [sumIdx_flip hd, field_flip hd, h2.amp _ hlt] at this
  have hback : flipBit carry (flipBit carry i) = i := by
    rw [flipBit, flipBit, Nat.xor_assoc, Nat.xor_self, Nat.xor_zero]
  rw [hback] at this
  show a _ = _
  rw [this]
  refine if_congr (and_congr_right fun _ => and_congr_right fun _ => ?_) rfl rfl
  refine forall₂_congr fun o hoo => ?_
  rw [flipBit, Nat.testBit_xor, Nat.testBit_two_pow, decide_eq_false (Ne.symm (ho o hoo).2.2), Bool.xor_false]

/-- C11, `INCSC`: on the states whose carry qubit is the measured `c`, register and carry end up holding
`v + toAdd + c`, and the phase flips exactly when the signed sum does not fit (and the overflow qubit, if there is
one, is set). Missing: with the carry set, addends of all ones (C10, the carry is lost), the most positive addend
(`incsc_carry_wrong`) and an empty register. -/
theorem incsc_adds_partial {σ : List ℕ → List ℕ} (hσ : IsSched σ) {e : Eng} (hn : e.n < 64) (c : Bool)
    {toAdd start length carry : ℕ} {overflow : Option ℕ} (h : start + length ≤ e.n) (hc : carry < e.n)
    (hd : carry < start ∨ start + length ≤ carry)
    (ho : ∀ o ∈ overflow, o < e.n ∧ (o < start ∨ start + length ≤ o) ∧ o ≠ carry)
    (hx : c = true → 0 < length ∧ toAdd % 2 ^ length ≠ 2 ^ length - 1 ∧ toAdd % 2 ^ length ≠ 2 ^ (length - 1) - 1) :
    ∃ e', incscE σ e c toAdd start length overflow carry = some e' ∧ e'.n = e.n ∧ ∀ i < 2 ^ e.n, i.testBit carry = c →
      e'.amp (sumIdx start length carry (field start length i + toAdd % 2 ^ length + c.toNat) i) =
        if 0 < length ∧ Unfit length (signed length (field start length i) + signed length (toAdd % 2 ^ length) + c.toNat) ∧
          (∀ o ∈ overflow, i.testBit o = true)
        then - e.amp i else e.amp i := by
  unfold incscE
  cases c with
  | false =>
    obtain ⟨a, h1, h2⟩ := incdecsc_adds hσ hn (toMod := toAdd) h hc hd ho
    simp only [Bool.false_eq_true, if_false]
    refine ⟨_, h1, rfl, fun i hi hci => ?_⟩
    have := h2 i hi hci
    show a _ = _
    rw [Bool.toNat_false, Nat.add_zero, this]
    refine if_congr (and_congr_right fun _ => and_congr ?_ Iff.rfl) rfl rfl
    rw [overflows_iff, Nat.cast_zero, add_zero]
  | true =>
    obtain ⟨hL, hx1, hx2⟩ := hx rfl
    obtain ⟨e', h1, h2, h3⟩ := flip_then_addS hσ hn (toMod := (toAdd + 1) % 2 ^ 128) h hc hd ho
    rw [if_pos rfl]
    refine ⟨e', h1, h2, fun i hi hci => ?_⟩
    have := h3 i hi hci
    have hlt := Nat.mod_lt toAdd (show 0 < 2 ^ length by positivity)
    have h4 : (toAdd + 1) % 2 ^ 128 % 2 ^ length = toAdd % 2 ^ length + 1 := by
      rw [Nat.mod_mod_of_dvd _ (pow_dvd_pow 2 (by omega)), ← Nat.mod_add_mod, Nat.mod_eq_of_lt (by omega)]
    rw [h4] at this
    rw [Bool.toNat_true, Nat.add_assoc, this]
    refine if_congr (and_congr_right fun _ => and_congr ?_ Iff.rfl) rfl rfl
    have hp : 0 < 2 ^ (length - 1) := by positivity
    rw [overflows_iff, signed_succ hL (by omega) (by omega), ← add_assoc, Nat.cast_one]

/-- C11, `DECSC`: on the states whose carry qubit is the measured `c` (set: no borrow), register and carry end up
holding `v + 2^length - toSub - (1 - c)`, and the phase flips exactly when the signed difference does not fit.
Missing: with the carry set, a zero subtrahend (C10, the carry is lost) and the most negative one (`decs_min_wrong`). -/
theorem decsc_subtracts_partial {σ : List ℕ → List ℕ} (hσ : IsSched σ) {e : Eng} (hn : e.n < 64) (c : Bool)
    {toSub start length carry : ℕ} {overflow : Option ℕ} (hs : toSub < 2 ^ 128) (h : start + length ≤ e.n)
    (hc : carry < e.n) (hd : carry < start ∨ start + length ≤ carry)
    (ho : ∀ o ∈ overflow, o < e.n ∧ (o < start ∨ start + length ≤ o) ∧ o ≠ carry)
    (hx : c = true → toSub % 2 ^ length ≠ 0 ∧ toSub % 2 ^ length ≠ 2 ^ (length - 1)) :
    ∃ e', decscE σ e c toSub start length overflow carry = some e' ∧ e'.n = e.n ∧ ∀ i < 2 ^ e.n, i.testBit carry = c →
      e'.amp (sumIdx start length carry
        (field start length i + (2 ^ length - toSub % 2 ^ length) - (1 - c.toNat)) i) =
        if 0 < length ∧ Unfit length (signed length (field start length i) - signed length (toSub % 2 ^ length) -
            (1 - c.toNat)) ∧
          (∀ o ∈ overflow, i.testBit o = true)
        then - e.amp i else e.amp i := by
  have hlt := Nat.mod_lt toSub (show 0 < 2 ^ length by positivity)
  unfold decscE
  cases c with
  | false =>
    obtain ⟨a, h1, h2⟩ := incdecsc_adds hσ hn
      (toMod := (Circ.negAddend toSub length + (2 ^ 128 - 1)) % 2 ^ 128) h hc hd ho
    simp only [Bool.false_eq_true, if_false]
    refine ⟨_, h1, rfl, fun i hi hci => ?_⟩
    have := h2 i hi hci
    rw [negAddend_pred (by omega) hs] at this
    show a _ = _
    rw [Bool.toNat_false, Nat.sub_zero, show field start length i + (2 ^ length - toSub % 2 ^ length) - 1 =
      field start length i + (2 ^ length - toSub % 2 ^ length - 1) by omega, this]
    refine if_congr (and_congr_right fun hL => and_congr ?_ Iff.rfl) rfl rfl
    rw [overflows_iff, signed_compl hL hlt, Nat.cast_zero, sub_zero]
    rw [show ∀ x y : ℤ, x + (-y - 1) = x - y - 1 by intros; ring]
  | true =>
    obtain ⟨hx1, hx2⟩ := hx rfl
    obtain ⟨e', h1, h2, h3⟩ := flip_then_addS hσ hn (toMod := Circ.negAddend toSub length) h hc hd ho
    simp only [if_true]
    refine ⟨e', h1, h2, fun i hi hci => ?_⟩
    have := h3 i hi hci
    have hm : (2 ^ length - toSub % 2 ^ length) % 2 ^ length = 2 ^ length - toSub % 2 ^ length :=
      Nat.mod_eq_of_lt (by omega)
    rw [negAddend_mod (by omega) hs] at this
    rw [Bool.toNat_true, Nat.sub_self, Nat.sub_zero, ← hm, this]
    refine if_congr (and_congr_right fun hL => and_congr ?_ Iff.rfl) rfl rfl
    rw [overflows_iff, signed_neg hL hlt hx2, Nat.cast_one, sub_self, sub_zero, ← sub_eq_add_neg]

/-- Non-vacuity: in four bits, `5 - (-3) = 8` does not fit, `-5 - 3 = -8` does, `-5 - 3 - 1` does not, and
`4 + 3 + 1` does not; none of the addends is excluded. -/
example : Unfit 4 (signed 4 5 - signed 4 13) ∧ ¬ Unfit 4 (signed 4 11 - signed 4 3) ∧
    Unfit 4 (signed 4 11 - signed 4 3 - 1) ∧ Unfit 4 (signed 4 4 + signed 4 3 + 1) ∧
    3 % 2 ^ 4 ≠ 2 ^ 4 - 1 ∧ 3 % 2 ^ 4 ≠ 2 ^ (4 - 1) - 1 ∧ 13 % 2 ^ 4 ≠ 2 ^ (4 - 1) ∧ 13 % 2 ^ 4 ≠ 0 := by decide

/-- C13. `CPOWModNOut` with at least one control (without controls it is `POWModNOut`, C12). Missing: as there, powers
beyond 64 bits, see `powModNOut_wrong`. -/
theorem cPowModNOut_partial {σ : List ℕ → List ℕ} (hσ : IsSched σ) {e : Eng} (hn : e.n < 64) {k N s o l : ℕ}
    {cs : List ℕ} (hs : s + l ≤ e.n) (ho : o + l ≤ e.n) (hne : cs ≠ []) (hnd : cs.Nodup)
    (hb : ∀ q ∈ cs, q < e.n) (hds : ∀ q ∈ cs, q < s ∨ s + l ≤ q) (hdo : ∀ q ∈ cs, q < o ∨ o + l ≤ q)
    (h0 : 0 < N) (hN : N ≤ 2 ^ l) (hk : k < 2 ^ 64) (hsmall : (∀ x < 2 ^ l, k ^ x < 2 ^ 64) ∨ N ∣ 2 ^ 64) :
    ∃ a, cPowModNOutE σ e k N s o l cs = some (e.reset a) ∧ ∀ i < 2 ^ e.n, field o l i = 0 →
        (AllAre true cs i → a (setField o l (k ^ field s l i % N) i) = e.amp i) ∧
        (¬ AllAre true cs i → a i = e.amp i) := by
  unfold cPowModNOutE
  rw [if_neg hne]
  obtain ⟨a, h1, h2⟩ := (cModNOut_kernel hσ hn (fun x => Utils.intPow 64 (ocl k) x) hs ho hne hnd hb hds hdo h0 hN).1
  refine ⟨a, h1, fun i hi hfi => ⟨fun hA => ?_, (h2 i hi hfi).2⟩⟩
  have := (h2 i hi hfi).1 hA
  have hk64 : ocl k = k := Nat.mod_eq_of_lt hk
  rw [hk64, Utils.intPow_correct 64 hk (by norm_num)] at this
  rcases hsmall with h | h
  · rw [Nat.mod_eq_of_lt (h _ (field_lt s l i))] at this; exact this
  · rw [Nat.mod_mod_of_dvd _ h] at this; exact this

/-- Non-vacuity: registers `[0, 3)` and `[3, 6)`, control 6: `|5>|0>` goes to `|5>|3^5 mod 7> = |5>|5>`. -/
example : AllAre true [6] (64 + 5) ∧ setField 3 3 (3 ^ field 0 3 (64 + 5) % 7) (64 + 5) = 64 + 8 * 5 + 5 ∧
    ∀ x < 2 ^ 3, 3 ^ x < 2 ^ 64 := by decide

end Verif.Engine

namespace Verif.Circ

open Verif.Spec

/-- C09, gate level. The default `CDEC` undoes the default `CINC`, in either order. -/
theorem cdec_gates_undo {toAdd start len : ℕ} {cs : List ℕ} (hl : len ≤ 128) (hs : toAdd < 2 ^ 128) (hnd : cs.Nodup)
    (hd : ∀ c ∈ cs, c < start ∨ start + len ≤ c) (i : ℕ) :
    act (cdec toAdd start len cs) (act (cinc toAdd start len cs) i) = i ∧
    act (cinc toAdd start len cs) (act (cdec toAdd start len cs) i) = i := by
  have key : ∀ a b, (a + b) % 2 ^ len = 0 → act (cinc b start len cs) (act (cinc a start len cs) i) = i := by
    intro a b hab
    rw [act_cinc hnd hd, act_cinc hnd hd]
    by_cases hA : AllAre true cs i
    · rw [if_pos hA, if_pos ((Engine.allAre_setField hd).2 hA), setField_add_add,
        setField_congr (w := field start len i), setField_field]
      rw [Nat.add_mod, hab, Nat.add_zero, Nat.mod_mod]
    · rw [if_neg hA, if_neg hA]
  constructor
  · exact key _ _ (add_negAddend hl hs)
  · exact key _ _ (by rw [Nat.add_comm]; exact add_negAddend hl hs)

end Verif.Circ
