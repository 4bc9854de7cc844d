import Verif.Model.Utils
import Verif.Lib.Bits
import Verif.Lib.MaskBits
import Verif.Lemmas.ParFor
import Mathlib.Data.Nat.Size
import Mathlib.Data.Nat.Digits.Defs
import Mathlib.Data.Nat.Digits.Lemmas
import Mathlib.Tactic.Ring
import Mathlib.Tactic.Linarith

/-!
# C41: bit utilities compute their mathematical definitions
-/

namespace Verif.Utils

open Verif.Bits

theorem log2Loop_eq (p : ℕ) : ∀ pow, log2Loop p pow = pow + Nat.size p := by
  induction p using Nat.strongRecOn with
  | _ p ih =>
    intro pow
    rw [log2Loop]
    split_ifs with h
    · simp [h]
    · have hlt : p >>> 1 < p := by simp only [Nat.shiftRight_eq_div_pow]; omega
      rw [ih _ hlt]
      have : Nat.size p = Nat.size (p >>> 1) + 1 := by
        rw [Nat.shiftRight_eq_div_pow, pow_one]
        conv_lhs => rw [← Nat.bit_bodd_div2 p, Nat.size_bit (by rw [Nat.bit_bodd_div2]; exact h)]
        rw [Nat.div2_val]
      omega

/-- `log2Ocl` is the floor of the base-2 logarithm. -/
theorem log2Ocl_floor {n : ℕ} (hn : n ≠ 0) : 2 ^ log2Ocl n ≤ n ∧ n < 2 ^ (log2Ocl n + 1) := by
  have h : log2Ocl n + 1 = Nat.size n := by
    rw [log2Ocl, log2Loop_eq, zero_add, Nat.shiftRight_eq_div_pow, pow_one]
    conv_rhs => rw [← Nat.bit_bodd_div2 n, Nat.size_bit (by rw [Nat.bit_bodd_div2]; exact hn)]
    rw [Nat.div2_val]
  constructor
  · exact Nat.lt_size.1 (by omega)
  · rw [h]; exact Nat.lt_size_self n

/-- With compiler intrinsics the result is the same, and `0` is undefined behaviour. -/
theorem log2OclIntrinsic_floor {n : ℕ} (hn : n ≠ 0) (h64 : n < 2 ^ 64) :
    ∃ r, log2OclIntrinsic n = some r ∧ 2 ^ r ≤ n ∧ n < 2 ^ (r + 1) := by
  refine ⟨64 - (64 - Nat.size n) - 1, by simp [log2OclIntrinsic, clzll, hn], ?_⟩
  have h1 : Nat.size n ≤ 64 := Nat.size_le.2 h64
  have h2 : 0 < Nat.size n := Nat.size_pos.2 (by omega)
  rw [show 64 - (64 - Nat.size n) - 1 = Nat.size n - 1 by omega]
  constructor
  · exact Nat.lt_size.1 (by omega)
  · rw [show Nat.size n - 1 + 1 = Nat.size n by omega]; exact Nat.lt_size_self n

theorem log2OclIntrinsic_zero : log2OclIntrinsic 0 = none := rfl

/-- `log2` of a `bitCapInt` is the floor logarithm as long as the argument fits in 64 bits. Missing:
the arguments of 65 to 128 bits, for which it is false (`log2_wrong`). -/
theorem log2_partial {n : ℕ} (hn : n ≠ 0) (h64 : n < 2 ^ 64) : 2 ^ log2 n ≤ n ∧ n < 2 ^ (log2 n + 1) := by
  rw [log2, Nat.mod_eq_of_lt h64]; exact log2Ocl_floor hn

/-- On 128-bit arguments `log2` looks at the low 64 bits only: `log2(2^k)` is `0` for every `k ≥ 64`. -/
theorem log2_wrong {k : ℕ} (hk : 64 ≤ k) : log2 (2 ^ k) = 0 := by
  have : 2 ^ k % 2 ^ 64 = 0 := Nat.mod_eq_zero_of_dvd (pow_dvd_pow 2 hk)
  rw [log2, this, log2Ocl, log2Loop]
  rfl

/-- `popCountOcl`'s portable loop counts the set bits. -/
theorem popLoop_count (n : ℕ) : ∀ w acc, n < 2 ^ w → popLoop n acc =
    acc + ((Finset.range w).filter fun k => n.testBit k = true).card := by
  induction n using Nat.strongRecOn with
  | _ n ih =>
    intro w acc hw
    rw [popLoop]
    split_ifs with h
    · simp [h]
    · obtain ⟨l, h1, h2, h3, h4⟩ := and_pred h
      have hlt : n &&& (n - 1) < n := by
        have : n &&& (n - 1) ≤ n - 1 := Nat.and_le_right
        omega
      rw [ih _ hlt w (acc + 1) (lt_trans hlt hw)]
      have hl : l < w := by
        by_contra hc
        rw [lt_two_pow_iff_testBit.1 hw l (by omega)] at h1
        cases h1
      have : (Finset.range w).filter (fun k => n.testBit k = true) =
          insert l ((Finset.range w).filter fun k => (n &&& (n - 1)).testBit k = true) := by
        ext k
        simp only [Finset.mem_insert, Finset.mem_filter, Finset.mem_range, h3]
        by_cases hk : k = l
        · subst hk; simp [h1, hl]
        · simp [hk]
      rw [this, Finset.card_insert_of_notMem]
      · omega
      · simp [h3]

/-- `pow2Mask(p)` is `2^p - 1`: bit `k` is set exactly for `k < p`. -/
theorem pow2Mask_bits {w p : ℕ} (hp : p < w) :
    ∃ m, pow2Mask w p = some m ∧ m + 1 = 2 ^ p ∧ ∀ k, m.testBit k = decide (k < p) := by
  refine ⟨2 ^ p - 1, by simp [pow2Mask, pow2, hp, Nat.shiftLeft_eq], ?_, Nat.testBit_two_pow_sub_one p⟩
  have : 0 < 2 ^ p := by positivity
  omega

/-- The full-width mask is undefined behaviour (`1 << w`). -/
theorem pow2Mask_full {w p : ℕ} (hp : w ≤ p) : pow2Mask w p = none := by
  simp [pow2Mask, pow2, Nat.not_lt.2 hp]

/-- `bitRegMask(start, length)` has exactly the bits of the register set. -/
theorem bitRegMask_bits {w start length : ℕ} (h1 : length < w) (h2 : start < w) :
    ∃ m, bitRegMask w start length = some m ∧
      ∀ k, m.testBit k = decide (start ≤ k ∧ k < start + length ∧ k < w) := by
  refine ⟨((2 ^ length - 1) <<< start) % 2 ^ w, by
    simp [bitRegMask, pow2Mask, pow2, h1, h2, Nat.shiftLeft_eq], fun k => ?_⟩
  rw [Nat.testBit_mod_two_pow, Nat.testBit_shiftLeft, Nat.testBit_two_pow_sub_one]
  rw [Bool.eq_iff_iff]
  simp
  omega

/-- `isPowerOfTwo` decides exactly that. -/
theorem isPowerOfTwo_correct {w x : ℕ} (hx : x < 2 ^ w) :
    isPowerOfTwo w x = true ↔ ∃ k, x = 2 ^ k := by
  unfold isPowerOfTwo
  by_cases h0 : x = 0
  · subst h0
    simp only [bne_self_eq_false, Bool.false_and, Bool.false_eq_true, false_iff, not_exists]
    intro k
    have : 0 < 2 ^ k := by positivity
    omega
  · have : (x + 2 ^ w - 1) % 2 ^ w = x - 1 := by
      rw [show x + 2 ^ w - 1 = (x - 1) + 2 ^ w by omega, Nat.add_mod_right, Nat.mod_eq_of_lt (by omega)]
    simp only [this]
    rw [Nat.and_comm]
    obtain ⟨l, h1, h2, h3, h4⟩ := and_pred h0
    constructor
    · intro h
      have h5 : x &&& (x - 1) = 0 := by simpa [h0] using h
      exact ⟨l, by rw [← h4, h5, Nat.xor_zero]⟩
    · rintro ⟨k, hk⟩
      have h5 : x &&& (x - 1) = 0 := by
        rw [hk]
        apply Nat.eq_of_testBit_eq
        intro j
        rw [Nat.testBit_and, Nat.testBit_two_pow, Nat.testBit_two_pow_sub_one, Nat.zero_testBit]
        by_cases hj : k = j
        · simp [hj]
        · simp [hj]
      simp [h0, h5]

/-- `isBadBitRange` is false exactly when the range of qubits lies inside the register, for all 8-bit
arguments: the truncated comparison never adds or removes anything. -/
theorem isBadBitRange_correct {start length n : ℕ} (hs : start < 2 ^ 8) (hl : length < 2 ^ 8)
    (hn : n < 2 ^ 8) : isBadBitRange start length n = false ↔ start + length ≤ n := by
  unfold isBadBitRange
  simp only [Bool.or_eq_false_iff, decide_eq_false_iff_not, not_lt]
  constructor
  · rintro ⟨h1, -⟩; omega
  · intro h
    refine ⟨by omega, ?_⟩
    rw [Nat.mod_eq_of_lt (by omega)]
    omega

/-- `ThrowIfQbIdArrayIsBad` throws exactly when an id is out of range or repeated. -/
theorem throwIfBad_correct (controls : List ℕ) (n : ℕ) :
    throwIfBad controls n = false ↔ (∀ c ∈ controls, c < n) ∧ controls.Nodup := by
  have h : ∀ (cs dupes : List ℕ), throwIfBadAux n dupes cs = false ↔
      (∀ c ∈ cs, c < n) ∧ cs.Nodup ∧ ∀ c ∈ cs, c ∉ dupes := by
    intro cs
    induction cs with
    | nil => intro d; simp [throwIfBadAux]
    | cons c cs ih =>
      intro d
      rw [throwIfBadAux]
      split_ifs with h1 h2
      · simp; omega
      · simp [h2]
      · rw [ih]
        simp only [List.mem_cons, forall_eq_or_imp, List.nodup_cons, not_or]
        constructor
        · rintro ⟨a, b, e⟩
          exact ⟨⟨by omega, a⟩, ⟨fun hc => (e c hc).1 rfl, b⟩, h2, fun x hx => (e x hx).2⟩
        · rintro ⟨⟨-, a⟩, ⟨b, b'⟩, -, e⟩
          exact ⟨a, b', fun x hx => ⟨fun hxc => b (hxc ▸ hx), e x hx⟩⟩
  rw [throwIfBad, h]
  simp

/-- `intPow` is exponentiation modulo the word size. -/
theorem intPow_correct (w : ℕ) {base : ℕ} (hb : base < 2 ^ w) (hw : 0 < w) (power : ℕ) :
    intPow w base power = base ^ power % 2 ^ w := by
  induction power using Nat.strongRecOn with
  | _ power ih =>
    rw [intPow]
    split_ifs with h0 h1 hodd
    · rw [h0, pow_zero, Nat.mod_eq_of_lt (Nat.one_lt_two_pow (by omega))]
    · rw [h1, pow_one, Nat.mod_eq_of_lt hb]
    all_goals
      have hlt : power >>> 1 < power := by rw [Nat.shiftRight_eq_div_pow]; omega
      simp only [ih _ hlt]
      rw [Nat.and_one_is_mod] at hodd
      have hs : power >>> 1 = power / 2 := by rw [Nat.shiftRight_eq_div_pow, pow_one]
      rw [hs]
    · have : base ^ power = base ^ (power / 2) * base ^ (power / 2) * base := by
        rw [← pow_add, ← pow_succ]; congr 1; omega
      rw [this]
      simp [Nat.mul_mod, Nat.mod_mod]
    · have : base ^ power = base ^ (power / 2) * base ^ (power / 2) := by
        rw [← pow_add]; congr 1; omega
      rw [this]
      simp [Nat.mul_mod, Nat.mod_mod]

/-! ### Pushing bits apart -/

/-- Number of listed positions below `k`. -/
def below (ps : List ℕ) (k : ℕ) : ℕ := ps.countP (· < k)

theorem pushApartAux_bits {w : ℕ} : ∀ (ps : List ℕ) (i h d : ℕ), ps.Pairwise (· < ·) →
    d + ps.length ≤ w → h < 2 ^ d → (∀ p ∈ ps, ∀ k, p ≤ k → i.testBit k = false) →
    ∀ k, (pushApartAux w (ps.map (2 ^ ·)) i h).testBit k =
      (i.testBit k || (decide (k ∉ ps) && h.testBit (k - below ps k))) := by
  intro ps
  induction ps with
  | nil => intro i h d _ _ _ _ k; simp [pushApartAux, below]
  | cons p ps ih =>
    intro i h d hs hw hh hi k
    obtain ⟨hp, hs'⟩ := List.pairwise_cons.1 hs
    rw [List.map_cons, pushApartAux]
    have hlow : ∀ k, (h &&& (2 ^ p - 1)).testBit k = (h.testBit k && decide (k < p)) := by
      intro k; rw [Nat.testBit_and, Nat.testBit_two_pow_sub_one]
    set h' := ((h ^^^ (h &&& (2 ^ p - 1))) <<< 1) % 2 ^ w with hh'
    have hbit : ∀ k, h'.testBit k = (decide (p < k) && h.testBit (k - 1)) := by
      intro k
      rw [hh', Nat.testBit_mod_two_pow, Nat.testBit_shiftLeft, Nat.testBit_xor, hlow]
      by_cases hkw : k < w
      · rcases Nat.eq_zero_or_pos k with rfl | hk0
        · simp
        · by_cases hpk : p < k
          · have h1 : ¬ (k - 1 < p) := by omega
            have h2 : k ≥ 1 := hk0
            simp [hkw, hpk, h1, h2]
          · have h1 : k - 1 < p := by omega
            have h2 : k ≥ 1 := hk0
            simp [hkw, hpk, h1, h2]
      · have : h.testBit (k - 1) = false :=
          lt_two_pow_iff_testBit.1 hh _ (by simp only [List.length_cons] at hw; omega)
        simp [hkw, this]
    have hd' : h' < 2 ^ (d + 1) := by
      rw [lt_two_pow_iff_testBit]
      intro k hk
      rw [hbit, lt_two_pow_iff_testBit.1 hh _ (by omega)]
      simp
    rw [ih (i ||| (h &&& (2 ^ p - 1))) h' (d + 1) hs' (by simp only [List.length_cons] at hw; omega) hd']
    · rw [Nat.testBit_or, hlow, hbit]
      simp only [below, List.countP_cons, List.mem_cons, not_or]
      by_cases hkp : k < p
      · -- below the first position: nothing moves
        have hnm : k ∉ ps := fun hm => by have := hp k hm; omega
        have hz : ps.countP (fun x => decide (x < k)) = 0 := by
          rw [List.countP_eq_zero]
          intro x hx
          have := hp x hx
          simp; omega
        have h1 : ¬ (p < k) := by omega
        have h2 : k ≠ p := by omega
        simp [hkp, hz, h1, h2, hnm]
      · by_cases hk : k = p
        · subst hk
          have hz : ps.countP (fun x => decide (x < k)) = 0 := by
            rw [List.countP_eq_zero]
            intro x hx
            have := hp x hx
            simp; omega
          simp [hz]
        · have hpk : p < k := by omega
          by_cases hm : k ∈ ps
          · simp [hm, hkp]
          · -- count of positions in `ps` below `k` leaves room for `p`
            have hcnt : p + ps.countP (fun x => decide (x < k)) < k := by
              have hnd : ps.Nodup := hs'.imp (fun h => Nat.ne_of_lt h)
              rw [List.countP_eq_length_filter,
                ← List.toFinset_card_of_nodup (hnd.filter _)]
              have hsub : (ps.filter fun x => decide (x < k)).toFinset ⊆ Finset.Ioo p k := by
                intro x hx
                simp only [List.mem_toFinset, List.mem_filter, decide_eq_true_eq] at hx
                exact Finset.mem_Ioo.2 ⟨hp x hx.1, hx.2⟩
              have := Finset.card_le_card hsub
              rw [Nat.card_Ioo] at this
              omega
            have h3 : p < k - ps.countP (fun x => decide (x < k)) := by omega
            have h4 : k - ps.countP (fun x => decide (x < k)) - 1 =
                k - (ps.countP (fun x => decide (x < k)) + 1) := by omega
            simp [hkp, hk, hm, hpk, h3, h4]
    · intro q hq k hk
      have := hp q hq
      rw [Nat.testBit_or, hlow, hi p (by simp) k (by omega)]
      have : ¬ (k < p) := by omega
      simp [this]

/-- `pushApartBits` inserts zero bits exactly at the listed positions: bit `k` of the result is `0` at a
listed position, and elsewhere it is the bit of the argument whose index is `k` less the number of
listed positions below `k`. -/
theorem pushApart_bits {w perm d : ℕ} {ps : List ℕ} (hs : ps.Pairwise (· < ·)) (hd : perm < 2 ^ d)
    (hw : d + ps.length ≤ w) (k : ℕ) :
    (pushApart w perm (ps.map (2 ^ ·))).testBit k =
      if k ∈ ps then false else perm.testBit (k - below ps k) := by
  unfold pushApart
  split_ifs with h0 hk hk
  · rw [List.map_eq_nil_iff.1 h0] at hk; cases hk
  · rw [List.map_eq_nil_iff.1 h0]; simp [below]
  · rw [pushApartAux_bits ps 0 perm d hs hw hd (by simp)]; simp [hk]
  · rw [pushApartAux_bits ps 0 perm d hs hw hd (by simp)]; simp [hk]

example : pushApart 64 0b1011 [2 ^ 1, 2 ^ 3] = 0b100101 ∧ below [1, 3] 5 = 2 ∧
    ([1, 3] : List ℕ).Pairwise (· < ·) := by decide

/-! ### Decimal input and output -/

/-- `operator<<` never finishes on a non-zero number. -/
theorem print_diverges {b : ℕ} (hb : b ≠ 0) (fuel : ℕ) : print fuel b = none := by
  have : ∀ fuel b' ds, printLoop b fuel b' ds = none := by
    intro fuel
    induction fuel with
    | zero => intro _ _; rfl
    | succ f ih => intro b' ds; rw [printLoop, if_neg hb]; exact ih _ _
  rw [print, if_neg hb, this]; rfl

/-- `operator>>` reads decimal digits (highest first) as their value modulo the word size. -/
theorem parse_value (w : ℕ) (ds : List ℕ) : parse w ds = Nat.ofDigits 10 ds.reverse % 2 ^ w := by
  have h : ∀ (ds : List ℕ) (b : ℕ), b < 2 ^ w →
      ds.foldl (fun b d => ((b * 10) % 2 ^ w + d) % 2 ^ w) b =
        (b * 10 ^ ds.length + Nat.ofDigits 10 ds.reverse) % 2 ^ w := by
    intro ds
    induction ds with
    | nil => intro b hb; simp [Nat.mod_eq_of_lt hb]
    | cons d ds ih =>
      intro b hb
      rw [List.foldl_cons, ih _ (Nat.mod_lt _ (by positivity)), List.reverse_cons,
        Nat.ofDigits_append, Nat.ofDigits_singleton, List.length_reverse, List.length_cons]
      change _ ≡ _ [MOD 2 ^ w]
      have h1 : ((b * 10) % 2 ^ w + d) % 2 ^ w ≡ b * 10 + d [MOD 2 ^ w] :=
        (Nat.mod_modEq _ _).trans ((Nat.mod_modEq _ _).add_right _)
      have h2 := (h1.mul_right (10 ^ ds.length)).add_right (Nat.ofDigits 10 ds.reverse)
      refine h2.trans ?_
      have : (b * 10 + d) * 10 ^ ds.length + Nat.ofDigits 10 ds.reverse =
          b * 10 ^ (ds.length + 1) + (Nat.ofDigits 10 ds.reverse + 10 ^ ds.length * d) := by ring
      rw [this]
  rw [parse, h ds 0 (by positivity)]
  simp

example : parse 128 [1, 0, 2, 4] = 1024 := by decide

end Verif.Utils
