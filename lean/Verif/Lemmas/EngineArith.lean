import Verif.Model.EngineArith
import Verif.Props.ParFor
import Verif.Lib.Field
import Verif.Lemmas.GateCode
import Verif.Props.Utils

/-!
Helper lemmas for the arithmetic of the engine: masks as fields, and scattering along a permutation.
-/

namespace Verif.Engine

open Verif.Spec Verif.BlockFold Verif.ParFor

theorem testBit_regMask (s l k : ℕ) : ((2 ^ l - 1) <<< s).testBit k = decide (s ≤ k ∧ k < s + l) := by
  rw [Nat.testBit_shiftLeft, Nat.testBit_two_pow_sub_one]
  by_cases h : s ≤ k <;> simp [h] <;> omega

theorem read_field (s l i : ℕ) : (i &&& ((2 ^ l - 1) <<< s)) >>> s = field s l i := by
  apply Nat.eq_of_testBit_eq
  intro k
  rw [Nat.testBit_shiftRight, Nat.testBit_and, testBit_regMask, testBit_field]
  by_cases h : k < l <;> simp [h]

theorem testBit_otherMask (n m k : ℕ) : (otherMask n m).testBit k = (decide (k < n) ^^ m.testBit k) := by
  rw [otherMask, Nat.testBit_xor, Nat.testBit_two_pow_sub_one]

theorem mask_eq_mod (v l : ℕ) : v &&& (2 ^ l - 1) = v % 2 ^ l := Nat.and_two_pow_sub_one_eq_mod v l

theorem bits_ge {n i : ℕ} (hi : i < 2 ^ n) {k : ℕ} (hk : ¬ k < n) : i.testBit k = false :=
  Nat.testBit_lt_two_pow (lt_of_lt_of_le hi (Nat.pow_le_pow_right (by norm_num) (by omega)))

/-- Writing a value into the register and keeping the rest is `setField`. -/
theorem write_field {n s l v i : ℕ} (h : s + l ≤ n) (hi : i < 2 ^ n) (hv : v < 2 ^ l) :
    (v <<< s) ||| (i &&& otherMask n ((2 ^ l - 1) <<< s)) = setField s l v i := by
  apply Nat.eq_of_testBit_eq
  intro k
  rw [Nat.testBit_or, Nat.testBit_shiftLeft, Nat.testBit_and, testBit_otherMask, testBit_regMask, testBit_setField]
  by_cases h1 : k < s
  · have hkn : k < n := by omega
    simp [h1, Nat.not_le.2 h1, hkn]
  · by_cases h2 : k < s + l
    · have hkn : k < n := by omega
      simp [h1, h2, hkn, Nat.not_lt.1 h1]
    · have hv' : v.testBit (k - s) = false := bits_ge hv (by omega)
      by_cases hkn : k < n
      · simp [h1, h2, hkn, hv']
      · simp [h1, h2, hv', bits_ge hi hkn]

theorem testBit_toNat (b : Bool) (j : ℕ) : b.toNat.testBit j = (b && decide (j = 0)) := by
  cases b
  · simp
  · cases j <;> simp [Nat.testBit_succ]

theorem testBit_setBit (c : ℕ) (b : Bool) (i k : ℕ) :
    (setField c 1 b.toNat i).testBit k = if k = c then b else i.testBit k := by
  rw [testBit_setField, testBit_toNat]
  by_cases h : k = c
  · subst h; simp
  · by_cases h1 : k < c
    · simp [h, h1]
    · simp [h, h1, show ¬ k < c + 1 by omega]

theorem testBit_ite_pow (b : Bool) (c k : ℕ) : (if b then 2 ^ c else 0).testBit k = (b && decide (c = k)) := by
  cases b <;> simp [Nat.testBit_two_pow]

/-- Writing a register and one more qubit. -/
theorem write_field_bit {n s l v c i : ℕ} (b : Bool) (h : s + l ≤ n) (hc : c < n) (hcs : c < s ∨ s + l ≤ c)
    (hi : i < 2 ^ n) (hv : v < 2 ^ l) :
    (v <<< s) ||| (i &&& otherMask n ((2 ^ l - 1) <<< s ||| 2 ^ c)) ||| (if b then 2 ^ c else 0) =
      setField c 1 b.toNat (setField s l v i) := by
  apply Nat.eq_of_testBit_eq
  intro k
  rw [testBit_setBit, ← write_field h hi hv, Nat.testBit_or, Nat.testBit_or, Nat.testBit_or, testBit_ite_pow,
    Nat.testBit_and, Nat.testBit_and, testBit_otherMask, testBit_otherMask, Nat.testBit_or, Nat.testBit_two_pow]
  by_cases hck : c = k
  · subst hck
    have : (v <<< s).testBit c = false := by
      rw [Nat.testBit_shiftLeft]
      rcases hcs with h | h
      · simp [h]
      · rw [bits_ge hv (by omega)]; simp
    have h2 : ((2 ^ l - 1) <<< s).testBit c = false := by rw [testBit_regMask]; simp; omega
    simp [this, h2, hc]
  · rw [if_neg (Ne.symm hck)]
    simp [hck]

/-- Two registers side by side. -/
theorem write_two {n s l v t m w i : ℕ} (h : s + l ≤ n) (h' : t + m ≤ n) (hd : s + l ≤ t ∨ t + m ≤ s)
    (hi : i < 2 ^ n) (hv : v < 2 ^ l) (hw : w < 2 ^ m) :
    (v <<< s) ||| (w <<< t) ||| (i &&& otherMask n ((2 ^ l - 1) <<< s ||| (2 ^ m - 1) <<< t)) =
      setField t m w (setField s l v i) := by
  apply Nat.eq_of_testBit_eq
  intro k
  have hv' : ∀ k, ¬ (s ≤ k ∧ k < s + l) → (v <<< s).testBit k = false := by
    intro k hk
    rw [Nat.testBit_shiftLeft]
    by_cases hs : s ≤ k
    · rw [bits_ge hv (by omega)]; simp
    · simp [hs]
  have hw' : ∀ k, ¬ (t ≤ k ∧ k < t + m) → (w <<< t).testBit k = false := by
    intro k hk
    rw [Nat.testBit_shiftLeft]
    by_cases hs : t ≤ k
    · rw [bits_ge hw (by omega)]; simp
    · simp [hs]
  rw [testBit_setField, testBit_setField, Nat.testBit_or, Nat.testBit_or, Nat.testBit_and, testBit_otherMask,
    Nat.testBit_or, testBit_regMask, testBit_regMask]
  by_cases ht : t ≤ k ∧ k < t + m
  · have hs : ¬ (s ≤ k ∧ k < s + l) := by omega
    rw [hv' k hs, if_neg (by omega), if_pos ht.2, Nat.testBit_shiftLeft]
    simp [ht, show k < n by omega]
  · rw [hw' k ht]
    have e1 : ∀ a b : Bool, (if k < t then a else if k < t + m then b else a) = a := by
      intro a b
      by_cases h1 : k < t
      · rw [if_pos h1]
      · rw [if_neg h1, if_neg (by omega)]
    rw [e1]
    by_cases hs : s ≤ k ∧ k < s + l
    · rw [if_neg (by omega), if_pos hs.2, Nat.testBit_shiftLeft]
      simp [hs, show k < n by omega]
    · rw [hv' k hs]
      have e2 : ∀ a b : Bool, (if k < s then a else if k < s + l then b else a) = a := by
        intro a b
        by_cases h1 : k < s
        · rw [if_pos h1]
        · rw [if_neg h1, if_neg (by omega)]
      rw [e2, decide_eq_false hs, decide_eq_false ht]
      by_cases hn : k < n
      · simp [hn]
      · simp [bits_ge hi hn]

theorem field_eq_zero {s d i : ℕ} : field s d i = 0 ↔ ∀ k, s ≤ k → k < s + d → i.testBit k = false := by
  constructor
  · intro h k h1 h2
    have := testBit_field s d i (k - s)
    rw [h, Nat.add_sub_cancel' h1] at this
    simpa [show k - s < d by omega] using this.symm
  · intro h
    apply Nat.eq_of_testBit_eq
    intro k
    rw [testBit_field, Nat.zero_testBit]
    by_cases hk : k < d
    · rw [h (s + k) (by omega) (by omega)]; simp
    · simp [hk]

/-- Or-ing a value into a cleared register. -/
theorem or_field {t m w i : ℕ} (hi : field t m i = 0) (hw : w < 2 ^ m) : i ||| (w <<< t) = setField t m w i := by
  apply Nat.eq_of_testBit_eq
  intro k
  rw [Nat.testBit_or, testBit_setField, Nat.testBit_shiftLeft]
  by_cases h1 : k < t
  · simp [h1]
  · by_cases h2 : k < t + m
    · rw [field_eq_zero.1 hi k (by omega) h2]
      simp [h1, h2, Nat.not_lt.1 h1]
    · rw [bits_ge hw (show ¬ k - t < m by omega)]
      simp [h1, h2]

/-- Splitting a basis state into a register and the rest, when the masked-out part is clear anyway. -/
theorem split_or {n i a b : ℕ} (hi : i < 2 ^ n) (hb : ∀ k, b.testBit k = true → i.testBit k = false) :
    (i &&& a) ||| (i &&& otherMask n (a ||| b)) = i := by
  apply Nat.eq_of_testBit_eq
  intro k
  rw [Nat.testBit_or, Nat.testBit_and, Nat.testBit_and, testBit_otherMask, Nat.testBit_or]
  by_cases hk : k < n
  · cases h1 : i.testBit k
    · simp
    · have : b.testBit k = false := by
        cases h2 : b.testBit k
        · rfl
        · rw [hb k h2] at h1; cases h1
      simp [hk, this]
  · simp [bits_ge hi hk]

/-! ### Scattering along an injective map -/

theorem mem_parForPlan {n i : ℕ} : i ∈ parForPlan 0 (2 ^ n) ↔ i < 2 ^ n := by
  simp [parForPlan]

/-- The scatter of a loop over all basis states along an injective map. -/
theorem scatter_all {σ : List ℕ → List ℕ} (hσ : IsSched σ) {n : ℕ} {init val : ℕ → ℂ} {out : ℕ → ℕ}
    (hinj : ∀ i < 2 ^ n, ∀ j < 2 ^ n, out i = out j → i = j) {i : ℕ} (hi : i < 2 ^ n) :
    scatter init (σ (parForPlan 0 (2 ^ n))) out val (out i) = val i := by
  have hm : ∀ x, x ∈ σ (parForPlan 0 (2 ^ n)) ↔ x < 2 ^ n := fun x => by
    rw [(hσ _).mem_iff, mem_parForPlan]
  apply scatter_at
  · intro x hx y hy hxy
    rw [hinj x ((hm x).1 hx) y ((hm y).1 hy) hxy]
  · exact (hm i).2 hi

/-- The same, for a description `T` of the image. -/
theorem scatter_all_as {σ : List ℕ → List ℕ} (hσ : IsSched σ) {n : ℕ} {init val : ℕ → ℂ} {out T : ℕ → ℕ}
    (hout : ∀ i < 2 ^ n, out i = T i) (hinj : ∀ i < 2 ^ n, ∀ j < 2 ^ n, T i = T j → i = j) {i : ℕ}
    (hi : i < 2 ^ n) : scatter init (σ (parForPlan 0 (2 ^ n))) out val (T i) = val i := by
  rw [← hout i hi]
  apply scatter_all hσ _ hi
  intro i hi j hj hij
  rw [hout i hi, hout j hj] at hij
  exact hinj i hi j hj hij

/-- The basis states visited by a loop that skips a set of qubits. -/
theorem mem_maskPlan {σ : List ℕ → List ℕ} (hσ : IsSched σ) {n : ℕ} {ps : List ℕ} (hnd : ps.Nodup)
    (hps : ∀ p ∈ ps, p < n) (hn : n ≤ 64) :
    (σ (parForMaskPlan 64 0 (2 ^ n) (sortPows (ps.map pow2)))).Nodup ∧
    ∀ i, i ∈ σ (parForMaskPlan 64 0 (2 ^ n) (sortPows (ps.map pow2))) ↔
      i < 2 ^ n ∧ ∀ p ∈ ps, i.testBit p = false := by
  have hperm := List.mergeSort_perm ps (· ≤ ·)
  have hsort := sorted_lt_of_nodup hnd
  have hv := parForMask_visits (w := 64) hsort (fun p hp => hps p (hperm.mem_iff.1 hp)) hn
  rw [sortPows_map]
  refine ⟨(hσ _).nodup_iff.2 hv.1, fun i => ?_⟩
  rw [(hσ _).mem_iff, hv.2]
  unfold MaskClear
  constructor
  · rintro ⟨h1, h2⟩; exact ⟨h1, fun p hp => h2 p (hperm.mem_iff.2 hp)⟩
  · rintro ⟨h1, h2⟩; exact ⟨h1, fun p hp => h2 p (hperm.mem_iff.1 hp)⟩

/-- The scatter of a loop that skips the qubits `[s, s + d)`. -/
theorem scatter_skip {σ : List ℕ → List ℕ} (hσ : IsSched σ) {n s d : ℕ} (hsd : s + d ≤ n) (hn : n < 64)
    {init val : ℕ → ℂ} {out : ℕ → ℕ}
    (hinj : ∀ i < 2 ^ n, field s d i = 0 → ∀ j < 2 ^ n, field s d j = 0 → out i = out j → val i = val j) :
    (∀ i < 2 ^ n, field s d i = 0 →
      scatter init (σ (parForSkipPlan 64 0 (2 ^ n) (2 ^ s) d)) out val (out i) = val i) ∧
    ∀ j, (∀ i < 2 ^ n, field s d i = 0 → out i ≠ j) →
      scatter init (σ (parForSkipPlan 64 0 (2 ^ n) (2 ^ s) d)) out val j = init j := by
  have hm : ∀ x, x ∈ σ (parForSkipPlan 64 0 (2 ^ n) (2 ^ s) d) ↔ x < 2 ^ n ∧ field s d x = 0 := fun x => by
    rw [(hσ _).mem_iff, (parForSkip_visits hsd hn).2, field_eq_zero]
  constructor
  · intro i hi hf
    apply scatter_at
    · intro x hx y hy hxy
      exact hinj x ((hm x).1 hx).1 ((hm x).1 hx).2 y ((hm y).1 hy).1 ((hm y).1 hy).2 hxy
    · exact (hm i).2 ⟨hi, hf⟩
  · intro j hj
    apply scatter_off
    intro x hx
    exact hj x ((hm x).1 hx).1 ((hm x).1 hx).2

/-- Adding a constant to a register is injective. -/
theorem addField_inj {s l v i j : ℕ} (h : setField s l (field s l i + v) i = setField s l (field s l j + v) j) :
    i = j := by
  have h1 : (field s l i + v) % 2 ^ l = (field s l j + v) % 2 ^ l := by
    rw [← field_setField s l _ i, h, field_setField]
  have h2 : field s l i = field s l j := by
    have := Nat.ModEq.add_right_cancel' v h1
    rw [Nat.ModEq, Nat.mod_eq_of_lt (field_lt _ _ _), Nat.mod_eq_of_lt (field_lt _ _ _)] at this
    exact this
  have h3 := congrArg (setField s l (field s l i)) h
  rw [setField_setField, setField_setField, setField_field, h2, setField_field] at h3
  exact h3

theorem rangeOk {start length n : ℕ} (h : start + length ≤ n) (hn : n < 64) :
    Utils.isBadBitRange start length n = false :=
  (Utils.isBadBitRange_correct (by norm_num; omega) (by norm_num; omega) (by norm_num; omega)).2 h

theorem rangeBad {start length n : ℕ} (hs : start < 2 ^ 8) (hl : length < 2 ^ 8) (h : ¬ start + length ≤ n)
    (hn : n < 64) : Utils.isBadBitRange start length n = true := by
  by_contra hc
  exact h ((Utils.isBadBitRange_correct hs hl (by norm_num; omega)).1 (by simpa using hc))

end Verif.Engine
