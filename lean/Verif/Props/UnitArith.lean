import Verif.Lemmas.UnitArith
import Verif.Props.EngineSignedCarry

/-!
# C80: the additions of `QUnit`

`QUnit` adds bit by bit for as long as the caches of its qubits tell it the carry, and only then asks a unit to add. `Cache.Sound`
(`Verif/Lemmas/UnitArith.lean`) says that what the caches answer is true of the state; nothing else is asked of them. `field`,
`setField` are in `Verif/Spec/Field.lean`.
-/

namespace Verif.QU

open Verif.Spec Verif.Engine Finset

/-! ## Lemmas -/

theorem rangeOk' {start length n : ℕ} (h : start + length ≤ n) (hn : n < 64) : Utils.isBadBitRange start length n = false := rangeOk h hn

theorem setBit_plus {n : ℕ} {ψ : ℕ → ℂ} {q v i : ℕ} (h : IsPlus n ψ q) (hi : i < 2 ^ n) : ψ (setField q 1 v i) = ψ i := by
  by_cases hv : v % 2 = field q 1 i
  · rw [setField_congr (w := field q 1 i), setField_field]
    have := field_lt q 1 i
    rw [pow_one, hv]; omega
  · have : setField q 1 v i = flipBit q i := by
      symm
      apply eq_setField
      · have h1 := field_one q i
        rw [field_one, flipBit, Nat.testBit_xor, Nat.testBit_two_pow_self, pow_one]
        cases hb : i.testBit q <;> rw [hb] at h1 <;> simp at h1 ⊢ <;> omega
      · intro k hk
        rw [flipBit, Nat.testBit_xor, Nat.testBit_two_pow, decide_eq_false (by omega), Bool.xor_false]
    rw [this, h i hi]

theorem setField_plus {n : ℕ} {ψ : ℕ → ℂ} {start v : ℕ} : ∀ {l i : ℕ}, start + l ≤ n → (∀ k < l, IsPlus n ψ (start + k)) →
    i < 2 ^ n → ψ (setField start l v i) = ψ i
  | 0, i, _, _, _ => by rw [setField_zero_len]
  | l + 1, i, h, hp, hi => by
    rw [setField_split (p := l) (by omega), Nat.add_sub_cancel_left, setBit_plus (hp l (by omega)) (setField_lt (by omega) hi)]
    exact setField_plus (by omega) (fun k hk => hp k (by omega)) hi

theorem cAddIdx_inj {cs : List ℕ} {s l m i j : ℕ} (hd : ∀ c ∈ cs, c < s ∨ s + l ≤ c) (h : cAddIdx cs s l m i = cAddIdx cs s l m j) :
    i = j := by
  have key : ∀ k, AllAre true cs (cAddIdx cs s l m k) ↔ AllAre true cs k := by
    intro k
    unfold cAddIdx
    split_ifs
    · exact allAre_setField hd
    · rfl
  have h1 : AllAre true cs i ↔ AllAre true cs j := by rw [← key i, h, key]
  unfold cAddIdx at h
  by_cases hi : AllAre true cs i
  · rw [if_pos hi, if_pos (h1.1 hi)] at h
    exact addField_inj h
  · rwa [if_neg hi, if_neg (fun hj => hi (h1.2 hj))] at h

theorem cAddIdx_surj {n : ℕ} {cs : List ℕ} {start length toMod j : ℕ} (h : start + length ≤ n)
    (hd : ∀ c ∈ cs, c < start ∨ start + length ≤ c) (hj : j < 2 ^ n) : ∃ i < 2 ^ n, cAddIdx cs start length toMod i = j := by
  by_cases ha : AllAre true cs j
  · obtain ⟨i, hi, hij⟩ := (inc_permutes (toAdd := toMod) h).2.2 j hj
    refine ⟨i, hi, ?_⟩
    have : AllAre true cs i := by rw [← hij] at ha; exact (allAre_setField hd).1 ha
    unfold cAddIdx; rw [if_pos this, hij]
  · exact ⟨j, hj, by unfold cAddIdx; rw [if_neg ha]⟩

theorem any_false {n : ℕ} {carry : Option ℕ} (h : ∀ c ∈ carry, c < n) : carry.any (n ≤ ·) = false := by
  cases carry with
  | none => rfl
  | some c => simpa using h c rfl

/-- `INT` without a carry, in terms of `moved`. -/
theorem int_moved {K : Cache} {n : ℕ} (hK : K.Sound n) (hn : n < 64) {toMod start length : ℕ} {cs : List ℕ} (h : start + length ≤ n)
    (hnd : cs.Nodup) (hb : ∀ c ∈ cs, c < n) (hd : ∀ c ∈ cs, c < start ∨ start + length ≤ c) (ψ : ℕ → ℂ) :
    ∃ φ, int K n toMod start length none cs ψ = some φ ∧ ∀ j < 2 ^ n, φ j = moved n (cAddIdx cs start length toMod) ψ j := by
  unfold int
  rw [rangeOk' h hn, (Utils.throwIfBad_correct cs n).2 ⟨hb, hnd⟩]
  simp only [Bool.false_eq_true, if_false, and_false, Option.any_none, true_and, mask_eq_mod]
  by_cases hz : toMod % 2 ^ length = 0
  · rw [if_pos hz]
    exact ⟨ψ, rfl, fun j hj => (moved_id (fun i _ _ => cAddIdx_even hz) hj).symm⟩
  rw [if_neg hz]
  have hT : moved n (cAddIdx cs start length (toMod % 2 ^ length)) ψ = moved n (cAddIdx cs start length toMod) ψ :=
    moved_congr (fun _ _ => rfl) fun i _ _ => cAddIdx_mod
  by_cases hp : checkBitsPlus K ψ start length = true
  · rw [if_pos hp]
    refine ⟨ψ, rfl, fun j hj => ?_⟩
    unfold checkBitsPlus at hp
    rw [List.all_eq_true] at hp
    have hplus : ∀ k < length, IsPlus n ψ (start + k) := fun k hk => hK.plus _ _ (by omega) (hp k (List.mem_range.2 hk))
    obtain ⟨i, hi, rfl⟩ := cAddIdx_surj (toMod := toMod) h hd hj
    rw [moved_apply hi (fun k _ _ hk => cAddIdx_inj hd hk)]
    unfold cAddIdx
    split_ifs
    · exact setField_plus h hplus hi
    · rfl
  rw [if_neg hp]
  have hl := loop_ok hK h hd (splits_cAdd hd) (P := fun _ => True) (fun _ _ _ _ _ _ _ => trivial)
    (⟨toMod % 2 ^ length, start, length, 0, false, ψ⟩ : St) le_rfl le_rfl rfl (Nat.mod_lt _ (by positivity)) (fun _ _ _ => trivial)
  obtain ⟨a1, a2, a3, a4, -, a6⟩ := hl
  simp only [Bool.toNat_false, Nat.add_zero] at a6
  rw [hT] at a6
  generalize loop K n length cs ⟨toMod % 2 ^ length, start, length, 0, false, ψ⟩ = t at *
  split_ifs with hdone
  · refine ⟨t.psi, rfl, fun j hj => ?_⟩
    rw [← a6]
    refine (moved_id (fun i _ _ => ?_) hj).symm
    rw [hdone.1]
    exact cAddIdx_even (by rw [pow_zero, Nat.mod_one])
  · have hl0 : t.length ≠ 0 := fun h0 => hdone ⟨h0, by rw [h0, pow_zero] at a3; omega⟩
    rw [a4 hl0] at a6
    exact ⟨_, rfl, fun j _ => by rw [← a6]; rfl⟩

theorem sumIdx_clear {start length c total i : ℕ} (hc : i.testBit c = false) (hd : c < start ∨ start + length ≤ c)
    (h : total < 2 ^ length) : sumIdx start length c total i = setField start length total i := by
  unfold sumIdx
  rw [Nat.div_eq_of_lt h]
  have := setBit_self (c := c) (i := setField start length total i) (b := false)
    (by rw [testBit_setField]; rcases hd with h | h
        · rw [if_pos h, hc]
        · rw [if_neg (by omega), if_neg (by omega), hc])
  simpa using this

/-- `INT` with a carry qubit that is clear, in terms of `moved`. -/
theorem int_moved_carry {K : Cache} {n : ℕ} (hK : K.Sound n) (hn : n < 64) {toMod start length c : ℕ} (h : start + length ≤ n)
    (hc : c < n) (hd : c < start ∨ start + length ≤ c) {ψ : ℕ → ℂ} (h0 : Fixed n ψ c false) :
    ∃ φ, int K n toMod start length (some c) [] ψ = some φ ∧
      ∀ j < 2 ^ n, φ j = moved n (fun i => sumIdx start length c (field start length i + toMod % 2 ^ length) i) ψ j := by
  unfold int
  rw [rangeOk' h hn]
  simp only [Bool.false_eq_true, if_false, ne_eq, not_true_eq_false, false_and, Option.any_some, decide_eq_true_eq, mask_eq_mod,
    reduceCtorEq]
  rw [if_neg (by omega)]
  by_cases hz : toMod % 2 ^ length = 0
  · rw [if_pos hz]
    refine ⟨ψ, rfl, fun j hj => (moved_id (fun i hi hψ => ?_) hj).symm⟩
    rw [hz, Nat.add_zero, sumIdx_clear (h0 i hi hψ) hd (field_lt _ _ _), setField_field]
  rw [if_neg hz]
  have hl := loop_ok hK h (cs := []) (by simp) (splits_sum hd) (P := fun i => i.testBit c = false)
    (fun s p m i b1 b2 b3 => by
      unfold cAddIdx
      split_ifs
      · rw [testBit_setField]
        rcases hd with hd | hd
        · rw [if_pos (by omega), b3]
        · rw [if_neg (by omega), if_neg (by omega), b3]
      · exact b3)
    (⟨toMod % 2 ^ length, start, length, 0, false, ψ⟩ : St) le_rfl le_rfl rfl (Nat.mod_lt _ (by positivity)) h0
  obtain ⟨a1, a2, a3, a4, a5, a6⟩ := hl
  simp only [Bool.toNat_false, Nat.add_zero] at a6
  generalize loop K n length [] ⟨toMod % 2 ^ length, start, length, 0, false, ψ⟩ = t at *
  split_ifs with hdone hcar
  · refine ⟨_, rfl, fun j hj => ?_⟩
    rw [← a6, mcx_moved hc (by simp) hj]
    refine congrFun (moved_congr (fun _ _ => rfl) fun i hi hψ => ?_) j
    rw [hdone.1, hdone.2, hcar, field_zero_len]
    unfold flipTo sumIdx
    rw [if_pos (by simp [AllAre]), setField_zero_len]
    apply eq_setField
    · rw [field_one, flipBit, Nat.testBit_xor, Nat.testBit_two_pow_self, a5 i hi hψ]; simp
    · intro k hk
      rw [flipBit, Nat.testBit_xor, Nat.testBit_two_pow, decide_eq_false (by omega), Bool.xor_false]
  · refine ⟨_, rfl, fun j hj => ?_⟩
    rw [← a6]
    refine (moved_id (fun i hi hψ => ?_) hj).symm
    have hcar' : t.carry = false := by simpa using hcar
    rw [hdone.1, hdone.2, hcar', field_zero_len, sumIdx_clear (a5 i hi hψ) (by omega) (by simp), setField_zero_len]
  · have hl0 : t.length ≠ 0 := fun h0 => hdone ⟨h0, by rw [h0, pow_zero] at a3; omega⟩
    rw [a4 hl0] at a6
    exact ⟨_, rfl, fun j _ => by rw [← a6]; rfl⟩

theorem trimLast_some {K : Cache} {n : ℕ} (hK : K.Sound n) {ψ : ℕ → ℂ} : ∀ {cs cs' : List ℕ}, (∀ c ∈ cs, c < n) →
    trimLast K ψ cs = some cs' → cs'.Sublist cs ∧ ∀ i < 2 ^ n, ψ i ≠ 0 → (AllAre true cs i ↔ AllAre true cs' i)
  | [], cs', _, h => by
    simp only [trimLast, Option.some.injEq] at h
    subst h
    exact ⟨List.Sublist.slnil, fun _ _ _ => Iff.rfl⟩
  | c :: cs, cs', hb, h => by
    have hb' : ∀ c ∈ cs, c < n := fun d hd => hb d (List.mem_cons_of_mem _ hd)
    simp only [trimLast] at h
    split at h
    · cases h
    · rename_i hk
      obtain ⟨h1, h2⟩ := trimLast_some hK hb' h
      refine ⟨h1.cons _, fun i hi h0 => ?_⟩
      rw [← h2 i hi h0]
      have := hK.ctrl _ _ _ _ (hb c List.mem_cons_self) hk i hi h0
      simp [AllAre, this]
    · rw [Option.map_eq_some_iff] at h
      obtain ⟨d, h3, rfl⟩ := h
      obtain ⟨h1, h2⟩ := trimLast_some hK hb' h3
      refine ⟨h1.cons_cons _, fun i hi h0 => ?_⟩
      have := h2 i hi h0
      simp only [AllAre, List.forall_mem_cons] at this ⊢
      rw [this]

theorem trimLast_none {K : Cache} {n : ℕ} (hK : K.Sound n) {ψ : ℕ → ℂ} : ∀ {cs : List ℕ}, (∀ c ∈ cs, c < n) →
    trimLast K ψ cs = none → ∀ i < 2 ^ n, ψ i ≠ 0 → ¬ AllAre true cs i
  | [], _, h => by simp [trimLast] at h
  | c :: cs, hb, h => by
    have hb' : ∀ c ∈ cs, c < n := fun d hd => hb d (List.mem_cons_of_mem _ hd)
    intro i hi h0 ha
    simp only [AllAre, List.forall_mem_cons] at ha
    simp only [trimLast] at h
    split at h
    · rename_i hk
      have := hK.ctrl _ _ _ _ (hb c List.mem_cons_self) hk i hi h0
      rw [ha.1] at this
      cases this
    · exact trimLast_none hK hb' h i hi h0 ha.2
    · rw [Option.map_eq_none_iff] at h
      exact trimLast_none hK hb' h i hi h0 ha.2

theorem trim_some {K : Cache} {n : ℕ} (hK : K.Sound n) {ψ : ℕ → ℂ} {cs cs' : List ℕ} (hb : ∀ c ∈ cs, c < n)
    (h : trimControls K ψ cs = some cs') : cs'.Sublist cs ∧ ∀ i < 2 ^ n, ψ i ≠ 0 → (AllAre true cs i ↔ AllAre true cs' i) := by
  unfold trimControls at h
  split_ifs at h with h0
  · simp only [Option.some.injEq] at h
    subst h0; subst h
    exact ⟨List.Sublist.slnil, fun _ _ _ => Iff.rfl⟩
  · exact trimLast_some hK hb h

theorem any_clear {K : Cache} {n : ℕ} (hK : K.Sound n) {ψ : ℕ → ℂ} {cs : List ℕ} (hb : ∀ c ∈ cs, c < n) {k : ℕ}
    (h : cs.any (fun c => K.ctrl k ψ c == some false) = true) : ∀ i < 2 ^ n, ψ i ≠ 0 → ¬ AllAre true cs i := by
  rw [List.any_eq_true] at h
  obtain ⟨c, hc, hk⟩ := h
  intro i hi h0 ha
  have := hK.ctrl _ _ _ _ (hb c hc) (beq_iff_eq.1 hk) i hi h0
  rw [ha c hc] at this
  cases this

theorem trim_none {K : Cache} {n : ℕ} (hK : K.Sound n) {ψ : ℕ → ℂ} {cs : List ℕ} (hb : ∀ c ∈ cs, c < n)
    (h : trimControls K ψ cs = none) : ∀ i < 2 ^ n, ψ i ≠ 0 → ¬ AllAre true cs i := by
  unfold trimControls at h
  split_ifs at h with h0 h1 h2 h3
  · exact any_clear hK hb h1
  · exact any_clear hK hb h2
  · exact any_clear hK hb h3
  · exact trimLast_none hK hb h

theorem sumIdx_full {start length c i : ℕ} (hi : i.testBit c = true) :
    sumIdx start length c (field start length i + 2 ^ length) i = i := by
  have e : setField start length (field start length i + 2 ^ length) i = i := by
    rw [setField_congr (w := field start length i) (by rw [Nat.add_mod_right]), setField_field]
  unfold sumIdx
  rw [e, Nat.add_div_right _ (by positivity), Nat.div_eq_of_lt (field_lt _ _ _)]
  simpa using setBit_self hi

theorem cached_some {K : Cache} {n : ℕ} (hK : K.Sound n) {ψ : ℕ → ℂ} {start : ℕ} : ∀ {l v : ℕ}, start + l ≤ n →
    cached K ψ start l = some v → v < 2 ^ l ∧ ∀ i < 2 ^ n, ψ i ≠ 0 → field start l i = v
  | 0, v, _, h => by
    simp only [cached, Option.some.injEq] at h
    subst h
    exact ⟨by positivity, fun i _ _ => field_zero_len _ _⟩
  | l + 1, v, hl, h => by
    simp only [cached] at h
    split at h
    · rename_i w b h1 h2
      obtain ⟨h3, h4⟩ := cached_some hK (by omega) h1
      have h5 := hK.bit _ _ _ _ (by omega) h2
      have h6 : v = w + 2 ^ l * b.toNat := by
        simp only [Option.some.injEq] at h
        rw [← h]
        cases b
        · simp
        · have := Nat.two_pow_add_eq_or_of_lt h3 1
          rw [Nat.mul_one] at this
          simp [Nat.or_comm w, ← this, Nat.add_comm]
      refine ⟨?_, fun i hi h0 => ?_⟩
      · rw [h6, pow_succ]
        have : b.toNat ≤ 1 := Bool.toNat_le b
        nlinarith
      · rw [field_split (p := l) (by omega), Nat.add_sub_cancel_left, h4 i hi h0, field_one, h5 i hi h0, h6]
    · cases h

theorem not_overflows_of_signs {L a b : ℕ} (hL : 0 < L) (ha : a < 2 ^ L) (hb : b < 2 ^ L)
    (h : a.testBit (L - 1) = !b.testBit (L - 1)) : ¬ Overflows L a b := by
  obtain ⟨k, rfl⟩ : ∃ k, L = k + 1 := ⟨L - 1, by omega⟩
  rw [Nat.add_sub_cancel, testBit_top ha, testBit_top hb] at h
  have hpn : 2 ^ (k + 1) = 2 * 2 ^ k := by rw [pow_succ]; ring
  unfold Overflows signed
  rw [show (2 : ℤ) ^ (k + 1) = ((2 * 2 ^ k : ℕ) : ℤ) by push_cast; ring, hpn]
  rw [hpn] at ha hb
  generalize 2 ^ k = P at *
  by_cases h1 : P ≤ a <;> by_cases h2 : P ≤ b <;> simp [h1, h2] at h
  · split_ifs <;> omega
  · split_ifs <;> omega

theorem z_moved {n o : ℕ} {T : ℕ → ℕ} {ψ : ℕ → ℂ} (h : ∀ i < 2 ^ n, (T i).testBit o = i.testBit o) :
    z o (moved n T ψ) = moved n T (fun i => if i.testBit o = true then - ψ i else ψ i) := by
  funext j
  have e : z o (moved n T ψ) j = if j.testBit o = true then - moved n T ψ j else moved n T ψ j := by
    unfold z gate
    rw [if_pos trivial]
    split_ifs <;> simp
  rw [e]
  unfold moved
  split_ifs with hj
  · rw [← sum_neg_distrib]
    refine sum_congr rfl fun i hi => ?_
    rw [mem_filter, mem_range] at hi
    dsimp only
    rw [if_pos (by rw [← h i hi.1, hi.2]; exact hj)]
  · refine sum_congr rfl fun i hi => ?_
    rw [mem_filter, mem_range] at hi
    dsimp only
    rw [if_neg (by rw [← h i hi.1, hi.2]; exact hj)]

theorem addTo_mod {carry : Option ℕ} {start length m : ℕ} (hm : m < 2 ^ length) {n : ℕ} (h : start + length ≤ n)
    (hc : ∀ c ∈ carry, c < n ∧ (c < start ∨ start + length ≤ c)) {i : ℕ} (hi : i < 2 ^ n) : addTo carry start length m i < 2 ^ n := by
  cases carry with
  | none => exact setField_lt h hi
  | some c => exact setField_lt (by have := hc c rfl; omega) (setField_lt h hi)

/-- `INT` without controls, with or without a carry qubit. -/
theorem int_moved_to {K : Cache} {n : ℕ} (hK : K.Sound n) (hn : n < 64) {m start length : ℕ} (h : start + length ≤ n)
    (hm : m < 2 ^ length) {carry : Option ℕ} {ψ : ℕ → ℂ}
    (hc : ∀ c ∈ carry, c < n ∧ (c < start ∨ start + length ≤ c) ∧ Fixed n ψ c false) :
    ∃ φ, int K n m start length carry [] ψ = some φ ∧ ∀ j < 2 ^ n, φ j = moved n (addTo carry start length m) ψ j := by
  cases carry with
  | none =>
    obtain ⟨φ, h1, h2⟩ := int_moved hK hn (toMod := m) h List.nodup_nil (by simp) (by simp) ψ
    refine ⟨φ, h1, fun j hj => ?_⟩
    rw [h2 j hj]
    refine congrFun (moved_congr (fun _ _ => rfl) fun i _ _ => ?_) j
    unfold cAddIdx addTo
    rw [if_pos (by simp [AllAre])]
  | some c =>
    obtain ⟨b1, b2, b3⟩ := hc c rfl
    obtain ⟨φ, h1, h2⟩ := int_moved_carry hK hn (toMod := m) h b1 b2 b3
    refine ⟨φ, h1, fun j hj => ?_⟩
    rw [h2 j hj, Nat.mod_eq_of_lt hm]
    rfl

theorem addTo_keeps {carry : Option ℕ} {start length m o i : ℕ} (ho : o < start ∨ start + length ≤ o) (hoc : ∀ c ∈ carry, o ≠ c) :
    (addTo carry start length m i).testBit o = i.testBit o := by
  have key : ∀ v, (setField start length v i).testBit o = i.testBit o := by
    intro v
    rw [testBit_setField]
    rcases ho with h | h
    · rw [if_pos h]
    · rw [if_neg (by omega), if_neg (by omega)]
  cases carry with
  | none => exact key _
  | some c =>
    have := hoc c rfl
    show (sumIdx start length c _ i).testBit o = _
    unfold sumIdx
    rw [testBit_setField]
    split_ifs
    · exact key _
    · omega
    · exact key _

/-- The state after the shortcut of `INTSCOptimize`, before `Z`. -/
theorem optimized_moved {n start length v m : ℕ} (h : start + length ≤ n) (hv : v < 2 ^ length) (hm : m < 2 ^ length)
    {carry : Option ℕ} {ψ : ℕ → ℂ} (hf : ∀ i < 2 ^ n, ψ i ≠ 0 → field start length i = v)
    (hc : ∀ c ∈ carry, c < n ∧ (c < start ∨ start + length ≤ c) ∧ Fixed n ψ c false) :
    setReg n start length (if decide (2 ^ length ≤ v + m) = true then (v + m) &&& (2 ^ length - 1) else v + m)
      (carry.elim ψ fun c => if decide (2 ^ length ≤ v + m) = true then mcx [] c ψ else ψ) = moved n (addTo carry start length m) ψ := by
  have hout : setField start length (if decide (2 ^ length ≤ v + m) = true then (v + m) &&& (2 ^ length - 1) else v + m) =
      setField start length (v + m) := by
    funext i
    split_ifs
    · rw [mask_eq_mod, setField_mod]
    · rfl
  unfold setReg
  rw [hout]
  cases carry with
  | none =>
    refine moved_congr (fun _ _ => rfl) fun i hi h0 => ?_
    unfold addTo
    rw [hf i hi h0]
  | some c =>
    obtain ⟨b1, b2, b3⟩ := hc c rfl
    dsimp only [Option.elim]
    by_cases ho : 2 ^ length ≤ v + m
    · rw [decide_eq_true ho, if_pos rfl, moved_congr (fun j hj => mcx_moved b1 (by simp) hj) (fun _ _ _ => rfl),
        moved_comp (fun i hi => flipTo_lt b1 hi)]
      refine moved_congr (fun _ _ => rfl) fun i hi h0 => ?_
      show _ = sumIdx start length c (field start length i + m) i
      rw [hf i hi h0]
      unfold sumIdx flipTo
      rw [if_pos (by simp [AllAre]), show (v + m) / 2 ^ length = 1 from Nat.div_eq_of_lt_le (by omega) (by omega)]
      rw [setField_comm (s := c) (by omega)]
      congr 1
      apply eq_setField
      · rw [field_one, flipBit, Nat.testBit_xor, Nat.testBit_two_pow_self, b3 i hi h0]; simp
      · intro k hk
        rw [flipBit, Nat.testBit_xor, Nat.testBit_two_pow, decide_eq_false (by omega), Bool.xor_false]
    · rw [decide_eq_false ho, if_neg (by simp)]
      refine moved_congr (fun _ _ => rfl) fun i hi h0 => ?_
      show _ = sumIdx start length c (field start length i + m) i
      rw [hf i hi h0, sumIdx_clear (b3 i hi h0) b2 (by omega)]

/-! ## The theorems -/

/-- C80. `INT`, and with it `INC`, of `QUnit` adds, whatever the caches know: each basis state goes to the one whose register is
increased modulo `2^length` if all controls are set, and stays where it is otherwise. -/
theorem int_adds {K : Cache} {n : ℕ} (hK : K.Sound n) (hn : n < 64) {toMod start length : ℕ} {cs : List ℕ} (h : start + length ≤ n)
    (hnd : cs.Nodup) (hb : ∀ c ∈ cs, c < n) (hd : ∀ c ∈ cs, c < start ∨ start + length ≤ c) (ψ : ℕ → ℂ) :
    ∃ φ, int K n toMod start length none cs ψ = some φ ∧
      ∀ i < 2 ^ n, φ (if AllAre true cs i then setField start length (field start length i + toMod) i else i) = ψ i := by
  obtain ⟨φ, h1, h2⟩ := int_moved hK hn (toMod := toMod) h hnd hb hd ψ
  refine ⟨φ, h1, fun i hi => ?_⟩
  have := h2 (cAddIdx cs start length toMod i) (cAddIdx_lt h hi)
  rw [moved_apply hi (fun k _ _ hk => cAddIdx_inj hd hk)] at this
  exact this

/-- C80. `INT` with a carry qubit that is clear: the sum goes to the register, its highest bit to the carry qubit, and no other basis
state gets an amplitude. -/
theorem int_carry_adds {K : Cache} {n : ℕ} (hK : K.Sound n) (hn : n < 64) {toMod start length c : ℕ} (h : start + length ≤ n)
    (hc : c < n) (hd : c < start ∨ start + length ≤ c) {ψ : ℕ → ℂ} (h0 : Fixed n ψ c false) :
    ∃ φ, int K n toMod start length (some c) [] ψ = some φ ∧
      (∀ i < 2 ^ n, i.testBit c = false → φ (sumIdx start length c (field start length i + toMod % 2 ^ length) i) = ψ i) ∧
      ∀ j < 2 ^ n, (∀ i < 2 ^ n, i.testBit c = false → sumIdx start length c (field start length i + toMod % 2 ^ length) i ≠ j) →
        φ j = 0 := by
  obtain ⟨φ, h1, h2⟩ := int_moved_carry hK hn (toMod := toMod) h hc hd h0
  refine ⟨φ, h1, fun i hi hci => ?_, fun j hj hno => ?_⟩
  · have hlt : sumIdx start length c (field start length i + toMod % 2 ^ length) i < 2 ^ n :=
      setField_lt (by omega) (setField_lt h hi)
    rw [h2 _ hlt]
    exact moved_apply (T := fun i => sumIdx start length c (field start length i + toMod % 2 ^ length) i) hi
      fun k hk hψ hki => sumIdx_inj hd (h0 k hk hψ) hci hki
  · rw [h2 j hj]
    by_contra hne
    obtain ⟨i, hi, hψ, hij⟩ := moved_ne_zero hne
    exact hno i hi (h0 i hi hψ) hij

/-- C80. `CINC` of `QUnit` adds on exactly the basis states whose controls are all set, whatever the caches know of the controls and of
the register. -/
theorem cInc_adds {K : Cache} {n : ℕ} (hK : K.Sound n) (hn : n < 64) {toMod start length : ℕ} {cs : List ℕ} (h : start + length ≤ n)
    (hnd : cs.Nodup) (hb : ∀ c ∈ cs, c < n) (hd : ∀ c ∈ cs, c < start ∨ start + length ≤ c) (ψ : ℕ → ℂ) :
    ∃ φ, cInc K n toMod start length cs ψ = some φ ∧
      ∀ i < 2 ^ n, φ (if AllAre true cs i then setField start length (field start length i + toMod) i else i) = ψ i := by
  suffices hs : ∃ φ, cInc K n toMod start length cs ψ = some φ ∧ ∀ j < 2 ^ n, φ j = moved n (cAddIdx cs start length toMod) ψ j by
    obtain ⟨φ, h1, h2⟩ := hs
    refine ⟨φ, h1, fun i hi => ?_⟩
    have := h2 (cAddIdx cs start length toMod i) (cAddIdx_lt h hi)
    rw [moved_apply hi (fun k _ _ hk => cAddIdx_inj hd hk)] at this
    exact this
  unfold cInc
  rw [rangeOk' h hn, (Utils.throwIfBad_correct cs n).2 ⟨hb, hnd⟩]
  simp only [Bool.false_eq_true, if_false]
  split
  · rename_i ht
    refine ⟨ψ, rfl, fun j hj => (moved_id (fun i hi h0 => ?_) hj).symm⟩
    unfold cAddIdx
    rw [if_neg (trim_none hK hb ht i hi h0)]
  all_goals
    rename_i ht
    obtain ⟨h1, h2⟩ := trim_some hK hb ht
    obtain ⟨φ, h3, h4⟩ := int_moved hK hn (toMod := toMod) h (h1.nodup hnd) (fun c hc => hb c (h1.subset hc))
      (fun c hc => hd c (h1.subset hc)) ψ
    refine ⟨φ, h3, fun j hj => ?_⟩
    rw [h4 j hj]
    refine congrFun (moved_congr (fun _ _ => rfl) fun i hi h0 => ?_) j
    unfold cAddIdx
    by_cases ha : AllAre true cs i
    · rw [if_pos ha, if_pos ((h2 i hi h0).1 ha)]
    · rw [if_neg ha, if_neg (fun hb => ha ((h2 i hi h0).2 hb))]

theorem x_fixed {n : ℕ} {ψ : ℕ → ℂ} {c : ℕ} (hc : c < n) (h : Fixed n ψ c true) : Fixed n (mcx [] c ψ) c false := by
  intro i hi h0
  have : mcx [] c ψ i = ψ (flipBit c i) := by
    unfold mcx gate
    rw [if_pos (by simp [AllAre])]
    split_ifs <;> simp
  rw [this] at h0
  have := h _ (flip_lt_two_pow hc hi) h0
  rw [flipBit, Nat.testBit_xor, Nat.testBit_two_pow_self] at this
  cases hb : i.testBit c
  · rfl
  · rw [hb] at this; cases this

theorem x_apply {c i : ℕ} {ψ : ℕ → ℂ} : mcx [] c ψ (flipBit c i) = ψ i := by
  unfold mcx gate
  rw [if_pos (by simp [AllAre]), flip_inv]
  split_ifs <;> simp

/-- C80. `INCC` of `QUnit`, after the carry qubit was measured as `m`, adds `toAdd` and the carry to the register and puts the carry-out
into the carry qubit. What is missing: the carry is set and `toAdd + 1` is `0` modulo `2^length` (see `incC_wrong`). -/
theorem incC_adds_partial {K : Cache} {n : ℕ} (hK : K.Sound n) (hn : n < 64) (m : Bool) {toAdd start length c : ℕ}
    (h : start + length ≤ n) (hc : c < n) (hd : c < start ∨ start + length ≤ c) {ψ : ℕ → ℂ} (h0 : Fixed n ψ c m)
    (hx : m = true → (toAdd + 1) % 2 ^ length ≠ 0) :
    ∃ φ, incC K n m toAdd start length c ψ = some φ ∧ ∀ i < 2 ^ n, i.testBit c = m →
      φ (sumIdx start length c (field start length i + toAdd % 2 ^ length + m.toNat) i) = ψ i := by
  unfold incC
  cases m with
  | false =>
    obtain ⟨φ, h1, h2, -⟩ := int_carry_adds hK hn (toMod := toAdd) h hc hd h0
    exact ⟨φ, by simpa using h1, fun i hi hci => by simpa using h2 i hi hci⟩
  | true =>
    obtain ⟨φ, h1, h2, -⟩ := int_carry_adds hK hn (toMod := (toAdd + 1) % 2 ^ 128) h hc hd (x_fixed hc h0)
    refine ⟨φ, by simpa using h1, fun i hi hci => ?_⟩
    have h3 := h2 (flipBit c i) (flip_lt_two_pow hc hi) (by
      rw [flipBit, Nat.testBit_xor, Nat.testBit_two_pow_self, hci]; rfl)
    rw [sumIdx_flip hd, field_flip hd, x_apply, Nat.mod_mod_of_dvd _ (pow_dvd_pow 2 (by omega))] at h3
    rw [← h3]
    congr 2
    have h4 := hx rfl
    have h5 := Nat.mod_lt toAdd (show 0 < 2 ^ length by positivity)
    have h6 : (toAdd + 1) % 2 ^ length = toAdd % 2 ^ length + 1 := by
      rw [Nat.add_mod] at h4 ⊢
      by_cases h1l : 2 ^ length = 1
      · rw [h1l] at h4; simp [Nat.mod_one] at h4
      · rw [Nat.mod_eq_of_lt (show 1 < 2 ^ length by omega)] at h4 ⊢
        by_cases h7 : toAdd % 2 ^ length + 1 = 2 ^ length
        · rw [h7, Nat.mod_self] at h4; exact absurd rfl h4
        · exact Nat.mod_eq_of_lt (by omega)
    rw [h6]; simp; ring

/-- C80. Where `INCC` goes wrong: when the carry is set and `toAdd + 1` is `0` modulo `2^length`, the sum is the register with the carry
set again (the basis state must stay), but the carry qubit is cleared. -/
theorem incC_wrong {K : Cache} {n : ℕ} (hn : n < 64) {toAdd start length c : ℕ} (h : start + length ≤ n) (hc : c < n)
    (hd : c < start ∨ start + length ≤ c) (hl : 0 < length) (hx : (toAdd + 1) % 2 ^ length = 0) (ψ : ℕ → ℂ) :
    (∀ i, i.testBit c = true → sumIdx start length c (field start length i + toAdd % 2 ^ length + 1) i = i) ∧
    ∃ φ, incC K n true toAdd start length c ψ = some φ ∧ ∀ i, φ (flipBit c i) = ψ i := by
  constructor
  · intro i hi
    have hp : 1 < 2 ^ length := Nat.one_lt_two_pow (by omega)
    have hlt := Nat.mod_lt toAdd (show 0 < 2 ^ length by positivity)
    have h1 : toAdd % 2 ^ length + 1 = 2 ^ length := by
      rw [Nat.add_mod, Nat.mod_eq_of_lt hp] at hx
      by_contra h7
      rw [Nat.mod_eq_of_lt (by omega)] at hx
      omega
    rw [Nat.add_assoc, h1]
    exact sumIdx_full hi
  · refine ⟨mcx [] c ψ, ?_, fun i => x_apply⟩
    unfold incC int
    rw [rangeOk' h hn, if_pos rfl]
    simp only [Bool.false_eq_true, if_false, ne_eq, not_true_eq_false, false_and, Option.any_some, decide_eq_true_eq, mask_eq_mod,
      reduceCtorEq]
    rw [if_neg (by omega), Nat.mod_mod_of_dvd _ (pow_dvd_pow 2 (by omega)), if_pos hx]

/-- C80. `DECC` of `QUnit`, after the carry qubit was measured as `m`, subtracts `toSub`, and one more if the carry is clear; the carry
qubit is set when there is no borrow. What is missing: the carry is set and `toSub` is `0` modulo `2^length` (see `decC_wrong`). -/
theorem decC_subtracts_partial {K : Cache} {n : ℕ} (hK : K.Sound n) (hn : n < 64) (m : Bool) {toSub start length c : ℕ}
    (hs : toSub < 2 ^ 128) (h : start + length ≤ n) (hc : c < n) (hd : c < start ∨ start + length ≤ c) {ψ : ℕ → ℂ}
    (h0 : Fixed n ψ c m) (hx : m = true → toSub % 2 ^ length ≠ 0) :
    ∃ φ, decC K n m toSub start length c ψ = some φ ∧ ∀ i < 2 ^ n, i.testBit c = m →
      φ (sumIdx start length c (field start length i + (2 ^ length - toSub % 2 ^ length) - (1 - m.toNat)) i) = ψ i := by
  have hlt := Nat.mod_lt toSub (show 0 < 2 ^ length by positivity)
  unfold decC
  cases m with
  | false =>
    obtain ⟨φ, h1, h2, -⟩ := int_carry_adds hK hn (toMod := (Circ.negAddend toSub length + (2 ^ 128 - 1)) % 2 ^ 128) h hc hd h0
    refine ⟨φ, by simpa using h1, fun i hi hci => ?_⟩
    have h3 := h2 i hi hci
    rw [negAddend_pred (by omega) hs] at h3
    rw [← h3]
    congr 2
    simp; omega
  | true =>
    obtain ⟨φ, h1, h2, -⟩ := int_carry_adds hK hn (toMod := Circ.negAddend toSub length) h hc hd (x_fixed hc h0)
    refine ⟨φ, by simpa using h1, fun i hi hci => ?_⟩
    have h3 := h2 (flipBit c i) (flip_lt_two_pow hc hi) (by
      rw [flipBit, Nat.testBit_xor, Nat.testBit_two_pow_self, hci]; rfl)
    have h4 := hx rfl
    rw [sumIdx_flip hd, field_flip hd, x_apply, negAddend_mod (by omega) hs, Nat.mod_eq_of_lt (by omega)] at h3
    rw [← h3]
    congr 2

/-- C80. Where `DECC` goes wrong: subtracting nothing with the carry set must change nothing, but the carry qubit is cleared. -/
theorem decC_wrong {K : Cache} {n : ℕ} (hn : n < 64) {start length c : ℕ} (h : start + length ≤ n) (hc : c < n) (ψ : ℕ → ℂ) :
    (∀ i, i.testBit c = true → sumIdx start length c (field start length i + (2 ^ length - 0) - (1 - 1)) i = i) ∧
    ∃ φ, decC K n true 0 start length c ψ = some φ ∧ ∀ i, φ (flipBit c i) = ψ i := by
  constructor
  · intro i hi
    exact sumIdx_full hi
  · refine ⟨mcx [] c ψ, ?_, fun i => x_apply⟩
    unfold decC int
    rw [rangeOk' h hn]
    simp only [Bool.false_eq_true, if_false, ne_eq, not_true_eq_false, false_and, Option.any_some, decide_eq_true_eq, mask_eq_mod,
      reduceCtorEq, if_true]
    rw [if_neg (by omega), negAddend_mod (by omega) (by norm_num), Nat.zero_mod, Nat.sub_zero, Nat.mod_self, if_pos rfl]

/-- C80. The signed additions `INCS` and, with the carry qubit clear, `INCDECSC` of `QUnit` add, and negate the amplitude of exactly the
basis states that overflow in two's complement while the overflow qubit is set, whatever the caches know. -/
theorem ints_adds {K : Cache} {n : ℕ} (hK : K.Sound n) (hn : n < 64) {toMod start length o : ℕ} (h : start + length ≤ n)
    (ho : o < n) (hd : o < start ∨ start + length ≤ o) {carry : Option ℕ} {ψ : ℕ → ℂ}
    (hc : ∀ c ∈ carry, c < n ∧ (c < start ∨ start + length ≤ c) ∧ o ≠ c ∧ Fixed n ψ c false) :
    ∃ φ, ints K n toMod start length o carry ψ = some φ ∧ ∀ i < 2 ^ n, (∀ c ∈ carry, i.testBit c = false) →
      φ (addTo carry start length (toMod % 2 ^ length) i) =
        if Overflows length (field start length i) (toMod % 2 ^ length) ∧ i.testBit o = true then - ψ i else ψ i := by
  have hm : toMod % 2 ^ length < 2 ^ length := Nat.mod_lt _ (by positivity)
  have hc3 : ∀ c ∈ carry, c < n ∧ (c < start ∨ start + length ≤ c) ∧ Fixed n ψ c false := fun c h => by
    obtain ⟨a, b, -, d⟩ := hc c h; exact ⟨a, b, d⟩
  set χ : ℕ → ℂ := fun i => if Overflows length (field start length i) (toMod % 2 ^ length) ∧ i.testBit o = true then - ψ i else ψ i
    with hχ
  have hχ0 : ∀ i, χ i ≠ 0 ↔ ψ i ≠ 0 := by
    intro i
    simp only [hχ]
    split_ifs <;> simp
  suffices hs : ∃ φ, ints K n toMod start length o carry ψ = some φ ∧
      ∀ j < 2 ^ n, φ j = moved n (addTo carry start length (toMod % 2 ^ length)) χ j by
    obtain ⟨φ, h1, h2⟩ := hs
    refine ⟨φ, h1, fun i hi hci => ?_⟩
    rw [h2 _ (addTo_mod hm h (fun c h => ⟨(hc c h).1, (hc c h).2.1⟩) hi)]
    refine moved_apply hi fun k hk h0 hki => ?_
    cases carry with
    | none => exact addField_inj hki
    | some c =>
      obtain ⟨-, b2, b3⟩ := hc3 c rfl
      exact sumIdx_inj b2 (b3 k hk ((hχ0 k).1 h0)) (hci c rfl) hki
  have same : (∀ i < 2 ^ n, ψ i ≠ 0 → ¬ (Overflows length (field start length i) (toMod % 2 ^ length) ∧ i.testBit o = true)) →
      ∀ i < 2 ^ n, χ i = ψ i := by
    intro hno i hi
    simp only [hχ]
    by_cases h0 : ψ i = 0
    · rw [h0]; simp
    · rw [if_neg (hno i hi h0)]
  unfold ints
  rw [rangeOk' h hn, any_false (fun c h => (hc c h).1)]
  simp only [Bool.false_eq_true, if_false, mask_eq_mod]
  rw [if_neg (by omega)]
  by_cases hz : toMod % 2 ^ length = 0
  · rw [if_pos hz]
    refine ⟨ψ, rfl, fun j hj => ?_⟩
    have hs := same (fun i hi h0 hno => by
      rw [hz] at hno
      exact not_overflows_zero (field_lt start length i) hno.1)
    rw [congrFun (moved_congr (T' := id) hs (fun i hi h0 => ?_)) j, moved_id (T := id) (fun _ _ _ => rfl) hj]
    rw [hz]
    cases carry with
    | none => exact setField_field _ _ _
    | some c =>
      obtain ⟨-, b2, b3⟩ := hc3 c rfl
      show sumIdx start length c (field start length i + 0) i = i
      rw [Nat.add_zero, sumIdx_clear (b3 i hi h0) b2 (field_lt _ _ _), setField_field]
  rw [if_neg hz]
  have hl : 0 < length := by
    rcases Nat.eq_zero_or_pos length with h0 | h0
    · rw [h0, pow_zero, Nat.mod_one] at hz; exact absurd rfl hz
    · exact h0
  obtain ⟨φ, e1, e2⟩ := int_moved_to hK hn h hm hc3
  by_cases hk : K.bit 0 ψ o = some false
  · rw [if_pos hk]
    have hfix := hK.bit _ _ _ _ ho hk
    have hs := same (fun i hi h0 hno => by rw [hfix i hi h0] at hno; exact absurd hno.2 (by simp))
    exact ⟨φ, e1, fun j hj => by rw [e2 j hj, moved_congr hs (fun _ _ _ => rfl)]⟩
  rw [if_neg hk]
  by_cases hk' : K.bit 1 ψ (start + length - 1) = some (!decide (toMod % 2 ^ length &&& 2 ^ (length - 1) ≠ 0))
  · rw [if_pos hk']
    have hfix := hK.bit _ _ _ _ (by omega) hk'
    have hs := same (fun i hi h0 hno => by
      refine not_overflows_of_signs hl (field_lt start length i) hm ?_ hno.1
      rw [testBit_field, decide_eq_true (by omega), Bool.true_and, show start + (length - 1) = start + length - 1 by omega,
        hfix i hi h0]
      congr 1
      have := and_bit (m := toMod % 2 ^ length) (k := length - 1)
      rwa [Nat.one_shiftLeft] at this)
    exact ⟨φ, e1, fun j hj => by rw [e2 j hj, moved_congr hs (fun _ _ _ => rfl)]⟩
  rw [if_neg hk']
  unfold intscOptimize
  split
  · rename_i φ' hφ
    refine ⟨φ', rfl, fun j hj => ?_⟩
    split at hφ
    · cases hφ
    · rename_i v hv
      obtain ⟨v1, v2⟩ := cached_some hK h hv
      simp only [Option.some.injEq] at hφ
      rw [← hφ]
      have hopt := optimized_moved h v1 hm v2 hc3
      have hocl : ocl (toMod % 2 ^ length) = toMod % 2 ^ length :=
        Nat.mod_eq_of_lt (lt_of_lt_of_le hm (Nat.pow_le_pow_right (by norm_num) (by omega)))
      have hov := isOverflowAdd_correct hl (by omega) v1 hm
      rw [hocl]
      rw [hopt]
      by_cases hb : Utils.isOverflowAdd v (toMod % 2 ^ length) (2 ^ (length - 1)) (2 ^ length) = true
      · rw [if_pos hb, z_moved (fun i _ => addTo_keeps hd (fun c h => (hc c h).2.2.1))]
        refine congrFun (moved_congr (fun i hi => ?_) (fun _ _ _ => rfl)) j
        simp only [hχ]
        by_cases h0 : ψ i = 0
        · rw [h0]; simp
        · rw [v2 i hi h0]
          simp [hov.1 hb]
      · rw [if_neg hb]
        refine congrFun (moved_congr (fun i hi => ?_) (fun _ _ _ => rfl)) j
        refine (same (fun i hi h0 hno => ?_) i hi).symm
        rw [v2 i hi h0] at hno
        exact hb (hov.2 hno.1)
  · exact ⟨_, rfl, fun j _ => rfl⟩

/-- C80. What the model takes a call of `INC` or `CINC` of a unit to do is what the routines of the state vector engine do. -/
theorem unit_cinc {σ : List ℕ → List ℕ} (hσ : IsSched σ) (junk : ℕ → ℂ) {e : Eng} (hn : e.n < 64) {toAdd start length : ℕ}
    {cs : List ℕ} (h : start + length ≤ e.n) (hnd : cs.Nodup) (hb : ∀ c ∈ cs, c < e.n) (hd : ∀ c ∈ cs, c < start ∨ start + length ≤ c) :
    ∃ a, cincE σ junk e toAdd start length cs = some (e.reset a) ∧ ∀ j < 2 ^ e.n, a j = cinc e.n toAdd start length cs e.amp j := by
  obtain ⟨a, h1, h2⟩ := cinc_adds hσ junk hn (toAdd := toAdd) h hnd hb hd
  refine ⟨a, h1, fun j hj => ?_⟩
  obtain ⟨i, hi, rfl⟩ := cAddIdx_surj (toMod := toAdd) h hd hj
  rw [h2 i hi]
  exact (moved_apply hi (fun k _ _ hk => cAddIdx_inj hd hk)).symm

/-! ## The caches of the theorems exist, and the loops do something -/

/-- Caches that know all there is to know. -/
noncomputable def allKnown (n : ℕ) : Cache :=
  open Classical in
  { bit := fun _ ψ q => if Fixed n ψ q false then some false else if Fixed n ψ q true then some true else none
    plus := fun ψ q => decide (IsPlus n ψ q)
    ctrl := fun _ ψ q => if Fixed n ψ q false then some false else if Fixed n ψ q true then some true else none }

/-- Such caches are sound, and so are caches that know nothing. -/
theorem allKnown_sound (n : ℕ) : (allKnown n).Sound n ∧ Cache.Sound ⟨fun _ _ _ => none, fun _ _ => false, fun _ _ _ => none⟩ n := by
  have key : ∀ (ψ : ℕ → ℂ) q b, (open Classical in
      if Fixed n ψ q false then some false else if Fixed n ψ q true then some true else none) = some b → Fixed n ψ q b := by
    intro ψ q b h
    split_ifs at h with h1 h2
    · cases h; exact h1
    · cases h; exact h2
  refine ⟨⟨fun _ ψ q b _ h => key ψ q b h, fun ψ q _ h => ?_, fun _ ψ q b _ h => key ψ q b h⟩, ⟨?_, ?_, ?_⟩⟩
  · simpa [allKnown] using h
  all_goals simp

/-- Non-vacuity: three qubits, the lowest of which is in superposition while the others are known to be `1` and `0`; with `3` added, the
first two are added by a unit, the carry out of them is known to be set, and the third qubit is flipped without being brought into the
unit. -/
example (ψ : ℕ → ℂ) :
    let K : Cache := ⟨fun _ _ q => if q = 1 then some true else if q = 2 then some false else none, fun _ _ => false, fun _ _ _ => none⟩
    int K 3 3 0 3 none [] ψ = some (mcx [] 2 (cinc 3 3 0 2 [] ψ)) := by
  intro K
  have hs : scan K ψ 3 0 3 1 1 1 = some (2, 3, true) := by
    rw [scan]; simp [K]
  have h3 : ∀ φ, loop K 3 3 [] ⟨0, 3, 0, 3, false, φ⟩ = ⟨0, 3, 0, 3, false, φ⟩ := fun φ => by rw [loop]; simp
  have h2 : ∀ φ, loop K 3 3 [] ⟨0, 2, 1, 2, true, φ⟩ = ⟨0, 3, 0, 3, false, mcx [] 2 φ⟩ := fun φ => by
    rw [loop]; simp [K, h3]
  have h1 : loop K 3 3 [] ⟨3, 0, 3, 0, false, ψ⟩ = ⟨0, 3, 0, 3, false, mcx [] 2 (cinc 3 3 0 2 [] ψ)⟩ := by
    rw [loop]; simp [hs, h2, show K.bit 0 ψ 0 = none from rfl]
  have hp : checkBitsPlus K ψ 0 3 = false := rfl
  have hr : Utils.isBadBitRange 0 3 3 = false := by decide
  unfold int
  simp [hr, hp, h1]

/-- Non-vacuity: the register `[0, 3)` holding 6 with the carry qubit 3 clear goes to 1 with the carry qubit set. -/
example : sumIdx 0 3 3 (field 0 3 6 + 3 % 2 ^ 3) 6 = 9 := by decide

end Verif.QU
