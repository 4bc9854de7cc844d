import Verif.Model.UnitArith

/-!
# Lemmas: moving basis states, and the loops of the additions of `QUnit`
-/

namespace Verif.QU

open Verif.Spec Verif.Engine Finset

/-! ## Moving basis states -/

theorem moved_congr {n : ℕ} {T T' : ℕ → ℕ} {ψ φ : ℕ → ℂ} (hψ : ∀ i < 2 ^ n, ψ i = φ i)
    (h : ∀ i < 2 ^ n, φ i ≠ 0 → T i = T' i) : moved n T ψ = moved n T' φ := by
  funext j
  unfold moved
  rw [sum_filter, sum_filter]
  refine sum_congr rfl fun i hi => ?_
  have hi' := mem_range.1 hi
  rw [hψ i hi']
  by_cases h0 : φ i = 0
  · rw [h0, ite_self, ite_self]
  · rw [h i hi' h0]

theorem moved_comp {n : ℕ} {T G : ℕ → ℕ} {ψ : ℕ → ℂ} (hG : ∀ i < 2 ^ n, G i < 2 ^ n) :
    moved n T (moved n G ψ) = moved n (fun i => T (G i)) ψ := by
  funext j
  unfold moved
  rw [sum_filter, sum_filter]
  have : ∀ k ∈ range (2 ^ n), (if T k = j then ∑ i ∈ (range (2 ^ n)).filter (G · = k), ψ i else 0) =
      ∑ i ∈ range (2 ^ n), if G i = k then (if T (G i) = j then ψ i else 0) else 0 := by
    intro k _
    rw [sum_filter]
    split_ifs with hk
    · refine sum_congr rfl fun i _ => ?_
      split_ifs with h1 h2 h2
      · rfl
      · exact absurd (h1 ▸ hk) h2
      · rfl
    · refine (sum_eq_zero fun i _ => ?_).symm
      split_ifs with h1 h2
      · exact absurd (h1 ▸ h2) hk
      · rfl
      · rfl
  rw [sum_congr rfl this, sum_comm]
  refine sum_congr rfl fun i hi => ?_
  rw [sum_ite_eq, if_pos (mem_range.2 (hG i (mem_range.1 hi)))]

theorem moved_id {n : ℕ} {T : ℕ → ℕ} {ψ : ℕ → ℂ} (h : ∀ i < 2 ^ n, ψ i ≠ 0 → T i = i) {j : ℕ} (hj : j < 2 ^ n) :
    moved n T ψ j = ψ j := by
  rw [moved_congr (T' := id) (fun _ _ => rfl) h]
  unfold moved
  rw [sum_filter]
  simp only [id]
  rw [sum_ite_eq', if_pos (mem_range.2 hj)]

theorem moved_ne_zero {n : ℕ} {T : ℕ → ℕ} {ψ : ℕ → ℂ} {j : ℕ} (h : moved n T ψ j ≠ 0) :
    ∃ i < 2 ^ n, ψ i ≠ 0 ∧ T i = j := by
  obtain ⟨i, hi, h0⟩ := exists_ne_zero_of_sum_ne_zero h
  rw [mem_filter, mem_range] at hi
  exact ⟨i, hi.1, h0, hi.2⟩

theorem moved_apply {n : ℕ} {T : ℕ → ℕ} {ψ : ℕ → ℂ} {i : ℕ} (hi : i < 2 ^ n)
    (h : ∀ k < 2 ^ n, ψ k ≠ 0 → T k = T i → k = i) : moved n T ψ (T i) = ψ i := by
  unfold moved
  rw [sum_eq_single i]
  · intro k hk hki
    rw [mem_filter, mem_range] at hk
    by_contra h0
    exact hki (h k hk.1 h0 hk.2)
  · intro h0
    exact absurd (mem_filter.2 (show i ∈ range (2 ^ n) ∧ T i = T i from ⟨mem_range.2 hi, rfl⟩)) h0

/-! ## Splitting a register -/

theorem field_split {s p l i : ℕ} (h : p ≤ l) : field s l i = field s p i + 2 ^ p * field (s + p) (l - p) i := by
  obtain ⟨d, rfl⟩ := Nat.exists_eq_add_of_le h
  unfold field
  rw [Nat.add_sub_cancel_left, pow_add, Nat.mod_mul, Nat.div_div_eq_div_mul, ← pow_add]

theorem setField_split {s p l v i : ℕ} (h : p ≤ l) :
    setField s l v i = setField (s + p) (l - p) (v / 2 ^ p) (setField s p v i) := by
  apply Nat.eq_of_testBit_eq
  intro k
  simp only [testBit_setField, Nat.testBit_div_two_pow]
  by_cases h1 : k < s
  · rw [if_pos h1, if_pos (by omega), if_pos h1]
  by_cases h2 : k < s + p
  · rw [if_neg h1, if_pos (by omega), if_pos h2, if_neg h1, if_pos h2]
  by_cases h3 : k < s + l
  · rw [if_neg h1, if_pos h3, if_neg h2, if_pos (by omega)]
    congr 1; omega
  · rw [if_neg h1, if_neg h3, if_neg h2, if_neg (by omega), if_neg h1, if_neg h2]

theorem add_split {s p l m i : ℕ} (h : p ≤ l) :
    (field s l i + m) / 2 ^ p = field (s + p) (l - p) i + (field s p i + m) / 2 ^ p := by
  rw [field_split h, show field s p i + 2 ^ p * field (s + p) (l - p) i + m =
    field s p i + m + 2 ^ p * field (s + p) (l - p) i by ring, Nat.add_mul_div_left _ _ (by positivity), Nat.add_comm]

/-- Adding to a register is adding to its low part, and then adding what is carried to its high part. -/
theorem addField_split {s p l m i : ℕ} (h : p ≤ l) :
    setField s l (field s l i + m) i = setField (s + p) (l - p)
      (field (s + p) (l - p) (setField s p (field s p i + m) i) + (field s p i + m) / 2 ^ p)
      (setField s p (field s p i + m) i) := by
  rw [setField_split h, add_split h, field_setField_disjoint (by omega)]
  congr 1
  apply setField_congr
  rw [field_split h, Nat.add_right_comm, Nat.add_mul_mod_self_left]

/-- What the loops of `INT` rely on: a family `T` of additions, of `m` to the register `[s, s+l)`, in which the low `p` qubits may be
added first. -/
def Splits (cs : List ℕ) (lo hi : ℕ) (T : ℕ → ℕ → ℕ → ℕ → ℕ) : Prop :=
  ∀ s p l m i, lo ≤ s → s + l ≤ hi → p ≤ l →
    T s l m i = T (s + p) (l - p) ((field s p i + m) / 2 ^ p) (cAddIdx cs s p m i)

theorem splits_cAdd {cs : List ℕ} {lo hi : ℕ} (hd : ∀ c ∈ cs, c < lo ∨ hi ≤ c) :
    Splits cs lo hi fun s l m i => cAddIdx cs s l m i := by
  intro s p l m i h1 h2 h3
  have hd' : ∀ c ∈ cs, c < s ∨ s + p ≤ c := fun c hc => (hd c hc).imp (by omega) (by omega)
  dsimp only
  by_cases ha : AllAre true cs i
  · have ha' : AllAre true cs (cAddIdx cs s p m i) := by
      unfold cAddIdx; rw [if_pos ha]; exact (allAre_setField hd').2 ha
    rw [cAddIdx, if_pos ha, cAddIdx, if_pos ha', cAddIdx, if_pos ha]
    exact addField_split h3
  · have : cAddIdx cs s p m i = i := by unfold cAddIdx; rw [if_neg ha]
    rw [this, cAddIdx, if_neg ha, cAddIdx, if_neg ha]

theorem splits_sum {c lo hi : ℕ} (hd : c < lo ∨ hi ≤ c) :
    Splits [] lo hi fun s l m i => sumIdx s l c (field s l i + m) i := by
  intro s p l m i h1 h2 h3
  have ha : cAddIdx [] s p m i = setField s p (field s p i + m) i := by
    unfold cAddIdx; rw [if_pos (by simp [AllAre])]
  dsimp only
  rw [ha]
  unfold sumIdx
  rw [← addField_split h3, field_setField_disjoint (by omega), ← add_split h3, Nat.div_div_eq_div_mul, ← pow_add,
    Nat.add_sub_cancel' h3]

/-! ## What the caches say is true -/

/-- Qubit `q` has the value `b` in every part of the state. -/
def Fixed (n : ℕ) (ψ : ℕ → ℂ) (q : ℕ) (b : Bool) : Prop := ∀ i < 2 ^ n, ψ i ≠ 0 → i.testBit q = b

/-- Qubit `q` is in the state `|+⟩`. -/
def IsPlus (n : ℕ) (ψ : ℕ → ℂ) (q : ℕ) : Prop := ∀ i < 2 ^ n, ψ (flipBit q i) = ψ i

/-- Whatever the caches answer is true of the state. -/
structure Cache.Sound (K : Cache) (n : ℕ) : Prop where
  bit : ∀ k ψ q b, q < n → K.bit k ψ q = some b → Fixed n ψ q b
  plus : ∀ ψ q, q < n → K.plus ψ q = true → IsPlus n ψ q
  ctrl : ∀ k ψ q b, q < n → K.ctrl k ψ q = some b → Fixed n ψ q b

/-! ## The inner loop -/

theorem and_bit {m k : ℕ} : decide (m &&& 1 <<< k ≠ 0) = m.testBit k := by
  rw [Nat.one_shiftLeft, Nat.and_two_pow]
  cases m.testBit k <;> simp

theorem mod_succ_or (m k : ℕ) : m % 2 ^ k ||| (m &&& 1 <<< k) = m % 2 ^ (k + 1) := by
  apply Nat.eq_of_testBit_eq
  intro j
  rw [Nat.testBit_or, Nat.testBit_and, Nat.one_shiftLeft, Nat.testBit_two_pow, Nat.testBit_mod_two_pow, Nat.testBit_mod_two_pow]
  by_cases h : j = k
  · subst h; simp
  · have : decide (k = j) = false := decide_eq_false (Ne.symm h)
    rw [this, Bool.and_false, Bool.or_false]
    congr 1
    exact decide_eq_decide.2 (by omega)

theorem scan_some {K : Cache} {ψ : ℕ → ℂ} {toMod start orig : ℕ} {pl pm i p' pm' : ℕ} {b : Bool} (hpm : pm = toMod % 2 ^ pl)
    (hi : i < orig) (h : scan K ψ toMod start orig pl pm i = some (p', pm', b)) :
    pl < p' ∧ i + p' ≤ orig + pl ∧ pm' = toMod % 2 ^ p' ∧ b = toMod.testBit (p' - 1) ∧
      ∃ k, K.bit k ψ (start + p' - 1) = some b := by
  rw [scan] at h
  simp only [Nat.add_sub_cancel, and_bit] at h
  rw [hpm, mod_succ_or] at h
  split_ifs at h with h1 h2
  · simp only [Option.some.injEq, Prod.mk.injEq] at h
    obtain ⟨rfl, rfl, rfl⟩ := h
    exact ⟨by omega, by omega, rfl, rfl, _, h1⟩
  · obtain ⟨a, b', c, d, e⟩ := scan_some rfl h2 h
    exact ⟨by omega, by omega, c, d, e⟩
  termination_by orig - i

/-! ## One step of the outer loop -/

theorem field_one (s i : ℕ) : field s 1 i = (i.testBit s).toNat := by
  unfold field
  rw [pow_one, Nat.testBit_eq_decide_div_mod_eq]
  have : i / 2 ^ s % 2 = 0 ∨ i / 2 ^ s % 2 = 1 := by omega
  rcases this with h | h <;> simp [h]

theorem cAddIdx_even {cs : List ℕ} {s p m i : ℕ} (h : m % 2 ^ p = 0) : cAddIdx cs s p m i = i := by
  unfold cAddIdx
  rw [setField_congr (w := field s p i), setField_field, ite_self]
  rw [Nat.add_mod, h, Nat.add_zero, Nat.mod_mod]

theorem cAddIdx_odd {cs : List ℕ} {s m i : ℕ} (h : m % 2 = 1) :
    cAddIdx cs s 1 m i = if AllAre true cs i then flipBit s i else i := by
  unfold cAddIdx
  congr 1
  symm
  apply eq_setField
  · rw [field_one, field_one, flipBit, Nat.testBit_xor, Nat.testBit_two_pow_self]
    cases i.testBit s <;> simp <;> omega
  · intro k hk
    rw [flipBit, Nat.testBit_xor, Nat.testBit_two_pow, decide_eq_false (by omega), Bool.xor_false]

theorem cAddIdx_mod {cs : List ℕ} {s p m i : ℕ} : cAddIdx cs s p (m % 2 ^ p) i = cAddIdx cs s p m i := by
  unfold cAddIdx
  rw [setField_congr (w := field s p i + m)]
  rw [Nat.add_mod_mod]

theorem cAddIdx_lt {cs : List ℕ} {n s p m i : ℕ} (h : s + p ≤ n) (hi : i < 2 ^ n) : cAddIdx cs s p m i < 2 ^ n := by
  unfold cAddIdx
  split_ifs
  · exact setField_lt h hi
  · exact hi

theorem flip_inv (t i : ℕ) : flipBit t (flipBit t i) = i := by
  unfold flipBit; rw [Nat.xor_assoc, Nat.xor_self, Nat.xor_zero]

theorem flip_lt_two_pow {n t i : ℕ} (ht : t < n) (hi : i < 2 ^ n) : flipBit t i < 2 ^ n :=
  Nat.xor_lt_two_pow hi (Nat.pow_lt_pow_right (by norm_num) ht)

theorem allAre_flip {cs : List ℕ} {t i : ℕ} (ht : t ∉ cs) : AllAre true cs (flipBit t i) ↔ AllAre true cs i := by
  unfold AllAre
  refine forall₂_congr fun c hc => ?_
  rw [flipBit, Nat.testBit_xor, Nat.testBit_two_pow, decide_eq_false (fun h : t = c => ht (h ▸ hc)), Bool.xor_false]

/-- Where a controlled `X` carries a basis state. -/
def flipTo (cs : List ℕ) (t i : ℕ) : ℕ := if AllAre true cs i then flipBit t i else i

theorem flipTo_flipTo {cs : List ℕ} {t : ℕ} (hc : t ∉ cs) (k : ℕ) : flipTo cs t (flipTo cs t k) = k := by
  unfold flipTo
  by_cases ha : AllAre true cs k
  · rw [if_pos ha, if_pos ((allAre_flip hc).2 ha), flip_inv]
  · rw [if_neg ha, if_neg ha]

theorem flipTo_lt {cs : List ℕ} {n t i : ℕ} (ht : t < n) (hi : i < 2 ^ n) : flipTo cs t i < 2 ^ n := by
  unfold flipTo
  split_ifs
  · exact flip_lt_two_pow ht hi
  · exact hi

theorem mcx_moved {n t : ℕ} {cs : List ℕ} {ψ : ℕ → ℂ} (ht : t < n) (hc : t ∉ cs) {j : ℕ} (hj : j < 2 ^ n) :
    mcx cs t ψ j = moved n (flipTo cs t) ψ j := by
  have h2 := moved_apply (T := flipTo cs t) (ψ := ψ) (flipTo_lt (cs := cs) ht hj) (fun k _ _ hk => by
    rw [← flipTo_flipTo hc k, hk, flipTo_flipTo hc])
  rw [flipTo_flipTo hc] at h2
  rw [h2]
  unfold mcx gate flipTo
  split_ifs <;> simp

theorem shr_one (m : ℕ) : m >>> 1 = m / 2 := by rw [Nat.shiftRight_eq_div_pow, pow_one]

theorem testBit_zero' (m : ℕ) : decide (m &&& 1 ≠ 0) = decide (m % 2 = 1) := by
  rw [Nat.and_one_is_mod]
  exact decide_eq_decide.2 (by omega)

/-- The carry out of a block is known when the addend and the register agree in its highest bit. -/
theorem known_carry {s p m i : ℕ} (hp : 0 < p) (h : i.testBit (s + p - 1) = m.testBit (p - 1)) :
    (field s p i + m) / 2 ^ p = m / 2 ^ p + (m.testBit (p - 1)).toNat := by
  obtain ⟨q, rfl⟩ : ∃ q, p = q + 1 := ⟨p - 1, by omega⟩
  rw [Nat.add_sub_cancel] at h ⊢
  have e1 : field s (q + 1) i = field s q i + 2 ^ q * (m.testBit q).toNat := by
    rw [field_split (p := q) (by omega), Nat.add_sub_cancel_left, field_one, show s + q = s + (q + 1) - 1 by omega, h]
  have hm : m % 2 ^ (q + 1) = m % 2 ^ q + 2 ^ q * (m.testBit q).toNat := by
    have := field_split (s := 0) (p := q) (l := q + 1) (i := m) (by omega)
    rw [Nat.add_sub_cancel_left, field_one] at this
    simpa [field] using this
  have h1 := field_lt s q i
  have h2 := Nat.mod_lt m (show 0 < 2 ^ q by positivity)
  have hpow : 2 ^ (q + 1) = 2 * 2 ^ q := by rw [pow_succ, Nat.mul_comm]
  have h3 := Nat.div_add_mod m (2 ^ (q + 1))
  have key : field s (q + 1) i + m = 2 ^ (q + 1) * (m / 2 ^ (q + 1) + (m.testBit q).toNat) + (field s q i + m % 2 ^ q) := by
    rw [hm, hpow] at h3
    rw [e1, hpow]
    linarith
  have h4 : (field s q i + m % 2 ^ q) / 2 ^ (q + 1) = 0 :=
    Nat.div_eq_of_lt (by rw [hpow, two_mul]; exact Nat.add_lt_add h1 h2)
  rw [key, Nat.mul_add_div (by positivity), h4, Nat.add_zero]

/-- One step of the loop: the low `p` qubits are added, and what they carry is known. -/
theorem step {cs : List ℕ} {n lo hi : ℕ} (hhi : hi ≤ n) {T : ℕ → ℕ → ℕ → ℕ → ℕ} (hT : Splits cs lo hi T) {s l p m m' : ℕ}
    (h1 : lo ≤ s) (h2 : s + l ≤ hi) (h3 : p ≤ l) {ψ φ : ℕ → ℂ} (hφ : ∀ j < 2 ^ n, φ j = moved n (cAddIdx cs s p m) ψ j)
    (hc : ∀ i < 2 ^ n, ψ i ≠ 0 → (field s p i + m) / 2 ^ p = m') : moved n (T (s + p) (l - p) m') φ = moved n (T s l m) ψ := by
  rw [moved_congr hφ (fun _ _ _ => rfl), moved_comp (fun i hi' => cAddIdx_lt (by omega) hi')]
  refine moved_congr (fun _ _ => rfl) fun i hi' h0 => ?_
  rw [hT s p l m i h1 h2 h3, hc i hi' h0]

theorem keeps {cs : List ℕ} {n lo hi : ℕ} {P : ℕ → Prop}
    (hP : ∀ s p m i, lo ≤ s → s + p ≤ hi → P i → P (cAddIdx cs s p m i)) {s p m : ℕ} (h1 : lo ≤ s) (h2 : s + p ≤ hi) {ψ φ : ℕ → ℂ}
    (hφ : ∀ j < 2 ^ n, φ j = moved n (cAddIdx cs s p m) ψ j) (h : ∀ i < 2 ^ n, ψ i ≠ 0 → P i) : ∀ i < 2 ^ n, φ i ≠ 0 → P i := by
  intro j hj h0
  rw [hφ j hj] at h0
  obtain ⟨i, hi', h3, rfl⟩ := moved_ne_zero h0
  exact hP s p m i h1 h2 (h i hi' h3)

/-- The outer loop: what is left to be added, added to the state it leaves, is what was to be added to the state it was given. -/
theorem loop_ok {K : Cache} {n : ℕ} (hK : K.Sound n) {cs : List ℕ} {lo hi : ℕ} (hhi : hi ≤ n) (hd : ∀ c ∈ cs, c < lo ∨ hi ≤ c)
    {T : ℕ → ℕ → ℕ → ℕ → ℕ} (hT : Splits cs lo hi T) {P : ℕ → Prop}
    (hP : ∀ s p m i, lo ≤ s → s + p ≤ hi → P i → P (cAddIdx cs s p m i)) {orig : ℕ} (s : St) (h1 : lo ≤ s.start)
    (h2 : s.start + s.length ≤ hi) (h3 : s.length + s.i = orig) (h4 : s.toMod < 2 ^ s.length)
    (h5 : ∀ i < 2 ^ n, s.psi i ≠ 0 → P i) :
    lo ≤ (loop K n orig cs s).start ∧ (loop K n orig cs s).start + (loop K n orig cs s).length ≤ hi ∧
      (loop K n orig cs s).toMod < 2 ^ (loop K n orig cs s).length ∧
      ((loop K n orig cs s).length ≠ 0 → (loop K n orig cs s).carry = false) ∧
      (∀ i < 2 ^ n, (loop K n orig cs s).psi i ≠ 0 → P i) ∧
      moved n (T (loop K n orig cs s).start (loop K n orig cs s).length
          ((loop K n orig cs s).toMod + (loop K n orig cs s).carry.toNat)) (loop K n orig cs s).psi =
        moved n (T s.start s.length (s.toMod + s.carry.toNat)) s.psi := by
  rw [loop]
  by_cases hi0 : s.i < orig
  swap
  · rw [if_neg hi0]
    exact ⟨h1, h2, h4, fun h => absurd (show s.length = 0 by omega) h, h5, rfl⟩
  rw [if_pos hi0]
  have hl : 0 < s.length := by omega
  have hpow : 2 ^ s.length = 2 * 2 ^ (s.length - 1) := by
    obtain ⟨k, hk⟩ : ∃ k, s.length = k + 1 := ⟨s.length - 1, by omega⟩
    rw [hk, Nat.add_sub_cancel, pow_succ, Nat.mul_comm]
  have hhalf : s.toMod >>> 1 < 2 ^ (s.length - 1) := by rw [shr_one]; omega
  simp only [testBit_zero']
  by_cases hskip : decide (s.toMod % 2 = 1) = s.carry
  · rw [if_pos hskip]
    have hm : (s.toMod + s.carry.toNat) % 2 ^ 1 = 0 ∧ (s.toMod + s.carry.toNat) / 2 = s.toMod / 2 + s.carry.toNat := by
      rw [← hskip]
      by_cases h : s.toMod % 2 = 1
      · simp only [h, decide_true, Bool.toNat_true]; omega
      · simp only [h, decide_false, Bool.toNat_false]; omega
    have hφ : ∀ j < 2 ^ n, s.psi j = moved n (cAddIdx cs s.start 1 (s.toMod + s.carry.toNat)) s.psi j := fun j hj =>
      (moved_id (fun i _ _ => cAddIdx_even hm.1) hj).symm
    have ih := loop_ok hK hhi hd hT hP
      { s with toMod := s.toMod >>> 1, start := s.start + 1, length := s.length - 1, i := s.i + 1 }
      (show lo ≤ s.start + 1 by omega) (show s.start + 1 + (s.length - 1) ≤ hi by omega)
      (show s.length - 1 + (s.i + 1) = orig by omega) hhalf h5
    refine ⟨ih.1, ih.2.1, ih.2.2.1, ih.2.2.2.1, ih.2.2.2.2.1, ih.2.2.2.2.2.trans ?_⟩
    refine step hhi hT h1 h2 (by omega) hφ fun i _ _ => ?_
    rw [field_one, pow_one, shr_one, ← hm.2]
    have h0 := hm.1
    rw [pow_one] at h0
    cases i.testBit s.start <;> simp <;> omega
  rw [if_neg hskip]
  have hodd : (s.toMod + s.carry.toNat) % 2 = 1 ∧ (s.toMod + s.carry.toNat) / 2 = s.toMod / 2 ∧
      (decide (s.toMod % 2 = 1)).toNat + s.carry.toNat = 1 := by
    cases hc : s.carry <;> rw [hc] at hskip <;> simp at hskip <;> simp <;> omega
  split
  · rename_i inReg hk
    have hfix := hK.bit _ _ _ _ (by omega) hk
    have hne : inReg.toNat ≠ ((decide (s.toMod % 2 = 1)).toNat + inReg.toNat + s.carry.toNat) &&& 1 := by
      rw [Nat.and_one_is_mod]
      have := hodd.2.2
      cases inReg <;> simp <;> omega
    rw [if_pos hne]
    have hcar : decide (1 < (decide (s.toMod % 2 = 1)).toNat + inReg.toNat + s.carry.toNat) = inReg := by
      have := hodd.2.2
      cases inReg <;> simp <;> omega
    rw [hcar]
    have hns : s.start ∉ cs := fun h => by rcases hd _ h with h | h <;> omega
    have hφ : ∀ j < 2 ^ n, mcx cs s.start s.psi j = moved n (cAddIdx cs s.start 1 (s.toMod + s.carry.toNat)) s.psi j := by
      intro j hj
      rw [mcx_moved (by omega) hns hj]
      congr 1
      funext i
      exact (cAddIdx_odd hodd.1).symm
    have ih := loop_ok hK hhi hd hT hP
      { toMod := s.toMod >>> 1, start := s.start + 1, length := s.length - 1, i := s.i + 1, carry := inReg, psi := mcx cs s.start s.psi }
      (show lo ≤ s.start + 1 by omega) (show s.start + 1 + (s.length - 1) ≤ hi by omega)
      (show s.length - 1 + (s.i + 1) = orig by omega) hhalf (keeps hP h1 (by omega) hφ h5)
    refine ⟨ih.1, ih.2.1, ih.2.2.1, ih.2.2.2.1, ih.2.2.2.2.1, ih.2.2.2.2.2.trans ?_⟩
    refine step hhi hT h1 h2 (by omega) hφ fun i hi' h0 => ?_
    rw [field_one, hfix i hi' h0, pow_one, shr_one, ← hodd.2.1]
    have h0 := hodd.1
    cases inReg <;> simp <;> omega
  · have hm : (if s.carry = true then s.toMod + 1 else s.toMod) = s.toMod + s.carry.toNat := by cases s.carry <;> simp
    rw [hm]
    have hlt : s.toMod + s.carry.toNat < 2 ^ s.length := by
      cases hc : s.carry
      · simpa using h4
      · rw [hc] at hskip hodd
        have : s.toMod % 2 = 0 := by simp at hodd; omega
        simp; omega
    by_cases hl2 : s.length < 2
    · rw [if_pos hl2]
      exact ⟨h1, h2, hlt, fun _ => rfl, h5, by simp⟩
    rw [if_neg hl2]
    split
    · rename_i pl pm ta hs
      have hs' := scan_some (by rw [Nat.and_one_is_mod, pow_one]) (by omega) hs
      obtain ⟨a1, a2, rfl, a4, k, a5⟩ := hs'
      have hfix := hK.bit _ _ _ _ (by omega) a5
      have hφ : ∀ j < 2 ^ n, cinc n ((s.toMod + s.carry.toNat) % 2 ^ pl) s.start pl cs s.psi j =
          moved n (cAddIdx cs s.start pl (s.toMod + s.carry.toNat)) s.psi j := by
        intro j _
        unfold cinc
        congr 1
        funext i
        exact cAddIdx_mod
      have ih := loop_ok hK hhi hd hT hP
        { toMod := (s.toMod + s.carry.toNat) >>> pl, start := s.start + pl, length := s.length - pl, i := s.i + (pl - 1) + 1,
          carry := ta, psi := cinc n ((s.toMod + s.carry.toNat) % 2 ^ pl) s.start pl cs s.psi }
        (show lo ≤ s.start + pl by omega) (show s.start + pl + (s.length - pl) ≤ hi by omega)
        (show s.length - pl + (s.i + (pl - 1) + 1) = orig by omega)
        (show (s.toMod + s.carry.toNat) >>> pl < 2 ^ (s.length - pl) by
          rw [Nat.shiftRight_eq_div_pow, Nat.div_lt_iff_lt_mul (by positivity), ← pow_add]
          rwa [show s.length - pl + pl = s.length by omega])
        (keeps hP h1 (by omega) hφ h5)
      refine ⟨ih.1, ih.2.1, ih.2.2.1, ih.2.2.2.1, ih.2.2.2.2.1, ih.2.2.2.2.2.trans ?_⟩
      refine step hhi hT h1 h2 (by omega) hφ fun i hi' h0 => ?_
      rw [Nat.shiftRight_eq_div_pow, a4]
      exact known_carry (by omega) ((hfix i hi' h0).trans a4)
    · exact ⟨h1, h2, hlt, fun _ => rfl, h5, by simp⟩
  termination_by orig - s.i

end Verif.QU
