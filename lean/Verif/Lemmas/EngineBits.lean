import Verif.Lemmas.EngineMeas

/-!
Helper lemmas: gathering and spreading bits, masks as lists of qubits.
-/

namespace Verif.Engine

open Verif.ParFor Verif.Bits Verif.Spec Classical

/-- Bit `k` of `x` at qubit `bits[k]`. -/
def place : List ℕ → ℕ → ℕ
  | [], _ => 0
  | b :: bs, x => (if x.testBit 0 then 2 ^ b else 0) ||| place bs (x / 2)

theorem and_pow_ne_bits (i b : ℕ) : (i &&& pow2 b ≠ 0) ↔ i.testBit b = true := by
  rw [pow2, Nat.and_two_pow]
  cases i.testBit b <;> simp

theorem gather_aux (i : ℕ) (bits : List ℕ) : ∀ (j r : ℕ), r < 2 ^ j →
    ((bits.map pow2).zipIdx j).foldl (fun r (p, k) => if i &&& p ≠ 0 then r ||| pow2 k else r) r =
      r + 2 ^ j * valueOf bits i := by
  induction bits with
  | nil => intro j r _; simp [valueOf]
  | cons b bs ih =>
    intro j r hr
    simp only [List.map_cons, List.zipIdx_cons, List.foldl_cons, and_pow_ne_bits]
    have hor : r ||| pow2 j = r + 2 ^ j := by
      have := Nat.two_pow_add_eq_or_of_lt hr 1
      rw [mul_one] at this
      rw [pow2, Nat.lor_comm, ← this, add_comm]
    by_cases hb : i.testBit b = true
    · rw [if_pos hb, hor]
      have := ih (j + 1) (r + 2 ^ j) (by rw [pow_succ]; omega)
      simp only [and_pow_ne_bits] at this
      rw [this, valueOf, if_pos hb, pow_succ]; ring
    · rw [if_neg hb]
      have := ih (j + 1) r (by rw [pow_succ]; omega)
      simp only [and_pow_ne_bits] at this
      rw [this, valueOf, if_neg hb, pow_succ]; ring

theorem gather_eq (bits : List ℕ) (i : ℕ) : gather (bits.map pow2) i = valueOf bits i := by
  unfold gather
  have := gather_aux i bits 0 0 (by norm_num)
  rw [zero_add, pow_zero, one_mul] at this
  exact this

theorem spread_aux (x : ℕ) (bits : List ℕ) : ∀ (j a : ℕ),
    ((bits.map pow2).zipIdx j).foldl (fun i (p, k) => if x &&& pow2 k ≠ 0 then i ||| p else i) a =
      a ||| place bits (x >>> j) := by
  induction bits with
  | nil => intro j a; simp [place]
  | cons b bs ih =>
    intro j a
    simp only [List.map_cons, List.zipIdx_cons, List.foldl_cons, and_pow_ne_bits]
    have hs : x >>> j / 2 = x >>> (j + 1) := by rw [Nat.shiftRight_succ]
    have ht : (x >>> j).testBit 0 = x.testBit j := by rw [Nat.testBit_shiftRight]; rfl
    have h2 := ih (j + 1)
    simp only [and_pow_ne_bits] at h2
    rw [place, ht, hs, h2]
    by_cases hb : x.testBit j = true
    · rw [if_pos hb, if_pos hb, Nat.lor_assoc]; rfl
    · rw [if_neg hb, if_neg hb, Nat.zero_or]

theorem spread_eq (bits : List ℕ) (x : ℕ) : spreadBits (bits.map pow2) x = place bits x := by
  unfold spreadBits
  rw [spread_aux x bits 0 0]
  simp

theorem valueOf_lt (bits : List ℕ) (i : ℕ) : valueOf bits i < 2 ^ bits.length := by
  induction bits with
  | nil => simp [valueOf]
  | cons b bs ih =>
    rw [valueOf, List.length_cons, pow_succ]
    split_ifs <;> omega

theorem valueOf_congr {bits : List ℕ} {i j : ℕ} (h : ∀ b ∈ bits, i.testBit b = j.testBit b) : valueOf bits i = valueOf bits j := by
  induction bits with
  | nil => rfl
  | cons b bs ih =>
    rw [valueOf, valueOf, h b (by simp), ih (fun c hc => h c (by simp [hc]))]

theorem valueOf_inj {bits : List ℕ} {i j : ℕ} (h : valueOf bits i = valueOf bits j) : ∀ b ∈ bits, i.testBit b = j.testBit b := by
  induction bits with
  | nil => simp
  | cons b bs ih =>
    rw [valueOf, valueOf] at h
    have h1 : i.testBit b = j.testBit b := by
      cases hi : i.testBit b <;> cases hj : j.testBit b <;> simp [hi, hj] at h ⊢ <;> omega
    intro c hc
    rcases List.mem_cons.1 hc with rfl | hc
    · exact h1
    · exact ih (by rw [h1] at h; omega) c hc

theorem testBit_place_valueOf (bits : List ℕ) (i q : ℕ) :
    (place bits (valueOf bits i)).testBit q = (decide (q ∈ bits) && i.testBit q) := by
  induction bits with
  | nil => simp [place]
  | cons b bs ih =>
    have h0 : (valueOf (b :: bs) i).testBit 0 = i.testBit b := by
      rw [valueOf, Nat.testBit_zero]
      cases i.testBit b <;> simp <;> omega
    have h2 : valueOf (b :: bs) i / 2 = valueOf bs i := by
      rw [valueOf]
      split_ifs <;> omega
    rw [place, h0, h2, Nat.testBit_or, ih, testBit_ite_pow]
    by_cases hb : b = q
    · subst hb; by_cases hm : b ∈ bs <;> simp [hm]
    · simp [hb, Ne.symm hb]

theorem testBit_place_not_mem {bits : List ℕ} {q : ℕ} (h : q ∉ bits) (x : ℕ) : (place bits x).testBit q = false := by
  induction bits generalizing x with
  | nil => simp [place]
  | cons b bs ih =>
    rw [List.mem_cons, not_or] at h
    rw [place, Nat.testBit_or, testBit_ite_pow, ih h.2]
    simp [Ne.symm h.1]

theorem valueOf_place {bits : List ℕ} (hnd : bits.Nodup) {x : ℕ} (hx : x < 2 ^ bits.length) : valueOf bits (place bits x) = x := by
  induction bits generalizing x with
  | nil => simp [valueOf] at hx ⊢; omega
  | cons b bs ih =>
    rw [List.nodup_cons] at hnd
    rw [List.length_cons, pow_succ] at hx
    have h1 : (place (b :: bs) x).testBit b = x.testBit 0 := by
      rw [place, Nat.testBit_or, testBit_ite_pow, testBit_place_not_mem hnd.1]; simp
    have h2 : valueOf bs (place (b :: bs) x) = valueOf bs (place bs (x / 2)) := by
      apply valueOf_congr
      intro c hc
      have : b ≠ c := by rintro rfl; exact hnd.1 hc
      rw [place, Nat.testBit_or, testBit_ite_pow]; simp [this]
    rw [valueOf, h1, h2, ih hnd.2 (by omega), Nat.testBit_zero]
    by_cases h : x % 2 = 1 <;> simp [h] <;> omega

/-- The mask made of the listed qubits. -/
def maskOf (bits : List ℕ) : ℕ := (bits.map pow2).foldl (· ||| ·) 0

theorem testBit_maskOf (bits : List ℕ) (q : ℕ) : (maskOf bits).testBit q = decide (q ∈ bits) := by
  unfold maskOf; rw [testBit_foldl_or]; simp

/-- The masked bits are those of the value `x`. -/
theorem masked_iff {bits : List ℕ} (hnd : bits.Nodup) {x : ℕ} (hx : x < 2 ^ bits.length) (i : ℕ) :
    i &&& maskOf bits = place bits x ↔ valueOf bits i = x := by
  constructor
  · intro h
    rw [← valueOf_place hnd hx, ← h]
    apply valueOf_congr
    intro b hb
    rw [Nat.testBit_and, testBit_maskOf]; simp [hb]
  · rintro rfl
    apply Nat.eq_of_testBit_eq
    intro q
    rw [testBit_place_valueOf, Nat.testBit_and, testBit_maskOf, Bool.and_comm]

/-! ### Masks as sorted lists of qubits -/

theorem maskQubits_sorted (mask : ℕ) : (maskQubits mask).Pairwise (· < ·) := by
  induction mask using Nat.strongRecOn with
  | _ mask ih =>
    by_cases h : mask = 0
    · subst h; rw [maskQubits_zero]; exact List.Pairwise.nil
    · obtain ⟨l, h1, h2, h3, h4⟩ := and_pred h
      have hlt : mask &&& (mask - 1) < mask := by
        have : mask &&& (mask - 1) ≤ mask - 1 := Nat.and_le_right
        omega
      rw [maskQubits]
      simp only [h, dite_false, h4, Nat.log2_two_pow]
      refine List.pairwise_cons.2 ⟨fun q hq => ?_, ih _ hlt⟩
      rw [(maskQubits_spec _).2, h3, Bool.and_eq_true] at hq
      by_contra hc
      have hne : q ≠ l := by simpa using hq.2
      rw [h2 q (by omega)] at hq
      cases hq.1

theorem maskPowers_eq (mask : ℕ) : maskPowers mask = (maskQubits mask).map (2 ^ ·) := by
  induction mask using Nat.strongRecOn with
  | _ mask ih =>
    by_cases h : mask = 0
    · subst h; rw [maskQubits_zero, maskPowers]; simp
    · obtain ⟨l, h1, h2, h3, h4⟩ := and_pred h
      have hlt : mask &&& (mask - 1) < mask := by
        have : mask &&& (mask - 1) ≤ mask - 1 := Nat.and_le_right
        omega
      rw [maskQubits, maskPowers]
      simp only [h, dite_false, h4, Nat.log2_two_pow, List.map_cons]
      rw [ih _ hlt]
      congr 1
      rw [Nat.xor_comm, h4]
      apply Nat.eq_of_testBit_eq
      intro k
      rw [Nat.testBit_and, Nat.testBit_two_pow]
      by_cases hk : l = k
      · subst hk; simp [h1]
      · simp [hk]

/-- The mask loop of a set of qubits lists them in order. -/
theorem maskQubits_maskOf {bits : List ℕ} (hnd : bits.Nodup) : maskQubits (maskOf bits) = bits.mergeSort (· ≤ ·) := by
  have h1 := maskQubits_spec (maskOf bits)
  refine List.Perm.eq_of_pairwise (le := (· < ·)) (fun a b _ _ h h' => by omega) (maskQubits_sorted _)
    (sorted_lt_of_nodup hnd) ?_
  refine List.Perm.trans ?_ (List.mergeSort_perm bits (· ≤ ·)).symm
  rw [List.perm_ext_iff_of_nodup h1.1 hnd]
  intro q
  rw [h1.2, testBit_maskOf]; simp

/-! ### Histograms -/

theorem fold_hist (key : ℕ → ℕ) (f : ℕ → ℝ) (l : List ℕ) (a : ℕ → ℝ) (x : ℕ) :
    l.foldl (fun (a : ℕ → ℝ) i => Function.update a (key i) (a (key i) + f i)) a x =
      a x + (l.map fun i => if key i = x then f i else 0).sum := by
  induction l generalizing a with
  | nil => simp
  | cons i l ih =>
    rw [List.foldl_cons, ih, List.map_cons, List.sum_cons, ← add_assoc]
    congr 1
    by_cases h : key i = x
    · subst h; rw [Function.update_self, if_pos rfl]
    · rw [Function.update_of_ne (Ne.symm h), if_neg h, add_zero]

theorem hist_eq {e : Eng} (he : totalProb e.n e.amp = 1) (key : ℕ → ℕ) (x : ℕ) :
    (List.range (2 ^ e.n)).foldl (fun (a : ℕ → ℝ) i => Function.update a (key i) (a (key i) + probAll e i)) (fun _ => 0) x =
      probIf e.n (fun i => key i = x) e.amp := by
  rw [fold_hist, zero_add, sum_listRange]
  unfold probIf
  apply Finset.sum_congr rfl
  intro i hi
  rw [probAll_eq he (Finset.mem_range.1 hi)]
  by_cases h : key i = x <;> simp [h]

/-- The probabilities of all values of a function add up to one. -/
theorem sum_probIf (n : ℕ) (s : ℕ → ℂ) (key : ℕ → ℕ) {N : ℕ} (hN : ∀ i < 2 ^ n, key i < N) :
    ∑ x ∈ Finset.range N, probIf n (fun i => key i = x) s = totalProb n s := by
  unfold probIf totalProb
  rw [Finset.sum_comm]
  apply Finset.sum_congr rfl
  intro i hi
  trans (∑ x ∈ Finset.range N, if key i = x then Complex.normSq (s i) else 0)
  · apply Finset.sum_congr rfl; intro x _
    by_cases h : key i = x <;> simp [h]
  · rw [Finset.sum_ite_eq, if_pos (Finset.mem_range.2 (hN i (Finset.mem_range.1 hi)))]

end Verif.Engine
