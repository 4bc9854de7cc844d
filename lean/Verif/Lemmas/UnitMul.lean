import Verif.Model.UnitMul
import Verif.Props.UnitArith

/-!
# Lemmas for C81
-/

namespace Verif.QU

open Verif.Spec Verif.Engine Finset

theorem seen_moved {n s l r : ℕ} {T : ℕ → ℕ} {ψ : ℕ → ℂ} (h : ∀ i < 2 ^ n, field s l (T i) = field s l i) :
    seen s l r (moved n T ψ) = moved n T (seen s l r ψ) := by
  funext j
  unfold seen moved
  by_cases hj : field s l j = r
  · rw [if_pos hj]
    refine sum_congr rfl fun i hi => ?_
    rw [mem_filter, mem_range] at hi
    dsimp only
    rw [if_pos]
    rw [← h i hi.1, hi.2, hj]
  · rw [if_neg hj]
    symm
    apply sum_eq_zero
    intro i hi
    rw [mem_filter, mem_range] at hi
    rw [if_neg]
    rw [← h i hi.1, hi.2]
    exact hj

theorem seen_ne_zero {s l r : ℕ} {ψ : ℕ → ℂ} {i : ℕ} (h : seen s l r ψ i ≠ 0) : field s l i = r ∧ ψ i ≠ 0 := by
  unfold seen at h
  split_ifs at h with h1
  · exact ⟨h1, h⟩
  · exact absurd rfl h

theorem prodIdx_lt {s c l p n i : ℕ} (hs : s + l ≤ n) (hc : c + l ≤ n) (hi : i < 2 ^ n) : prodIdx s c l p i < 2 ^ n :=
  setField_lt hc (setField_lt hs hi)

theorem prodIdx_clear {s c l p v i : ℕ} (hd : s + l ≤ c ∨ c + l ≤ s) : prodIdx s c l p (setField c l v i) = prodIdx s c l p i := by
  unfold prodIdx
  rw [setField_comm (s := s) (by omega), setField_setField]

theorem shr_mask (v l : ℕ) : (v >>> l) &&& (2 ^ l - 1) = v / 2 ^ l % 2 ^ l := by
  rw [mask_eq_mod, Nat.shiftRight_eq_div_pow]

/-- The two halves of a product, as the code computes them. -/
theorem halves {s c l v k i n : ℕ} (hn : n < 64) (hs : s + l ≤ n) :
    setField c l ((v * k % 2 ^ 128) >>> l &&& (2 ^ l - 1)) (setField s l (v * k % 2 ^ 128 &&& (2 ^ l - 1)) i) =
      prodIdx s c l (v * k) i := by
  unfold prodIdx
  rw [shr_mask, mask_eq_mod, setField_mod, setField_mod]
  rw [setField_congr (s := s) (v := v * k % 2 ^ 128) (w := v * k) (Nat.mod_mod_of_dvd _ (pow_dvd_pow 2 (by omega)))]
  apply setField_congr
  have h : ∀ m, m / 2 ^ l % 2 ^ l = m % 2 ^ (l + l) / 2 ^ l := by
    intro m; rw [pow_add, Nat.mod_mul_right_div_self]
  rw [h, h, Nat.mod_mod_of_dvd _ (pow_dvd_pow 2 (by omega))]

theorem prodIdx_inj_seen {s c l k i j : ℕ} (hd : s + l ≤ c ∨ c + l ≤ s) (hk : 0 < k) (hkl : k ≤ 2 ^ l)
    (h : field c l i = field c l j)
    (hij : prodIdx s c l (field s l i * k) i = prodIdx s c l (field s l j * k) j) : i = j := by
  have key : setField c l 0 i = setField c l 0 j := by
    refine prodIdx_inj (s := s) (c := c) (l := l) (k := k) hd hk hkl ?_ ?_ ?_
    · rw [field_setField, Nat.zero_mod]
    · rw [field_setField, Nat.zero_mod]
    · rw [prodIdx_clear hd, prodIdx_clear hd, field_setField_disjoint (by omega), field_setField_disjoint (by omega), hij]
  have h1 := congrArg (setField c l (field c l i)) key
  rw [setField_setField, setField_setField, setField_field, h, setField_field] at h1
  exact h1

/-- The value of two known registers together, as the code computes it. -/
theorem known_orig {n s l v w : ℕ} (hn : n < 64) (hs : s + l ≤ n) (v1 : v < 2 ^ l) (w1 : w < 2 ^ l) :
    v ||| (w <<< l) % 2 ^ 128 = v + 2 ^ l * w := by
  have hlt : w <<< l < 2 ^ 128 := by
    rw [Nat.shiftLeft_eq]
    calc w * 2 ^ l < 2 ^ l * 2 ^ l := Nat.mul_lt_mul_of_pos_right w1 (by positivity)
      _ = 2 ^ (l + l) := (pow_add 2 l l).symm
      _ ≤ 2 ^ 128 := Nat.pow_le_pow_right (by norm_num) (by omega)
  rw [Nat.mod_eq_of_lt hlt, Nat.shiftLeft_eq, Nat.or_comm, Nat.add_comm, Nat.mul_comm w]
  exact (Nat.two_pow_add_eq_or_of_lt v1 w).symm

/-! ## Tables -/

theorem shl_low {byte j : ℕ} (hb : byte < 256) (hj : j < 4) : ∃ b, shl byte j = some b ∧ b % 2 ^ 32 = byte <<< (8 * j) % 2 ^ 32 := by
  unfold shl
  rw [if_neg (by omega)]
  refine ⟨_, rfl, ?_⟩
  split_ifs with h
  · rw [Nat.mod_mod]
  · rw [Nat.add_mod, show (2 ^ 128 - 2 ^ 32) % 2 ^ 32 = 0 by norm_num, Nat.zero_add, Nat.mod_mod, Nat.mod_mod]

theorem eigenLoop_low {bytes : ℕ} {values : ℕ → ℕ} (hv : ∀ k, values k < 256) (k : ℕ) : ∀ (js : List ℕ) (value value' : ℕ),
    (∀ j ∈ js, j < 4) → value % 2 ^ 32 = value' % 2 ^ 32 →
    ∃ res, eigenLoop bytes values k js value = some res ∧
      res % 2 ^ 32 = js.foldl (fun acc j => acc ||| (values (k * bytes + j) <<< (8 * j))) value' % 2 ^ 32
  | [], value, value', _, h => ⟨value, rfl, h⟩
  | j :: js, value, value', hj, h => by
    obtain ⟨b, hb, hb'⟩ := shl_low (hv (k * bytes + j)) (hj j (List.mem_cons_self ..))
    simp only [eigenLoop, hb, Option.bind_some, List.foldl_cons]
    apply eigenLoop_low hv k js _ _ (fun x hx => hj x (List.mem_cons_of_mem _ hx))
    rw [Nat.or_mod_two_pow, Nat.or_mod_two_pow, h, hb']

theorem eigenLoop_none {bytes : ℕ} {values : ℕ → ℕ} (k : ℕ) : ∀ (js : List ℕ) (value : ℕ), (∃ j ∈ js, 4 ≤ j) →
    eigenLoop bytes values k js value = none
  | [], _, h => by simp at h
  | j :: js, value, h => by
    simp only [eigenLoop]
    cases hb : shl (values (k * bytes + j)) j with
    | none => rfl
    | some b =>
      rw [Option.bind_some]
      apply eigenLoop_none
      obtain ⟨x, hx, hx'⟩ := h
      rcases List.mem_cons.1 hx with rfl | hx
      · unfold shl at hb
        rw [if_pos (by omega)] at hb
        cases hb
      · exact ⟨x, hx, hx'⟩

theorem eigenstate_low {l : ℕ} {values : ℕ → ℕ} (hv : ∀ k, values k < 256) (hl : l ≤ 32) (k : ℕ) :
    ∃ value, indexedEigenstate l values k = some value ∧ value % 2 ^ l = entry ((l + 7) / 8) values k % 2 ^ l := by
  have hb : (l + 7) >>> 3 = (l + 7) / 8 := by rw [Nat.shiftRight_eq_div_pow]
  obtain ⟨res, h1, h2⟩ := eigenLoop_low (bytes := (l + 7) / 8) hv k (List.range ((l + 7) / 8)) 0 0
    (fun j hj => by have := List.mem_range.1 hj; omega) rfl
  refine ⟨res, by unfold indexedEigenstate; rw [hb]; exact h1, ?_⟩
  have h3 := (tableRead_entry (bytes := (l + 7) / 8) hv k).1
  unfold tableRead at h3
  rw [h3] at h2
  have hd : 2 ^ l ∣ 2 ^ 32 := pow_dvd_pow 2 hl
  rw [← Nat.mod_mod_of_dvd res hd, h2, Nat.mod_mod_of_dvd _ hd]

theorem eigenstate_none {l : ℕ} {values : ℕ → ℕ} (hl : 32 < l) (k : ℕ) : indexedEigenstate l values k = none := by
  unfold indexedEigenstate
  apply eigenLoop_none
  refine ⟨4, List.mem_range.2 ?_, le_refl _⟩
  rw [Nat.shiftRight_eq_div_pow]
  omega

theorem eigenLoop_lt {bytes : ℕ} {values : ℕ → ℕ} (k : ℕ) : ∀ (js : List ℕ) (value res : ℕ), value < 2 ^ 128 →
    eigenLoop bytes values k js value = some res → res < 2 ^ 128
  | [], value, res, hv, h => by
    simp only [eigenLoop, Option.some.injEq] at h
    exact h ▸ hv
  | j :: js, value, res, hv, h => by
    simp only [eigenLoop] at h
    cases hb : shl (values (k * bytes + j)) j with
    | none => rw [hb] at h; cases h
    | some b =>
      rw [hb, Option.bind_some] at h
      refine eigenLoop_lt k js _ res (Nat.or_lt_two_pow hv ?_) h
      unfold shl at hb
      split_ifs at hb
      simp only [Option.some.injEq] at hb
      have := Nat.mod_lt (values (k * bytes + j) <<< (8 * j)) (show 2 ^ 32 > 0 by norm_num)
      rw [← hb]
      split_ifs <;> omega

theorem eigenstate_lt {l k res : ℕ} {values : ℕ → ℕ} (h : indexedEigenstate l values k = some res) : res < 2 ^ 128 :=
  eigenLoop_lt k _ 0 res (by norm_num) h

/-! ## Caches that know all -/

theorem cached_allKnown {n : ℕ} {ψ : ℕ → ℂ} {s x : ℕ} (hx : x < 2 ^ n) (h0 : ψ x ≠ 0) : ∀ l,
    (∀ i < 2 ^ n, ψ i ≠ 0 → field s l i = field s l x) → cached (allKnown n) ψ s l = some (field s l x)
  | 0, _ => by rw [cached, field_zero_len]
  | l + 1, h => by
    have hb : ∀ i < 2 ^ n, ψ i ≠ 0 → i.testBit (s + l) = x.testBit (s + l) := by
      intro i hi hi0
      have := congrArg (fun m => m.testBit l) (h i hi hi0)
      simpa [testBit_field] using this
    have hlow : ∀ i < 2 ^ n, ψ i ≠ 0 → field s l i = field s l x := by
      intro i hi hi0
      apply Nat.eq_of_testBit_eq
      intro k
      have := congrArg (fun m => m.testBit k) (h i hi hi0)
      rw [testBit_field, testBit_field]
      by_cases hk : k < l
      · simp only [testBit_field, show k < l + 1 by omega, decide_true, Bool.true_and] at this
        rw [this]
      · simp [hk]
    have hbit : (allKnown n).bit l ψ (s + l) = some (x.testBit (s + l)) := by
      unfold allKnown
      dsimp only
      cases hxb : x.testBit (s + l) with
      | false =>
        rw [if_pos]
        intro i hi hi0
        rw [hb i hi hi0, hxb]
      | true =>
        rw [if_neg, if_pos]
        · intro i hi hi0
          rw [hb i hi hi0, hxb]
        · intro hf
          have := hf x hx h0
          rw [hxb] at this
          cases this
    simp only [cached, cached_allKnown hx h0 l hlow, hbit]
    congr 1
    have e := field_split (s := s) (p := l) (l := l + 1) (i := x) (by omega)
    rw [Nat.add_sub_cancel_left, field_one] at e
    rw [e]
    have hlt := field_lt s l x
    cases x.testBit (s + l) with
    | false => simp
    | true =>
      simp only [if_true, Bool.toNat_true, Nat.mul_one]
      rw [Nat.or_comm, Nat.add_comm]
      have := Nat.two_pow_add_eq_or_of_lt hlt 1
      rw [Nat.mul_one] at this
      exact this.symm

end Verif.QU
