import Verif.Lemmas.BigInt3
import Mathlib.Tactic.IntervalCases

/-!
# C40: multi-word integer arithmetic

Specification: a `BigInteger` with `N` words of `wb` bits denotes `val (2^wb) N L : ℕ`
(`Verif.Limbs.val`), and every operation must agree with the operation on natural numbers modulo
`2^(wb*N)`. All statements hold for every word width and word count.
-/

namespace Verif.BigInt

open Verif.Limbs
open Function (update update_self update_of_ne)

/-- A two-word sample value `a + b*2^wb`. -/
def two (a b : ℕ) : Limbs := fun i => if i = 0 then a else if i = 1 then b else 0

theorem two_wf {B a b N : ℕ} (ha : a < B) (hb : b < B) : WF B N (two a b) := by
  intro i _; unfold two; split_ifs <;> omega

/-! ### Comparison -/

/-- `bi_compare` orders values as numbers. -/
theorem compare_correct {wb N : ℕ} {L R : Limbs} (hL : WF (2 ^ wb) N L) (hR : WF (2 ^ wb) N R) :
    (biCompare N L R = 1 ↔ val (2 ^ wb) N R < val (2 ^ wb) N L) ∧
    (biCompare N L R = -1 ↔ val (2 ^ wb) N L < val (2 ^ wb) N R) ∧
    (biCompare N L R = 0 ↔ val (2 ^ wb) N L = val (2 ^ wb) N R) := by
  unfold biCompare
  rw [compareAux_spec hL hR]
  split_ifs <;> refine ⟨⟨?_, ?_⟩, ⟨?_, ?_⟩, ⟨?_, ?_⟩⟩ <;> intro h <;> first | omega | rfl | (exfalso; omega) | (exact absurd h (by norm_num))

/-- A high word decides against a larger low word. -/
example : biCompare 2 (two 15 1) (two 0 2) = -1 := by decide

/-- `bi_compare_0` is zero exactly on the value zero. -/
theorem compare0_correct {wb N : ℕ} (L : Limbs) :
    (biCompare0 N L = 0 ↔ val (2 ^ wb) N L = 0) ∧ (biCompare0 N L = 1 ↔ 0 < val (2 ^ wb) N L) := by
  rw [biCompare0_spec (B := 2 ^ wb) (by positivity)]
  split_ifs with h
  · simp [h]
  · simp [h, Nat.pos_iff_ne_zero]

example : biCompare0 2 (two 0 1) = 1 := by decide

/-- `bi_compare_1` compares with the number one. -/
theorem compare1_correct {wb N : ℕ} (hw : 0 < wb) (hN : 0 < N) {L : Limbs} (hL : WF (2 ^ wb) N L) :
    (biCompare1 N L = 1 ↔ 1 < val (2 ^ wb) N L) ∧ (biCompare1 N L = -1 ↔ val (2 ^ wb) N L < 1) ∧
      (biCompare1 N L = 0 ↔ val (2 ^ wb) N L = 1) := by
  obtain ⟨n, rfl⟩ : ∃ n, N = n + 1 := ⟨N - 1, by omega⟩
  have h2 : 2 ≤ 2 ^ wb := by
    calc 2 = 2 ^ 1 := rfl
      _ ≤ 2 ^ wb := Nat.pow_le_pow_right (by norm_num) hw
  have hv := val_succ' (2 ^ wb) n L
  have key : (List.range' 1 n).any (fun i => L i != 0) = true ↔
      val (2 ^ wb) n (fun i => L (i + 1)) ≠ 0 := by
    rw [Ne, val_eq_zero_iff (by positivity), List.any_eq_true]
    constructor
    · rintro ⟨x, hx, hx0⟩ h
      have hm := List.mem_range'_1.1 hx
      have := h (x - 1) (by omega)
      rw [show x - 1 + 1 = x by omega] at this
      simp [this] at hx0
    · intro h
      push_neg at h
      obtain ⟨i, hi, h0⟩ := h
      exact ⟨i + 1, List.mem_range'_1.2 (by omega), by simpa using h0⟩
  unfold biCompare1
  simp only [Nat.add_sub_cancel]
  by_cases h : (List.range' 1 n).any (fun i => L i != 0) = true
  · have h' := key.1 h
    have : 2 ≤ val (2 ^ wb) (n + 1) L := by
      rw [hv]
      have := Nat.mul_le_mul h2 (Nat.one_le_iff_ne_zero.2 h')
      omega
    rw [if_pos h]
    refine ⟨⟨fun _ => by omega, fun _ => rfl⟩, ⟨fun h => absurd h (by norm_num), fun _ => by omega⟩,
      ⟨fun h => absurd h (by norm_num), fun _ => by omega⟩⟩
  · have h' : val (2 ^ wb) n (fun i => L (i + 1)) = 0 := by
      by_contra hc; exact h (key.2 hc)
    rw [if_neg h, hv, h', Nat.mul_zero, Nat.add_zero]
    split_ifs <;> refine ⟨⟨?_, ?_⟩, ⟨?_, ?_⟩, ⟨?_, ?_⟩⟩ <;> intro h <;>
      first | omega | rfl | (exfalso; omega) | (exact absurd h (by norm_num))

example : biCompare1 2 (two 1 1) = 1 := by decide

/-! ### Addition, subtraction, increment -/

/-- `bi_add_ip` adds modulo `2^(wb*N)`. -/
theorem addIp_correct {wb N : ℕ} (hw : 0 < wb) (hN : 0 < N) {L R : Limbs} (hL : WF (2 ^ wb) N L)
    (hR : WF (2 ^ wb) N R) :
    WF (2 ^ wb) N (biAddIp (2 ^ wb) N L R) ∧
      val (2 ^ wb) N (biAddIp (2 ^ wb) N L R) =
        (val (2 ^ wb) N L + val (2 ^ wb) N R) % 2 ^ (wb * N) := by
  obtain ⟨h1, h2⟩ := biAddIp_zmod (Nat.one_lt_two_pow (by omega)) hN hL hR
  refine ⟨h1, ?_⟩
  rw [pow_mul]
  exact eq_of_zmod (val_lt h1) (by rw [h2, Nat.cast_add])

/-- A carry that ripples through an all-ones word: `(15 + 15·16) + 1` with three 4-bit words. -/
example : (biAddIp 16 3 (two 15 15) (two 1 0)) 2 = 1 := by
  simp [biAddIp, addWordAt, addRipple, two, List.range_succ, update]

/-- `bi_sub_ip` subtracts modulo `2^(wb*N)`. -/
theorem subIp_correct {wb N : ℕ} (hw : 0 < wb) (hN : 0 < N) {L R : Limbs} (hL : WF (2 ^ wb) N L)
    (hR : WF (2 ^ wb) N R) :
    WF (2 ^ wb) N (biSubIp (2 ^ wb) N L R) ∧
      val (2 ^ wb) N (biSubIp (2 ^ wb) N L R) =
        (val (2 ^ wb) N L + (2 ^ (wb * N) - val (2 ^ wb) N R)) % 2 ^ (wb * N) := by
  obtain ⟨h1, h2⟩ := biSubIp_zmod (Nat.one_lt_two_pow (by omega)) hN hL hR
  refine ⟨h1, ?_⟩
  rw [pow_mul]
  exact sub_nat (val_lt h1) (val_lt hR) h2

/-- A borrow that ripples through a zero word. -/
example : (biSubIp 16 3 (fun i => if i = 2 then 1 else 0) (two 1 0)) 1 = 15 := by
  simp [biSubIp, subWordAt, subRipple, two, List.range_succ, update]

/-- `bi_increment` adds a word modulo `2^(wb*N)`. -/
theorem increment_correct {wb N : ℕ} (hw : 0 < wb) (hN : 0 < N) {L : Limbs} (hL : WF (2 ^ wb) N L)
    {v : ℕ} (hv : v < 2 ^ wb) :
    WF (2 ^ wb) N (biIncrement (2 ^ wb) N L v) ∧
      val (2 ^ wb) N (biIncrement (2 ^ wb) N L v) = (val (2 ^ wb) N L + v) % 2 ^ (wb * N) := by
  obtain ⟨h1, h2⟩ := biIncrement_zmod (Nat.one_lt_two_pow (by omega)) hN hL hv
  refine ⟨h1, ?_⟩
  rw [pow_mul]
  exact eq_of_zmod (val_lt h1) (by rw [h2, Nat.cast_add])

example : biIncrement 16 2 (two 15 3) 2 0 = 1 ∧ biIncrement 16 2 (two 15 3) 2 1 = 4 := by
  simp [biIncrement, incLoop, two, update]

/-- Addition followed by subtraction of the same value restores the value. -/
theorem sub_add_cancel {wb N : ℕ} (hw : 0 < wb) (hN : 0 < N) {L R : Limbs} (hL : WF (2 ^ wb) N L)
    (hR : WF (2 ^ wb) N R) :
    ∀ i < N, biSubIp (2 ^ wb) N (biAddIp (2 ^ wb) N L R) R i = L i := by
  have hB := Nat.one_lt_two_pow (n := wb) (by omega)
  obtain ⟨h1, h2⟩ := biAddIp_zmod hB hN hL hR
  obtain ⟨h3, h4⟩ := biSubIp_zmod hB hN h1 hR
  refine val_inj h3 hL ?_
  have := eq_of_zmod (b := val (2 ^ wb) N L) (val_lt h3) (by rw [h4, h2]; ring)
  rw [this, Nat.mod_eq_of_lt (val_lt hL)]

example : WF 16 2 (two 15 15) ∧ WF 16 2 (two 15 1) := ⟨two_wf (by omega) (by omega), two_wf (by omega) (by omega)⟩

/-- **Disagreement.** The out-of-place `operator+` drops the top word of its left operand: in every
configuration there are operands whose exact sum fits, and for which the result is wrong. -/
theorem opAdd_wrong {wb N : ℕ} (hw : 0 < wb) (hN : 0 < N) :
    ∃ L R, WF (2 ^ wb) N L ∧ WF (2 ^ wb) N R ∧
      val (2 ^ wb) N L + val (2 ^ wb) N R < 2 ^ (wb * N) ∧
      val (2 ^ wb) N (opAdd (2 ^ wb) N L R) ≠ val (2 ^ wb) N L + val (2 ^ wb) N R := by
  obtain ⟨n, rfl⟩ : ∃ n, N = n + 1 := ⟨N - 1, by omega⟩
  have h2 : 1 < 2 ^ wb := Nat.one_lt_two_pow (by omega)
  have hwf : WF (2 ^ wb) (n + 1) (fun i => if i = n then 1 else 0) := by
    intro i _; dsimp only; split_ifs <;> omega
  have hz : val (2 ^ wb) n (fun i => if i = n then 1 else 0) = 0 := by
    rw [val_eq_zero_iff (by positivity)]; intro i hi; simp [show i ≠ n by omega]
  have hv : val (2 ^ wb) (n + 1) (fun i => if i = n then 1 else 0) = (2 ^ wb) ^ n := by
    rw [val_succ, hz]; simp
  refine ⟨fun i => if i = n then 1 else 0, fun _ => 0, hwf, fun i _ => by positivity, ?_, ?_⟩
  · rw [val_zero_fn, add_zero, pow_mul]; exact val_lt hwf
  · rw [val_zero_fn, add_zero, hv]
    have hpos : 0 < (2 ^ wb) ^ n := by positivity
    have hS : ∀ k ≤ n, ∀ i, opAddLoop (2 ^ wb) (fun i => if i = n then 1 else 0) (fun _ => 0) k i = 0 := by
      intro k
      induction k with
      | zero => intro _ i; rfl
      | succ k ih =>
        intro hk i
        have ih' := ih (by omega)
        simp only [opAddLoop, ih', show k ≠ n by omega, if_false, update_self]
        by_cases h1 : i = k + 1
        · subst h1; simp
        · rw [update_of_ne h1]
          by_cases h2 : i = k
          · subst h2; simp
          · rw [update_of_ne h2, ih']
    have : val (2 ^ wb) (n + 1) (opAdd (2 ^ wb) (n + 1)
        (fun i => if i = n then 1 else 0) (fun _ => 0)) = 0 := by
      rw [val_eq_zero_iff (by positivity)]
      intro i _
      unfold opAdd
      simp only [Nat.add_sub_cancel, hS n le_rfl]
      by_cases h : i = n
      · subst h; simp
      · rw [update_of_ne h, hS n le_rfl]
    rw [this]; omega

/-- What `operator+` does get right: when the top word of the left operand is zero and no word of
the right operand is all ones, the sum is exact modulo `2^(wb*N)`. (Missing for the full claim: the
other operands, where `opAdd_wrong` shows it fails.) -/
theorem opAdd_partial {wb N : ℕ} (hw : 0 < wb) (hN : 0 < N) {L R : Limbs} (hL : WF (2 ^ wb) N L)
    (htop : L (N - 1) = 0) (hR : ∀ i < N, R i + 1 < 2 ^ wb) :
    val (2 ^ wb) N (opAdd (2 ^ wb) N L R) =
      (val (2 ^ wb) N L + val (2 ^ wb) N R) % 2 ^ (wb * N) := by
  obtain ⟨n, rfl⟩ : ∃ n, N = n + 1 := ⟨N - 1, by omega⟩
  simp only [Nat.add_sub_cancel] at htop
  have h2 : 1 < 2 ^ wb := Nat.one_lt_two_pow (by omega)
  obtain ⟨a, b, c⟩ := opAddLoop_spec h2 n (fun i hi => hL i (by omega)) (fun i hi => hR i (by omega))
  unfold opAdd
  simp only [Nat.add_sub_cancel]
  generalize opAddLoop (2 ^ wb) L R n = S at *
  have hR' := hR n (by omega)
  rw [Nat.mod_eq_of_lt (show S n + R n < 2 ^ wb by omega)]
  have hwf : WF (2 ^ wb) (n + 1) (update S n (S n + R n)) := by
    intro i hi
    by_cases h : i = n
    · subst h; rw [update_self]; omega
    · rw [update_of_ne h]; exact a i (by omega)
  have e : val (2 ^ wb) (n + 1) (update S n (S n + R n)) =
      val (2 ^ wb) (n + 1) L + val (2 ^ wb) (n + 1) R := by
    rw [val_succ, val_succ, val_succ, update_self, htop, val_congr (L' := S) fun i hi =>
      update_of_ne (by omega) _ _]
    nlinarith
  rw [← e, Nat.mod_eq_of_lt]
  rw [pow_mul]; exact val_lt hwf

example : WF (2 ^ 4) 2 (two 9 0) ∧ (two 9 0) (2 - 1) = 0 ∧ ∀ i < 2, two 8 3 i + 1 < 2 ^ 4 := by
  refine ⟨two_wf (by norm_num) (by norm_num), by decide, by decide⟩

/-- **Disagreement.** The out-of-place `operator-` drops the top word of its left operand. -/
theorem opSub_wrong {wb N : ℕ} (hw : 0 < wb) (hN : 0 < N) :
    ∃ L R, WF (2 ^ wb) N L ∧ WF (2 ^ wb) N R ∧ val (2 ^ wb) N R ≤ val (2 ^ wb) N L ∧
      val (2 ^ wb) N (opSub (2 ^ wb) N L R) ≠ val (2 ^ wb) N L - val (2 ^ wb) N R := by
  obtain ⟨n, rfl⟩ : ∃ n, N = n + 1 := ⟨N - 1, by omega⟩
  have h2 : 1 < 2 ^ wb := Nat.one_lt_two_pow (by omega)
  have hwf : WF (2 ^ wb) (n + 1) (fun i => if i = n then 1 else 0) := by
    intro i _; dsimp only; split_ifs <;> omega
  have hz : val (2 ^ wb) n (fun i => if i = n then 1 else 0) = 0 := by
    rw [val_eq_zero_iff (by positivity)]; intro i hi; simp [show i ≠ n by omega]
  have hv : val (2 ^ wb) (n + 1) (fun i => if i = n then 1 else 0) = (2 ^ wb) ^ n := by
    rw [val_succ, hz]; simp
  refine ⟨fun i => if i = n then 1 else 0, fun _ => 0, hwf, fun i _ => by positivity, ?_, ?_⟩
  · rw [val_zero_fn]; omega
  · rw [val_zero_fn, Nat.sub_zero, hv]
    have hpos : 0 < (2 ^ wb) ^ n := by positivity
    have hS : ∀ k ≤ n, ∀ i, opSubLoop (2 ^ wb) (fun i => if i = n then 1 else 0) (fun _ => 0) k i = 0 := by
      intro k
      induction k with
      | zero => intro _ i; rfl
      | succ k ih =>
        intro hk i
        have ih' := ih (by omega)
        simp only [opSubLoop, ih', show k ≠ n by omega, if_false, update_self]
        by_cases h1 : i = k + 1
        · subst h1; simp
        · rw [update_of_ne h1]
          by_cases h2 : i = k
          · subst h2; simp
          · rw [update_of_ne h2, ih']
    have : val (2 ^ wb) (n + 1) (opSub (2 ^ wb) (n + 1)
        (fun i => if i = n then 1 else 0) (fun _ => 0)) = 0 := by
      rw [val_eq_zero_iff (by positivity)]
      intro i _
      unfold opSub
      simp only [Nat.add_sub_cancel, hS n le_rfl]
      by_cases h : i = n
      · subst h; simp
      · rw [update_of_ne h, hS n le_rfl]
    rw [this]; omega

/-- What `operator-` does get right: left top word zero and no all-ones word on the right. -/
theorem opSub_partial {wb N : ℕ} (hw : 0 < wb) (hN : 0 < N) {L R : Limbs} (hL : WF (2 ^ wb) N L)
    (htop : L (N - 1) = 0) (hR : ∀ i < N, R i + 1 < 2 ^ wb) :
    val (2 ^ wb) N (opSub (2 ^ wb) N L R) =
      (val (2 ^ wb) N L + (2 ^ (wb * N) - val (2 ^ wb) N R)) % 2 ^ (wb * N) := by
  obtain ⟨n, rfl⟩ : ∃ n, N = n + 1 := ⟨N - 1, by omega⟩
  simp only [Nat.add_sub_cancel] at htop
  have h2 : 1 < 2 ^ wb := Nat.one_lt_two_pow (by omega)
  obtain ⟨a, b, hb, c, d⟩ := opSubLoop_spec h2 n (fun i hi => hL i (by omega))
    (fun i hi => hR i (by omega))
  have hR' := hR n (by omega)
  have hRw : WF (2 ^ wb) (n + 1) R := fun i hi => by have := hR i hi; omega
  unfold opSub
  simp only [Nat.add_sub_cancel]
  generalize opSubLoop (2 ^ wb) L R n = S at *
  have hw0 : (S n + 2 ^ wb - R n) % 2 ^ wb = (L n + 2 ^ wb - (R n + b)) % 2 ^ wb := by
    rw [c, htop]
    rcases (by omega : b = 0 ∨ b = 1) with rfl | rfl
    · simp
    · rw [if_pos rfl, show 2 ^ wb - 1 + 2 ^ wb - R n = 0 + 2 ^ wb - (R n + 1) + 2 ^ wb by omega,
        Nat.add_mod_right]
  have ha := sub_word (B := 2 ^ wb) (hL n (by omega)) (show R n + b < 2 ^ wb by omega)
  rw [← hw0] at ha
  have hwf : WF (2 ^ wb) (n + 1) (update S n ((S n + 2 ^ wb - R n) % 2 ^ wb)) := by
    intro i hi
    by_cases h : i = n
    · subst h; rw [update_self]; exact Nat.mod_lt _ (by positivity)
    · rw [update_of_ne h]; exact a i (by omega)
  have e : ∃ k : ℕ, val (2 ^ wb) (n + 1) (update S n ((S n + 2 ^ wb - R n) % 2 ^ wb)) +
      val (2 ^ wb) (n + 1) R = val (2 ^ wb) (n + 1) L + k * (2 ^ wb) ^ (n + 1) := by
    refine ⟨if L n < (S n + 2 ^ wb - R n) % 2 ^ wb then 1 else 0, ?_⟩
    rw [val_succ, val_succ, val_succ, update_self, val_congr (L' := S) fun i hi =>
      update_of_ne (by omega) _ _, pow_succ]
    have e2 := congrArg (· * (2 ^ wb) ^ n) ha
    split_ifs at e2 ⊢ <;> nlinarith
  obtain ⟨k, e⟩ := e
  rw [pow_mul]
  refine sub_nat (val_lt hwf) (val_lt hRw) ?_
  have e' := congrArg (Nat.cast : ℕ → ZMod ((2 ^ wb) ^ (n + 1))) e
  push_cast at e'
  have hz : ((2 : ZMod ((2 ^ wb) ^ (n + 1))) ^ wb) ^ (n + 1) = 0 := by
    have := pow_card_zero (2 ^ wb) (n + 1)
    push_cast at this; exact this
  rw [hz] at e'
  linear_combination e'

example : WF (2 ^ 4) 2 (two 3 0) ∧ (two 3 0) (2 - 1) = 0 ∧ ∀ i < 2, two 8 3 i + 1 < 2 ^ 4 := by
  refine ⟨two_wf (by norm_num) (by norm_num), by decide, by decide⟩

/-- **Disagreement.** `bi_decrement` is wrong whenever it has to borrow: `2^wb - 1` comes out as
`2*2^wb - 2`, for every word width and at least two words. -/
theorem decrement_wrong {wb N : ℕ} (hw : 0 < wb) (hN : 2 ≤ N) :
    WF (2 ^ wb) N (two 0 1) ∧ 1 ≤ val (2 ^ wb) N (two 0 1) ∧
      val (2 ^ wb) N (biDecrement (2 ^ wb) N (two 0 1) 1) ≠ val (2 ^ wb) N (two 0 1) - 1 := by
  have h2 : 1 < 2 ^ wb := Nat.one_lt_two_pow (by omega)
  have hwf : WF (2 ^ wb) N (two 0 1) := two_wf (by omega) h2
  have hd : (two 0 1) 1 = 1 := rfl
  have hv : val (2 ^ wb) N (two 0 1) = 2 ^ wb := by
    obtain ⟨n, rfl⟩ : ∃ n, N = n + 1 + 1 := ⟨N - 2, by omega⟩
    rw [val_succ', val_succ']
    have : val (2 ^ wb) n (fun i => two 0 1 (i + 1 + 1)) = 0 := by
      rw [val_eq_zero_iff (by positivity)]; intro i _; simp [two]
    rw [this]; simp [two]
  refine ⟨hwf, by omega, ?_⟩
  have hm1 : (0 + 2 ^ wb - 1) % 2 ^ wb = 2 ^ wb - 1 := by
    rw [zero_add, Nat.mod_eq_of_lt (by omega)]
  have hm2 : (2 ^ wb - 1 + 2 ^ wb - 1) % 2 ^ wb = 2 ^ wb - 2 := by
    rw [show 2 ^ wb - 1 + 2 ^ wb - 1 = 2 ^ wb - 2 + 2 ^ wb by omega, Nat.add_mod_right,
      Nat.mod_eq_of_lt (by omega)]
  have he : biDecrement (2 ^ wb) N (two 0 1) 1 = update (two 0 1) 0 (2 ^ wb - 2) := by
    unfold biDecrement
    have h0 : (two 0 1) 0 = 0 := rfl
    simp only [h0, hm1, update_self]
    rw [if_neg (by omega), decLoop, if_pos (by omega)]
    simp only [update_self, hm2]
    rw [if_pos (by omega)]
    simp
  have hu := val_update (B := 2 ^ wb) (N := N) (i := 0) (two 0 1) (2 ^ wb - 2) (by omega)
  rw [he]
  have h0 : (two 0 1) 0 = 0 := rfl
  rw [h0, hv] at hu
  rw [hv]
  simp at hu
  omega

/-- What `bi_decrement` does get right: no borrow out of the lowest word. -/
theorem decrement_partial {wb N : ℕ} (hN : 0 < N) {L : Limbs} (hL : WF (2 ^ wb) N L)
    {v : ℕ} (hv : v ≤ L 0) :
    val (2 ^ wb) N (biDecrement (2 ^ wb) N L v) = val (2 ^ wb) N L - v := by
  have h0 := hL 0 hN
  have hm : (L 0 + 2 ^ wb - v) % 2 ^ wb = L 0 - v := by
    rw [show L 0 + 2 ^ wb - v = (L 0 - v) + 2 ^ wb by omega, Nat.add_mod_right,
      Nat.mod_eq_of_lt (by omega)]
  unfold biDecrement
  simp only [hm, update_self]
  rw [if_pos (by omega)]
  have hu := val_update (B := 2 ^ wb) (N := N) (i := 0) L (L 0 - v) hN
  simp only [pow_zero, mul_one] at hu
  omega

example : (3 : ℕ) ≤ two 9 2 0 ∧ WF (2 ^ 4) 2 (two 9 2) :=
  ⟨by decide, two_wf (by norm_num) (by norm_num)⟩

/-! ### Shifts and logarithm -/

/-- `operator<<` multiplies by a power of two modulo `2^(wb*N)`, for every shift amount. -/
theorem shl_correct {wb N : ℕ} (hw : 0 < wb) {L : Limbs} (h : WF (2 ^ wb) N L) (r : ℕ) :
    val (2 ^ wb) N (opShl wb N L r) = (val (2 ^ wb) N L * 2 ^ r) % 2 ^ (wb * N) := by
  rw [opShl_val hw h, Nat.shiftLeft_eq]

/-- A shift crossing a word boundary. -/
example : opShl 4 2 (two 9 1) 1 0 = 2 ∧ opShl 4 2 (two 9 1) 1 1 = 3 := by
  decide

/-- `operator>>` divides by a power of two, rounding down, for every shift amount. -/
theorem shr_correct {wb N : ℕ} (hw : 0 < wb) {L : Limbs} (h : WF (2 ^ wb) N L) (r : ℕ) :
    val (2 ^ wb) N (opShr wb N L r) = val (2 ^ wb) N L / 2 ^ r := by
  rw [opShr_val hw h, Nat.shiftRight_eq_div_pow]

example : opShr 4 2 (two 9 1) 1 0 = 12 ∧ opShr 4 2 (two 9 1) 1 1 = 0 := by
  decide

/-- `bi_rshift_ip` divides by a power of two as long as the shift does not exceed the whole width by
a word or more. -/
theorem rshiftIp_correct {wb N r : ℕ} (hw : 0 < wb) {L : Limbs} (h : WF (2 ^ wb) N L)
    (hr : r / wb ≤ N) :
    ∃ S, biRshiftIp wb N L r = some S ∧ val (2 ^ wb) N S = val (2 ^ wb) N L / 2 ^ r := by
  obtain ⟨S, h1, h2⟩ := biRshiftIp_eq L hr
  exact ⟨S, h1, by rw [val_congr h2, shr_correct hw h]⟩

example : (5 : ℕ) / 4 ≤ 2 ∧ WF (2 ^ 4) 2 (two 9 2) := ⟨by decide, two_wf (by norm_num) (by norm_num)⟩

/-- **Disagreement.** Beyond that, `bi_rshift_ip` writes outside the array. -/
theorem rshiftIp_out_of_bounds {wb N r : ℕ} (L : Limbs) (hr : N < r / wb) :
    biRshiftIp wb N L r = none := by
  unfold biRshiftIp biRshiftWordIp
  rw [if_neg (by omega), if_pos hr]
  rfl

example : 2 < 12 / 4 := by decide

/-- What `bi_lshift_ip` gets right: shifts by less than a word, or by at least half of the words
(and fewer than 64, because the word count is masked with 63). -/
theorem lshiftIp_partial {wb N r : ℕ} (hw : 0 < wb) {L : Limbs} (h : WF (2 ^ wb) N L)
    (hr : r / wb = 0 ∨ (r / wb ≤ N ∧ r / wb < 64 ∧ N ≤ 2 * (r / wb))) :
    ∃ S, biLshiftIp wb N L r = some S ∧
      val (2 ^ wb) N S = (val (2 ^ wb) N L * 2 ^ r) % 2 ^ (wb * N) := by
  obtain ⟨S, h1, h2⟩ := biLshiftIp_eq L hr
  exact ⟨S, h1, by rw [val_congr h2, shl_correct hw h]⟩

example : (5 : ℕ) / 4 ≤ 2 ∧ 5 / 4 < 64 ∧ 2 ≤ 2 * (5 / 4) := by decide

/-- **Disagreement.** With three or more words, `bi_lshift_ip` by one word copies words over words it
still has to read: shifting the value 1 left by one word does not give `2^wb`. -/
theorem lshiftIp_wrong {wb N : ℕ} (hw : 0 < wb) (hN : 3 ≤ N) :
    ∃ S, biLshiftIp wb N (two 1 0) wb = some S ∧
      val (2 ^ wb) N S ≠ (val (2 ^ wb) N (two 1 0) * 2 ^ wb) % 2 ^ (wb * N) := by
  have hq : wb / wb = 1 := Nat.div_self hw
  have hm : wb % wb = 0 := Nat.mod_self wb
  have h2 : 1 < 2 ^ wb := Nat.one_lt_two_pow (by omega)
  -- the copy loop smears word 0 upwards
  have hc : ∀ n i, 1 ≤ i → i ≤ n → ((List.range' 1 n).foldl (lshiftCopy 1) (two 1 0)) i = 1 := by
    intro n
    induction n with
    | zero => intro i a b; omega
    | succ n ih =>
      intro i a b
      rw [List.range'_1_concat, List.foldl_append, List.foldl_cons, List.foldl_nil, lshiftCopy]
      by_cases hi : i = 1 + n
      · subst hi
        rw [update_self]
        by_cases h0 : n = 0
        · subst h0; rfl
        · exact ih _ (by omega) (by omega)
      · rw [update_of_ne hi]; exact ih i a (by omega)
  set T : Limbs := fun i => if i < 1 then 0 else
    ((List.range' 1 (N - 1)).foldl (lshiftCopy 1) (two 1 0)) i with hT
  have hwf : WF (2 ^ wb) N T := by
    intro i hi
    simp only [hT]
    split_ifs with h
    · omega
    · rw [hc _ _ (by omega) (by omega)]; exact h2
  refine ⟨T, ?_, ?_⟩
  · unfold biLshiftIp biLshiftWordIp
    simp only [hq, hm]
    rw [show 1 % 64 = 1 from rfl, if_neg (by omega), if_neg (by omega)]
    rfl
  · rw [← shl_correct hw (two_wf h2 (by omega))]
    intro he
    have := val_inj hwf (opShl_wf (two_wf h2 (by omega)) wb) he 2 (by omega)
    simp only [hT] at this
    rw [if_neg (by omega), hc _ _ (by omega) (by omega)] at this
    unfold opShl at this
    simp only [hq, hm, if_true] at this
    rw [biLshiftWord_apply _ (by omega)] at this
    simp [two] at this

/-- `bi_log2` terminates and returns the floor of the base-2 logarithm (0 for the value 0). -/
theorem log2_correct {wb N : ℕ} (hw : 1 < wb) {L : Limbs} (h : WF (2 ^ wb) N L) :
    ∃ k, biLog2 wb N L = some k ∧
      (val (2 ^ wb) N L ≠ 0 → 2 ^ k ≤ val (2 ^ wb) N L ∧ val (2 ^ wb) N L < 2 ^ (k + 1)) ∧
      (val (2 ^ wb) N L = 0 → k = 0) := by
  refine ⟨_, biLog2_spec hw h, fun h0 => ⟨Nat.log2_self_le h0, Nat.lt_log2_self⟩, fun h0 => ?_⟩
  rw [h0]; simp [Nat.log2]

example : WF (2 ^ 4) 2 (two 9 2) := two_wf (by norm_num) (by norm_num)

/-! ### Bitwise operations -/

theorem and_correct {wb N : ℕ} (hw : 0 < wb) {L R : Limbs} (hL : WF (2 ^ wb) N L)
    (hR : WF (2 ^ wb) N R) :
    val (2 ^ wb) N (biAnd L R) = val (2 ^ wb) N L &&& val (2 ^ wb) N R := by
  apply Nat.eq_of_testBit_eq
  intro k
  have hwf : WF (2 ^ wb) N (biAnd L R) := fun i hi =>
    lt_of_le_of_lt Nat.and_le_left (hL i hi)
  rw [Nat.testBit_and, val_testBit hw hwf, val_testBit hw hL, val_testBit hw hR]
  simp only [biAnd, Nat.testBit_and]
  cases decide (k / wb < N) <;> simp

theorem or_correct {wb N : ℕ} (hw : 0 < wb) {L R : Limbs} (hL : WF (2 ^ wb) N L)
    (hR : WF (2 ^ wb) N R) :
    val (2 ^ wb) N (biOr L R) = val (2 ^ wb) N L ||| val (2 ^ wb) N R := by
  apply Nat.eq_of_testBit_eq
  intro k
  have hwf : WF (2 ^ wb) N (biOr L R) := fun i hi => Nat.or_lt_two_pow (hL i hi) (hR i hi)
  rw [Nat.testBit_or, val_testBit hw hwf, val_testBit hw hL, val_testBit hw hR]
  simp only [biOr, Nat.testBit_or]
  cases decide (k / wb < N) <;> simp

theorem xor_correct {wb N : ℕ} (hw : 0 < wb) {L R : Limbs} (hL : WF (2 ^ wb) N L)
    (hR : WF (2 ^ wb) N R) :
    val (2 ^ wb) N (biXor L R) = val (2 ^ wb) N L ^^^ val (2 ^ wb) N R := by
  apply Nat.eq_of_testBit_eq
  intro k
  have hwf : WF (2 ^ wb) N (biXor L R) := fun i hi => Nat.xor_lt_two_pow (hL i hi) (hR i hi)
  rw [Nat.testBit_xor, val_testBit hw hwf, val_testBit hw hL, val_testBit hw hR]
  simp only [biXor, Nat.testBit_xor]
  cases decide (k / wb < N) <;> simp

/-- `operator~` is the complement within the width. -/
theorem not_correct {wb N : ℕ} {L : Limbs} (hL : WF (2 ^ wb) N L) :
    val (2 ^ wb) N (biNot (2 ^ wb) L) + val (2 ^ wb) N L + 1 = 2 ^ (wb * N) := by
  rw [pow_mul]
  induction N with
  | zero => simp [val]
  | succ n ih =>
    have := ih fun i hi => hL i (by omega)
    have h := hL n (by omega)
    rw [val_succ, val_succ, pow_succ]
    have e : biNot (2 ^ wb) L n + L n + 1 = 2 ^ wb := by unfold biNot; omega
    have e2 := congrArg (· * (2 ^ wb) ^ n) e
    nlinarith

example : WF (2 ^ 4) 2 (two 9 2) ∧ WF (2 ^ 4) 2 (two 12 7) :=
  ⟨two_wf (by norm_num) (by norm_num), two_wf (by norm_num) (by norm_num)⟩

/-! ### Multiplication -/

/-- Multiplication by a half word is exact modulo `2^(2*hb*N)`. -/
theorem mulHalf_correct {hb N : ℕ} {L : Limbs} {r : ℕ} (h : WF (2 ^ (2 * hb)) N L)
    (hr : r < 2 ^ hb) :
    val (2 ^ (2 * hb)) N (opMulHalf hb N L r) =
      (val (2 ^ (2 * hb)) N L * r) % 2 ^ (2 * hb * N) := by
  rw [(opMulHalf_val h hr).2, ← pow_mul 2 (2 * hb) N]

example : WF (2 ^ (2 * 2)) 2 (two 15 3) ∧ 3 < 2 ^ 2 :=
  ⟨two_wf (by norm_num) (by norm_num), by norm_num⟩

/-- **Disagreement.** `operator*` with a zero right operand returns the left operand. -/
theorem mul_zero_wrong {wb N : ℕ} (hw : 1 < wb) (L : Limbs) :
    opMul wb N L (fun _ => 0) = some L := by
  unfold opMul
  rw [biLog2_spec hw (L := fun _ => 0) (fun i _ => by positivity), val_zero_fn]
  simp [Nat.log2]

/-- Hence the product with zero is wrong for every nonzero left operand. -/
theorem mul_zero_ne {wb N : ℕ} (hw : 1 < wb) (L : Limbs) (h0 : val (2 ^ wb) N L ≠ 0) :
    ∃ S, opMul wb N L (fun _ => 0) = some S ∧
      val (2 ^ wb) N S ≠ val (2 ^ wb) N L * val (2 ^ wb) N (fun _ => 0) :=
  ⟨L, mul_zero_wrong hw L, by rw [val_zero_fn, Nat.mul_zero]; exact h0⟩

example : val (2 ^ 4) 2 (two 9 2) ≠ 0 := by decide

/-- What `operator*` gets right: the right operand is nonzero and the exact product fits. -/
theorem mul_partial {wb N : ℕ} (hw : 1 < wb) {L R : Limbs} (hL : WF (2 ^ wb) N L)
    (hR : WF (2 ^ wb) N R) (h0 : val (2 ^ wb) N R ≠ 0)
    (hov : val (2 ^ wb) N L * val (2 ^ wb) N R < 2 ^ (wb * N)) :
    ∃ S, opMul wb N L R = some S ∧ WF (2 ^ wb) N S ∧
      val (2 ^ wb) N S = val (2 ^ wb) N L * val (2 ^ wb) N R := by
  unfold opMul
  rw [biLog2_spec hw hR]
  simp only [Option.bind_eq_bind, Option.bind_some]
  have hself := Nat.log2_self_le h0
  have hlt := Nat.lt_log2_self (n := val (2 ^ wb) N R)
  split_ifs with hl
  · refine ⟨L, rfl, hL, ?_⟩
    rw [hl] at hself hlt
    have : val (2 ^ wb) N R = 1 := by simp at hself hlt; omega
    rw [this, Nat.mul_one]
  · set k := (val (2 ^ wb) N R).log2 with hk
    obtain ⟨a, b, _⟩ := mul_loop_spec hw hL hR hov (wb * N - k) (Nat.sub_le _ _)
    refine ⟨_, rfl, a, ?_⟩
    rw [b]
    have hkb : k < wb * N := by
      have := val_lt hR
      rw [← pow_mul] at this
      exact (Nat.pow_lt_pow_iff_right (by norm_num)).1 (lt_of_le_of_lt hself this)
    rw [Nat.mod_eq_of_lt]
    by_contra hc
    have hge : 2 ^ (wb * N - k) ≤ val (2 ^ wb) N L := by omega
    have := Nat.mul_le_mul hge hself
    rw [← pow_add, show wb * N - k + k = wb * N by omega] at this
    omega

example : val (2 ^ 4) 2 (two 7 1) ≠ 0 ∧ val (2 ^ 4) 2 (two 5 0) * val (2 ^ 4) 2 (two 7 1) < 2 ^ (4 * 2) := by
  decide

/-- **Disagreement.** A product that does not fit is not reduced modulo the width: `2^(bits-1) * 3`
gives 0 instead of `2^(bits-1)`. -/
theorem mul_overflow_wrong {wb N : ℕ} (hw : 1 < wb) (hN : 0 < N) :
    ∃ L R S, WF (2 ^ wb) N L ∧ WF (2 ^ wb) N R ∧ val (2 ^ wb) N R ≠ 0 ∧
      opMul wb N L R = some S ∧
      val (2 ^ wb) N S ≠ (val (2 ^ wb) N L * val (2 ^ wb) N R) % 2 ^ (wb * N) := by
  have h2 : 4 ≤ 2 ^ wb := by
    calc 4 = 2 ^ 2 := rfl
      _ ≤ 2 ^ wb := Nat.pow_le_pow_right (by norm_num) hw
  have hb : 1 < wb * N := by nlinarith
  have h1 : WF (2 ^ wb) N (fun i => if i = 0 then 1 else 0) := one_wf (by omega)
  have h3 : WF (2 ^ wb) N (two 3 0) := two_wf (by omega) (by omega)
  set L := opShl wb N (fun i => if i = 0 then 1 else 0) (wb * N - 1) with hL
  have hLw : WF (2 ^ wb) N L := opShl_wf h1 _
  have hLv : val (2 ^ wb) N L = 2 ^ (wb * N - 1) := by
    rw [hL, shl_correct (by omega) h1, val_one_fn _ _ hN, one_mul, Nat.mod_eq_of_lt]
    exact Nat.pow_lt_pow_right (by norm_num) (by omega)
  have h3v : val (2 ^ wb) N (two 3 0) = 3 := by
    obtain ⟨n, rfl⟩ : ∃ n, N = n + 1 := ⟨N - 1, by omega⟩
    rw [val_succ']
    have : val (2 ^ wb) n (fun i => two 3 0 (i + 1)) = 0 := by
      rw [val_eq_zero_iff (by positivity)]; intro i _; simp [two]
    rw [this]; simp [two]
  have hlog : biLog2 wb N (two 3 0) = some 1 := by
    rw [biLog2_spec hw h3, h3v]; rfl
  -- no bit below `bits - 1` is set, so nothing is ever added
  have hloop : ∀ n ≤ wb * N - 1, ((List.range n).foldl (mulStep wb N L (two 3 0)) (fun _ => 0, false)).1
      = fun _ => 0 := by
    intro n
    induction n with
    | zero => intro _; rfl
    | succ n ih =>
      intro hn
      have ih := ih (by omega)
      rw [List.range_succ, List.foldl_append, List.foldl_cons, List.foldl_nil]
      generalize (List.range n).foldl (mulStep wb N L (two 3 0)) (fun _ => 0, false) = st at *
      have hnN : n / wb < N := (Nat.div_lt_iff_lt_mul (by omega)).2 (by rw [mul_comm]; omega)
      have hbit : ¬ ((L (n / wb) >>> (n - n / wb * wb)) % 2 = 1) := by
        have h4 := val_testBit (by omega : 0 < wb) hLw n
        rw [hLv, Nat.testBit_two_pow] at h4
        have : n - n / wb * wb = n % wb := by
          have := Nat.div_add_mod' n wb; omega
        rw [this]
        intro hc
        have h5 : (L (n / wb)).testBit (n % wb) = true := by
          rw [Nat.testBit_eq_decide_div_mod_eq, decide_eq_true_iff, ← Nat.shiftRight_eq_div_pow]
          exact hc
        rw [h5] at h4
        simp [hnN] at h4
        omega
      unfold mulStep
      dsimp only
      rw [if_neg hbit]
      split_ifs <;> exact ih
  refine ⟨L, two 3 0, fun _ => 0, hLw, h3, by rw [h3v]; omega, ?_, ?_⟩
  · unfold opMul
    rw [hlog]
    simp only [Option.bind_eq_bind, Option.bind_some]
    rw [if_neg (by omega), hloop _ le_rfl]
    rfl
  · rw [val_zero_fn, hLv, h3v]
    have e : 2 ^ (wb * N - 1) * 3 = 2 ^ (wb * N - 1) + 2 ^ (wb * N) := by
      have : 2 ^ (wb * N) = 2 ^ (wb * N - 1) * 2 := by rw [← pow_succ]; congr 1; omega
      omega
    rw [e, Nat.add_mod_right, Nat.mod_eq_of_lt (Nat.pow_lt_pow_right (by norm_num) (by omega))]
    exact (pow_pos (by norm_num) _).ne

/-! ### Division -/

/-- Division by a half word is exact. -/
theorem divSmall_correct {hb N : ℕ} {L : Limbs} {r : ℕ} (h : WF (2 ^ (2 * hb)) N L)
    (hr : r < 2 ^ hb) (h0 : 0 < r) :
    val (2 ^ (2 * hb)) N (biDivModSmall hb N L r).1 = val (2 ^ (2 * hb)) N L / r ∧
      (biDivModSmall hb N L r).2 = val (2 ^ (2 * hb)) N L % r :=
  (biDivModSmall_val h hr h0).2

example : WF (2 ^ (2 * 2)) 2 (two 15 3) ∧ 3 < 2 ^ 2 ∧ 0 < 3 :=
  ⟨two_wf (by norm_num) (by norm_num), by norm_num, by norm_num⟩

/-- The quotient and remainder of `bi_div_mod`, as numbers. -/
def divModVal (hb N fuel : ℕ) (L R : Limbs) : Option (ℕ × ℕ) :=
  (biDivMod hb N fuel L R).map fun p => (val (2 ^ (2 * hb)) N p.1, val (2 ^ (2 * hb)) N p.2)

theorem all_zero_iff {N : ℕ} (R : Limbs) :
    (List.range' 1 (N - 1)).all (fun i => R i == 0) = true ↔ ∀ i, 1 ≤ i → i < N → R i = 0 := by
  rw [List.all_eq_true]
  constructor
  · intro h i h1 h2
    simpa using h i (List.mem_range'_1.2 (by omega))
  · intro h x hx
    have := List.mem_range'_1.1 hx
    simp [h x (by omega) (by omega)]

/-- What `bi_div_mod` gets right: divisors below half a word, powers of two, and dividends not above
the divisor. (The general loop is wrong: see `div_wrong`.) -/
theorem div_partial {hb N : ℕ} (hh : 0 < hb) (hN : 0 < N) {L R : Limbs}
    (hL : WF (2 ^ (2 * hb)) N L) (hR : WF (2 ^ (2 * hb)) N R)
    (h0 : val (2 ^ (2 * hb)) N R ≠ 0)
    (hcase : val (2 ^ (2 * hb)) N L ≤ val (2 ^ (2 * hb)) N R ∨
      val (2 ^ (2 * hb)) N R < 2 ^ hb ∨ ∃ p, val (2 ^ (2 * hb)) N R = 2 ^ p)
    (fuel : ℕ) (hf : 2 * hb * N < fuel) :
    divModVal hb N fuel L R = some (val (2 ^ (2 * hb)) N L / val (2 ^ (2 * hb)) N R,
      val (2 ^ (2 * hb)) N L % val (2 ^ (2 * hb)) N R) := by
  have hcmp : biCompare N L R = if val (2 ^ (2 * hb)) N R < val (2 ^ (2 * hb)) N L then 1 else
      if val (2 ^ (2 * hb)) N L < val (2 ^ (2 * hb)) N R then -1 else 0 := compareAux_spec hL hR
  have hw : 1 < 2 * hb := by omega
  have hB1 : 1 < 2 ^ (2 * hb) := Nat.one_lt_two_pow (by omega)
  unfold divModVal biDivMod
  rcases lt_trichotomy (val (2 ^ (2 * hb)) N L) (val (2 ^ (2 * hb)) N R) with hlt | heq | hgt
  · have hc : biCompare N L R = -1 := by rw [hcmp, if_neg (by omega), if_pos hlt]
    simp only [hc]
    rw [if_pos (by norm_num)]
    simp [val_zero_fn, Nat.div_eq_of_lt hlt, Nat.mod_eq_of_lt hlt]
  · have hc : biCompare N L R = 0 := by rw [hcmp, if_neg (by omega), if_neg (by omega)]
    simp only [hc]
    rw [if_neg (by norm_num), if_pos trivial]
    simp only [Option.map_some, val_one_fn _ _ hN, val_zero_fn, heq, Nat.mod_self,
      Nat.div_self (Nat.pos_of_ne_zero h0)]
  · have hc : biCompare N L R = 1 := by rw [hcmp, if_pos hgt]
    simp only [hc]
    rw [if_neg (by norm_num), if_neg (by norm_num)]
    obtain ⟨n, rfl⟩ : ∃ n, N = n + 1 := ⟨N - 1, by omega⟩
    have hR0 : ∀ x, (∀ i, 1 ≤ i → i < n + 1 → R i = 0) → x = val (2 ^ (2 * hb)) (n + 1) R → x = R 0 := by
      intro x hz hx
      rw [hx, val_succ']
      have : val (2 ^ (2 * hb)) n (fun i => R (i + 1)) = 0 := by
        rw [val_eq_zero_iff (by positivity)]; intro i hi; exact hz _ (by omega) (by omega)
      rw [this]; simp
    split_ifs with hsm hz0
    · exact absurd ((hR0 _ ((all_zero_iff R).1 hsm.2) rfl).trans hz0) h0
    · have hv := hR0 _ ((all_zero_iff R).1 hsm.2) rfl
      have hp : 0 < 2 ^ hb := by positivity
      have hrl : R 0 < 2 ^ hb := by omega
      obtain ⟨_, a2, a3⟩ := biDivModSmall_val hL hrl (by omega)
      simp only [Option.map_some, a2, a3, hv]
      have : val (2 ^ (2 * hb)) (n + 1)
          (fun i => if i = 0 then val (2 ^ (2 * hb)) (n + 1) L % R 0 else 0) =
          val (2 ^ (2 * hb)) (n + 1) L % R 0 := by
        rw [val_succ']; simp [val_zero_fn]
      rw [this]
    · have hpow : ∃ p, val (2 ^ (2 * hb)) (n + 1) R = 2 ^ p := by
        rcases hcase with h | h | h
        · omega
        · exfalso
          apply hsm
          have hw0 := digit_eq hR (i := 0) (by omega)
          have hBh : 2 ^ hb ≤ 2 ^ (2 * hb) := Nat.pow_le_pow_right (by norm_num) (by omega)
          rw [pow_zero, Nat.div_one, Nat.mod_eq_of_lt (by omega)] at hw0
          refine ⟨by omega, (all_zero_iff R).2 fun i h1 h2 => ?_⟩
          rw [digit_eq hR h2, Nat.div_eq_of_lt, Nat.zero_mod]
          calc _ < 2 ^ (2 * hb) := by omega
            _ = (2 ^ (2 * hb)) ^ 1 := (pow_one _).symm
            _ ≤ _ := Nat.pow_le_pow_right (by positivity) h1
        · exact h
      obtain ⟨p, hp⟩ := hpow
      rw [biLog2_spec hw hR, hp, Nat.log2_two_pow]
      simp only [Option.bind_eq_bind, Option.bind_some]
      have ht : val (2 ^ (2 * hb)) (n + 1)
          (opShl (2 * hb) (n + 1) (fun i => if i = 0 then 1 else 0) p) = 2 ^ p := by
        rw [shl_correct (by omega) (one_wf hB1), val_one_fn _ _ hN, one_mul, Nat.mod_eq_of_lt]
        have := val_lt hR
        rw [hp, ← pow_mul] at this; exact this
      have hcr : biCompare (n + 1) R
          (opShl (2 * hb) (n + 1) (fun i => if i = 0 then 1 else 0) p) = 0 := by
        rw [(compare_correct hR (opShl_wf (one_wf hB1) p)).2.2, ht, hp]
      rw [hcr, if_neg (by norm_num)]
      have hsz := size_le_of_wf hL
      obtain ⟨q, r, e, _, _, e1, e2⟩ := divLoop_pow2 hw hN hR hp fuel L (fun _ => 0) hL
        (fun i _ => by positivity) (by omega) (by
          rw [val_zero_fn, zero_add]
          exact lt_of_le_of_lt (Nat.div_le_self _ _) (val_lt hL))
      rw [e]
      simp only [Option.map_some, e1, e2, val_zero_fn, zero_add]

example : val (2 ^ (2 * 2)) 2 (two 0 4) = 2 ^ 6 ∧ WF (2 ^ (2 * 2)) 2 (two 5 9) :=
  ⟨by decide, two_wf (by norm_num) (by norm_num)⟩

/-- If the general loop stops, its answer satisfies the division equation modulo `2^bits` and the
remainder is below the divisor; the equation can hold only modulo `2^bits` (see `div_wrong`). -/
theorem div_congruence_partial {wb N : ℕ} (hw : 1 < wb) (hN : 0 < N) {L R : Limbs}
    (hL : WF (2 ^ wb) N L) (hR : WF (2 ^ wb) N R) {lg fuel : ℕ} {q r : Limbs}
    (h : divLoop wb N R lg fuel L (fun _ => 0) = some (q, r)) :
    val (2 ^ wb) N r < val (2 ^ wb) N R ∧
      (val (2 ^ wb) N q * val (2 ^ wb) N R + val (2 ^ wb) N r) % 2 ^ (wb * N) = val (2 ^ wb) N L := by
  obtain ⟨_, _, c, d⟩ := divLoop_congr hw hN hR lg fuel L (fun _ => 0) hL
    (fun i _ => by positivity) h
  refine ⟨c, ?_⟩
  rw [val_zero_fn, Nat.zero_mul, Nat.zero_add] at d
  rw [pow_mul]
  exact (eq_of_zmod (val_lt hL) d.symm).symm

/-- The loop stops at once on this input. -/
example : divLoop 4 2 (two 0 3) 5 1 (two 7 2) (fun _ => 0) = some (fun _ => 0, two 7 2) := by
  rw [divLoop, if_neg (by decide)]

theorem two_val {B N a b : ℕ} (hN : 2 ≤ N) : val B N (two a b) = a + b * B := by
  obtain ⟨n, rfl⟩ : ∃ n, N = n + 1 + 1 := ⟨N - 2, by omega⟩
  rw [val_succ', val_succ']
  have : val B n (fun i => two a b (i + 1 + 1)) = 0 := by
    unfold val; apply Finset.sum_eq_zero; intro i _; simp [two]
  rw [this]; simp [two, mul_comm]

/-- **Disagreement.** `2^255 / (3·2^253)` with the default 128-bit words (`QBCAPPOW = 8`, two words):
the loop subtracts a shifted divisor larger than the remainder, wraps around, and returns quotient 4
and remainder 0 instead of 1 and `2^253`. -/
theorem div_wrong :
    val (2 ^ 128) 2 (two 0 (2 ^ 127)) = 2 ^ 255 ∧ val (2 ^ 128) 2 (two 0 (3 * 2 ^ 125)) = 3 * 2 ^ 253 ∧
    divModVal 64 2 1000 (two 0 (2 ^ 127)) (two 0 (3 * 2 ^ 125)) = some (4, 0) ∧
    ((2 : ℕ) ^ 255 / (3 * 2 ^ 253), (2 : ℕ) ^ 255 % (3 * 2 ^ 253)) = (1, 2 ^ 253) := by
  have hL : WF (2 ^ (2 * 64)) 2 (two 0 (2 ^ 127)) := two_wf (by norm_num) (by norm_num)
  have hR : WF (2 ^ (2 * 64)) 2 (two 0 (3 * 2 ^ 125)) := two_wf (by norm_num) (by norm_num)
  have hlv : val (2 ^ (2 * 64)) 2 (two 0 (3 * 2 ^ 125)) = 3 * 2 ^ 253 := by
    rw [two_val le_rfl]; norm_num
  have hlv4 : val (2 ^ (2 * 64)) 2 (two 0 (2 ^ 127)) = 2 ^ 255 := by rw [two_val le_rfl]; norm_num
  refine ⟨hlv4, hlv, ?_, by norm_num⟩
  unfold divModVal biDivMod
  have c1 : biCompare 2 (two 0 (2 ^ 127)) (two 0 (3 * 2 ^ 125)) = 1 := by
    rw [(compare_correct hL hR).1, hlv, hlv4]; norm_num
  have hlog : (3 * 2 ^ 253).log2 = 254 := by
    rw [Nat.log2_eq_iff (by norm_num)]; norm_num
  have ht : val (2 ^ (2 * 64)) 2
      (opShl (2 * 64) 2 (fun i => if i = 0 then 1 else 0) 254) = 2 ^ 254 := by
    rw [shl_correct (by norm_num) (one_wf (by norm_num)), val_one_fn _ _ (by norm_num)]; norm_num
  have hc2 : biCompare 2 (two 0 (3 * 2 ^ 125))
      (opShl (2 * 64) 2 (fun i => if i = 0 then 1 else 0) 254) = 1 := by
    rw [(compare_correct hR (opShl_wf (one_wf (by norm_num)) 254)).1, ht, hlv]; norm_num
  have hns : ¬ (two 0 (3 * 2 ^ 125) 0 ≤ 2 ^ 64 - 1 ∧
      (List.range' 1 (2 - 1)).all (fun i => two 0 (3 * 2 ^ 125) i == 0) = true) := by
    rw [all_zero_iff]
    intro h
    have := h.2 1 le_rfl (by norm_num)
    norm_num [two] at this
  simp only [c1]
  rw [if_neg (by norm_num), if_neg (by norm_num), if_neg hns,
    biLog2_spec (by norm_num) hR, hlv, hlog]
  simp only [Option.bind_eq_bind, Option.bind_some, hc2]
  rw [if_neg (by norm_num), divLoop_refine (by norm_num) (by norm_num) hR _ _ _ _ hL
    (fun i _ => by positivity), hlv, hlv4, val_zero_fn]
  have l1 : ((2 : ℕ) ^ 255).log2 = 255 := Nat.log2_two_pow
  rw [show (1000 : ℕ) = 997 + 1 + 1 + 1 by norm_num, divNat, if_pos (by norm_num), l1,
    if_pos (by norm_num)]
  have e1 : (2 ^ 255 + ((2 ^ (2 * 64)) ^ 2 - 3 * 2 ^ 253 * 2 ^ (255 - 254) % (2 ^ (2 * 64)) ^ 2)) %
      (2 ^ (2 * 64)) ^ 2 = 3 * 2 ^ 254 := by norm_num
  have l2 : (3 * 2 ^ 254).log2 = 255 := by
    rw [Nat.log2_eq_iff (by norm_num)]; norm_num
  rw [e1, divNat, if_pos (by norm_num), l2, if_pos (by norm_num)]
  have e2 : (3 * 2 ^ 254 + ((2 ^ (2 * 64)) ^ 2 - 3 * 2 ^ 253 * 2 ^ (255 - 254) % (2 ^ (2 * 64)) ^ 2)) %
      (2 ^ (2 * 64)) ^ 2 = 0 := by norm_num
  rw [e2, divNat, if_neg (by norm_num)]
  norm_num

end Verif.BigInt
