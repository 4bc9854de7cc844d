import Verif.Model.BigInt
import Verif.Lib.Limbs
import Mathlib.Data.Nat.Bitwise
import Mathlib.Algebra.Ring.Parity
import Mathlib.Tactic.LinearCombination

/-! Helper lemmas for the multi-word integer model. -/

namespace Verif.BigInt

open Verif.Limbs
open Function (update update_self update_of_ne)

/-! ### Comparison -/

theorem compareAux_spec {B : ℕ} {L R : Limbs} :
    ∀ {n : ℕ}, WF B n L → WF B n R →
      compareAux L R n =
        if val B n R < val B n L then 1 else if val B n L < val B n R then -1 else 0 := by
  intro n
  induction n with
  | zero => intro _ _; simp [compareAux, val]
  | succ n ih =>
    intro hL hR
    have hL' : WF B n L := fun i hi => hL i (by omega)
    have hR' : WF B n R := fun i hi => hR i (by omega)
    have a := val_lt hL'
    have b := val_lt hR'
    rw [compareAux, val_succ, val_succ, ih hL' hR']
    rcases lt_trichotomy (L n) (R n) with h | h | h
    · have : (L n + 1) * B ^ n ≤ R n * B ^ n := Nat.mul_le_mul_right _ h
      have e : (L n + 1) * B ^ n = L n * B ^ n + B ^ n := by ring
      rw [if_neg (by omega), if_pos h, if_neg (by omega), if_pos (by omega)]
    · rw [h, if_neg (by omega), if_neg (by omega)]
      split_ifs <;> omega
    · have : (R n + 1) * B ^ n ≤ L n * B ^ n := Nat.mul_le_mul_right _ h
      have e : (R n + 1) * B ^ n = R n * B ^ n + B ^ n := by ring
      rw [if_pos h, if_pos (by omega)]

theorem val_eq_zero_iff {B N : ℕ} (hB : 0 < B) (L : Limbs) :
    val B N L = 0 ↔ ∀ i < N, L i = 0 := by
  unfold val
  rw [Finset.sum_eq_zero_iff]
  constructor
  · intro h i hi
    rcases Nat.mul_eq_zero.1 (h i (Finset.mem_range.2 hi)) with h | h
    · exact h
    · have := pow_pos hB i; omega
  · intro h i hi
    rw [h i (Finset.mem_range.1 hi), zero_mul]

theorem biCompare0_spec {B N : ℕ} (hB : 0 < B) (L : Limbs) :
    biCompare0 N L = if val B N L = 0 then 0 else 1 := by
  unfold biCompare0
  by_cases h : val B N L = 0
  · rw [if_pos h, if_neg]
    simp only [List.any_eq_true, not_exists, not_and]
    intro x hx
    simp [(val_eq_zero_iff hB L).1 h x (List.mem_range.1 hx)]
  · rw [if_neg h, if_pos]
    by_contra hc
    apply h
    rw [val_eq_zero_iff hB]
    intro i hi
    by_contra hi0
    apply hc
    rw [List.any_eq_true]
    exact ⟨i, List.mem_range.2 hi, by simpa using hi0⟩

/-! ### Word arithmetic -/

theorem add_word {B x r : ℕ} (hx : x < B) (hr : r < B) :
    (x + r) % B + (if (x + r) % B < x then B else 0) = x + r := by
  rcases Nat.lt_or_ge (x + r) B with h | h
  · rw [Nat.mod_eq_of_lt h, if_neg (by omega)]; rfl
  · rw [Nat.mod_eq_sub_mod h, Nat.mod_eq_of_lt (by omega), if_pos (by omega)]; omega

theorem sub_word {B x r : ℕ} (hx : x < B) (hr : r < B) :
    (x + B - r) % B + r = x + (if x < (x + B - r) % B then B else 0) := by
  rcases Nat.lt_or_ge x r with h | h
  · rw [Nat.mod_eq_of_lt (by omega), if_pos (by omega)]; omega
  · rw [show x + B - r = (x - r) + B by omega, Nat.add_mod_right, Nat.mod_eq_of_lt (by omega),
      if_neg (by omega)]; omega

/-- Value of an array after one word is increased by `r`, in the ring of residues. -/
theorem val_add_word {B N i r : ℕ} {S : Limbs} (hi : i < N) (hx : S i < B) (hr : r < B) :
    (val B N (update S i ((S i + r) % B)) : ZMod (B ^ N)) =
      val B N S + r * B ^ i - (if (S i + r) % B < S i then 1 else 0) * B ^ (i + 1) := by
  have h1 := val_update (B := B) (N := N) S ((S i + r) % B) hi
  have h2 := add_word hx hr
  have h1' := congrArg (Nat.cast : ℕ → ZMod (B ^ N)) h1
  have h2' := congrArg (Nat.cast : ℕ → ZMod (B ^ N)) h2
  push_cast at h1' h2'
  split_ifs at h2' ⊢ with hc
  · linear_combination h1' + (B : ZMod (B ^ N)) ^ i * h2'
  · linear_combination h1' + (B : ZMod (B ^ N)) ^ i * h2'

theorem val_sub_word {B N i r : ℕ} {S : Limbs} (hi : i < N) (hx : S i < B) (hr : r < B) :
    (val B N (update S i ((S i + B - r) % B)) : ZMod (B ^ N)) =
      val B N S - r * B ^ i + (if S i < (S i + B - r) % B then 1 else 0) * B ^ (i + 1) := by
  have h1 := val_update (B := B) (N := N) S ((S i + B - r) % B) hi
  have h2 := sub_word hx hr
  have h1' := congrArg (Nat.cast : ℕ → ZMod (B ^ N)) h1
  have h2' := congrArg (Nat.cast : ℕ → ZMod (B ^ N)) h2
  push_cast at h1' h2'
  split_ifs at h2' ⊢ with hc
  · linear_combination h1' + (B : ZMod (B ^ N)) ^ i * h2'
  · linear_combination h1' + (B : ZMod (B ^ N)) ^ i * h2'

theorem pow_card_zero (B N : ℕ) : ((B : ZMod (B ^ N)) ^ N) = 0 := by
  rw [← Nat.cast_pow, ZMod.natCast_self]

theorem addRipple_spec {B N : ℕ} (hB : 1 < B) (S : Limbs) (j temp : ℕ) (hj : j < N)
    (h : WF B N S) :
    WF B N (addRipple B (N - 1) S j temp) ∧
      (val B N (addRipple B (N - 1) S j temp) : ZMod (B ^ N)) =
        val B N S + (if S j < temp then 1 else 0) * B ^ (j + 1) := by
  fun_induction addRipple B (N - 1) S j temp with
  | case1 S j temp hc ih =>
    have hj1 : j + 1 < N := by omega
    have hw : WF B N (update S (j + 1) ((S (j + 1) + 1) % B)) :=
      wf_update h (Nat.mod_lt _ (by omega))
    obtain ⟨ih1, ih2⟩ := ih hj1 hw
    refine ⟨ih1, ?_⟩
    rw [ih2, val_add_word hj1 (h _ hj1) hB, if_pos hc.2, update_self]
    push_cast; ring
  | case2 S j temp hc =>
    refine ⟨h, ?_⟩
    by_cases h1 : S j < temp
    · have : j + 1 = N := by
        by_contra h2; exact hc ⟨by omega, h1⟩
      rw [this, pow_card_zero]; simp
    · simp [h1]

theorem subRipple_spec {B N : ℕ} (hB : 1 < B) (S : Limbs) (j temp : ℕ) (hj : j < N)
    (h : WF B N S) :
    WF B N (subRipple B (N - 1) S j temp) ∧
      (val B N (subRipple B (N - 1) S j temp) : ZMod (B ^ N)) =
        val B N S - (if temp < S j then 1 else 0) * B ^ (j + 1) := by
  fun_induction subRipple B (N - 1) S j temp with
  | case1 S j temp hc ih =>
    have hj1 : j + 1 < N := by omega
    have hw : WF B N (update S (j + 1) ((S (j + 1) + B - 1) % B)) :=
      wf_update h (Nat.mod_lt _ (by omega))
    obtain ⟨ih1, ih2⟩ := ih hj1 hw
    refine ⟨ih1, ?_⟩
    rw [ih2, val_sub_word hj1 (h _ hj1) hB, if_pos hc.2, update_self]
    push_cast; ring
  | case2 S j temp hc =>
    refine ⟨h, ?_⟩
    by_cases h1 : S j > temp
    · have : j + 1 = N := by
        by_contra h2; exact hc ⟨by omega, h1⟩
      rw [this, pow_card_zero]; simp
    · simp [h1]

theorem addWordAt_spec {B N : ℕ} (hB : 1 < B) {R S : Limbs} {i : ℕ} (hi : i < N)
    (hR : R i < B) (h : WF B N S) :
    WF B N (addWordAt B (N - 1) R S i) ∧
      (val B N (addWordAt B (N - 1) R S i) : ZMod (B ^ N)) = val B N S + R i * B ^ i := by
  have hw : WF B N (update S i ((S i + R i) % B)) := wf_update h (Nat.mod_lt _ (by omega))
  obtain ⟨h1, h2⟩ := addRipple_spec hB _ i (S i) hi hw
  refine ⟨h1, ?_⟩
  unfold addWordAt
  rw [h2, val_add_word hi (h _ hi) hR, update_self]
  ring

theorem subWordAt_spec {B N : ℕ} (hB : 1 < B) {R S : Limbs} {i : ℕ} (hi : i < N)
    (hR : R i < B) (h : WF B N S) :
    WF B N (subWordAt B (N - 1) R S i) ∧
      (val B N (subWordAt B (N - 1) R S i) : ZMod (B ^ N)) = val B N S - R i * B ^ i := by
  have hw : WF B N (update S i ((S i + B - R i) % B)) := wf_update h (Nat.mod_lt _ (by omega))
  obtain ⟨h1, h2⟩ := subRipple_spec hB _ i (S i) hi hw
  refine ⟨h1, ?_⟩
  unfold subWordAt
  rw [h2, val_sub_word hi (h _ hi) hR, update_self]
  ring

theorem foldl_addWordAt {B N : ℕ} (hB : 1 < B) {R : Limbs} (hR : WF B N R) (l : List ℕ)
    (hl : ∀ i ∈ l, i < N) (S : Limbs) (h : WF B N S) :
    WF B N (l.foldl (addWordAt B (N - 1) R) S) ∧
      (val B N (l.foldl (addWordAt B (N - 1) R) S) : ZMod (B ^ N)) =
        val B N S + ((l.map fun i => R i * B ^ i).sum : ℕ) := by
  induction l generalizing S with
  | nil => simp [h]
  | cons a l ih =>
    have ha := hl a (by simp)
    obtain ⟨h1, h2⟩ := addWordAt_spec hB ha (hR a ha) h
    obtain ⟨h3, h4⟩ := ih (fun i hi => hl i (by simp [hi])) _ h1
    refine ⟨h3, ?_⟩
    rw [List.foldl_cons, h4, h2]
    simp; ring

theorem foldl_subWordAt {B N : ℕ} (hB : 1 < B) {R : Limbs} (hR : WF B N R) (l : List ℕ)
    (hl : ∀ i ∈ l, i < N) (S : Limbs) (h : WF B N S) :
    WF B N (l.foldl (subWordAt B (N - 1) R) S) ∧
      (val B N (l.foldl (subWordAt B (N - 1) R) S) : ZMod (B ^ N)) =
        val B N S - ((l.map fun i => R i * B ^ i).sum : ℕ) := by
  induction l generalizing S with
  | nil => simp [h]
  | cons a l ih =>
    have ha := hl a (by simp)
    obtain ⟨h1, h2⟩ := subWordAt_spec hB ha (hR a ha) h
    obtain ⟨h3, h4⟩ := ih (fun i hi => hl i (by simp [hi])) _ h1
    refine ⟨h3, ?_⟩
    rw [List.foldl_cons, h4, h2]
    simp; ring

theorem sum_map_range (B N : ℕ) (R : Limbs) :
    ((List.range N).map fun i => R i * B ^ i).sum = val B N R := by
  induction N with
  | zero => simp [val]
  | succ n ih => rw [List.range_succ, List.map_append, List.sum_append, ih, val_succ]; simp

theorem biAddIp_zmod {B N : ℕ} (hB : 1 < B) (hN : 0 < N) {L R : Limbs} (hL : WF B N L)
    (hR : WF B N R) :
    WF B N (biAddIp B N L R) ∧
      (val B N (biAddIp B N L R) : ZMod (B ^ N)) = val B N L + val B N R := by
  obtain ⟨n, rfl⟩ : ∃ n, N = n + 1 := ⟨N - 1, by omega⟩
  obtain ⟨h1, h2⟩ := foldl_addWordAt hB hR (List.range n)
    (fun i hi => by have := List.mem_range.1 hi; omega) L hL
  simp only [Nat.add_sub_cancel] at h1 h2
  unfold biAddIp
  simp only [Nat.add_sub_cancel]
  refine ⟨wf_update h1 (Nat.mod_lt _ (by omega)), ?_⟩
  rw [val_add_word (by omega) (h1 n (by omega)) (hR n (by omega)), h2, sum_map_range, pow_card_zero,
    val_succ B n R]
  push_cast; ring

theorem biSubIp_zmod {B N : ℕ} (hB : 1 < B) (hN : 0 < N) {L R : Limbs} (hL : WF B N L)
    (hR : WF B N R) :
    WF B N (biSubIp B N L R) ∧
      (val B N (biSubIp B N L R) : ZMod (B ^ N)) = val B N L - val B N R := by
  obtain ⟨n, rfl⟩ : ∃ n, N = n + 1 := ⟨N - 1, by omega⟩
  obtain ⟨h1, h2⟩ := foldl_subWordAt hB hR (List.range n)
    (fun i hi => by have := List.mem_range.1 hi; omega) L hL
  simp only [Nat.add_sub_cancel] at h1 h2
  unfold biSubIp
  simp only [Nat.add_sub_cancel]
  refine ⟨wf_update h1 (Nat.mod_lt _ (by omega)), ?_⟩
  rw [val_sub_word (by omega) (h1 n (by omega)) (hR n (by omega)), h2, sum_map_range, pow_card_zero,
    val_succ B n R]
  push_cast; ring

theorem incLoop_spec {B N : ℕ} (hB : 1 < B) (S : Limbs) (i : ℕ) (hi : i ≤ N) (h : WF B N S) :
    WF B N (incLoop B N S i) ∧
      (val B N (incLoop B N S i) : ZMod (B ^ N)) = val B N S + B ^ i := by
  fun_induction incLoop B N S i with
  | case1 S i hi' S1 hc =>
    refine ⟨wf_update h (Nat.mod_lt _ (by omega)), ?_⟩
    simp only [S1, update_self] at hc
    rw [val_add_word hi' (h i hi') hB, if_neg (by omega)]
    simp
  | case2 S i hi' S1 hc ih =>
    have hw : WF B N S1 := wf_update h (Nat.mod_lt _ (by omega))
    obtain ⟨ih1, ih2⟩ := ih hi' hw
    refine ⟨ih1, ?_⟩
    simp only [S1, update_self] at hc
    rw [ih2, val_add_word hi' (h i hi') hB, if_pos (by omega)]
    simp
  | case3 S i hi' =>
    refine ⟨h, ?_⟩
    rw [show i = N by omega, pow_card_zero, add_zero]

theorem biIncrement_zmod {B N : ℕ} (hB : 1 < B) (hN : 0 < N) {L : Limbs} (hL : WF B N L) {v : ℕ}
    (hv : v < B) :
    WF B N (biIncrement B N L v) ∧
      (val B N (biIncrement B N L v) : ZMod (B ^ N)) = val B N L + v := by
  have hw : WF B N (update L 0 ((L 0 + v) % B)) := wf_update hL (Nat.mod_lt _ (by omega))
  have hv' := val_add_word hN (hL 0 hN) hv
  unfold biIncrement
  simp only [update_self]
  split_ifs with hc
  · refine ⟨hw, ?_⟩
    rw [hv', if_neg (by omega)]; simp
  · obtain ⟨h1, h2⟩ := incLoop_spec hB _ 1 (by omega) hw
    refine ⟨h1, ?_⟩
    rw [h2, hv', if_pos (by omega)]; simp

/-! ### Shifts -/

theorem wf_biLshiftWord {B N r : ℕ} {L : Limbs} (h : WF B N L) (hB : 0 < B) :
    WF B N (biLshiftWord N L r) := by
  intro i hi
  unfold biLshiftWord
  split_ifs with h1 
  · exact h i hi
  · dsimp only
    split_ifs with h2
    · exact h _ (by omega)
    · exact hB

theorem wf_biRshiftWord {B N r : ℕ} {L : Limbs} (h : WF B N L) (hB : 0 < B) :
    WF B N (biRshiftWord N L r) := by
  intro i hi
  unfold biRshiftWord
  split_ifs with h1 
  · exact h i hi
  · dsimp only
    split_ifs with h2
    · exact h _ (by omega)
    · exact hB

theorem biLshiftWord_apply {N r i : ℕ} (L : Limbs) (hi : i < N) :
    biLshiftWord N L r i = if r ≤ i then L (i - r) else 0 := by
  unfold biLshiftWord
  split_ifs with h1 h2 <;> simp_all

theorem biRshiftWord_apply {N r i : ℕ} (L : Limbs) (hi : i < N) :
    biRshiftWord N L r i = if i + r < N then L (i + r) else 0 := by
  unfold biRshiftWord
  split_ifs with h1 h2 <;> simp_all

/-- Result of the left bit-shift loop: untouched words above `n`, combined words below. -/
theorem lshiftBits_spec (wb rMod : ℕ) (L : Limbs) (n : ℕ) :
    (∀ i, (lshiftBits wb rMod L n).1 i =
      if i < n then (if i = 0 then 0 else L (i - 1) >>> (wb - rMod)) ||| ((L i <<< rMod) % 2 ^ wb)
      else L i) ∧
    (lshiftBits wb rMod L n).2 = if n = 0 then 0 else L (n - 1) >>> (wb - rMod) := by
  induction n with
  | zero => simp [lshiftBits]
  | succ n ih =>
    obtain ⟨ih1, ih2⟩ := ih
    simp only [lshiftBits]
    rw [ih2]
    constructor
    · intro i
      by_cases hi : i = n
      · subst hi
        rw [update_self, ih1]
        simp
      · rw [update_of_ne hi, ih1]
        by_cases h : i < n
        · simp [h, Nat.lt_succ_of_lt h]
        · rw [if_neg h, if_neg (by omega)]
    · rw [ih1]; simp

theorem rshiftBits_spec (wb N rMod : ℕ) (L : Limbs) (k : ℕ) (hk : k ≤ N) :
    (∀ i < N, (rshiftBits wb N rMod L k).1 i =
      if N - k ≤ i then
        (if i + 1 < N then (L (i + 1) <<< (wb - rMod)) % 2 ^ wb else 0) ||| (L i >>> rMod)
      else L i) ∧
    (rshiftBits wb N rMod L k).2 = if k = 0 then 0 else (L (N - k) <<< (wb - rMod)) % 2 ^ wb := by
  induction k with
  | zero =>
    refine ⟨fun i hi => ?_, by simp [rshiftBits]⟩
    rw [if_neg (by omega)]; rfl
  | succ k ih =>
    obtain ⟨ih1, ih2⟩ := ih (by omega)
    simp only [rshiftBits]
    rw [ih2]
    have e : N - 1 - k = N - (k + 1) := by omega
    rw [e]
    constructor
    · intro i hi
      by_cases hi' : i = N - (k + 1)
      · subst hi'
        have a1 : ¬ (N - k ≤ N - (k + 1)) := by omega
        rw [update_self, ih1 _ (by omega), if_neg a1, if_pos (le_refl (N - (k + 1)))]
        by_cases hk0 : k = 0
        · subst hk0
          have a2 : ¬ (N - (0 + 1) + 1 < N) := by omega
          rw [if_pos rfl, if_neg a2]
        · have a2 : N - (k + 1) + 1 < N := by omega
          rw [if_neg hk0, if_pos a2, show N - (k + 1) + 1 = N - k by omega]
      · rw [update_of_ne hi', ih1 _ hi]
        by_cases h : N - k ≤ i
        · have a1 : N - (k + 1) ≤ i := by omega
          rw [if_pos h, if_pos a1]
        · have a1 : ¬ (N - (k + 1) ≤ i) := by omega
          rw [if_neg h, if_neg a1]
    · have a1 : ¬ (N - k ≤ N - (k + 1)) := by omega
      rw [ih1 _ (by omega), if_neg a1]; simp

end Verif.BigInt
