import Verif.Model.ParFor
import Mathlib.Data.List.Perm.Basic
import Mathlib.Algebra.Order.BigOperators.Group.Multiset
import Mathlib.Data.Multiset.Range
import Mathlib.Tactic.Abel

/-! Helper lemmas for `Verif.Props.ParFor`. -/

namespace Verif.ParFor

open Verif.Bits

theorem testBit_lowMask (p k : ℕ) : (2 ^ p - 1).testBit k = decide (k < p) :=
  Nat.testBit_two_pow_sub_one p k

theorem low_add_mask (p : ℕ) : (2 ^ p - 1) + 2 ^ p = 2 ^ (p + 1) - 1 := by
  have : 0 < 2 ^ p := by positivity
  rw [pow_succ]; omega

/-- The word-level step inserts a zero bit, as long as no bit is shifted out. -/
theorem maskIncStep_eq {w p i : ℕ} (hi : i < 2 ^ w) (hw : insZero p i < 2 ^ w) :
    maskIncStep w (2 ^ p) i = insZero p i := by
  apply Nat.eq_of_testBit_eq
  intro k
  rw [lt_two_pow_iff_testBit] at hi hw
  unfold maskIncStep
  rw [low_add_mask]
  simp only [Nat.testBit_or, Nat.testBit_and, Nat.testBit_mod_two_pow, Nat.testBit_shiftLeft,
    Nat.testBit_xor, Nat.testBit_two_pow_sub_one]
  by_cases hk : k < w
  · rw [testBit_insZero]
    by_cases h1 : k < p
    · simp [h1, hk, show k < p + 1 by omega]
    · by_cases h2 : k = p
      · subst h2; simp [hk]
      · simp [h1, h2, hk, show ¬ k < p + 1 by omega, show 1 ≤ k by omega]
  · rw [hw k (by omega)]
    simp [hk, hi k (by omega)]

/-- Insertion of zero bits at all the listed positions, lowest first. -/
def insAll (ps : List ℕ) (i : ℕ) : ℕ := ps.foldl (fun i p => insZero p i) i

theorem insAll_lt (ps : List ℕ) : ∀ {i n : ℕ}, i < 2 ^ n → insAll ps i < 2 ^ (n + ps.length) := by
  induction ps with
  | nil => intro i n h; simpa [insAll] using h
  | cons p ps ih =>
    intro i n h
    have := ih (insZero_lt (p := p) h)
    simpa [insAll, Nat.add_comm, Nat.add_left_comm, Nat.add_assoc] using this

theorem maskInc_eq (w : ℕ) (ps : List ℕ) : ∀ {i n : ℕ}, i < 2 ^ n → n + ps.length ≤ w →
    maskInc w (ps.map (2 ^ ·)) i = insAll ps i := by
  induction ps with
  | nil => intro i n _ _; rfl
  | cons p ps ih =>
    intro i n h hw
    have hw' : n + 1 + ps.length ≤ w := by simpa [Nat.add_comm, Nat.add_left_comm] using hw
    have h1 : insZero p i < 2 ^ (n + 1) := insZero_lt h
    have e : maskIncStep w (2 ^ p) i = insZero p i :=
      maskIncStep_eq (lt_of_lt_of_le h (Nat.pow_le_pow_right (by norm_num) (by omega)))
        (lt_of_lt_of_le h1 (Nat.pow_le_pow_right (by norm_num) (by omega)))
    have := ih h1 hw'
    simpa [maskInc, insAll, e] using this

theorem insAll_injective (ps : List ℕ) : Function.Injective (insAll ps) := by
  induction ps with
  | nil => exact fun a b h => h
  | cons p ps ih =>
    intro a b h
    exact insZero_injective p (ih h)

theorem testBit_insAll_of_lt (ps : List ℕ) : ∀ (i k : ℕ), (∀ p ∈ ps, k < p) →
    (insAll ps i).testBit k = i.testBit k := by
  induction ps with
  | nil => intro i k _; rfl
  | cons p ps ih =>
    intro i k h
    have := ih (insZero p i) k (fun q hq => h q (List.mem_cons_of_mem _ hq))
    rw [insAll, List.foldl_cons]
    change (insAll ps (insZero p i)).testBit k = _
    rw [this, testBit_insZero]
    simp [h p (List.mem_cons_self)]

theorem testBit_insAll_mem (ps : List ℕ) (hs : ps.Pairwise (· < ·)) : ∀ (i : ℕ), ∀ p ∈ ps,
    (insAll ps i).testBit p = false := by
  induction ps with
  | nil => intro i p hp; cases hp
  | cons q ps ih =>
    intro i p hp
    rw [List.pairwise_cons] at hs
    change (insAll ps (insZero q i)).testBit p = false
    rcases List.mem_cons.1 hp with rfl | hp
    · rw [testBit_insAll_of_lt ps _ _ (fun r hr => hs.1 r hr), testBit_insZero]; simp
    · exact ih hs.2 _ p hp

theorem insAll_snoc (ps : List ℕ) (p i : ℕ) : insAll (ps ++ [p]) i = insZero p (insAll ps i) := by
  simp [insAll]

/-- Surjectivity of the insertion on the indices whose listed bits are clear. -/
theorem exists_insAll (ps : List ℕ) : ∀ (n i : ℕ), ps.Pairwise (· < ·) → (∀ p ∈ ps, p < n) →
    i < 2 ^ n → (∀ p ∈ ps, i.testBit p = false) →
    ∃ j, j < 2 ^ (n - ps.length) ∧ insAll ps j = i := by
  induction ps using List.reverseRecOn with
  | nil => intro n i _ _ hi _; exact ⟨i, by simpa using hi, rfl⟩
  | append_singleton ps p ih =>
    intro n i hs hn hi hb
    have hpn : p < n := hn p (by simp)
    obtain ⟨m, rfl⟩ : ∃ m, n = m + 1 := ⟨n - 1, by omega⟩
    rw [List.pairwise_append] at hs
    have hlt : ∀ q ∈ ps, q < p := fun q hq => hs.2.2 q hq p (by simp)
    have hd : delBit p i < 2 ^ m := delBit_lt (by omega) hi
    obtain ⟨j, hj, hji⟩ := ih m (delBit p i) hs.1 (fun q hq => by have := hlt q hq; omega) hd
      (fun q hq => by rw [testBit_delBit]; simp [hlt q hq, hb q (by simp [hq])])
    refine ⟨j, ?_, ?_⟩
    · simpa using hj
    · rw [insAll_snoc, hji, insZero_delBit (hb p (by simp))]

theorem length_le_of_pairwise_lt (ps : List ℕ) : ∀ n, ps.Pairwise (· < ·) → (∀ p ∈ ps, p < n) →
    ps.length ≤ n := by
  intro n hs hn
  have hnd : ps.Nodup := hs.imp (fun h => Nat.ne_of_lt h)
  have : ps.toFinset ⊆ Finset.range n := by
    intro p hp; simpa using hn p (by simpa using hp)
  have := Finset.card_le_card this
  rwa [List.toFinset_card_of_nodup hnd, Finset.card_range] at this

theorem onlyLowAux_spec (stop : ℕ) : ∀ (l : List ℕ) (i : ℕ), onlyLowAux stop i l = true →
    ∀ k (hk : k < l.length), l[k] = stop >>> (i + k + 1) := by
  intro l
  induction l with
  | nil => intro i _ k hk; simp at hk
  | cons m ms ih =>
    intro i h k hk
    simp only [onlyLowAux, Bool.and_eq_true, beq_iff_eq] at h
    cases k with
    | zero => simpa using h.1
    | succ k =>
      have := ih (i + 1) h.2 k (by simpa using hk)
      simp only [List.getElem_cons_succ, this]
      congr 1; omega

/-! ### Scheduler invariant -/

variable {t start stride items : ℕ}

/-- Indices claimed by a worker and not yet executed. -/
def pend (start stride items : ℕ) : Worker → Multiset ℕ
  | .idle => 0
  | .run l j => (List.range' (start + j + l) (maxJ stride items l - j) : List ℕ)
  | .done => 0

theorem pend_idle : pend start stride items .idle = 0 := rfl
theorem pend_done : pend start stride items .done = 0 := rfl

structure Inv (start stride items : ℕ) (s : Sys t) : Prop where
  total : (s.trace : Multiset ℕ) + ∑ c, pend start stride items (s.ws c) =
    (List.range' start (min (s.idx * stride) items) : List ℕ)
  done : ∀ c, s.ws c = .done → items ≤ s.idx * stride

theorem sum_update (f : Worker → Multiset ℕ) (ws : Fin t → Worker) (c : Fin t) (x : Worker) :
    (∑ d, f (Function.update ws c x d)) + f (ws c) = (∑ d, f (ws d)) + f x := by
  have h1 : (∑ d, f (Function.update ws c x d)) =
      f x + ∑ d ∈ Finset.univ.erase c, f (ws d) := by
    rw [← Finset.add_sum_erase _ _ (Finset.mem_univ c)]
    simp only [Function.update_self]
    congr 1
    apply Finset.sum_congr rfl
    intro d hd
    rw [Function.update_of_ne (Finset.ne_of_mem_erase hd)]
  have h2 : (∑ d, f (ws d)) = f (ws c) + ∑ d ∈ Finset.univ.erase c, f (ws d) := by
    rw [← Finset.add_sum_erase _ _ (Finset.mem_univ c)]
  rw [h1, h2]
  abel

theorem inv_initial : Inv start stride items (initial t) := by
  constructor
  · simp [initial, pend]
  · intro c h; simp [initial] at h

theorem inv_step {s s' : Sys t} (h : Inv start stride items s)
    (hs : Step t start stride items s s') : Inv start stride items s' := by
  obtain ⟨ht, hd⟩ := h
  cases hs with
  | claimDone c hc hle =>
    constructor
    · have e := sum_update (pend start stride items) s.ws c .done
      rw [hc, pend_idle, pend_done, add_zero, add_zero] at e
      simp only [e]
      rw [ht]
      congr 2
      have : s.idx * stride ≤ (s.idx + 1) * stride := Nat.mul_le_mul_right _ (by omega)
      rw [min_eq_right hle, min_eq_right (hle.trans this)]
    · intro d _
      change items ≤ (s.idx + 1) * stride
      exact hle.trans (Nat.mul_le_mul_right _ (by omega))
  | claimRun c hc hlt =>
    constructor
    · have e := sum_update (pend start stride items) s.ws c (.run (s.idx * stride) 0)
      rw [hc, pend_idle, add_zero] at e
      simp only [e]
      rw [← add_assoc, ht, min_eq_left hlt.le]
      simp only [pend, add_zero, Nat.sub_zero]
      rw [Multiset.coe_add]
      congr 1
      have hm : min ((s.idx + 1) * stride) items
          = s.idx * stride + maxJ stride items (s.idx * stride) := by
        rw [Nat.succ_mul]; unfold maxJ; split_ifs with h <;> omega
      rw [hm, List.range'_append_1]
    · intro d hd'
      by_cases hdc : d = c
      · subst hdc; simp at hd'
      · simp only [Function.update_of_ne hdc] at hd'
        exact absurd (hd d hd') (by omega)
  | exec c l j hc hj =>
    constructor
    · have e := sum_update (pend start stride items) s.ws c (.run l (j + 1))
      rw [hc] at e
      have hsplit : pend start stride items (.run l j) =
          ([start + j + l] : List ℕ) + pend start stride items (.run l (j + 1)) := by
        simp only [pend]
        rw [Multiset.coe_add]
        congr 1
        obtain ⟨r, hr⟩ : ∃ r, maxJ stride items l - j = r + 1 := ⟨maxJ stride items l - j - 1, by omega⟩
        rw [hr, List.range'_succ]
        have : maxJ stride items l - (j + 1) = r := by omega
        rw [this]
        simp only [List.singleton_append, List.cons.injEq, true_and]
        congr 1; omega
      rw [hsplit] at e
      simp only
      rw [← Multiset.coe_add, ← ht, add_assoc]
      congr 1
      have e' : (∑ d, pend start stride items (Function.update s.ws c (Worker.run l (j + 1)) d)) +
          ([start + j + l] : List ℕ) = ∑ d, pend start stride items (s.ws d) := by
        have := e
        rw [← add_assoc] at this
        exact add_right_cancel this
      rw [← e', add_comm]
    · intro d hd'
      by_cases hdc : d = c
      · subst hdc; simp at hd'
      · simp only [Function.update_of_ne hdc] at hd'
        exact hd d hd'
  | chunkEnd c l j hc hj =>
    constructor
    · have e := sum_update (pend start stride items) s.ws c .idle
      rw [hc] at e
      have h0 : pend start stride items (.run l j) = 0 := by
        have : maxJ stride items l - j = 0 := by omega
        simp [pend, this]
      rw [h0, pend_idle, add_zero, add_zero] at e
      simp only [e, ht]
    · intro d hd'
      by_cases hdc : d = c
      · subst hdc; simp at hd'
      · simp only [Function.update_of_ne hdc] at hd'
        exact hd d hd'

theorem inv_reach {s : Sys t} (h : Reach t start stride items s) : Inv start stride items s := by
  induction h with
  | init => exact inv_initial
  | step _ hs ih => exact inv_step ih hs

/-- Work left: strictly decreases with every step (`0 < stride`). -/
def weight (stride items : ℕ) : Worker → ℕ
  | .idle => 1
  | .run l j => 2 + (maxJ stride items l - j)
  | .done => 0

theorem weight_idle : weight stride items .idle = 1 := rfl
theorem weight_done : weight stride items .done = 0 := rfl
theorem weight_run (l j : ℕ) :
    weight stride items (.run l j) = 2 + (maxJ stride items l - j) := rfl

def measure (stride items : ℕ) (s : Sys t) : ℕ :=
  3 * (items - min (s.idx * stride) items) + ∑ c, weight stride items (s.ws c)

theorem sum_update_nat (f : Worker → ℕ) (ws : Fin t → Worker) (c : Fin t) (x : Worker) :
    (∑ d, f (Function.update ws c x d)) + f (ws c) = (∑ d, f (ws d)) + f x := by
  have h1 : (∑ d, f (Function.update ws c x d)) =
      f x + ∑ d ∈ Finset.univ.erase c, f (ws d) := by
    rw [← Finset.add_sum_erase _ _ (Finset.mem_univ c)]
    simp only [Function.update_self]
    congr 1
    apply Finset.sum_congr rfl
    intro d hd
    rw [Function.update_of_ne (Finset.ne_of_mem_erase hd)]
  have h2 : (∑ d, f (ws d)) = f (ws c) + ∑ d ∈ Finset.univ.erase c, f (ws d) := by
    rw [← Finset.add_sum_erase _ _ (Finset.mem_univ c)]
  rw [h1, h2]
  omega

theorem measure_lt (hst : 0 < stride) {s s' : Sys t} (hs : Step t start stride items s s') :
    measure stride items s' < measure stride items s := by
  unfold measure
  cases hs with
  | claimDone c hc hle =>
    have e := sum_update_nat (weight stride items) s.ws c .done
    rw [hc] at e; simp only [weight_idle, weight_done, weight_run] at e
    have : s.idx * stride ≤ (s.idx + 1) * stride := Nat.mul_le_mul_right _ (by omega)
    rw [min_eq_right hle, min_eq_right (hle.trans this)]
    simp only
    omega
  | claimRun c hc hlt =>
    have e := sum_update_nat (weight stride items) s.ws c (.run (s.idx * stride) 0)
    rw [hc] at e; simp only [weight_idle, weight_done, weight_run] at e
    have hm : min ((s.idx + 1) * stride) items
        = s.idx * stride + maxJ stride items (s.idx * stride) := by
      rw [Nat.succ_mul]; unfold maxJ; split_ifs with h <;> omega
    have hpos : 0 < maxJ stride items (s.idx * stride) := by
      unfold maxJ; split_ifs <;> omega
    have hle : s.idx * stride + maxJ stride items (s.idx * stride) ≤ items := by
      rw [← hm]; exact min_le_right _ _
    simp only [hm, min_eq_left hlt.le]
    omega
  | exec c l j hc hj =>
    have e := sum_update_nat (weight stride items) s.ws c (.run l (j + 1))
    rw [hc] at e; simp only [weight_idle, weight_done, weight_run] at e
    simp only
    omega
  | chunkEnd c l j hc hj =>
    have e := sum_update_nat (weight stride items) s.ws c .idle
    rw [hc] at e; simp only [weight_idle, weight_done, weight_run] at e
    simp only
    omega

end Verif.ParFor
