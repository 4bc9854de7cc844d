import Verif.Model.SwapMap
import Mathlib.Data.Nat.Bitwise
import Mathlib.Logic.Equiv.Basic
import Mathlib.Tactic.Ring
import Mathlib.Data.Finset.Range
import Mathlib.Data.Finset.Card

/-!
# C48: the qubit relabelling is a bijection
-/

namespace Verif.SwapMap

/-- The specification: the label of position `i` after a history of swaps, by exchanging positions. -/
def label : List (ℕ × ℕ) → ℕ → ℕ
  | [], i => i
  | (a, b) :: l, i => Equiv.swap a b (label l i)

theorem swap_get {m m' : List ℕ} {a b : ℕ} (h : swap m a b = some m') :
    a < m.length ∧ b < m.length ∧ m'.length = m.length ∧ ∀ i, m'[i]! = m[Equiv.swap a b i]! := by
  unfold swap at h
  split at h
  case h_2 => cases h
  rename_i x y hx hy
  obtain ⟨ha, hx⟩ := List.getElem?_eq_some_iff.mp hx
  obtain ⟨hb, hy⟩ := List.getElem?_eq_some_iff.mp hy
  rw [Option.some.injEq] at h
  subst h
  refine ⟨ha, hb, by simp, fun i => ?_⟩
  rw [Equiv.swap_apply_def]
  simp only [List.getElem!_eq_getElem?_getD, List.getElem?_set, List.length_set]
  split_ifs with h1 h2 h3 h4 h5 <;> subst_vars <;> simp_all

theorem swap_valid (m : List ℕ) {a b : ℕ} (ha : a < m.length) (hb : b < m.length) : ∃ m', swap m a b = some m' := by
  unfold swap
  rw [List.getElem?_eq_getElem ha, List.getElem?_eq_getElem hb]
  exact ⟨_, rfl⟩

/-- Every history of swaps of existing qubits runs; position `i` then carries the label that exchanging positions gives it. -/
theorem swaps_label (n : ℕ) (l : List (ℕ × ℕ)) (hl : ∀ p ∈ l, p.1 < n ∧ p.2 < n) (m : List ℕ) (hm : m.length = n) :
    ∃ m', swaps m l = some m' ∧ m'.length = n ∧ ∀ i, m'[i]! = m[label l i]! := by
  induction l generalizing m with
  | nil => exact ⟨m, rfl, hm, fun i => rfl⟩
  | cons p l ih =>
    obtain ⟨a, b⟩ := p
    have hp := hl (a, b) List.mem_cons_self
    obtain ⟨m1, h1⟩ := swap_valid m (a := a) (b := b) (by rw [hm]; exact hp.1) (by rw [hm]; exact hp.2)
    obtain ⟨-, -, h2, h3⟩ := swap_get h1
    obtain ⟨m', h4, h5, h6⟩ := ih (fun p hp => hl p (List.mem_cons_of_mem _ hp)) m1 (h2.trans hm)
    refine ⟨m', ?_, h5, fun i => ?_⟩
    · rw [swaps, h1]; exact h4
    · rw [h6, h3]; rfl

theorem label_lt {n : ℕ} (l : List (ℕ × ℕ)) (hl : ∀ p ∈ l, p.1 < n ∧ p.2 < n) {i : ℕ} (hi : i < n) : label l i < n := by
  induction l with
  | nil => exact hi
  | cons p l ih =>
    obtain ⟨a, b⟩ := p
    have hp := hl (a, b) List.mem_cons_self
    have := ih fun p hp => hl p (List.mem_cons_of_mem _ hp)
    rw [label, Equiv.swap_apply_def]
    split_ifs <;> [exact hp.2; exact hp.1; exact this]

theorem label_inj (l : List (ℕ × ℕ)) : Function.Injective (label l) := by
  induction l with
  | nil => exact fun _ _ h => h
  | cons p l ih => exact fun x y h => ih ((Equiv.swap p.1 p.2).injective h)

/-- After any history the labels are the numbers below `n`, each once. -/
theorem swaps_bijective (n : ℕ) (l : List (ℕ × ℕ)) (hl : ∀ p ∈ l, p.1 < n ∧ p.2 < n) :
    ∃ m, swaps (init n) l = some m ∧ m.Perm (List.range n) ∧ ∀ i < n, m[i]! = label l i := by
  obtain ⟨m, h1, h2, h3⟩ := swaps_label n l hl (init n) (by simp [init])
  have hget : ∀ i < n, m[i]! = label l i := by
    intro i hi
    rw [h3]
    have := label_lt l hl hi
    simp [init, this]
  refine ⟨m, h1, ?_, hget⟩
  have hm : m = (List.range n).map (label l) := by
    apply List.ext_getElem (by simp [h2])
    intro i hi hi'
    have := hget i (by omega)
    rw [getElem!_pos m i hi] at this
    simp [this]
  rw [hm, List.perm_ext_iff_of_nodup]
  · intro a
    simp only [List.mem_map, List.mem_range]
    constructor
    · rintro ⟨i, hi, rfl⟩; exact label_lt l hl hi
    · intro ha
      have := Finset.surj_on_of_inj_on_of_card_le (s := Finset.range n) (t := Finset.range n) (fun i _ => label l i)
        (fun i hi => Finset.mem_range.mpr (label_lt l hl (Finset.mem_range.mp hi))) (fun i j _ _ h => label_inj l h) le_rfl a
        (Finset.mem_range.mpr ha)
      obtain ⟨i, hi, h⟩ := this
      exact ⟨i, Finset.mem_range.mp hi, h.symm⟩
  · exact List.Nodup.map (label_inj l) List.nodup_range
  · exact List.nodup_range

/-- A relabelling: `n` different labels below `n`. -/
def IsMap (n : ℕ) (m : List ℕ) : Prop := m.Perm (List.range n)

theorem shift_test (x i : ℕ) : (x >>> i &&& 1 ≠ 0) ↔ x.testBit i = true := by
  rw [Nat.testBit, Nat.and_comm]; simp

/-- The loop shared by both directions: every `i` below `k` with `p i` contributes bit `g i`. -/
theorem fold_bits (k : ℕ) (p : ℕ → Prop) [DecidablePred p] (g : ℕ → ℕ) (u v : ℕ → Prop) [DecidablePred u] [DecidablePred v]
    (hu : ∀ i < k, ¬u i) (hv : ∀ i < k, ¬v i) :
    ∃ r, (List.range k).foldlM (fun acc i => if u i then none else if p i then (if v i then none else
      some (acc ||| 1 <<< g i)) else some acc) 0 = some r ∧ ∀ j, r.testBit j = true ↔ ∃ i < k, p i ∧ g i = j := by
  induction k with
  | zero => exact ⟨0, rfl, fun j => by simp⟩
  | succ k ih =>
    obtain ⟨r, h1, h2⟩ := ih (fun i hi => hu i (by omega)) (fun i hi => hv i (by omega))
    rw [List.range_succ, List.foldlM_append, h1]
    by_cases hp : p k
    · refine ⟨r ||| 1 <<< g k, ?_, fun j => ?_⟩
      · simp [hu k (by omega), hv k (by omega), hp]
      · rw [Nat.testBit_or, Bool.or_eq_true, h2, Nat.one_shiftLeft, Nat.testBit_two_pow]
        constructor
        · rintro (⟨i, hi, h3, h4⟩ | h)
          · exact ⟨i, by omega, h3, h4⟩
          · exact ⟨k, by omega, hp, by simpa using h⟩
        · rintro ⟨i, hi, h3, h4⟩
          rcases Nat.lt_succ_iff_lt_or_eq.mp hi with h5 | rfl
          · exact Or.inl ⟨i, h5, h3, h4⟩
          · exact Or.inr (by simpa using h4)
    · refine ⟨r, ?_, fun j => ?_⟩
      · simp [hu k (by omega), hp]
      · rw [h2]
        constructor
        · rintro ⟨i, hi, h3⟩; exact ⟨i, by omega, h3⟩
        · rintro ⟨i, hi, h3, h4⟩
          rcases Nat.lt_succ_iff_lt_or_eq.mp hi with h5 | rfl
          · exact ⟨i, h5, h3, h4⟩
          · exact absurd h3 hp

theorem IsMap.get {n : ℕ} {m : List ℕ} (h : IsMap n m) :
    m.length = n ∧ (∀ i < n, m[i]! < n) ∧ (∀ i < n, ∀ j < n, m[i]! = m[j]! → i = j) ∧ ∀ j < n, ∃ i < n, m[i]! = j := by
  have hl : m.length = n := by simpa using h.length_eq
  refine ⟨hl, fun i hi => ?_, fun i hi j hj hij => ?_, fun j hj => ?_⟩
  · rw [getElem!_pos m i (by omega)]
    exact List.mem_range.mp (h.subset (List.getElem_mem _))
  · rw [getElem!_pos m i (by omega), getElem!_pos m j (by omega)] at hij
    exact (List.Nodup.getElem_inj_iff (h.nodup_iff.mpr List.nodup_range)).mp hij
  · obtain ⟨i, hi, h2⟩ := List.getElem_of_mem (h.symm.subset (List.mem_range.mpr hj))
    exact ⟨i, by omega, by rw [getElem!_pos m i hi]; exact h2⟩

/-- `map` moves bit `i` to the position labelled `m[i]`. -/
theorem map_bits {n : ℕ} {m : List ℕ} (h : IsMap n m) (hn : n ≤ 128) (perm : ℕ) :
    ∃ q, map m perm = some q ∧ q < 2 ^ n ∧ ∀ i < n, q.testBit m[i]! = perm.testBit i := by
  obtain ⟨hl, hlt, hinj, -⟩ := h.get
  obtain ⟨r, h1, h2⟩ := fold_bits m.length (fun i => perm >>> i &&& 1 ≠ 0) (fun i => m[i]!) (fun i => 128 ≤ i)
    (fun i => 128 ≤ m[i]!) (fun i hi => by omega) (fun i hi => by have := hlt i (by omega); omega)
  refine ⟨r, h1, ?_, fun i hi => ?_⟩
  · refine Nat.lt_pow_two_of_testBit r fun j hj => ?_
    rw [← Bool.not_eq_true]
    intro hb
    obtain ⟨i, hi, -, h4⟩ := (h2 j).mp hb
    have := hlt i (by omega)
    omega
  · rw [Bool.eq_iff_iff, h2]
    constructor
    · rintro ⟨k, hk, h3, h4⟩
      rw [hinj k (by omega) i hi h4] at h3
      exact (shift_test perm i).mp h3
    · intro hb
      exact ⟨i, by omega, (shift_test perm i).mpr hb, rfl⟩

/-- `inverseMap` reads bit `i` from the position labelled `m[i]`. -/
theorem inverseMap_bits {n : ℕ} {m : List ℕ} (h : IsMap n m) (hn : n ≤ 128) (perm : ℕ) :
    ∃ q, inverseMap m perm = some q ∧ q < 2 ^ n ∧ ∀ i < n, q.testBit i = perm.testBit m[i]! := by
  obtain ⟨hl, hlt, -, -⟩ := h.get
  obtain ⟨r, h1, h2⟩ := fold_bits m.length (fun i => perm >>> m[i]! &&& 1 ≠ 0) (fun i => i) (fun i => 128 ≤ m[i]!)
    (fun i => 128 ≤ i) (fun i hi => by have := hlt i (by omega); omega) (fun i hi => by omega)
  refine ⟨r, h1, ?_, fun i hi => ?_⟩
  · refine Nat.lt_pow_two_of_testBit r fun j hj => ?_
    rw [← Bool.not_eq_true]
    intro hb
    obtain ⟨i, hi, -, h4⟩ := (h2 j).mp hb
    omega
  · rw [Bool.eq_iff_iff, h2]
    constructor
    · rintro ⟨k, hk, h3, rfl⟩
      exact (shift_test perm _).mp h3
    · intro hb
      exact ⟨i, by omega, (shift_test perm _).mpr hb, rfl⟩

theorem eq_of_bits {n x y : ℕ} (hx : x < 2 ^ n) (hy : y < 2 ^ n) (h : ∀ i < n, x.testBit i = y.testBit i) : x = y := by
  refine Nat.eq_of_testBit_eq fun i => ?_
  by_cases hi : i < n
  · exact h i hi
  · have : 2 ^ n ≤ 2 ^ i := Nat.pow_le_pow_right (by norm_num) (by omega)
    rw [Nat.testBit_lt_two_pow (by omega), Nat.testBit_lt_two_pow (by omega)]

/-- After any history of swaps the two directions undo each other on the `2 ^ n` basis states. -/
theorem map_inverseMap (n : ℕ) (hn : n ≤ 128) (l : List (ℕ × ℕ)) (hl : ∀ p ∈ l, p.1 < n ∧ p.2 < n) :
    ∃ m, swaps (init n) l = some m ∧ ∀ x < 2 ^ n,
      (∃ y, map m x = some y ∧ y < 2 ^ n ∧ inverseMap m y = some x ∧ ∀ i < n, y.testBit (label l i) = x.testBit i) ∧
      (∃ y, inverseMap m x = some y ∧ y < 2 ^ n ∧ map m y = some x ∧ ∀ i < n, y.testBit i = x.testBit (label l i)) := by
  obtain ⟨m, h1, h2, h3⟩ := swaps_bijective n l hl
  have hm : IsMap n m := h2
  refine ⟨m, h1, fun x hx => ⟨?_, ?_⟩⟩
  · obtain ⟨y, e1, e2, e3⟩ := map_bits hm hn x
    obtain ⟨z, f1, f2, f3⟩ := inverseMap_bits hm hn y
    have : z = x := eq_of_bits f2 hx fun i hi => by rw [f3 i hi, e3 i hi]
    rw [this] at f1
    exact ⟨y, e1, e2, f1, fun i hi => by rw [← h3 i hi, e3 i hi]⟩
  · obtain ⟨y, e1, e2, e3⟩ := inverseMap_bits hm hn x
    obtain ⟨z, f1, f2, f3⟩ := map_bits hm hn y
    have : z = x := eq_of_bits f2 hx fun j hj => by
      obtain ⟨i, hi, rfl⟩ := hm.get.2.2.2 j hj
      rw [f3 i hi, e3 i hi]
    rw [this] at f1
    exact ⟨y, e1, e2, f1, fun i hi => by rw [← h3 i hi, e3 i hi]⟩

/-- A swap of a qubit that is not there is undefined. -/
theorem swap_out_of_range (m : List ℕ) (a b : ℕ) : swap m a b = none ↔ m.length ≤ a ∨ m.length ≤ b := by
  constructor
  · intro h
    by_contra hc
    push Not at hc
    obtain ⟨m', h'⟩ := swap_valid m hc.1 hc.2
    rw [h] at h'; cases h'
  · intro h
    cases h' : swap m a b with
    | none => rfl
    | some m' => obtain ⟨h1, h2, -⟩ := swap_get h'; omega

/-- Three swaps of four qubits, which do not commute. -/
example : swaps (init 4) [(0, 1), (1, 2), (1, 3)] = some [1, 3, 0, 2] ∧ map [1, 3, 0, 2] 0b0110 = some 0b1001 ∧
    inverseMap [1, 3, 0, 2] 0b1001 = some 0b0110 := by decide

end Verif.SwapMap
