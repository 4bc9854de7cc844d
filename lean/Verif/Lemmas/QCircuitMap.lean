import Verif.Model.QCircuit
import Mathlib.Data.List.Nodup
import Mathlib.Data.List.Sort
import Mathlib.Tactic.Ring

/-! Lemmas about the payload maps and the keys of `QCircuitGate`. -/

namespace Verif.QCirc

open Verif.Matrix2 Verif.Spec.Circuit

/-- The keys of a map are distinct. -/
def PMap.Ok (m : PMap) : Prop := (m.map Prod.fst).Nodup

theorem get_nil (k : ℕ) : PMap.get [] k = none := rfl

theorem get_cons (e : ℕ × Mtrx) (m : PMap) (k : ℕ) :
    PMap.get (e :: m) k = if e.1 = k then some e.2 else m.get k := by
  obtain ⟨a, b⟩ := e
  simp only [PMap.get, List.lookup_cons]
  by_cases h : a = k
  · subst h; simp
  · have : (k == a) = false := by simp; exact fun h' => h h'.symm
    simp [this, h]

theorem get_append (l m : PMap) (k : ℕ) : PMap.get (l ++ m) k = (l.get k).or (m.get k) := by
  induction l with
  | nil => simp [get_nil]
  | cons e l ih =>
    rw [List.cons_append, get_cons, get_cons, ih]
    by_cases h : e.1 = k <;> simp [h]

theorem get_isSome (m : PMap) (k : ℕ) : (m.get k).isSome = true ↔ k ∈ m.map Prod.fst := by
  induction m with
  | nil => simp [get_nil]
  | cons e m ih =>
    rw [get_cons]
    by_cases h : e.1 = k
    · simp [h]
    · rw [if_neg h, ih]; simp [Ne.symm h]

theorem get_eq_none (m : PMap) (k : ℕ) : m.get k = none ↔ k ∉ m.map Prod.fst := by
  rw [← get_isSome]; simp

theorem get_mem {m : PMap} {k : ℕ} {v : Mtrx} (h : m.get k = some v) : (k, v) ∈ m := by
  induction m with
  | nil => simp [get_nil] at h
  | cons e m ih =>
    rw [get_cons] at h
    by_cases he : e.1 = k
    · rw [if_pos he] at h
      obtain ⟨a, b⟩ := e
      simp only [Option.some.injEq] at h he
      subst h; subst he; simp
    · rw [if_neg he] at h
      exact List.mem_cons_of_mem _ (ih h)

theorem mem_get {m : PMap} (hm : m.Ok) {e : ℕ × Mtrx} (h : e ∈ m) : m.get e.1 = some e.2 := by
  induction m with
  | nil => simp at h
  | cons x m ih =>
    rw [get_cons]
    have hx : x.1 ∉ m.map Prod.fst ∧ PMap.Ok m := by
      unfold PMap.Ok at hm; rw [List.map_cons, List.nodup_cons] at hm; exact hm
    rcases List.mem_cons.1 h with rfl | h'
    · simp
    · have : x.1 ≠ e.1 := fun h0 => hx.1 (h0 ▸ List.mem_map_of_mem h')
      rw [if_neg this]; exact ih hx.2 h'

theorem get_emplace (m : PMap) (e : ℕ × Mtrx) (k : ℕ) :
    (m.emplace e).get k = (m.get k).or (if e.1 = k then some e.2 else none) := by
  unfold PMap.emplace
  by_cases h : (m.get e.1).isSome
  · rw [if_pos h]
    by_cases hk : e.1 = k
    · subst hk
      obtain ⟨v, hv⟩ := Option.isSome_iff_exists.1 h
      simp [hv]
    · simp [hk]
  · rw [if_neg h, get_append, get_cons, get_nil]

theorem ok_emplace {m : PMap} (hm : m.Ok) (e : ℕ × Mtrx) : (m.emplace e).Ok := by
  unfold PMap.emplace
  by_cases h : (m.get e.1).isSome
  · rw [if_pos h]; exact hm
  · rw [if_neg h]
    rw [get_isSome] at h
    unfold PMap.Ok
    rw [List.map_append, List.nodup_append]
    refine ⟨hm, by simp, ?_⟩
    intro a ha b hb hab
    simp at hb
    subst hab; subst hb; exact h ha

theorem mem_emplace {m : PMap} {e x : ℕ × Mtrx} (h : x ∈ m.emplace e) : x ∈ m ∨ x = e := by
  unfold PMap.emplace at h
  by_cases hk : (m.get e.1).isSome
  · rw [if_pos hk] at h; exact Or.inl h
  · rw [if_neg hk] at h; simpa using h

/-- Placing a list of entries one after another: the first entry with a key wins. -/
theorem get_foldl_emplace (l acc : PMap) (k : ℕ) : (l.foldl PMap.emplace acc).get k = (acc.get k).or (l.get k) := by
  induction l generalizing acc with
  | nil => simp [get_nil]
  | cons e l ih =>
    rw [List.foldl_cons, ih, get_emplace, get_cons, Option.or_assoc]
    by_cases h : e.1 = k <;> simp [h]

theorem ok_foldl_emplace (l : PMap) {acc : PMap} (h : acc.Ok) : (l.foldl PMap.emplace acc).Ok := by
  induction l generalizing acc with
  | nil => exact h
  | cons e l ih => exact ih (ok_emplace h e)

theorem mem_foldl_emplace {l acc : PMap} {x : ℕ × Mtrx} (h : x ∈ l.foldl PMap.emplace acc) : x ∈ acc ∨ x ∈ l := by
  induction l generalizing acc with
  | nil => exact Or.inl h
  | cons e l ih =>
    rcases ih h with h | h
    · rcases mem_emplace h with h | h
      · exact Or.inl h
      · exact Or.inr (by simp [h])
    · exact Or.inr (List.mem_cons_of_mem _ h)

theorem foldl_emplace_ne_nil {l acc : PMap} (h : acc ≠ [] ∨ l ≠ []) : l.foldl PMap.emplace acc ≠ [] := by
  induction l generalizing acc with
  | nil => simpa using h
  | cons e l ih =>
    refine ih (Or.inl ?_)
    unfold PMap.emplace
    by_cases hk : (acc.get e.1).isSome
    · rw [if_pos hk]; intro h0; rw [h0] at hk; simp [get_nil] at hk
    · rw [if_neg hk]; simp

theorem map_fst_set (m : PMap) (e : ℕ × Mtrx) (h : (m.get e.1).isSome) : (m.set e).map Prod.fst = m.map Prod.fst := by
  unfold PMap.set
  rw [if_pos h, List.map_map]
  apply List.map_congr_left
  intro x _
  by_cases hx : x.1 = e.1 <;> simp [hx]

theorem get_map_set (m : PMap) (e : ℕ × Mtrx) (k : ℕ) :
    PMap.get (m.map (fun x => if x.1 = e.1 then e else x)) k =
      if e.1 = k then (if (m.get k).isSome then some e.2 else none) else m.get k := by
  induction m with
  | nil => simp [get_nil]
  | cons x m ih =>
    rw [List.map_cons, get_cons, get_cons, ih]
    by_cases hx : x.1 = e.1
    · by_cases hk : e.1 = k
      · simp [hx, hk]
      · simp [hx, hk]
    · by_cases hk : e.1 = k
      · have : x.1 ≠ k := fun h => hx (h.trans hk.symm)
        simp [hx, hk, this]
      · simp [hx, hk]

theorem get_set (m : PMap) (e : ℕ × Mtrx) (k : ℕ) : (m.set e).get k = if e.1 = k then some e.2 else m.get k := by
  by_cases h : (m.get e.1).isSome
  · unfold PMap.set
    rw [if_pos h, get_map_set]
    by_cases hk : e.1 = k
    · subst hk; simp [h]
    · simp [hk]
  · unfold PMap.set
    rw [if_neg h, get_append, get_cons, get_nil]
    by_cases hk : e.1 = k
    · subst hk; rw [Option.not_isSome_iff_eq_none] at h; simp [h]
    · simp [hk]

theorem ok_set {m : PMap} (hm : m.Ok) (e : ℕ × Mtrx) : (m.set e).Ok := by
  by_cases h : (m.get e.1).isSome
  · unfold PMap.Ok; rw [map_fst_set _ _ h]; exact hm
  · have := ok_emplace hm e
    unfold PMap.emplace at this
    rw [if_neg h] at this
    unfold PMap.set
    rw [if_neg h]; exact this

theorem mem_set {m : PMap} {e x : ℕ × Mtrx} (h : x ∈ m.set e) : x ∈ m ∨ x = e := by
  unfold PMap.set at h
  by_cases hk : (m.get e.1).isSome
  · rw [if_pos hk, List.mem_map] at h
    obtain ⟨y, hy, rfl⟩ := h
    by_cases hy' : y.1 = e.1
    · rw [if_pos hy']; exact Or.inr rfl
    · rw [if_neg hy']; exact Or.inl hy
  · rw [if_neg hk] at h; simpa using h

theorem set_ne_nil (m : PMap) (e : ℕ × Mtrx) : m.set e ≠ [] := by
  intro h
  have := get_set m e e.1
  rw [h, get_nil, if_pos rfl] at this
  cases this

theorem get_erase (m : PMap) (j k : ℕ) : (m.erase j).get k = if j = k then none else m.get k := by
  induction m with
  | nil => simp [PMap.erase, get_nil]
  | cons e m ih =>
    unfold PMap.erase at ih ⊢
    rw [List.filter_cons, get_cons]
    by_cases h : e.1 = j
    · simp only [h, ne_eq, not_true_eq_false, decide_false, Bool.false_eq_true, if_false, ih]
      by_cases hk : j = k <;> simp [hk]
    · simp only [ne_eq, h, not_false_eq_true, decide_true, if_true]
      rw [get_cons, ih]
      by_cases hk : j = k
      · subst hk; simp [h]
      · simp [hk]

theorem ok_erase {m : PMap} (hm : m.Ok) (j : ℕ) : (m.erase j).Ok := by
  unfold PMap.Ok PMap.erase at *
  exact hm.sublist (List.Sublist.map _ List.filter_sublist)

theorem mem_erase {m : PMap} {j : ℕ} {x : ℕ × Mtrx} (h : x ∈ m.erase j) : x ∈ m := by
  unfold PMap.erase at h
  exact (List.mem_filter.1 h).1

/-! ### Keys -/

variable {Q : Type} [LinearOrder Q]

theorem key_testBit (cs : List Q) (b : Q → Bool) (i : ℕ) : (key cs b).testBit i = (cs[i]?.map b).getD false := by
  induction cs generalizing i with
  | nil => simp [key]
  | cons c cs ih =>
    cases i with
    | zero => cases h : b c <;> simp [key, Nat.testBit_zero, Nat.add_mul_mod_self_left, h]
    | succ i =>
      have : (key (c :: cs) b) / 2 = key cs b := by
        simp only [key]; cases b c <;> simp <;> omega
      rw [Nat.testBit_succ, this, ih]; simp

theorem key_lt (cs : List Q) (b : Q → Bool) : key cs b < 2 ^ cs.length := by
  induction cs with
  | nil => simp [key]
  | cons c cs ih =>
    simp only [key, List.length_cons, pow_succ]
    cases b c <;> simp <;> omega

theorem key_congr {cs : List Q} {b b' : Q → Bool} (h : ∀ c ∈ cs, b c = b' c) : key cs b = key cs b' := by
  induction cs with
  | nil => rfl
  | cons c cs ih =>
    simp only [key]
    rw [h c (by simp), ih (fun c hc => h c (List.mem_cons_of_mem _ hc))]

theorem key_update {cs : List Q} {t : Q} (h : t ∉ cs) (b : Q → Bool) (v : Bool) :
    key cs (Function.update b t v) = key cs b := by
  apply key_congr
  intro c hc
  rw [Function.update_of_ne]
  rintro rfl; exact h hc

theorem testBit_andNot (a m i : ℕ) : (andNot a m).testBit i = (a.testBit i && !m.testBit i) := by
  unfold andNot
  rw [Nat.testBit_xor, Nat.testBit_and]
  cases a.testBit i <;> cases m.testBit i <;> rfl

theorem testBit_spread (p k i : ℕ) :
    (spread p k).testBit i = if i < p then k.testBit i else if i = p then false else k.testBit (i - 1) := by
  unfold spread
  simp only [Nat.testBit_or, Nat.testBit_and, Nat.testBit_shiftLeft, testBit_andNot, Nat.testBit_two_pow_sub_one]
  rcases lt_trichotomy i p with h | h | h
  · have h1 : i - 1 < p := by omega
    simp [h, h1]
  · subst h
    cases i with
    | zero => simp
    | succ i => simp
  · have h1 : ¬ i < p := by omega
    have h2 : ¬ i = p := by omega
    have h3 : ¬ i - 1 < p := by omega
    have h4 : 1 ≤ i := by omega
    simp [h1, h2, h3, h4]

theorem testBit_squeeze (p k i : ℕ) :
    (squeeze p k).testBit i = if i < p then k.testBit i else k.testBit (i + 1) := by
  unfold squeeze
  simp only [Nat.testBit_or, Nat.testBit_and, Nat.testBit_shiftRight, testBit_andNot, Nat.testBit_two_pow_sub_one,
    Nat.testBit_two_pow]
  by_cases h : i < p
  · have h2 : 1 + i < p ∨ p = 1 + i := by omega
    rcases h2 with h2 | h2 <;> simp [h, h2]
  · have h1 : ¬ 1 + i < p := by omega
    have h2 : ¬ p = 1 + i := by omega
    rw [Nat.add_comm i 1]
    simp [h, h1, h2]

/-- The key with bit `p` inserted. -/
def insKey (p : ℕ) (e : Bool) (k : ℕ) : ℕ := spread p k ||| (if e then 2 ^ p else 0)

theorem testBit_insKey (p : ℕ) (e : Bool) (k i : ℕ) :
    (insKey p e k).testBit i = if i < p then k.testBit i else if i = p then e else k.testBit (i - 1) := by
  unfold insKey
  rw [Nat.testBit_or, testBit_spread]
  cases e
  · simp
  · simp only [if_true, Nat.testBit_two_pow]
    rcases lt_trichotomy i p with h | h | h
    · have : ¬ p = i := by omega
      simp [h, this]
    · subst h; simp
    · have h1 : ¬ i < p := by omega
      have h2 : ¬ i = p := by omega
      have h3 : ¬ p = i := by omega
      simp [h1, h2, h3]

theorem squeeze_insKey (p : ℕ) (e : Bool) (k : ℕ) : squeeze p (insKey p e k) = k := by
  apply Nat.eq_of_testBit_eq
  intro i
  rw [testBit_squeeze, testBit_insKey, testBit_insKey]
  by_cases h : i < p
  · simp [h]
  · have h1 : ¬ i + 1 < p := by omega
    have h2 : ¬ i + 1 = p := by omega
    simp [h, h1, h2]

theorem insKey_squeeze (p k : ℕ) : insKey p (k.testBit p) (squeeze p k) = k := by
  apply Nat.eq_of_testBit_eq
  intro i
  rw [testBit_insKey, testBit_squeeze, testBit_squeeze]
  rcases lt_trichotomy i p with h | h | h
  · simp [h]
  · subst h; simp
  · have h1 : ¬ i < p := by omega
    have h2 : ¬ i = p := by omega
    have h3 : ¬ i - 1 < p := by omega
    have h4 : i - 1 + 1 = i := by omega
    simp [h1, h2, h3, h4]

theorem insKey_eq_iff (p : ℕ) (e : Bool) (k j : ℕ) : insKey p e k = j ↔ squeeze p j = k ∧ j.testBit p = e := by
  constructor
  · rintro rfl
    exact ⟨squeeze_insKey p e k, by rw [testBit_insKey]; simp⟩
  · rintro ⟨rfl, rfl⟩
    exact insKey_squeeze p j

theorem key_append_cons (l1 l2 : List Q) (c : Q) (b : Q → Bool) :
    key (l1 ++ c :: l2) b = insKey l1.length (b c) (key (l1 ++ l2) b) := by
  apply Nat.eq_of_testBit_eq
  intro i
  rw [testBit_insKey, key_testBit, key_testBit, key_testBit]
  rcases lt_trichotomy i l1.length with h | h | h
  · simp [h, List.getElem?_append_left h]
  · subst h; simp
  · have h1 : ¬ i < l1.length := by omega
    have h2 : ¬ i = l1.length := by omega
    have h3 : l1.length ≤ i - 1 := by omega
    have h4 : i - l1.length = (i - 1 - l1.length) + 1 := by omega
    rw [if_neg h1, if_neg h2, List.getElem?_append_right (by omega), List.getElem?_append_right h3, h4]
    simp

theorem insKey_lt {p k n : ℕ} (e : Bool) (hp : p ≤ n) (hk : k < 2 ^ n) : insKey p e k < 2 ^ (n + 1) := by
  apply Nat.lt_pow_two_of_testBit
  intro i hi
  rw [testBit_insKey]
  have h1 : ¬ i < p := by omega
  have h2 : ¬ i = p := by omega
  simp only [h1, h2, if_false]
  exact Nat.testBit_lt_two_pow (lt_of_lt_of_le hk (Nat.pow_le_pow_right (by omega) (by omega)))

theorem squeeze_lt {p k n : ℕ} (hp : p ≤ n) (hk : k < 2 ^ (n + 1)) : squeeze p k < 2 ^ n := by
  apply Nat.lt_pow_two_of_testBit
  intro i hi
  rw [testBit_squeeze]
  have h1 : ¬ i < p := by omega
  simp only [h1, if_false]
  exact Nat.testBit_lt_two_pow (lt_of_lt_of_le hk (Nat.pow_le_pow_right (by omega) (by omega)))

theorem spread_eq (p k : ℕ) : spread p k = insKey p false k := by simp [insKey]

theorem spread_or (p k : ℕ) : spread p k ||| 2 ^ p = insKey p true k := by simp [insKey]

end Verif.QCirc
