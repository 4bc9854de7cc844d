import Verif.Lemmas.EngineArith
import Mathlib.Data.Nat.Bitwise

/-!
Helper lemmas for the controlled multiplications.
-/

namespace Verif.Engine

open Verif.Spec Verif.BlockFold Verif.ParFor

theorem testBit_partMask {cs : List ℕ} {j q : ℕ} : (partControlMask cs j).testBit q =
    decide (∃ k < cs.length, cs.getD k 0 = q ∧ j.testBit k = true) := by
  unfold partControlMask
  have : ∀ (l : List ℕ) (acc : ℕ), (l.foldl
      (fun acc k => if (j >>> k) &&& 1 ≠ 0 then acc ||| 2 ^ (cs.getD k 0) else acc) acc).testBit q =
      (acc.testBit q || decide (∃ k ∈ l, cs.getD k 0 = q ∧ j.testBit k = true)) := by
    intro l
    induction l with
    | nil => intro acc; simp
    | cons y l ih =>
      intro acc
      rw [List.foldl_cons, ih]
      have hb : (j >>> y) &&& 1 ≠ 0 ↔ j.testBit y = true := by
        rw [Nat.and_one_is_mod, Nat.testBit_eq_decide_div_mod_eq, Nat.shiftRight_eq_div_pow]
        simp
      by_cases h : j.testBit y = true
      · rw [if_pos (hb.2 h), Nat.testBit_or, Nat.testBit_two_pow]
        simp [h, Bool.or_assoc]
      · rw [if_neg (fun hh => h (hb.1 hh))]
        simp [h]
  rw [this]
  simp

theorem partMask_get {cs : List ℕ} (hnd : cs.Nodup) {j k : ℕ} (hk : k < cs.length) :
    (partControlMask cs j).testBit (cs.getD k 0) = j.testBit k := by
  rw [testBit_partMask]
  rw [Bool.eq_iff_iff, decide_eq_true_eq]
  constructor
  · rintro ⟨k', hk', h1, h2⟩
    rw [List.getD_eq_getElem _ _ hk', List.getD_eq_getElem _ _ hk] at h1
    rw [(List.Nodup.getElem_inj_iff hnd).1 h1] at h2
    exact h2
  · intro h; exact ⟨k, hk, rfl, h⟩

theorem partMask_off {cs : List ℕ} {j q : ℕ} (hq : q ∉ cs) : (partControlMask cs j).testBit q = false := by
  rw [testBit_partMask, decide_eq_false_iff_not]
  rintro ⟨k, hk, h1, -⟩
  apply hq
  rw [← h1, List.getD_eq_getElem _ _ hk]
  exact List.getElem_mem hk

theorem partMask_zero (cs : List ℕ) : partControlMask cs 0 = 0 := by
  apply Nat.eq_of_testBit_eq
  intro q
  rw [testBit_partMask]; simp

/-- The control part of a basis state, as an index. -/
theorem exists_part {cs : List ℕ} (hnd : cs.Nodup) (i : ℕ) : ∃ j < 2 ^ cs.length,
    ∀ q ∈ cs, (partControlMask cs j).testBit q = i.testBit q := by
  refine ⟨Nat.ofBits (fun k : Fin cs.length => i.testBit (cs.getD k 0)), Nat.ofBits_lt_two_pow _, ?_⟩
  intro q hq
  obtain ⟨k, hk, rfl⟩ := List.getElem_of_mem hq
  rw [← List.getD_eq_getElem _ 0 hk, partMask_get hnd hk, Nat.testBit_ofBits_lt _ _ hk]

theorem part_lt {cs : List ℕ} (hnd : cs.Nodup) {j : ℕ} (hj : j < 2 ^ cs.length) :
    j < 2 ^ cs.length - 1 ↔ ∃ q ∈ cs, (partControlMask cs j).testBit q = false := by
  constructor
  · intro h
    by_contra hc
    push Not at hc
    have : j = 2 ^ cs.length - 1 := by
      apply Nat.eq_of_testBit_eq
      intro k
      rw [Nat.testBit_two_pow_sub_one]
      by_cases hk : k < cs.length
      · have h1 := hc (cs.getD k 0) (by rw [List.getD_eq_getElem _ _ hk]; exact List.getElem_mem hk)
        rw [partMask_get hnd hk] at h1
        simp [hk, h1]
      · rw [bits_ge hj hk]; simp [hk]
    omega
  · rintro ⟨q, hq, hf⟩
    obtain ⟨k, hk, rfl⟩ := List.getElem_of_mem hq
    rw [← List.getD_eq_getElem _ 0 hk, partMask_get hnd hk] at hf
    have : j ≠ 2 ^ cs.length - 1 := by
      rintro rfl
      rw [Nat.testBit_two_pow_sub_one] at hf
      simp [hk] at hf
    omega

/-- The writes of one iteration. -/
noncomputable def ctrlWrites (cs : List ℕ) (out inn : ℕ → ℕ) (old : ℕ → ℂ) (x : ℕ) : List (ℕ × ℂ) :=
  (out x, old (inn x)) :: (x, old x) :: (List.range' 1 (2 ^ cs.length - 1 - 1)).map
    fun j => (x ||| partControlMask cs j, old (x ||| partControlMask cs j))

theorem ctrl_fold_eq (cs : List ℕ) (out inn : ℕ → ℕ) (old : ℕ → ℂ) : ∀ (l : List ℕ) (init : ℕ → ℂ),
    l.foldl (ctrlStep cs out inn old) init = writes init (l.flatMap (ctrlWrites cs out inn old)) := by
  intro l
  induction l with
  | nil => intro init; rfl
  | cons x l ih =>
    intro init
    rw [List.foldl_cons, ih, List.flatMap_cons]
    unfold writes
    rw [List.foldl_append]
    congr 1
    unfold ctrlStep ctrlWrites
    rw [List.foldl_cons, List.foldl_cons, List.foldl_map]

/-- The loop of the controlled multiplications. `T` describes the image of a state with all controls set and a
cleared register. -/
theorem ctrl_loop {σ : List ℕ → List ℕ} (hσ : IsSched σ) {n c l : ℕ} {cs : List ℕ} (hn : n ≤ 64) (hcl : c + l ≤ n)
    (hne : cs ≠ []) (hnd : cs.Nodup) (hb : ∀ q ∈ cs, q < n) (hd : ∀ q ∈ cs, q < c ∨ c + l ≤ q) {old : ℕ → ℂ}
    {out inn : ℕ → ℕ}
    (hall : ∀ x < 2 ^ n, field c l x = 0 → (∀ q ∈ cs, x.testBit q = false) → AllAre true cs (out x))
    (hinj : ∀ x < 2 ^ n, field c l x = 0 → (∀ q ∈ cs, x.testBit q = false) →
      ∀ y < 2 ^ n, field c l y = 0 → (∀ q ∈ cs, y.testBit q = false) → out x = out y → old (inn x) = old (inn y)) :
    let a := (σ (parForMaskPlan 64 0 (2 ^ n) (skipPows cs c l))).foldl (ctrlStep cs out inn old) (fun _ => 0)
    (∀ x < 2 ^ n, field c l x = 0 → (∀ q ∈ cs, x.testBit q = false) → a (out x) = old (inn x)) ∧
    (∀ i < 2 ^ n, field c l i = 0 → ¬ AllAre true cs i → a i = old i) ∧
    (∀ i, field c l i ≠ 0 → ¬ AllAre true cs i → a i = 0) := by
  intro a
  have hps : skipPows cs c l = sortPows ((cs ++ (List.range l).map (c + ·)).map pow2) := by
    unfold skipPows
    rw [List.map_append, List.map_map]
    rfl
  have hnd' : (cs ++ (List.range l).map (c + ·)).Nodup := by
    rw [List.nodup_append]
    refine ⟨hnd, (List.nodup_range).map (fun a b h => by omega), ?_⟩
    intro q hq q' hq' heq
    rw [List.mem_map] at hq'
    obtain ⟨k, hk, rfl⟩ := hq'
    rw [List.mem_range] at hk
    have := hd q hq
    omega
  have hb' : ∀ q ∈ cs ++ (List.range l).map (c + ·), q < n := by
    intro q hq
    rw [List.mem_append, List.mem_map] at hq
    rcases hq with hq | ⟨k, hk, rfl⟩
    · exact hb q hq
    · rw [List.mem_range] at hk; omega
  have hm : ∀ x, x ∈ σ (parForMaskPlan 64 0 (2 ^ n) (skipPows cs c l)) ↔
      x < 2 ^ n ∧ field c l x = 0 ∧ ∀ q ∈ cs, x.testBit q = false := by
    intro x
    rw [hps, (mem_maskPlan hσ hnd' hb' hn).2, field_eq_zero]
    constructor
    · rintro ⟨h1, h2⟩
      refine ⟨h1, fun k hk1 hk2 => h2 k ?_, fun q hq => h2 q (by simp [hq])⟩
      rw [List.mem_append, List.mem_map]
      exact Or.inr ⟨k - c, by rw [List.mem_range]; omega, by omega⟩
    · rintro ⟨h1, h2, h3⟩
      refine ⟨h1, fun p hp => ?_⟩
      rw [List.mem_append, List.mem_map] at hp
      rcases hp with hp | ⟨k, hk, rfl⟩
      · exact h3 p hp
      · rw [List.mem_range] at hk; exact h2 _ (by omega) (by omega)
  have ha : a = writes (fun _ => 0)
      ((σ (parForMaskPlan 64 0 (2 ^ n) (skipPows cs c l))).flatMap (ctrlWrites cs out inn old)) := ctrl_fold_eq _ _ _ _ _ _
  have hlen : 0 < cs.length := List.length_pos_iff.2 hne
  have hpl : 1 < 2 ^ cs.length := Nat.one_lt_two_pow (by omega)
  -- the pairs written
  have hpair : ∀ p, p ∈ (σ (parForMaskPlan 64 0 (2 ^ n) (skipPows cs c l))).flatMap (ctrlWrites cs out inn old) ↔
      ∃ x, (x < 2 ^ n ∧ field c l x = 0 ∧ ∀ q ∈ cs, x.testBit q = false) ∧
        (p = (out x, old (inn x)) ∨ ∃ j < 2 ^ cs.length - 1,
          p = (x ||| partControlMask cs j, old (x ||| partControlMask cs j))) := by
    intro p
    rw [List.mem_flatMap]
    refine exists_congr fun x => ?_
    rw [hm x]
    refine and_congr_right fun _ => ?_
    unfold ctrlWrites
    rw [List.mem_cons, List.mem_cons, List.mem_map]
    refine or_congr_right ?_
    constructor
    · rintro (h | ⟨j, hj, h⟩)
      · exact ⟨0, by omega, by rw [partMask_zero, Nat.or_zero]; exact h⟩
      · rw [List.mem_range'_1] at hj
        exact ⟨j, by omega, h.symm⟩
    · rintro ⟨j, hj, h⟩
      rcases Nat.eq_zero_or_pos j with h0 | h0
      · left; rw [h0, partMask_zero, Nat.or_zero] at h; exact h
      · right; exact ⟨j, by rw [List.mem_range'_1]; omega, h.symm⟩
  have hpart : ∀ x j, (∀ q ∈ cs, x.testBit q = false) → j < 2 ^ cs.length - 1 →
      ¬ AllAre true cs (x ||| partControlMask cs j) := by
    intro x j hx hj hA
    obtain ⟨q, hq, hf⟩ := (part_lt hnd (by omega)).1 hj
    have := hA q hq
    rw [Nat.testBit_or, hx q hq, hf] at this
    simp at this
  refine ⟨fun x hx1 hx2 hx3 => ?_, fun i hi hfi hA => ?_, fun i hfi hA => ?_⟩
  · rw [ha]
    apply writes_at
    · exact ⟨(out x, old (inn x)), (hpair _).2 ⟨x, ⟨hx1, hx2, hx3⟩, Or.inl rfl⟩, rfl⟩
    · intro p hp hpo
      obtain ⟨y, ⟨hy1, hy2, hy3⟩, h | ⟨j, hj, h⟩⟩ := (hpair p).1 hp
      · subst h
        exact (hinj x hx1 hx2 hx3 y hy1 hy2 hy3 hpo.symm).symm
      · subst h
        exact absurd (by rw [show y ||| partControlMask cs j = out x from hpo]; exact hall x hx1 hx2 hx3)
          (hpart y j hy3 hj)
  · rw [ha]
    apply writes_at
    · obtain ⟨j, hj, hjq⟩ := exists_part hnd i
      have hj' : j < 2 ^ cs.length - 1 := by
        rw [part_lt hnd hj]
        unfold AllAre at hA
        push Not at hA
        obtain ⟨q, hq, hne⟩ := hA
        exact ⟨q, hq, by rw [hjq q hq]; simpa using hne⟩
      have hx : ∀ k, (i &&& otherMask n (Circ.ctrlMask cs)).testBit k = (i.testBit k && decide (k ∉ cs)) := by
        intro k
        rw [Nat.testBit_and, testBit_otherMask, Circ.testBit_ctrlMask]
        by_cases hk : k < n
        · by_cases hkc : k ∈ cs <;> simp [hk, hkc]
        · rw [bits_ge hi hk]; simp
      refine ⟨_, (hpair _).2 ⟨i &&& otherMask n (Circ.ctrlMask cs), ⟨?_, ?_, ?_⟩, Or.inr ⟨j, hj', rfl⟩⟩, ?_⟩
      · exact lt_of_le_of_lt Nat.and_le_left hi
      · rw [field_eq_zero]
        intro k h1 h2
        rw [hx k, field_eq_zero.1 hfi k h1 h2]; simp
      · intro q hq; rw [hx q]; simp [hq]
      · show (i &&& otherMask n (Circ.ctrlMask cs)) ||| partControlMask cs j = i
        apply Nat.eq_of_testBit_eq
        intro k
        rw [Nat.testBit_or, hx k]
        by_cases hk : k ∈ cs
        · rw [hjq k hk]; simp [hk]
        · rw [partMask_off hk]; simp [hk]
    · intro p hp hpo
      obtain ⟨y, ⟨hy1, hy2, hy3⟩, h | ⟨j, hj, h⟩⟩ := (hpair p).1 hp
      · subst h
        exact absurd (hpo ▸ hall y hy1 hy2 hy3) hA
      · subst h
        rw [show y ||| partControlMask cs j = i from hpo]
  · rw [ha]
    apply writes_off
    intro p hp hpo
    obtain ⟨y, ⟨hy1, hy2, hy3⟩, h | ⟨j, hj, h⟩⟩ := (hpair p).1 hp
    · subst h
      exact hA (hpo ▸ hall y hy1 hy2 hy3)
    · subst h
      apply hfi
      rw [← (show y ||| partControlMask cs j = i from hpo), field_eq_zero]
      intro k h1 h2
      rw [Nat.testBit_or, field_eq_zero.1 hy2 k h1 h2, partMask_off (fun hk => by have := hd k hk; omega)]
      rfl

end Verif.Engine
