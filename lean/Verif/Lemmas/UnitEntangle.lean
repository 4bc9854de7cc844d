import Verif.Model.UnitEntangle
import Mathlib.Data.Nat.Bitwise
import Mathlib.Algebra.BigOperators.Group.Finset.Basic
import Mathlib.Tactic.Ring
import Mathlib.Tactic.Push

/-! # Lemmas about the units of `QUnit` -/

namespace Verif.QUE

open Verif.Spec Finset

/-! ## Parts -/

theorem part_testBit (n : ℕ) (unit pos : ℕ → ℕ) (m u i p : ℕ) : (part n unit pos m u i).testBit p =
    (decide (p < m) && decide (∃ q < n, unit q = u ∧ pos q = p ∧ i.testBit q = true)) := by
  unfold part
  by_cases h : p < m
  · rw [Nat.testBit_ofBits_lt _ _ h, decide_eq_true h, Bool.true_and]
  · rw [Nat.testBit_ofBits_ge _ _ (by omega), decide_eq_false h, Bool.false_and]

theorem part_lt (n : ℕ) (unit pos : ℕ → ℕ) (m u i : ℕ) : part n unit pos m u i < 2 ^ m := Nat.ofBits_lt_two_pow _

/-- The state of all qubits. -/
noncomputable def Reg.joint (R : Reg) : ℕ → ℂ := whole R.n R.unit R.pos R.size R.amp

/-- What a unit holds in a basis state of all qubits. -/
def Reg.held (R : Reg) (u i : ℕ) : ℕ := part R.n R.unit R.pos (R.size u) u i

theorem joint_eq (R : Reg) (i : ℕ) : R.joint i = ∏ u ∈ (range R.n).image R.unit, R.amp u (R.held u i) := rfl

/-- Every shard has a place inside its unit, and no two shards have the same. -/
structure Reg.Valid (R : Reg) : Prop where
  lt : ∀ q < R.n, R.pos q < R.size (R.unit q)
  inj : ∀ p < R.n, ∀ q < R.n, R.unit p = R.unit q → R.pos p = R.pos q → p = q

/-- Every place of a unit belongs to a shard. -/
def Reg.Full (R : Reg) : Prop := ∀ k < R.n, ∀ p < R.size (R.unit k), ∃ q < R.n, R.unit q = R.unit k ∧ R.pos q = p

theorem held_at {R : Reg} (h : R.Valid) {q : ℕ} (hq : q < R.n) (i : ℕ) :
    (R.held (R.unit q) i).testBit (R.pos q) = i.testBit q := by
  unfold Reg.held
  rw [part_testBit, decide_eq_true (h.lt q hq), Bool.true_and]
  by_cases hb : i.testBit q = true
  · rw [hb, decide_eq_true_eq]; exact ⟨q, hq, rfl, rfl, hb⟩
  · rw [Bool.not_eq_true] at hb
    rw [hb, decide_eq_false_iff_not]
    rintro ⟨p, hp, h1, h2, h3⟩
    rw [h.inj p hp q hq h1 h2, hb] at h3
    exact absurd h3 (by decide)

/-- Two basis states that agree on the qubits of a unit have the same in it. -/
theorem held_congr {R : Reg} {u i j : ℕ} (h : ∀ q < R.n, R.unit q = u → i.testBit q = j.testBit q) : R.held u i = R.held u j := by
  unfold Reg.held part
  congr 1
  funext p
  congr 1
  apply propext
  constructor
  · rintro ⟨q, hq, h1, h2, h3⟩; exact ⟨q, hq, h1, h2, by rw [← h q hq h1, h3]⟩
  · rintro ⟨q, hq, h1, h2, h3⟩; exact ⟨q, hq, h1, h2, by rw [h q hq h1, h3]⟩

/-! ## Composing -/

theorem consume_n (R : Reg) (r c : ℕ) : (R.consume r c).n = R.n := rfl

theorem consume_valid {R : Reg} (h : R.Valid) {r c : ℕ} (hrc : r ≠ c) : (R.consume r c).Valid := by
  constructor
  · intro q hq
    have := h.lt q hq
    unfold Reg.consume
    dsimp only
    by_cases h1 : R.unit q = c
    · rw [if_pos h1, if_pos h1, Function.update_self]; rw [h1] at this; omega
    · rw [if_neg h1, if_neg h1]
      by_cases h2 : R.unit q = r
      · rw [h2, Function.update_self]; rw [h2] at this; omega
      · rw [Function.update_of_ne h2]; exact this
  · intro p hp q hq h1 h2
    have hp' := h.lt p hp
    have hq' := h.lt q hq
    unfold Reg.consume at h1 h2
    dsimp only at h1 h2
    by_cases h3 : R.unit p = c <;> by_cases h4 : R.unit q = c
    · rw [if_pos h3, if_pos h4] at h2
      exact h.inj p hp q hq (h3.trans h4.symm) (by omega)
    · rw [if_pos h3, if_neg h4] at h1 h2
      rw [← h1] at hq'; omega
    · rw [if_neg h3, if_pos h4] at h1 h2
      rw [h1] at hp'; omega
    · rw [if_neg h3, if_neg h4] at h1 h2
      exact h.inj p hp q hq h1 h2

theorem held_consume_other {R : Reg} {r c u : ℕ} (hr : u ≠ r) (hc : u ≠ c) (i : ℕ) : (R.consume r c).held u i = R.held u i := by
  apply Nat.eq_of_testBit_eq
  intro p
  unfold Reg.held
  rw [part_testBit, part_testBit]
  unfold Reg.consume
  dsimp only
  rw [Bool.eq_iff_iff]
  simp only [Bool.and_eq_true, decide_eq_true_eq]
  rw [Function.update_of_ne hr]
  constructor
  · rintro ⟨h0, q, hq, h1, h2, h3⟩
    by_cases h4 : R.unit q = c
    · rw [if_pos h4] at h1; exact absurd h1.symm hr
    · rw [if_neg h4] at h1 h2; exact ⟨h0, q, hq, h1, h2, h3⟩
  · rintro ⟨h0, q, hq, h1, h2, h3⟩
    have h4 : R.unit q ≠ c := by rw [h1]; exact hc
    exact ⟨h0, q, hq, by rw [if_neg h4, h1], by rw [if_neg h4, h2], h3⟩

theorem held_consume {R : Reg} (h : R.Valid) {r c : ℕ} (hrc : r ≠ c) (i : ℕ) :
    (R.consume r c).held r i % 2 ^ R.size r = R.held r i ∧ (R.consume r c).held r i / 2 ^ R.size r = R.held c i := by
  constructor <;>
  · apply Nat.eq_of_testBit_eq
    intro p
    unfold Reg.held
    first | rw [Nat.testBit_mod_two_pow] | rw [Nat.testBit_div_two_pow]
    rw [part_testBit, part_testBit]
    unfold Reg.consume
    dsimp only
    rw [Bool.eq_iff_iff]
    simp only [Bool.and_eq_true, decide_eq_true_eq]
    rw [Function.update_self]
    constructor
    · first
      | rintro ⟨h0, h00, q, hq, h1, h2, h3⟩
        have h5 := h.lt q hq
        by_cases h4 : R.unit q = c
        · rw [if_pos h4] at h2; omega
        · rw [if_neg h4] at h1 h2; exact ⟨h0, q, hq, h1, h2, h3⟩
      | rintro ⟨h00, q, hq, h1, h2, h3⟩
        have h5 := h.lt q hq
        by_cases h4 : R.unit q = c
        · rw [if_pos h4] at h2; exact ⟨by omega, q, hq, h4, by omega, h3⟩
        · rw [if_neg h4] at h1 h2; rw [h1] at h5; omega
    · rintro ⟨h0, q, hq, h1, h2, h3⟩
      first
      | exact ⟨h0, by omega, q, hq, by rw [if_neg (by rw [h1]; exact hrc), h1], by rw [if_neg (by rw [h1]; exact hrc), h2], h3⟩
      | exact ⟨by omega, q, hq, by rw [if_pos h1], by rw [if_pos h1, h2], h3⟩

theorem consume_used {R : Reg} {r c : ℕ} (hr : ∃ q < R.n, R.unit q = r) (hrc : r ≠ c) :
    (range (R.consume r c).n).image (R.consume r c).unit = ((range R.n).image R.unit).erase c := by
  ext u
  unfold Reg.consume
  simp only [mem_image, mem_range, mem_erase]
  constructor
  · rintro ⟨q, hq, h1⟩
    by_cases h2 : R.unit q = c
    · rw [if_pos h2] at h1; subst h1; exact ⟨hrc, hr⟩
    · rw [if_neg h2] at h1; subst h1; exact ⟨h2, q, hq, rfl⟩
  · rintro ⟨h1, q, hq, h2⟩
    exact ⟨q, hq, by rw [if_neg (by rw [h2]; exact h1), h2]⟩

theorem consume_joint {R : Reg} (h : R.Valid) {r c : ℕ} (hrc : r ≠ c) (hr : ∃ q < R.n, R.unit q = r) (hc : ∃ q < R.n, R.unit q = c) :
    (R.consume r c).joint = R.joint := by
  funext i
  rw [joint_eq, joint_eq, consume_used hr hrc]
  have hcm : c ∈ (range R.n).image R.unit := by
    obtain ⟨q, hq, h1⟩ := hc; exact mem_image.2 ⟨q, mem_range.2 hq, h1⟩
  have hrm : r ∈ ((range R.n).image R.unit).erase c := by
    obtain ⟨q, hq, h1⟩ := hr; exact mem_erase.2 ⟨hrc, mem_image.2 ⟨q, mem_range.2 hq, h1⟩⟩
  rw [← mul_prod_erase _ _ hcm, ← mul_prod_erase _ _ hrm, ← mul_prod_erase _ (fun u => R.amp u (R.held u i)) hrm]
  have h1 : (R.consume r c).amp r ((R.consume r c).held r i) = R.amp r (R.held r i) * R.amp c (R.held c i) := by
    obtain ⟨h1, h2⟩ := held_consume h hrc i
    rw [← h1, ← h2]
    unfold Reg.consume
    dsimp only
    rw [Function.update_self]
  rw [h1]
  have h2 : ∏ u ∈ (((range R.n).image R.unit).erase c).erase r, (R.consume r c).amp u ((R.consume r c).held u i) =
      ∏ u ∈ (((range R.n).image R.unit).erase c).erase r, R.amp u (R.held u i) := by
    refine prod_congr rfl fun u hu => ?_
    rw [mem_erase, mem_erase] at hu
    rw [held_consume_other hu.1 hu.2.1]
    unfold Reg.consume
    dsimp only
    rw [Function.update_of_ne hu.1]
  rw [h2]
  ring

/-! ## The rounds -/

/-- What the joining of the units of a list does: the state stays, the units of the list are among those of `l'`, the others stay. -/
structure Joins (R R' : Reg) (l l' : List ℕ) : Prop where
  n : R'.n = R.n
  valid : R'.Valid
  joint : R'.joint = R.joint
  into : ∀ q, R.unit q ∈ l → R'.unit q ∈ l'
  stay : ∀ q, R.unit q ∉ l → R'.unit q = R.unit q
  keep : ∀ q, R.unit q ∈ l' → R'.unit q = R.unit q
  full : R.Full → R'.Full
  shift : ∀ p q, R.unit p = R.unit q → R'.unit p = R'.unit q ∧ R'.pos p + R.pos q = R'.pos q + R.pos p

theorem consume_full {R : Reg} (h : R.Full) {r c : ℕ} (hrc : r ≠ c) (hr : ∃ q < R.n, R.unit q = r) (hc : ∃ q < R.n, R.unit q = c) :
    (R.consume r c).Full := by
  have key : ∀ p < R.size r + R.size c, ∃ q < R.n, (R.unit q = r ∨ R.unit q = c) ∧ (if R.unit q = c then R.pos q + R.size r else R.pos q) = p := by
    intro p hp
    by_cases h1 : p < R.size r
    · obtain ⟨k, hk, rfl⟩ := hr
      obtain ⟨q, hq, h2, h3⟩ := h k hk p h1
      exact ⟨q, hq, Or.inl h2, by rw [if_neg (by rw [h2]; exact hrc)]; exact h3⟩
    · obtain ⟨k, hk, rfl⟩ := hc
      obtain ⟨q, hq, h2, h3⟩ := h k hk (p - R.size r) (by omega)
      exact ⟨q, hq, Or.inr h2, by rw [if_pos h2]; omega⟩
  intro k hk p hp
  change p < Function.update R.size r (R.size r + R.size c) (if R.unit k = c then r else R.unit k) at hp
  change ∃ q < R.n, (if R.unit q = c then r else R.unit q) = (if R.unit k = c then r else R.unit k) ∧
    (if R.unit q = c then R.pos q + R.size r else R.pos q) = p
  by_cases h1 : (if R.unit k = c then r else R.unit k) = r
  · rw [h1, Function.update_self] at hp
    rw [h1]
    obtain ⟨q, hq, h2, h3⟩ := key p hp
    refine ⟨q, hq, ?_, h3⟩
    rcases h2 with h2 | h2
    · rw [if_neg (by rw [h2]; exact hrc)]; exact h2
    · rw [if_pos h2]
  · have h2 : R.unit k ≠ c := fun h2 => h1 (if_pos h2)
    rw [if_neg h2] at h1 hp ⊢
    rw [Function.update_of_ne h1] at hp
    obtain ⟨q, hq, h3, h4⟩ := h k hk p hp
    refine ⟨q, hq, ?_, ?_⟩
    · rw [if_neg (by rw [h3]; exact h2)]; exact h3
    · rw [if_neg (by rw [h3]; exact h2)]; exact h4

theorem consume_joins {R : Reg} (h : R.Valid) {r c : ℕ} {l : List ℕ} (hu : (r :: c :: l).Nodup)
    (hm : ∀ u ∈ r :: c :: l, ∃ q < R.n, R.unit q = u) : Joins R (R.consume r c) (r :: c :: l) (r :: l) := by
  have hrc : r ≠ c := by rintro rfl; simp at hu
  have hcl : c ∉ r :: l := by
    rw [List.nodup_cons, List.nodup_cons] at hu
    simp only [List.mem_cons, not_or]
    exact ⟨hrc.symm, hu.2.1⟩
  refine ⟨rfl, consume_valid h hrc, consume_joint h hrc (hm r (by simp)) (hm c (by simp)), ?_, ?_, ?_,
    fun hf => consume_full hf hrc (hm r (by simp)) (hm c (by simp)), ?_⟩
  · intro q hq
    unfold Reg.consume
    dsimp only
    by_cases h1 : R.unit q = c
    · rw [if_pos h1]; simp
    · rw [if_neg h1]
      simp only [List.mem_cons] at hq ⊢
      rcases hq with h2 | h2 | h2
      · exact Or.inl h2
      · exact absurd h2 h1
      · exact Or.inr h2
  · intro q hq
    unfold Reg.consume
    dsimp only
    rw [if_neg]
    rintro rfl; simp at hq
  · intro q hq
    unfold Reg.consume
    dsimp only
    rw [if_neg]
    rintro rfl; exact hcl hq
  · intro p q hpq
    unfold Reg.consume
    dsimp only
    rw [hpq]
    refine ⟨rfl, ?_⟩
    split_ifs <;> omega

theorem Joins.trans {R R' R'' : Reg} {l l' l'' : List ℕ} (h1 : Joins R R' l l') (h2 : Joins R' R'' l' l'') (hs : l'' ⊆ l')
    (hs' : l' ⊆ l) : Joins R R'' l l'' where
  n := h2.n.trans h1.n
  valid := h2.valid
  joint := h2.joint.trans h1.joint
  into q hq := h2.into q (h1.into q hq)
  stay q hq := by
    have := h1.stay q hq
    rw [h2.stay q (by rw [this]; exact fun h => hq (hs' h)), this]
  keep q hq := by
    have := h1.keep q (hs hq)
    rw [h2.keep q (by rw [this]; exact hq), this]
  full hf := h2.full (h1.full hf)
  shift p q hpq := by
    obtain ⟨a1, a2⟩ := h1.shift p q hpq
    obtain ⟨b1, b2⟩ := h2.shift p q a1
    exact ⟨b1, by omega⟩

theorem Joins.used {R R' : Reg} {l l' : List ℕ} (h : Joins R R' l l') {m : List ℕ} (hs : m ⊆ l')
    (hm : ∀ u ∈ m, ∃ q < R.n, R.unit q = u) : ∀ u ∈ m, ∃ q < R'.n, R'.unit q = u := by
  intro u hu
  obtain ⟨q, hq, h1⟩ := hm u hu
  exact ⟨q, by rw [h.n]; exact hq, by rw [h.keep q (by rw [h1]; exact hs hu), h1]⟩

/-- A list of further units that are not touched can be put beside. -/
theorem Joins.frame {R R' : Reg} {l l' m : List ℕ} (h : Joins R R' l l') (hd : ∀ u ∈ m, u ∉ l) : Joins R R' (m ++ l) (m ++ l') where
  n := h.n
  valid := h.valid
  joint := h.joint
  into q hq := by
    rw [List.mem_append] at hq ⊢
    rcases hq with h1 | h1
    · left; rw [h.stay q (hd _ h1)]; exact h1
    · right; exact h.into q h1
  stay q hq := h.stay q fun h1 => hq (List.mem_append_right _ h1)
  keep q hq := by
    rw [List.mem_append] at hq
    rcases hq with h1 | h1
    · exact h.stay q (hd _ h1)
    · exact h.keep q h1
  full := h.full
  shift := h.shift

theorem Joins.refl {R : Reg} (h : R.Valid) (l : List ℕ) : Joins R R l l :=
  ⟨rfl, h, rfl, fun _ h => h, fun _ _ => rfl, fun _ _ => rfl, fun h => h, fun _ _ h => ⟨h, Nat.add_comm _ _⟩⟩

theorem pairs_spec : ∀ (l : List ℕ) (R : Reg), R.Valid → l.Nodup → (∀ u ∈ l, ∃ q < R.n, R.unit q = u) →
    Joins R (pairs l R).2 l (pairs l R).1 ∧ (pairs l R).1.Sublist l ∧ (pairs l R).1.head? = l.head? ∧
      2 * (pairs l R).1.length ≤ l.length + 1
  | [], R, h, _, _ => ⟨Joins.refl h _, List.Sublist.refl _, rfl, by simp [pairs]⟩
  | [a], R, h, _, _ => ⟨Joins.refl h _, List.Sublist.refl _, rfl, by simp [pairs]⟩
  | r :: c :: l, R, h, hu, hm => by
    have h1 := consume_joins h hu hm
    have hu' : l.Nodup := by rw [List.nodup_cons, List.nodup_cons] at hu; exact hu.2.2
    have hrl : r ∉ l := by rw [List.nodup_cons] at hu; exact fun h => hu.1 (by simp [h])
    have hm' : ∀ u ∈ l, ∃ q < (R.consume r c).n, (R.consume r c).unit q = u :=
      h1.used (fun u hu => by simp [hu]) fun u hu => hm u (by simp [hu])
    obtain ⟨h2, h3, h4, h5⟩ := pairs_spec l (R.consume r c) h1.valid hu' hm'
    have h6 : Joins (R.consume r c) (pairs l (R.consume r c)).2 (r :: l) (r :: (pairs l (R.consume r c)).1) :=
      h2.frame (m := [r]) (by intro u hu; rw [List.mem_singleton] at hu; subst hu; exact hrl)
    refine ⟨?_, ?_, rfl, ?_⟩
    · exact h1.trans h6 (h3.cons_cons r).subset (fun u hu => by
        simp only [List.mem_cons] at hu ⊢; tauto)
    · exact (h3.cons c).cons_cons r
    · simp only [pairs, List.length_cons]; omega

theorem collapse_spec : ∀ (fuel : ℕ) (l : List ℕ) (R : Reg), R.Valid → l.Nodup → (∀ u ∈ l, ∃ q < R.n, R.unit q = u) →
    l.length ≤ fuel → ∀ u, l.head? = some u → Joins R (collapse fuel l R) l [u]
  | 0, l, R, h, _, _, hl, u, hu => by
    have : l = [] := List.length_eq_zero_iff.1 (by omega)
    subst this; simp at hu
  | fuel + 1, [], R, h, _, _, _, u, hu => by simp at hu
  | fuel + 1, [a], R, h, _, _, _, u, hu => by
    simp only [List.head?_cons, Option.some.injEq] at hu
    subst hu
    exact Joins.refl h _
  | fuel + 1, r :: c :: l, R, h, hn, hm, hl, u, hu => by
    simp only [List.head?_cons, Option.some.injEq] at hu
    subst hu
    simp only [List.length_cons] at hl
    unfold collapse
    by_cases ho : (r :: c :: l).length % 2 = 1
    · rw [if_pos ho]
      have h1 := consume_joins h hn hm
      have hn' : (r :: l).Nodup := by
        rw [List.nodup_cons, List.nodup_cons] at hn; rw [List.nodup_cons]
        exact ⟨fun h => hn.1 (by simp [h]), hn.2.2⟩
      have hs : r :: l ⊆ r :: c :: l := fun u hu => by simp only [List.mem_cons] at hu ⊢; tauto
      have hm' := h1.used (List.Subset.refl _) fun u hu => hm u (hs hu)
      obtain ⟨h2, h3, h4, h5⟩ := pairs_spec (r :: l) (R.consume r c) h1.valid hn' hm'
      have hm'' := h2.used (List.Subset.refl _) fun u hu => hm' u (h3.subset hu)
      have h6 := collapse_spec fuel _ _ h2.valid (h3.nodup hn') hm'' (by
        simp only [List.length_cons] at h5; omega) r (by rw [h4]; rfl)
      have hr : r ∈ (pairs (r :: l) (R.consume r c)).1 := List.mem_of_mem_head? (by rw [h4]; rfl)
      exact h1.trans (h2.trans h6 (by simpa using hr) h3.subset) (by simp) hs
    · rw [if_neg ho]
      obtain ⟨h2, h3, h4, h5⟩ := pairs_spec (r :: c :: l) R h hn hm
      have hm'' := h2.used (List.Subset.refl _) fun u hu => hm u (h3.subset hu)
      have h6 := collapse_spec fuel _ _ h2.valid (h3.nodup hn) hm'' (by
        simp only [List.length_cons] at h5 ho; omega) r (by rw [h4]; rfl)
      have hr : r ∈ (pairs (r :: c :: l) R).1 := List.mem_of_mem_head? (by rw [h4]; rfl)
      exact h2.trans h6 (by simpa using hr) h3.subset

theorem uniq_aux : ∀ (l acc : List ℕ), acc.Nodup →
    (l.foldl (fun acc u => if u ∈ acc then acc else acc ++ [u]) acc).Nodup ∧
    (∀ u, u ∈ l.foldl (fun acc u => if u ∈ acc then acc else acc ++ [u]) acc ↔ u ∈ acc ∨ u ∈ l) ∧
    (l.foldl (fun acc u => if u ∈ acc then acc else acc ++ [u]) acc).length ≤ acc.length + l.length ∧
    (∀ a, acc.head? = some a → (l.foldl (fun acc u => if u ∈ acc then acc else acc ++ [u]) acc).head? = some a)
  | [], acc, h => ⟨h, by simp, by simp, fun _ h => h⟩
  | u :: l, acc, h => by
    rw [List.foldl_cons]
    by_cases hu : u ∈ acc
    · rw [if_pos hu]
      obtain ⟨h1, h2, h3, h4⟩ := uniq_aux l acc h
      refine ⟨h1, fun v => ?_, by simp only [List.length_cons]; omega, h4⟩
      rw [h2, List.mem_cons]
      constructor
      · tauto
      · rintro (h | rfl | h)
        · exact Or.inl h
        · exact Or.inl hu
        · exact Or.inr h
    · rw [if_neg hu]
      obtain ⟨h1, h2, h3, h4⟩ := uniq_aux l (acc ++ [u]) (by
        rw [List.nodup_append]
        refine ⟨h, by simp, ?_⟩
        rintro a ha b hb rfl
        rw [List.mem_singleton] at hb
        subst hb; exact hu ha)
      refine ⟨h1, fun v => ?_, ?_, ?_⟩
      · rw [h2, List.mem_append, List.mem_singleton, List.mem_cons]; tauto
      · simp only [List.length_append, List.length_cons, List.length_nil] at h3 ⊢; omega
      · intro a ha
        refine h4 a ?_
        rw [List.head?_append, ha]; rfl

theorem uniq_spec (l : List ℕ) : (uniq l).Nodup ∧ (∀ u, u ∈ uniq l ↔ u ∈ l) ∧ (uniq l).length ≤ l.length ∧
    (uniq l).head? = l.head? := by
  obtain ⟨h1, h2, h3, -⟩ := uniq_aux l [] (by simp)
  refine ⟨h1, fun u => by unfold uniq; rw [h2]; simp, by unfold uniq; simpa using h3, ?_⟩
  cases l with
  | nil => rfl
  | cons a l =>
    unfold uniq
    rw [List.foldl_cons, if_neg (by simp), List.nil_append]
    exact (uniq_aux l [a] (by simp)).2.2.2 a rfl

/-- `EntangleInCurrentBasis`: the state stays, and the qubits are in the unit of the first. -/
theorem entangle_joins {R : Reg} (h : R.Valid) {bits : List ℕ} (hb : ∀ b ∈ bits, b < R.n) (h0 : bits ≠ []) :
    Joins R (R.entangle bits).1 (bits.map R.unit) [R.unit (bits.headD 0)] := by
  obtain ⟨h1, h2, h3, h4⟩ := uniq_spec (bits.map R.unit)
  have h5 : (uniq (bits.map R.unit)).head? = some (R.unit (bits.headD 0)) := by
    rw [h4]; cases bits with
    | nil => exact absurd rfl h0
    | cons a l => rfl
  have h6 := collapse_spec bits.length (uniq (bits.map R.unit)) R h h1 (fun u hu => by
    rw [h2, List.mem_map] at hu
    obtain ⟨b, hb', rfl⟩ := hu
    exact ⟨b, hb b hb', rfl⟩) (by simpa using h3) _ h5
  exact ⟨h6.n, h6.valid, h6.joint, fun q hq => h6.into q ((h2 _).2 hq), fun q hq => h6.stay q fun h => hq ((h2 _).1 h), h6.keep,
    h6.full, h6.shift⟩

/-! ## Acting on one unit -/

/-- What the other units contribute. -/
noncomputable def Reg.rest (R : Reg) (u i : ℕ) : ℂ := ∏ v ∈ ((range R.n).image R.unit).erase u, R.amp v (R.held v i)

theorem joint_split {R : Reg} {u : ℕ} (hu : ∃ q < R.n, R.unit q = u) (i : ℕ) : R.joint i = R.amp u (R.held u i) * R.rest u i := by
  obtain ⟨q, hq, h1⟩ := hu
  rw [joint_eq, ← mul_prod_erase _ _ (mem_image.2 ⟨q, mem_range.2 hq, h1⟩)]
  rfl

theorem joint_act {R : Reg} {u : ℕ} (hu : ∃ q < R.n, R.unit q = u) (f : (ℕ → ℂ) → ℕ → ℂ) (i : ℕ) :
    (R.act u f).joint i = f (R.amp u) (R.held u i) * R.rest u i := by
  rw [joint_split (R := R.act u f) hu]
  congr 1
  · unfold Reg.act
    dsimp only
    rw [Function.update_self]
    rfl
  · unfold Reg.rest
    refine prod_congr rfl fun v hv => ?_
    rw [mem_erase] at hv
    unfold Reg.act
    dsimp only
    rw [Function.update_of_ne hv.1]
    rfl

theorem rest_congr {R : Reg} {u i j : ℕ} (h : ∀ q < R.n, R.unit q ≠ u → i.testBit q = j.testBit q) : R.rest u i = R.rest u j := by
  unfold Reg.rest
  refine prod_congr rfl fun v hv => ?_
  rw [mem_erase] at hv
  rw [held_congr fun q hq h1 => h q hq (by rw [h1]; exact hv.1)]

theorem held_ext {R : Reg} (h : R.Valid) {u i y : ℕ} (hbit : ∀ q < R.n, R.unit q = u → y.testBit (R.pos q) = i.testBit q)
    (hfree : ∀ p, (∀ q < R.n, R.unit q = u → R.pos q ≠ p) → y.testBit p = false) : R.held u i = y := by
  apply Nat.eq_of_testBit_eq
  intro p
  by_cases hp : ∃ q < R.n, R.unit q = u ∧ R.pos q = p
  · obtain ⟨q, hq, rfl, rfl⟩ := hp
    rw [held_at h hq, hbit q hq rfl]
  · push Not at hp
    rw [hfree p hp]
    unfold Reg.held
    rw [part_testBit, Bool.and_eq_false_iff]
    right
    rw [decide_eq_false_iff_not]
    rintro ⟨q, hq, h1, h2, -⟩
    exact hp q hq h1 h2

theorem held_free {R : Reg} {u p : ℕ} (hp : ∀ q < R.n, R.unit q = u → R.pos q ≠ p) (i : ℕ) : (R.held u i).testBit p = false := by
  unfold Reg.held
  rw [part_testBit, Bool.and_eq_false_iff]
  right
  rw [decide_eq_false_iff_not]
  rintro ⟨q, hq, h1, h2, -⟩
  exact hp q hq h1 h2

theorem testBit_flip (t i k : ℕ) : (flipBit t i).testBit k = (i.testBit k ^^ decide (t = k)) := by
  unfold flipBit
  rw [Nat.testBit_xor, Nat.testBit_two_pow]

theorem held_flip {R : Reg} (h : R.Valid) {t : ℕ} (ht : t < R.n) (i : ℕ) :
    R.held (R.unit t) (flipBit t i) = flipBit (R.pos t) (R.held (R.unit t) i) := by
  apply held_ext h
  · intro q hq h1
    rw [testBit_flip, testBit_flip, ← h1, held_at h hq]
    congr 1
    rw [decide_eq_decide]
    constructor
    · intro h2; exact h.inj t ht q hq h1.symm h2
    · rintro rfl; rfl
  · intro p hp
    rw [testBit_flip, held_free hp, decide_eq_false (hp t ht rfl)]
    rfl

theorem rest_flip {R : Reg} {t : ℕ} (i : ℕ) : R.rest (R.unit t) (flipBit t i) = R.rest (R.unit t) i := by
  apply rest_congr
  intro q _ h1
  rw [testBit_flip, decide_eq_false (by rintro rfl; exact h1 rfl), Bool.xor_false]

/-- A gate on the unit of a qubit, at the place of the qubit, is the gate on the qubit. -/
theorem act_gate {R : Reg} (h : R.Valid) {t : ℕ} (ht : t < R.n) {p p' : ℕ → Prop} [DecidablePred p] [DecidablePred p']
    (hp : ∀ i, p' (R.held (R.unit t) i) ↔ p i) (a b c d : ℂ) :
    (R.act (R.unit t) (gate p' (R.pos t) a b c d)).joint = gate p t a b c d R.joint := by
  funext i
  have hu : ∃ q < R.n, R.unit q = R.unit t := ⟨t, ht, rfl⟩
  rw [joint_act hu]
  unfold gate
  rw [held_at h ht, joint_split hu i, joint_split hu (flipBit t i), held_flip h ht, rest_flip]
  by_cases h1 : p i
  · rw [if_pos h1, if_pos ((hp i).2 h1)]
    split_ifs <;> ring
  · rw [if_neg h1, if_neg (fun h2 => h1 ((hp i).1 h2))]

theorem matches_held {R : Reg} (h : R.Valid) {u : ℕ} {cs : List ℕ} (hc : ∀ c ∈ cs, c < R.n ∧ R.unit c = u) (perm i : ℕ) :
    Matches perm (cs.map R.pos) (R.held u i) ↔ Matches perm cs i := by
  unfold Matches
  constructor
  · intro h1 k hk
    obtain ⟨h2, h3⟩ := hc _ (List.getElem_mem hk)
    rw [← h1 k (by simpa using hk), List.getElem_map, ← h3, held_at h h2]
  · intro h1 k hk
    have hk' : k < cs.length := by simpa using hk
    obtain ⟨h2, h3⟩ := hc _ (List.getElem_mem hk')
    rw [← h1 k hk', List.getElem_map, ← h3, held_at h h2]

theorem allAre_held {R : Reg} (h : R.Valid) {u : ℕ} {cs : List ℕ} (hc : ∀ c ∈ cs, c < R.n ∧ R.unit c = u) (v : Bool) (i : ℕ) :
    AllAre v (cs.map R.pos) (R.held u i) ↔ AllAre v cs i := by
  unfold AllAre
  simp only [List.forall_mem_map]
  refine forall₂_congr fun c hm => ?_
  rw [← (hc c hm).2, held_at h (hc c hm).1]

theorem testBit_swap {q1 q2 : ℕ} (hq : q1 ≠ q2) (i k : ℕ) :
    (swapBits q1 q2 i).testBit k = if k = q1 then i.testBit q2 else if k = q2 then i.testBit q1 else i.testBit k := by
  unfold swapBits
  by_cases h : i.testBit q1 = i.testBit q2
  · rw [if_pos h]
    split_ifs with h1 h2
    · rw [h1, h]
    · rw [h2, h]
    · rfl
  · rw [if_neg h, Nat.testBit_xor, Nat.testBit_xor, Nat.testBit_two_pow, Nat.testBit_two_pow]
    split_ifs with h1 h2
    · subst h1
      rw [decide_eq_true rfl, decide_eq_false (Ne.symm hq)]
      revert h; cases i.testBit k <;> cases i.testBit q2 <;> simp
    · subst h2
      rw [decide_eq_true rfl, decide_eq_false hq]
      revert h; cases i.testBit k <;> cases i.testBit q1 <;> simp
    · rw [decide_eq_false (Ne.symm h1), decide_eq_false (Ne.symm h2)]; simp

theorem held_swap {R : Reg} (h : R.Valid) {q1 q2 : ℕ} (h1 : q1 < R.n) (h2 : q2 < R.n) (hq : q1 ≠ q2) (hu : R.unit q2 = R.unit q1)
    (i : ℕ) : R.held (R.unit q1) (swapBits q1 q2 i) = swapBits (R.pos q1) (R.pos q2) (R.held (R.unit q1) i) := by
  have hp : R.pos q1 ≠ R.pos q2 := fun h3 => hq (h.inj q1 h1 q2 h2 hu.symm h3)
  have e1 := held_at h h1 i
  have e2 := held_at h h2 i
  rw [hu] at e2
  apply held_ext h
  · intro q hq' h3
    have e3 := held_at h hq' i
    rw [h3] at e3
    rw [testBit_swap hp, testBit_swap hq, e1, e2, e3]
    have a1 : R.pos q = R.pos q1 ↔ q = q1 := ⟨fun h4 => h.inj q hq' q1 h1 h3 h4, fun h4 => by rw [h4]⟩
    have a2 : R.pos q = R.pos q2 ↔ q = q2 := ⟨fun h4 => h.inj q hq' q2 h2 (by rw [h3, hu]) h4, fun h4 => by rw [h4]⟩
    simp only [a1, a2]
  · intro p hp'
    rw [testBit_swap hp, if_neg (fun h3 => hp' q1 h1 rfl h3.symm), if_neg (fun h3 => hp' q2 h2 hu h3.symm), held_free hp']

theorem act_exchange {R : Reg} (h : R.Valid) {q1 q2 : ℕ} (h1 : q1 < R.n) (h2 : q2 < R.n) (hq : q1 ≠ q2) (hu : R.unit q2 = R.unit q1)
    {p p' : ℕ → Prop} [DecidablePred p] [DecidablePred p'] (hp : ∀ i, p' (R.held (R.unit q1) i) ↔ p i) (u v : ℂ) :
    (R.act (R.unit q1) (exchange p' (R.pos q1) (R.pos q2) u v)).joint = exchange p q1 q2 u v R.joint := by
  funext i
  have hu' : ∃ q < R.n, R.unit q = R.unit q1 := ⟨q1, h1, rfl⟩
  have e2 := held_at h h2 i
  rw [hu] at e2
  have hr : R.rest (R.unit q1) (swapBits q1 q2 i) = R.rest (R.unit q1) i := by
    apply rest_congr
    intro q _ h3
    rw [testBit_swap hq, if_neg (by rintro rfl; exact h3 rfl), if_neg (by rintro rfl; exact h3 hu)]
  rw [joint_act hu']
  unfold exchange
  rw [held_at h h1, e2, joint_split hu' i, joint_split hu' (swapBits q1 q2 i), held_swap h h1 h2 hq hu, hr]
  simp only [hp i]
  split_ifs <;> ring

/-! ## Parities -/

theorem maskOf_aux (k : ℕ) : ∀ (l : List ℕ) (m : ℕ), (l.foldl (fun m p => m ||| 2 ^ p) m).testBit k = (m.testBit k || decide (k ∈ l))
  | [], m => by simp
  | p :: l, m => by
    rw [List.foldl_cons, maskOf_aux k l, Nat.testBit_or, Nat.testBit_two_pow, Bool.or_assoc]
    congr 1
    rw [Bool.eq_iff_iff]
    simp only [Bool.or_eq_true, decide_eq_true_eq, List.mem_cons]
    tauto

theorem testBit_maskOf (l : List ℕ) (k : ℕ) : (maskOf l).testBit k = decide (k ∈ l) := by
  unfold maskOf
  rw [maskOf_aux, Nat.zero_testBit, Bool.false_or]

theorem mem_bitsOf {n mask q : ℕ} : q ∈ bitsOf n mask ↔ q < n ∧ mask.testBit q = true := by
  unfold bitsOf; rw [List.mem_filter, List.mem_range]

theorem nodup_bitsOf (n mask : ℕ) : (bitsOf n mask).Nodup := List.nodup_range.filter _

theorem maskCount_eq (n mask i : ℕ) : maskCount n mask i = ((bitsOf n mask).filter fun q => i.testBit q).length := by
  unfold maskCount
  rw [← List.toFinset_card_of_nodup ((nodup_bitsOf n mask).filter _)]
  congr 1
  ext q
  simp only [mem_filter, mem_range, List.mem_toFinset, List.mem_filter, mem_bitsOf]
  tauto

theorem maskCount_held {R : Reg} (h : R.Valid) {u : ℕ} {e : List ℕ} (he : ∀ q ∈ e, q < R.n ∧ R.unit q = u) (hn : e.Nodup) (i : ℕ) :
    maskCount (R.size u) (maskOf (e.map R.pos)) (R.held u i) = (e.filter fun q => i.testBit q).length := by
  have hn' : ((e.filter fun q => i.testBit q).map R.pos).Nodup := by
    refine List.Nodup.map_on ?_ (hn.filter _)
    intro x hx y hy hxy
    have hx' := he x (List.mem_filter.1 hx).1
    have hy' := he y (List.mem_filter.1 hy).1
    exact h.inj x hx'.1 y hy'.1 (hx'.2.trans hy'.2.symm) hxy
  unfold maskCount
  rw [← List.length_map (f := R.pos) (as := e.filter fun q => i.testBit q), ← List.toFinset_card_of_nodup hn']
  congr 1
  ext p
  simp only [mem_filter, mem_range, List.mem_toFinset, testBit_maskOf, decide_eq_true_eq, List.mem_map, List.mem_filter]
  constructor
  · rintro ⟨_, ⟨q, hq, rfl⟩, h2⟩
    have := he q hq
    rw [← this.2, held_at h this.1] at h2
    exact ⟨q, ⟨hq, h2⟩, rfl⟩
  · rintro ⟨q, ⟨hq, h2⟩, rfl⟩
    have := he q hq
    refine ⟨by rw [← this.2]; exact h.lt q this.1, ⟨q, hq, rfl⟩, ?_⟩
    rw [← this.2, held_at h this.1, h2]

theorem act_parity {R : Reg} (h : R.Valid) {u : ℕ} {e : List ℕ} (he : ∀ q ∈ e, q < R.n ∧ R.unit q = u) (hn : e.Nodup) (h0 : e ≠ [])
    {p p' : ℕ → Prop} [DecidablePred p] [DecidablePred p'] (hp : ∀ i, p' (R.held u i) ↔ p i) (f : Bool → ℂ) (i : ℕ) :
    (R.act u (byParity (R.size u) (maskOf (e.map R.pos)) p' f)).joint i =
      if p i then f (decide ((e.filter fun q => i.testBit q).length % 2 = 1)) * R.joint i else R.joint i := by
  obtain ⟨q, hq⟩ := List.exists_mem_of_ne_nil e h0
  have hu' : ∃ q < R.n, R.unit q = u := ⟨q, he q hq⟩
  rw [joint_act hu', joint_split hu']
  unfold byParity
  rw [maskCount_held h he hn]
  simp only [hp i]
  split_ifs <;> ring

/-- The parity of a list of qubits, some of them known. -/
theorem parity_known {known : ℕ → Option Bool} {i : ℕ} : ∀ (l : List ℕ) (b : Bool),
    (∀ q ∈ l, ∀ v, known q = some v → i.testBit q = v) →
    (l.foldl (fun b q => if known q = some true then !b else b) b ^^
      decide (((l.filter (known · = none)).filter fun q => i.testBit q).length % 2 = 1)) =
    (b ^^ decide ((l.filter fun q => i.testBit q).length % 2 = 1))
  | [], b, _ => rfl
  | q :: l, b, h => by
    have hl : ∀ q ∈ l, ∀ v, known q = some v → i.testBit q = v := fun q hq => h q (by simp [hq])
    have hq := h q (by simp)
    have odd_succ : ∀ m : ℕ, decide ((m + 1) % 2 = 1) = !decide (m % 2 = 1) := by
      intro m; rw [← decide_not, decide_eq_decide]; omega
    rw [List.foldl_cons]
    cases hk : known q with
    | none =>
      rw [if_neg (by simp), List.filter_cons_of_pos (by simp [hk])]
      by_cases hb : i.testBit q = true
      · rw [List.filter_cons_of_pos hb, List.filter_cons_of_pos hb, List.length_cons, List.length_cons, odd_succ, odd_succ]
        have := parity_known l b hl
        rw [Bool.xor_not, Bool.xor_not, this]
      · rw [List.filter_cons_of_neg hb, List.filter_cons_of_neg hb]
        exact parity_known l b hl
    | some v =>
      have hv := hq v hk
      rw [List.filter_cons_of_neg (by simp [hk])]
      cases v
      · rw [if_neg (by simp), List.filter_cons_of_neg (by simp [hv])]
        exact parity_known l b hl
      · rw [if_pos rfl, List.filter_cons_of_pos hv, List.length_cons, odd_succ, parity_known l (!b) hl]
        cases b <;> simp

end Verif.QUE
