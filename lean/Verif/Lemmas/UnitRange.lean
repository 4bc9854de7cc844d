import Verif.Model.UnitRange
import Verif.Lemmas.UnitEntangle
import Verif.Lemmas.SortUnit
import Verif.Lib.Field

/-!
Ranges of qubits in the units of `QUnit`.
-/

namespace Verif.QUE

open Verif.Spec Verif.Units Finset

theorem exchange_one (q1 q2 : ℕ) (s : ℕ → ℂ) (i : ℕ) : exchange (fun _ => True) q1 q2 0 1 s i = s (swapBits q1 q2 i) := by
  unfold exchange swapBits
  by_cases h : i.testBit q1 = i.testBit q2
  · rw [if_neg (by simp [h]), if_pos h]
  · rw [if_pos ⟨trivial, h⟩, if_neg h]; simp

theorem swap_unit {R : Reg} {i j : ℕ} (hu : R.unit j = R.unit i) (k : ℕ) : R.unit (Equiv.swap i j k) = R.unit k := by
  by_cases hi : k = i
  · rw [hi, Equiv.swap_apply_left, hu]
  · by_cases hj : k = j
    · rw [hj, Equiv.swap_apply_right, hu]
    · rw [Equiv.swap_apply_of_ne_of_ne hi hj]

theorem swap_lt {n i j : ℕ} (hi : i < n) (hj : j < n) {k : ℕ} (hk : k < n) : Equiv.swap i j k < n := by
  by_cases h1 : k = i
  · rw [h1, Equiv.swap_apply_left]; exact hj
  · by_cases h2 : k = j
    · rw [h2, Equiv.swap_apply_right]; exact hi
    · rw [Equiv.swap_apply_of_ne_of_ne h1 h2]; exact hk

theorem sortSwap_valid {R : Reg} (h : R.Valid) {i j : ℕ} (hi : i < R.n) (hj : j < R.n) (hu : R.unit j = R.unit i) (u : ℕ) :
    (R.sortSwap u i j).Valid := by
  constructor
  · intro q hq
    change R.pos (Equiv.swap i j q) < R.size (R.unit q)
    rw [← swap_unit hu q]
    exact h.lt _ (swap_lt hi hj hq)
  · intro p hp q hq hpq hpos
    change R.pos (Equiv.swap i j p) = R.pos (Equiv.swap i j q) at hpos
    change R.unit p = R.unit q at hpq
    exact (Equiv.swap i j).injective (h.inj _ (swap_lt hi hj hp) _ (swap_lt hi hj hq) (by rw [swap_unit hu, swap_unit hu, hpq]) hpos)

theorem sortSwap_full {R : Reg} (h : R.Full) {i j : ℕ} (hi : i < R.n) (hj : j < R.n) (hu : R.unit j = R.unit i) (u : ℕ) :
    (R.sortSwap u i j).Full := by
  intro k hk p hp
  obtain ⟨q, hq, h1, h2⟩ := h k hk p hp
  refine ⟨Equiv.swap i j q, swap_lt hi hj hq, ?_, ?_⟩
  · change R.unit (Equiv.swap i j q) = R.unit k
    rw [swap_unit hu, h1]
  · change R.pos (Equiv.swap i j (Equiv.swap i j q)) = p
    rw [Equiv.swap_apply_self, h2]

theorem sortSwap_joint {R : Reg} (h : R.Valid) {i j : ℕ} (hi : i < R.n) (hj : j < R.n) (hij : i ≠ j) (hu : R.unit j = R.unit i) :
    (R.sortSwap (R.unit i) i j).joint = R.joint := by
  funext x
  have hu' : ∃ q < R.n, R.unit q = R.unit i := ⟨i, hi, rfl⟩
  have hv := sortSwap_valid h hi hj hu (R.unit i)
  have hp : R.pos i ≠ R.pos j := fun h3 => hij (h.inj i hi j hj hu.symm h3)
  have e1 := held_at h hi x
  have e2 := held_at h hj x
  rw [hu] at e2
  rw [joint_split (R := R.sortSwap (R.unit i) i j) hu', joint_split hu']
  congr 1
  · have : (R.sortSwap (R.unit i) i j).amp (R.unit i) = exchange (fun _ => True) (R.pos i) (R.pos j) 0 1 (R.amp (R.unit i)) :=
      Function.update_self _ _ _
    rw [this, exchange_one]
    congr 1
    have hh : (R.sortSwap (R.unit i) i j).held (R.unit i) x = swapBits (R.pos i) (R.pos j) (R.held (R.unit i) x) := by
      apply held_ext hv
      · intro q hq h3
        change R.unit q = R.unit i at h3
        change (swapBits (R.pos i) (R.pos j) (R.held (R.unit i) x)).testBit (R.pos (Equiv.swap i j q)) = _
        have e3 := held_at h hq x
        rw [h3] at e3
        rw [testBit_swap hp]
        by_cases hqi : q = i
        · rw [hqi, Equiv.swap_apply_left, if_neg hp.symm, if_pos rfl, e1]
        · by_cases hqj : q = j
          · rw [hqj, Equiv.swap_apply_right, if_pos rfl, e2]
          · rw [Equiv.swap_apply_of_ne_of_ne hqi hqj, if_neg (fun h4 => hqi (h.inj q hq i hi h3 h4)),
              if_neg (fun h4 => hqj (h.inj q hq j hj (by rw [h3, hu]) h4)), e3]
      · intro p hp'
        have hfree : ∀ q < R.n, R.unit q = R.unit i → R.pos q ≠ p := by
          intro q hq h3 h4
          refine hp' (Equiv.swap i j q) (swap_lt hi hj hq) ?_ ?_
          · change R.unit (Equiv.swap i j q) = R.unit i
            rw [swap_unit hu, h3]
          · change R.pos (Equiv.swap i j (Equiv.swap i j q)) = p
            rw [Equiv.swap_apply_self, h4]
        rw [testBit_swap hp, if_neg (fun h3 => hfree i hi rfl h3.symm), if_neg (fun h3 => hfree j hj hu h3.symm), held_free hfree]
    rw [hh]
    apply Nat.eq_of_testBit_eq
    intro k
    rw [testBit_swap hp]
    simp only [testBit_swap hp]
    split_ifs <;> simp_all
  · unfold Reg.rest
    refine prod_congr rfl fun v hv' => ?_
    have hvi : v ≠ R.unit i := (mem_erase.1 hv').1
    have a1 : (R.sortSwap (R.unit i) i j).amp v = R.amp v := Function.update_of_ne hvi _ _
    have a2 : (R.sortSwap (R.unit i) i j).held v x = R.held v x := by
      apply Nat.eq_of_testBit_eq
      intro k
      unfold Reg.held
      rw [part_testBit, part_testBit]
      congr 1
      rw [decide_eq_decide]
      refine exists_congr fun q => and_congr_right fun _ => ?_
      change R.unit q = v ∧ R.pos (Equiv.swap i j q) = k ∧ _ ↔ _
      refine and_congr_right fun h3 => ?_
      rw [Equiv.swap_apply_of_ne_of_ne (by rintro rfl; exact hvi h3.symm) (by rintro rfl; exact hvi (by rw [← h3, hu]))]
    rw [a1, a2]

/-- What the ordering of a unit leaves as it is. -/
structure Sorted (R R' : Reg) (u : ℕ) : Prop where
  n : R'.n = R.n
  valid : R'.Valid
  full : R'.Full
  joint : R'.joint = R.joint
  unit : R'.unit = R.unit
  stay : ∀ q, R.unit q ≠ u → R'.pos q = R.pos q

theorem sortExchanges_spec {u : ℕ} {bits : List ℕ} (hn : bits.Nodup) : ∀ (sw : List (ℕ × ℕ)), Within 0 (bits.length - 1) sw →
    2 ≤ bits.length → ∀ {R : Reg} (v : ℕ → ℕ), R.Valid → R.Full → (∀ i ∈ bits, i < R.n ∧ R.unit i = u) →
      (∀ k (hk : k < bits.length), R.pos bits[k] = v k) → ∃ R', sortExchanges u bits sw R = some R' ∧ Sorted R R' u ∧
        ∀ k (hk : k < bits.length), R'.pos bits[k] = exchs sw v k := by
  intro sw
  induction sw with
  | nil => intro _ _ R v h hf _ hv; exact ⟨R, rfl, ⟨rfl, h, hf, rfl, rfl, fun _ _ => rfl⟩, hv⟩
  | cons p sw ih =>
    intro hw hlen R v h hf hu hv
    have hp := hw p (by simp)
    have h1 : p.1 < bits.length := by omega
    have h2 : p.2 < bits.length := by omega
    have hne : bits[p.1] ≠ bits[p.2] := fun he => by
      have := (List.Nodup.getElem_inj_iff hn).1 he
      omega
    obtain ⟨i1, u1⟩ := hu _ (List.getElem_mem h1)
    obtain ⟨i2, u2⟩ := hu _ (List.getElem_mem h2)
    have huu : R.unit bits[p.2] = R.unit bits[p.1] := by rw [u1, u2]
    obtain ⟨R', e', r', hm'⟩ := ih (fun q hq => hw q (by simp [hq])) hlen (R := R.sortSwap u bits[p.1] bits[p.2]) (exch v p.1 p.2)
      (sortSwap_valid h i1 i2 huu u) (sortSwap_full hf i1 i2 huu u) hu (by
      intro k hk
      show R.pos (Equiv.swap bits[p.1] bits[p.2] bits[k]) = _
      unfold exch
      by_cases ha : k = p.1
      · subst ha
        rw [Equiv.swap_apply_left, if_pos rfl, hv]
      · rw [if_neg ha]
        by_cases hb : k = p.2
        · subst hb
          rw [Equiv.swap_apply_right, if_pos rfl, hv]
        · rw [if_neg hb, Equiv.swap_apply_of_ne_of_ne, hv]
          · exact fun he => ha ((List.Nodup.getElem_inj_iff hn).1 he)
          · exact fun he => hb ((List.Nodup.getElem_inj_iff hn).1 he))
    refine ⟨R', ?_, ⟨r'.n, r'.valid, r'.full, ?_, r'.unit, ?_⟩, hm'⟩
    · show (match bits[p.1]?, bits[p.2]? with
        | some i, some j => sortExchanges u bits sw (R.sortSwap u i j)
        | _, _ => none) = _
      rw [List.getElem?_eq_getElem h1, List.getElem?_eq_getElem h2]
      exact e'
    · have := sortSwap_joint h i1 i2 hne huu
      rw [u1] at this
      rw [r'.joint, this]
    · intro q hq
      rw [r'.stay q hq]
      show R.pos (Equiv.swap bits[p.1] bits[p.2] q) = R.pos q
      rw [Equiv.swap_apply_of_ne_of_ne (by rintro rfl; exact hq u1) (by rintro rfl; exact hq u2)]

theorem mem_bitsIn {R : Reg} {u i : ℕ} : i ∈ R.bitsIn u ↔ i < R.n ∧ R.unit i = u := by
  unfold Reg.bitsIn; simp

theorem bitsIn_length {R : Reg} (h : R.Valid) (hf : R.Full) {t : ℕ} (ht : t < R.n) : (R.bitsIn (R.unit t)).length = R.size (R.unit t) := by
  have hn : (R.bitsIn (R.unit t)).Nodup := List.nodup_range.filter _
  have hp : ((R.bitsIn (R.unit t)).map R.pos).Perm (List.range (R.size (R.unit t))) := by
    refine (List.perm_ext_iff_of_nodup ?_ List.nodup_range).2 fun p => ?_
    · refine List.Nodup.map_on ?_ hn
      intro i hi j hj he
      obtain ⟨i1, i2⟩ := mem_bitsIn.1 hi
      obtain ⟨j1, j2⟩ := mem_bitsIn.1 hj
      exact h.inj i i1 j j1 (i2.trans j2.symm) he
    · rw [List.mem_map, List.mem_range]
      constructor
      · rintro ⟨i, hi, rfl⟩
        obtain ⟨i1, i2⟩ := mem_bitsIn.1 hi
        have := h.lt i i1
        rwa [i2] at this
      · intro hp
        obtain ⟨j, hj, h1, h2⟩ := hf t ht p hp
        exact ⟨j, mem_bitsIn.2 ⟨hj, h1⟩, h2⟩
  have := hp.length_eq
  rwa [List.length_map, List.length_range] at this

/-- After `OrderContiguous` the places of a unit's qubits follow the qubits' order, and the state is the same. -/
theorem order_spec {R : Reg} (h : R.Valid) (hf : R.Full) {t : ℕ} (ht : t < R.n) : ∃ R', R.order (R.unit t) = some R' ∧ Sorted R R' (R.unit t) ∧
    ∀ i j, i < R.n → j < R.n → R.unit i = R.unit t → R.unit j = R.unit t → i < j → R'.pos i < R'.pos j := by
  have hlen := bitsIn_length h hf ht
  have hn : (R.bitsIn (R.unit t)).Nodup := List.nodup_range.filter _
  have hsorted : (R.bitsIn (R.unit t)).Pairwise (· < ·) := List.pairwise_lt_range.filter _
  unfold Reg.order
  by_cases hs : R.size (R.unit t) = 1
  · rw [if_pos hs]
    refine ⟨R, rfl, ⟨rfl, h, hf, rfl, rfl, fun _ _ => rfl⟩, fun i j hi hj ui uj hij => ?_⟩
    have h1 := h.lt i hi
    have h2 := h.lt j hj
    rw [ui, hs] at h1
    rw [uj, hs] at h2
    exact absurd (h.inj i hi j hj (ui.trans uj.symm) (by omega)) (ne_of_lt hij)
  · rw [if_neg hs]
    dsimp only
    rw [if_pos hlen]
    have h2 : 2 ≤ (R.bitsIn (R.unit t)).length := by
      have := h.lt t ht
      omega
    obtain ⟨v', sw, e, hv', hw, hso⟩ := sortUnit_sorts (len := (R.bitsIn (R.unit t)).length) (R.bitsIn (R.unit t)).length
      (fun k => ((R.bitsIn (R.unit t))[k]?.map R.pos).getD 0) 0 ((R.bitsIn (R.unit t)).length - 1) (by omega) (by omega) (by omega)
    rw [e, Option.bind_some]
    obtain ⟨R', e', r', hm'⟩ := sortExchanges_spec hn sw hw h2 _ h hf (fun i hi => mem_bitsIn.1 hi)
      (fun k hk => show _ = ((R.bitsIn (R.unit t))[k]?.map R.pos).getD 0 by rw [List.getElem?_eq_getElem hk]; rfl)
    refine ⟨R', e', r', fun i j hi hj ui uj hij => ?_⟩
    obtain ⟨a, ha, rfl⟩ := List.getElem_of_mem (mem_bitsIn.2 ⟨hi, ui⟩)
    obtain ⟨b, hb, rfl⟩ := List.getElem_of_mem (mem_bitsIn.2 ⟨hj, uj⟩)
    have hab : a < b := by
      by_contra hn'
      rcases eq_or_lt_of_le (not_lt.1 hn') with hh | hh
      · subst hh; exact absurd hij (lt_irrefl _)
      · have := List.pairwise_iff_getElem.1 hsorted b a hb ha hh
        exact absurd hij (not_lt.2 this.le)
    have hle : R'.pos (R.bitsIn (R.unit t))[a] ≤ R'.pos (R.bitsIn (R.unit t))[b] := by
      rw [hm' a ha, hm' b hb, ← hv']
      exact hso a b (by omega) hab.le (by omega)
    refine lt_of_le_of_ne hle fun he => ?_
    have := r'.valid.inj _ (by rw [r'.n]; exact hi) _ (by rw [r'.n]; exact hj) (by rw [r'.unit, ui, uj]) he
    exact absurd hij (by rw [this]; exact lt_irrefl _)

/-! ## Runs of places -/

/-- The qubits of a range are in one unit, side by side and in order. -/
def Reg.Run (R : Reg) (s l : ℕ) : Prop := ∀ k < l, R.unit (s + k) = R.unit s ∧ R.pos (s + k) = R.pos s + k

theorem run_one (R : Reg) (s : ℕ) : R.Run s 1 := fun k hk => by
  have : k = 0 := by omega
  subst this; exact ⟨rfl, rfl⟩

/-- In a unit whose places are in order, a range of qubits of the unit is a run. -/
theorem run_of_order {R : Reg} (h : R.Valid) (hf : R.Full) {u : ℕ}
    (ho : ∀ i j, i < R.n → j < R.n → R.unit i = u → R.unit j = u → i < j → R.pos i < R.pos j) {s l : ℕ} (hl : s + l ≤ R.n)
    (hu : ∀ k < l, R.unit (s + k) = u) : R.Run s l := by
  intro k hk
  refine ⟨by rw [hu k hk, show s = s + 0 from rfl, hu 0 (by omega)], ?_⟩
  induction k with
  | zero => rfl
  | succ k ih =>
    have h1 := ih (by omega)
    have h2 := ho (s + k) (s + (k + 1)) (by omega) (by omega) (hu k (by omega)) (hu _ hk) (by omega)
    by_contra hne
    obtain ⟨q, hq, h3, h4⟩ := hf (s + k) (by omega) (R.pos (s + k) + 1) (by
      have := h.lt (s + (k + 1)) (by omega)
      rw [hu _ hk] at this
      rw [hu k (by omega)]
      omega)
    rw [hu k (by omega)] at h3
    rcases lt_trichotomy q (s + k) with hlt | rfl | hgt
    · have := ho q (s + k) hq (by omega) h3 (hu k (by omega)) hlt
      omega
    · omega
    · rcases Nat.eq_or_lt_of_le (show s + (k + 1) ≤ q by omega) with rfl | hgt'
      · omega
      · have := ho (s + (k + 1)) q (by omega) hq (hu _ hk) h3 hgt'
        omega

theorem Joins.run {R R' : Reg} {l l' : List ℕ} (h : Joins R R' l l') {s m : ℕ} (hr : R.Run s m) : R'.Run s m := by
  intro k hk
  obtain ⟨h1, h2⟩ := hr k hk
  obtain ⟨h3, h4⟩ := h.shift _ _ h1
  exact ⟨h3, by omega⟩

/-- What bringing ranges into one unit does. -/
structure Gathers (R R' : Reg) (u : ℕ) : Prop where
  n : R'.n = R.n
  valid : R'.Valid
  full : R'.Full
  joint : R'.joint = R.joint
  run : ∀ s l, s + l ≤ R.n → R.Run s l → R'.Run s l
  into : ∀ s l, s + l ≤ R.n → (∀ k < l, R'.unit (s + k) = u) → R'.Run s l

theorem entangleIn_spec {R : Reg} (h : R.Valid) (hf : R.Full) {rs : List (ℕ × ℕ)} (hr : ∀ r ∈ rs, r.1 + r.2 ≤ R.n)
    (h0 : ∃ r ∈ rs, 0 < r.2) : ∃ R' u, R.entangleIn rs = some (R', u) ∧ Gathers R R' u ∧
      ∀ r ∈ rs, ∀ k < r.2, R'.unit (r.1 + k) = u := by
  have hmem : ∀ b ∈ rs.flatMap (fun r => List.range' r.1 r.2), b < R.n := by
    intro b hb
    rw [List.mem_flatMap] at hb
    obtain ⟨r, hr', hb'⟩ := hb
    rw [List.mem_range'_1] at hb'
    have := hr r hr'
    omega
  have hne : rs.flatMap (fun r => List.range' r.1 r.2) ≠ [] := by
    obtain ⟨r, hr', hp⟩ := h0
    intro h1
    rw [List.flatMap_eq_nil_iff] at h1
    have := h1 r hr'
    rw [List.range'_eq_nil_iff] at this
    omega
  have hj := entangle_joins h hmem hne
  obtain ⟨b, hb⟩ := List.exists_mem_of_ne_nil _ hne
  unfold Reg.entangleIn
  dsimp only
  generalize hbits : rs.flatMap (fun r => List.range' r.1 r.2) = bits at *
  have hub : (R.entangle bits).1.unit b = (R.entangle bits).2.1 := List.mem_singleton.1 (hj.into b (List.mem_map.2 ⟨b, hb, rfl⟩))
  obtain ⟨R', e', s', o'⟩ := order_spec hj.valid (hj.full hf) (t := b) (by rw [hj.n]; exact hmem b hb)
  rw [hub] at e' s' o'
  rw [e']
  have o'' : ∀ i j, i < R'.n → j < R'.n → R'.unit i = (R.entangle bits).2.1 → R'.unit j = (R.entangle bits).2.1 → i < j → R'.pos i < R'.pos j := by
    rw [s'.n, s'.unit]; exact o'
  have hin : ∀ s l, s + l ≤ R.n → (∀ k < l, R'.unit (s + k) = (R.entangle bits).2.1) → R'.Run s l := fun s l hsl hu =>
    run_of_order s'.valid s'.full o'' (by rw [s'.n, hj.n]; exact hsl) hu
  refine ⟨R', _, rfl, ⟨s'.n.trans hj.n, s'.valid, s'.full, s'.joint.trans hj.joint, ?_, hin⟩, ?_⟩
  · intro s l hsl hrun
    have h1 := hj.run hrun
    by_cases hu : (R.entangle bits).1.unit s = (R.entangle bits).2.1
    · exact hin s l hsl fun k hk => by rw [s'.unit, (h1 k hk).1, hu]
    · intro k hk
      obtain ⟨h2, h3⟩ := h1 k hk
      rw [s'.unit, s'.stay s hu, s'.stay (s + k) (by rw [h2]; exact hu)]
      exact ⟨h2, h3⟩
  · intro r hr' k hk
    rw [s'.unit]
    refine List.mem_singleton.1 (hj.into _ (List.mem_map.2 ⟨r.1 + k, ?_, rfl⟩))
    rw [← hbits, List.mem_flatMap]
    exact ⟨r, hr', List.mem_range'_1.2 ⟨by omega, by omega⟩⟩

/-! ## An operation on runs -/

theorem held_setField {R : Reg} (h : R.Valid) {s l : ℕ} (hr : R.Run s l) (hs : s + l ≤ R.n) (hl : 0 < l) (v i : ℕ) :
    R.held (R.unit s) (setField s l v i) = setField (R.pos s) l v (R.held (R.unit s) i) := by
  apply held_ext h
  · intro q hq h1
    have e := held_at h hq i
    rw [h1] at e
    rw [testBit_setField, testBit_setField]
    by_cases hin : s ≤ q ∧ q < s + l
    · obtain ⟨-, h3⟩ := hr (q - s) (by omega)
      rw [show s + (q - s) = q by omega] at h3
      rw [if_neg (by omega), if_pos (by omega), if_neg (by omega), if_pos (by omega)]
      congr 1; omega
    · have hout : ¬ (R.pos s ≤ R.pos q ∧ R.pos q < R.pos s + l) := by
        rintro ⟨a, b⟩
        obtain ⟨h2, h3⟩ := hr (R.pos q - R.pos s) (by omega)
        have := h.inj q hq (s + (R.pos q - R.pos s)) (by omega) (by rw [h1, h2]) (by omega)
        omega
      have e1 : (if q < s then i.testBit q else if q < s + l then v.testBit (q - s) else i.testBit q) = i.testBit q := by
        split_ifs <;> first | rfl | omega
      rw [e1]
      split_ifs <;> first | exact e | omega
  · intro p hp
    have h1 := held_free hp i
    rw [testBit_setField]
    split_ifs with a b
    · exact h1
    · obtain ⟨h2, h3⟩ := hr (p - R.pos s) (by omega)
      exact absurd (show R.pos (s + (p - R.pos s)) = p by omega) (hp _ (by omega) h2)
    · exact h1

theorem field_held {R : Reg} (h : R.Valid) {s l : ℕ} (hr : R.Run s l) (hs : s + l ≤ R.n) (i : ℕ) :
    field (R.pos s) l (R.held (R.unit s) i) = field s l i := by
  apply Nat.eq_of_testBit_eq
  intro k
  rw [testBit_field, testBit_field]
  by_cases hk : k < l
  · obtain ⟨h2, h3⟩ := hr k hk
    rw [← h3, ← h2, held_at h (by omega)]
  · simp [hk]

theorem rest_setField {R : Reg} {s l : ℕ} (hr : R.Run s l) (v i : ℕ) : R.rest (R.unit s) (setField s l v i) = R.rest (R.unit s) i := by
  apply rest_congr
  intro q _ h1
  rw [testBit_setField]
  split_ifs with a b
  · rfl
  · obtain ⟨h2, -⟩ := hr (q - s) (by omega)
    rw [show s + (q - s) = q by omega] at h2
    exact absurd h2 h1
  · rfl

/-- The places of some runs in one unit. -/
theorem act_pull {R : Reg} (h : R.Valid) {u : ℕ} {rs : List (ℕ × ℕ)} (hne : rs ≠ [])
    (hr : ∀ r ∈ rs, R.Run r.1 r.2 ∧ r.1 + r.2 ≤ R.n ∧ 0 < r.2 ∧ R.unit r.1 = u) {p p' : ℕ → Prop} [DecidablePred p] [DecidablePred p']
    (hp : ∀ i, p' (R.held u i) ↔ p i) (g : List ℕ → List ℕ) (w : List ℕ → ℂ) :
    (R.act u (pull p' (R.placed rs) g w)).joint = pull p rs g w R.joint := by
  funext i
  obtain ⟨r0, hr0⟩ := List.exists_mem_of_ne_nil _ hne
  have hu' : ∃ q < R.n, R.unit q = u := ⟨r0.1, by obtain ⟨-, a, b, -⟩ := hr r0 hr0; omega, (hr r0 hr0).2.2.2⟩
  have hvs : (R.placed rs).map (fun r => field r.1 r.2 (R.held u i)) = rs.map fun r => field r.1 r.2 i := by
    unfold Reg.placed
    rw [List.map_map]
    refine List.map_congr_left fun r hr' => ?_
    obtain ⟨a, b, -, d⟩ := hr r hr'
    subst d
    exact field_held h a b i
  have hfold : ∀ (rs' : List (ℕ × ℕ)) (vs : List ℕ) (x : ℕ), (∀ r ∈ rs', R.Run r.1 r.2 ∧ r.1 + r.2 ≤ R.n ∧ 0 < r.2 ∧ R.unit r.1 = u) →
      R.held u ((rs'.zip vs).foldl (fun j r => setField r.1.1 r.1.2 r.2 j) x) =
        ((R.placed rs').zip vs).foldl (fun j r => setField r.1.1 r.1.2 r.2 j) (R.held u x) ∧
      R.rest u ((rs'.zip vs).foldl (fun j r => setField r.1.1 r.1.2 r.2 j) x) = R.rest u x := by
    intro rs'
    induction rs' with
    | nil => intro vs x _; exact ⟨rfl, rfl⟩
    | cons r rs' ih =>
      intro vs x hr'
      cases vs with
      | nil => exact ⟨rfl, rfl⟩
      | cons v vs =>
        obtain ⟨a, b, c, d⟩ := hr' r (by simp)
        obtain ⟨e1, e2⟩ := ih vs (setField r.1 r.2 v x) fun r hr => hr' r (by simp [hr])
        have f1 := held_setField h a b c v x
        have f2 := rest_setField a v x
        rw [d] at f1 f2
        constructor
        · simp only [List.zip_cons_cons, List.foldl_cons, Reg.placed, List.map_cons]
          rw [e1, f1]
          rfl
        · simp only [List.zip_cons_cons, List.foldl_cons]
          rw [e2, f2]
  rw [joint_act hu']
  unfold pull
  dsimp only
  rw [hvs]
  by_cases hpi : p i
  · rw [if_pos hpi, if_pos ((hp i).2 hpi), joint_split hu', (hfold _ _ _ hr).1, (hfold _ _ _ hr).2]
    ring
  · rw [if_neg hpi, if_neg (fun h1 => hpi ((hp i).1 h1)), joint_split hu']

end Verif.QUE
