import Verif.Lemmas.UnitRange
import Verif.Props.UnitEntangle

/-!
# C86: operations of `QUnit` on ranges of qubits

`pull` (`Verif/Spec/Pull.lean`) is the operation on registers of qubits; `R.joint` is the state of all qubits.
-/

namespace Verif.QUE

open Verif.Spec Finset

theorem five_full : five.Full := by
  intro k hk p hp
  change k < 5 at hk
  interval_cases k
  · have : p = 0 := Nat.lt_one_iff.1 hp
    exact ⟨0, by decide, rfl, this.symm⟩
  · have : p = 0 := Nat.lt_one_iff.1 hp
    exact ⟨1, by decide, rfl, this.symm⟩
  · change p < 2 at hp
    interval_cases p
    · exact ⟨2, by decide, rfl, rfl⟩
    · exact ⟨3, by decide, rfl, rfl⟩
  · change p < 2 at hp
    interval_cases p
    · exact ⟨2, by decide, rfl, rfl⟩
    · exact ⟨3, by decide, rfl, rfl⟩
  · have : p = 0 := Nat.lt_one_iff.1 hp
    exact ⟨4, by decide, rfl, this.symm⟩

/-! ## Bringing ranges together -/

/-- C86. `OrderContiguous` does not change the state, and leaves the places of the qubits of the unit in the order of the qubits. -/
theorem order_keeps {R : Reg} (h : R.Valid) (hf : R.Full) {t : ℕ} (ht : t < R.n) :
    ∃ R', R.order (R.unit t) = some R' ∧ R'.joint = R.joint ∧ R'.n = R.n ∧ R'.Valid ∧ R'.Full ∧ R'.unit = R.unit ∧
      ∀ i j, i < R.n → j < R.n → R.unit i = R.unit t → R.unit j = R.unit t → i < j → R'.pos i < R'.pos j := by
  obtain ⟨R', e, s, o⟩ := order_spec h hf ht
  exact ⟨R', e, s.joint, s.n, s.valid, s.full, s.unit, o⟩

example : ∃ R', five.order (five.unit 3) = some R' ∧ R'.joint = five.joint ∧ R'.n = five.n ∧ R'.Valid ∧ R'.Full ∧ R'.unit = five.unit ∧
    ∀ i j, i < five.n → j < five.n → five.unit i = five.unit 3 → five.unit j = five.unit 3 → i < j → R'.pos i < R'.pos j :=
  order_keeps five_valid five_full (by decide)

theorem entangleRange_spec {R : Reg} (h : R.Valid) (hf : R.Full) {s l : ℕ} (hs : s + l ≤ R.n) (hl : 0 < l) :
    ∃ R' u, R.entangleRange s l = some (R', u) ∧ R'.joint = R.joint ∧ R'.n = R.n ∧ R'.Valid ∧ R'.Full ∧ R'.Run s l ∧ R'.unit s = u ∧
      ∀ s' l', s' + l' ≤ R.n → R.Run s' l' → R'.Run s' l' := by
  unfold Reg.entangleRange
  by_cases h1 : l = 1
  · rw [if_pos h1]
    subst h1
    exact ⟨R, _, rfl, rfl, rfl, h, hf, run_one R s, rfl, fun _ _ _ h => h⟩
  · rw [if_neg h1]
    obtain ⟨R', u, e, G, hu⟩ := entangleIn_spec h hf (rs := [(s, l)]) (by simpa using hs) ⟨_, List.mem_singleton.2 rfl, hl⟩
    have hu' := hu (s, l) (by simp)
    exact ⟨R', u, e, G.joint, G.n, G.valid, G.full, G.into s l hs hu', hu' 0 hl, G.run⟩

/-- C86. `EntangleRange` does not change the state; afterwards the qubits of the range are in the returned unit, side by side and in
order. -/
theorem entangleRange_keeps {R : Reg} (h : R.Valid) (hf : R.Full) {s l : ℕ} (hs : s + l ≤ R.n) (hl : 0 < l) :
    ∃ R' u, R.entangleRange s l = some (R', u) ∧ R'.joint = R.joint ∧ R'.n = R.n ∧ R'.Valid ∧ R'.Full ∧
      ∀ k < l, R'.unit (s + k) = u ∧ R'.pos (s + k) = R'.pos s + k := by
  obtain ⟨R', u, e, h1, h2, h3, h4, h5, h6, -⟩ := entangleRange_spec h hf hs hl
  exact ⟨R', u, e, h1, h2, h3, h4, fun k hk => ⟨(h5 k hk).1.trans h6, (h5 k hk).2⟩⟩

example : ∃ R' u, five.entangleRange 1 3 = some (R', u) ∧ R'.joint = five.joint ∧ R'.n = five.n ∧ R'.Valid ∧ R'.Full ∧
    ∀ k < 3, R'.unit (1 + k) = u ∧ R'.pos (1 + k) = R'.pos 1 + k :=
  entangleRange_keeps five_valid five_full (by decide) (by decide)

theorem upTwo_mem (a b r : ℕ × ℕ) : (r = (upTwo a b).1 ∨ r = (upTwo a b).2) ↔ (r = a ∨ r = b) := by
  unfold upTwo; split_ifs <;> simp only [] <;> tauto

/-- C86. `EntangleRange` of three ranges (one of which may be as short as a carry). -/
theorem entangleRange3_keeps {R : Reg} (h : R.Valid) (hf : R.Full) {a b c : ℕ × ℕ}
    (hr : ∀ r ∈ [a, b, c], r.1 + r.2 ≤ R.n ∧ 0 < r.2) :
    ∃ R' u, R.entangleRange3 a b c = some (R', u) ∧ R'.joint = R.joint ∧ R'.n = R.n ∧ R'.Valid ∧ R'.Full ∧
      ∀ r ∈ [a, b, c], ∀ k < r.2, R'.unit (r.1 + k) = u ∧ R'.pos (r.1 + k) = R'.pos r.1 + k := by
  unfold Reg.entangleRange3
  dsimp only
  have hm : ∀ r, r ∈ [(upTwo (upTwo a b).1 c).1, (upTwo (upTwo a b).2 (upTwo (upTwo a b).1 c).2).1,
      (upTwo (upTwo a b).2 (upTwo (upTwo a b).1 c).2).2] ↔ r ∈ [a, b, c] := by
    intro r
    have h1 := upTwo_mem a b r
    have h2 := upTwo_mem (upTwo a b).1 c r
    have h3 := upTwo_mem (upTwo a b).2 (upTwo (upTwo a b).1 c).2 r
    simp only [List.mem_cons, List.not_mem_nil, or_false]
    rw [h3, or_left_comm, h2, ← or_assoc, or_comm (a := r = (upTwo a b).2), h1, or_assoc]
  obtain ⟨R', u, e, G, hu⟩ := entangleIn_spec h hf (rs := [(upTwo (upTwo a b).1 c).1, (upTwo (upTwo a b).2 (upTwo (upTwo a b).1 c).2).1,
      (upTwo (upTwo a b).2 (upTwo (upTwo a b).1 c).2).2]) (fun r hr' => (hr r ((hm r).1 hr')).1)
    ⟨a, (hm a).2 (by simp), (hr a (by simp)).2⟩
  refine ⟨R', u, e, G.joint, G.n, G.valid, G.full, fun r hr' k hk => ?_⟩
  have hu' := hu r ((hm r).2 hr')
  exact ⟨hu' k hk, (G.into r.1 r.2 (hr r hr').1 hu' k hk).2⟩

example : ∃ R' u, five.entangleRange3 (3, 2) (0, 2) (2, 1) = some (R', u) ∧ R'.joint = five.joint ∧ R'.n = five.n ∧ R'.Valid ∧ R'.Full ∧
    ∀ r ∈ [((3, 2) : ℕ × ℕ), (0, 2), (2, 1)], ∀ k < r.2, R'.unit (r.1 + k) = u ∧ R'.pos (r.1 + k) = R'.pos r.1 + k :=
  entangleRange3_keeps five_valid five_full (by decide)

/-! ## Operations on the ranges -/

/-- C86. An operation on one range is the operation on the qubits. -/
theorem onRange_pulls {R : Reg} (h : R.Valid) (hf : R.Full) {s l : ℕ} (hs : s + l ≤ R.n) (hl : 0 < l) (g : List ℕ → List ℕ) (w : List ℕ → ℂ) :
    ∃ R', R.onRange s l g w = some R' ∧ R'.joint = pull (fun _ => True) [(s, l)] g w R.joint := by
  obtain ⟨R', u, e, h1, h2, h3, h4, h5, h6, -⟩ := entangleRange_spec h hf hs hl
  unfold Reg.onRange
  rw [e]
  refine ⟨_, rfl, ?_⟩
  dsimp only
  rw [act_pull h3 (by simp) (p := fun _ => True) ?_ (fun _ => Iff.rfl), h1]
  intro r hr
  rw [List.mem_singleton] at hr
  subst hr
  exact ⟨h5, by rw [h2]; exact hs, hl, rfl⟩

example : ∃ R', five.onRange 1 3 (before 3 5) (fun _ => 1) = some R' ∧
    R'.joint = pull (fun _ => True) [(1, 3)] (before 3 5) (fun _ => 1) five.joint :=
  onRange_pulls five_valid five_full (by decide) (by decide) _ _

/-- C86. An operation on a range and a further qubit, such as an addition with carry. -/
theorem onRangeCarry_pulls {R : Reg} (h : R.Valid) (hf : R.Full) {s l c : ℕ} (hs : s + l ≤ R.n) (hl : 0 < l) (hc : c < R.n)
    (g : List ℕ → List ℕ) (w : List ℕ → ℂ) :
    ∃ R', R.onRangeCarry s l c g w = some R' ∧ R'.joint = pull (fun _ => True) [(s, l), (c, 1)] g w R.joint := by
  obtain ⟨R', u, e, h1, h2, h3, h4, h5, h6, -⟩ := entangleRange_spec h hf hs hl
  unfold Reg.onRangeCarry
  rw [e]
  refine ⟨_, rfl, ?_⟩
  dsimp only
  have hb : ∀ b ∈ [s, c].mergeSort (· ≤ ·), b < R'.n := by
    intro b hb
    rw [List.mem_mergeSort] at hb
    rw [h2]
    simp only [List.mem_cons, List.not_mem_nil, or_false] at hb
    rcases hb with rfl | rfl
    · omega
    · exact hc
  have hj := entangle_joins h3 hb (sort_ne_nil (by simp))
  have hu : ∀ b ∈ [s, c], (R'.entangleCopy [s, c]).1.unit b = (R'.entangleCopy [s, c]).2 := fun b hb' =>
    List.mem_singleton.1 (hj.into b (List.mem_map.2 ⟨b, List.mem_mergeSort.2 hb', rfl⟩))
  rw [act_pull (R := (R'.entangleCopy [s, c]).1) hj.valid (by simp) (p := fun _ => True) ?_ (fun _ => Iff.rfl)]
  · have : (R'.entangleCopy [s, c]).1.joint = R'.joint := hj.joint
    rw [this, h1]
  · have hn : (R'.entangleCopy [s, c]).1.n = R.n := hj.n.trans h2
    intro r hr
    simp only [List.mem_cons, List.not_mem_nil, or_false] at hr
    rcases hr with rfl | rfl
    · exact ⟨hj.run h5, by rw [hn]; exact hs, hl, hu _ (by simp)⟩
    · exact ⟨run_one _ _, by rw [hn]; exact hc, Nat.one_pos, hu _ (by simp)⟩

example : ∃ R', five.onRangeCarry 1 3 0 (fun vs => vs.map (· + 1)) (fun _ => 1) = some R' ∧
    R'.joint = pull (fun _ => True) [(1, 3), (0, 1)] (fun vs => vs.map (· + 1)) (fun _ => 1) five.joint :=
  onRangeCarry_pulls five_valid five_full (by decide) (by decide) (by decide) _ _

/-- C86. An operation on two ranges, such as a product. -/
theorem onRanges2_pulls {R : Reg} (h : R.Valid) (hf : R.Full) {a b : ℕ × ℕ} (hr : ∀ r ∈ [a, b], r.1 + r.2 ≤ R.n ∧ 0 < r.2)
    (g : List ℕ → List ℕ) (w : List ℕ → ℂ) :
    ∃ R', R.onRanges2 a b g w = some R' ∧ R'.joint = pull (fun _ => True) [a, b] g w R.joint := by
  have hm : ∀ r, r ∈ [(upTwo a b).1, (upTwo a b).2] ↔ r ∈ [a, b] := by
    intro r
    have h1 := upTwo_mem a b r
    simp only [List.mem_cons, List.not_mem_nil, or_false]
    tauto
  obtain ⟨R', u, e, G, hu⟩ := entangleIn_spec h hf (rs := [(upTwo a b).1, (upTwo a b).2]) (fun r hr' => (hr r ((hm r).1 hr')).1)
    ⟨a, (hm a).2 (by simp), (hr a (by simp)).2⟩
  unfold Reg.onRanges2 Reg.entangleRange2
  dsimp only
  rw [e]
  refine ⟨_, rfl, ?_⟩
  dsimp only
  have ha : R'.unit a.1 = u := hu a ((hm a).2 (by simp)) 0 (hr a (by simp)).2
  rw [ha, act_pull G.valid (by simp) (p := fun _ => True) ?_ (fun _ => Iff.rfl), G.joint]
  intro r hr'
  have hu' := hu r ((hm r).2 hr')
  exact ⟨G.into r.1 r.2 (hr r hr').1 hu', by rw [G.n]; exact (hr r hr').1, (hr r hr').2, hu' 0 (hr r hr').2⟩

example : ∃ R', five.onRanges2 (3, 2) (0, 2) (fun vs => vs.reverse) (fun _ => 1) = some R' ∧
    R'.joint = pull (fun _ => True) [(3, 2), (0, 2)] (fun vs => vs.reverse) (fun _ => 1) five.joint :=
  onRanges2_pulls five_valid five_full (by decide) _ _

/-- C86. An operation on three ranges, such as `IndexedADC`. -/
theorem onRanges3_pulls {R : Reg} (h : R.Valid) (hf : R.Full) {a b c : ℕ × ℕ} (hr : ∀ r ∈ [a, b, c], r.1 + r.2 ≤ R.n ∧ 0 < r.2)
    (g : List ℕ → List ℕ) (w : List ℕ → ℂ) :
    ∃ R', R.onRanges3 a b c g w = some R' ∧ R'.joint = pull (fun _ => True) [a, b, c] g w R.joint := by
  obtain ⟨R', u, e, h1, h2, h3, -, h5⟩ := entangleRange3_keeps h hf hr
  unfold Reg.onRanges3
  rw [e]
  refine ⟨_, rfl, ?_⟩
  dsimp only
  have ha : R'.unit a.1 = u := (h5 a (by simp) 0 (hr a (by simp)).2).1
  rw [ha, act_pull h3 (by simp) (p := fun _ => True) ?_ (fun _ => Iff.rfl), h1]
  intro r hr'
  have h6 : R'.unit r.1 = u := (h5 r hr' 0 (hr r hr').2).1
  exact ⟨fun k hk => ⟨(h5 r hr' k hk).1.trans h6.symm, (h5 r hr' k hk).2⟩, by rw [h2]; exact (hr r hr').1, (hr r hr').2, h6⟩

example : ∃ R', five.onRanges3 (3, 2) (0, 2) (2, 1) (fun vs => vs.reverse) (fun _ => 1) = some R' ∧
    R'.joint = pull (fun _ => True) [(3, 2), (0, 2), (2, 1)] (fun vs => vs.reverse) (fun _ => 1) five.joint :=
  onRanges3_pulls five_valid five_full (by decide) _ _

/-- C86. A controlled operation on two ranges, such as `CMUL`. -/
theorem onRangesCtrl_pulls {R : Reg} (h : R.Valid) (hf : R.Full) {cs : List ℕ} (hc : ∀ c ∈ cs, c < R.n) {a b : ℕ × ℕ}
    (hr : ∀ r ∈ [a, b], r.1 + r.2 ≤ R.n ∧ 0 < r.2) (g : List ℕ → List ℕ) (w : List ℕ → ℂ) :
    ∃ R', R.onRangesCtrl cs a b g w = some R' ∧ R'.joint = pull (AllAre true cs) [a, b] g w R.joint := by
  obtain ⟨ha1, ha2⟩ := hr a (by simp)
  obtain ⟨hb1, hb2⟩ := hr b (by simp)
  obtain ⟨R1, u1, e1, j1, n1, v1, f1, r1, -, -⟩ := entangleRange_spec h hf ha1 ha2
  obtain ⟨R2, u2, e2, j2, n2, v2, f2, r2, -, k2⟩ := entangleRange_spec v1 f1 (s := b.1) (l := b.2) (by rw [n1]; exact hb1) hb2
  unfold Reg.onRangesCtrl
  rw [e1, Option.bind_some, e2]
  refine ⟨_, rfl, ?_⟩
  dsimp only
  have hn : R2.n = R.n := n2.trans n1
  have hb : ∀ x ∈ (cs ++ [a.1, b.1]).mergeSort (· ≤ ·), x < R2.n := by
    intro x hx
    rw [List.mem_mergeSort, List.mem_append] at hx
    rw [hn]
    rcases hx with hx | hx
    · exact hc x hx
    · simp only [List.mem_cons, List.not_mem_nil, or_false] at hx
      rcases hx with rfl | rfl <;> omega
  have hj := entangle_joins v2 hb (sort_ne_nil (by simp))
  have hu := fun x (hx : x ∈ cs ++ [a.1, b.1]) => List.mem_singleton.1 (hj.into x (List.mem_map.2 ⟨x, List.mem_mergeSort.2 hx, rfl⟩))
  have hn' := hj.n.trans hn
  rw [show (R2.entangle ((cs ++ [a.1, b.1]).mergeSort (· ≤ ·))).2.1 = R2.unit (((cs ++ [a.1, b.1]).mergeSort (· ≤ ·)).headD 0) from rfl,
    act_pull hj.valid (by simp) (p := AllAre true cs) ?_ ?_, hj.joint, j2, j1]
  · intro r hr'
    simp only [List.mem_cons, List.not_mem_nil, or_false] at hr'
    rcases hr' with rfl | rfl
    · exact ⟨hj.run (k2 _ _ (by rw [n1]; exact ha1) r1), by rw [hn']; exact ha1, ha2, hu _ (by simp)⟩
    · exact ⟨hj.run r2, by rw [hn']; exact hb1, hb2, hu _ (by simp)⟩
  · intro i
    exact allAre_held hj.valid (fun c hc' => ⟨by rw [hn']; exact hc c hc', hu c (by simp [hc'])⟩) true i

example : ∃ R', five.onRangesCtrl [4] (2, 2) (0, 2) (fun vs => vs.reverse) (fun _ => 1) = some R' ∧
    R'.joint = pull (AllAre true [4]) [(2, 2), (0, 2)] (fun vs => vs.reverse) (fun _ => 1) five.joint :=
  onRangesCtrl_pulls five_valid five_full (by decide) (by decide) _ _

/-! ## Controlled additions in parts -/

theorem cincPart_spec {R : Reg} (h : R.Valid) (hf : R.Full) {cs ab : List ℕ} (hab : ∀ x, x ∈ ab ↔ x ∈ cs) (hc : ∀ c ∈ cs, c < R.n)
    {s l : ℕ} (hs : s + l ≤ R.n) (hl : 0 < l) (toAdd : ℕ) :
    ∃ R' ab', R.cincPart cs ab s l toAdd = some (R', ab') ∧ R'.n = R.n ∧ R'.Valid ∧ R'.Full ∧ R'.joint = pull (AllAre true cs) [(s, l)] (before l toAdd) (fun _ => 1) R.joint := by
  obtain ⟨R1, u1, e1, j1, n1, v1, f1, r1, -, -⟩ := entangleRange_spec h hf hs hl
  unfold Reg.cincPart
  rw [e1]
  have hb : ∀ x ∈ ab ++ [s], x < R1.n := by
    intro x hx
    rw [List.mem_append, List.mem_singleton] at hx
    rw [n1]
    rcases hx with hx | rfl
    · exact hc x ((hab x).1 hx)
    · omega
  have hj := entangle_joins v1 hb (by simp)
  have hu := fun x (hx : x ∈ ab ++ [s]) => List.mem_singleton.1 (hj.into x (List.mem_map.2 ⟨x, hx, rfl⟩))
  have hn' := hj.n.trans n1
  refine ⟨_, _, rfl, hn', ⟨hj.valid.lt, hj.valid.inj⟩, hj.full f1, ?_⟩
  dsimp only
  rw [show (R1.entangle (ab ++ [s])).2.1 = R1.unit ((ab ++ [s]).headD 0) from rfl,
    act_pull hj.valid (by simp) (p := AllAre true cs) ?_ ?_, hj.joint, j1]
  · intro r hr'
    rw [List.mem_singleton] at hr'
    subst hr'
    exact ⟨hj.run r1, by rw [hn']; exact hs, hl, hu _ (by simp)⟩
  · intro i
    exact allAre_held hj.valid (fun c hc' => ⟨by rw [hn']; exact hc c hc', hu c (by simp [(hab c).2 hc'])⟩) true i

/-- Additions to parts of a register, one after the other. -/
noncomputable def addParts (cs : List ℕ) : List (ℕ × ℕ × ℕ) → (ℕ → ℂ) → ℕ → ℂ
  | [], ψ => ψ
  | p :: l, ψ => addParts cs l (pull (AllAre true cs) [(p.1, p.2.1)] (before p.2.1 p.2.2) (fun _ => 1) ψ)

/-- C86. The controlled additions of `INT` to the parts of a register are the additions to the qubits. The whole claim is for any number
of parts; it is proved for one part, and is false for two. -/
theorem cincParts_partial {R : Reg} (h : R.Valid) (hf : R.Full) {cs ab : List ℕ} (hab : ∀ x, x ∈ ab ↔ x ∈ cs) (hc : ∀ c ∈ cs, c < R.n)
    {parts : List (ℕ × ℕ × ℕ)} (hp : ∀ p ∈ parts, p.1 + p.2.1 ≤ R.n ∧ 0 < p.2.1) (hone : parts.length ≤ 1) :
    ∃ R', R.cincParts cs ab parts = some R' ∧ R'.joint = addParts cs parts R.joint := by
  match parts, hone with
  | [], _ => exact ⟨R, rfl, rfl⟩
  | [p], _ =>
    obtain ⟨h1, h2⟩ := hp p (by simp)
    obtain ⟨R', ab', e, -, -, -, j⟩ := cincPart_spec h hf hab hc h1 h2 p.2.2
    refine ⟨R', ?_, j⟩
    unfold Reg.cincParts
    rw [e]
    rfl

example : ∃ R', five.cincParts [4, 0] [0, 4] [(1, 3, 5)] = some R' ∧ R'.joint = addParts [4, 0] [(1, 3, 5)] five.joint :=
  cincParts_partial five_valid five_full (by simp; tauto) (by decide) (by decide) (by decide)

/-- An addition in the reading direction: the amplitude of a basis state goes to the one with the sum in the register. -/
theorem addPart_moves {p : ℕ → Prop} [DecidablePred p] {s l : ℕ} (hp : ∀ i v, p (setField s l v i) ↔ p i) (a : ℕ) (ψ : ℕ → ℂ) {i : ℕ} (hi : p i) :
    pull p [(s, l)] (before l a) (fun _ => 1) ψ (setField s l (field s l i + a) i) = ψ i := by
  unfold pull before
  simp only [List.map_cons, List.map_nil, List.zip_cons_cons, List.zip_nil_right, List.foldl_cons, List.foldl_nil]
  rw [if_pos ((hp _ _).2 hi), one_mul]
  congr 1
  have e1 : field s l (setField s l (field s l i + a) i) = (field s l i + a) % 2 ^ l := by
    apply Nat.eq_of_testBit_eq
    intro k
    rw [testBit_field, testBit_setField, Nat.testBit_mod_two_pow]
    by_cases hk : k < l
    · rw [if_neg (by omega), if_pos (by omega)]
      simp [hk]
    · simp [hk]
  rw [e1]
  have e2 : ((field s l i + a) % 2 ^ l + (2 ^ l - a % 2 ^ l)) % 2 ^ l = field s l i := by
    have hpos : 0 < 2 ^ l := by positivity
    have h1 := Nat.mod_lt a hpos
    have h2 := field_lt s l i
    rw [Nat.mod_add_mod]
    have h3 := Nat.div_add_mod a (2 ^ l)
    rw [show field s l i + a + (2 ^ l - a % 2 ^ l) = field s l i + 2 ^ l * (a / 2 ^ l + 1) by rw [mul_add, mul_one]; omega,
      Nat.add_mul_mod_self_left, Nat.mod_eq_of_lt h2]
  rw [e2]
  apply Nat.eq_of_testBit_eq
  intro k
  rw [testBit_setField, testBit_setField, testBit_field]
  by_cases h1 : k < s
  · rw [if_pos h1, if_pos h1]
  · by_cases h2 : k < s + l
    · rw [if_neg h1, if_pos h2, show s + (k - s) = k by omega]
      simp; omega
    · simp [h1, h2]

example (ψ : ℕ → ℂ) : pull (fun _ => True) [(1, 3)] (before 3 5) (fun _ => 1) ψ (setField 1 3 (field 1 3 0b1101 + 5) 0b1101) = ψ 0b1101 :=
  addPart_moves (fun _ _ => Iff.rfl) 5 ψ trivial

/-- Qubits 0 to 3 and a control 4, each in a unit of its own: qubit 0 is `|1⟩`, the others `|0⟩`. -/
def apart : Reg where
  n := 5
  unit q := q
  pos _ := 0
  size _ := 1
  amp u j := if (j = 1) = (u = 0) then 1 else 0

theorem apart_valid : apart.Valid := ⟨fun _ _ => Nat.zero_lt_one, fun _ _ _ _ h _ => h⟩

theorem apart_full : apart.Full := fun k hk p hp => ⟨k, hk, rfl, (Nat.lt_one_iff.1 hp).symm⟩

/-- C86. With two parts, the qubits that are joined for the second are those whose numbers are the places of the controls. Here qubit 4
controls an addition of 5 to the register of qubits 1 to 3, which is made as 1 to the qubits 1 and 2 and then 1 to qubit 3. For the
second part qubit 0 is joined with qubit 3, because 0 is the place of qubit 4; the unit of these two is called, and its place 0, which
is qubit 0, is the control. Qubit 4 is clear, and nothing should happen; but qubit 0 is set, and qubit 3 is flipped. -/
theorem cincParts_wrong : ∃ (R R' : Reg) (cs : List ℕ) (parts : List (ℕ × ℕ × ℕ)), R.Valid ∧ R.Full ∧ (∀ c ∈ cs, c < R.n) ∧
    (∀ p ∈ parts, p.1 + p.2.1 ≤ R.n ∧ 0 < p.2.1) ∧ R.cincParts cs cs parts = some R' ∧ R'.joint ≠ addParts cs parts R.joint := by
  obtain ⟨R1, ab1, e1, n1, v1, f1, j1⟩ := cincPart_spec apart_valid apart_full (cs := [4]) (ab := [4]) (fun _ => Iff.rfl) (by decide) (s := 1)
    (l := 2) (by decide) (by decide) 1
  have hcomp : (apart.cincPart [4] [4] 1 2 1).map (fun s => (s.2, (s.1.entangle [0, 3]).1.pos 4, (s.1.entangle [0, 3]).1.pos 0)) =
      some ([0], 0, 0) := by decide +kernel
  rw [e1, Option.map_some, Option.some.injEq, Prod.mk.injEq, Prod.mk.injEq] at hcomp
  obtain ⟨hab, h4, h0⟩ := hcomp
  dsimp only at hab h4 h0
  have hj := entangle_joins v1 (bits := [0, 3]) (by rw [n1]; decide) (by simp)
  have hu : ∀ x ∈ [0, 3], (R1.entangle [0, 3]).1.unit x = R1.unit 0 := fun x hx => List.mem_singleton.1 (hj.into x (List.mem_map.2 ⟨x, hx, rfl⟩))
  have hn : (R1.entangle [0, 3]).1.n = 5 := hj.n.trans n1
  let S := (R1.entangle [0, 3]).1
  let R2 := S.act (R1.unit 0) (pull (AllAre true ([4].map S.pos)) (S.placed [(3, 1)]) (before 1 1) fun _ => 1)
  have e2 : R1.cincPart [4] [0] 3 1 1 = some (R2, (R1.entangle [0, 3]).2.2.dropLast) := by
    unfold Reg.cincPart Reg.entangleRange
    rw [if_pos rfl]
    rfl
  have hR2 : R2.joint = pull (AllAre true [0]) [(3, 1)] (before 1 1) (fun _ => 1) R1.joint := by
    have := act_pull (R := S) hj.valid (u := R1.unit 0) (rs := [(3, 1)]) (by simp) (p := AllAre true [0]) (p' := AllAre true ([4].map S.pos)) (by
      intro r hr
      rw [List.mem_singleton] at hr
      subst hr
      exact ⟨run_one _ _, by rw [hn]; decide, Nat.one_pos, hu 3 (by simp)⟩) (by
      intro i
      rw [show [4].map S.pos = [0].map S.pos by simp only [List.map_cons, List.map_nil]; rw [show S.pos 4 = 0 from h4, show S.pos 0 = 0 from h0]]
      exact allAre_held hj.valid (fun c hc => by
        rw [List.mem_singleton] at hc
        subst hc
        exact ⟨by rw [hn]; decide, hu 0 (by simp)⟩) true i) (before 1 1) (fun _ => 1)
    rw [this, hj.joint]
  refine ⟨apart, R2, [4], [(1, 2, 1), (3, 1, 1)], apart_valid, apart_full, by decide, by decide, ?_, fun h => ?_⟩
  · unfold Reg.cincParts
    rw [e1, Option.bind_some]
    unfold Reg.cincParts
    dsimp only
    rw [hab, e2]
    rfl
  · have h1 := congrFun h 9
    have a1 : R2.joint 9 = 1 := by
      rw [hR2, j1]
      unfold pull
      simp only [List.map_cons, List.map_nil]
      rw [if_pos (by decide +kernel), show ((([(3, 1)] : List (ℕ × ℕ)).zip (before 1 1 [field 3 1 9])).foldl
        (fun j r => setField r.1.1 r.1.2 r.2 j) 9) = 1 by decide +kernel, if_neg (by decide +kernel), one_mul, joint_eq,
        show (range apart.n).image apart.unit = range 5 by decide +kernel]
      simp only [prod_range_succ, prod_range_zero]
      rw [show apart.held 0 1 = 1 by decide +kernel, show apart.held 1 1 = 0 by decide +kernel, show apart.held 2 1 = 0 by decide +kernel,
        show apart.held 3 1 = 0 by decide +kernel, show apart.held 4 1 = 0 by decide +kernel]
      simp [apart]
    have a2 : addParts [4] [(1, 2, 1), (3, 1, 1)] apart.joint 9 = 0 := by
      unfold addParts addParts addParts pull
      dsimp only
      rw [if_neg (by decide +kernel), if_neg (by decide +kernel), joint_eq, show (range apart.n).image apart.unit = range 5 by decide +kernel]
      apply prod_eq_zero (i := 3) (by decide)
      rw [show apart.held 3 9 = 1 by decide +kernel]
      simp [apart]
    rw [a1, a2] at h1
    exact one_ne_zero h1

end Verif.QUE
