import Verif.Model.UnitUniform
import Verif.Props.UnitEntangle
import Verif.Props.EngineUniform

/-!
# C85: the uniformly controlled gates of `QUnit`

`IsCtrlValue` and `IsMatrixIndex` are those of C50: the value of the control register, and the index of the matrix when some positions of
it are skipped.
-/

namespace Verif.QUE

open Verif.Spec Verif.Engine Verif.Utils Finset

/-! ## The positions that are skipped -/

theorem filter_at (P : ℕ → Bool) : ∀ (cs : List ℕ) (k : ℕ) (h : k < cs.length), P cs[k] = true →
    (cs.filter P)[(cs.take k).countP P]? = some cs[k]
  | [], k, h, _ => by simp at h
  | c :: cs, 0, _, hp => by
    have hp' : P c = true := hp
    simp [hp']
  | c :: cs, k + 1, h, hp => by
    have ih := filter_at P cs k (by simpa using h) (by simpa using hp)
    by_cases hc : P c = true
    · simp only [List.filter_cons_of_pos hc, List.take_succ_cons, List.countP_cons_of_pos hc, List.getElem?_cons_succ, List.getElem_cons_succ]
      exact ih
    · simp only [List.filter_cons_of_neg hc, List.take_succ_cons, List.countP_cons_of_neg hc, List.getElem_cons_succ]
      exact ih

theorem take_eq (cs : List ℕ) {k : ℕ} (hk : k ≤ cs.length) : cs.take k = (List.range k).map fun j => cs.getD j 0 := by
  apply List.ext_getElem
  · simp [hk]
  · intro j h1 h2
    simp at h1 h2
    simp [List.getD_eq_getElem?_getD, List.getElem?_eq_getElem (show j < cs.length by omega)]

theorem countP_below (f : ℕ → Bool) (k : ℕ) : ∀ L, k ≤ L → ((List.range L).filter f).countP (fun j => decide (j < k)) = (List.range k).countP f := by
  intro L hL
  induction L, hL using Nat.le_induction with
  | base =>
    rw [List.countP_filter, List.countP_congr]
    intro x hx
    rw [List.mem_range] at hx
    simp [hx]
  | succ L hL ih =>
    rw [List.range_succ, List.filter_append, List.countP_append, ih]
    have : ([L].filter f).countP (fun j => decide (j < k)) = 0 := by
      rw [List.countP_eq_zero]
      intro x hx
      have := List.mem_singleton.1 (List.mem_filter.1 hx).1
      subst this
      simp; omega
    omega

theorem below_skipped (known : ℕ → Option Bool) (cs : List ℕ) {k : ℕ} (hk : k ≤ cs.length) :
    k - below (skipped known cs) k = (cs.take k).countP (known · = none) := by
  unfold below skipped
  rw [countP_below _ k cs.length hk, take_eq cs hk, List.countP_map]
  have h := List.length_eq_countP_add_countP (fun j => decide (known (cs.getD j 0) = none)) (l := List.range k)
  rw [List.length_range] at h
  have h2 : (List.range k).countP (fun j => (known (cs.getD j 0)).isSome) =
      (List.range k).countP (fun j => decide ¬ decide (known (cs.getD j 0) = none) = true) := by
    apply List.countP_congr
    intro x _
    cases known (cs.getD x 0) <;> simp
  rw [h2]
  have h3 : ((fun x => decide (known x = none)) ∘ fun j => cs.getD j 0) = fun j => decide (known (cs.getD j 0) = none) := rfl
  rw [h3]
  omega

theorem mem_skipped {known : ℕ → Option Bool} {cs : List ℕ} {k : ℕ} : k ∈ skipped known cs ↔ k < cs.length ∧ (known (cs.getD k 0)).isSome := by
  unfold skipped
  rw [List.mem_filter, List.mem_range]

theorem skipped_length (known : ℕ → Option Bool) (cs : List ℕ) :
    (cs.filter (known · = none)).length + (skipped known cs).length = cs.length := by
  have h1 := below_skipped known cs (k := cs.length) le_rfl
  have h2 : below (skipped known cs) cs.length = (skipped known cs).length := by
    unfold below
    rw [List.countP_eq_length]
    intro x hx
    simpa using (mem_skipped.1 hx).1
  have h3 : (skipped known cs).length ≤ cs.length := by
    unfold skipped
    exact (List.length_filter_le _ _).trans (by simp)
  rw [h2, List.take_length, List.countP_eq_length_filter] at h1
  omega

theorem testBit_knownOnes (known : ℕ → Option Bool) (cs : List ℕ) (k : ℕ) :
    (knownOnes known cs).testBit k = (decide (k < cs.length) && decide (known (cs.getD k 0) = some true)) := by
  unfold knownOnes
  rw [testBit_maskOf, Bool.eq_iff_iff]
  simp

/-- Skipping the known controls leads to the matrix of the value of all of them. -/
theorem index_is {known : ℕ → Option Bool} {cs : List ℕ} {i v w idx : ℕ} (hk : ∀ c ∈ cs, ∀ b, known c = some b → i.testBit c = b)
    (hv : IsCtrlValue cs i v) (hw : IsCtrlValue (cs.filter (known · = none)) i w)
    (hi : IsMatrixIndex (skipped known cs) (knownOnes known cs) w idx) : idx = v := by
  apply Nat.eq_of_testBit_eq
  intro k
  rw [hi k, testBit_knownOnes]
  by_cases hkl : k < cs.length
  · have hg : cs.getD k 0 = cs[k] := by simp [List.getD_eq_getElem?_getD, List.getElem?_eq_getElem hkl]
    rw [hv.2 k hkl, hg, decide_eq_true hkl, Bool.true_and]
    cases hb : known cs[k] with
    | some b =>
      rw [if_pos (mem_skipped.2 ⟨hkl, by rw [hg, hb]; rfl⟩), hk _ (List.getElem_mem hkl) b hb]
      cases b <;> simp
    | none =>
      rw [if_neg (fun h => by have := (mem_skipped.1 h).2; rw [hg, hb] at this; cases this), below_skipped known cs hkl.le]
      have h1 := filter_at (fun x => decide (known x = none)) cs k hkl (by simp [hb])
      obtain ⟨h2, h3⟩ := List.getElem?_eq_some_iff.1 h1
      rw [hw.2 _ h2, h3]
      simp
  · rw [if_neg (fun h => hkl (mem_skipped.1 h).1), Verif.Bits.lt_two_pow_iff_testBit.1 hv.1 k (by omega)]
    have h1 : below (skipped known cs) k ≤ (skipped known cs).length := List.countP_le_length
    have h2 := skipped_length known cs
    rw [Verif.Bits.lt_two_pow_iff_testBit.1 hw.1 _ (by omega)]
    simp [hkl]

theorem ctrlOffset_held {R : Reg} (h : R.Valid) {u : ℕ} {cs : List ℕ} (hc : ∀ c ∈ cs, c < R.n ∧ R.unit c = u) (i : ℕ) :
    IsCtrlValue cs i (ctrlOffset (cs.map R.pos) (R.held u i)) := by
  have h1 := ctrlOffset_isCtrlValue (cs.map R.pos) (R.held u i)
  refine ⟨by simpa using h1.1, fun j hj => ?_⟩
  rw [h1.2 j (by simpa using hj), List.getElem_map]
  obtain ⟨h2, h3⟩ := hc cs[j] (List.getElem_mem hj)
  rw [← h3, held_at h h2]

theorem gate_true (t : ℕ) (a b c d : ℂ) (s : ℕ → ℂ) (i : ℕ) : gate (fun _ => True) t a b c d s i =
    if i.testBit t then c * s (flipBit t i) + d * s i else a * s i + b * s (flipBit t i) := by
  unfold gate; rw [if_pos trivial]

theorem gate_zero {s : ℕ → ℂ} {t i : ℕ} (h1 : s i = 0) (h2 : s (flipBit t i) = 0) (a b c d : ℂ) :
    gate (fun _ => True) t a b c d s i = 0 := by
  rw [gate_true, h1, h2]; simp

/-- The value of a control register exists. -/
theorem ctrlValue_exists (cs : List ℕ) (i : ℕ) : ∃ v, IsCtrlValue cs i v := ⟨_, ctrlOffset_isCtrlValue cs i⟩

/-! ## The gate -/

/-- C85. `UniformlyControlledSingleBit` of `QUnit` applies, on each value of the control register, the matrix listed for that value,
whatever controls are known and whatever units the qubits are in. The whole claim is for a call in which the positions `ps` of the
index are skipped and hold the bits of `val`; it is proved where nothing is skipped. -/
theorem uniform_partial {R : Reg} (h : R.Valid) {known : ℕ → Option Bool} (hk : Sound known R.joint) {cs : List ℕ} {t : ℕ}
    (hb : ∀ k ∈ cs ++ [t], k < R.n) (hnd : (cs ++ [t]).Nodup) (hlen : cs.length ≤ 64) (ms : ℕ → M2) :
    let ps : List ℕ := []
    let val := 0
    ∃ R', R.uniform known cs t ms (ps.map (2 ^ ·)) val = some R' ∧ R'.n = R.n ∧ R'.Valid ∧
      ∀ i v idx, IsCtrlValue cs i v → IsMatrixIndex ps val v idx →
        R'.joint i = gate (fun _ => True) t (ms idx).a (ms idx).b (ms idx).c (ms idx).d R.joint i := by
  intro ps val
  have hidx : ∀ v idx, IsMatrixIndex ps val v idx → idx = v := by
    intro v idx hi
    apply Nat.eq_of_testBit_eq
    intro k
    rw [hi k]
    simp [ps, val, below]
  suffices H : ∃ R', R.uniform known cs t ms (ps.map (2 ^ ·)) val = some R' ∧ R'.n = R.n ∧ R'.Valid ∧
      ∀ i v, IsCtrlValue cs i v → R'.joint i = gate (fun _ => True) t (ms v).a (ms v).b (ms v).c (ms v).d R.joint i by
    obtain ⟨R', h1, h2, h3, h4⟩ := H
    refine ⟨R', h1, h2, h3, fun i v idx hv hi => ?_⟩
    rw [hidx v idx hi]
    exact h4 i v hv
  have ht : t < R.n := hb t (by simp)
  have hc : ∀ c ∈ cs, c < R.n := fun c hc => hb c (by simp [hc])
  have htc : t ∉ cs := by
    intro h1
    rw [List.nodup_append] at hnd
    exact hnd.2.2 t h1 t (by simp) rfl
  have hcn : cs.Nodup := (List.nodup_append.1 hnd).1
  have hone : ∀ m : M2, (R.act (R.unit t) (gate (fun _ => True) (R.pos t) m.a m.b m.c m.d)).joint =
      gate (fun _ => True) t m.a m.b m.c m.d R.joint := fun m => act_gate h ht (fun _ => Iff.rfl) _ _ _ _
  have hval : ∀ (S : Reg) (hS : S.Valid) (u : ℕ) (f : (ℕ → ℂ) → ℕ → ℂ), (S.act u f).Valid := fun S hS u f => ⟨hS.lt, hS.inj⟩
  -- where the known controls are not as they are known to be, there is nothing
  have hzero : ∀ i, ¬ (∀ c ∈ cs, ∀ b, known c = some b → i.testBit c = b) → R.joint i = 0 ∧ R.joint (flipBit t i) = 0 := by
    intro i hi
    push Not at hi
    obtain ⟨c, hcs, b, hkc, hne⟩ := hi
    constructor
    · by_contra h0
      exact hne (hk c b hkc i h0)
    · by_contra h0
      have := hk c b hkc _ h0
      rw [testBit_flip, decide_eq_false (by rintro rfl; exact htc hcs), Bool.xor_false] at this
      exact hne this
  unfold Reg.uniform
  dsimp only
  rw [if_neg (by omega)]
  by_cases h0 : cs = []
  · subst h0
    rw [if_pos rfl]
    refine ⟨_, rfl, rfl, hval R h _ _, fun i v hv => ?_⟩
    have : v = 0 := by have := hv.1; simp at this; exact this
    rw [hone, this]
  rw [if_neg h0, (throwIfBad_correct cs R.n).2 ⟨hc, hcn⟩, if_neg (by simp)]
  by_cases h1 : cs.filter (known · = none) = []
  · rw [if_pos h1]
    refine ⟨_, rfl, rfl, hval R h _ _, fun i v hv => ?_⟩
    rw [hone]
    by_cases hi : ∀ c ∈ cs, ∀ b, known c = some b → i.testBit c = b
    · have : knownOnes known cs = v := by
        apply Nat.eq_of_testBit_eq
        intro k
        rw [testBit_knownOnes]
        by_cases hkl : k < cs.length
        · have hg : cs.getD k 0 = cs[k] := by simp [List.getD_eq_getElem?_getD, List.getElem?_eq_getElem hkl]
          rw [hv.2 k hkl, hg, decide_eq_true hkl, Bool.true_and]
          cases hb : known cs[k] with
          | none =>
            have := List.filter_eq_nil_iff.1 h1 cs[k] (List.getElem_mem hkl)
            simp [hb] at this
          | some b =>
            rw [hi _ (List.getElem_mem hkl) b hb]
            cases b <;> simp
        · rw [Verif.Bits.lt_two_pow_iff_testBit.1 hv.1 k (by omega)]
          simp [hkl]
      rw [this]
    · obtain ⟨e1, e2⟩ := hzero i hi
      rw [gate_zero e1 e2, gate_zero e1 e2]
  rw [if_neg h1]
  obtain ⟨R', u, qs, e1, e2, e3, e4, e5, -, -⟩ := entangle_keeps h (bits := (cs.filter (known · = none) ++ [t]).mergeSort (· ≤ ·)) (by
    intro b hb'
    rw [List.mem_mergeSort, List.mem_append, List.mem_singleton] at hb'
    rcases hb' with hb' | rfl
    · exact hc b (List.mem_filter.1 hb').1
    · exact ht) (sort_ne_nil (by simp))
  have hu : ∀ x ∈ cs.filter (known · = none) ++ [t], R'.unit x = u := fun x hx => e5 x (List.mem_mergeSort.2 hx)
  have htu : R'.unit t = u := hu t (by simp)
  rw [e1]
  dsimp only
  refine ⟨_, rfl, e3, hval R' e4 _ _, fun i v hv => ?_⟩
  have hw := ctrlOffset_held e4 (u := u) (cs := cs.filter (known · = none))
    (fun c hc' => ⟨by rw [e3]; exact hc c (List.mem_filter.1 hc').1, hu c (by simp only [List.mem_append]; exact Or.inl hc')⟩) i
  have hlen' := skipped_length known cs
  have hix := ucIndex_isMatrixIndex (ps := skipped known cs) (by
    unfold skipped
    exact List.Pairwise.filter _ List.pairwise_lt_range) (val := knownOnes known cs) hw.1 (by omega)
  have hm : (R'.act u (uniformUnit ((cs.filter (known · = none)).map R'.pos) (R'.pos t) ms ((skipped known cs).map (2 ^ ·))
      (knownOnes known cs))).joint i =
      (let m := ms (ucIndex ((skipped known cs).map pow2) (knownOnes known cs)
        (ctrlOffset ((cs.filter (known · = none)).map R'.pos) (R'.held u i)))
      gate (fun _ => True) t m.a m.b m.c m.d R.joint i) := by
    dsimp only
    rw [← e2, ← act_gate e4 (by rw [e3]; exact ht) (p := fun _ => True) (p' := fun _ => True) (fun _ => Iff.rfl)]
    have hu' : ∃ q < R'.n, R'.unit q = u := ⟨t, by rw [e3]; exact ht, htu⟩
    rw [joint_act hu', htu, joint_act hu']
    rfl
  rw [hm]
  dsimp only
  by_cases hi : ∀ c ∈ cs, ∀ b, known c = some b → i.testBit c = b
  · rw [index_is hi hv hw hix]
  · obtain ⟨z1, z2⟩ := hzero i hi
    rw [gate_zero z1 z2, gate_zero z1 z2]

/-- Five qubits of which qubit 1 is `|1⟩`, in the units of `five`. -/
def fiveOne : Reg := { five with amp := fun u j => if u = 1 ∧ j.testBit 0 = false then 0 else 1 }

theorem fiveOne_valid : fiveOne.Valid := ⟨five_valid.lt, five_valid.inj⟩

theorem fiveOne_sound : Sound (fun q => if q = 1 then some true else none) fiveOne.joint := by
  intro q v hq i hi
  dsimp only at hq
  split_ifs at hq with h1
  · subst h1
    cases hq
    by_contra hb
    apply hi
    rw [joint_split (u := 1) ⟨1, by decide, rfl⟩]
    have h2 := held_at fiveOne_valid (q := 1) (by decide) i
    have h3 : (fiveOne.held 1 i).testBit 0 = false := by
      have h4 : (fiveOne.held 1 i).testBit 0 = i.testBit 1 := h2
      rw [h4]
      simpa using hb
    have h5 : fiveOne.amp 1 (fiveOne.held 1 i) = 0 := if_pos ⟨rfl, h3⟩
    rw [h5, zero_mul]

/-- Controls 0, 1, 3 and target 4; control 1 is known to be set, controls 0 and 3 and the target are brought into one unit. -/
example (ms : ℕ → M2) : ∃ R', fiveOne.uniform (fun q => if q = 1 then some true else none) [0, 1, 3] 4 ms [] 0 = some R' ∧
    R'.n = fiveOne.n ∧ R'.Valid ∧ ∀ i v idx, IsCtrlValue [0, 1, 3] i v → IsMatrixIndex [] 0 v idx →
      R'.joint i = gate (fun _ => True) 4 (ms idx).a (ms idx).b (ms idx).c (ms idx).d fiveOne.joint i :=
  uniform_partial fiveOne_valid fiveOne_sound (by decide) (by decide) (by decide) ms

/-- C85. Lists of controls that are out of range or have repetitions are refused, and so is a target that is out of range. -/
theorem uniform_invalid {R : Reg} {known : ℕ → Option Bool} {cs : List ℕ} {t : ℕ} (ms : ℕ → M2) (sp : List ℕ) (val : ℕ)
    (h : R.n ≤ t ∨ (∃ c ∈ cs, R.n ≤ c) ∨ ¬ cs.Nodup) : R.uniform known cs t ms sp val = none := by
  unfold Reg.uniform
  dsimp only
  by_cases h1 : R.n ≤ t
  · rw [if_pos h1]
  · rw [if_neg h1]
    by_cases h0 : cs = []
    · subst h0
      simp [h1] at h
    · rw [if_neg h0, if_pos]
      by_contra hb
      obtain ⟨h2, h3⟩ := (throwIfBad_correct cs R.n).1 (Bool.not_eq_true _ ▸ hb)
      rcases h with h | ⟨c, hc, hcn⟩ | h
      · exact h1 h
      · exact absurd (h2 c hc) (by omega)
      · exact h h3

example (ms : ℕ → M2) : five.uniform (fun _ => none) [0, 3, 0] 4 ms [] 0 = none := uniform_invalid ms _ _ (Or.inr (Or.inr (by decide)))

/-- C85. The positions to be skipped and their bits are ignored: with one control, position 0 of the index skipped and set, the
matrices 1 and 3 are to be used, and the matrices 0 and 1 are. -/
theorem uniform_wrong : ∃ (R : Reg) (cs : List ℕ) (t : ℕ) (ms : ℕ → M2) (ps : List ℕ) (val : ℕ) (R' : Reg) (i v idx : ℕ), R.Valid ∧
    (∀ k ∈ cs ++ [t], k < R.n) ∧ (cs ++ [t]).Nodup ∧ ps.Pairwise (· < ·) ∧ IsCtrlValue cs i v ∧ IsMatrixIndex ps val v idx ∧
    R.uniform (fun _ => none) cs t ms (ps.map (2 ^ ·)) val = some R' ∧
      R'.joint i ≠ gate (fun _ => True) t (ms idx).a (ms idx).b (ms idx).c (ms idx).d R.joint i := by
  let ms : ℕ → M2 := fun k => if k = 0 then ⟨0, 1, 1, 0⟩ else ⟨1, 0, 0, 1⟩
  obtain ⟨R', h1, -, -, h2⟩ := uniform_partial two_valid (sound_none two.joint) (cs := [0]) (t := 1) (by decide) (by decide) (by decide) ms
  have hv : IsCtrlValue [0] 0 0 := ⟨by decide, fun j hj => by simp⟩
  have hm0 : IsMatrixIndex [] 0 0 0 := fun k => by simp
  have hm1 : IsMatrixIndex [0] 1 0 1 := fun k => by simp
  refine ⟨two, [0], 1, ms, [0], 1, R', 0, 0, 1, two_valid, by decide, by decide, by decide, hv, hm1, h1, ?_⟩
  rw [h2 0 0 0 hv hm0, gate_true, gate_true]
  have j0 : two.joint 0 = 1 := by
    rw [joint_eq, show (range two.n).image two.unit = {0, 1} by decide +kernel, prod_pair (by decide)]
    rw [show two.held 0 0 = 0 by decide +kernel, show two.held 1 0 = 0 by decide +kernel]
    simp [two]
  have j2 : two.joint 2 = 0 := by
    rw [joint_eq, show (range two.n).image two.unit = {0, 1} by decide +kernel, prod_pair (by decide)]
    rw [show two.held 0 2 = 0 by decide +kernel, show two.held 1 2 = 1 by decide +kernel]
    simp [two]
  rw [show flipBit 1 0 = 2 by decide +kernel, j0, j2]
  simp [ms]

end Verif.QUE
