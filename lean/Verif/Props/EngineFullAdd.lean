import Verif.Props.EngineArith

/-!
# C17: the full adder of the state vector engine
-/

namespace Verif.Engine

open Verif.Spec Verif.BlockFold Verif.ParFor Verif.Circ

/-- Basis state `x` (whose qubits `c`, `o` are clear) with qubit `c` set to `u` and `o` to `v`. -/
def cell (c o x : ℕ) (u v : Bool) : ℕ := x ||| (if u then 2 ^ c else 0) ||| (if v then 2 ^ o else 0)

theorem testBit_cell {c o x : ℕ} (hc : x.testBit c = false) (ho : x.testBit o = false) (hco : c ≠ o) (u v : Bool) (k : ℕ) :
    (cell c o x u v).testBit k = if k = c then u else if k = o then v else x.testBit k := by
  rw [cell, Nat.testBit_or, Nat.testBit_or, testBit_ite_pow, testBit_ite_pow]
  by_cases h1 : k = c
  · subst h1; simp [hc, hco.symm]
  · by_cases h2 : k = o
    · subst h2; simp [ho, Ne.symm h1, h1]
    · simp [h1, h2, Ne.symm h1, Ne.symm h2]

theorem cell_inj {c o x : ℕ} (hc : x.testBit c = false) (ho : x.testBit o = false) (hco : c ≠ o) {u v u' v' : Bool}
    (h : cell c o x u v = cell c o x u' v') : u = u' ∧ v = v' := by
  have h1 := congrArg (·.testBit c) h
  have h2 := congrArg (·.testBit o) h
  simp only [testBit_cell hc ho hco, if_true, if_neg hco.symm] at h1 h2
  exact ⟨h1, h2⟩

/-- The two output bits are clear and all others are those of `i`. -/
def base (c o i : ℕ) : ℕ := setField c 1 0 (setField o 1 0 i)

theorem testBit_base (c o i k : ℕ) : (base c o i).testBit k = if k = c ∨ k = o then false else i.testBit k := by
  have h := testBit_setBit c false (setField o 1 0 i) k
  have h' := testBit_setBit o false i k
  rw [Bool.toNat_false] at h h'
  rw [base, h, h']
  by_cases h1 : k = c <;> by_cases h2 : k = o <;> simp [h1, h2]

theorem cell_base {c o i : ℕ} (hco : c ≠ o) : cell c o (base c o i) (i.testBit c) (i.testBit o) = i := by
  apply Nat.eq_of_testBit_eq
  intro k
  rw [testBit_cell (by simp [testBit_base]) (by simp [testBit_base]) hco, testBit_base]
  by_cases h1 : k = c
  · subst h1; simp
  · by_cases h2 : k = o
    · subst h2; simp [h1]
    · simp [h1, h2]

theorem and_pow_ne (x a : ℕ) : decide (x &&& 2 ^ a ≠ 0) = x.testBit a := by
  cases h : x.testBit a
  · rw [decide_eq_false_iff_not, not_not]
    apply Nat.eq_of_testBit_eq
    intro k
    rw [Nat.testBit_and, Nat.testBit_two_pow, Nat.zero_testBit]
    by_cases hk : a = k
    · subst hk; simp [h]
    · simp [hk]
  · rw [decide_eq_true_iff]
    intro h0
    have := congrArg (·.testBit a) h0
    simp [Nat.testBit_and, h] at this

theorem cells_ne {c o x : ℕ} (hc : x.testBit c = false) (ho : x.testBit o = false) (hco : c ≠ o) :
    x ≠ x ||| 2 ^ c ∧ x ≠ x ||| 2 ^ o ∧ x ≠ x ||| 2 ^ c ||| 2 ^ o ∧ x ||| 2 ^ c ≠ x ||| 2 ^ o ∧
    x ||| 2 ^ c ≠ x ||| 2 ^ c ||| 2 ^ o ∧ x ||| 2 ^ o ≠ x ||| 2 ^ c ||| 2 ^ o := by
  have hne : ∀ {u v u' v'}, (u, v) ≠ (u', v') → cell c o x u v ≠ cell c o x u' v' := by
    intro u v u' v' h h'
    obtain ⟨h1, h2⟩ := cell_inj hc ho hco h'
    exact h (by rw [h1, h2])
  have q1 := hne (u := false) (v := false) (u' := true) (v' := false) (by simp)
  have q2 := hne (u := false) (v := false) (u' := false) (v' := true) (by simp)
  have q3 := hne (u := false) (v := false) (u' := true) (v' := true) (by simp)
  have q4 := hne (u := true) (v := false) (u' := false) (v' := true) (by simp)
  have q5 := hne (u := true) (v := false) (u' := true) (v' := true) (by simp)
  have q6 := hne (u := false) (v := true) (u' := true) (v' := true) (by simp)
  simp only [cell, Bool.false_eq_true, if_false, if_true, Nat.or_zero] at q1 q2 q3 q4 q5 q6
  exact ⟨q1, q2, q3, q4, q5, q6⟩

theorem fullAddStep_cell {a b c o x : ℕ} (hc : x.testBit c = false) (ho : x.testBit o = false) (hco : c ≠ o)
    (s : ℕ → ℂ) (u v : Bool) :
    fullAddStep a b c o s x (cell c o x (u ^^ (x.testBit a ^^ x.testBit b)) (v ^^ maj (x.testBit a) (x.testBit b) u)) =
      s (cell c o x u v) := by
  obtain ⟨q1, q2, q3, q4, q5, q6⟩ := cells_ne hc ho hco
  unfold fullAddStep
  simp only [and_pow_ne]
  generalize x.testBit a = p
  generalize x.testBit b = q
  cases u <;> cases v <;> cases p <;> cases q <;>
    simp only [cell, maj, Bool.false_eq_true, if_false, if_true, Nat.or_zero, Bool.xor_false, Bool.false_xor, Bool.xor_true,
      Bool.not_false, Bool.not_true, Bool.and_false, Bool.and_true, Bool.or_false, Bool.or_true, Bool.true_xor,
      Function.update_apply, q1, q2, q3, q4, q5, q6, q1.symm, q2.symm, q3.symm, q4.symm, q5.symm, q6.symm]

theorem fullAddStep_cell' {a b c o x : ℕ} (hc : x.testBit c = false) (ho : x.testBit o = false) (hco : c ≠ o)
    (s : ℕ → ℂ) (u v : Bool) :
    fullAddStep a b c o s x (cell c o x u v) =
      s (cell c o x (u ^^ (x.testBit a ^^ x.testBit b))
        (v ^^ maj (x.testBit a) (x.testBit b) (u ^^ (x.testBit a ^^ x.testBit b)))) := by
  rw [← fullAddStep_cell (a := a) (b := b) hc ho hco s, Bool.xor_assoc, Bool.xor_self, Bool.xor_false, Bool.xor_assoc,
    Bool.xor_self, Bool.xor_false]

theorem iFullAddStep_cell {a b c o x : ℕ} (hc : x.testBit c = false) (ho : x.testBit o = false) (hco : c ≠ o)
    (s : ℕ → ℂ) (u v : Bool) :
    iFullAddStep a b c o s x (cell c o x u v) =
      s (cell c o x (u ^^ (x.testBit a ^^ x.testBit b)) (v ^^ maj (x.testBit a) (x.testBit b) u)) := by
  obtain ⟨q1, q2, q3, q4, q5, q6⟩ := cells_ne hc ho hco
  unfold iFullAddStep
  simp only [and_pow_ne]
  generalize x.testBit a = p
  generalize x.testBit b = q
  cases u <;> cases v <;> cases p <;> cases q <;>
    simp only [cell, maj, Bool.false_eq_true, if_false, if_true, Nat.or_zero, Bool.xor_false, Bool.false_xor, Bool.xor_true,
      Bool.not_false, Bool.not_true, Bool.and_false, Bool.and_true, Bool.or_false, Bool.or_true, Bool.true_xor,
      Function.update_apply, q1, q2, q3, q4, q5, q6, q1.symm, q2.symm, q3.symm, q4.symm, q5.symm, q6.symm]

/-- Iteration `x` reads and writes only basis states that agree with `x` outside the two output qubits. -/
theorem step_block {c o : ℕ} (hco : c ≠ o) {x i : ℕ} (hc : x.testBit c = false) (ho : x.testBit o = false)
    (h : base c o i = x) : ∃ u v, i = cell c o x u v :=
  ⟨i.testBit c, i.testBit o, by rw [← h, cell_base hco]⟩

theorem base_cell {c o x : ℕ} (hco : c ≠ o) (hc : x.testBit c = false) (ho : x.testBit o = false) (u v : Bool) :
    base c o (cell c o x u v) = x := by
  apply Nat.eq_of_testBit_eq
  intro k
  rw [testBit_base, testBit_cell hc ho hco]
  by_cases h1 : k = c
  · subst h1; simp [hc]
  · by_cases h2 : k = o
    · subst h2; simp [ho]
    · simp [h1, h2]

theorem fullAddStep_off {a b c o x i : ℕ} (hco : c ≠ o) (hc : x.testBit c = false) (ho : x.testBit o = false) (s : ℕ → ℂ)
    (h : base c o i ≠ x) : fullAddStep a b c o s x i = s i ∧ iFullAddStep a b c o s x i = s i := by
  have h' : ∀ u v, i ≠ cell c o x u v := fun u v hi => h (by rw [hi, base_cell hco hc ho])
  have e00 := h' false false; have e10 := h' true false; have e01 := h' false true; have e11 := h' true true
  simp only [cell, Bool.false_eq_true, if_false, if_true, Nat.or_zero] at e00 e10 e01 e11
  constructor
  · simp only [fullAddStep, Function.update_apply, e00, e10, e01, e11, if_false]
  · simp only [iFullAddStep, Function.update_apply, e00, e10, e01, e11, if_false]

/-- The image of a cell under the full adder. -/
theorem fullAddIdx_cell {a b c o : ℕ} (hco : c ≠ o) (hac : a ≠ c) (hao : a ≠ o) (hbc : b ≠ c) (hbo : b ≠ o) (i : ℕ) :
    fullAddIdx a b c o i = cell c o (base c o i) (i.testBit c ^^ ((base c o i).testBit a ^^ (base c o i).testBit b))
      (i.testBit o ^^ maj ((base c o i).testBit a) ((base c o i).testBit b) (i.testBit c)) := by
  have hbc' : (base c o i).testBit c = false := by simp [testBit_base]
  have hbo' : (base c o i).testBit o = false := by simp [testBit_base]
  apply Nat.eq_of_testBit_eq
  intro k
  rw [testBit_cell hbc' hbo' hco, fullAddIdx, testBit_flipIf, testBit_flipIf, testBit_base, testBit_base, testBit_base]
  by_cases h1 : k = c
  · subst h1; simp [hac, hao, hbc, hbo, hco]
  · by_cases h2 : k = o
    · subst h2; simp [hac, hao, hbc, hbo, h1]
    · simp [h1, h2]

section
variable {σ : List ℕ → List ℕ} (hσ : IsSched σ) {e : Eng} (hn : e.n ≤ 64) {a b c o : ℕ}
  (ha : a < e.n) (hb : b < e.n) (hc : c < e.n) (ho : o < e.n)
  (hco : c ≠ o) (hac : a ≠ c) (hao : a ≠ o) (hbc : b ≠ c) (hbo : b ≠ o)
include hσ hn ha hb hc ho hco hac hao hbc hbo

theorem base_lt {i : ℕ} (hi : i < 2 ^ e.n) : base c o i < 2 ^ e.n := setField_lt (by omega) (setField_lt (by omega) hi)

theorem fullAdd_loop (inverse : Bool) : ∃ r, fullAddE σ inverse e a b c o = some (e.reset r) ∧ ∀ i < 2 ^ e.n,
    r i = (if inverse then iFullAddStep a b c o else fullAddStep a b c o) e.amp (base c o i) i := by
  obtain ⟨hnd, hmem⟩ := mem_maskPlan hσ (n := e.n) (ps := [c, o]) (by simp [hco]) (by simp [hc, ho]) hn
  have hmem' : ∀ x, x ∈ σ (parForMaskPlan 64 0 (2 ^ e.n) (sortPows ([c, o].map pow2))) →
      x.testBit c = false ∧ x.testBit o = false := fun x hx =>
    ⟨((hmem x).1 hx).2 c (by simp), ((hmem x).1 hx).2 o (by simp)⟩
  unfold fullAddE
  rw [if_neg (by omega)]
  refine ⟨_, rfl, fun i hi => ?_⟩
  have hb' : base c o i ∈ σ (parForMaskPlan 64 0 (2 ^ e.n) (sortPows ([c, o].map pow2))) := by
    rw [hmem]
    refine ⟨setField_lt (by omega) (setField_lt (by omega) hi), fun p hp => ?_⟩
    simp only [List.mem_cons, List.not_mem_nil, or_false] at hp
    rw [testBit_base, if_pos hp]
  refine (block_fold _ (fun x i => base c o i = x) _ hnd ?_ ?_ ?_ e.amp).1 _ hb' i rfl
  · intro x hx s i h
    obtain ⟨h1, h2⟩ := hmem' x hx
    cases inverse
    · exact (fullAddStep_off hco h1 h2 s h).1
    · exact (fullAddStep_off hco h1 h2 s h).2
  · intro x hx s s' h i hix
    obtain ⟨h1, h2⟩ := hmem' x hx
    have hs : ∀ u v, s (cell c o x u v) = s' (cell c o x u v) := fun u v => h _ (base_cell hco h1 h2 u v)
    obtain ⟨u, v, rfl⟩ := step_block hco h1 h2 hix
    cases inverse
    · show fullAddStep a b c o s x _ = fullAddStep a b c o s' x _
      rw [fullAddStep_cell' h1 h2 hco, fullAddStep_cell' h1 h2 hco, hs]
    · show iFullAddStep a b c o s x _ = iFullAddStep a b c o s' x _
      rw [iFullAddStep_cell h1 h2 hco, iFullAddStep_cell h1 h2 hco, hs]
  · intro x _ y _ i h h'
    rw [← h, h']

/-- C17. The engine's `FullAdd` adds: on every basis state the sum of the two inputs and the carry-in replaces the
carry-in and the majority is added into the carry-out. The inputs may be the same qubit. -/
theorem fullAddE_adds : Sends e (fullAddE σ false e a b c o) (fullAddIdx a b c o) := by
  obtain ⟨r, h1, h2⟩ := fullAdd_loop hσ hn ha hb hc ho hco hac hao hbc hbo false
  refine ⟨r, h1, fun i hi => ?_⟩
  have hbc' : (base c o i).testBit c = false := by simp [testBit_base]
  have hbo' : (base c o i).testBit o = false := by simp [testBit_base]
  have hlt : fullAddIdx a b c o i < 2 ^ e.n := by
    have hf : ∀ (p : Bool) {t j : ℕ}, t < e.n → j < 2 ^ e.n → flipIf p t j < 2 ^ e.n := by
      intro p t j ht hj
      cases p
      · exact hj
      · exact Nat.xor_lt_two_pow hj (Nat.pow_lt_pow_right (by norm_num) ht)
    exact hf _ ho (hf _ hc hi)
  rw [h2 _ hlt, fullAddIdx_cell hco hac hao hbc hbo, base_cell hco hbc' hbo']
  show fullAddStep a b c o e.amp _ _ = _
  rw [fullAddStep_cell hbc' hbo' hco, cell_base hco]

/-- C17. The engine's `IFullAdd` undoes the addition. -/
theorem iFullAddE_subtracts : ∃ r, fullAddE σ true e a b c o = some (e.reset r) ∧
    ∀ i < 2 ^ e.n, r i = e.amp (fullAddIdx a b c o i) := by
  obtain ⟨r, h1, h2⟩ := fullAdd_loop hσ hn ha hb hc ho hco hac hao hbc hbo true
  refine ⟨r, h1, fun i hi => ?_⟩
  have hbc' : (base c o i).testBit c = false := by simp [testBit_base]
  have hbo' : (base c o i).testBit o = false := by simp [testBit_base]
  rw [h2 _ hi, fullAddIdx_cell hco hac hao hbc hbo]
  show iFullAddStep a b c o e.amp _ _ = _
  rw [← iFullAddStep_cell (a := a) (b := b) hbc' hbo' hco e.amp, cell_base hco]

/-- C17. `IFullAdd` after `FullAdd` restores the state vector. -/
theorem iFullAddE_undoes : ∃ r r', fullAddE σ false e a b c o = some (e.reset r) ∧
    fullAddE σ true (e.reset r) a b c o = some (e.reset r') ∧ ∀ i < 2 ^ e.n, r' i = e.amp i := by
  obtain ⟨r, h1, h2⟩ := fullAddE_adds hσ hn ha hb hc ho hco hac hao hbc hbo
  obtain ⟨r', k1, k2⟩ := iFullAddE_subtracts hσ (e := e.reset r) hn ha hb hc ho hco hac hao hbc hbo
  refine ⟨r, r', h1, k1, fun i hi => ?_⟩
  rw [k2 i hi]; exact h2 i hi

end

/-- C17. An index outside the register throws. -/
theorem fullAddE_invalid {σ : List ℕ → List ℕ} {e : Eng} {inverse : Bool} {a b c o : ℕ}
    (h : ∃ q ∈ [a, b, c, o], e.n ≤ q) : fullAddE σ inverse e a b c o = none := by
  unfold fullAddE
  rw [if_pos]
  simpa using h

/-- The hypotheses hold for four qubits of a five-qubit register in reverse order, and the sum is not trivial there:
inputs set, carry-in clear gives sum 0 and carry 1. -/
example (e : Eng) (h : e.n = 5) {σ : List ℕ → List ℕ} (hσ : IsSched σ) :
    Sends e (fullAddE σ false e 4 3 1 0) (fullAddIdx 4 3 1 0) ∧ fullAddIdx 4 3 1 0 0b11000 = 0b11001 :=
  ⟨fullAddE_adds hσ (by omega) (by omega) (by omega) (by omega) (by omega) (by decide) (by decide) (by decide) (by decide)
    (by decide), by decide⟩

/-! ## Comparison phase flips -/

theorem phase_fold {p : ℕ → Prop} [DecidablePred p] (l : List ℕ) (hl : l.Nodup) (s : ℕ → ℂ) (i : ℕ) :
    l.foldl (fun s x => if p x then Function.update s x (- s x) else s) s i = if i ∈ l ∧ p i then - s i else s i := by
  induction l generalizing s with
  | nil => simp
  | cons y l ih =>
    rw [List.nodup_cons] at hl
    rw [List.foldl_cons, ih hl.2]
    by_cases hy : i = y
    · subst hy
      by_cases hp : p i <;> simp [hl.1, hp]
    · have : (if p y then Function.update s y (-s y) else s) i = s i := by
        split_ifs
        · rw [Function.update_of_ne hy]
        · rfl
      rw [this]; simp [hy]

/-- C08. `PhaseFlipIfLess` changes the sign of exactly the amplitudes whose register value is below `greaterPerm`. -/
theorem phaseFlipIfLess_flips {σ : List ℕ → List ℕ} (hσ : IsSched σ) {e : Eng} (hn : e.n < 64) {g start length : ℕ}
    (hg : g < 2 ^ 64) (h : start + length ≤ e.n) : ∃ r, phaseFlipIfLessE σ e g start length = some (e.reset r) ∧
      ∀ i < 2 ^ e.n, r i = if field start length i < g then - e.amp i else e.amp i := by
  unfold phaseFlipIfLessE
  rw [rangeOk h hn]
  simp only [Bool.false_eq_true, if_false]
  refine ⟨_, rfl, fun i hi => ?_⟩
  have hnd : (σ (parForPlan 0 (2 ^ e.n))).Nodup := (hσ _).nodup_iff.2 (by
    unfold parForPlan; simp; exact List.nodup_range')
  rw [phase_fold _ hnd]
  refine if_congr ?_ rfl rfl
  rw [read_field, ocl, Nat.mod_eq_of_lt hg, (hσ _).mem_iff, mem_parForPlan]
  simp [hi]

/-- C09. `CPhaseFlipIfLess` does so only where the flag qubit is set. -/
theorem cPhaseFlipIfLess_flips {σ : List ℕ → List ℕ} (hσ : IsSched σ) {e : Eng} (hn : e.n < 64) {g start length f : ℕ}
    (hg : g < 2 ^ 64) (h : start + length ≤ e.n) (hf : f < e.n) :
    ∃ r, cPhaseFlipIfLessE σ e g start length f = some (e.reset r) ∧
      ∀ i < 2 ^ e.n, r i = if field start length i < g ∧ i.testBit f = true then - e.amp i else e.amp i := by
  unfold cPhaseFlipIfLessE
  rw [rangeOk h hn]
  simp only [Bool.false_eq_true, if_false]
  rw [if_neg (by omega)]
  refine ⟨_, rfl, fun i hi => ?_⟩
  have hnd : (σ (parForPlan 0 (2 ^ e.n))).Nodup := (hσ _).nodup_iff.2 (by
    unfold parForPlan; simp; exact List.nodup_range')
  rw [phase_fold (p := fun lcv => (lcv &&& (2 ^ length - 1) <<< start) >>> start < ocl g ∧ lcv &&& 2 ^ f = 2 ^ f) _ hnd]
  refine if_congr ?_ rfl rfl
  rw [read_field, ocl, Nat.mod_eq_of_lt hg, (hσ _).mem_iff, mem_parForPlan]
  have hb : i &&& 2 ^ f = 2 ^ f ↔ i.testBit f = true := by
    rw [← and_pow_ne, decide_eq_true_iff]
    constructor
    · intro h; rw [h]; positivity
    · intro h
      have h1 : i.testBit f = true := by rw [← and_pow_ne, decide_eq_true_iff]; exact h
      apply Nat.eq_of_testBit_eq
      intro k
      rw [Nat.testBit_and, Nat.testBit_two_pow]
      by_cases hk : f = k
      · subst hk; simp [h1]
      · simp [hk]
  rw [hb]; simp [hi]

/-- The hypotheses of the comparison theorems hold for a register of three qubits inside a six-qubit state. -/
example (e : Eng) (h : e.n = 6) : e.n < 64 ∧ 2 + 3 ≤ e.n ∧ field 2 3 0b001000 = 2 := ⟨by omega, by omega, by decide⟩

end Verif.Engine
