import Verif.Lemmas.OclArith
import Verif.Props.EngineArith
import Verif.Props.EngineCarry
import Verif.Props.EngineSigned
import Verif.Props.EngineSignedCarry
import Verif.Props.EngineMul
import Verif.Props.EngineTable
import Verif.Props.EngineFullAdd
import Verif.Props.Rotate

/-!
# C62: arithmetic on an OpenCL register

Each theorem `x_same` says that the OpenCL routine gives, for every way the device may run its work items, what the routine of
the CPU engine gives for some order of its loop. The theorems of the CPU engine hold for every order, so that their statements
follow for the OpenCL engine; they are repeated here where the argument lists differ.
-/

namespace Verif.Ocl

open Verif.Engine Verif.Utils Verif.ParFor Verif.BlockFold Verif.Spec Verif.Bits Classical

/-- **C62.** `INC` does what the CPU engine does. -/
theorem inc_same {R : Rt} (hR : R.Ok) {e : Eng} (hn : e.n < 64) (toAdd start length : ℕ) :
    ∃ σ, IsSched σ ∧ inc R e toAdd start length = incE σ (fun _ => 0) e toAdd start length := by
  by_cases h1 : isBadBitRange start length e.n = true
  · exact ⟨id, isSched_id, by rw [inc, incE, if_pos h1, if_pos h1]⟩
  by_cases h2 : length = 0
  · exact ⟨id, isSched_id, by rw [inc, incE, if_neg h1, if_neg h1, if_pos h2, if_pos h2]⟩
  by_cases h3 : ocl toAdd &&& (2 ^ length - 1) = 0
  · exact ⟨id, isSched_id, by simp only [inc, incE, if_neg h1, if_neg h2, if_pos h3]⟩
  obtain ⟨p1, p2⟩ := parForPlan_range e.n
  obtain ⟨σ, s1, s2⟩ := arithCall_sched hR e.n e.n p1 (f := id) (fun x _ y _ h => h) p2
  refine ⟨σ, s1, ?_⟩
  simp only [inc, incE, if_neg h1, if_neg h2, if_neg h3]
  refine s2 _ _ _ _ _ _ rfl (by simp only [bound0]; read_args) fun s x hx => ?_
  simp only [incStep]
  read_args
  rw [otherMask_bnot (regMask_lt (range_of h1)) hn]
  rfl

/-- **C62.** `CINC` does what the CPU engine does. -/
theorem cinc_same {R : Rt} (hR : R.Ok) {e : Eng} (hn : e.n < 64) (toAdd start length : ℕ) (controls : List ℕ) :
    ∃ σ, IsSched σ ∧ cinc R e toAdd start length controls = cincE σ (fun _ => 0) e toAdd start length controls := by
  by_cases h0 : controls = []
  · obtain ⟨σ, h1, h2⟩ := inc_same hR hn toAdd start length
    exact ⟨σ, h1, by rw [cinc, cincE, if_pos h0, if_pos h0, h2]⟩
  by_cases h1 : isBadBitRange start length e.n = true
  · exact ⟨id, isSched_id, by rw [cinc, cincE, if_neg h0, if_neg h0, if_pos h1, if_pos h1]⟩
  by_cases h4 : throwIfBad controls e.n = true
  · exact ⟨id, isSched_id, by simp only [cinc, cincE, if_neg h0, if_neg h1, if_pos h4]⟩
  by_cases h2 : length = 0
  · exact ⟨id, isSched_id, by simp only [cinc, cincE, if_neg h0, if_neg h1, if_neg h4, if_pos h2]⟩
  by_cases h3 : ocl toAdd &&& (2 ^ length - 1) = 0
  · exact ⟨id, isSched_id, by simp only [cinc, cincE, if_neg h0, if_neg h1, if_neg h4, if_neg h2, if_pos h3]⟩
  obtain ⟨hb, hnd⟩ := controls_of h4
  obtain ⟨p1, p2, p3, p4, p5⟩ := sortedPows_range hnd hb hn
  obtain ⟨σ, s1, s2⟩ := arithCall_sched hR (e.n - controls.length) (e.n - controls.length) p1 p2 p3
  refine ⟨σ, s1, ?_⟩
  simp only [cinc, cincE, if_neg h0, if_neg h1, if_neg h4, if_neg h2, if_neg h3]
  refine s2 _ _ _ _ _ _ (two_pow_shiftRight p4) (by simp only [bound0]; read_args; exact two_pow_shiftRight p4)
    fun s x hx => ?_
  simp only [cincStep]
  read_args
  rw [p5 _ (fun _ _ => rfl) x hx]

/-- **C62.** `INCDECC` does what the CPU engine does. -/
theorem incdecc_same {R : Rt} (hR : R.Ok) {e : Eng} (hn : e.n < 64) (toMod start length carry : ℕ) :
    ∃ σ, IsSched σ ∧ incdecc R e toMod start length carry = incdeccE σ e toMod start length carry := by
  by_cases h1 : isBadBitRange start length e.n = true
  · exact ⟨id, isSched_id, by rw [incdecc, incdeccE, if_pos h1, if_pos h1]⟩
  by_cases h4 : carry ≥ e.n
  · exact ⟨id, isSched_id, by simp only [incdecc, incdeccE, if_neg h1, if_pos h4]⟩
  by_cases h2 : length = 0
  · exact ⟨id, isSched_id, by simp only [incdecc, incdeccE, if_neg h1, if_neg h4, if_pos h2]⟩
  by_cases h3 : ocl toMod &&& (2 ^ length - 1) = 0
  · exact ⟨id, isSched_id, by simp only [incdecc, incdeccE, if_neg h1, if_neg h4, if_neg h2, if_pos h3]⟩
  obtain ⟨p1, p2, p3⟩ := parForSkip_range (s := carry) (d := 1) (by omega) hn
  obtain ⟨σ, s1, s2⟩ := arithCall_sched hR (e.n - 1) (e.n - 1) p1 p2 p3
  have hc : carry < e.n := by omega
  refine ⟨σ, s1, ?_⟩
  simp only [incdecc, incdeccE, if_neg h1, if_neg h4, if_neg h2, if_neg h3]
  refine s2 _ _ _ _ _ _ (two_pow_shiftRight (by omega)) (by simp only [bound0]; read_args; exact two_pow_shiftRight (by omega))
    fun s x hx => ?_
  simp only [incdeccStep]
  read_args
  rw [otherMask_bnot (Nat.or_lt_two_pow (regMask_lt (range_of h1)) (Nat.pow_lt_pow_right (by norm_num) hc)) hn,
    pushApart1_insertAt hc hn hx, incdecc_index (range_of h1) hn (masked_lt _ _)]

/-- **C62.** `INCS` does what the CPU engine does. -/
theorem incs_same {R : Rt} (hR : R.Ok) {e : Eng} (hn : e.n < 64) (toAdd start length overflow : ℕ) :
    ∃ σ, IsSched σ ∧ incs R e toAdd start length overflow = incsE σ e toAdd start length overflow := by
  by_cases h1 : isBadBitRange start length e.n = true
  · exact ⟨id, isSched_id, by rw [incs, incsE, if_pos h1, if_pos h1]⟩
  by_cases h4 : overflow ≥ e.n
  · exact ⟨id, isSched_id, by simp only [incs, incsE, if_neg h1, if_pos h4]⟩
  by_cases h2 : length = 0
  · exact ⟨id, isSched_id, by simp only [incs, incsE, if_neg h1, if_neg h4, if_pos h2]⟩
  by_cases h3 : ocl toAdd &&& (2 ^ length - 1) = 0
  · exact ⟨id, isSched_id, by simp only [incs, incsE, if_neg h1, if_neg h4, if_neg h2, if_pos h3]⟩
  obtain ⟨p1, p2⟩ := parForPlan_range e.n
  obtain ⟨σ, s1, s2⟩ := arithCall_sched hR e.n e.n p1 (f := id) (fun x _ y _ h => h) p2
  refine ⟨σ, s1, ?_⟩
  simp only [incs, incsE, if_neg h1, if_neg h4, if_neg h2, if_neg h3]
  refine s2 _ _ _ _ _ _ rfl (by simp only [bound0]; read_args) fun s x hx => ?_
  have hr := range_of h1
  simp only [incsStep]
  read_args
  rw [overflow_same, sign_shift h2, read_field, sum_word (by omega) (field_lt start length x) (masked_lt _ _)]
  simp only [id, read_field]

/-- **C62.** `INCDECSC` with an overflow flag does what the CPU engine does. -/
theorem incdecsc_same {R : Rt} (hR : R.Ok) {e : Eng} (hn : e.n < 64) (toMod start length overflow carry : ℕ) :
    ∃ σ, IsSched σ ∧
      incdecsc1 R e toMod start length overflow carry = incdecscE σ e toMod start length (some overflow) carry := by
  by_cases h1 : isBadBitRange start length e.n = true
  · exact ⟨id, isSched_id, by rw [incdecsc1, incdecscE, if_pos h1, if_pos h1]⟩
  have ho : (∃ o ∈ some overflow, o ≥ e.n) ↔ overflow ≥ e.n := by simp
  by_cases h4 : carry ≥ e.n
  · exact ⟨id, isSched_id, by simp only [incdecsc1, incdecscE, if_neg h1, if_pos h4, ite_self]⟩
  by_cases h5 : overflow ≥ e.n
  · exact ⟨id, isSched_id, by simp only [incdecsc1, incdecscE, if_neg h1, if_neg h4, if_pos h5, if_pos (ho.2 h5)]⟩
  have h5' : ¬ ∃ o ∈ some overflow, o ≥ e.n := fun h => h5 (ho.1 h)
  by_cases h2 : length = 0
  · exact ⟨id, isSched_id, by simp only [incdecsc1, incdecscE, if_neg h1, if_neg h4, if_neg h5, if_neg h5', if_pos h2]⟩
  by_cases h3 : ocl toMod &&& (2 ^ length - 1) = 0
  · exact ⟨id, isSched_id, by
      simp only [incdecsc1, incdecscE, if_neg h1, if_neg h4, if_neg h5, if_neg h5', if_neg h2, if_pos h3]⟩
  obtain ⟨p1, p2, p3⟩ := parForSkip_range (s := carry) (d := 1) (by omega) hn
  obtain ⟨σ, s1, s2⟩ := arithCall_sched hR (e.n - 1) (e.n - 1) p1 p2 p3
  have hc : carry < e.n := by omega
  refine ⟨σ, s1, ?_⟩
  simp only [incdecsc1, incdecscE, if_neg h1, if_neg h4, if_neg h5, if_neg h5', if_neg h2, if_neg h3]
  refine s2 _ _ _ _ _ _ (two_pow_shiftRight (by omega)) (by simp only [bound0]; read_args; exact two_pow_shiftRight (by omega))
    fun s x hx => ?_
  simp only [incdecsc1Step]
  read_args
  rw [overflow_same, sign_shift h2, pushApart1_insertAt hc hn hx, devCarryRes_same (range_of h1) hn (masked_lt _ _)]
  simp

/-- **C62, partial.** `INCDECSC` without an overflow flag does what the CPU engine does, if the addend is not zero and fits the
register. Missing: other addends, for which see `incdecsc_spills`. -/
theorem incdecsc2_same_partial {R : Rt} (hR : R.Ok) {e : Eng} (hn : e.n < 64) {toMod start length : ℕ} (carry : ℕ)
    (h0 : toMod ≠ 0) (hlt : toMod < 2 ^ length) :
    ∃ σ, IsSched σ ∧ incdecsc2 R e toMod start length carry = incdecscE σ e toMod start length none carry := by
  have h2 : length ≠ 0 := by rintro rfl; simp at hlt; exact h0 hlt
  by_cases h1 : isBadBitRange start length e.n = true
  · exact ⟨id, isSched_id, by rw [incdecsc2, incdecscE, if_pos h1, if_pos h1]⟩
  by_cases h4 : carry ≥ e.n
  · exact ⟨id, isSched_id, by simp only [incdecsc2, incdecscE, if_neg h1, if_pos h4]⟩
  have hr := range_of h1
  have hw : ocl toMod = toMod := Nat.mod_eq_of_lt (lt_trans hlt (Nat.pow_lt_pow_right (by norm_num) (by omega)))
  have hm : toMod &&& (2 ^ length - 1) = toMod := by rw [mask_eq_mod, Nat.mod_eq_of_lt hlt]
  obtain ⟨p1, p2, p3⟩ := parForSkip_range (s := carry) (d := 1) (by omega) hn
  obtain ⟨σ, s1, s2⟩ := arithCall_sched hR (e.n - 1) (e.n - 1) p1 p2 p3
  have hc : carry < e.n := by omega
  refine ⟨σ, s1, ?_⟩
  have h5' : ¬ ∃ o ∈ (none : Option ℕ), o ≥ e.n := by simp
  simp only [incdecsc2, incdecscE, if_neg h1, if_neg h4, if_neg h5', if_neg h2, hw, hm, if_neg h0]
  refine s2 _ _ _ _ _ _ (two_pow_shiftRight (by omega)) (by simp only [bound0]; read_args; exact two_pow_shiftRight (by omega))
    fun s x hx => ?_
  simp only [incdecsc2Step]
  read_args
  rw [overflow_same, sign_shift h2, pushApart1_insertAt hc hn hx, devCarryRes_same hr hn hlt]
  simp

/-! ## What the additions do -/

/-- **C62.** `INC` on an OpenCL register adds to the register and leaves everything else. -/
theorem inc_adds {R : Rt} (hR : R.Ok) {e : Eng} (hn : e.n < 64) {toAdd start length : ℕ} (h : start + length ≤ e.n) :
    Sends e (inc R e toAdd start length) (fun i => setField start length (field start length i + toAdd) i) := by
  obtain ⟨σ, h1, h2⟩ := inc_same hR hn toAdd start length
  rw [h2]
  exact Engine.inc_adds h1 _ hn h

/-- **C62.** `CINC` on an OpenCL register adds where all controls are set. -/
theorem cinc_adds {R : Rt} (hR : R.Ok) {e : Eng} (hn : e.n < 64) {toAdd start length : ℕ} {cs : List ℕ}
    (h : start + length ≤ e.n) (hnd : cs.Nodup) (hb : ∀ c ∈ cs, c < e.n) (hd : ∀ c ∈ cs, c < start ∨ start + length ≤ c) :
    Sends e (cinc R e toAdd start length cs) (cAddIdx cs start length toAdd) := by
  obtain ⟨σ, h1, h2⟩ := cinc_same hR hn toAdd start length cs
  rw [h2]
  exact Engine.cinc_adds h1 _ hn h hnd hb hd

/-- **C62.** `DEC` undoes `INC` on an OpenCL register. -/
theorem dec_undoes_inc {R : Rt} (hR : R.Ok) {e : Eng} (hn : e.n < 64) {toAdd start length : ℕ} (h : start + length ≤ e.n)
    (ht : toAdd < 2 ^ 128) : ∃ a,
      ((inc R e toAdd start length).bind fun e => inc R e (Circ.negAddend toAdd length) start length) = some (e.reset a) ∧
      ∀ i < 2 ^ e.n, a i = e.amp i := by
  obtain ⟨σ, h1, h2⟩ := inc_same hR hn toAdd start length
  obtain ⟨a, h3, h4⟩ := Engine.inc_adds h1 (fun _ => 0) hn (toAdd := toAdd) h
  obtain ⟨σ', k1, k2⟩ := inc_same hR (e := e.reset a) hn (Circ.negAddend toAdd length) start length
  obtain ⟨b, k3, k4⟩ := Engine.dec_subtracts k1 (fun _ => 0) (e := e.reset a) hn (toSub := toAdd) ht h
  refine ⟨b, ?_, fun i hi => ?_⟩
  · rw [h2, h3]
    exact k2.trans k3
  · rw [k4 i hi]; exact h4 i hi

/-- **C62.** `INCDECC` on an OpenCL register adds with the carry qubit as the highest bit of the sum. -/
theorem incdecc_adds {R : Rt} (hR : R.Ok) {e : Eng} (hn : e.n < 64) {toMod start length carry : ℕ}
    (h : start + length ≤ e.n) (hc : carry < e.n) (hd : carry < start ∨ start + length ≤ carry) :
    ∃ a, incdecc R e toMod start length carry = some (e.reset a) ∧
      (∀ i < 2 ^ e.n, i.testBit carry = false →
        a (sumIdx start length carry (field start length i + toMod % 2 ^ length) i) = e.amp i) ∧
      (toMod % 2 ^ length ≠ 0 → ∀ j, (∀ i < 2 ^ e.n, i.testBit carry = false →
        sumIdx start length carry (field start length i + toMod % 2 ^ length) i ≠ j) → a j = 0) := by
  obtain ⟨σ, h1, h2⟩ := incdecc_same hR hn toMod start length carry
  rw [h2]
  exact Engine.incdecc_adds h1 hn h hc hd

/-- **C62.** `INCS` on an OpenCL register adds, and flips the sign where the signed sum overflows and the flag is set. -/
theorem incs_adds {R : Rt} (hR : R.Ok) {e : Eng} (hn : e.n < 64) {toAdd start length overflow : ℕ}
    (h : start + length ≤ e.n) (ho : overflow < e.n) (hd : overflow < start ∨ start + length ≤ overflow) :
    ∃ a, incs R e toAdd start length overflow = some (e.reset a) ∧ ∀ i < 2 ^ e.n,
      a (setField start length (field start length i + toAdd) i) =
        if 0 < length ∧ Overflows length (field start length i) (toAdd % 2 ^ length) ∧ i.testBit overflow = true
        then - e.amp i else e.amp i := by
  obtain ⟨σ, h1, h2⟩ := incs_same hR hn toAdd start length overflow
  rw [h2]
  exact Engine.incs_adds h1 hn h ho hd

/-- **C62.** `INCDECSC` on an OpenCL register, with an overflow flag. -/
theorem incdecsc_adds {R : Rt} (hR : R.Ok) {e : Eng} (hn : e.n < 64) {toMod start length carry o : ℕ}
    (h : start + length ≤ e.n) (hc : carry < e.n) (hd : carry < start ∨ start + length ≤ carry) (ho : o < e.n)
    (hod : o < start ∨ start + length ≤ o) (hoc : o ≠ carry) :
    ∃ a, incdecsc1 R e toMod start length o carry = some (e.reset a) ∧
      ∀ i < 2 ^ e.n, i.testBit carry = false →
        a (sumIdx start length carry (field start length i + toMod % 2 ^ length) i) =
          if 0 < length ∧ Overflows length (field start length i) (toMod % 2 ^ length) ∧ i.testBit o = true
          then - e.amp i else e.amp i := by
  obtain ⟨σ, h1, h2⟩ := incdecsc_same hR hn toMod start length o carry
  rw [h2]
  obtain ⟨a, h3, h4⟩ := Engine.incdecsc_adds h1 hn (overflow := some o) (toMod := toMod) h hc hd
    (by rintro _ ⟨⟩; exact ⟨ho, hod, hoc⟩)
  refine ⟨a, h3, fun i hi hci => ?_⟩
  rw [h4 i hi hci]
  simp

/-- **C62, partial.** `INCDECSC` on an OpenCL register, without an overflow flag, for an addend that is not zero and fits the
register. Missing: other addends, see `incdecsc_spills`. -/
theorem incdecsc2_adds_partial {R : Rt} (hR : R.Ok) {e : Eng} (hn : e.n < 64) {toMod start length carry : ℕ}
    (h : start + length ≤ e.n) (hc : carry < e.n) (hd : carry < start ∨ start + length ≤ carry)
    (h0 : toMod ≠ 0) (hlt : toMod < 2 ^ length) :
    ∃ a, incdecsc2 R e toMod start length carry = some (e.reset a) ∧
      ∀ i < 2 ^ e.n, i.testBit carry = false →
        a (sumIdx start length carry (field start length i + toMod) i) =
          if Overflows length (field start length i) toMod then - e.amp i else e.amp i := by
  have h2 : 0 < length := by
    by_contra hc
    have : length = 0 := by omega
    subst this
    simp at hlt
    exact h0 hlt
  obtain ⟨σ, h1, h3⟩ := incdecsc2_same_partial hR hn carry h0 hlt
  rw [h3]
  obtain ⟨a, h3, h4⟩ := Engine.incdecsc_adds h1 hn (overflow := none) (toMod := toMod) h hc hd (by simp)
  refine ⟨a, h3, fun i hi hci => ?_⟩
  have := h4 i hi hci
  rw [Nat.mod_eq_of_lt hlt] at this
  rw [this]
  simp [h2]

/-- **C62, negation.** Without an overflow flag the addend is not reduced to the register. `INCDECSC` of `5` on a register of one
qubit, carry in qubit 2: the sum of the register `0` and `5` is `1` modulo 2 (with the addend reduced), but nothing is
written there; the amplitude has gone to a state in which the qubit next to the register differs. -/
theorem incdecsc_spills {R : Rt} (hR : R.Ok) {e : Eng} (hn : e.n = 3) :
    ∃ a, incdecsc2 R e 5 0 1 2 = some (e.reset a) ∧ sumIdx 0 1 2 (field 0 1 0 + 5 % 2 ^ 1) 0 = 1 ∧ a 1 = 0 ∧
      (∀ j, j ≠ 4 ∧ j ≠ 6 ∧ j ≠ 7 → a j = 0) := by
  obtain ⟨p1, p2, p3⟩ := parForSkip_range (n := 3) (s := 2) (d := 1) (by omega) (by omega)
  obtain ⟨σ, s1, s2⟩ := arithCall_sched hR 2 2 p1 p2 p3
  have key : ∃ a, incdecsc2 R e 5 0 1 2 = some (e.reset a) ∧ ∀ j, j ≠ 4 ∧ j ≠ 6 ∧ j ≠ 7 → a j = 0 := by
    simp only [incdecsc2, hn]
    rw [if_neg (by decide), if_neg (by decide)]
    refine ⟨_, s2 _ _ _ _ _ (fun s i => Function.update s (devCarryRes 1 2 2 4 0 5 i)
      (if devOverflow 2 1 ((i &&& 1) >>> 0) 5 = true then - e.amp i else e.amp i)) rfl
      (by simp only [bound0]; read_args; rfl) fun s x hx => ?_, fun j hj => ?_⟩
    · simp only [incdecsc2Step]
      read_args
      rw [pushApart1_insertAt (n := 3) (by omega) (by omega) (by simpa using hx)]
      rfl
    · refine scatter_off _ _ _ _ _ fun x hx => ?_
      rw [(s1 _).mem_iff, (parForSkip_visits (n := 3) (by omega) (by omega)).2] at hx
      have h8 : x < 8 := hx.1
      have h4 := hx.2 2 (by omega) (by omega)
      intro hj'
      subst hj'
      interval_cases x <;> revert h4 hj <;> decide
  obtain ⟨a, h1, h2⟩ := key
  exact ⟨a, h1, by decide, h2 1 (by decide), h2⟩

/-! ## Rotation -/

/-- **C62.** `ROL` on an OpenCL register rotates the register. -/
theorem rol_rotates {R : Rt} (hR : R.Ok) {e : Eng} (hn : e.n < 64) {shift start length : ℕ} (h : start + length ≤ e.n) :
    ∃ a, rol R e shift start length = some (e.reset a) ∧
      ∀ i < 2 ^ e.n, ∀ r, Circ.IsRol start length shift i r → a r = e.amp i := by
  unfold rol
  rw [rangeOk h hn]
  simp only [Bool.false_eq_true, if_false]
  by_cases hl : length = 0
  · rw [if_pos hl]
    exact ⟨e.amp, rfl, fun i _ r hr => by rw [Circ.isRol_unique hr (Circ.isRol_short (by omega))]⟩
  rw [if_neg hl]
  by_cases hz : shift % length = 0
  · rw [if_pos hz]
    exact ⟨e.amp, rfl, fun i _ r hr => by rw [Circ.isRol_unique hr (Circ.isRol_zero hz)]⟩
  rw [if_neg hz]
  have hm := Nat.mod_lt shift (by omega : 0 < length)
  obtain ⟨p1, p2⟩ := parForPlan_range e.n
  obtain ⟨σ, s1, s2⟩ := arithCall_sched hR e.n e.n p1 (f := id) (fun x _ y _ h => h) p2
  let src := fun lcv => (((field start length lcv >>> (shift % length)) |||
    ((field start length lcv <<< (length - shift % length)) &&& (2 ^ length - 1))) <<< start) |||
      (lcv &&& otherMask e.n ((2 ^ length - 1) <<< start))
  refine ⟨_, s2 _ _ _ _ _ (fun s lcv => Function.update s lcv (e.amp (src lcv))) rfl (by simp only [bound0]; read_args)
    fun s x hx => ?_, fun i hi r hr => ?_⟩
  · simp only [rolStep, src, id]
    read_args
    rw [otherMask_bnot (regMask_lt h) hn, read_field]
    have : (field start length x >>> (shift % length) |||
        (field start length x <<< (length - shift % length) % 2 ^ 64)) &&& (2 ^ length - 1) =
        field start length x >>> (shift % length) |||
          ((field start length x <<< (length - shift % length)) &&& (2 ^ length - 1)) := by
      rw [Nat.and_or_distrib_right, mask_eq_mod, mask_eq_mod, mask_eq_mod, Nat.mod_mod_of_dvd _ (pow_dvd_pow 2 (by omega)),
        Nat.mod_eq_of_lt (lt_of_le_of_lt (by rw [Nat.shiftRight_eq_div_pow]; exact Nat.div_le_self _ _) (field_lt _ _ _))]
    rw [this]
  · have hrlt : r < 2 ^ e.n := Circ.isRol_lt h hi hr
    have h1 := scatter_all (init := fun _ => (0 : ℂ)) (val := fun lcv => e.amp (src lcv)) s1 (n := e.n) (out := id)
      (fun i _ j _ h => h) hrlt
    refine Eq.trans h1 ?_
    have h2 := Circ.rolE_out (shift := length - shift % length) h (by omega) hrlt
    rw [read_field, Nat.mod_eq_of_lt (by omega : length - shift % length < length),
      show length - (length - shift % length) = shift % length by omega] at h2
    have h3 := isRol_back (by omega) h2
    show e.amp (src r) = e.amp i
    exact congrArg e.amp (Circ.isRol_inj h3 hr)

/-! ## Full adder -/

/-- **C62.** `FullAdd` and `IFullAdd` do what the CPU engine does, on qubits of the register. -/
theorem fullAdd_same {R : Rt} (hR : R.Ok) {e : Eng} (hn : e.n < 64) (inverse : Bool) {a b c o : ℕ} (ha : a < e.n)
    (hb : b < e.n) (hc : c < e.n) (ho : o < e.n) (hco : c ≠ o) :
    ∃ σ, IsSched σ ∧ fullAdx R inverse e a b c o = fullAddE σ inverse e a b c o := by
  have hnd : [c, o].Nodup := by simp [hco]
  obtain ⟨p1, p2, p3, p4, -⟩ := sortedPows_range hnd (n := e.n) (by simp [hc, ho]) hn
  obtain ⟨σ, s1, s2⟩ := inPlace_sched hR (e.n - 2) p1 p2 p3
  refine ⟨σ, s1, ?_⟩
  have hok : ¬ (a ≥ e.n ∨ b ≥ e.n ∨ c ≥ e.n ∨ o ≥ e.n) := by omega
  simp only [fullAdx, fullAddE, if_neg hok]
  refine s2 _ _ _ _ (two_pow_shiftRight p4) fun s x hx => ?_
  have h1 : writeBuf 5 (arr [2 ^ e.n >>> 2, 2 ^ a, 2 ^ b, 2 ^ c, 2 ^ o]) R.old.ul 1 = 2 ^ a := by simp [writeBuf, arr]
  have h2 : writeBuf 5 (arr [2 ^ e.n >>> 2, 2 ^ a, 2 ^ b, 2 ^ c, 2 ^ o]) R.old.ul 2 = 2 ^ b := by simp [writeBuf, arr]
  have h3 : writeBuf 5 (arr [2 ^ e.n >>> 2, 2 ^ a, 2 ^ b, 2 ^ c, 2 ^ o]) R.old.ul 3 = 2 ^ c := by simp [writeBuf, arr]
  have h4 : writeBuf 5 (arr [2 ^ e.n >>> 2, 2 ^ a, 2 ^ b, 2 ^ c, 2 ^ o]) R.old.ul 4 = 2 ^ o := by simp [writeBuf, arr]
  cases inverse
  · simp only [Bool.false_eq_true, if_false, fulladdStep, fullAddStep, h1, h2, h3, h4]
    rw [fullAddBase_eq hco hn hc ho hx]
    generalize insAll ([c, o].mergeSort (· ≤ ·)) x = i
    cases decide (i &&& 2 ^ a ≠ 0) <;> cases decide (i &&& 2 ^ b ≠ 0) <;> rfl
  · simp only [if_true, ifulladdStep, iFullAddStep, h1, h2, h3, h4]
    rw [fullAddBase_eq hco hn hc ho hx]
    generalize insAll ([c, o].mergeSort (· ≤ ·)) x = i
    cases decide (i &&& 2 ^ a ≠ 0) <;> cases decide (i &&& 2 ^ b ≠ 0) <;> rfl

/-- **C62.** `FullAdd` on an OpenCL register adds. -/
theorem fullAdd_adds {R : Rt} (hR : R.Ok) {e : Eng} (hn : e.n < 64) {a b c o : ℕ} (ha : a < e.n) (hb : b < e.n)
    (hc : c < e.n) (ho : o < e.n) (hco : c ≠ o) (hac : a ≠ c) (hao : a ≠ o) (hbc : b ≠ c) (hbo : b ≠ o) :
    Sends e (fullAdx R false e a b c o) (Circ.fullAddIdx a b c o) := by
  obtain ⟨σ, h1, h2⟩ := fullAdd_same hR hn false ha hb hc ho hco
  rw [h2]
  exact fullAddE_adds h1 hn.le ha hb hc ho hco hac hao hbc hbo

/-- **C62.** `IFullAdd` on an OpenCL register subtracts. -/
theorem iFullAdd_subtracts {R : Rt} (hR : R.Ok) {e : Eng} (hn : e.n < 64) {a b c o : ℕ} (ha : a < e.n) (hb : b < e.n)
    (hc : c < e.n) (ho : o < e.n) (hco : c ≠ o) (hac : a ≠ c) (hao : a ≠ o) (hbc : b ≠ c) (hbo : b ≠ o) :
    ∃ r, fullAdx R true e a b c o = some (e.reset r) ∧ ∀ i < 2 ^ e.n, r i = e.amp (Circ.fullAddIdx a b c o i) := by
  obtain ⟨σ, h1, h2⟩ := fullAdd_same hR hn true ha hb hc ho hco
  rw [h2]
  exact iFullAddE_subtracts h1 hn.le ha hb hc ho hco hac hao hbc hbo

/-! ## Comparison phase flips -/

/-- **C62.** `CPhaseFlipIfLess` on an OpenCL register flips the sign where the flag is set and the register is less. -/
theorem cPhaseFlipIfLess_flips {R : Rt} (hR : R.Ok) {e : Eng} (hn : e.n < 64) {g start length f : ℕ}
    (hg : g < 2 ^ 64) (h : start + length ≤ e.n) (hf : f < e.n) :
    ∃ r, cPhaseFlipIfLess R e g start length f = some (e.reset r) ∧
      ∀ i < 2 ^ e.n, r i = if field start length i < g ∧ i.testBit f = true then - e.amp i else e.amp i := by
  have hinj : ∀ x y : ℕ, insertAt f 1 1 x = insertAt f 1 1 y → x = y := fun x y h => by
    rw [← rest_insertAt (s := f) (l := 1) (v := 1) (by norm_num) x, h, rest_insertAt (by norm_num)]
  obtain ⟨σ, s1, s2⟩ := inPlace_sched hR (e.n - 1) (plan := (List.range (2 ^ (e.n - 1))).map (insertAt f 1 1))
    (List.nodup_range.map fun x y h => hinj x y h) (f := insertAt f 1 1) (fun x _ y _ h => hinj x y h)
    (fun i => by simp)
  unfold cPhaseFlipIfLess
  rw [rangeOk h hn]
  simp only [Bool.false_eq_true, if_false]
  rw [if_neg (by omega)]
  refine ⟨_, s2 _ _ _ (fun s i => if field start length i < g then Function.update s i (- s i) else s)
    (two_pow_shiftRight (by omega)) fun s x hx => ?_, fun i hi => ?_⟩
  · have hins : pushApart1 (2 ^ f - 1) x ||| 2 ^ f = insertAt f 1 1 x := by
      have hlt : insertAt f 1 1 x < 2 ^ 64 := lt_of_lt_of_le (insertAt_lt (n := e.n) (by norm_num) (by omega) hx)
        (Nat.pow_le_pow_right (by norm_num) (by omega))
      rw [← regIdx_or (by norm_num) hlt]
      simp [pushApart1, regIdx, Nat.shiftLeft_eq]
    simp only [cphaseflipiflessStep]
    simp only [writeBuf, arr]
    simp only [show (1 : ℕ) < 5 by norm_num, show (2 : ℕ) < 5 by norm_num, show (3 : ℕ) < 5 by norm_num,
      show (4 : ℕ) < 5 by norm_num, if_true, List.getD_cons_succ, List.getD_cons_zero]
    rw [hins, read_field, ocl, Nat.mod_eq_of_lt hg]
  · rw [phase_fold _ ((s1 _).nodup_iff.2 (List.nodup_range.map fun x y h => hinj x y h))]
    refine if_congr ?_ rfl rfl
    rw [(s1 _).mem_iff, List.mem_map]
    constructor
    · rintro ⟨⟨x, -, rfl⟩, h2⟩
      refine ⟨h2, ?_⟩
      rw [testBit_insertAt (by norm_num)]
      simp
    · rintro ⟨h1, h2⟩
      refine ⟨⟨rest f 1 i, List.mem_range.2 (rest_lt (by omega) hi), ?_⟩, h1⟩
      have hfi : field f 1 i = 1 := by
        have := field_bit_zero (c := f) (i := i)
        have hlt := field_lt f 1 i
        rw [h2] at this
        simp at this
        omega
      have h3 := insertAt_field_rest f 1 i
      rw [hfi] at h3
      exact h3

/-- What `PhaseFlipIfLess` on an OpenCL register does: only the lower half of the state vector is visited. -/
theorem phaseFlipIfLess_out {R : Rt} (hR : R.Ok) {e : Eng} (hn : e.n < 64) (h0 : 0 < e.n) {g start length : ℕ}
    (hg : g < 2 ^ 64) (h : start + length ≤ e.n) :
    ∃ r, phaseFlipIfLess R e g start length = some (e.reset r) ∧
      ∀ i, r i = if i < 2 ^ (e.n - 1) ∧ field start length i < g then - e.amp i else e.amp i := by
  obtain ⟨p1, p2⟩ := parForPlan_range (e.n - 1)
  obtain ⟨σ, s1, s2⟩ := inPlace_sched hR (e.n - 1) p1 (f := id) (fun x _ y _ h => h) p2
  unfold phaseFlipIfLess
  rw [rangeOk h hn]
  simp only [Bool.false_eq_true, if_false]
  refine ⟨_, s2 _ _ _ (fun s i => if field start length i < g then Function.update s i (- s i) else s)
    (two_pow_shiftRight (by omega)) fun s x hx => ?_, fun i => ?_⟩
  · simp only [phaseflipiflessStep]
    simp only [writeBuf, arr]
    simp only [show (1 : ℕ) < 5 by norm_num, show (2 : ℕ) < 5 by norm_num, show (3 : ℕ) < 5 by norm_num,
      show (4 : ℕ) < 5 by norm_num, if_true, List.getD_cons_succ, List.getD_cons_zero, id]
    rw [read_field, ocl, Nat.mod_eq_of_lt hg]
  · rw [phase_fold _ ((s1 _).nodup_iff.2 p1)]
    refine if_congr ?_ rfl rfl
    rw [(s1 _).mem_iff, mem_parForPlan]

/-- **C62, partial.** `PhaseFlipIfLess` on an OpenCL register is right on the states whose highest qubit is clear.
Missing: the other states, see `phaseFlipIfLess_wrong`. -/
theorem phaseFlipIfLess_partial {R : Rt} (hR : R.Ok) {e : Eng} (hn : e.n < 64) (h0 : 0 < e.n) {g start length : ℕ}
    (hg : g < 2 ^ 64) (h : start + length ≤ e.n) :
    ∃ r, phaseFlipIfLess R e g start length = some (e.reset r) ∧ ∀ i < 2 ^ e.n, i.testBit (e.n - 1) = false →
      r i = if field start length i < g then - e.amp i else e.amp i := by
  obtain ⟨r, h1, h2⟩ := phaseFlipIfLess_out hR hn h0 hg h
  refine ⟨r, h1, fun i hi hb => ?_⟩
  have : i < 2 ^ (e.n - 1) := by
    rw [lt_two_pow_iff_testBit] at hi ⊢
    intro k hk
    by_cases hk' : k = e.n - 1
    · rw [hk', hb]
    · exact hi k (by omega)
  rw [h2]
  simp [this]

/-- **C62, negation.** `PhaseFlipIfLess` on an OpenCL register leaves every amplitude whose highest qubit is set, also those
whose register is less than the argument. -/
theorem phaseFlipIfLess_wrong {R : Rt} (hR : R.Ok) {e : Eng} (hn : e.n < 64) {g start length i : ℕ}
    (hg : g < 2 ^ 64) (h : start + length ≤ e.n) (hi : i < 2 ^ e.n) (htop : i.testBit (e.n - 1) = true)
    (hless : field start length i < g) (hamp : e.amp i ≠ 0) :
    ∃ r, phaseFlipIfLess R e g start length = some (e.reset r) ∧
      r i ≠ if field start length i < g then - e.amp i else e.amp i := by
  have h0 : 0 < e.n := by
    by_contra hc
    have : e.n = 0 := by omega
    rw [this] at hi htop
    simp at hi
    subst hi
    simp at htop
  obtain ⟨r, h1, h2⟩ := phaseFlipIfLess_out hR hn h0 hg h
  refine ⟨r, h1, ?_⟩
  have hge : ¬ i < 2 ^ (e.n - 1) := fun hlt => by
    rw [lt_two_pow_iff_testBit] at hlt
    rw [hlt _ (le_refl _)] at htop
    cases htop
  rw [h2, if_neg (by simp [hge]), if_pos hless]
  intro hc
  exact hamp (self_eq_neg.1 hc)

/-! ## Examples -/

/-- A device of 64 items in groups of 32, that runs the items of a launch in reverse. -/
example : (⟨⟨64, 32⟩, List.reverse, List.reverse, ⟨fun _ => 7, fun _ => 5, fun _ => 3⟩⟩ : Rt).Ok :=
  ⟨⟨by norm_num, 5, by norm_num⟩, fun l => List.reverse_perm l, fun l => List.reverse_perm l⟩

/-- On six qubits: adding 5 to the three-qubit register `[1, 4)` holding 6 leaves 3, and sets the carry 5. -/
example : 1 + 3 ≤ 6 ∧ setField 1 3 (field 1 3 (1 + 2 * 6) + 5) (1 + 2 * 6) = 1 + 2 * 3 ∧ sumIdx 1 3 5 (field 1 3 (1 + 2 * 6) + 5) (1 + 2 * 6) = 32 + 1 + 2 * 3 ∧
    cAddIdx [0] 1 3 5 (1 + 2 * 6) = 1 + 2 * 3 ∧ cAddIdx [0] 1 3 5 (2 * 6) = 2 * 6 := by decide

/-- Rotating the register `[1, 4)` of `0b0110` by one gives `0b1100`. -/
example : Circ.IsRol 1 3 1 6 12 := by
  refine ⟨fun j hj => by interval_cases j <;> decide, fun k hk => ?_⟩
  rcases hk with h | h
  · interval_cases k; decide
  · rw [Nat.testBit_lt_two_pow (lt_of_lt_of_le (by norm_num : 12 < 2 ^ 4) (Nat.pow_le_pow_right (by norm_num) (by omega))),
      Nat.testBit_lt_two_pow (lt_of_lt_of_le (by norm_num : 6 < 2 ^ 4) (Nat.pow_le_pow_right (by norm_num) (by omega)))]

/-- `1 + 1 + 1 = 3` on four qubits. -/
example : Circ.fullAddIdx 0 1 2 3 7 = 15 := by decide

/-- The state that `phaseFlipIfLess_wrong` is about: two qubits, `0 < 1` in qubit 0, qubit 1 set. -/
example : (2 : ℕ).testBit (2 - 1) = true ∧ field 0 1 2 < 1 ∧ (2 : ℕ) < 2 ^ 2 ∧ (1 : ℕ).testBit (2 - 1) = false := by decide

end Verif.Ocl
