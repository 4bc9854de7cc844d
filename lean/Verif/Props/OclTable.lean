import Verif.Lemmas.OclTable
import Verif.Props.OclArith

/-!
# C62: table operations on an OpenCL register
-/

namespace Verif.Ocl

open Verif.Engine Verif.Utils Verif.ParFor Verif.BlockFold Verif.Spec Verif.Bits Classical

/-- **C62, partial.** `IndexedLDA` does what the CPU engine does, if the entries of the table fit the value register and that has
at most 31 qubits. Missing: wider registers, see `indexedLDA_wrong`. -/
theorem indexedLDA_same_partial {R : Rt} (hR : R.Ok) {e : Eng} (hn : e.n < 64) {is il vs vl : ℕ} {values : ℕ → ℕ}
    (hi : is + il ≤ e.n) (hv : vs + vl ≤ e.n) (hval : ∀ k, values k < 256) (hvl : vl ≤ 31)
    (hfit : ∀ k < 2 ^ il, entry ((vl + 7) / 8) values k < 2 ^ vl) :
    ∃ σ, IsSched σ ∧ indexedLDA R e is il vs vl values = indexedLDAE σ e is il vs vl values := by
  obtain ⟨p1, p2, p3⟩ := parForSkip_range hv hn
  obtain ⟨σ, s1, s2⟩ := arithCall_sched hR (e.n - vl) (e.n - vl) p1 p2 p3
  refine ⟨σ, s1, ?_⟩
  unfold indexedLDA indexedLDAE
  rw [rangeOk hi hn, rangeOk hv hn]
  simp only [Bool.false_eq_true, if_false, scatter]
  refine s2 _ _ _ _ _ _ (two_pow_shiftRight (by omega)) (by simp only [bound0]; read_args; exact two_pow_shiftRight (by omega))
    fun t x hx => ?_
  simp only [ldaStep]
  read_args
  have hk : field is il (insertAt vs vl 0 x) < 2 ^ il := field_lt _ _ _
  rw [skipReg_insertAt hv hn hx, read_field, read_fits hval hvl hfit hk, shift_word hv hn (hfit _ hk), Nat.or_comm,
    Nat.shiftRight_eq_div_pow, show (vl + 7) / 2 ^ 3 = (vl + 7) / 8 by norm_num, (tableRead_entry hval _).1]

/-- **C62, partial.** `IndexedLDA` on an OpenCL register loads the entry of the table. Missing: as in `indexedLDA_same_partial`. -/
theorem indexedLDA_loads_partial {R : Rt} (hR : R.Ok) {e : Eng} (hn : e.n < 64) {is il vs vl : ℕ} {values : ℕ → ℕ}
    (hi : is + il ≤ e.n) (hv : vs + vl ≤ e.n) (hval : ∀ k, values k < 256) (hvl : vl ≤ 31)
    (hfit : ∀ k < 2 ^ il, entry ((vl + 7) / 8) values k < 2 ^ vl) :
    ∃ a, indexedLDA R e is il vs vl values = some (e.reset a) ∧ ∀ i < 2 ^ e.n, field vs vl i = 0 →
      a (setField vs vl (entry ((vl + 7) / 8) values (field is il i)) i) = e.amp i := by
  obtain ⟨σ, h1, h2⟩ := indexedLDA_same_partial hR hn hi hv hval hvl hfit
  rw [h2]
  exact indexedLDA_loads h1 hn hi hv hval hfit

/-- The table with the one entry `2^31`, in four bytes. -/
def topEntry (k : ℕ) : ℕ := if k = 3 then 128 else 0

theorem devRead_topEntry : devRead 4 topEntry 0 = 2 ^ 64 - 2 ^ 31 ∧ entry 4 topEntry 0 = 2 ^ 31 := by
  refine ⟨by decide, by decide⟩

/-- **C62, negation.** An entry of the table with bit 31 set is read with its sign: loading `2^31` into a register of 32 qubits,
every amplitude is written outside of the state vector, and the state is lost. -/
theorem indexedLDA_wrong {R : Rt} (hR : R.Ok) {e : Eng} (hn : e.n = 32) :
    (∀ k, topEntry k < 256) ∧ (∀ k < 2 ^ 0, entry ((32 + 7) / 8) topEntry k < 2 ^ 32) ∧
    setField 0 32 (entry ((32 + 7) / 8) topEntry (field 0 0 0)) 0 = 2 ^ 31 ∧
    ∃ a, indexedLDA R e 0 0 0 32 topEntry = some (e.reset a) ∧ ∀ j < 2 ^ e.n, a j = 0 := by
  have he : entry 4 topEntry 0 = 2 ^ 31 := devRead_topEntry.2
  refine ⟨fun k => by unfold topEntry; split_ifs <;> norm_num, fun k hk => ?_, ?_, ?_⟩
  · have : k = 0 := by simpa using hk
    subst this
    show entry 4 topEntry 0 < _
    rw [he]; norm_num
  · have : field 0 0 0 = 0 := by decide
    rw [this]
    show setField 0 32 (entry 4 topEntry 0) 0 = _
    rw [he]; decide
  obtain ⟨p1, p2, p3⟩ := parForSkip_range (n := 32) (s := 0) (d := 32) (by omega) (by omega)
  obtain ⟨σ, s1, s2⟩ := arithCall_sched hR 0 0 p1 p2 p3
  unfold indexedLDA
  rw [rangeOk (by omega) (by omega), rangeOk (by omega) (by omega)]
  simp only [Bool.false_eq_true, if_false]
  refine ⟨_, s2 _ _ _ _ _ (fun t i => Function.update t ((2 ^ 64 - 2 ^ 31) ||| i) (e.amp i))
    (by rw [hn]; exact two_pow_shiftRight (by omega))
    (by simp only [bound0]; read_args; rw [hn]; exact two_pow_shiftRight (by omega)) fun t x hx => ?_, fun j hj => ?_⟩
  · simp only [ldaStep]
    read_args
    have hx0 : x = 0 := by simpa using hx
    subst hx0
    have hs : skipReg (2 ^ 0 - 1) 32 0 = 0 := by decide
    have hi : insertAt 0 32 0 0 = 0 := by decide
    have hd : devRead ((32 + 7) >>> 3) topEntry ((0 &&& (2 ^ 0 - 1) <<< 0) >>> 0) = 2 ^ 64 - 2 ^ 31 := by
      rw [show (32 + 7) >>> 3 = 4 by decide, show (0 &&& (2 ^ 0 - 1) <<< 0) >>> 0 = 0 by decide]
      exact devRead_topEntry.1
    rw [hs, hi, hd, show (2 ^ 64 - 2 ^ 31) <<< 0 % 2 ^ 64 = 2 ^ 64 - 2 ^ 31 by decide]
  · have := scatter_off (fun i => (2 ^ 64 - 2 ^ 31) ||| i) e.amp (σ (parForSkipPlan 64 0 (2 ^ 32) (2 ^ 0) 32)) (fun _ => 0) j
      (fun x _ hc => by
        have h1 : 2 ^ 64 - 2 ^ 31 ≤ (2 ^ 64 - 2 ^ 31) ||| x := Nat.left_le_or
        rw [hn] at hj
        have hc' : (2 ^ 64 - 2 ^ 31) ||| x = j := hc
        rw [hc'] at h1
        norm_num at h1 hj
        omega)
    exact this

/-! ## Addition and subtraction of table entries -/

theorem adc_index {n is il vs vl c : ℕ} {values : ℕ → ℕ} (b : Bool) (hin : is + il ≤ n) (hv : vs + vl ≤ n) (hc : c < n)
    (hn : n < 64) (hval : ∀ k, values k < 256) (hvl : vl ≤ 31)
    (hfit : ∀ k < 2 ^ il, entry ((vl + 7) / 8) values k < 2 ^ vl) (i : ℕ) :
    devIndexed (2 ^ vl) vs (2 ^ c) (i &&& (2 ^ il - 1) <<< is)
      (i &&& ((2 ^ n - 1) &&& bnot 64 ((2 ^ il - 1) <<< is ||| (2 ^ vl - 1) <<< vs ||| 2 ^ c)))
      ((devRead ((vl + 7) >>> 3) values ((i &&& (2 ^ il - 1) <<< is) >>> is) +
        (((i &&& (2 ^ vl - 1) <<< vs) >>> vs) + b.toNat)) % 2 ^ 64) =
    indexedRes n (fun k => tableRead ((vl + 7) / 8) values k + b.toNat) is il vs vl c i := by
  have hk : field is il i < 2 ^ il := field_lt _ _ _
  have hf := field_lt vs vl i
  have hbt : b.toNat ≤ 1 := by cases b <;> simp
  have h1 := hfit _ hk
  have hp : 2 ^ vl ≤ 2 ^ 31 := Nat.pow_le_pow_right (by norm_num) hvl
  have hp2 : (2 : ℕ) ^ 31 + 2 ^ 31 + 1 < 2 ^ 64 := by norm_num
  unfold indexedRes
  dsimp only
  rw [indexedMask hin hv hc hn, read_field, read_field, read_fits hval hvl hfit hk, (tableRead_entry hval _).1]
  rw [show entry ((vl + 7) / 8) values (field is il i) + (field vs vl i + b.toNat) =
    field vs vl i + (entry ((vl + 7) / 8) values (field is il i) + b.toNat) by ring]
  rw [Nat.mod_eq_of_lt (by omega), devIndexed_same hv hn (by omega)]

/-- What `IndexedADC` on an OpenCL register does: it adds, but reads the amplitude of the counter of the loop, in which the carry
qubit has been left out, in place of that of the state. -/
theorem indexedADC_out {R : Rt} (hR : R.Ok) {e : Eng} (hn : e.n < 64) (b : Bool) {is il vs vl c : ℕ}
    {values : ℕ → ℕ} (hin : is + il ≤ e.n) (hv : vs + vl ≤ e.n) (hc : c < e.n)
    (hval : ∀ k, values k < 256) (hvl : vl ≤ 31) (hfit : ∀ k < 2 ^ il, entry ((vl + 7) / 8) values k < 2 ^ vl)
    (hs : e.doNorm = false ∨ e.rn = 1) :
    ∃ (σ : List ℕ → List ℕ) (e1 : Eng), IsSched σ ∧ e1.n = e.n ∧ (∀ i < 2 ^ e.n, e1.amp (flipIf b c i) = e.amp i) ∧
      indexedADC R e b is il vs vl c values = some (e1.reset (scatter (fun _ => 0)
        (σ (parForSkipPlan 64 0 (2 ^ e.n) (2 ^ c) 1))
        (indexedRes e.n (fun k => tableRead ((vl + 7) / 8) values k + b.toNat) is il vs vl c)
        (fun i => e1.amp (rest c 1 i)))) := by
  obtain ⟨p1, p2, p3⟩ := parForSkip_range (n := e.n) (s := c) (d := 1) (by omega) hn
  obtain ⟨σ, s1, s2⟩ := arithCall_sched hR (e.n - 1) (e.n - 1) p1 p2 p3
  obtain ⟨e1, h1, h2, h3⟩ := ocl_flip_first hR hn hc b hs
  refine ⟨σ, e1, s1, h2, h3, ?_⟩
  unfold indexedADC opIndexed
  rw [rangeOk hin hn, rangeOk hv hn]
  simp only [Bool.false_eq_true, if_false]
  rw [if_neg (by omega), h1, Option.bind_some, h2]
  have hbn : (if b = true then 0 ^^^ 1 else 0) = b.toNat := by cases b <;> rfl
  rw [hbn]
  simp only [scatter]
  refine s2 _ _ _ _ _ _ (two_pow_shiftRight (by omega)) (by simp only [bound0]; read_args; exact two_pow_shiftRight (by omega))
    fun t x hx => ?_
  simp only [adcStep]
  read_args
  rw [pushApart1_insertAt hc hn hx, adc_index b hin hv hc hn hval hvl hfit, rest_insertAt (by norm_num)]

/-- **C62, partial.** `IndexedADC` on an OpenCL register, if the carry is the highest qubit. Missing: any other carry qubit, see
`indexedADC_wrong`; and value registers of more than 31 qubits. -/
theorem indexedADC_adds_partial {R : Rt} (hR : R.Ok) {e : Eng} (hn : e.n < 64) (b : Bool) {is il vs vl c : ℕ}
    {values : ℕ → ℕ} (hin : is + il ≤ e.n) (hv : vs + vl ≤ e.n) (hc : c + 1 = e.n) (hd : is + il ≤ vs ∨ vs + vl ≤ is)
    (hci : c < is ∨ is + il ≤ c) (hcv : c < vs ∨ vs + vl ≤ c)
    (hval : ∀ k, values k < 256) (hvl : vl ≤ 31) (hfit : ∀ k < 2 ^ il, entry ((vl + 7) / 8) values k < 2 ^ vl)
    (hs : e.doNorm = false ∨ e.rn = 1) :
    ∃ e', indexedADC R e b is il vs vl c values = some e' ∧ e'.n = e.n ∧ ∀ i < 2 ^ e.n, i.testBit c = b →
      e'.amp (sumIdx vs vl c (field vs vl i + (entry ((vl + 7) / 8) values (field is il i) + b.toNat)) i) = e.amp i := by
  obtain ⟨σ, e1, s1, h2, h3, h4⟩ := indexedADC_out hR hn b hin hv (by omega : c < e.n) hval hvl hfit hs
  have hbt : b.toNat ≤ 1 := by cases b <;> simp
  have hout : ∀ i < 2 ^ e.n, indexedRes e.n (fun k => tableRead ((vl + 7) / 8) values k + b.toNat) is il vs vl c i =
      sumIdx vs vl c (field vs vl i + (entry ((vl + 7) / 8) values (field is il i) + b.toNat)) i := by
    intro i hi
    have hlt := entry_lt_of_fit hfit is i
    have := indexedRes_eq (add := fun k => tableRead ((vl + 7) / 8) values k + b.toNat) hin hv (by omega) hn hd hci hcv hi
      (by show tableRead ((vl + 7) / 8) values _ + b.toNat ≤ _
          rw [(tableRead_entry hval _).1]; omega)
    rw [this]
    show sumIdx vs vl c (field vs vl i + (tableRead ((vl + 7) / 8) values (field is il i) + b.toNat)) i = _
    rw [(tableRead_entry hval _).1]
  refine ⟨_, h4, h2, fun i hi hib => ?_⟩
  have hi' : flipIf b c i < 2 ^ e.n := flipIf_lt (by omega) hi
  have hcl := flipIf_carry hib
  have hrest : rest c 1 (flipIf b c i) = flipIf b c i := by
    have h5 := insertAt_field_rest c 1 (flipIf b c i)
    rw [field_bit_zero.2 hcl] at h5
    apply Nat.eq_of_testBit_eq
    intro k
    have h6 := lt_two_pow_iff_testBit.1 hi'
    rw [testBit_rest]
    by_cases hk : k < c
    · simp [hk]
    · rw [if_neg hk, h6 _ (by omega)]
      by_cases hk' : k = c
      · rw [hk', hcl]
      · rw [h6 _ (by omega)]
  rw [← h3 i hi, ← sumIdx_flipIf (b := b) hcv, ← field_flipIf (b := b) hcv, ← field_flipIf (b := b) (i := i) hci, ← hout _ hi']
  have := (scatter_skip s1 (n := e.n) (s := c) (d := 1) (by omega) (by omega) (init := fun _ => (0 : ℂ))
    (out := indexedRes e.n (fun k => tableRead ((vl + 7) / 8) values k + b.toNat) is il vs vl c)
    (val := fun i => e1.amp (rest c 1 i)) (by
      intro x hx hfx y hy hfy hxy
      rw [hout x hx, hout y hy] at hxy
      rw [indexed_inj (add := fun k => entry ((vl + 7) / 8) values k + b.toNat) hd hci hcv (field_bit_zero.1 hfx)
        (field_bit_zero.1 hfy) hxy])).1 _ hi' (field_bit_zero.2 hcl)
  refine Eq.trans this ?_
  show e1.amp (rest c 1 (flipIf b c i)) = _
  rw [hrest]

/-- **C62, negation.** `IndexedADC` only reads the lower half of the state vector: with a clear carry that is not the highest qubit,
a state in which the highest qubit is set is turned into the zero vector. -/
theorem indexedADC_wrong {R : Rt} (hR : R.Ok) {e : Eng} (hn : e.n < 64) {is il vs vl c : ℕ}
    {values : ℕ → ℕ} (hin : is + il ≤ e.n) (hv : vs + vl ≤ e.n) (hc : c < e.n)
    (hval : ∀ k, values k < 256) (hvl : vl ≤ 31) (hfit : ∀ k < 2 ^ il, entry ((vl + 7) / 8) values k < 2 ^ vl)
    (hs : e.doNorm = false ∨ e.rn = 1) (hsupp : ∀ i < 2 ^ (e.n - 1), e.amp i = 0) :
    ∃ e', indexedADC R e false is il vs vl c values = some e' ∧ ∀ j, e'.amp j = 0 := by
  obtain ⟨σ, e1, s1, h2, h3, h4⟩ := indexedADC_out hR hn false hin hv hc hval hvl hfit hs
  refine ⟨_, h4, fun j => ?_⟩
  have hzero : ∀ x < 2 ^ e.n, e1.amp (rest c 1 x) = 0 := fun x hx => by
    have hr : rest c 1 x < 2 ^ (e.n - 1) := rest_lt (by omega) hx
    have hr' : rest c 1 x < 2 ^ e.n := lt_of_lt_of_le hr (Nat.pow_le_pow_right (by norm_num) (by omega))
    have := h3 _ hr'
    rw [show flipIf false c (rest c 1 x) = rest c 1 x from rfl] at this
    rw [this, hsupp _ hr]
  have key := scatter_skip s1 (n := e.n) (s := c) (d := 1) (by omega) (by omega) (init := fun _ => (0 : ℂ))
    (out := indexedRes e.n (fun k => tableRead ((vl + 7) / 8) values k + false.toNat) is il vs vl c)
    (val := fun i => e1.amp (rest c 1 i)) (by intro x hx _ y hy _ _; rw [hzero x hx, hzero y hy])
  by_cases hj : ∃ x < 2 ^ e.n, field c 1 x = 0 ∧
      indexedRes e.n (fun k => tableRead ((vl + 7) / 8) values k + false.toNat) is il vs vl c x = j
  · obtain ⟨x, hx, hfx, rfl⟩ := hj
    exact (key.1 x hx hfx).trans (hzero x hx)
  · exact key.2 j fun x hx hfx hxj => hj ⟨x, hx, hfx, hxj⟩

theorem sbc_index {n is il vs vl c : ℕ} {values : ℕ → ℕ} (b : Bool) (hin : is + il ≤ n) (hv : vs + vl ≤ n) (hc : c < n)
    (hn : n < 64) (hval : ∀ k, values k < 256) (hvl : vl ≤ 31)
    (hfit : ∀ k < 2 ^ il, entry ((vl + 7) / 8) values k < 2 ^ vl) (i : ℕ) :
    devIndexed (2 ^ vl) vs (2 ^ c) (i &&& (2 ^ il - 1) <<< is)
      (i &&& ((2 ^ n - 1) &&& bnot 64 ((2 ^ il - 1) <<< is ||| (2 ^ vl - 1) <<< vs ||| 2 ^ c)))
      ((((i &&& (2 ^ vl - 1) <<< vs) >>> vs) + (2 ^ 64 + 2 ^ vl -
        (devRead ((vl + 7) >>> 3) values ((i &&& (2 ^ il - 1) <<< is) >>> is) + (if b then 0 else 1)) % 2 ^ 64) % 2 ^ 64) % 2 ^ 64) =
    indexedRes n (fun k => (2 ^ 64 + 2 ^ vl - (tableRead ((vl + 7) / 8) values k + (if b then 0 else 1)) % 2 ^ 64) %
      2 ^ 64) is il vs vl c i := by
  have hk : field is il i < 2 ^ il := field_lt _ _ _
  have hf := field_lt vs vl i
  have h1 := hfit _ hk
  have hp : 2 ^ vl ≤ 2 ^ 31 := Nat.pow_le_pow_right (by norm_num) hvl
  have hp2 : (2 : ℕ) ^ 31 + 2 ^ 31 + 1 < 2 ^ 64 := by norm_num
  have hbt : (if b = true then 0 else 1) ≤ 1 := by cases b <;> simp
  unfold indexedRes
  dsimp only
  rw [indexedMask hin hv hc hn, read_field, read_field, read_fits hval hvl hfit hk, (tableRead_entry hval _).1]
  generalize (if b = true then 0 else 1) = d at hbt ⊢
  have hadd : (2 ^ 64 + 2 ^ vl - (entry ((vl + 7) / 8) values (field is il i) + d) % 2 ^ 64) % 2 ^ 64 =
      2 ^ vl - (entry ((vl + 7) / 8) values (field is il i) + d) := by
    rw [Nat.mod_eq_of_lt (a := _ + d) (by omega), Nat.add_sub_assoc (by omega), Nat.add_mod_left, Nat.mod_eq_of_lt (by omega)]
  rw [hadd, Nat.mod_eq_of_lt (a := field vs vl i + _) (by omega), devIndexed_same hv hn (by omega)]

/-- **C62, partial.** `IndexedSBC` on an OpenCL register subtracts the entry of the table, for every state and carry qubit (the CPU engine
loses states here). Missing: value registers of more than 31 qubits. -/
theorem indexedSBC_subtracts_partial {R : Rt} (hR : R.Ok) {e : Eng} (hn : e.n < 64) (b : Bool) {is il vs vl c : ℕ}
    {values : ℕ → ℕ} (hin : is + il ≤ e.n) (hv : vs + vl ≤ e.n) (hc : c < e.n) (hd : is + il ≤ vs ∨ vs + vl ≤ is)
    (hci : c < is ∨ is + il ≤ c) (hcv : c < vs ∨ vs + vl ≤ c)
    (hval : ∀ k, values k < 256) (hvl : vl ≤ 31) (hfit : ∀ k < 2 ^ il, entry ((vl + 7) / 8) values k < 2 ^ vl)
    (hs : e.doNorm = false ∨ e.rn = 1) :
    ∃ e', indexedSBC R e b is il vs vl c values = some e' ∧ e'.n = e.n ∧ ∀ i < 2 ^ e.n, i.testBit c = b →
      e'.amp (sumIdx vs vl c
        (field vs vl i + (2 ^ vl - (entry ((vl + 7) / 8) values (field is il i) + (1 - b.toNat)))) i) = e.amp i := by
  obtain ⟨p1, p2, p3⟩ := parForSkip_range (n := e.n) (s := c) (d := 1) (by omega) hn
  obtain ⟨σ, s1, s2⟩ := arithCall_sched hR (e.n - 1) (e.n - 1) p1 p2 p3
  obtain ⟨e1, h1, h2, h3⟩ := ocl_flip_first hR hn hc b hs
  have key : indexedSBC R e b is il vs vl c values = some (e1.reset (scatter (fun _ => 0)
      (σ (parForSkipPlan 64 0 (2 ^ e.n) (2 ^ c) 1))
      (indexedRes e.n (fun k => (2 ^ 64 + 2 ^ vl - (tableRead ((vl + 7) / 8) values k + (if b then 0 else 1)) % 2 ^ 64) %
        2 ^ 64) is il vs vl c) e1.amp)) := by
    unfold indexedSBC opIndexed
    rw [rangeOk hin hn, rangeOk hv hn]
    simp only [Bool.false_eq_true, if_false]
    rw [if_neg (by omega), h1, Option.bind_some, h2]
    have hbn : (if b = true then 1 ^^^ 1 else 1) = if b = true then 0 else 1 := by cases b <;> rfl
    rw [hbn]
    simp only [scatter]
    refine s2 _ _ _ _ _ _ (two_pow_shiftRight (by omega))
      (by simp only [bound0]; read_args; exact two_pow_shiftRight (by omega)) fun t x hx => ?_
    simp only [sbcStep]
    read_args
    rw [pushApart1_insertAt hc hn hx, sbc_index b hin hv hc hn hval hvl hfit]
  have hout : ∀ i < 2 ^ e.n, _ := fun i hi => indexedSBC_out (n := e.n) b hin hv hc hn hd hci hcv hval hfit (i := i) hi
  refine ⟨_, key, h2, fun i hi hib => ?_⟩
  have hi' : flipIf b c i < 2 ^ e.n := flipIf_lt hc hi
  rw [← h3 i hi, ← sumIdx_flipIf (b := b) hcv, ← field_flipIf (b := b) hcv, ← field_flipIf (b := b) (i := i) hci, ← hout _ hi']
  refine (scatter_skip s1 (by omega) (by omega) ?_).1 _ hi' (field_bit_zero.2 (flipIf_carry hib))
  intro x hx hfx y hy hfy hxy
  rw [hout x hx, hout y hy] at hxy
  rw [indexed_inj (add := fun k => 2 ^ vl - (entry ((vl + 7) / 8) values k + (1 - b.toNat))) hd hci hcv
    (field_bit_zero.1 hfx) (field_bit_zero.1 hfy) hxy]

/-! ## Hash -/

/-- **C62, partial.** `Hash` does what the CPU engine does. Missing: registers of more than 31 qubits, whose entries may be read with a
sign; and ranges outside of the register, which are not rejected. -/
theorem hash_same_partial {R : Rt} (hR : R.Ok) {e : Eng} (hn : e.n < 64) {s l : ℕ} {values : ℕ → ℕ} (hs : s + l ≤ e.n)
    (hval : ∀ k, values k < 256) (hl : l ≤ 31) (hfit : ∀ k < 2 ^ l, entry ((l + 7) / 8) values k < 2 ^ l) :
    ∃ σ, IsSched σ ∧ hash R e s l values = hashE σ e s l values := by
  obtain ⟨p1, p2⟩ := parForPlan_range e.n
  obtain ⟨σ, s1, s2⟩ := arithCall_sched hR e.n e.n p1 (f := id) (fun x _ y _ h => h) p2
  refine ⟨σ, s1, ?_⟩
  unfold hash hashE
  rw [rangeOk hs hn]
  simp only [Bool.false_eq_true, if_false, scatter]
  refine s2 _ _ _ _ _ _ rfl (by simp only [bound0]; read_args) fun t x hx => ?_
  simp only [hashStep, id]
  read_args
  have hk : field s l x < 2 ^ l := field_lt _ _ _
  rw [read_field, read_fits hval hl hfit hk, shift_word hs hn (hfit _ hk), Nat.shiftRight_eq_div_pow,
    show (l + 7) / 2 ^ 3 = (l + 7) / 8 by norm_num, (tableRead_entry hval _).1]

/-- **C62, partial.** `Hash` on an OpenCL register looks up the table. Missing: as in `hash_same_partial`. -/
theorem hash_looks_up_partial {R : Rt} (hR : R.Ok) {e : Eng} (hn : e.n < 64) {s l : ℕ} {values : ℕ → ℕ} (hs : s + l ≤ e.n)
    (hval : ∀ k, values k < 256) (hl : l ≤ 31) (hfit : ∀ k < 2 ^ l, entry ((l + 7) / 8) values k < 2 ^ l)
    (hinj : ∀ x < 2 ^ l, ∀ y < 2 ^ l, entry ((l + 7) / 8) values x = entry ((l + 7) / 8) values y → x = y) :
    Sends e (hash R e s l values) (fun i => setField s l (entry ((l + 7) / 8) values (field s l i)) i) := by
  obtain ⟨σ, h1, h2⟩ := hash_same_partial hR hn hs hval hl hfit
  rw [h2]
  exact hash_looks_up h1 hn hs hval hfit hinj

/-! ## Examples -/

/-- Index `[0, 2)`, value `[2, 5)`, carry 5, table `7, 2, 0, 1`: `|1>|6>` adds to `6 + 2 = 8`, and subtracts to `6 - 2 - 1`. -/
example : (∀ k < 2 ^ 2, entry ((3 + 7) / 8) (fun k => [7, 2, 0, 1].getD k 0) k < 2 ^ 3) ∧
    sumIdx 2 3 5 (field 2 3 25 + (entry 1 (fun k => [7, 2, 0, 1].getD k 0) (field 0 2 25) + 0)) 25 = 33 ∧
    sumIdx 2 3 5 (field 2 3 25 + (2 ^ 3 - (entry 1 (fun k => [7, 2, 0, 1].getD k 0) (field 0 2 25) + 1))) 25 = 32 + 13 := by
  decide

/-- The state that `indexedADC_wrong` loses: two qubits, the value in qubit 1, the carry in qubit 0, both as in `|1>|0>`; nothing is to
be added. -/
example : (∀ i < 2 ^ (2 - 1), (Pi.single 2 1 : ℕ → ℂ) i = 0) ∧ sumIdx 1 1 0 (field 1 1 2 + (entry 1 (fun _ => 0) 0 + 0)) 2 = 2 := by
  refine ⟨fun i hi => ?_, by decide⟩
  have : i ≠ 2 := by norm_num at hi; omega
  simp [this]

/-- A table that permutes the values of two qubits. -/
example : (∀ x < 2 ^ 2, entry 1 (fun k => [3, 0, 2, 1].getD k 0) x < 2 ^ 2) ∧
    ∀ x < 2 ^ 2, ∀ y < 2 ^ 2, entry 1 (fun k => [3, 0, 2, 1].getD k 0) x = entry 1 (fun k => [3, 0, 2, 1].getD k 0) y → x = y := by
  decide

end Verif.Ocl
