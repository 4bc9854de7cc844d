import Verif.Props.EngineArith

/-!
# C16: rotations and shifts

The specification `IsRol` speaks about single bits: bit `j` of the register moves to place `(j + shift) mod length`.
-/

namespace Verif.Circ

open Verif.Engine Verif.Spec Verif.Bits Verif.BlockFold

/-- `r` is the basis state `i` with the qubits `[s, s+l)` rotated left by `sh`. -/
def IsRol (s l sh i r : ℕ) : Prop :=
  (∀ j < l, r.testBit (s + (j + sh) % l) = i.testBit (s + j)) ∧
  ∀ k, k < s ∨ s + l ≤ k → r.testBit k = i.testBit k

/-- Every place of the register is the destination of a place. -/
theorem rot_source {l : ℕ} (sh : ℕ) {p : ℕ} (hp : p < l) : ∃ j < l, (j + sh) % l = p := by
  have hl : 0 < l := by omega
  have hd := Nat.mod_lt sh hl
  refine ⟨(p + (l - sh % l)) % l, Nat.mod_lt _ hl, ?_⟩
  rw [Nat.mod_add_mod, ← Nat.add_mod_mod, Nat.add_assoc, Nat.sub_add_cancel hd.le, Nat.add_mod_right,
    Nat.mod_eq_of_lt hp]

/-- The rotated state is determined by the specification. -/
theorem isRol_unique {s l sh i r r' : ℕ} (h : IsRol s l sh i r) (h' : IsRol s l sh i r') : r = r' := by
  apply Nat.eq_of_testBit_eq
  intro k
  by_cases hk : k < s ∨ s + l ≤ k
  · rw [h.2 k hk, h'.2 k hk]
  · obtain ⟨j, hj, hjk⟩ := rot_source sh (show k - s < l by omega)
    have h1 := h.1 j hj
    have h2 := h'.1 j hj
    rw [hjk, show s + (k - s) = k by omega] at h1 h2
    rw [h1, h2]

/-- So is the state that was rotated. -/
theorem isRol_inj {s l sh i j r : ℕ} (h : IsRol s l sh i r) (h' : IsRol s l sh j r) : i = j := by
  apply Nat.eq_of_testBit_eq
  intro k
  by_cases hk : k < s ∨ s + l ≤ k
  · rw [← h.2 k hk, ← h'.2 k hk]
  · have h1 := h.1 (k - s) (by omega)
    have h2 := h'.1 (k - s) (by omega)
    rw [show s + (k - s) = k by omega] at h1 h2
    rw [← h1, ← h2]

theorem isRol_lt {n s l sh i r : ℕ} (h : s + l ≤ n) (hi : i < 2 ^ n) (hr : IsRol s l sh i r) : r < 2 ^ n := by
  rw [lt_two_pow_iff_testBit] at hi ⊢
  intro k hk
  rw [hr.2 k (by omega), hi k hk]

theorem isRol_zero {s l sh i : ℕ} (h : sh % l = 0) : IsRol s l sh i i := by
  refine ⟨fun j hj => ?_, fun k _ => rfl⟩
  rw [Nat.add_mod, h, Nat.add_zero, Nat.mod_mod, Nat.mod_eq_of_lt hj]

theorem isRol_short {s l sh i : ℕ} (h : l < 2) : IsRol s l sh i i := by
  refine ⟨fun j hj => ?_, fun k _ => rfl⟩
  have hl : l = 1 := by omega
  subst hl
  rw [Nat.mod_one, show j = 0 by omega]

theorem add_mod_cases {j sh l : ℕ} (hj : j < l) : (j + sh) % l = if j + sh % l < l then j + sh % l else j + sh % l - l := by
  have hd := Nat.mod_lt sh (show 0 < l by omega)
  rw [← Nat.add_mod_mod]
  split_ifs with h
  · exact Nat.mod_eq_of_lt h
  · rw [Nat.mod_eq_sub_mod (by omega), Nat.mod_eq_of_lt (by omega)]

theorem act_rol (shift start len i : ℕ) : IsRol start len shift i (act (rol shift start len) i) := by
  unfold rol
  by_cases h1 : len < 2
  · rw [if_pos h1]; exact isRol_short h1
  rw [if_neg h1]
  by_cases h2 : shift % len = 0
  · rw [if_pos h2]; exact isRol_zero h2
  rw [if_neg h2]
  have hd := Nat.mod_lt shift (show 0 < len by omega)
  refine ⟨fun j hj => ?_, fun k hk => ?_⟩
  · rw [add_mod_cases hj, act_append, act_append, act_reverse_seq, act_reverse_seq, act_reverse_seq, act_reverse_seq,
      act_reverse_seq, act_reverse_seq]
    split_ifs <;> first | omega | (congr 1; omega)
  · rw [act_append, act_append, act_reverse_seq, if_neg (by omega), act_reverse_seq, if_neg (by omega),
      act_reverse_seq, if_neg (by omega)]

theorem act_ror (shift start len i : ℕ) : IsRol start len shift (act (ror shift start len) i) i := by
  unfold ror
  by_cases h1 : len < 2
  · rw [if_pos h1]; exact isRol_short h1
  rw [if_neg h1]
  by_cases h2 : shift % len = 0
  · rw [if_pos h2]; exact isRol_zero h2
  rw [if_neg h2]
  have hd := Nat.mod_lt shift (show 0 < len by omega)
  refine ⟨fun j hj => ?_, fun k hk => ?_⟩
  · rw [add_mod_cases hj, act_append, act_append, act_reverse_seq, act_reverse_seq, act_reverse_seq, act_reverse_seq,
      act_reverse_seq, act_reverse_seq]
    split_ifs <;> first | omega | (congr 1; omega)
  · rw [act_append, act_append, act_reverse_seq, if_neg (by omega), act_reverse_seq, if_neg (by omega),
      act_reverse_seq, if_neg (by omega)]

theorem rol_ok {shift start len n : ℕ} (h : start + len ≤ n) : ∀ o ∈ rol shift start len, o.Ok n := by
  unfold rol
  intro o ho
  split_ifs at ho with h1 h2
  · simp at ho
  · simp at ho
  · have hd := Nat.mod_lt shift (show 0 < len by omega)
    simp only [List.mem_append] at ho
    rcases ho with (ho | ho) | ho
    · exact reversal_ok h o ho
    · exact reversal_ok (by omega) o ho
    · exact reversal_ok h o ho

theorem ror_ok {shift start len n : ℕ} (h : start + len ≤ n) : ∀ o ∈ ror shift start len, o.Ok n := by
  unfold ror
  intro o ho
  split_ifs at ho with h1 h2
  · simp at ho
  · simp at ho
  · have hd := Nat.mod_lt shift (show 0 < len by omega)
    simp only [List.mem_append] at ho
    rcases ho with (ho | ho) | ho
    · exact reversal_ok h o ho
    · exact reversal_ok (by omega) o ho
    · exact reversal_ok h o ho

/-- C16. The gate-level `ROL` (three reversals) moves the amplitude of every basis state to the state rotated left by
`shift` modulo `length`. -/
theorem rol_gates_rotate {σ : List ℕ → List ℕ} (hσ : IsSched σ) {e : Eng} (he : Exact e) {shift start len : ℕ}
    (h : start + len ≤ e.n) : ∃ e', run σ (rol shift start len) e = some e' ∧ e'.n = e.n ∧
      ∀ i < 2 ^ e.n, ∀ r, IsRol start len shift i r → e'.amp r = e.amp i := by
  obtain ⟨e', h1, h2, -, h4⟩ := run_act hσ he (rol_ok (shift := shift) h)
  exact ⟨e', h1, h2, fun i hi r hr => by rw [isRol_unique hr (act_rol shift start len i)]; exact h4 i hi⟩

/-- C16. The gate-level `ROR` rotates right: the amplitude of the rotated state goes back to the original one. -/
theorem ror_gates_rotate {σ : List ℕ → List ℕ} (hσ : IsSched σ) {e : Eng} (he : Exact e) {shift start len : ℕ}
    (h : start + len ≤ e.n) : ∃ e', run σ (ror shift start len) e = some e' ∧ e'.n = e.n ∧
      ∀ i < 2 ^ e.n, ∀ r, IsRol start len shift r i → e'.amp r = e.amp i := by
  obtain ⟨e', h1, h2, -, h4⟩ := run_act hσ he (ror_ok (shift := shift) h)
  exact ⟨e', h1, h2, fun i hi r hr => by rw [isRol_inj hr (act_ror shift start len i)]; exact h4 i hi⟩

/-- C16. `ROR` undoes `ROL` and `ROL` undoes `ROR`, on every basis state. -/
theorem ror_rol_cancel (shift start len i : ℕ) :
    act (ror shift start len) (act (rol shift start len) i) = i ∧
    act (rol shift start len) (act (ror shift start len) i) = i :=
  ⟨isRol_inj (act_ror _ _ _ _) (act_rol _ _ _ _), isRol_unique (act_rol _ _ _ _) (act_ror _ _ _ _)⟩

/-- C16. The same as amplitudes: running `ROL` then `ROR` restores the state vector. -/
theorem ror_undoes_rol {σ : List ℕ → List ℕ} (hσ : IsSched σ) {e : Eng} (he : Exact e) {shift start len : ℕ}
    (h : start + len ≤ e.n) : ∃ e' e'', run σ (rol shift start len) e = some e' ∧
      run σ (ror shift start len) e' = some e'' ∧ ∀ i < 2 ^ e.n, e''.amp i = e.amp i := by
  obtain ⟨e', h1, h2, h3, h4⟩ := run_act hσ he (rol_ok (shift := shift) h)
  obtain ⟨e'', k1, k2, -, k4⟩ := run_act hσ h3 (p := ror shift start len) (by rw [h2]; exact ror_ok h)
  refine ⟨e', e'', h1, k1, fun i hi => ?_⟩
  have hlt := act_lt (rol_ok (shift := shift) h) hi
  have := k4 _ (by rw [h2]; exact hlt)
  rw [(ror_rol_cancel shift start len i).1] at this
  rw [this, h4 i hi]

/-! ## The engine's own rotation -/

theorem rolE_out {n start length shift i : ℕ} (h : start + length ≤ n) (hl : 0 < length) (hi : i < 2 ^ n) :
    IsRol start length shift i
      ((((i &&& (2 ^ length - 1) <<< start) >>> start) >>> (length - shift % length) |||
        ((((i &&& (2 ^ length - 1) <<< start) >>> start) <<< (shift % length)) &&& (2 ^ length - 1))) <<< start |||
        (i &&& otherMask n ((2 ^ length - 1) <<< start))) := by
  have hd := Nat.mod_lt shift hl
  have hlt : field start length i >>> (length - shift % length) |||
      ((field start length i <<< (shift % length)) &&& (2 ^ length - 1)) < 2 ^ length := by
    apply Nat.or_lt_two_pow
    · exact lt_of_le_of_lt (by rw [Nat.shiftRight_eq_div_pow]; exact Nat.div_le_self _ _) (field_lt _ _ _)
    · rw [mask_eq_mod]; exact Nat.mod_lt _ (by positivity)
  rw [read_field, write_field h hi hlt]
  refine ⟨fun j hj => ?_, fun k hk => ?_⟩
  · have hb : (j + shift) % length < length := Nat.mod_lt _ hl
    rw [testBit_setField, if_neg (by omega), if_pos (by omega), Nat.add_sub_cancel_left, Nat.testBit_or,
      Nat.testBit_shiftRight, testBit_field, mask_eq_mod, Nat.testBit_mod_two_pow, Nat.testBit_shiftLeft, testBit_field,
      add_mod_cases hj]
    split_ifs with hc
    · have h1 : ¬ length - shift % length + (j + shift % length) < length := by omega
      have h2 : shift % length ≤ j + shift % length := by omega
      simp [h1, h2, hc, hj]
    · have h1 : length - shift % length + (j + shift % length - length) = j := by omega
      have h2 : ¬ shift % length ≤ j + shift % length - length := by omega
      simp [h1, h2, hj]
  · rw [testBit_setField]
    rcases hk with hk | hk
    · rw [if_pos hk]
    · rw [if_neg (by omega), if_neg (by omega)]

/-- C16. The engine's `ROL` moves the amplitude of every basis state to the rotated state; only the state vector is
replaced. -/
theorem rolE_rotates {σ : List ℕ → List ℕ} (hσ : IsSched σ) (junk : ℕ → ℂ) {e : Eng} (hn : e.n < 64)
    {shift start length : ℕ} (h : start + length ≤ e.n) : ∃ a, rolE σ junk e shift start length = some (e.reset a) ∧
      ∀ i < 2 ^ e.n, ∀ r, IsRol start length shift i r → a r = e.amp i := by
  unfold rolE
  rw [rangeOk h hn]
  simp only [Bool.false_eq_true, if_false]
  by_cases hl : length = 0
  · rw [if_pos hl]
    exact ⟨e.amp, rfl, fun i _ r hr => by rw [isRol_unique hr (isRol_short (by omega))]⟩
  rw [if_neg hl]
  by_cases hz : shift % length = 0
  · rw [if_pos hz]
    exact ⟨e.amp, rfl, fun i _ r hr => by rw [isRol_unique hr (isRol_zero hz)]⟩
  rw [if_neg hz]
  refine ⟨_, rfl, fun i hi r hr => ?_⟩
  have hout := fun i (hi : i < 2 ^ e.n) => rolE_out (shift := shift) h (by omega) hi
  rw [isRol_unique hr (hout i hi)]
  refine scatter_all hσ (fun x hx y hy hxy => ?_) hi
  have h1 := hout x hx
  have h2 := hout y hy
  rw [hxy] at h1
  exact isRol_inj h1 h2

/-- C16. The rotation by reversals equals the direct rotation, on every amplitude. -/
theorem rol_gates_eq {σ : List ℕ → List ℕ} (hσ : IsSched σ) (junk : ℕ → ℂ) {e : Eng} (he : Exact e) (hn : e.n < 64)
    {shift start length : ℕ} (h : start + length ≤ e.n) : ∃ e1 e2, run σ (rol shift start length) e = some e1 ∧
      rolE σ junk e shift start length = some e2 ∧ ∀ j < 2 ^ e.n, e1.amp j = e2.amp j := by
  obtain ⟨e1, h1, -, h2⟩ := rol_gates_rotate hσ he (shift := shift) h
  obtain ⟨a, k1, k2⟩ := rolE_rotates hσ junk hn (shift := shift) h
  refine ⟨e1, _, h1, k1, fun j hj => ?_⟩
  have hr := act_ror shift start length j
  have hlt : act (ror shift start length) j < 2 ^ e.n := act_lt (ror_ok h) hj
  exact (h2 _ hlt j hr).trans (k2 _ hlt j hr).symm

/-- C16. `ROL` on a register that does not fit throws. -/
theorem rolE_invalid {σ : List ℕ → List ℕ} (junk : ℕ → ℂ) {e : Eng} (hn : e.n < 64) {shift start length : ℕ}
    (hs : start < 2 ^ 8) (hl : length < 2 ^ 8) (h : ¬ start + length ≤ e.n) :
    rolE σ junk e shift start length = none := by
  unfold rolE
  rw [rangeBad hs hl h hn, if_pos rfl]

/-- The bits `0..3` holding `0b0011`, rotated by 5 = 1 mod 4, hold `0b0110`. -/
example : IsRol 1 4 5 0b00110 0b01100 := by
  refine ⟨?_, ?_⟩
  · intro j hj; interval_cases j <;> decide
  · intro k hk
    rcases hk with hk | hk
    · interval_cases k; decide
    · rw [Nat.testBit_lt_two_pow, Nat.testBit_lt_two_pow]
      · exact lt_of_lt_of_le (by norm_num : 0b00110 < 2 ^ 5) (Nat.pow_le_pow_right (by norm_num) hk)
      · exact lt_of_lt_of_le (by norm_num : 0b01100 < 2 ^ 5) (Nat.pow_le_pow_right (by norm_num) hk)

/-! ## Shifts

`SetReg(.., 0)` measures its qubits and then clears them; on a basis state that is `setField .. 0`. The theorems are
about basis states (a superposed register collapses). -/

/-- Effect of a shift routine on a basis state. -/
def shiftAct (p : List ShiftOp) (i : ℕ) : ℕ :=
  p.foldl (fun i o => match o with | .gates q => act q i | .clear s l => setField s l 0 i) i

/-- C16. `LSL` multiplies the register by `2^shift`, dropping what does not fit. -/
theorem lsl_shifts (shift start len i : ℕ) :
    shiftAct (lsl shift start len) i = setField start len (field start len i * 2 ^ shift) i := by
  have hbit : ∀ k, (field start len i * 2 ^ shift).testBit k =
      (decide (shift ≤ k) && (decide (k - shift < len) && i.testBit (start + (k - shift)))) := by
    intro k
    rw [← Nat.shiftLeft_eq, Nat.testBit_shiftLeft, testBit_field]
  unfold lsl
  by_cases h0 : len = 0 ∨ shift = 0
  · rw [if_pos h0]
    rcases h0 with rfl | rfl
    · rw [setField_zero_len]; rfl
    · rw [pow_zero, mul_one, setField_field]; rfl
  rw [if_neg h0]
  by_cases h1 : shift ≥ len
  · rw [if_pos h1]
    show setField start len 0 i = _
    apply setField_congr
    rw [Nat.zero_mod, eq_comm]
    exact Nat.mod_eq_zero_of_dvd (Dvd.dvd.mul_left (pow_dvd_pow 2 h1) _)
  rw [if_neg h1]
  show setField start shift 0 (act (rol shift start len) i) = _
  have hr := act_rol shift start len i
  apply Nat.eq_of_testBit_eq
  intro k
  rw [testBit_setField, testBit_setField, hbit]
  by_cases hk1 : k < start
  · rw [if_pos hk1, if_pos hk1, hr.2 k (Or.inl hk1)]
  rw [if_neg hk1, if_neg hk1]
  by_cases hk2 : k < start + shift
  · rw [if_pos hk2, if_pos (by omega)]
    simp [show ¬ shift ≤ k - start by omega]
  rw [if_neg hk2]
  by_cases hk3 : k < start + len
  · rw [if_pos hk3]
    have := hr.1 (k - start - shift) (by omega)
    rw [Nat.mod_eq_of_lt (by omega), show start + (k - start - shift + shift) = k by omega] at this
    rw [this]
    simp [show shift ≤ k - start by omega, show k - start - shift < len by omega]
  · rw [if_neg hk3, hr.2 k (by omega)]

/-- C16. `LSR` divides the register by `2^shift`. -/
theorem lsr_shifts (shift start len i : ℕ) :
    shiftAct (lsr shift start len) i = setField start len (field start len i / 2 ^ shift) i := by
  have hbit : ∀ k, (field start len i / 2 ^ shift).testBit k =
      (decide (k + shift < len) && i.testBit (start + (k + shift))) := by
    intro k
    rw [Nat.testBit_div_two_pow, testBit_field]
  unfold lsr
  by_cases h0 : len = 0 ∨ shift = 0
  · rw [if_pos h0]
    rcases h0 with rfl | rfl
    · rw [setField_zero_len]; rfl
    · rw [pow_zero, Nat.div_one, setField_field]; rfl
  rw [if_neg h0]
  by_cases h1 : shift ≥ len
  · rw [if_pos h1]
    show setField start len 0 i = _
    rw [Nat.div_eq_of_lt (lt_of_lt_of_le (field_lt _ _ _) (Nat.pow_le_pow_right (by norm_num) h1))]
  rw [if_neg h1]
  show act (ror shift start len) (setField start shift 0 i) = _
  have hr := act_ror shift start len (setField start shift 0 i)
  apply Nat.eq_of_testBit_eq
  intro k
  rw [testBit_setField, hbit]
  by_cases hk1 : k < start
  · rw [if_pos hk1, ← hr.2 k (Or.inl hk1), testBit_setField, if_pos hk1]
  rw [if_neg hk1]
  by_cases hk3 : k < start + len
  · rw [if_pos hk3]
    have := hr.1 (k - start) (by omega)
    rw [show start + (k - start) = k by omega] at this
    rw [← this, add_mod_cases (by omega), Nat.mod_eq_of_lt (show shift < len by omega)]
    split_ifs with hc
    · rw [testBit_setField, if_neg (by omega), if_neg (by omega)]
      simp [hc]
    · rw [testBit_setField, if_neg (by omega), if_pos (by omega)]
      simp [show ¬ k - start + shift < len by omega]
  · rw [if_neg hk3, ← hr.2 k (by omega), testBit_setField, if_neg (by omega), if_neg (by omega)]

/-- `0b0110` shifted left by two in a four-qubit register at qubit 1 is `0b1000`. -/
example : shiftAct (lsl 2 1 4) 0b01101 = 0b10001 := by rw [lsl_shifts]; decide

/-- C16. The code violates "`ASR` preserves the sign bit": for every proper shift the top qubit of the register ends up
clear, whatever it was, and the next one receives the last bit shifted out. -/
theorem asr_clears_sign {shift start len : ℕ} (h0 : 0 < shift) (h1 : shift < len) (i : ℕ) :
    (shiftAct (asr shift start len) i).testBit (start + len - 1) = false ∧
    (shift + 1 < len → (shiftAct (asr shift start len) i).testBit (start + len - 2) = i.testBit (start + shift - 1)) := by
  unfold asr
  rw [if_neg (by omega), if_neg (by omega)]
  show (act [.swap (start + len - 1) (start + len - 2)] (setField (start + len - shift - 1) shift 0
    (act (ror shift start len) (act [.swap (start + len - 1) (start + len - 2)] i)))).testBit _ = false ∧ (_ →
    (act [.swap (start + len - 1) (start + len - 2)] (setField (start + len - shift - 1) shift 0
    (act (ror shift start len) (act [.swap (start + len - 1) (start + len - 2)] i)))).testBit _ = _)
  have hr := act_ror shift start len (act [.swap (start + len - 1) (start + len - 2)] i)
  constructor
  · simp only [act_cons, act_nil, Op.act] at hr ⊢
    rw [testBit_swapBits, if_pos rfl, testBit_setField, if_neg (by omega), if_pos (by omega)]
    simp
  · intro h2
    simp only [act_cons, act_nil, Op.act] at hr ⊢
    rw [testBit_swapBits, if_neg (by omega), if_pos rfl, testBit_setField, if_neg (by omega), if_neg (by omega)]
    have := hr.1 (len - 1) (by omega)
    rw [add_mod_cases (by omega), Nat.mod_eq_of_lt h1, if_neg (by omega),
      show start + (len - 1) = start + len - 1 by omega] at this
    rw [← this, testBit_swapBits, if_neg (by omega), if_neg (by omega)]
    congr 1; omega

/-- C16. `ASL` does not preserve the sign bit either: the top qubit receives the bit `shift + 1` places below it. -/
theorem asl_moves_sign {shift start len : ℕ} (h0 : 0 < shift) (h1 : shift + 1 < len) (i : ℕ) :
    (shiftAct (asl shift start len) i).testBit (start + len - 1) = i.testBit (start + len - 2 - shift) := by
  unfold asl
  rw [if_neg (by omega), if_neg (by omega)]
  show (act [.swap (start + len - 1) (start + len - 2)] (setField start shift 0
    (act (rol shift start len) (act [.swap (start + len - 1) (start + len - 2)] i)))).testBit _ = _
  have hr := act_rol shift start len (act [.swap (start + len - 1) (start + len - 2)] i)
  simp only [act_cons, act_nil, Op.act] at hr ⊢
  rw [testBit_swapBits, if_pos rfl, testBit_setField, if_neg (by omega), if_neg (by omega)]
  have := hr.1 (len - 2 - shift) (by omega)
  rw [Nat.mod_eq_of_lt (by omega), show start + (len - 2 - shift + shift) = start + len - 2 by omega,
    show start + (len - 2 - shift) = start + len - 2 - shift by omega] at this
  rw [this, testBit_swapBits, if_neg (by omega), if_neg (by omega)]

/-- Concrete witnesses: `ASR` by one of `0b10000000` gives `0b00100000`, and `ASL` by one of `0b10000000` clears the
sign. -/
theorem shift_sign_wrong : (shiftAct (asr 1 0 8) 0b10000000).testBit 7 = false ∧ (0b10000000 : ℕ).testBit 7 = true ∧
    (shiftAct (asl 1 0 8) 0b10000000).testBit 7 = false :=
  ⟨(asr_clears_sign (by norm_num) (by norm_num) _).1, by decide,
    by rw [asl_moves_sign (shift := 1) (start := 0) (len := 8) (by norm_num) (by norm_num)]; decide⟩

end Verif.Circ
