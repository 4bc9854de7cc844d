import Verif.Lemmas.OclMul
import Verif.Props.OclArith
import Verif.Props.EngineSignedCarry

/-!
# C62: multiplication, division and modular arithmetic on an OpenCL register
-/

namespace Verif.Ocl

open Verif.Engine Verif.Utils Verif.ParFor Verif.BlockFold Verif.Spec Verif.Bits Classical

/-! ## Multiplication and division -/

/-- **C62.** The loop of `MUL` and `DIV` does what the one of the CPU engine does. -/
theorem mulx_same {R : Rt} (hR : R.Ok) {e : Eng} (hn : e.n < 64) (inverse : Bool) {k : ℕ} (hk : k < 2 ^ 64) (s c l : ℕ) :
    ∃ σ, IsSched σ ∧ mulx R inverse e k s c l = mulDivE σ inverse e k s c l := by
  by_cases h1 : isBadBitRange s l e.n = true
  · exact ⟨id, isSched_id, by rw [mulx, mulDivE, if_pos h1, if_pos h1]⟩
  by_cases h2 : isBadBitRange c l e.n = true
  · exact ⟨id, isSched_id, by rw [mulx, mulDivE, if_neg h1, if_neg h1, if_pos h2, if_pos h2]⟩
  have hs := range_of h1
  have hc := range_of h2
  obtain ⟨p1, p2, p3⟩ := parForSkip_range hc hn
  obtain ⟨σ, s1, s2⟩ := arithCall_sched hR (e.n - l) (e.n - l) p1 p2 p3
  refine ⟨σ, s1, ?_⟩
  simp only [mulx, mulDivE, if_neg h1, if_neg h2, scatter]
  refine s2 _ _ _ _ _ _ (two_pow_shiftRight (by omega)) (by simp only [bound0]; read_args; exact two_pow_shiftRight (by omega))
    fun t x hx => ?_
  simp only [mulDivStep]
  read_args
  rw [skipReg_insertAt hc hn hx]
  have : devMulRes k ((2 ^ l - 1) <<< s) (otherMask e.n ((2 ^ l - 1) <<< s ||| (2 ^ l - 1) <<< c)) l s c (insertAt c l 0 x) =
      mulRes e.n (ocl k) s c l (insertAt c l 0 x) := by
    rw [ocl, Nat.mod_eq_of_lt hk]; rfl
  rw [this]
  cases inverse <;> rfl

/-- The loop of `MULDIV` of the CPU engine, for every multiplier, also one. -/
theorem mulDiv_kernel {σ : List ℕ → List ℕ} (hσ : IsSched σ) {e : Eng} (hn : e.n < 64) {k s c l : ℕ} (hs : s + l ≤ e.n)
    (hc : c + l ≤ e.n) (hd : s + l ≤ c ∨ c + l ≤ s) :
    (0 < k → k ≤ 2 ^ l → ∃ a, mulDivE σ false e k s c l = some (e.reset a) ∧
      (∀ i < 2 ^ e.n, field c l i = 0 → a (prodIdx s c l (field s l i * k) i) = e.amp i) ∧
      ∀ j, (∀ i < 2 ^ e.n, field c l i = 0 → prodIdx s c l (field s l i * k) i ≠ j) → a j = 0) ∧
    (∃ a, mulDivE σ true e k s c l = some (e.reset a) ∧
      ∀ i < 2 ^ e.n, field c l i = 0 → a i = e.amp (prodIdx s c l (field s l i * k) i)) := by
  have hout : ∀ i < 2 ^ e.n, mulRes e.n (ocl k) s c l i = prodIdx s c l (field s l i * k) i :=
    fun i hi => mulRes_eq hs hc hd hn hi
  unfold mulDivE
  rw [rangeOk hs hn, rangeOk hc hn]
  simp only [Bool.false_eq_true, if_false, if_true]
  constructor
  · intro hk hkl
    have hsc := scatter_skip hσ hc hn (init := fun _ => (0 : ℂ)) (out := mulRes e.n (ocl k) s c l) (val := e.amp) (by
      intro x hx hfx y hy hfy hxy
      rw [hout x hx, hout y hy] at hxy
      rw [prodIdx_inj hd hk hkl hfx hfy hxy])
    refine ⟨_, rfl, fun i hi hfi => ?_, fun j hj => ?_⟩
    · rw [← hout i hi]; exact hsc.1 i hi hfi
    · exact hsc.2 j fun i hi hfi => by rw [hout i hi]; exact hj i hi hfi
  · refine ⟨_, rfl, fun i hi hfi => ?_⟩
    rw [← hout i hi]
    refine (scatter_skip hσ hc hn (out := fun lcv => lcv)
      (val := fun lcv => e.amp (mulRes e.n (ocl k) s c l lcv)) ?_).1 i hi hfi
    intro x hx hfx y hy hfy hxy
    rw [show x = y from hxy]

theorem ocl_mask {k l : ℕ} (hl : l ≤ 64) : ocl k &&& (2 ^ l - 1) = k % 2 ^ l := by
  rw [mask_eq_mod, ocl, Nat.mod_mod_of_dvd _ (pow_dvd_pow 2 hl)]

theorem pow_lt_word {k l : ℕ} (hl : l ≤ 64) (hk : k < 2 ^ l) : k < 2 ^ 64 :=
  lt_of_lt_of_le hk (Nat.pow_le_pow_right (by norm_num) hl)

/-- **C62, partial.** `MUL` on an OpenCL register multiplies, into the register and the carry register. Missing: multipliers that
do not fit the register (the CPU engine allows `2^l`, and any other that it multiplies modulo `2^(2*l)`): they are
reduced first, see `mul_reduces`, `mul_wrong`. -/
theorem mul_product_partial {R : Rt} (hR : R.Ok) (setReg : ℕ → ℕ → ℕ → Eng → Option Eng) {e : Eng} (hn : e.n < 64) {k s c l : ℕ}
    (hs : s + l ≤ e.n) (hc : c + l ≤ e.n) (hd : s + l ≤ c ∨ c + l ≤ s) (hk : 0 < k) (hkl : k < 2 ^ l) :
    ∃ a, mul R setReg e k s c l = some (e.reset a) ∧
      ∀ i < 2 ^ e.n, field c l i = 0 → a (prodIdx s c l (field s l i * k) i) = e.amp i := by
  unfold mul
  rw [ocl_mask (by omega), Nat.mod_eq_of_lt hkl]
  simp only [if_neg (by omega : ¬ k = 0)]
  obtain ⟨σ, h1, h2⟩ := mulx_same hR hn false (pow_lt_word (by omega : l ≤ 64) hkl) s c l
  obtain ⟨a, h3, h4, -⟩ := (mulDiv_kernel h1 hn hs hc hd).1 hk hkl.le
  exact ⟨a, h2.trans h3, h4⟩

/-- `MUL` reduces the multiplier to the width of the register before multiplying. -/
theorem mul_reduces (R : Rt) (setReg : ℕ → ℕ → ℕ → Eng → Option Eng) (e : Eng) {k s c l : ℕ} (hl : l ≤ 64) :
    mul R setReg e k s c l = mul R setReg e (k % 2 ^ l) s c l := by
  unfold mul
  rw [ocl_mask hl, ocl_mask hl, Nat.mod_mod]

/-- **C62.** `DIV` on an OpenCL register reads the amplitudes back from the product. -/
theorem div_reads {R : Rt} (hR : R.Ok) {e : Eng} (hn : e.n < 64) {k s c l : ℕ} (hs : s + l ≤ e.n) (hc : c + l ≤ e.n)
    (hd : s + l ≤ c ∨ c + l ≤ s) (hk : 0 < k) (hk64 : k < 2 ^ 64) :
    ∃ a, div R e k s c l = some (e.reset a) ∧
      ∀ i < 2 ^ e.n, field c l i = 0 → a i = e.amp (prodIdx s c l (field s l i * k) i) := by
  unfold div
  rw [ocl, Nat.mod_eq_of_lt hk64, if_neg (by omega)]
  obtain ⟨σ, h1, h2⟩ := mulx_same hR hn true hk64 s c l
  obtain ⟨a, h3, h4⟩ := (mulDiv_kernel h1 hn hs hc hd).2
  exact ⟨a, h2.trans h3, h4⟩

/-- **C62, partial.** `DIV` undoes `MUL` on an OpenCL register. Missing: multipliers that do not fit the register, see `mul_wrong`. -/
theorem div_undoes_mul_partial {R : Rt} (hR : R.Ok) (setReg : ℕ → ℕ → ℕ → Eng → Option Eng) {e : Eng} (hn : e.n < 64)
    {k s c l : ℕ} (hs : s + l ≤ e.n) (hc : c + l ≤ e.n) (hd : s + l ≤ c ∨ c + l ≤ s) (hk : 0 < k) (hkl : k < 2 ^ l) :
    ∃ a, ((mul R setReg e k s c l).bind fun e => div R e k s c l) = some (e.reset a) ∧
      ∀ i < 2 ^ e.n, field c l i = 0 → a i = e.amp i := by
  obtain ⟨a, h1, h2⟩ := mul_product_partial hR setReg hn hs hc hd hk hkl
  obtain ⟨b, h3, h4⟩ := div_reads hR (e := e.reset a) hn hs hc hd hk (pow_lt_word (by omega : l ≤ 64) hkl)
  refine ⟨b, by rw [h1]; exact h3, fun i hi hfi => ?_⟩
  rw [h4 i hi hfi]
  exact h2 i hi hfi

/-- **C62, negation.** Multiplying a one-qubit register by 3: `1 * 3` is 3, one in the register and one in the carry register, but
`MUL` leaves the state `1` as it is; and `DIV` by 3 afterwards loses its amplitude. -/
theorem mul_wrong {R : Rt} (hR : R.Ok) (setReg : ℕ → ℕ → ℕ → Eng → Option Eng) {e : Eng} (hn : e.n = 2) :
    prodIdx 0 1 1 (field 0 1 1 * 3) 1 = 3 ∧
    (∃ a, mul R setReg e 3 0 1 1 = some (e.reset a) ∧ a 1 = e.amp 1 ∧ a 3 = 0) ∧
    ∃ b, ((mul R setReg e 3 0 1 1).bind fun e => div R e 3 0 1 1) = some (e.reset b) ∧ b 1 = 0 := by
  have key : ∃ a, mul R setReg e 3 0 1 1 = some (e.reset a) ∧ a 1 = e.amp 1 ∧ a 3 = 0 := by
    rw [mul_reduces R setReg e (by norm_num)]
    unfold mul
    rw [ocl_mask (by norm_num)]
    norm_num only
    obtain ⟨σ, h1, h2⟩ := mulx_same hR (e := e) (by omega) false (k := 1) (by norm_num) 0 1 1
    obtain ⟨a, h3, h4, h5⟩ := (mulDiv_kernel h1 (e := e) (s := 0) (c := 1) (l := 1) (k := 1) (by omega) (by omega) (by omega)
      (by omega)).1 (by norm_num) (by norm_num)
    refine ⟨a, h2.trans h3, h4 1 (by rw [hn]; norm_num) (by decide), h5 3 fun i hi hfi => ?_⟩
    rw [hn] at hi
    have : i < 4 := by simpa using hi
    interval_cases i <;> revert hfi <;> decide
  refine ⟨by decide, key, ?_⟩
  obtain ⟨a, h1, h2, h3⟩ := key
  obtain ⟨b, h4, h5⟩ := div_reads hR (e := e.reset a) (k := 3) (s := 0) (c := 1) (l := 1) (by show e.n < 64; omega)
    (by show 0 + 1 ≤ e.n; omega) (by show 1 + 1 ≤ e.n; omega) (by omega) (by norm_num) (by norm_num)
  refine ⟨b, by rw [h1]; exact h4, ?_⟩
  rw [h5 1 (by show 1 < 2 ^ e.n; rw [hn]; norm_num) (by decide)]
  exact h3

/-- **C62, negation.** Multiplying by `2^l` should move the register into the carry register; `MUL` clears it instead
(`SetReg`, a measurement). -/
theorem mul_clears (R : Rt) (setReg : ℕ → ℕ → ℕ → Eng → Option Eng) (e : Eng) {s c l : ℕ} (hl : l ≤ 64) :
    mul R setReg e (2 ^ l) s c l = setReg s l 0 e := by
  unfold mul
  rw [ocl_mask hl, Nat.mod_self]
  simp

/-! ## Modular multiplication and powers -/

/-- **C62.** The loop of `MULModNOut` and `IMULModNOut` does what the one of the CPU engine does. -/
theorem mulModx_same {R : Rt} (hR : R.Ok) {e : Eng} (hn : e.n < 64) (inverse : Bool) {k : ℕ} (hk0 : k ≠ 0) (N s o l : ℕ) :
    ∃ σ, IsSched σ ∧ mulModx R (modnStep inverse) e k (ocl N) s o l =
      modNOutE σ e (fun x => x * k % 2 ^ 64) N s o l inverse := by
  by_cases h1 : isBadBitRange s l e.n = true
  · exact ⟨id, isSched_id, by rw [mulModx, modNOutE, if_pos h1, if_pos h1]⟩
  by_cases h2 : isBadBitRange o l e.n = true
  · exact ⟨id, isSched_id, by rw [mulModx, modNOutE, if_neg h1, if_neg h1, if_pos h2, if_pos h2]⟩
  by_cases h3 : ocl N = 0
  · exact ⟨id, isSched_id, by
      rw [mulModx, modNOutE, if_neg h1, if_neg h1, if_neg h2, if_neg h2, if_neg hk0, if_pos h3, if_pos h3]⟩
  have hs := range_of h1
  have hc := range_of h2
  obtain ⟨p1, p2, p3⟩ := parForSkip_range hc hn
  obtain ⟨σ, s1, s2⟩ := arithCall_sched hR (e.n - l) (e.n - l) p1 p2 p3
  refine ⟨σ, s1, ?_⟩
  simp only [mulModx, modNOutE, if_neg h1, if_neg h2, if_neg h3, if_neg hk0, scatter]
  refine s2 _ _ _ _ _ _ (two_pow_shiftRight (by omega)) (by simp only [bound0]; read_args; exact two_pow_shiftRight (by omega))
    fun t x hx => ?_
  simp only [modnStep]
  read_args
  rw [skipReg_insertAt hc hn hx]
  cases inverse <;> rfl

/-- **C62.** The loop of `POWModNOut` does what the one of the CPU engine does. -/
theorem powModx_same {R : Rt} (hR : R.Ok) {e : Eng} (hn : e.n < 64) {k : ℕ} (hk0 : k ≠ 0) (hk : k < 2 ^ 64) (N s o l : ℕ) :
    ∃ σ, IsSched σ ∧ mulModx R powmodnStep e k (ocl N) s o l =
      modNOutE σ e (fun x => intPow 64 (ocl k) x) N s o l false := by
  by_cases h1 : isBadBitRange s l e.n = true
  · exact ⟨id, isSched_id, by rw [mulModx, modNOutE, if_pos h1, if_pos h1]⟩
  by_cases h2 : isBadBitRange o l e.n = true
  · exact ⟨id, isSched_id, by rw [mulModx, modNOutE, if_neg h1, if_neg h1, if_pos h2, if_pos h2]⟩
  by_cases h3 : ocl N = 0
  · exact ⟨id, isSched_id, by
      rw [mulModx, modNOutE, if_neg h1, if_neg h1, if_neg h2, if_neg h2, if_neg hk0, if_pos h3, if_pos h3]⟩
  have hs := range_of h1
  have hc := range_of h2
  obtain ⟨p1, p2, p3⟩ := parForSkip_range hc hn
  obtain ⟨σ, s1, s2⟩ := arithCall_sched hR (e.n - l) (e.n - l) p1 p2 p3
  refine ⟨σ, s1, ?_⟩
  simp only [mulModx, modNOutE, if_neg h1, if_neg h2, if_neg h3, if_neg hk0, scatter]
  refine s2 _ _ _ _ _ _ (two_pow_shiftRight (by omega)) (by simp only [bound0]; read_args; exact two_pow_shiftRight (by omega))
    fun t x hx => ?_
  simp only [powmodnStep]
  read_args
  rw [skipReg_insertAt hc hn hx]
  simp only [modRes, ocl, Nat.mod_eq_of_lt hk, devPow_eq hk, intPow_correct 64 hk (by norm_num)]
  rfl

/-- **C62.** `MULModNOut` on an OpenCL register, as on the CPU engine for every multiplier below `2^(64 - length)`. -/
theorem mulModNOut_product {R : Rt} (hR : R.Ok) {e : Eng} (hn : e.n < 64) {k N s o l : ℕ} (hs : s + l ≤ e.n)
    (ho : o + l ≤ e.n) (h0 : 0 < N) (hN : N ≤ 2 ^ l) (hk : k < 2 ^ (64 - l)) :
    ∃ a, mulModNOut R e k N s o l = some (e.reset a) ∧ ∀ i < 2 ^ e.n, field o l i = 0 →
        a (setField o l (field s l i * k % N) i) = e.amp i := by
  have hk64 : ocl k = k := Nat.mod_eq_of_lt (pow_lt_word (by omega) hk)
  by_cases hk0 : k = 0
  · subst hk0
    refine ⟨e.amp, ?_, fun i _ hfi => ?_⟩
    · rw [mulModNOut, mulModx, rangeOk hs hn, rangeOk ho hn]
      simp [ocl]
      rfl
    · rw [Nat.mul_zero, Nat.zero_mod]
      have := setField_field o l i
      rw [hfi] at this
      rw [this]
  · obtain ⟨σ, h1, h2⟩ := mulModx_same hR hn false hk0 N s o l
    obtain ⟨a, h3, h4⟩ := Engine.mulModNOut_product h1 hn hs ho h0 hN hk
    refine ⟨a, ?_, h4⟩
    rw [mulModNOut, hk64, h2, ← h3, mulModNOutE, if_neg hk0, hk64]

/-- **C62.** `IMULModNOut` undoes `MULModNOut` on an OpenCL register. -/
theorem iMulModNOut_undoes {R : Rt} (hR : R.Ok) {e : Eng} (hn : e.n < 64) {k N s o l : ℕ} (hs : s + l ≤ e.n)
    (ho : o + l ≤ e.n) (h0 : 0 < N) (hN : N ≤ 2 ^ l) :
    ∃ a, ((mulModNOut R e k N s o l).bind fun e => iMulModNOut R e k N s o l) = some (e.reset a) ∧
      ∀ i < 2 ^ e.n, field o l i = 0 → a i = e.amp i := by
  by_cases hk0 : ocl k = 0
  · refine ⟨e.amp, ?_, fun i _ _ => rfl⟩
    rw [mulModNOut, mulModx, rangeOk hs hn, rangeOk ho hn]
    simp only [Bool.false_eq_true, if_false, if_pos hk0, Option.bind_some]
    rw [iMulModNOut, mulModx, rangeOk hs hn, rangeOk ho hn]
    simp only [Bool.false_eq_true, if_false, if_pos hk0]
    rfl
  · obtain ⟨σ, h1, h2⟩ := mulModx_same hR hn false hk0 N s o l
    obtain ⟨a, h3, h4⟩ := (modNOut_kernel h1 hn (fun x => x * ocl k % 2 ^ 64) hs ho h0 hN).1
    obtain ⟨σ', k1, k2⟩ := mulModx_same hR (e := e.reset a) hn true hk0 N s o l
    obtain ⟨b, k3, k4⟩ := (modNOut_kernel k1 (e := e.reset a) hn (fun x => x * ocl k % 2 ^ 64) hs ho h0 hN).2
    refine ⟨b, ?_, fun i hi hfi => ?_⟩
    · rw [mulModNOut, h2, h3]
      exact k2.trans k3
    · rw [k4 i hi hfi]; exact h4 i hi hfi

/-- **C62, partial.** `POWModNOut` on an OpenCL register. Missing: as on the CPU engine, powers beyond 64 bits
(`powModNOut_wraps`); and the base zero (`powModNOut_zero`). -/
theorem powModNOut_partial {R : Rt} (hR : R.Ok) (setReg : ℕ → ℕ → ℕ → Eng → Option Eng) {e : Eng} (hn : e.n < 64)
    {k N s o l : ℕ} (hs : s + l ≤ e.n) (ho : o + l ≤ e.n) (h0 : 0 < N) (hN : N ≤ 2 ^ l) (hk1 : 1 < k) (hk : k < 2 ^ 64)
    (hsmall : (∀ x < 2 ^ l, k ^ x < 2 ^ 64) ∨ N ∣ 2 ^ 64) :
    ∃ a, powModNOut R setReg e k N s o l = some (e.reset a) ∧ ∀ i < 2 ^ e.n, field o l i = 0 →
        a (setField o l (k ^ field s l i % N) i) = e.amp i := by
  have hk64 : ocl k = k := Nat.mod_eq_of_lt hk
  obtain ⟨σ, h1, h2⟩ := powModx_same hR hn (by omega) hk N s o l
  obtain ⟨a, h3, h4⟩ := Engine.powModNOut_partial h1 hn hs ho h0 hN (by omega) hk hsmall
  refine ⟨a, ?_, h4⟩
  rw [powModNOut, hk64, if_neg (by omega), h2, ← h3, powModNOutE, if_neg (by omega)]

/-- **C62, negation.** `POWModNOut` wraps at 64 bits: with registers of six qubits, `3^41` is 3 modulo 5, but the amplitude of
`|41>|0>` goes to `|41>|2>`. -/
theorem powModNOut_wraps {R : Rt} (hR : R.Ok) (setReg : ℕ → ℕ → ℕ → Eng → Option Eng) {e : Eng} (hn : e.n = 12) :
    3 ^ 41 % 5 = 3 ∧ ∃ a, powModNOut R setReg e 3 5 0 6 6 = some (e.reset a) ∧ a (41 + 64 * 2) = e.amp 41 := by
  obtain ⟨σ, h1, h2⟩ := powModx_same hR (e := e) (by omega) (k := 3) (by norm_num) (by norm_num) 5 0 6 6
  obtain ⟨h0, a, h3, h4⟩ := powModNOut_wrong h1 hn
  refine ⟨h0, a, ?_, h4⟩
  have hk64 : ocl 3 = 3 := by norm_num [ocl]
  rw [powModNOut, hk64, if_neg (by omega), h2, ← h3, powModNOutE, if_neg (by omega)]

/-- **C62, negation.** `POWModNOut` with base zero does nothing, though `0^0 = 1`: the amplitude of `|0>|0>` should go to
`|0>|1 mod N>`. -/
theorem powModNOut_zero {R : Rt} (setReg : ℕ → ℕ → ℕ → Eng → Option Eng) {e : Eng} (hn : e.n < 64) {N s o l : ℕ}
    (hs : s + l ≤ e.n) (ho : o + l ≤ e.n) (h1 : 1 < N) (hN : N ≤ 2 ^ l) :
    powModNOut R setReg e 0 N s o l = some e ∧ setField o l (0 ^ field s l 0 % N) 0 ≠ 0 := by
  constructor
  · rw [powModNOut, mulModx, rangeOk hs hn, rangeOk ho hn]
    simp [ocl]
  · intro hc
    have h2 := congrArg (field o l) hc
    rw [field_setField] at h2
    have h3 : ∀ a b, field a b 0 = 0 := by intro a b; simp [field]
    rw [h3, h3, pow_zero, Nat.mod_eq_of_lt h1, Nat.mod_eq_of_lt (by omega)] at h2
    omega

/-! ## Controlled multiplication -/

/-- **C62, partial.** The loop of `CMUL` and `CDIV` does what the one of the CPU engine does, if the words after the array of sorted
powers happen to be the powers of the controls (with one control they are not used). Missing: any other contents of those
words, see `cmul_wrong`. -/
theorem cmulx_same_partial {R : Rt} (hR : R.Ok) {e : Eng} (hn : e.n < 64) (inverse : Bool) {junk : ℕ → ℕ} {k : ℕ}
    (hk : k < 2 ^ 64) {s c l : ℕ} {cs : List ℕ} (hne : cs ≠ []) (hd : ∀ q ∈ cs, q < c ∨ c + l ≤ q)
    (hj : 2 ≤ cs.length → ∀ k < cs.length, junk k = 2 ^ cs.getD k 0) :
    ∃ σ, IsSched σ ∧ cmulx R junk inverse e k s c l cs = cMulDivE σ inverse e k s c l cs := by
  by_cases h1 : isBadBitRange s l e.n = true
  · exact ⟨id, isSched_id, by rw [cmulx, cMulDivE, if_pos h1, if_pos h1]⟩
  by_cases h2 : isBadBitRange c l e.n = true
  · exact ⟨id, isSched_id, by rw [cmulx, cMulDivE, if_neg h1, if_neg h1, if_pos h2, if_pos h2]⟩
  by_cases h3 : throwIfBad cs e.n = true
  · exact ⟨id, isSched_id, by
      rw [cmulx, cMulDivE, if_neg h1, if_neg h1, if_neg h2, if_neg h2, if_pos h3, if_pos h3]⟩
  have hs := range_of h1
  have hc := range_of h2
  obtain ⟨hb, hnd⟩ := controls_of h3
  have hb' : ∀ p ∈ cs ++ (List.range l).map (c + ·), p < e.n := by
    intro p hp
    rcases List.mem_append.1 hp with hp | hp
    · exact hb p hp
    · obtain ⟨x, hx, rfl⟩ := List.mem_map.1 hp
      have := List.mem_range.1 hx
      omega
  obtain ⟨p1, p2, p3, p4, p5⟩ := sortedPows_range (skipList_nodup hnd hd) hb' hn
  have hlen : (cs ++ (List.range l).map (c + ·)).length = cs.length + l := by simp
  rw [hlen] at p2 p3 p4 p5
  rw [← skipPows_map] at p1 p3 p5
  obtain ⟨σ, s1, s2⟩ := arithCall_sched hR (e.n - (cs.length + l)) (e.n - (cs.length + l)) p1 p2 p3
  refine ⟨σ, s1, ?_⟩
  simp only [cmulx, cMulDivE, if_neg h1, if_neg h2, if_neg h3]
  refine s2 _ _ _ _ _ _ (two_pow_shiftRight p4) (by simp only [bound0]; read_args; exact two_pow_shiftRight p4)
    fun t x hx => ?_
  simp only [cmulDivStep]
  read_args
  rw [p5 (ctrlBuf cs c l junk) (fun i hi => by simp [ctrlBuf, hi]) x hx]
  generalize insAll ((cs ++ (List.range l).map (c + ·)).mergeSort (· ≤ ·)) x = i
  rw [← finish_same (s := c) (l := l) (junk := junk) hne hj]
  have hk' : ocl k = k := Nat.mod_eq_of_lt hk
  rw [hk']
  cases inverse <;> rfl

/-- **C62, negation.** With zeros after the array, and two or more controls, `CMUL` and `CDIV` lose every amplitude of which some, but
not all controls are set. -/
theorem cmul_wrong {R : Rt} (hR : R.Ok) {e : Eng} (hn : e.n < 64) (inverse : Bool) {k s c l i : ℕ} {cs : List ℕ}
    (hs : s + l ≤ e.n) (hc : c + l ≤ e.n) (hnd : cs.Nodup) (hb : ∀ q ∈ cs, q < e.n) (hds : ∀ q ∈ cs, q < s ∨ s + l ≤ q)
    (hdc : ∀ q ∈ cs, q < c ∨ c + l ≤ q) (hsome : ∃ q ∈ cs, i.testBit q = true) (hnot : ¬ AllAre true cs i) :
    ∃ a, cmulx R (fun _ => 0) inverse e k s c l cs = some (e.reset a) ∧ a i = 0 := by
  have hb' : ∀ p ∈ cs ++ (List.range l).map (c + ·), p < e.n := by
    intro p hp
    rcases List.mem_append.1 hp with hp | hp
    · exact hb p hp
    · obtain ⟨x, hx, rfl⟩ := List.mem_map.1 hp
      have := List.mem_range.1 hx
      omega
  have hnd' := skipList_nodup hnd hdc
  obtain ⟨p1, p2, p3, p4, p5⟩ := sortedPows_range hnd' hb' hn
  have hlen : (cs ++ (List.range l).map (c + ·)).length = cs.length + l := by simp
  rw [hlen] at p2 p3 p4 p5
  obtain ⟨σ, s1, s2⟩ := arithCall_sched hR (e.n - (cs.length + l)) (e.n - (cs.length + l)) p1 p2 p3
  unfold cmulx
  rw [rangeOk hs hn, rangeOk hc hn, (throwIfBad_correct cs e.n).2 ⟨hb, hnd⟩]
  simp only [Bool.false_eq_true, if_false]
  refine ⟨_, s2 _ _ _ _ _ (fun t x => cmodFinish (ctrlBuf cs c l fun _ => 0) cs.length l x e.amp
    (if inverse then Function.update t (x ||| Circ.ctrlMask cs) (e.amp (devMulRes k ((2 ^ l - 1) <<< s)
        (otherMask e.n ((2 ^ l - 1) <<< s ||| (2 ^ l - 1) <<< c ||| Circ.ctrlMask cs)) l s c x ||| Circ.ctrlMask cs))
      else Function.update t (devMulRes k ((2 ^ l - 1) <<< s)
        (otherMask e.n ((2 ^ l - 1) <<< s ||| (2 ^ l - 1) <<< c ||| Circ.ctrlMask cs)) l s c x ||| Circ.ctrlMask cs)
        (e.amp (x ||| Circ.ctrlMask cs)))) (two_pow_shiftRight p4)
    (by simp only [bound0]; read_args; exact two_pow_shiftRight p4) fun t x hx => ?_, ?_⟩
  · simp only [cmulDivStep]
    read_args
    rw [p5 (ctrlBuf cs c l fun _ => 0) (fun i hi => by simp [ctrlBuf, hi, skipPows_map]) x hx]
    rfl
  · refine fold_skip _ _ fun x hx t => ?_
    have hx' := (s1 _).mem_iff.1 hx
    rw [sortPows_map, (parForMask_visits (w := 64) (sorted_lt_of_nodup hnd') (fun p hp => hb' p (mem_sort.1 hp)) hn.le).2] at hx'
    obtain ⟨q, hq, hqi⟩ := hsome
    have hne : i ≠ x := by
      rintro rfl
      have := hx'.2 q (mem_sort.2 (List.mem_append_left _ hq))
      rw [this] at hqi
      cases hqi
    have hnall : ∀ y, i ≠ y ||| Circ.ctrlMask cs := by
      rintro y rfl
      apply hnot
      intro q hq
      rw [Nat.testBit_or, Circ.testBit_ctrlMask]
      simp [hq]
    show cmodFinish _ _ _ _ _ _ i = t i
    rw [finish_zero hne]
    cases inverse
    · simp only [Bool.false_eq_true, if_false]
      rw [Function.update_of_ne (hnall _)]
    · simp only [if_true]
      rw [Function.update_of_ne (hnall _)]

/-- **C62, partial.** `CMUL` on an OpenCL register multiplies where all controls are set. Missing: multipliers that do not fit the
register, and the words after the array, as in `cmulx_same_partial`. -/
theorem cmul_product_partial {R : Rt} (hR : R.Ok) {junk : ℕ → ℕ} (setReg : ℕ → ℕ → ℕ → Eng → Option Eng) {e : Eng}
    (hn : e.n < 64) {k s c l : ℕ} {cs : List ℕ} (hs : s + l ≤ e.n) (hc : c + l ≤ e.n) (hd : s + l ≤ c ∨ c + l ≤ s)
    (hnd : cs.Nodup) (hb : ∀ q ∈ cs, q < e.n) (hds : ∀ q ∈ cs, q < s ∨ s + l ≤ q) (hdc : ∀ q ∈ cs, q < c ∨ c + l ≤ q)
    (hj : 2 ≤ cs.length → ∀ k < cs.length, junk k = 2 ^ cs.getD k 0) (hk : 0 < k) (hkl : k < 2 ^ l) :
    ∃ a, cmul R junk setReg e k s c l cs = some (e.reset a) ∧ ∀ i < 2 ^ e.n, field c l i = 0 →
        (AllAre true cs i → a (prodIdx s c l (field s l i * k) i) = e.amp i) ∧ (¬ AllAre true cs i → a i = e.amp i) := by
  unfold cmul
  by_cases hne : cs = []
  · rw [if_pos hne]
    obtain ⟨a, h1, h2⟩ := mul_product_partial hR setReg hn hs hc hd hk hkl
    refine ⟨a, h1, fun i hi hfi => ⟨fun _ => h2 i hi hfi, fun hA => absurd ?_ hA⟩⟩
    subst hne
    intro q hq
    simp at hq
  · rw [if_neg hne, ocl_mask (by omega), Nat.mod_eq_of_lt hkl]
    by_cases h1 : k = 1
    · subst h1
      exact ⟨e.amp, rfl, fun i _ hfi => ⟨fun _ => by rw [prodIdx_one hfi], fun _ => rfl⟩⟩
    · simp only [if_neg h1]
      obtain ⟨σ, h2, h3⟩ := cmulx_same_partial hR hn false (pow_lt_word (by omega : l ≤ 64) hkl) (s := s) hne hdc hj
      obtain ⟨a, h4, h5, -⟩ := (cMulDiv_kernel h2 hn hs hc hd hne hnd hb hds hdc).1 hk hkl.le
      exact ⟨a, h3.trans h4, h5⟩

/-- **C62, partial.** `CDIV` on an OpenCL register reads the amplitudes back from the product where all controls are set. Missing: as on
the CPU engine, states with a carry register that is not zero; and the words after the array. -/
theorem cdiv_reads_partial {R : Rt} (hR : R.Ok) {junk : ℕ → ℕ} {e : Eng}
    (hn : e.n < 64) {k s c l : ℕ} {cs : List ℕ} (hs : s + l ≤ e.n) (hc : c + l ≤ e.n) (hd : s + l ≤ c ∨ c + l ≤ s)
    (hnd : cs.Nodup) (hb : ∀ q ∈ cs, q < e.n) (hds : ∀ q ∈ cs, q < s ∨ s + l ≤ q) (hdc : ∀ q ∈ cs, q < c ∨ c + l ≤ q)
    (hj : 2 ≤ cs.length → ∀ k < cs.length, junk k = 2 ^ cs.getD k 0) (hk : 0 < k) (hk64 : k < 2 ^ 64) :
    ∃ a, cdiv R junk e k s c l cs = some (e.reset a) ∧ ∀ i < 2 ^ e.n, field c l i = 0 →
        (AllAre true cs i → a i = e.amp (prodIdx s c l (field s l i * k) i)) ∧ (¬ AllAre true cs i → a i = e.amp i) := by
  unfold cdiv
  have hk' : ocl k = k := Nat.mod_eq_of_lt hk64
  by_cases hne : cs = []
  · rw [if_pos hne]
    obtain ⟨a, h1, h2⟩ := div_reads hR hn hs hc hd hk hk64
    refine ⟨a, h1, fun i hi hfi => ⟨fun _ => h2 i hi hfi, fun hA => absurd ?_ hA⟩⟩
    subst hne
    intro q hq
    simp at hq
  · rw [if_neg hne, hk', if_neg (by omega)]
    by_cases h1 : k = 1
    · subst h1
      exact ⟨e.amp, rfl, fun i _ hfi => ⟨fun _ => by rw [prodIdx_one hfi], fun _ => rfl⟩⟩
    · simp only [if_neg h1]
      obtain ⟨σ, h2, h3⟩ := cmulx_same_partial hR hn true hk64 (s := s) hne hdc hj
      obtain ⟨a, h4, h5, -⟩ := (cMulDiv_kernel h2 hn hs hc hd hne hnd hb hds hdc).2
      exact ⟨a, h3.trans h4, h5⟩

/-- **C62, partial.** `CDIV` undoes `CMUL` on an OpenCL register. Missing: as in `cmul_product_partial`. -/
theorem cdiv_undoes_cmul_partial {R : Rt} (hR : R.Ok) {junk : ℕ → ℕ} (setReg : ℕ → ℕ → ℕ → Eng → Option Eng) {e : Eng}
    (hn : e.n < 64) {k s c l : ℕ} {cs : List ℕ} (hs : s + l ≤ e.n) (hc : c + l ≤ e.n) (hd : s + l ≤ c ∨ c + l ≤ s)
    (hnd : cs.Nodup) (hb : ∀ q ∈ cs, q < e.n) (hds : ∀ q ∈ cs, q < s ∨ s + l ≤ q) (hdc : ∀ q ∈ cs, q < c ∨ c + l ≤ q)
    (hj : 2 ≤ cs.length → ∀ k < cs.length, junk k = 2 ^ cs.getD k 0) (hk : 0 < k) (hkl : k < 2 ^ l) :
    ∃ a, ((cmul R junk setReg e k s c l cs).bind fun e => cdiv R junk e k s c l cs) = some (e.reset a) ∧
      ∀ i < 2 ^ e.n, field c l i = 0 → a i = e.amp i := by
  obtain ⟨a, h1, h2⟩ := cmul_product_partial hR setReg hn hs hc hd hnd hb hds hdc hj hk hkl
  obtain ⟨b, h3, h4⟩ := cdiv_reads_partial hR (e := e.reset a) hn hs hc hd hnd hb hds hdc hj hk
    (pow_lt_word (by omega : l ≤ 64) hkl)
  refine ⟨b, by rw [h1]; exact h3, fun i hi hfi => ?_⟩
  by_cases hA : AllAre true cs i
  · rw [(h4 i hi hfi).1 hA]; exact (h2 i hi hfi).1 hA
  · rw [(h4 i hi hfi).2 hA]; exact (h2 i hi hfi).2 hA

/-- **C62, partial.** The loop of the controlled modular operations does what the one of the CPU engine does. Missing: as in
`cmulx_same_partial`. -/
theorem cmulModx_same_partial {R : Rt} (hR : R.Ok) {e : Eng} (hn : e.n < 64) {junk : ℕ → ℕ} {k : ℕ} (N : ℕ)
    {s o l : ℕ} {cs : List ℕ} (hne : cs ≠ []) (hd : ∀ q ∈ cs, q < o ∨ o + l ≤ q)
    (hj : 2 ≤ cs.length → ∀ k < cs.length, junk k = 2 ^ cs.getD k 0) :
    (∀ inverse, ∃ σ, IsSched σ ∧ cmulModx R junk (cmodnStep inverse) e k (ocl N) s o l cs =
      cModNOutE σ e (fun x => x * k % 2 ^ 64) N s o l cs inverse) ∧
    (k < 2 ^ 64 → ∃ σ, IsSched σ ∧ cmulModx R junk cpowmodnStep e k (ocl N) s o l cs =
      cModNOutE σ e (fun x => intPow 64 (ocl k) x) N s o l cs false) := by
  by_cases h1 : isBadBitRange s l e.n = true
  · exact ⟨fun _ => ⟨id, isSched_id, by rw [cmulModx, cModNOutE, if_pos h1, if_pos h1]⟩,
      fun _ => ⟨id, isSched_id, by rw [cmulModx, cModNOutE, if_pos h1, if_pos h1]⟩⟩
  by_cases h2 : isBadBitRange o l e.n = true
  · exact ⟨fun _ => ⟨id, isSched_id, by rw [cmulModx, cModNOutE, if_neg h1, if_neg h1, if_pos h2, if_pos h2]⟩,
      fun _ => ⟨id, isSched_id, by rw [cmulModx, cModNOutE, if_neg h1, if_neg h1, if_pos h2, if_pos h2]⟩⟩
  by_cases h3 : throwIfBad cs e.n = true
  · exact ⟨fun _ => ⟨id, isSched_id, by
      rw [cmulModx, cModNOutE, if_neg h1, if_neg h1, if_neg h2, if_neg h2, if_pos h3, if_pos h3]⟩,
      fun _ => ⟨id, isSched_id, by
      rw [cmulModx, cModNOutE, if_neg h1, if_neg h1, if_neg h2, if_neg h2, if_pos h3, if_pos h3]⟩⟩
  by_cases h4 : ocl N = 0
  · exact ⟨fun _ => ⟨id, isSched_id, by
      rw [cmulModx, cModNOutE, if_neg h1, if_neg h1, if_neg h2, if_neg h2, if_neg h3, if_neg h3, if_pos h4, if_pos h4]⟩,
      fun _ => ⟨id, isSched_id, by
      rw [cmulModx, cModNOutE, if_neg h1, if_neg h1, if_neg h2, if_neg h2, if_neg h3, if_neg h3, if_pos h4, if_pos h4]⟩⟩
  have hs := range_of h1
  have hc := range_of h2
  obtain ⟨hb, hnd⟩ := controls_of h3
  have hb' : ∀ p ∈ cs ++ (List.range l).map (o + ·), p < e.n := by
    intro p hp
    rcases List.mem_append.1 hp with hp | hp
    · exact hb p hp
    · obtain ⟨x, hx, rfl⟩ := List.mem_map.1 hp
      have := List.mem_range.1 hx
      omega
  obtain ⟨p1, p2, p3, p4, p5⟩ := sortedPows_range (skipList_nodup hnd hd) hb' hn
  have hlen : (cs ++ (List.range l).map (o + ·)).length = cs.length + l := by simp
  rw [hlen] at p2 p3 p4 p5
  rw [← skipPows_map] at p1 p3 p5
  obtain ⟨σ, s1, s2⟩ := arithCall_sched hR (e.n - (cs.length + l)) e.n p1 p2 p3
  refine ⟨fun inverse => ⟨σ, s1, ?_⟩, fun hk => ⟨σ, s1, ?_⟩⟩
  · simp only [cmulModx, cModNOutE, if_neg h1, if_neg h2, if_neg h3, if_neg h4]
    refine s2 _ _ _ _ _ _ rfl (by simp only [boundCmod]; read_args; exact two_pow_shiftRight p4) fun t x hx => ?_
    simp only [cmodnStep, devModMask]
    read_args
    rw [p5 (ctrlBuf cs o l junk) (fun i hi => by simp [ctrlBuf, hi]) x hx]
    generalize insAll ((cs ++ (List.range l).map (o + ·)).mergeSort (· ≤ ·)) x = i
    rw [← finish_same (s := o) (l := l) (junk := junk) hne hj]
    cases inverse <;> rfl
  · simp only [cmulModx, cModNOutE, if_neg h1, if_neg h2, if_neg h3, if_neg h4]
    refine s2 _ _ _ _ _ _ rfl (by simp only [boundCmod]; read_args; exact two_pow_shiftRight p4) fun t x hx => ?_
    simp only [cpowmodnStep, devModMask]
    read_args
    rw [p5 (ctrlBuf cs o l junk) (fun i hi => by simp [ctrlBuf, hi]) x hx]
    generalize insAll ((cs ++ (List.range l).map (o + ·)).mergeSort (· ≤ ·)) x = i
    rw [← finish_same (s := o) (l := l) (junk := junk) hne hj]
    have hk' : ocl k = k := Nat.mod_eq_of_lt hk
    simp only [hk', devPow_eq hk, intPow_correct 64 hk (by norm_num)]
    rfl

/-- **C62, partial.** `CMULModNOut` on an OpenCL register. Missing: multipliers that do not fit the register, which are reduced modulo
`2^length`, see `cMulModNOut_wrong`; and the words after the array. -/
theorem cMulModNOut_product_partial {R : Rt} (hR : R.Ok) {junk : ℕ → ℕ} {e : Eng} (hn : e.n < 64) {k N s o l : ℕ}
    {cs : List ℕ} (hs : s + l ≤ e.n) (ho : o + l ≤ e.n) (hne : cs ≠ []) (hnd : cs.Nodup)
    (hb : ∀ q ∈ cs, q < e.n) (hds : ∀ q ∈ cs, q < s ∨ s + l ≤ q) (hdo : ∀ q ∈ cs, q < o ∨ o + l ≤ q)
    (hj : 2 ≤ cs.length → ∀ k < cs.length, junk k = 2 ^ cs.getD k 0) (h0 : 0 < N) (hN : N ≤ 2 ^ l) (hk : k < 2 ^ l)
    (hl : 2 * l ≤ 64) :
    ∃ a, cMulModNOut R junk false e k N s o l cs = some (e.reset a) ∧ ∀ i < 2 ^ e.n, field o l i = 0 →
        (AllAre true cs i → a (setField o l (field s l i * k % N) i) = e.amp i) ∧
        (¬ AllAre true cs i → a i = e.amp i) := by
  unfold cMulModNOut
  rw [if_neg hne, ocl_mask (by omega), Nat.mod_eq_of_lt hk]
  have hk' : ocl k = k := Nat.mod_eq_of_lt (pow_lt_word (by omega : l ≤ 64) hk)
  by_cases hk0 : k = 0
  · subst hk0
    refine ⟨e.amp, rfl, fun i _ hfi => ⟨fun _ => ?_, fun _ => rfl⟩⟩
    rw [Nat.mul_zero, Nat.zero_mod]
    have := setField_field o l i
    rw [hfi] at this
    rw [this]
  · simp only [if_neg hk0]
    obtain ⟨σ, h1, h2⟩ := (cmulModx_same_partial hR hn (k := k) N (s := s) hne hdo hj).1 false
    obtain ⟨a, h3, h4⟩ := Engine.cMulModNOut_product h1 hn hs ho hne hnd hb hds hdo h0 hN
      (lt_of_lt_of_le hk (Nat.pow_le_pow_right (by norm_num) (by omega)))
    refine ⟨a, ?_, h4⟩
    rw [h2, ← h3, cMulModNOutE, if_neg hne, hk']

/-- **C62, partial.** `CIMULModNOut` undoes `CMULModNOut` on an OpenCL register, for every multiplier. Missing: the words after
the array. -/
theorem ciMulModNOut_undoes_partial {R : Rt} (hR : R.Ok) {junk : ℕ → ℕ} {e : Eng} (hn : e.n < 64) {k N s o l : ℕ}
    {cs : List ℕ} (hs : s + l ≤ e.n) (ho : o + l ≤ e.n) (hnd : cs.Nodup)
    (hb : ∀ q ∈ cs, q < e.n) (hds : ∀ q ∈ cs, q < s ∨ s + l ≤ q) (hdo : ∀ q ∈ cs, q < o ∨ o + l ≤ q)
    (hj : 2 ≤ cs.length → ∀ k < cs.length, junk k = 2 ^ cs.getD k 0) (h0 : 0 < N) (hN : N ≤ 2 ^ l) :
    ∃ a, ((cMulModNOut R junk false e k N s o l cs).bind fun e => cMulModNOut R junk true e k N s o l cs) =
      some (e.reset a) ∧ ∀ i < 2 ^ e.n, field o l i = 0 → a i = e.amp i := by
  unfold cMulModNOut
  by_cases hne : cs = []
  · simp only [if_pos hne, if_true, Bool.false_eq_true, if_false]
    exact iMulModNOut_undoes hR hn hs ho h0 hN
  simp only [if_neg hne]
  by_cases hk0 : ocl k &&& (2 ^ l - 1) = 0
  · simp only [if_pos hk0, Option.bind_some]
    exact ⟨e.amp, rfl, fun i _ _ => rfl⟩
  · simp only [if_neg hk0]
    obtain ⟨σ, h1, h2⟩ := (cmulModx_same_partial hR hn (k := ocl k &&& (2 ^ l - 1)) N (s := s) hne hdo hj).1 false
    obtain ⟨a, h3, h4⟩ := (cModNOut_kernel h1 hn (fun x => x * (ocl k &&& (2 ^ l - 1)) % 2 ^ 64) hs ho hne hnd hb hds hdo h0 hN).1
    obtain ⟨σ', k1, k2⟩ := (cmulModx_same_partial hR (e := e.reset a) hn (k := ocl k &&& (2 ^ l - 1)) N (s := s) hne hdo hj).1 true
    obtain ⟨b, k3, k4⟩ := (cModNOut_kernel k1 (e := e.reset a) hn (fun x => x * (ocl k &&& (2 ^ l - 1)) % 2 ^ 64) hs ho hne hnd
      hb hds hdo h0 hN).2
    refine ⟨b, by rw [h2, h3]; exact k2.trans k3, fun i hi hfi => ?_⟩
    by_cases hA : AllAre true cs i
    · rw [(k4 i hi hfi).1 hA]; exact (h4 i hi hfi).1 hA
    · rw [(k4 i hi hfi).2 hA]; exact (h4 i hi hfi).2 hA

/-- **C62, negation.** `CMULModNOut` by 5 modulo 3 with registers of two qubits: `1 * 5` is 2 modulo 3, but the multiplier is reduced
to 1 first, and the amplitude of `|1>|0>` with the control set goes to `|1>|1>`. -/
theorem cMulModNOut_wrong {R : Rt} (hR : R.Ok) (junk : ℕ → ℕ) {e : Eng} (hn : e.n = 5) :
    field 0 2 17 = 1 ∧ field 2 2 17 = 0 ∧ AllAre true [4] 17 ∧ setField 2 2 (1 * 5 % 3) 17 = 25 ∧
    ∃ a, cMulModNOut R junk false e 5 3 0 2 2 [4] = some (e.reset a) ∧ a 21 = e.amp 17 := by
  refine ⟨by decide, by decide, by decide, by decide, ?_⟩
  have h5 : cMulModNOut R junk false e 5 3 0 2 2 [4] = cMulModNOut R junk false e 1 3 0 2 2 [4] := by
    unfold cMulModNOut
    rw [ocl_mask (by norm_num), ocl_mask (by norm_num)]
    rfl
  rw [h5]
  obtain ⟨a, h1, h2⟩ := cMulModNOut_product_partial hR (junk := junk) (e := e) (by omega) (k := 1) (N := 3) (s := 0) (o := 2)
    (l := 2) (cs := [4]) (by omega) (by omega) (by simp) (by simp) (by simp [hn]) (by simp) (by simp) (by simp) (by norm_num)
    (by norm_num) (by norm_num) (by norm_num)
  refine ⟨a, h1, ?_⟩
  have := (h2 17 (by rw [hn]; norm_num) (by decide)).1 (by decide)
  rw [← this]
  congr 1

/-- **C62, partial.** `CPOWModNOut` on an OpenCL register. Missing: powers beyond 64 bits, as without controls; and the words after
the array. -/
theorem cPowModNOut_partial {R : Rt} (hR : R.Ok) {junk : ℕ → ℕ} (setReg : ℕ → ℕ → ℕ → Eng → Option Eng) {e : Eng}
    (hn : e.n < 64) {k N s o l : ℕ} {cs : List ℕ} (hs : s + l ≤ e.n) (ho : o + l ≤ e.n) (hne : cs ≠ []) (hnd : cs.Nodup)
    (hb : ∀ q ∈ cs, q < e.n) (hds : ∀ q ∈ cs, q < s ∨ s + l ≤ q) (hdo : ∀ q ∈ cs, q < o ∨ o + l ≤ q)
    (hj : 2 ≤ cs.length → ∀ k < cs.length, junk k = 2 ^ cs.getD k 0) (h0 : 0 < N) (hN : N ≤ 2 ^ l) (hk : k < 2 ^ 64)
    (hsmall : (∀ x < 2 ^ l, k ^ x < 2 ^ 64) ∨ N ∣ 2 ^ 64) :
    ∃ a, cPowModNOut R junk setReg e k N s o l cs = some (e.reset a) ∧ ∀ i < 2 ^ e.n, field o l i = 0 →
        (AllAre true cs i → a (setField o l (k ^ field s l i % N) i) = e.amp i) ∧
        (¬ AllAre true cs i → a i = e.amp i) := by
  have hk' : ocl k = k := Nat.mod_eq_of_lt hk
  obtain ⟨σ, h1, h2⟩ := (cmulModx_same_partial hR hn (k := k) N (s := s) hne hdo hj).2 hk
  obtain ⟨a, h3, h4⟩ := Engine.cPowModNOut_partial h1 hn hs ho hne hnd hb hds hdo h0 hN hk hsmall
  refine ⟨a, ?_, h4⟩
  rw [cPowModNOut, if_neg hne, hk', h2, ← h3, cPowModNOutE, if_neg hne]

/-! ## Examples -/

/-- A device with groups of 32 of its 64 items, that runs them in reverse. -/
example : (⟨⟨64, 32⟩, List.reverse, List.reverse, ⟨fun _ => 7, fun _ => 5, fun _ => 3⟩⟩ : Rt).Ok :=
  ⟨⟨by norm_num, 5, by norm_num⟩, fun l => List.reverse_perm l, fun l => List.reverse_perm l⟩

/-- `5 * 6 = 30 = 3 * 8 + 6` in registers `[0, 3)` and `[3, 6)`; the multiplier fits the register. -/
example : prodIdx 0 3 3 (field 0 3 5 * 6) 5 = 6 + 8 * 3 ∧ field 3 3 5 = 0 ∧ 6 < 2 ^ 3 := by decide

/-- `5 * 6 = 2` modulo 7, and `3^5 = 5` modulo 7; all powers `3^x`, `x < 8`, fit a word. -/
example : setField 3 3 (field 0 3 5 * 6 % 7) 5 = 5 + 8 * 2 ∧ setField 3 3 (3 ^ field 0 3 5 % 7) 5 = 5 + 8 * 5 ∧
    ∀ x < 2 ^ 3, 3 ^ x < 2 ^ 64 := by decide

/-- Registers `[0, 2)` and `[2, 4)`, controls 5 and 4; the words after the array are the powers of the controls, or zero. The state
with only control 5 set and `2` in the register is lost in the second case, though its carry register is clear. -/
example : ([5, 4] : List ℕ).Nodup ∧ (∀ q ∈ ([5, 4] : List ℕ), q < 6) ∧ (∀ q ∈ ([5, 4] : List ℕ), q < 2 ∨ 2 + 2 ≤ q) ∧
    (∀ k < ([5, 4] : List ℕ).length, (fun k => if k = 0 then 32 else 16) k = 2 ^ ([5, 4] : List ℕ).getD k 0) ∧
    AllAre true [5, 4] 50 ∧ prodIdx 0 2 2 (field 0 2 50 * 3) 50 = 48 + 4 + 2 ∧
    (∃ q ∈ ([5, 4] : List ℕ), (34 : ℕ).testBit q = true) ∧ ¬ AllAre true [5, 4] 34 ∧ field 2 2 34 = 0 := by decide

end Verif.Ocl
