import Verif.Props.EngineSigned

/-!
# C12: multiplication, division and modular arithmetic
-/

namespace Verif.Engine

open Verif.Spec Verif.BlockFold Verif.ParFor

/-- Basis state `i` with the low half of a `2 * len`-bit product in the register and the high half in the carry
register. -/
def prodIdx (start carry len p i : ℕ) : ℕ := setField carry len (p / 2 ^ len) (setField start len p i)

theorem mulRes_eq {n k s c l i : ℕ} (hs : s + l ≤ n) (hc : c + l ≤ n) (hd : s + l ≤ c ∨ c + l ≤ s) (hn : n < 64)
    (hi : i < 2 ^ n) : mulRes n (k % 2 ^ 64) s c l i = prodIdx s c l (field s l i * k) i := by
  have hpow : 2 ^ (l + l) ∣ 2 ^ 64 := pow_dvd_pow 2 (by omega)
  have hlow : 2 ^ l ∣ 2 ^ 64 := pow_dvd_pow 2 (by omega)
  have hhm : (2 ^ l - 1) <<< l % 2 ^ 64 = (2 ^ l - 1) <<< l := by
    apply Nat.mod_eq_of_lt
    rw [Nat.shiftLeft_eq]
    calc (2 ^ l - 1) * 2 ^ l < 2 ^ l * 2 ^ l :=
          Nat.mul_lt_mul_of_pos_right (by have : 0 < 2 ^ l := by positivity
                                          omega) (by positivity)
      _ = 2 ^ (l + l) := by rw [pow_add]
      _ ≤ 2 ^ 64 := Nat.pow_le_pow_right (by norm_num) (by omega)
  have hsplit : ∀ p, (p &&& (2 ^ l - 1) <<< l) >>> l = field l l p := fun p => read_field l l p
  unfold mulRes prodIdx
  dsimp only
  rw [hhm, hsplit, read_field, mask_eq_mod, write_two hs hc hd hi (Nat.mod_lt _ (by positivity)) (field_lt _ _ _)]
  set v := field s l i with hv
  have hp : v * (k % 2 ^ 64) % 2 ^ 64 = v * k % 2 ^ 64 := by rw [Nat.mul_mod_mod]
  rw [hp]
  have e1 : setField s l (v * k % 2 ^ 64 % 2 ^ l) i = setField s l (v * k) i := by
    rw [setField_mod]; exact setField_congr (Nat.mod_mod_of_dvd _ hlow)
  rw [e1]
  apply setField_congr
  rw [Nat.mod_eq_of_lt (field_lt _ _ _)]
  unfold field
  have : v * k % 2 ^ 64 / 2 ^ l % 2 ^ l = v * k % 2 ^ 64 % 2 ^ (l + l) / 2 ^ l := by
    rw [pow_add, Nat.mod_mul_left_div_self]
  rw [this, Nat.mod_mod_of_dvd _ hpow, pow_add, Nat.mod_mul_left_div_self]

theorem prodIdx_restore {s c l p i : ℕ} (hd : s + l ≤ c ∨ c + l ≤ s) (hi : field c l i = 0) :
    setField c l 0 (setField s l (field s l i) (prodIdx s c l p i)) = i := by
  unfold prodIdx
  rw [setField_comm (s := s) (by omega), setField_setField, setField_setField, setField_field]
  have := setField_field c l i
  rwa [hi] at this

theorem prodIdx_fields {s c l p i : ℕ} (hd : s + l ≤ c ∨ c + l ≤ s) :
    field s l (prodIdx s c l p i) = p % 2 ^ l ∧ field c l (prodIdx s c l p i) = p / 2 ^ l % 2 ^ l := by
  unfold prodIdx
  rw [field_setField_disjoint (by omega), field_setField, field_setField]
  exact ⟨rfl, rfl⟩

/-- A multiplier below `2^l` does not mix up products. -/
theorem prodIdx_inj {s c l k i j : ℕ} (hd : s + l ≤ c ∨ c + l ≤ s) (hk : 0 < k) (hkl : k ≤ 2 ^ l)
    (hi : field c l i = 0) (hj : field c l j = 0)
    (hij : prodIdx s c l (field s l i * k) i = prodIdx s c l (field s l j * k) j) : i = j := by
  have hlt : ∀ x, field s l x * k < 2 ^ l * 2 ^ l := fun x =>
    lt_of_lt_of_le (Nat.mul_lt_mul_of_pos_right (field_lt s l x) hk) (Nat.mul_le_mul_left _ hkl)
  have hval : field s l i * k = field s l j * k := by
    obtain ⟨h1, h2⟩ := prodIdx_fields (i := i) (p := field s l i * k) hd
    obtain ⟨h3, h4⟩ := prodIdx_fields (i := j) (p := field s l j * k) hd
    rw [hij] at h1 h2
    have h5 := h1.symm.trans h3
    have h6 := h2.symm.trans h4
    rw [Nat.mod_eq_of_lt (Nat.div_lt_of_lt_mul (hlt i)), Nat.mod_eq_of_lt (Nat.div_lt_of_lt_mul (hlt j))] at h6
    rw [← Nat.div_add_mod (field s l i * k) (2 ^ l), h5, h6, Nat.div_add_mod]
  have hf := Nat.eq_of_mul_eq_mul_right hk hval
  rw [← prodIdx_restore hd hi (p := field s l i * k), hij, hf, prodIdx_restore hd hj]

/-- Multiplying by one changes nothing. -/
theorem prodIdx_one {s c l i : ℕ} (hi : field c l i = 0) : prodIdx s c l (field s l i * 1) i = i := by
  unfold prodIdx
  rw [Nat.mul_one, setField_field, Nat.div_eq_of_lt (field_lt _ _ _)]
  have := setField_field c l i
  rwa [hi] at this

/-- C12. `MUL` sends `|x>|0>` to `|low half of x*k>|high half of x*k>`, for every multiplier whose product with the
register fits in the two registers. -/
theorem mul_product {σ : List ℕ → List ℕ} (hσ : IsSched σ) {e : Eng} (hn : e.n < 64) {k s c l : ℕ}
    (hs : s + l ≤ e.n) (hc : c + l ≤ e.n) (hd : s + l ≤ c ∨ c + l ≤ s) (hk : 0 < k) (hkl : k ≤ 2 ^ l) :
    ∃ a, mulE σ e k s c l = some (e.reset a) ∧
      ∀ i < 2 ^ e.n, field c l i = 0 → a (prodIdx s c l (field s l i * k) i) = e.amp i := by
  unfold mulE
  rw [if_neg (by omega)]
  by_cases h1 : k = 1
  · rw [if_pos h1]
    subst h1
    exact ⟨e.amp, rfl, fun i _ hi => by rw [prodIdx_one hi]⟩
  rw [if_neg h1]
  unfold mulDivE
  rw [rangeOk hs hn, rangeOk hc hn]
  simp only [Bool.false_eq_true, if_false]
  have hout : ∀ i < 2 ^ e.n, mulRes e.n (ocl k) s c l i = prodIdx s c l (field s l i * k) i :=
    fun i hi => mulRes_eq hs hc hd hn hi
  refine ⟨_, rfl, fun i hi hfi => ?_⟩
  rw [← hout i hi]
  refine (scatter_skip hσ hc hn ?_).1 i hi hfi
  intro x hx hfx y hy hfy hxy
  rw [hout x hx, hout y hy] at hxy
  rw [prodIdx_inj hd hk hkl hfx hfy hxy]

/-- C12. `DIV` reads the amplitude back from the product. -/
theorem div_reads {σ : List ℕ → List ℕ} (hσ : IsSched σ) {e : Eng} (hn : e.n < 64) {k s c l : ℕ}
    (hs : s + l ≤ e.n) (hc : c + l ≤ e.n) (hd : s + l ≤ c ∨ c + l ≤ s) (hk : 0 < k) :
    ∃ a, divE σ e k s c l = some (e.reset a) ∧
      ∀ i < 2 ^ e.n, field c l i = 0 → a i = e.amp (prodIdx s c l (field s l i * k) i) := by
  unfold divE
  rw [if_neg (by omega)]
  by_cases h1 : k = 1
  · rw [if_pos h1]
    subst h1
    exact ⟨e.amp, rfl, fun i _ hi => by rw [prodIdx_one hi]⟩
  rw [if_neg h1]
  unfold mulDivE
  rw [rangeOk hs hn, rangeOk hc hn]
  simp only [Bool.false_eq_true, if_false, if_true]
  have hout : ∀ i < 2 ^ e.n, mulRes e.n (ocl k) s c l i = prodIdx s c l (field s l i * k) i :=
    fun i hi => mulRes_eq hs hc hd hn hi
  refine ⟨_, rfl, fun i hi hfi => ?_⟩
  rw [← hout i hi]
  refine (scatter_skip hσ hc hn (out := fun lcv => lcv)
    (val := fun lcv => e.amp (mulRes e.n (ocl k) s c l lcv)) ?_).1 i hi hfi
  intro x hx hfx y hy hfy hxy
  rw [show x = y from hxy]

/-- C12. `DIV` undoes `MUL` on states with a cleared carry register. -/
theorem div_undoes_mul {σ : List ℕ → List ℕ} (hσ : IsSched σ) {e : Eng} (hn : e.n < 64) {k s c l : ℕ}
    (hs : s + l ≤ e.n) (hc : c + l ≤ e.n) (hd : s + l ≤ c ∨ c + l ≤ s) (hk : 0 < k) (hkl : k ≤ 2 ^ l) :
    ∃ a, ((mulE σ e k s c l).bind fun e => divE σ e k s c l) = some (e.reset a) ∧
      ∀ i < 2 ^ e.n, field c l i = 0 → a i = e.amp i := by
  obtain ⟨a, h1, h2⟩ := mul_product hσ hn hs hc hd hk hkl
  obtain ⟨b, h3, h4⟩ := div_reads hσ (e := e.reset a) hn hs hc hd hk
  refine ⟨b, by rw [h1]; exact h3, fun i hi hfi => ?_⟩
  rw [h4 i hi hfi]
  exact h2 i hi hfi

/-- A multiplier too large for the registers makes two different states collide, so no operation can be right:
multiplying a one-qubit register by 4, 0 and 1 have the same product modulo 4. -/
theorem mul_large_collides : prodIdx 0 1 1 (field 0 1 0 * 4) 0 = prodIdx 0 1 1 (field 0 1 1 * 4) 1 := by decide

/-- Non-vacuity: 5 * 6 = 30 = 3 * 8 + 6 in registers `[0, 3)` and `[3, 6)`. -/
example : prodIdx 0 3 3 (field 0 3 5 * 6) 5 = 6 + 8 * 3 ∧ field 3 3 5 = 0 := by decide

/-! ## Arithmetic modulo N -/

theorem modMask_sub {N l : ℕ} (h0 : 0 < N) (hN : N ≤ 2 ^ l) (hl : l < 64) : modMask N < 2 ^ l := by
  unfold modMask
  have hp : 2 ^ l < 2 ^ 64 := Nat.pow_lt_pow_right (by norm_num) hl
  have hpos : 0 < 2 ^ l := by positivity
  by_cases h : Utils.isPowerOfTwo 64 N = true
  · rw [if_pos h]; omega
  · rw [if_neg h]
    have hne : N ≠ 2 ^ l := by
      rintro rfl
      exact h ((Utils.isPowerOfTwo_correct hp).2 ⟨l, rfl⟩)
    have : Nat.log2 N + 1 ≤ l := by
      have := (Nat.log2_lt (by omega : N ≠ 0)).2 (lt_of_le_of_ne hN hne)
      omega
    have := Nat.pow_le_pow_right (show 0 < 2 by norm_num) this
    omega

theorem modRes_eq {n : ℕ} {f : ℕ → ℕ} {N s o l i : ℕ} (ho : o + l ≤ n)
    (h0 : 0 < N) (hN : N ≤ 2 ^ l) (hn : n < 64) (hi : i < 2 ^ n) (hfi : field o l i = 0) :
    modRes n f N s o l i = setField o l (f (field s l i) % N) i := by
  have hr : f (field s l i) % N < 2 ^ l := lt_of_lt_of_le (Nat.mod_lt _ h0) hN
  have hm := modMask_sub h0 hN (by omega)
  unfold modRes
  dsimp only
  rw [read_field, Nat.or_right_comm, split_or hi, or_field hfi hr]
  intro k hk
  rw [Nat.testBit_shiftLeft] at hk
  simp only [Bool.and_eq_true, decide_eq_true_eq] at hk
  by_cases hkl : k - o < l
  · exact field_eq_zero.1 hfi k hk.1 (by omega)
  · rw [bits_ge hm hkl] at hk; simp at hk

theorem setOut_inj {o l : ℕ} {f : ℕ → ℕ} {i j : ℕ} (hi : field o l i = 0) (hj : field o l j = 0)
    (h : setField o l (f i) i = setField o l (f j) j) : i = j := by
  have := congrArg (setField o l 0) h
  rw [setField_setField, setField_setField] at this
  have h1 := setField_field o l i
  have h2 := setField_field o l j
  rw [hi] at h1; rw [hj] at h2
  rw [h1, h2] at this
  exact this

/-- The loop of `ModNOut`, forward and backward, for any kernel. -/
theorem modNOut_kernel {σ : List ℕ → List ℕ} (hσ : IsSched σ) {e : Eng} (hn : e.n < 64) (f : ℕ → ℕ) {N s o l : ℕ}
    (hs : s + l ≤ e.n) (ho : o + l ≤ e.n) (h0 : 0 < N) (hN : N ≤ 2 ^ l) :
    (∃ a, modNOutE σ e f N s o l false = some (e.reset a) ∧ ∀ i < 2 ^ e.n, field o l i = 0 →
        a (setField o l (f (field s l i) % N) i) = e.amp i) ∧
    (∃ a, modNOutE σ e f N s o l true = some (e.reset a) ∧ ∀ i < 2 ^ e.n, field o l i = 0 →
        a i = e.amp (setField o l (f (field s l i) % N) i)) := by
  have hN64 : ocl N = N := by
    unfold ocl
    exact Nat.mod_eq_of_lt (lt_of_le_of_lt hN (Nat.pow_lt_pow_right (by norm_num) (by omega)))
  have hout : ∀ i < 2 ^ e.n, field o l i = 0 → modRes e.n f N s o l i = setField o l (f (field s l i) % N) i :=
    fun i hi hfi => modRes_eq ho h0 hN hn hi hfi
  unfold modNOutE
  rw [rangeOk hs hn, rangeOk ho hn, hN64]
  simp only [Bool.false_eq_true, if_false, if_true]
  rw [if_neg (by omega), if_neg (by omega)]
  refine ⟨⟨_, rfl, fun i hi hfi => ?_⟩, ⟨_, rfl, fun i hi hfi => ?_⟩⟩
  · rw [← hout i hi hfi]
    refine (scatter_skip hσ ho hn ?_).1 i hi hfi
    intro x hx hfx y hy hfy hxy
    rw [hout x hx hfx, hout y hy hfy] at hxy
    rw [setOut_inj (f := fun i => f (field s l i) % N) hfx hfy hxy]
  · rw [← hout i hi hfi]
    refine (scatter_skip hσ ho hn (out := fun lcv => lcv)
      (val := fun lcv => e.amp (modRes e.n f N s o l lcv)) ?_).1 i hi hfi
    intro x hx hfx y hy hfy hxy
    rw [show x = y from hxy]

/-- C12. `MULModNOut` sends `|x>|0>` to `|x>|x*k mod N>`, for every modulus that fits the output register and
every multiplier below `2^(64 - length)`. -/
theorem mulModNOut_product {σ : List ℕ → List ℕ} (hσ : IsSched σ) {e : Eng} (hn : e.n < 64) {k N s o l : ℕ}
    (hs : s + l ≤ e.n) (ho : o + l ≤ e.n) (h0 : 0 < N) (hN : N ≤ 2 ^ l) (hk : k < 2 ^ (64 - l)) :
    ∃ a, mulModNOutE σ e k N s o l = some (e.reset a) ∧ ∀ i < 2 ^ e.n, field o l i = 0 →
        a (setField o l (field s l i * k % N) i) = e.amp i := by
  unfold mulModNOutE
  by_cases hk0 : k = 0
  · rw [if_pos hk0]
    refine ⟨e.amp, rfl, fun i hi hfi => ?_⟩
    rw [hk0, Nat.mul_zero, Nat.zero_mod]
    have := setField_field o l i
    rw [hfi] at this
    rw [this]
  rw [if_neg hk0]
  obtain ⟨a, h1, h2⟩ := (modNOut_kernel hσ hn (fun x => x * ocl k % 2 ^ 64) hs ho h0 hN).1
  refine ⟨a, h1, fun i hi hfi => ?_⟩
  have := h2 i hi hfi
  have hlt : field s l i * k < 2 ^ 64 := by
    calc field s l i * k < 2 ^ l * 2 ^ (64 - l) :=
          Nat.mul_lt_mul'' (field_lt s l i) hk
      _ = 2 ^ 64 := by rw [← pow_add]; congr 1; omega
  dsimp only [ocl] at this
  rw [Nat.mul_mod_mod, Nat.mod_eq_of_lt hlt] at this
  exact this

/-- C12. `IMULModNOut` undoes `MULModNOut`. -/
theorem iMulModNOut_undoes {σ : List ℕ → List ℕ} (hσ : IsSched σ) {e : Eng} (hn : e.n < 64) {k N s o l : ℕ}
    (hs : s + l ≤ e.n) (ho : o + l ≤ e.n) (h0 : 0 < N) (hN : N ≤ 2 ^ l) :
    ∃ a, ((mulModNOutE σ e k N s o l).bind fun e => iMulModNOutE σ e k N s o l) = some (e.reset a) ∧
      ∀ i < 2 ^ e.n, field o l i = 0 → a i = e.amp i := by
  unfold mulModNOutE iMulModNOutE
  by_cases hk0 : k = 0
  · rw [if_pos hk0]
    exact ⟨e.amp, by rw [Option.bind_some, if_pos hk0]; rfl, fun i _ _ => rfl⟩
  rw [if_neg hk0]
  simp only [if_neg hk0]
  obtain ⟨a, h1, h2⟩ := (modNOut_kernel hσ hn (fun x => x * ocl k % 2 ^ 64) hs ho h0 hN).1
  obtain ⟨b, h3, h4⟩ := (modNOut_kernel hσ (e := e.reset a) hn (fun x => x * ocl k % 2 ^ 64) hs ho h0 hN).2
  refine ⟨b, by rw [h1]; exact h3, fun i hi hfi => ?_⟩
  rw [h4 i hi hfi]
  exact h2 i hi hfi

/-- C12, `POWModNOut`, in full: `|x>|0>` goes to `|x>|k^x mod N>`. Missing: the power is computed modulo `2^64`
first, so this only holds when every `k^x` fits a word or `N` divides `2^64`; see `powModNOut_wrong`. `k = 1`
resets the output register instead and is not modelled. -/
theorem powModNOut_partial {σ : List ℕ → List ℕ} (hσ : IsSched σ) {e : Eng} (hn : e.n < 64) {k N s o l : ℕ}
    (hs : s + l ≤ e.n) (ho : o + l ≤ e.n) (h0 : 0 < N) (hN : N ≤ 2 ^ l) (hk1 : k ≠ 1) (hk : k < 2 ^ 64)
    (hsmall : (∀ x < 2 ^ l, k ^ x < 2 ^ 64) ∨ N ∣ 2 ^ 64) :
    ∃ a, powModNOutE σ e k N s o l = some (e.reset a) ∧ ∀ i < 2 ^ e.n, field o l i = 0 →
        a (setField o l (k ^ field s l i % N) i) = e.amp i := by
  unfold powModNOutE
  rw [if_neg hk1]
  obtain ⟨a, h1, h2⟩ := (modNOut_kernel hσ hn (fun x => Utils.intPow 64 (ocl k) x) hs ho h0 hN).1
  refine ⟨a, h1, fun i hi hfi => ?_⟩
  have := h2 i hi hfi
  have hk64 : ocl k = k := Nat.mod_eq_of_lt hk
  rw [hk64, Utils.intPow_correct 64 hk (by norm_num)] at this
  rcases hsmall with h | h
  · rw [Nat.mod_eq_of_lt (h _ (field_lt s l i))] at this; exact this
  · rw [Nat.mod_mod_of_dvd _ h] at this; exact this

/-- C12 fails for `POWModNOut`: with 6-qubit registers, `3^41 mod 5 = 3`, but the amplitude of `|41>|0>` goes to
`|41>|2>`, because `3^41` overflows 64 bits. -/
theorem powModNOut_wrong {σ : List ℕ → List ℕ} (hσ : IsSched σ) {e : Eng} (hn : e.n = 12) :
    3 ^ 41 % 5 = 3 ∧ ∃ a, powModNOutE σ e 3 5 0 6 6 = some (e.reset a) ∧ a (41 + 64 * 2) = e.amp 41 := by
  refine ⟨by norm_num, ?_⟩
  unfold powModNOutE
  rw [if_neg (by norm_num)]
  obtain ⟨a, h1, h2⟩ := (modNOut_kernel hσ (e := e) (by omega) (fun x => Utils.intPow 64 (ocl 3) x) (N := 5) (s := 0)
    (o := 6) (l := 6) (by omega) (by omega) (by norm_num) (by norm_num)).1
  refine ⟨a, h1, ?_⟩
  have := h2 41 (by rw [hn]; norm_num) (by decide)
  have hf : field 0 6 41 = 41 := by decide
  rw [hf, show ocl 3 = 3 from by unfold ocl; norm_num, Utils.intPow_correct 64 (by norm_num) (by norm_num)] at this
  rw [← this]
  congr 1

/-- Non-vacuity: `|5>|0>` with 3-qubit registers goes to `|5>|5*4 mod 7> = |5>|6>`. -/
example : setField 3 3 (field 0 3 5 * 4 % 7) 5 = 5 + 8 * 6 ∧ field 3 3 5 = 0 := by decide

end Verif.Engine
