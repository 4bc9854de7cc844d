import Verif.Props.EngineMul
import Verif.Lemmas.EngineCtrl

/-!
# C13: controlled multiplication, division and modular multiplication
-/

namespace Verif.Engine

open Verif.Spec Verif.BlockFold Verif.ParFor

theorem ctrl_or {n : ℕ} {cs : List ℕ} (hb : ∀ q ∈ cs, q < n) {x : ℕ} (hx : x < 2 ^ n) :
    x ||| Circ.ctrlMask cs < 2 ^ n ∧ AllAre true cs (x ||| Circ.ctrlMask cs) := by
  refine ⟨Nat.or_lt_two_pow hx (Circ.ctrlMask_lt hb), fun c hc => ?_⟩
  rw [Nat.testBit_or, Circ.testBit_ctrlMask]; simp [hc]

theorem field_ctrl_or {cs : List ℕ} {s l x : ℕ} (hd : ∀ c ∈ cs, c < s ∨ s + l ≤ c) :
    field s l (x ||| Circ.ctrlMask cs) = field s l x := by
  apply Nat.eq_of_testBit_eq
  intro k
  rw [testBit_field, testBit_field, Nat.testBit_or, Circ.testBit_ctrlMask]
  by_cases hk : k < l
  · have : ¬ s + k ∈ cs := fun hmem => by have := hd _ hmem; omega
    simp [this]
  · simp [hk]

/-- The state without its controls. -/
theorem exists_clear {n : ℕ} {cs : List ℕ} (hb : ∀ q ∈ cs, q < n) {i : ℕ} (hi : i < 2 ^ n) (hA : AllAre true cs i) :
    ∃ x < 2 ^ n, (∀ q ∈ cs, x.testBit q = false) ∧ x ||| Circ.ctrlMask cs = i := by
  refine ⟨i ^^^ Circ.ctrlMask cs, Nat.xor_lt_two_pow hi (Circ.ctrlMask_lt hb), ?_, ?_⟩
  · intro p hp
    rw [Nat.testBit_xor, Circ.testBit_ctrlMask, hA p hp]; simp [hp]
  · apply Nat.eq_of_testBit_eq
    intro k
    rw [Nat.testBit_or, Nat.testBit_xor, Circ.testBit_ctrlMask]
    by_cases hk : k ∈ cs
    · simp [hk, hA k hk]
    · simp [hk]

/-- Keeping the other qubits and setting the controls is the same as setting the controls first. -/
theorem other_ctrl {n m x : ℕ} {cs : List ℕ} (hb : ∀ q ∈ cs, q < n) (hm : ∀ q ∈ cs, m.testBit q = false) :
    (x &&& otherMask n (m ||| Circ.ctrlMask cs)) ||| Circ.ctrlMask cs =
      (x ||| Circ.ctrlMask cs) &&& otherMask n m := by
  apply Nat.eq_of_testBit_eq
  intro k
  rw [Nat.testBit_or, Nat.testBit_and, Nat.testBit_and, testBit_otherMask, testBit_otherMask, Nat.testBit_or,
    Nat.testBit_or, Circ.testBit_ctrlMask]
  by_cases hk : k ∈ cs
  · simp [hk, hb k hk, hm k hk]
  · simp [hk]

theorem regMask_off {s l : ℕ} {cs : List ℕ} (hd : ∀ c ∈ cs, c < s ∨ s + l ≤ c) :
    ∀ q ∈ cs, ((2 ^ l - 1) <<< s).testBit q = false := by
  intro q hq
  rw [testBit_regMask, decide_eq_false_iff_not]
  have := hd q hq; omega

theorem prodIdx_ctrl {v : Bool} {cs : List ℕ} {s c l p i : ℕ} (hds : ∀ q ∈ cs, q < s ∨ s + l ≤ q)
    (hdc : ∀ q ∈ cs, q < c ∨ c + l ≤ q) : AllAre v cs (prodIdx s c l p i) ↔ AllAre v cs i := by
  unfold prodIdx
  rw [allAre_setField hdc, allAre_setField hds]

/-- The loop of `CMUL` and `CDIV`. -/
theorem cMulDiv_kernel {σ : List ℕ → List ℕ} (hσ : IsSched σ) {e : Eng} (hn : e.n < 64) {k s c l : ℕ} {cs : List ℕ}
    (hs : s + l ≤ e.n) (hc : c + l ≤ e.n) (hd : s + l ≤ c ∨ c + l ≤ s) (hne : cs ≠ []) (hnd : cs.Nodup)
    (hb : ∀ q ∈ cs, q < e.n) (hds : ∀ q ∈ cs, q < s ∨ s + l ≤ q) (hdc : ∀ q ∈ cs, q < c ∨ c + l ≤ q) :
    (0 < k → k ≤ 2 ^ l → ∃ a, cMulDivE σ false e k s c l cs = some (e.reset a) ∧
      (∀ i < 2 ^ e.n, field c l i = 0 →
        (AllAre true cs i → a (prodIdx s c l (field s l i * k) i) = e.amp i) ∧ (¬ AllAre true cs i → a i = e.amp i)) ∧
      (∀ i, field c l i ≠ 0 → ¬ AllAre true cs i → a i = 0)) ∧
    (∃ a, cMulDivE σ true e k s c l cs = some (e.reset a) ∧
      (∀ i < 2 ^ e.n, field c l i = 0 →
        (AllAre true cs i → a i = e.amp (prodIdx s c l (field s l i * k) i)) ∧ (¬ AllAre true cs i → a i = e.amp i)) ∧
      (∀ i, field c l i ≠ 0 → ¬ AllAre true cs i → a i = 0)) := by
  have hmul : ∀ x < 2 ^ e.n,
      (((((x &&& (2 ^ l - 1) <<< s) >>> s) * ocl k % 2 ^ 64) &&& (2 ^ l - 1)) <<< s) |||
        ((((((x &&& (2 ^ l - 1) <<< s) >>> s) * ocl k % 2 ^ 64) &&& ((2 ^ l - 1) <<< l % 2 ^ 64)) >>> l) <<< c) |||
        (x &&& otherMask e.n ((2 ^ l - 1) <<< s ||| (2 ^ l - 1) <<< c ||| Circ.ctrlMask cs)) ||| Circ.ctrlMask cs =
      prodIdx s c l (field s l (x ||| Circ.ctrlMask cs) * k) (x ||| Circ.ctrlMask cs) := by
    intro x hx
    have h1 := mulRes_eq (k := k) hs hc hd hn (ctrl_or hb hx).1
    rw [← h1]
    unfold mulRes
    dsimp only
    rw [read_field, read_field, field_ctrl_or hds, Nat.or_assoc, other_ctrl hb]
    · rfl
    · intro q hq
      rw [Nat.testBit_or, regMask_off hds q hq, regMask_off hdc q hq]; rfl
  unfold cMulDivE
  rw [rangeOk hs hn, rangeOk hc hn, (Utils.throwIfBad_correct cs e.n).2 ⟨hb, hnd⟩]
  simp only [Bool.false_eq_true, if_false, if_true]
  constructor
  · intro hk hkl
    obtain ⟨h1, h2, h3⟩ := ctrl_loop hσ hn.le hc hne hnd hb hdc (old := e.amp)
      (out := fun x => (((((x &&& (2 ^ l - 1) <<< s) >>> s) * ocl k % 2 ^ 64) &&& (2 ^ l - 1)) <<< s) |||
        ((((((x &&& (2 ^ l - 1) <<< s) >>> s) * ocl k % 2 ^ 64) &&& ((2 ^ l - 1) <<< l % 2 ^ 64)) >>> l) <<< c) |||
        (x &&& otherMask e.n ((2 ^ l - 1) <<< s ||| (2 ^ l - 1) <<< c ||| Circ.ctrlMask cs)) ||| Circ.ctrlMask cs)
      (inn := fun x => x ||| Circ.ctrlMask cs)
      (by
        intro x hx hfx hxc
        rw [hmul x hx, prodIdx_ctrl hds hdc]
        exact (ctrl_or hb hx).2)
      (by
        intro x hx hfx hxc y hy hfy hyc hxy
        rw [hmul x hx, hmul y hy] at hxy
        rw [prodIdx_inj hd hk hkl (by rw [field_ctrl_or hdc]; exact hfx) (by rw [field_ctrl_or hdc]; exact hfy) hxy])
    refine ⟨_, rfl, fun i hi hfi => ⟨fun hA => ?_, fun hA => h2 i hi hfi hA⟩, h3⟩
    obtain ⟨x, hx, hxc, rfl⟩ := exists_clear hb hi hA
    rw [← hmul x hx]
    exact h1 x hx (by rw [field_ctrl_or hdc] at hfi; exact hfi) hxc
  · obtain ⟨h1, h2, h3⟩ := ctrl_loop hσ hn.le hc hne hnd hb hdc (old := e.amp)
      (inn := fun x => (((((x &&& (2 ^ l - 1) <<< s) >>> s) * ocl k % 2 ^ 64) &&& (2 ^ l - 1)) <<< s) |||
        ((((((x &&& (2 ^ l - 1) <<< s) >>> s) * ocl k % 2 ^ 64) &&& ((2 ^ l - 1) <<< l % 2 ^ 64)) >>> l) <<< c) |||
        (x &&& otherMask e.n ((2 ^ l - 1) <<< s ||| (2 ^ l - 1) <<< c ||| Circ.ctrlMask cs)) ||| Circ.ctrlMask cs)
      (out := fun x => x ||| Circ.ctrlMask cs)
      (fun x hx _ _ => (ctrl_or hb hx).2)
      (by
        intro x hx hfx hxc y hy hfy hyc hxy
        rw [hmul x hx, hmul y hy]
        rw [show x ||| Circ.ctrlMask cs = y ||| Circ.ctrlMask cs from hxy])
    refine ⟨_, rfl, fun i hi hfi => ⟨fun hA => ?_, fun hA => h2 i hi hfi hA⟩, h3⟩
    obtain ⟨x, hx, hxc, rfl⟩ := exists_clear hb hi hA
    rw [← hmul x hx]
    exact h1 x hx (by rw [field_ctrl_or hdc] at hfi; exact hfi) hxc

/-- C13. `CMUL` (by a nonzero multiplier) multiplies on the states with every control set and keeps the others, on
states with a cleared carry register. -/
theorem cmul_product {σ : List ℕ → List ℕ} (hσ : IsSched σ) (setReg0 : ℕ → ℕ → Eng → Option Eng) {e : Eng}
    (hn : e.n < 64) {k s c l : ℕ} {cs : List ℕ} (hs : s + l ≤ e.n) (hc : c + l ≤ e.n) (hd : s + l ≤ c ∨ c + l ≤ s)
    (hnd : cs.Nodup) (hb : ∀ q ∈ cs, q < e.n) (hds : ∀ q ∈ cs, q < s ∨ s + l ≤ q)
    (hdc : ∀ q ∈ cs, q < c ∨ c + l ≤ q) (hk : 0 < k) (hkl : k ≤ 2 ^ l) :
    ∃ a, cmulE σ setReg0 e k s c l cs = some (e.reset a) ∧ ∀ i < 2 ^ e.n, field c l i = 0 →
        (AllAre true cs i → a (prodIdx s c l (field s l i * k) i) = e.amp i) ∧
        (¬ AllAre true cs i → a i = e.amp i) := by
  unfold cmulE
  by_cases hne : cs = []
  · rw [if_pos hne]
    obtain ⟨a, h1, h2⟩ := mul_product hσ hn hs hc hd hk hkl
    refine ⟨a, h1, fun i hi hfi => ⟨fun _ => h2 i hi hfi, fun hA => absurd ?_ hA⟩⟩
    subst hne; simp [AllAre]
  rw [if_neg hne, if_neg (by omega)]
  by_cases h1 : k = 1
  · rw [if_pos h1]
    subst h1
    exact ⟨e.amp, rfl, fun i _ hi => ⟨fun _ => by rw [prodIdx_one hi], fun _ => rfl⟩⟩
  rw [if_neg h1]
  obtain ⟨a, h2, h3, -⟩ := (cMulDiv_kernel hσ hn hs hc hd hne hnd hb hds hdc).1 hk hkl
  exact ⟨a, h2, h3⟩

/-- C13 fails for a zero multiplier: `CMUL` then resets the register without looking at the controls. For any
`SetReg` that clears the register of a basis state, a basis state with a clear control and a nonzero register is
changed. -/
theorem cmul_zero_wrong {σ : List ℕ → List ℕ} (setReg0 : ℕ → ℕ → Eng → Option Eng)
    (hset : ∀ s l (e e' : Eng) i, s + l ≤ e.n → i < 2 ^ e.n → e.amp = Pi.single i 1 → setReg0 s l e = some e' →
      e'.amp = Pi.single (setField s l 0 i) 1)
    {e e' : Eng} {s c l i q : ℕ} (hs : s + l ≤ e.n) (hi : i < 2 ^ e.n) (he : e.amp = Pi.single i 1)
    (_hq : i.testBit q = false) (hreg : field s l i ≠ 0) (h : cmulE σ setReg0 e 0 s c l [q] = some e') :
    e'.amp ≠ e.amp := by
  unfold cmulE at h
  rw [if_neg (by simp), if_pos rfl] at h
  rw [hset s l e e' i hs hi he h, he]
  intro heq
  have h1 := congrFun heq i
  have hne : setField s l 0 i ≠ i := by
    intro hh
    apply hreg
    rw [← hh, field_setField, Nat.zero_mod]
  rw [Pi.single_eq_same, Pi.single_eq_of_ne (Ne.symm hne)] at h1
  exact zero_ne_one h1

/-- C13, `CDIV`, in full: it undoes `CMUL` on the states with every control set and keeps every state with a control
clear. Missing: the latter only holds for a cleared carry register, see `cdiv_wrong`. -/
theorem cdiv_reads_partial {σ : List ℕ → List ℕ} (hσ : IsSched σ) {e : Eng} (hn : e.n < 64) {k s c l : ℕ}
    {cs : List ℕ} (hs : s + l ≤ e.n) (hc : c + l ≤ e.n) (hd : s + l ≤ c ∨ c + l ≤ s) (hnd : cs.Nodup)
    (hb : ∀ q ∈ cs, q < e.n) (hds : ∀ q ∈ cs, q < s ∨ s + l ≤ q) (hdc : ∀ q ∈ cs, q < c ∨ c + l ≤ q) (hk : 0 < k) :
    ∃ a, cdivE σ e k s c l cs = some (e.reset a) ∧ ∀ i < 2 ^ e.n, field c l i = 0 →
        (AllAre true cs i → a i = e.amp (prodIdx s c l (field s l i * k) i)) ∧
        (¬ AllAre true cs i → a i = e.amp i) := by
  unfold cdivE
  by_cases hne : cs = []
  · rw [if_pos hne]
    obtain ⟨a, h1, h2⟩ := div_reads hσ hn hs hc hd hk
    refine ⟨a, h1, fun i hi hfi => ⟨fun _ => h2 i hi hfi, fun hA => absurd ?_ hA⟩⟩
    subst hne; simp [AllAre]
  rw [if_neg hne, if_neg (by omega)]
  by_cases h1 : k = 1
  · rw [if_pos h1]
    subst h1
    exact ⟨e.amp, rfl, fun i _ hi => ⟨fun _ => by rw [prodIdx_one hi], fun _ => rfl⟩⟩
  rw [if_neg h1]
  obtain ⟨a, h2, h3, -⟩ := (cMulDiv_kernel (k := k) hσ hn hs hc hd hne hnd hb hds hdc).2
  exact ⟨a, h2, h3⟩

/-- C13 fails for `CDIV`: every amplitude whose controls are not all set and whose carry register is not zero is
lost. -/
theorem cdiv_wrong {σ : List ℕ → List ℕ} (hσ : IsSched σ) {e : Eng} (hn : e.n < 64) {k s c l : ℕ} {cs : List ℕ}
    (hs : s + l ≤ e.n) (hc : c + l ≤ e.n) (hd : s + l ≤ c ∨ c + l ≤ s) (hne : cs ≠ []) (hnd : cs.Nodup)
    (hb : ∀ q ∈ cs, q < e.n) (hds : ∀ q ∈ cs, q < s ∨ s + l ≤ q) (hdc : ∀ q ∈ cs, q < c ∨ c + l ≤ q) (hk : 1 < k) :
    ∃ a, cdivE σ e k s c l cs = some (e.reset a) ∧
      ∀ i, field c l i ≠ 0 → ¬ AllAre true cs i → a i = 0 := by
  unfold cdivE
  rw [if_neg hne, if_neg (by omega), if_neg (by omega)]
  obtain ⟨a, h2, -, h3⟩ := (cMulDiv_kernel (k := k) hσ hn hs hc hd hne hnd hb hds hdc).2
  exact ⟨a, h2, h3⟩

/-- Non-vacuity: registers `[0, 2)` and `[2, 4)`, control 4; `cdiv_wrong` applies to `|q4 = 0, carry = 1, 0>`. -/
example : field 2 2 4 ≠ 0 ∧ ¬ AllAre true [4] 4 ∧ AllAre true [4] 18 ∧ prodIdx 0 2 2 (field 0 2 18 * 3) 18 = 22 := by
  decide

/-- C13. `CDIV` undoes `CMUL` on every state with a cleared carry register. -/
theorem cdiv_undoes_cmul {σ : List ℕ → List ℕ} (hσ : IsSched σ) (setReg0 : ℕ → ℕ → Eng → Option Eng) {e : Eng}
    (hn : e.n < 64) {k s c l : ℕ} {cs : List ℕ} (hs : s + l ≤ e.n) (hc : c + l ≤ e.n) (hd : s + l ≤ c ∨ c + l ≤ s)
    (hnd : cs.Nodup) (hb : ∀ q ∈ cs, q < e.n) (hds : ∀ q ∈ cs, q < s ∨ s + l ≤ q)
    (hdc : ∀ q ∈ cs, q < c ∨ c + l ≤ q) (hk : 0 < k) (hkl : k ≤ 2 ^ l) :
    ∃ a, ((cmulE σ setReg0 e k s c l cs).bind fun e => cdivE σ e k s c l cs) = some (e.reset a) ∧
      ∀ i < 2 ^ e.n, field c l i = 0 → a i = e.amp i := by
  obtain ⟨a, h1, h2⟩ := cmul_product hσ setReg0 hn hs hc hd hnd hb hds hdc hk hkl
  obtain ⟨b, h3, h4⟩ := cdiv_reads_partial hσ (e := e.reset a) hn hs hc hd hnd hb hds hdc hk
  refine ⟨b, by rw [h1]; exact h3, fun i hi hfi => ?_⟩
  by_cases hA : AllAre true cs i
  · rw [(h4 i hi hfi).1 hA]; exact (h2 i hi hfi).1 hA
  · rw [(h4 i hi hfi).2 hA]; exact (h2 i hi hfi).2 hA

/-! ## Modular multiplication -/

/-- The loop of the controlled modular operations. -/
theorem cModNOut_kernel {σ : List ℕ → List ℕ} (hσ : IsSched σ) {e : Eng} (hn : e.n < 64) (f : ℕ → ℕ) {N s o l : ℕ}
    {cs : List ℕ} (hs : s + l ≤ e.n) (ho : o + l ≤ e.n) (hne : cs ≠ []) (hnd : cs.Nodup)
    (hb : ∀ q ∈ cs, q < e.n) (hds : ∀ q ∈ cs, q < s ∨ s + l ≤ q) (hdo : ∀ q ∈ cs, q < o ∨ o + l ≤ q)
    (h0 : 0 < N) (hN : N ≤ 2 ^ l) :
    (∃ a, cModNOutE σ e f N s o l cs false = some (e.reset a) ∧ ∀ i < 2 ^ e.n, field o l i = 0 →
        (AllAre true cs i → a (setField o l (f (field s l i) % N) i) = e.amp i) ∧
        (¬ AllAre true cs i → a i = e.amp i)) ∧
    (∃ a, cModNOutE σ e f N s o l cs true = some (e.reset a) ∧ ∀ i < 2 ^ e.n, field o l i = 0 →
        (AllAre true cs i → a i = e.amp (setField o l (f (field s l i) % N) i)) ∧
        (¬ AllAre true cs i → a i = e.amp i)) := by
  have hN64 : ocl N = N :=
    Nat.mod_eq_of_lt (lt_of_le_of_lt hN (Nat.pow_lt_pow_right (by norm_num) (by omega)))
  have hmul : ∀ x < 2 ^ e.n, field o l x = 0 →
      (x &&& (2 ^ l - 1) <<< s) ||| ((f ((x &&& (2 ^ l - 1) <<< s) >>> s) % N) <<< o) |||
        (x &&& otherMask e.n ((2 ^ l - 1) <<< s ||| (2 ^ l - 1) <<< o ||| Circ.ctrlMask cs)) ||| Circ.ctrlMask cs =
      setField o l (f (field s l (x ||| Circ.ctrlMask cs)) % N) (x ||| Circ.ctrlMask cs) := by
    intro x hx hfx
    have hr : f (field s l x) % N < 2 ^ l := lt_of_lt_of_le (Nat.mod_lt _ h0) hN
    rw [read_field, field_ctrl_or hds, Nat.or_assoc, other_ctrl hb]
    · have hfx' : field o l (x ||| Circ.ctrlMask cs) = 0 := by rw [field_ctrl_or hdo]; exact hfx
      have hin : x &&& (2 ^ l - 1) <<< s = (x ||| Circ.ctrlMask cs) &&& (2 ^ l - 1) <<< s := by
        apply Nat.eq_of_testBit_eq
        intro k
        rw [Nat.testBit_and, Nat.testBit_and, Nat.testBit_or, Circ.testBit_ctrlMask]
        by_cases hk : k ∈ cs
        · rw [regMask_off hds k hk]; simp
        · simp [hk]
      rw [hin, Nat.or_right_comm, split_or (ctrl_or hb hx).1, or_field hfx' hr]
      intro k hk
      rw [testBit_regMask, decide_eq_true_eq] at hk
      exact field_eq_zero.1 hfx' k hk.1 hk.2
    · intro q hq
      rw [Nat.testBit_or, regMask_off hds q hq, regMask_off hdo q hq]; rfl
  unfold cModNOutE
  rw [rangeOk hs hn, rangeOk ho hn, (Utils.throwIfBad_correct cs e.n).2 ⟨hb, hnd⟩, hN64]
  simp only [Bool.false_eq_true, if_false, if_true]
  rw [if_neg (by omega), if_neg (by omega)]
  constructor
  · obtain ⟨h1, h2, h3⟩ := ctrl_loop hσ hn.le ho hne hnd hb hdo (old := e.amp)
      (out := fun x => (x &&& (2 ^ l - 1) <<< s) ||| ((f ((x &&& (2 ^ l - 1) <<< s) >>> s) % N) <<< o) |||
        (x &&& otherMask e.n ((2 ^ l - 1) <<< s ||| (2 ^ l - 1) <<< o ||| Circ.ctrlMask cs)) ||| Circ.ctrlMask cs)
      (inn := fun x => x ||| Circ.ctrlMask cs)
      (by
        intro x hx hfx hxc
        rw [hmul x hx hfx, allAre_setField hdo]
        exact (ctrl_or hb hx).2)
      (by
        intro x hx hfx hxc y hy hfy hyc hxy
        rw [hmul x hx hfx, hmul y hy hfy] at hxy
        rw [setOut_inj (f := fun i => f (field s l i) % N) (by rw [field_ctrl_or hdo]; exact hfx)
          (by rw [field_ctrl_or hdo]; exact hfy) hxy])
    refine ⟨_, rfl, fun i hi hfi => ⟨fun hA => ?_, fun hA => h2 i hi hfi hA⟩⟩
    obtain ⟨x, hx, hxc, rfl⟩ := exists_clear hb hi hA
    have hfx : field o l x = 0 := by rw [field_ctrl_or hdo] at hfi; exact hfi
    rw [← hmul x hx hfx]
    exact h1 x hx hfx hxc
  · obtain ⟨h1, h2, h3⟩ := ctrl_loop hσ hn.le ho hne hnd hb hdo (old := e.amp)
      (inn := fun x => (x &&& (2 ^ l - 1) <<< s) ||| ((f ((x &&& (2 ^ l - 1) <<< s) >>> s) % N) <<< o) |||
        (x &&& otherMask e.n ((2 ^ l - 1) <<< s ||| (2 ^ l - 1) <<< o ||| Circ.ctrlMask cs)) ||| Circ.ctrlMask cs)
      (out := fun x => x ||| Circ.ctrlMask cs)
      (fun x hx _ _ => (ctrl_or hb hx).2)
      (by
        intro x hx hfx hxc y hy hfy hyc hxy
        rw [hmul x hx hfx, hmul y hy hfy]
        rw [show x ||| Circ.ctrlMask cs = y ||| Circ.ctrlMask cs from hxy])
    refine ⟨_, rfl, fun i hi hfi => ⟨fun hA => ?_, fun hA => h2 i hi hfi hA⟩⟩
    obtain ⟨x, hx, hxc, rfl⟩ := exists_clear hb hi hA
    have hfx : field o l x = 0 := by rw [field_ctrl_or hdo] at hfi; exact hfi
    rw [← hmul x hx hfx]
    exact h1 x hx hfx hxc

/-- C13. `CMULModNOut` with at least one control (without controls it is `MULModNOut`, C12). -/
theorem cMulModNOut_product {σ : List ℕ → List ℕ} (hσ : IsSched σ) {e : Eng} (hn : e.n < 64) {k N s o l : ℕ}
    {cs : List ℕ} (hs : s + l ≤ e.n) (ho : o + l ≤ e.n) (hne : cs ≠ []) (hnd : cs.Nodup)
    (hb : ∀ q ∈ cs, q < e.n) (hds : ∀ q ∈ cs, q < s ∨ s + l ≤ q) (hdo : ∀ q ∈ cs, q < o ∨ o + l ≤ q)
    (h0 : 0 < N) (hN : N ≤ 2 ^ l) (hk : k < 2 ^ (64 - l)) :
    ∃ a, cMulModNOutE σ false e k N s o l cs = some (e.reset a) ∧ ∀ i < 2 ^ e.n, field o l i = 0 →
        (AllAre true cs i → a (setField o l (field s l i * k % N) i) = e.amp i) ∧
        (¬ AllAre true cs i → a i = e.amp i) := by
  unfold cMulModNOutE
  rw [if_neg hne]
  obtain ⟨a, h1, h2⟩ := (cModNOut_kernel hσ hn (fun x => x * ocl k % 2 ^ 64) hs ho hne hnd hb hds hdo h0 hN).1
  refine ⟨a, h1, fun i hi hfi => ⟨fun hA => ?_, (h2 i hi hfi).2⟩⟩
  have := (h2 i hi hfi).1 hA
  have hlt : field s l i * k < 2 ^ 64 := by
    calc field s l i * k < 2 ^ l * 2 ^ (64 - l) := Nat.mul_lt_mul'' (field_lt s l i) hk
      _ = 2 ^ 64 := by rw [← pow_add]; congr 1; omega
  dsimp only [ocl] at this
  rw [Nat.mul_mod_mod, Nat.mod_eq_of_lt hlt] at this
  exact this

/-- C13. `CIMULModNOut` undoes `CMULModNOut`. -/
theorem ciMulModNOut_undoes {σ : List ℕ → List ℕ} (hσ : IsSched σ) {e : Eng} (hn : e.n < 64) {k N s o l : ℕ}
    {cs : List ℕ} (hs : s + l ≤ e.n) (ho : o + l ≤ e.n) (hnd : cs.Nodup)
    (hb : ∀ q ∈ cs, q < e.n) (hds : ∀ q ∈ cs, q < s ∨ s + l ≤ q) (hdo : ∀ q ∈ cs, q < o ∨ o + l ≤ q)
    (h0 : 0 < N) (hN : N ≤ 2 ^ l) :
    ∃ a, ((cMulModNOutE σ false e k N s o l cs).bind fun e => cMulModNOutE σ true e k N s o l cs) =
      some (e.reset a) ∧ ∀ i < 2 ^ e.n, field o l i = 0 → a i = e.amp i := by
  unfold cMulModNOutE
  by_cases hne : cs = []
  · simp only [if_pos hne, if_true, Bool.false_eq_true, if_false]
    exact iMulModNOut_undoes hσ hn hs ho h0 hN
  simp only [if_neg hne]
  obtain ⟨a, h1, h2⟩ := (cModNOut_kernel hσ hn (fun x => x * ocl k % 2 ^ 64) hs ho hne hnd hb hds hdo h0 hN).1
  obtain ⟨b, h3, h4⟩ := (cModNOut_kernel hσ (e := e.reset a) hn (fun x => x * ocl k % 2 ^ 64) hs ho hne hnd hb hds hdo
    h0 hN).2
  refine ⟨b, by rw [h1]; exact h3, fun i hi hfi => ?_⟩
  by_cases hA : AllAre true cs i
  · rw [(h4 i hi hfi).1 hA]; exact (h2 i hi hfi).1 hA
  · rw [(h4 i hi hfi).2 hA]; exact (h2 i hi hfi).2 hA

end Verif.Engine
