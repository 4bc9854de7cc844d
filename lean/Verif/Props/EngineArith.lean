import Verif.Lemmas.EngineArith
import Verif.Props.GateAdd

/-!
# C08, C09, C18: increments of the state vector engine

`field s l i` is the value held by the qubits `[s, s+l)` of the basis state `i`; `setField s l v i` is `i` with that
register replaced by `v` modulo `2^l` (`Verif/Spec/Field.lean`).
-/

namespace Verif.Engine

open Verif.Spec Verif.BlockFold Verif.ParFor

/-- The operation succeeds, only replaces the state vector, and sends the amplitude of each basis state `i` to
the basis state `T i`. -/
def Sends (e : Eng) (r : Option Eng) (T : ℕ → ℕ) : Prop :=
  ∃ a, r = some (e.reset a) ∧ ∀ i < 2 ^ e.n, a (T i) = e.amp i

/-- C08. `INC` sends each basis state to the one whose register is increased modulo `2^length`; all other
qubits stay. -/
theorem inc_adds {σ : List ℕ → List ℕ} (hσ : IsSched σ) (junk : ℕ → ℂ) {e : Eng} (hn : e.n < 64)
    {toAdd start length : ℕ} (h : start + length ≤ e.n) :
    Sends e (incE σ junk e toAdd start length)
      (fun i => setField start length (field start length i + toAdd) i) := by
  unfold incE
  rw [rangeOk h hn]
  simp only [Bool.false_eq_true, if_false]
  by_cases hl : length = 0
  · rw [if_pos hl]
    refine ⟨e.amp, rfl, fun i _ => ?_⟩
    subst hl; dsimp only; rw [setField_zero_len]
  rw [if_neg hl]
  have hmask : ocl toAdd &&& (2 ^ length - 1) = toAdd % 2 ^ length := by
    rw [mask_eq_mod, ocl, Nat.mod_mod_of_dvd _ (pow_dvd_pow 2 (by omega))]
  rw [hmask]
  by_cases hz : toAdd % 2 ^ length = 0
  · rw [if_pos hz]
    refine ⟨e.amp, rfl, fun i _ => ?_⟩
    have : setField start length (field start length i + toAdd) i = i := by
      rw [setField_congr (w := field start length i), setField_field]
      rw [Nat.add_mod, hz, Nat.add_zero, Nat.mod_mod]
    dsimp only; rw [this]
  rw [if_neg hz]
  have hpl : 2 ^ length ≤ 2 ^ 63 := Nat.pow_le_pow_right (by norm_num) (by omega)
  have hout : ∀ i < 2 ^ e.n,
      (((((i &&& (2 ^ length - 1) <<< start) >>> start + toAdd % 2 ^ length) % 2 ^ 64) &&& (2 ^ length - 1)) <<< start
        ||| (i &&& otherMask e.n ((2 ^ length - 1) <<< start))) =
      setField start length (field start length i + toAdd) i := by
    intro i hi
    rw [read_field, mask_eq_mod, write_field h hi (Nat.mod_lt _ (by positivity)), setField_mod]
    apply setField_congr
    rw [Nat.mod_mod_of_dvd _ (pow_dvd_pow 2 (by omega)), Nat.add_mod_mod]
  exact ⟨_, rfl, fun i hi => scatter_all_as hσ hout (fun i _ j _ hij => addField_inj hij) hi⟩

/-- C08. The basis states are permuted: different states have different images, and every state is an image. -/
theorem inc_permutes {n start length toAdd : ℕ} (h : start + length ≤ n) :
    (∀ i < 2 ^ n, setField start length (field start length i + toAdd) i < 2 ^ n) ∧
    (∀ i j, setField start length (field start length i + toAdd) i =
      setField start length (field start length j + toAdd) j → i = j) ∧
    ∀ j < 2 ^ n, ∃ i < 2 ^ n, setField start length (field start length i + toAdd) i = j := by
  refine ⟨fun i hi => setField_lt h hi, fun i j hij => addField_inj hij, fun j hj => ?_⟩
  refine ⟨setField start length (field start length j + (2 ^ length - toAdd % 2 ^ length)) j, setField_lt h hj, ?_⟩
  rw [setField_add_add, setField_congr (w := field start length j), setField_field]
  have hlt := Nat.mod_lt toAdd (show 0 < 2 ^ length by positivity)
  have : (2 ^ length - toAdd % 2 ^ length + toAdd) % 2 ^ length = 0 := by
    rw [← Nat.add_mod_mod, Nat.sub_add_cancel hlt.le, Nat.mod_self]
  rw [Nat.add_mod, this, Nat.add_zero, Nat.mod_mod]

/-- C08. `DEC` subtracts: it sends each basis state to the one whose register, increased by `toSub`, gives
back the old one. -/
theorem dec_subtracts {σ : List ℕ → List ℕ} (hσ : IsSched σ) (junk : ℕ → ℂ) {e : Eng} (hn : e.n < 64)
    {toSub start length : ℕ} (hs : toSub < 2 ^ 128) (h : start + length ≤ e.n) :
    ∃ a, decE σ junk e toSub start length = some (e.reset a) ∧ ∀ i < 2 ^ e.n,
      a i = e.amp (setField start length (field start length i + toSub) i) := by
  obtain ⟨a, h1, h2⟩ := inc_adds hσ junk hn (toAdd := Circ.negAddend toSub length) h
  refine ⟨a, h1, fun i hi => ?_⟩
  have := h2 _ (setField_lt (v := field start length i + toSub) h hi)
  dsimp only at this
  rw [setField_add_add, setField_congr (w := field start length i), setField_field] at this
  · exact this
  · rw [Nat.add_mod, Circ.add_negAddend (by omega) hs, Nat.add_zero, Nat.mod_mod]

/-- C08. `DEC` undoes `INC` exactly, on every state. -/
theorem dec_undoes_inc {σ : List ℕ → List ℕ} (hσ : IsSched σ) (junk junk' : ℕ → ℂ) {e : Eng} (hn : e.n < 64)
    {k start length : ℕ} (hs : k < 2 ^ 128) (h : start + length ≤ e.n) :
    ∃ a, ((incE σ junk e k start length).bind fun e => decE σ junk' e k start length) = some (e.reset a) ∧
      ∀ i < 2 ^ e.n, a i = e.amp i := by
  obtain ⟨a, h1, h2⟩ := inc_adds hσ junk hn (toAdd := k) h
  obtain ⟨b, h3, h4⟩ := dec_subtracts hσ junk' (e := e.reset a) hn (toSub := k) hs h
  refine ⟨b, ?_, fun i hi => ?_⟩
  · rw [h1]; exact h3
  · rw [h4 i hi]; exact h2 i hi

/-- C08. A register that does not fit is refused. -/
theorem inc_invalid (σ : List ℕ → List ℕ) (junk : ℕ → ℂ) {e : Eng} (hn : e.n < 64)
    {toAdd start length : ℕ} (hs : start < 2 ^ 8) (hl : length < 2 ^ 8) (h : ¬ start + length ≤ e.n) :
    incE σ junk e toAdd start length = none := by
  unfold incE
  rw [rangeBad hs hl h hn, if_pos rfl]

/-- Non-vacuity: in a 5-qubit state, adding 11 to the 3-qubit register `[1, 4)` holding 6 gives 1. -/
example : setField 1 3 (field 1 3 29 + 11) 29 = 19 ∧ field 1 3 29 = 6 ∧ field 1 3 19 = 1 := by decide

/-! ## C18 -/

/-- C18. The gate-level `INC` and the engine's direct `INC` leave the same amplitudes. -/
theorem inc_gates_eq {σ σ' : List ℕ → List ℕ} (hσ : IsSched σ) (hσ' : IsSched σ') (junk : ℕ → ℂ) {e : Eng}
    (he : Circ.Exact e) (hn : e.n < 64) {toAdd start length : ℕ} (h : start + length ≤ e.n) :
    ∃ e1 e2, Circ.run σ (Circ.inc toAdd start length) e = some e1 ∧ incE σ' junk e toAdd start length = some e2 ∧
      ∀ i < 2 ^ e.n, e1.amp i = e2.amp i := by
  obtain ⟨a, h1, h2⟩ := inc_adds hσ' junk hn (toAdd := toAdd) h
  obtain ⟨e1, h3, h4, h5⟩ := Circ.inc_gates_add hσ he (toAdd := toAdd) h
  refine ⟨e1, _, h3, h1, fun j hj => ?_⟩
  obtain ⟨i, hi, rfl⟩ := (inc_permutes (toAdd := toAdd) h).2.2 j hj
  rw [h5 i hi]
  exact (h2 i hi).symm

/-! ## C09 -/

/-- The basis state with the register increased when every control is set. -/
def cAddIdx (cs : List ℕ) (start length toAdd i : ℕ) : ℕ :=
  if AllAre true cs i then setField start length (field start length i + toAdd) i else i

theorem allAre_setField {v : Bool} {cs : List ℕ} {s l x i : ℕ} (h : ∀ c ∈ cs, c < s ∨ s + l ≤ c) :
    AllAre v cs (setField s l x i) ↔ AllAre v cs i := by
  unfold AllAre
  refine forall₂_congr fun c hc => ?_
  rw [testBit_setField]
  rcases h c hc with h | h
  · rw [if_pos h]
  · rw [if_neg (by omega), if_neg (by omega)]

/-- C09. `CINC` adds on exactly the basis states whose controls are all set, and keeps every other one. -/
theorem cinc_adds {σ : List ℕ → List ℕ} (hσ : IsSched σ) (junk : ℕ → ℂ) {e : Eng} (hn : e.n < 64)
    {toAdd start length : ℕ} {cs : List ℕ} (h : start + length ≤ e.n) (hnd : cs.Nodup) (hb : ∀ c ∈ cs, c < e.n)
    (hd : ∀ c ∈ cs, c < start ∨ start + length ≤ c) :
    Sends e (cincE σ junk e toAdd start length cs) (cAddIdx cs start length toAdd) := by
  unfold cincE
  by_cases hc0 : cs = []
  · rw [if_pos hc0]
    obtain ⟨a, h1, h2⟩ := inc_adds hσ junk hn (toAdd := toAdd) h
    refine ⟨a, h1, fun i hi => ?_⟩
    unfold cAddIdx
    rw [if_pos (by subst hc0; simp [AllAre])]
    exact h2 i hi
  rw [if_neg hc0, rangeOk h hn, (Utils.throwIfBad_correct cs e.n).2 ⟨hb, hnd⟩]
  simp only [Bool.false_eq_true, if_false]
  by_cases hl : length = 0
  · rw [if_pos hl]
    refine ⟨e.amp, rfl, fun i _ => ?_⟩
    subst hl; unfold cAddIdx; rw [setField_zero_len, ite_self]
  rw [if_neg hl]
  have hmask : ocl toAdd &&& (2 ^ length - 1) = toAdd % 2 ^ length := by
    rw [mask_eq_mod, ocl, Nat.mod_mod_of_dvd _ (pow_dvd_pow 2 (by omega))]
  rw [hmask]
  by_cases hz : toAdd % 2 ^ length = 0
  · rw [if_pos hz]
    refine ⟨e.amp, rfl, fun i _ => ?_⟩
    have : setField start length (field start length i + toAdd) i = i := by
      rw [setField_congr (w := field start length i), setField_field]
      rw [Nat.add_mod, hz, Nat.add_zero, Nat.mod_mod]
    unfold cAddIdx; rw [this, ite_self]
  rw [if_neg hz]
  refine ⟨_, rfl, fun i hi => ?_⟩
  obtain ⟨-, hm⟩ := mem_maskPlan hσ hnd hb hn.le
  have hcm : ∀ x, (∀ p ∈ cs, x.testBit p = false) → ∀ k,
      (x ||| Circ.ctrlMask cs).testBit k = (x.testBit k || decide (k ∈ cs)) := by
    intro x _ k
    rw [Nat.testBit_or, Circ.testBit_ctrlMask]
  -- the image of a visited state
  have hout : ∀ x < 2 ^ e.n, (∀ p ∈ cs, x.testBit p = false) →
      ((((((x &&& (2 ^ length - 1) <<< start) >>> start + toAdd % 2 ^ length) % 2 ^ 64) &&& (2 ^ length - 1)) <<< start
        ||| (x &&& otherMask e.n ((2 ^ length - 1) <<< start ||| Circ.ctrlMask cs))) ||| Circ.ctrlMask cs) =
      setField start length (field start length (x ||| Circ.ctrlMask cs) + toAdd) (x ||| Circ.ctrlMask cs) := by
    intro x hx hxc
    have hx' : x ||| Circ.ctrlMask cs < 2 ^ e.n := Nat.or_lt_two_pow hx (Circ.ctrlMask_lt hb)
    have hf : field start length (x ||| Circ.ctrlMask cs) = field start length x := by
      apply Nat.eq_of_testBit_eq
      intro k
      rw [testBit_field, testBit_field, hcm x hxc]
      by_cases hk : k < length
      · have : ¬ start + k ∈ cs := fun hmem => by have := hd _ hmem; omega
        simp [this]
      · simp [hk]
    have e1 : setField start length (field start length (x ||| Circ.ctrlMask cs) + toAdd) (x ||| Circ.ctrlMask cs) =
        setField start length ((((x &&& (2 ^ length - 1) <<< start) >>> start + toAdd % 2 ^ length) % 2 ^ 64) &&&
          (2 ^ length - 1)) (x ||| Circ.ctrlMask cs) := by
      apply setField_congr
      rw [hf, read_field, mask_eq_mod, Nat.mod_mod, Nat.mod_mod_of_dvd _ (pow_dvd_pow 2 (by omega)), Nat.add_mod_mod]
    rw [e1, ← write_field h hx' (by rw [mask_eq_mod]; exact Nat.mod_lt _ (by positivity))]
    apply Nat.eq_of_testBit_eq
    intro k
    rw [Nat.testBit_or, Nat.testBit_or, Nat.testBit_or, Nat.testBit_and, Nat.testBit_and, testBit_otherMask,
      testBit_otherMask, Nat.testBit_or, Nat.testBit_or, Circ.testBit_ctrlMask, testBit_regMask]
    by_cases hk : k ∈ cs
    · have h1 : ¬ (start ≤ k ∧ k < start + length) := by have := hd k hk; omega
      simp [hk, h1, hb k hk]
    · simp [hk]
  show scatter e.amp _ _ _ (cAddIdx cs start length toAdd i) = e.amp i
  unfold cAddIdx
  by_cases hall : AllAre true cs i
  · rw [if_pos hall]
    -- the visited state
    have hxi : ∃ x < 2 ^ e.n, (∀ p ∈ cs, x.testBit p = false) ∧ x ||| Circ.ctrlMask cs = i := by
      refine ⟨i ^^^ Circ.ctrlMask cs, Nat.xor_lt_two_pow hi (Circ.ctrlMask_lt hb), ?_, ?_⟩
      · intro p hp
        rw [Nat.testBit_xor, Circ.testBit_ctrlMask, hall p hp]; simp [hp]
      · apply Nat.eq_of_testBit_eq
        intro k
        rw [Nat.testBit_or, Nat.testBit_xor, Circ.testBit_ctrlMask]
        by_cases hk : k ∈ cs
        · simp [hk, hall k hk]
        · simp [hk]
    obtain ⟨x, hx, hxc, rfl⟩ := hxi
    rw [← hout x hx hxc]
    refine scatter_at _ _ _ _ ?_ x ((hm x).2 ⟨hx, hxc⟩)
    intro y hy z hz hyz
    obtain ⟨hy1, hy2⟩ := (hm y).1 hy
    obtain ⟨hz1, hz2⟩ := (hm z).1 hz
    have := (hout y hy1 hy2).symm.trans (hyz.trans (hout z hz1 hz2))
    show e.amp (y ||| Circ.ctrlMask cs) = e.amp (z ||| Circ.ctrlMask cs)
    rw [addField_inj this]
  · rw [if_neg hall]
    apply scatter_off
    intro y hy heq
    obtain ⟨hy1, hy2⟩ := (hm y).1 hy
    apply hall
    have : i = setField start length (field start length (y ||| Circ.ctrlMask cs) + toAdd) (y ||| Circ.ctrlMask cs) :=
      heq.symm.trans (hout y hy1 hy2)
    rw [this, allAre_setField hd]
    intro c hc
    rw [Nat.testBit_or, Circ.testBit_ctrlMask]; simp [hc]

/-- C09. `CDEC` undoes `CINC`. -/
theorem cdec_undoes_cinc {σ : List ℕ → List ℕ} (hσ : IsSched σ) (junk junk' : ℕ → ℂ) {e : Eng} (hn : e.n < 64)
    {k start length : ℕ} {cs : List ℕ} (hs : k < 2 ^ 128) (h : start + length ≤ e.n) (hnd : cs.Nodup)
    (hb : ∀ c ∈ cs, c < e.n) (hd : ∀ c ∈ cs, c < start ∨ start + length ≤ c) :
    ∃ a, ((cincE σ junk e k start length cs).bind fun e => cdecE σ junk' e k start length cs) = some (e.reset a) ∧
      ∀ i < 2 ^ e.n, a i = e.amp i := by
  obtain ⟨a, h1, h2⟩ := cinc_adds hσ junk hn (toAdd := k) h hnd hb hd
  obtain ⟨b, h3, h4⟩ := cinc_adds hσ junk' (e := e.reset a) hn (toAdd := Circ.negAddend k length) h hnd hb hd
  refine ⟨b, ?_, fun i hi => ?_⟩
  · rw [h1]; exact h3
  · rw [← h2 i hi]
    have hlt : cAddIdx cs start length k i < 2 ^ e.n := by
      unfold cAddIdx; split_ifs
      · exact setField_lt h hi
      · exact hi
    rw [show a (cAddIdx cs start length k i) = b _ from (h4 _ hlt).symm]
    congr 1
    unfold cAddIdx
    by_cases hall : AllAre true cs i
    · rw [if_pos hall, if_pos ((allAre_setField hd).2 hall), setField_add_add,
        setField_congr (w := field start length i), setField_field]
      rw [Nat.add_mod, Circ.add_negAddend (by omega) hs, Nat.add_zero, Nat.mod_mod]
    · rw [if_neg hall, if_neg hall]

/-- C09. Repeated or out-of-range controls are refused. -/
theorem cinc_invalid (σ : List ℕ → List ℕ) (junk : ℕ → ℂ) {e : Eng} {toAdd start length : ℕ} {cs : List ℕ}
    (h : ¬ ((∀ c ∈ cs, c < e.n) ∧ cs.Nodup)) : cincE σ junk e toAdd start length cs = none := by
  unfold cincE
  have h1 : Utils.throwIfBad cs e.n = true := by
    by_contra hc
    exact h ((Utils.throwIfBad_correct cs e.n).1 (by simpa using hc))
  have h0 : cs ≠ [] := by rintro rfl; exact h ⟨by simp, by simp⟩
  rw [if_neg h0, h1, if_pos rfl, ite_self]

/-- Non-vacuity: with controls 0 and 4 set the register `[1, 4)` goes from 6 to 1; with control 0 clear it stays. -/
example : cAddIdx [0, 4] 1 3 3 29 = 19 ∧ cAddIdx [0, 4] 1 3 3 28 = 28 := by decide

end Verif.Engine
