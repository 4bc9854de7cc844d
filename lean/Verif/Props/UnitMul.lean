import Verif.Lemmas.UnitMul

/-!
# C81: the products, tables and comparisons of `QUnit`

When the caches know the register that is read, `QUnit` computes classically and overwrites the register that is written; else it asks a
unit. The theorems say that the outcome is the same, and where it is not. `moved`, `seen` are in `Verif/Spec/Moves.lean`.
-/

namespace Verif.QU

open Verif.Spec Verif.Engine Finset

/-! ## Products -/

/-- C81. `MUL` of `QUnit`, when the measurement of the carry register gives `r`: `|x⟩|r⟩` goes to
`|low half of x*k⟩|high half of x*k⟩`, whatever the caches know. -/
theorem mul_multiplies {K : Cache} {n : ℕ} (hK : K.Sound n) (hn : n < 64) {k s c l : ℕ} (hk : k ≠ 0) (hs : s + l ≤ n) (hc : c + l ≤ n)
    (hd : s + l ≤ c ∨ c + l ≤ s) (rIn r : ℕ) (ψ : ℕ → ℂ) :
    mul K n k s c l rIn r ψ = .ok (moved n (fun i => prodIdx s c l (field s l i * k) i) (seen c l r ψ)) := by
  unfold mul
  rw [rangeOk' hs hn, rangeOk' hc hn]
  simp only [Bool.false_eq_true, if_false]
  rw [if_neg hk]
  by_cases h1 : k = 1
  · rw [if_pos h1]
    subst h1
    congr 1
    unfold setTo
    refine moved_congr (fun _ _ => rfl) fun i _ _ => ?_
    unfold prodIdx
    rw [Nat.mul_one, setField_field, Nat.div_eq_of_lt (field_lt _ _ _)]
  rw [if_neg h1]
  cases hv : cached K ψ s l with
  | some v =>
    obtain ⟨_, hf⟩ := cached_some hK hs hv
    dsimp only
    congr 1
    unfold setTo setReg
    rw [seen_moved (fun i _ => field_setField_disjoint (by omega)), moved_comp (fun i hi => setField_lt hs hi)]
    refine moved_congr (fun _ _ => rfl) fun i hi h0 => ?_
    rw [halves hn hs, hf i hi (seen_ne_zero h0).2]
  | none =>
    dsimp only
    congr 1
    unfold mulUnit setTo
    rw [moved_comp (fun i hi => setField_lt hc hi)]
    refine moved_congr (fun _ _ => rfl) fun i hi _ => ?_
    rw [prodIdx_clear hd, field_setField_disjoint (by omega)]

/-- C81. The amplitudes after `MUL` with a multiplier whose products fit in the two registers: no two basis states meet. -/
theorem mul_amplitudes {K : Cache} {n : ℕ} (hK : K.Sound n) (hn : n < 64) {k s c l : ℕ} (hk : k ≠ 0) (hkl : k ≤ 2 ^ l) (hs : s + l ≤ n)
    (hc : c + l ≤ n) (hd : s + l ≤ c ∨ c + l ≤ s) (rIn r : ℕ) (ψ : ℕ → ℂ) :
    ∃ φ, mul K n k s c l rIn r ψ = .ok φ ∧
      ∀ i < 2 ^ n, field c l i = r → φ (prodIdx s c l (field s l i * k) i) = ψ i := by
  refine ⟨_, mul_multiplies hK hn hk hs hc hd rIn r ψ, fun i hi hr => ?_⟩
  rw [moved_apply (T := fun i => prodIdx s c l (field s l i * k) i) hi]
  · unfold seen; rw [if_pos hr]
  · intro j _ h0 hij
    exact prodIdx_inj_seen hd (by omega) hkl ((seen_ne_zero h0).1.trans hr.symm) hij

/-- C81. `MUL` by 0, when the measurements give `rIn` and `r`, clears both registers. -/
theorem mul_zero_clears {K : Cache} {n : ℕ} (hn : n < 64) {s c l : ℕ} (hs : s + l ≤ n) (hc : c + l ≤ n)
    (hd : s + l ≤ c ∨ c + l ≤ s) (rIn r : ℕ) (ψ : ℕ → ℂ) :
    mul K n 0 s c l rIn r ψ = .ok (moved n (fun i => setField c l 0 (setField s l 0 i)) (seen c l r (seen s l rIn ψ))) := by
  unfold mul
  rw [rangeOk' hs hn, rangeOk' hc hn]
  simp only [Bool.false_eq_true, if_false, if_true]
  congr 1
  unfold setTo
  rw [seen_moved (fun i _ => field_setField_disjoint (by omega)), moved_comp (fun i hi => setField_lt hs hi)]

/-- C81. The unit's `MUL` of the model is that of the state vector engine. -/
theorem unit_mul {σ : List ℕ → List ℕ} (hσ : IsSched σ) {e : Eng} (hn : e.n < 64) {k s c l : ℕ} (hs : s + l ≤ e.n) (hc : c + l ≤ e.n)
    (hd : s + l ≤ c ∨ c + l ≤ s) (hk : 0 < k) (hkl : k ≤ 2 ^ l) (h0 : ∀ i < 2 ^ e.n, e.amp i ≠ 0 → field c l i = 0) :
    ∃ a, mulE σ e k s c l = some (e.reset a) ∧ ∀ i < 2 ^ e.n, field c l i = 0 →
      a (prodIdx s c l (field s l i * k) i) = mulUnit e.n k s c l 0 e.amp (prodIdx s c l (field s l i * k) i) := by
  obtain ⟨a, h1, h2⟩ := mul_product hσ hn hs hc hd hk hkl
  refine ⟨a, h1, fun i hi hf => ?_⟩
  rw [h2 i hi hf]
  unfold mulUnit setTo
  rw [moved_comp (fun i hi => setField_lt hc hi)]
  have e1 : (fun j => prodIdx s c l (field s l (setField c l 0 j) * k) (setField c l 0 j)) =
      fun j => prodIdx s c l (field s l j * k) j := by
    funext j
    rw [prodIdx_clear hd, field_setField_disjoint (by omega)]
  rw [e1, moved_apply (T := fun i => prodIdx s c l (field s l i * k) i) hi]
  · unfold seen; rw [if_pos hf]
  · intro j _ hj hij
    exact prodIdx_inj_seen hd hk hkl ((seen_ne_zero hj).1.trans hf.symm) hij

/-- C81. `DIV` of `QUnit` undoes a multiplication, whatever the caches know. -/
theorem div_undoes {K : Cache} {n : ℕ} (hK : K.Sound n) (hn : n < 64) {k s c l : ℕ} (hk : 0 < k) (hkl : k ≤ 2 ^ l) (hs : s + l ≤ n)
    (hc : c + l ≤ n) (hd : s + l ≤ c ∨ c + l ≤ s) {χ : ℕ → ℂ} (hχ : ∀ i < 2 ^ n, χ i ≠ 0 → field c l i = 0) :
    ∃ φ, div K n k s c l (moved n (fun i => prodIdx s c l (field s l i * k) i) χ) = .ok φ ∧ ∀ i < 2 ^ n, φ i = χ i := by
  have hT : ∀ i < 2 ^ n, field c l i = 0 →
      moved n (fun i => prodIdx s c l (field s l i * k) i) χ (prodIdx s c l (field s l i * k) i) = χ i := fun i hi hf =>
    moved_apply (T := fun i => prodIdx s c l (field s l i * k) i) hi fun j hj h0 hij =>
      prodIdx_inj_seen hd hk hkl ((hχ j hj h0).trans hf.symm) hij
  unfold div
  rw [rangeOk' hs hn, rangeOk' hc hn]
  simp only [Bool.false_eq_true, if_false]
  by_cases h1 : k = 1
  · rw [if_pos h1]
    subst h1
    exact ⟨_, rfl, fun j hj => moved_id (fun i hi h0 => prodIdx_one (hχ i hi h0)) hj⟩
  rw [if_neg h1]
  have unit : ∀ i < 2 ^ n, divUnit k s c l (moved n (fun i => prodIdx s c l (field s l i * k) i) χ) i = χ i := by
    intro i hi
    unfold divUnit
    split_ifs with hf
    · exact hT i hi hf
    · by_contra h0
      exact hf (hχ i hi (fun h => h0 h.symm))
  cases hv : cached K (moved n (fun i => prodIdx s c l (field s l i * k) i) χ) s l with
  | none => exact ⟨_, by rw [if_neg (by omega)], unit⟩
  | some v =>
    cases hw : cached K (moved n (fun i => prodIdx s c l (field s l i * k) i) χ) c l with
    | none => exact ⟨_, by rw [if_neg (by omega)], unit⟩
    | some w =>
      obtain ⟨v1, v2⟩ := cached_some hK hs hv
      obtain ⟨w1, w2⟩ := cached_some hK hc hw
      have horig := known_orig hn hs v1 w1
      have hprod : ∀ i < 2 ^ n, χ i ≠ 0 → v + 2 ^ l * w = field s l i * k := by
        intro i hi h0
        have h2 := hT i hi (hχ i hi h0)
        have h3 : moved n (fun i => prodIdx s c l (field s l i * k) i) χ (prodIdx s c l (field s l i * k) i) ≠ 0 := by rwa [h2]
        have e1 := v2 _ (prodIdx_lt hs hc hi) h3
        have e2 := w2 _ (prodIdx_lt hs hc hi) h3
        rw [(prodIdx_fields hd).1] at e1
        rw [(prodIdx_fields hd).2] at e2
        have hlt : field s l i * k < 2 ^ l * 2 ^ l :=
          lt_of_lt_of_le (Nat.mul_lt_mul_of_pos_right (field_lt s l i) hk) (Nat.mul_le_mul_left _ hkl)
        rw [Nat.mod_eq_of_lt (Nat.div_lt_of_lt_mul hlt)] at e2
        rw [← e1, ← e2, Nat.mod_add_div]
      dsimp only
      rw [if_neg (by omega), horig]
      split_ifs with hr
      · refine ⟨_, rfl, fun j hj => ?_⟩
        unfold setReg
        rw [moved_comp (fun i hi => prodIdx_lt hs hc hi), moved_comp (fun i hi => setField_lt hs (prodIdx_lt hs hc hi))]
        refine moved_id (fun i hi h0 => ?_) hj
        rw [hprod i hi h0, Nat.mul_div_cancel _ hk, shr_mask, mask_eq_mod, setField_mod, setField_mod,
          Nat.div_eq_of_lt (field_lt _ _ _), prodIdx_restore hd (hχ i hi h0)]
      · refine ⟨_, rfl, fun j hj => ?_⟩
        have hz : ∀ i < 2 ^ n, χ i = 0 := by
          intro i hi
          by_contra h0
          rw [hprod i hi h0, Nat.mul_mod_left] at hr
          exact hr rfl
        rw [hz j hj]
        unfold moved
        exact sum_eq_zero fun i hi => hz i (mem_range.1 (mem_filter.1 hi).1)

/-- C81. `DIV` by 0 throws when a unit is asked, but is a division by zero on the machine when both registers are known. -/
theorem div_zero_undefined {K : Cache} {n : ℕ} (hn : n < 64) {s c l : ℕ} (hs : s + l ≤ n) (hc : c + l ≤ n) (ψ : ℕ → ℂ) :
    (∀ v w, cached K ψ s l = some v → cached K ψ c l = some w → div K n 0 s c l ψ = .undefined) ∧
    (cached K ψ s l = none → div K n 0 s c l ψ = .threw) := by
  unfold div
  rw [rangeOk' hs hn, rangeOk' hc hn]
  constructor
  · intro v w hv hw
    simp [hv, hw]
  · intro hv
    simp [hv]

/-- Caches that know nothing. -/
def noneKnown : Cache := ⟨fun _ _ _ => none, fun _ _ => false, fun _ _ _ => none⟩

theorem cached_noneKnown {l : ℕ} (hl : 0 < l) (ψ : ℕ → ℂ) (s : ℕ) : cached noneKnown ψ s l = none := by
  obtain ⟨m, rfl⟩ : ∃ m, l = m + 1 := ⟨l - 1, by omega⟩
  simp only [cached, noneKnown]
  cases cached ⟨fun _ _ _ => none, fun _ _ => false, fun _ _ _ => none⟩ ψ s m <;> rfl

/-- C81. What `DIV` does with a value that is no multiple of the divisor depends on what the caches know: a known register is left as it
is, while without that knowledge no amplitude is left at all. -/
theorem div_depends_on_caches {K : Cache} {n : ℕ} (hK : K.Sound n) (hn : n < 64) {k s c l v w : ℕ} (hk : 1 < k) (hkl : k ≤ 2 ^ l)
    (hs : s + l ≤ n) (hc : c + l ≤ n) (hd : s + l ≤ c ∨ c + l ≤ s) {ψ : ℕ → ℂ} (hv : cached K ψ s l = some v)
    (hw : cached K ψ c l = some w) (hr : (v + 2 ^ l * w) % k ≠ 0) :
    div K n k s c l ψ = .ok ψ ∧ ∃ φ, div noneKnown n k s c l ψ = .ok φ ∧ ∀ i < 2 ^ n, φ i = 0 := by
  have hl : 0 < l := by
    rcases Nat.eq_zero_or_pos l with rfl | h
    · simp at hkl; omega
    · exact h
  obtain ⟨v1, v2⟩ := cached_some hK hs hv
  obtain ⟨w1, w2⟩ := cached_some hK hc hw
  unfold div
  rw [rangeOk' hs hn, rangeOk' hc hn]
  simp only [Bool.false_eq_true, if_false]
  rw [if_neg (by omega), if_neg (by omega), hv, hw, cached_noneKnown hl]
  dsimp only
  rw [if_neg (by omega), known_orig hn hs v1 w1, if_neg hr, if_neg (by omega)]
  refine ⟨rfl, _, rfl, fun i hi => ?_⟩
  unfold divUnit
  split_ifs with hf
  · by_contra h0
    have e1 := v2 _ (prodIdx_lt hs hc hi) h0
    have e2 := w2 _ (prodIdx_lt hs hc hi) h0
    rw [(prodIdx_fields hd).1] at e1
    rw [(prodIdx_fields hd).2] at e2
    have hlt : field s l i * k < 2 ^ l * 2 ^ l :=
      lt_of_lt_of_le (Nat.mul_lt_mul_of_pos_right (field_lt s l i) (by omega)) (Nat.mul_le_mul_left _ hkl)
    rw [Nat.mod_eq_of_lt (Nat.div_lt_of_lt_mul hlt)] at e2
    rw [← e1, ← e2, Nat.mod_add_div, Nat.mul_mod_left] at hr
    exact hr rfl
  · rfl

/-- C81. `POWModNOut` of `QUnit`, when the measurement of the output register gives `r`, puts the power modulo `modN` into the output
register. What is missing: powers that do not fit in the word in which the code computes them (`powModNOut_wrong`), and `1` modulo `1`
(`powModNOut_one_wrong`). -/
theorem powModNOut_powers_partial {K : Cache} {n : ℕ} (hK : K.Sound n) (hn : n < 64) {a N s o l : ℕ} (hs : s + l ≤ n) (ho : o + l ≤ n)
    (hd : s + l ≤ o ∨ o + l ≤ s) (hN : 0 < N) (h1 : a = 1 → 1 < N) (r : ℕ) (ψ : ℕ → ℂ) (ha : a < 2 ^ 64)
    (hp : ∀ v, cached K ψ s l = some v → a ^ v < 2 ^ 128) (hp' : cached K ψ s l = none → ∀ x < 2 ^ l, a ^ x < 2 ^ 64) :
    powModNOut K n a N s o l r ψ = .ok (moved n (fun i => setField o l (a ^ field s l i % N) i) (seen o l r ψ)) := by
  unfold powModNOut
  rw [rangeOk' hs hn, rangeOk' ho hn]
  simp only [Bool.false_eq_true, if_false]
  by_cases ha1 : a = 1
  · rw [if_pos ha1]
    congr 1
    unfold setTo
    refine moved_congr (fun _ _ => rfl) fun i _ _ => ?_
    rw [ha1, one_pow, Nat.mod_eq_of_lt (h1 ha1)]
  rw [if_neg ha1]
  cases hv : cached K ψ s l with
  | some v =>
    obtain ⟨_, hf⟩ := cached_some hK hs hv
    dsimp only
    rw [if_neg (by omega)]
    congr 1
    unfold setTo
    refine moved_congr (fun _ _ => rfl) fun i hi h0 => ?_
    rw [hf i hi (seen_ne_zero h0).2, Utils.intPow_correct 128 (by omega) (by norm_num), Nat.mod_eq_of_lt (hp v hv)]
  | none =>
    dsimp only
    rw [if_neg (by omega)]
    congr 1
    unfold setTo
    rw [moved_comp (fun i hi => setField_lt ho hi)]
    refine moved_congr (fun _ _ => rfl) fun i hi h0 => ?_
    rw [setField_setField, field_setField_disjoint (by omega), Utils.intPow_correct 64 (by unfold ocl; omega) (by norm_num)]
    unfold ocl
    rw [Nat.mod_eq_of_lt ha, Nat.mod_eq_of_lt (hp' hv _ (field_lt _ _ _))]

/-- C81. A power that is computed for a known register wraps at 128 bits before it is reduced: `3^81` modulo 127 comes out as another
number, which is put into the output register. -/
theorem powModNOut_wrong {K : Cache} {ψ : ℕ → ℂ} (hv : cached K ψ 0 7 = some 81) (r : ℕ) :
    ∃ x < 2 ^ 7, x ≠ 3 ^ 81 % 127 ∧ powModNOut K 14 3 127 0 7 7 r ψ = .ok (moved 14 (setField 7 7 x) (seen 7 7 r ψ)) := by
  refine ⟨Utils.intPow 128 3 81 % 127, ?_, ?_, ?_⟩
  · have := Nat.mod_lt (Utils.intPow 128 3 81) (show 127 > 0 by norm_num)
    omega
  · rw [Utils.intPow_correct 128 (by norm_num) (by norm_num)]
    norm_num
  · unfold powModNOut
    rw [rangeOk' (by norm_num) (by norm_num), rangeOk' (by norm_num) (by norm_num), hv]
    rfl

/-- C81. `1` to any power modulo `1` is `0`, but the output register is set to `1`. -/
theorem powModNOut_one_wrong {K : Cache} {n : ℕ} (hn : n < 64) {s o l : ℕ} (hs : s + l ≤ n) (ho : o + l ≤ n) (r : ℕ) (ψ : ℕ → ℂ) :
    powModNOut K n 1 1 s o l r ψ = .ok (moved n (setField o l 1) (seen o l r ψ)) ∧ ∀ x, 1 ^ x % 1 = 0 := by
  refine ⟨?_, fun x => Nat.mod_one _⟩
  unfold powModNOut
  rw [rangeOk' hs hn, rangeOk' ho hn]
  rfl

/-! ## Controlled products -/

/-- C81. `CMUL` of `QUnit`, when the measurement of the carry register gives `r`: on the states whose controls are all set the product
is put into the two registers, and on the others the carry register is cleared. What is missing: a control is known to be clear while
the carry register is not zero (`cMul_wrong`), and multiplication by 0 (`cmul_zero_wrong`, C13). -/
theorem cMul_multiplies_partial {K : Cache} {n : ℕ} (hK : K.Sound n) (hn : n < 64) {k s c l : ℕ} {cs : List ℕ} (hk : k ≠ 0)
    (hs : s + l ≤ n) (hc : c + l ≤ n) (hd : s + l ≤ c ∨ c + l ≤ s) (hnd : cs.Nodup) (hb : ∀ q ∈ cs, q < n)
    (hdc : ∀ q ∈ cs, q < c ∨ c + l ≤ q) (r : ℕ) (ψ : ℕ → ℂ)
    (hz : trimControls K ψ cs = none → r = 0 ∧ ∀ i < 2 ^ n, ψ i ≠ 0 → field c l i = 0) :
    ∃ φ, cMul K n k s c l cs r ψ = .ok φ ∧ ∀ j < 2 ^ n, φ j =
      (open Classical in moved n (fun i => if AllAre true cs i then prodIdx s c l (field s l i * k) i else setField c l 0 i)
        (seen c l r ψ)) j := by
  classical
  unfold cMul
  rw [rangeOk' hs hn, rangeOk' hc hn, (Utils.throwIfBad_correct cs n).2 ⟨hb, hnd⟩]
  simp only [Bool.false_eq_true, if_false]
  cases ht : trimControls K ψ cs with
  | none =>
    obtain ⟨rfl, h0⟩ := hz ht
    refine ⟨ψ, rfl, fun j hj => ?_⟩
    have hno := trim_none hK hb ht
    rw [moved_id _ hj]
    · unfold seen
      split_ifs with hf
      · rfl
      · by_contra h
        exact hf (h0 j hj h)
    · intro i hi hi0
      obtain ⟨h1, h2⟩ := seen_ne_zero hi0
      rw [if_neg (hno i hi h2)]
      have := setField_field c l i
      rwa [h1] at this
  | some cs' =>
    obtain ⟨hsub, hiff⟩ := trim_some hK hb ht
    cases cs' with
    | nil =>
      refine ⟨_, mul_multiplies hK hn hk hs hc hd 0 r ψ, fun j _ => ?_⟩
      refine congrFun (moved_congr (fun _ _ => rfl) fun i hi h0 => ?_) j
      rw [if_pos ((hiff i hi (seen_ne_zero h0).2).2 (by simp [AllAre]))]
    | cons q qs =>
      refine ⟨_, rfl, fun j _ => ?_⟩
      unfold cmulUnit setTo
      rw [moved_comp (fun i hi => setField_lt hc hi)]
      refine congrFun (moved_congr (fun _ _ => rfl) fun i hi h0 => ?_) j
      have ha : AllAre true (q :: qs) (setField c l 0 i) ↔ AllAre true cs i := by
        rw [allAre_setField (fun x hx => hdc x (hsub.subset hx))]
        exact (hiff i hi (seen_ne_zero h0).2).symm
      by_cases h : AllAre true cs i
      · rw [if_pos (ha.2 h), if_pos h, prodIdx_clear hd, field_setField_disjoint (by omega)]
      · rw [if_neg (fun hh => h (ha.1 hh)), if_neg h]

/-- C81. With a control known to be clear, `CMUL` leaves the carry register as it is, where `CMUL` of a unit clears it: register `[0, 1)`,
carry register `[1, 2)` holding 1, control 2 clear. -/
theorem cMul_wrong :
    let ψ : ℕ → ℂ := fun i => if i = 2 then 1 else 0
    (allKnown 3).Sound 3 ∧ cMul (allKnown 3) 3 2 0 1 1 [2] 1 ψ = .ok ψ ∧ ψ 2 = 1 ∧ cmulUnit 3 2 0 1 1 [2] 1 ψ 2 = 0 ∧
      cmulUnit 3 2 0 1 1 [2] 1 ψ 0 = 1 := by
  classical
  intro ψ
  have hψ : ψ = fun i => if i = 2 then 1 else 0 := rfl
  have hctrl : (allKnown 3).ctrl 1 ψ 2 = some false := by
    unfold allKnown
    dsimp only
    rw [if_pos]
    intro i _ h0
    rw [hψ] at h0
    dsimp only at h0
    split_ifs at h0 with h
    · subst h; rfl
    · exact absurd rfl h0
  have key : ∀ j, cmulUnit 3 2 0 1 1 [2] 1 ψ j = if j = 0 then 1 else 0 := by
    intro j
    unfold cmulUnit setTo
    rw [moved_comp (fun i hi => setField_lt (by norm_num) hi)]
    rw [moved_congr (T' := fun _ => 0) (φ := ψ)]
    · unfold moved
      rw [sum_filter, sum_eq_single 2]
      · simp [hψ, eq_comm]
      · intro i _ hi2; simp [hψ, hi2]
      · intro h; exact absurd (mem_range.2 (by norm_num)) h
    · intro i hi
      unfold seen
      rw [hψ]
      dsimp only
      by_cases h : i = 2
      · subst h; rw [if_pos (by decide)]
      · rw [if_neg h, ite_self]
    · intro i hi h0
      rw [hψ] at h0
      dsimp only at h0
      split_ifs at h0 with h
      · subst h
        rw [if_neg]
        · decide
        · intro ha
          have := ha 2 (by simp)
          revert this
          decide
      · exact absurd rfl h0
  refine ⟨(allKnown_sound 3).1, ?_, by rw [hψ]; simp, by rw [key]; simp, by rw [key]; simp⟩
  unfold cMul trimControls
  rw [rangeOk' (by norm_num) (by norm_num), rangeOk' (by norm_num) (by norm_num),
    (Utils.throwIfBad_correct [2] 3).2 ⟨by simp, by simp⟩]
  simp [hctrl]

/-! ## Tables -/

/-- C81. `IndexedLDA` of `QUnit`, when the measurement of the value register gives `r`, loads the entry of the table that the index
register names. What is missing: a known index register with a value register of more than 32 qubits (`indexedLDA_undefined`). -/
theorem indexedLDA_loads_partial {K : Cache} {n : ℕ} (hK : K.Sound n) (hn : n < 64) {is il vs vl : ℕ} {values : ℕ → ℕ}
    (hi : is + il ≤ n) (hv : vs + vl ≤ n) (hd : is + il ≤ vs ∨ vs + vl ≤ is) (hval : ∀ k, values k < 256) (r : ℕ) (ψ : ℕ → ℂ)
    (hl : vl ≤ 32 ∨ cached K ψ is il = none) :
    indexedLDA K n is il vs vl values r ψ =
      .ok (moved n (fun i => setField vs vl (entry ((vl + 7) / 8) values (field is il i)) i) (seen vs vl r ψ)) := by
  unfold indexedLDA
  rw [rangeOk' hi hn, rangeOk' hv hn]
  simp only [Bool.false_eq_true, if_false]
  cases hk : cached K ψ is il with
  | some k =>
    obtain ⟨_, hf⟩ := cached_some hK hi hk
    obtain ⟨value, h1, h2⟩ := eigenstate_low hval (hl.resolve_right (by rw [hk]; simp)) k
    dsimp only
    rw [h1]
    dsimp only
    congr 1
    unfold setTo
    refine moved_congr (fun _ _ => rfl) fun i hi' h0 => ?_
    rw [hf i hi' (seen_ne_zero h0).2]
    exact setField_congr h2
  | none =>
    dsimp only
    congr 1
    unfold setTo
    rw [moved_comp (fun i hi => setField_lt hv hi)]
    refine moved_congr (fun _ _ => rfl) fun i hi' _ => ?_
    rw [setField_setField, field_setField_disjoint hd]

/-- C81. With a known index register and a value register of more than 32 qubits, reading the table shifts an `int` by its width or
more, which is undefined. -/
theorem indexedLDA_undefined {K : Cache} {n : ℕ} (hn : n < 64) {is il vs vl k : ℕ} {values : ℕ → ℕ} (hi : is + il ≤ n)
    (hv : vs + vl ≤ n) (hl : 32 < vl) (r : ℕ) {ψ : ℕ → ℂ} (hk : cached K ψ is il = some k) :
    indexedLDA K n is il vs vl values r ψ = .undefined := by
  unfold indexedLDA
  rw [rangeOk' hi hn, rangeOk' hv hn, hk]
  simp only [Bool.false_eq_true, if_false]
  rw [eigenstate_none hl]

theorem carry_inj {add : ℕ → ℕ} {is il vs vl c i j : ℕ} (b : Bool) (hd : is + il ≤ vs ∨ vs + vl ≤ is) (hci : c < is ∨ is + il ≤ c)
    (hcv : c < vs ∨ vs + vl ≤ c) (hi : i.testBit c = b) (hj : j.testBit c = b)
    (hij : sumIdx vs vl c (field vs vl i + add (field is il i)) i = sumIdx vs vl c (field vs vl j + add (field is il j)) j) : i = j := by
  have h := indexed_inj (add := add) (i := flipIf b c i) (j := flipIf b c j) hd hci hcv (flipIf_carry hi) (flipIf_carry hj)
    (by rw [sumIdx_flipIf hcv, sumIdx_flipIf hcv, field_flipIf hcv, field_flipIf hcv, field_flipIf hci, field_flipIf hci, hij])
  cases b with
  | false => exact h
  | true =>
    have := congrArg (flipBit c) h
    simpa [flipIf, flip_inv] using this

/-- C81. `IndexedADC` of `QUnit`, after the carry qubit was measured as `m`, adds the entry of the table and the carry to the value
register, with the carry-out in the carry qubit. What is missing, for a known index register: a value register of more than 32 qubits,
and a set carry with an entry of all ones (`indexedADC_wrong`). -/
theorem indexedADC_adds_partial {K : Cache} {n : ℕ} (hK : K.Sound n) (hn : n < 64) (m : Bool) {is il vs vl c : ℕ} {values : ℕ → ℕ}
    (hi : is + il ≤ n) (hv : vs + vl ≤ n) (hc : c < n) (hd : is + il ≤ vs ∨ vs + vl ≤ is) (hci : c < is ∨ is + il ≤ c)
    (hcv : c < vs ∨ vs + vl ≤ c) (hval : ∀ k, values k < 256) (hfit : ∀ k < 2 ^ il, entry ((vl + 7) / 8) values k < 2 ^ vl)
    {ψ : ℕ → ℂ} (h0 : Fixed n ψ c m)
    (hl : ∀ k, cached K ψ is il = some k → vl ≤ 32 ∧ (m = true → entry ((vl + 7) / 8) values k + 1 ≠ 2 ^ vl)) :
    ∃ φ, indexedADC K n m is il vs vl c values ψ = .ok φ ∧ ∀ i < 2 ^ n, ψ i ≠ 0 →
      φ (sumIdx vs vl c (field vs vl i + (entry ((vl + 7) / 8) values (field is il i) + m.toNat)) i) = ψ i := by
  unfold indexedADC
  rw [rangeOk' hi hn, rangeOk' hv hn]
  simp only [Bool.false_eq_true, if_false]
  rw [if_neg (by omega)]
  cases hk : cached K ψ is il with
  | some k =>
    obtain ⟨hk1, hf⟩ := cached_some hK hi hk
    obtain ⟨hl1, hl2⟩ := hl k hk
    obtain ⟨value, h1, h2⟩ := eigenstate_low hval hl1 k
    have he := hfit k hk1
    rw [Nat.mod_eq_of_lt he] at h2
    obtain ⟨φ, h3, h4⟩ := incC_adds_partial hK hn m (toAdd := value) hv hc hcv h0 (fun hm hz => by
      have := hl2 hm
      rw [← Nat.mod_add_mod, h2] at hz
      rcases Nat.eq_zero_or_pos vl with hvl | hvl
      · subst hvl
        simp at he
        rw [he] at this
        simp at this
      · have hp : 1 < 2 ^ vl := Nat.one_lt_two_pow (by omega)
        exact this (Nat.le_antisymm (by omega) (Nat.le_of_dvd (by omega) (Nat.dvd_of_mod_eq_zero hz))))
    dsimp only
    rw [h1]
    dsimp only
    rw [h3]
    refine ⟨φ, rfl, fun i hi' hi0 => ?_⟩
    rw [← h4 i hi' (h0 i hi' hi0), hf i hi' hi0, h2, Nat.add_assoc]
  | none =>
    refine ⟨_, rfl, fun i hi' hi0 => ?_⟩
    exact moved_apply (T := fun i => sumIdx vs vl c (field vs vl i + (entry ((vl + 7) / 8) values (field is il i) + m.toNat)) i) hi'
      fun j hj hj0 hij => carry_inj (add := fun k => entry ((vl + 7) / 8) values k + m.toNat) m hd hci hcv (h0 j hj hj0)
        (h0 i hi' hi0) hij

/-- C81. `IndexedSBC` of `QUnit` with a known index register, after the carry qubit was measured as `m`, subtracts the entry of the table
and, when the carry is clear, one. What is missing: a value register of more than 32 qubits, a set carry with an entry of 0 (where
`DECC` loses the carry, C80), and an unknown index register (where the unit is wrong, C14). -/
theorem indexedSBC_subtracts_partial {K : Cache} {n : ℕ} (hK : K.Sound n) (hn : n < 64) (m : Bool) {is il vs vl c k : ℕ}
    {values : ℕ → ℕ} (unit : (ℕ → ℂ) → ℕ → ℂ) (hi : is + il ≤ n) (hv : vs + vl ≤ n) (hc : c < n) (hcv : c < vs ∨ vs + vl ≤ c)
    (hval : ∀ k, values k < 256) (hfit : ∀ k < 2 ^ il, entry ((vl + 7) / 8) values k < 2 ^ vl) {ψ : ℕ → ℂ} (h0 : Fixed n ψ c m)
    (hl : vl ≤ 32) (hk : cached K ψ is il = some k) (hm : m = true → entry ((vl + 7) / 8) values k ≠ 0) :
    ∃ φ, indexedSBC K n m is il vs vl c values unit ψ = .ok φ ∧ ∀ i < 2 ^ n, ψ i ≠ 0 →
      φ (sumIdx vs vl c (field vs vl i + (2 ^ vl - entry ((vl + 7) / 8) values (field is il i)) - (1 - m.toNat)) i) = ψ i := by
  obtain ⟨hk1, hf⟩ := cached_some hK hi hk
  obtain ⟨value, h1, h2⟩ := eigenstate_low hval hl k
  have he := hfit k hk1
  rw [Nat.mod_eq_of_lt he] at h2
  have hvb : value < 2 ^ 128 := eigenstate_lt h1
  obtain ⟨φ, h3, h4⟩ := decC_subtracts_partial hK hn m (toSub := value) hvb hv hc hcv h0 (fun h => by rw [h2]; exact hm h)
  unfold indexedSBC
  rw [rangeOk' hi hn, rangeOk' hv hn]
  simp only [Bool.false_eq_true, if_false]
  rw [if_neg (by omega), hk]
  dsimp only
  rw [h1]
  dsimp only
  rw [h3]
  refine ⟨φ, rfl, fun i hi' hi0 => ?_⟩
  rw [← h4 i hi' (h0 i hi' hi0), hf i hi' hi0, h2]

/-- C81. `IndexedADC` with a known index register, the carry set and an entry of all ones: the sum is the register itself with the carry
set, so nothing should change, but the carry qubit is cleared. -/
theorem indexedADC_wrong {K : Cache} {n : ℕ} (hn : n < 64) {is il vs vl c k : ℕ} {values : ℕ → ℕ} (hi : is + il ≤ n)
    (hv : vs + vl ≤ n) (hc : c < n) (hcv : c < vs ∨ vs + vl ≤ c) (hval : ∀ k, values k < 256) (hvl : 0 < vl) (hl : vl ≤ 32)
    (he : entry ((vl + 7) / 8) values k + 1 = 2 ^ vl) {ψ : ℕ → ℂ} (hk : cached K ψ is il = some k) :
    (∀ i, i.testBit c = true → sumIdx vs vl c (field vs vl i + (entry ((vl + 7) / 8) values k + 1)) i = i) ∧
    ∃ φ, indexedADC K n true is il vs vl c values ψ = .ok φ ∧ ∀ i, φ (flipBit c i) = ψ i := by
  obtain ⟨value, h1, h2⟩ := eigenstate_low hval hl k
  rw [Nat.mod_eq_of_lt (show entry ((vl + 7) / 8) values k < 2 ^ vl by omega)] at h2
  refine ⟨fun i hic => by rw [he]; exact sumIdx_full hic, ?_⟩
  obtain ⟨_, φ, h3, h4⟩ := incC_wrong (K := K) hn (toAdd := value) hv hc hcv hvl
    (by rw [← Nat.mod_add_mod, h2, he, Nat.mod_self]) ψ
  unfold indexedADC
  rw [rangeOk' hi hn, rangeOk' hv hn]
  simp only [Bool.false_eq_true, if_false]
  rw [if_neg (by omega), hk]
  dsimp only
  rw [h1]
  dsimp only
  rw [h3]
  exact ⟨φ, rfl, h4⟩

/-- C81. `Hash` of `QUnit` replaces the register by the entry of the table it names, whatever the caches know, for a table that is a
permutation. What is missing: a known register of more than 32 qubits (`hash_undefined`). -/
theorem hash_looks_up_partial {K : Cache} {n : ℕ} (hK : K.Sound n) (hn : n < 64) {s l : ℕ} {values : ℕ → ℕ} (hs : s + l ≤ n)
    (hval : ∀ k, values k < 256) (hfit : ∀ k < 2 ^ l, entry ((l + 7) / 8) values k < 2 ^ l)
    (hinj : ∀ x < 2 ^ l, ∀ y < 2 ^ l, entry ((l + 7) / 8) values x = entry ((l + 7) / 8) values y → x = y) (ψ : ℕ → ℂ)
    (hl : l ≤ 32 ∨ cached K ψ s l = none) :
    ∃ φ, hash K n s l values ψ = .ok φ ∧
      ∀ i < 2 ^ n, φ (setField s l (entry ((l + 7) / 8) values (field s l i)) i) = ψ i := by
  have hT : ∀ i < 2 ^ n, moved n (fun i => setField s l (entry ((l + 7) / 8) values (field s l i)) i) ψ
      (setField s l (entry ((l + 7) / 8) values (field s l i)) i) = ψ i := fun i hi =>
    moved_apply (T := fun i => setField s l (entry ((l + 7) / 8) values (field s l i)) i) hi fun j _ _ hij => by
      have h1 := congrArg (field s l) hij
      rw [field_setField, field_setField, Nat.mod_eq_of_lt (hfit _ (field_lt _ _ _)), Nat.mod_eq_of_lt (hfit _ (field_lt _ _ _))] at h1
      have h2 := hinj _ (field_lt _ _ _) _ (field_lt _ _ _) h1
      have h3 := congrArg (setField s l (field s l i)) hij
      rw [setField_setField, setField_setField, setField_field, ← h2, setField_field] at h3
      exact h3
  unfold hash
  rw [rangeOk' hs hn]
  simp only [Bool.false_eq_true, if_false]
  by_cases hp : checkBitsPlus K ψ s l = true
  · rw [if_pos hp]
    refine ⟨ψ, rfl, fun i hi => setField_plus hs (fun k hk => hK.plus _ _ (by omega) ?_) hi⟩
    unfold checkBitsPlus at hp
    exact List.all_eq_true.1 hp k (List.mem_range.2 hk)
  rw [if_neg hp]
  cases hk : cached K ψ s l with
  | some k =>
    obtain ⟨_, hf⟩ := cached_some hK hs hk
    obtain ⟨value, h1, h2⟩ := eigenstate_low hval (hl.resolve_right (by rw [hk]; simp)) k
    dsimp only
    rw [h1]
    refine ⟨_, rfl, fun i hi => ?_⟩
    rw [← hT i hi]
    unfold setReg
    refine congrFun (moved_congr (fun _ _ => rfl) fun j hj h0 => ?_) _
    rw [hf j hj h0]
    exact setField_congr h2
  | none => exact ⟨_, rfl, hT⟩

/-- C81. For a known register of more than 32 qubits `Hash` is undefined. -/
theorem hash_undefined {K : Cache} {n : ℕ} (hn : n < 64) {s l k : ℕ} {values : ℕ → ℕ} (hs : s + l ≤ n) (hl : 32 < l) {ψ : ℕ → ℂ}
    (hp : checkBitsPlus K ψ s l = false) (hk : cached K ψ s l = some k) : hash K n s l values ψ = .undefined := by
  unfold hash
  rw [rangeOk' hs hn, hk, hp]
  simp only [Bool.false_eq_true, if_false]
  rw [eigenstate_none hl]

/-! ## Comparisons -/

/-- C81. `PhaseFlipIfLess` of `QUnit` negates exactly the amplitudes of the basis states whose register is less, whatever the caches
know. What is missing: bounds of more than 64 bits (`phaseFlipIfLess_wrong`). -/
theorem phaseFlipIfLess_flips_partial {K : Cache} {n : ℕ} (hK : K.Sound n) (hn : n < 64) {g s l : ℕ} (hs : s + l ≤ n) (hg : g < 2 ^ 64)
    (ψ : ℕ → ℂ) :
    ∃ φ, phaseFlipIfLess K n g s l ψ = .ok φ ∧ ∀ i < 2 ^ n, φ i = if field s l i < g then - ψ i else ψ i := by
  unfold phaseFlipIfLess
  rw [rangeOk' hs hn]
  simp only [Bool.false_eq_true, if_false]
  cases hv : cached K ψ s l with
  | some v =>
    obtain ⟨_, hf⟩ := cached_some hK hs hv
    refine ⟨_, rfl, fun i hi => ?_⟩
    by_cases h0 : ψ i = 0
    · split_ifs <;> simp [h0]
    · rw [hf i hi h0]
      split_ifs <;> rfl
  | none =>
    refine ⟨_, rfl, fun i hi => ?_⟩
    unfold ocl
    rw [Nat.mod_eq_of_lt hg]

/-- C81. `CPhaseFlipIfLess` of `QUnit` negates exactly the amplitudes of the basis states whose flag is set and whose register is
less, whatever the caches know. What is missing: bounds of more than 64 bits. -/
theorem cPhaseFlipIfLess_flips_partial {K : Cache} {n : ℕ} (hK : K.Sound n) (hn : n < 64) {g s l f : ℕ} (hs : s + l ≤ n) (hf : f < n)
    (hg : g < 2 ^ 64) (ψ : ℕ → ℂ) :
    ∃ φ, cPhaseFlipIfLess K n g s l f ψ = .ok φ ∧
      ∀ i < 2 ^ n, φ i = if i.testBit f = true ∧ field s l i < g then - ψ i else ψ i := by
  unfold cPhaseFlipIfLess
  rw [rangeOk' hs hn]
  simp only [Bool.false_eq_true, if_false]
  rw [if_neg (by omega)]
  cases hv : K.bit 0 ψ f with
  | some b =>
    have hb := hK.bit _ _ _ _ hf hv
    cases b with
    | true =>
      obtain ⟨φ, h1, h2⟩ := phaseFlipIfLess_flips_partial hK hn hs hg ψ
      refine ⟨φ, by simpa using h1, fun i hi => ?_⟩
      rw [h2 i hi]
      by_cases h0 : ψ i = 0
      · split_ifs <;> simp [h0]
      · simp [hb i hi h0]
    | false =>
      refine ⟨ψ, by simp, fun i hi => ?_⟩
      by_cases h0 : ψ i = 0
      · split_ifs <;> simp [h0]
      · simp [hb i hi h0]
  | none =>
    refine ⟨_, rfl, fun i hi => ?_⟩
    unfold ocl
    rw [Nat.mod_eq_of_lt hg]

/-- C81. With a bound of `2^64` every register is less, but the unit, which is asked when the register is not known, flips nothing. -/
theorem phaseFlipIfLess_wrong {n : ℕ} (hn : n < 64) {s l : ℕ} (hs : s + l ≤ n) (hl : 0 < l) (ψ : ℕ → ℂ) :
    phaseFlipIfLess noneKnown n (2 ^ 64) s l ψ = .ok ψ ∧ ∀ i, field s l i < 2 ^ 64 := by
  constructor
  · unfold phaseFlipIfLess
    rw [rangeOk' hs hn, cached_noneKnown hl]
    simp [ocl]
  · intro i
    exact lt_trans (field_lt s l i) (Nat.pow_lt_pow_right (by norm_num) (by omega))

/-! ## The hypotheses can be met -/

/-- Non-vacuity: a basis state is known to caches that know all, and caches that know nothing are sound. -/
example : cached (allKnown 14) (fun i => if i = 81 + 5 * 128 then 1 else 0) 0 7 = some 81 ∧ (allKnown 14).Sound 14 ∧
    noneKnown.Sound 14 := by
  refine ⟨?_, (allKnown_sound 14).1, (allKnown_sound 14).2⟩
  rw [cached_allKnown (x := 81 + 5 * 128) (by norm_num) (by simp)]
  · decide
  · intro i _ h0
    have : i = 81 + 5 * 128 := by by_contra h; simp [h] at h0
    rw [this]

/-- Non-vacuity: 5 times 6 is `6 + 8 * 3`; the byte `200` at the fourth place fills the word with ones, of which the register takes
none; three is the inverse entry of a table that is a permutation. -/
example : prodIdx 0 3 3 (field 0 3 5 * 6) 5 = 6 + 8 * 3 ∧ shl 200 3 = some (2 ^ 128 - 2 ^ 32 + 200 * 2 ^ 24) ∧ shl 1 4 = none ∧
    indexedEigenstate 32 (fun j => if j % 4 = 3 then 200 else 7) 1 = some (2 ^ 128 - 2 ^ 32 + 200 * 2 ^ 24 + 7 * (1 + 256 + 256 ^ 2)) := by
  decide +kernel

/-- Non-vacuity: a table of four entries of one byte that is a permutation of two bits. -/
example : ∀ x < 2 ^ 2, ∀ y < 2 ^ 2, entry ((2 + 7) / 8) (fun k => (k * 3 + 1) % 4) x = entry ((2 + 7) / 8) (fun k => (k * 3 + 1) % 4) y →
    x = y := by
  decide +kernel

end Verif.QU
