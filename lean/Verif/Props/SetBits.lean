import Verif.Model.SetBits
import Verif.Props.EngineMeasReg
import Verif.Props.MultiShot
import Verif.Props.GateLogic

/-!
# C77: setting qubits, and the inherited measurement of a list
-/

namespace Verif.Circ

open Verif.Engine Verif.Spec Verif.Bits

/-- The register was found with the value `v`, and given the value `w`: what was there for `v`, scaled, is there for `w`, and nothing else. -/
def WrittenReg (n start length v w : ℕ) (s s' : ℕ → ℂ) : Prop :=
  ∃ k : ℂ, (∀ i < 2 ^ n, s' i = if field start length i = w then k * s (setField start length v i) else 0) ∧ totalProb n s' = 1

/-- What an engine keeps when it measures. -/
def Keeps (e e' : Eng) : Prop := e'.n = e.n ∧ e'.doNorm = e.doNorm ∧ e'.floor = e.floor

theorem Keeps.exact {e e' : Eng} (h : Keeps e e') (he : Exact e) : Exact e' := by
  obtain ⟨h1, h2, h3⟩ := h
  unfold Exact
  rw [h1, h2, h3]; exact he

theorem forceM_keeps {P : Par} (hP : P.Ok) {e e' : Eng} (hn : e.n ≤ 64) (he : e.Steady) {q : ℕ} (hq : q < e.n) {result doForce doApply b : Bool}
    {r u : ℝ} (h : forceM P e q result doForce doApply r u = some (b, e')) : Keeps e e' := by
  rw [forceM_eq hP hn he hq] at h
  split_ifs at h
  all_goals first | (cases h; exact ⟨rfl, rfl, rfl⟩) | (exfalso; simp at h; done)

theorem forceMReg_keeps {P : Par} (hP : P.Ok) {e e' : Eng} (hn : e.n < 64) (he : e.Steady) {start length v : ℕ} (hr : start + length ≤ e.n)
    {r u : ℝ} (h : forceMReg P e start length 0 false true r u = some (v, e')) : Keeps e e' := by
  unfold forceMReg at h
  rw [rangeOk hr hn] at h
  simp only [Bool.false_eq_true, if_false, if_true] at h
  by_cases hl : length = 1
  · rw [if_pos hl] at h
    subst hl
    cases hf : forceM P e start (Nat.testBit 0 0) false true r u with
    | none => rw [hf] at h; simp at h
    | some x =>
      rw [hf] at h
      simp only [Option.map_some, Option.some.injEq, Prod.mk.injEq] at h
      obtain ⟨b, e1⟩ := x
      have := forceM_keeps hP (by omega) he (by omega) hf
      rw [← h.2]; exact this
  · rw [if_neg hl, Option.bind_some, normIf_steady he] at h
    split_ifs at h
    cases h; exact ⟨rfl, rfl, rfl⟩

theorem totalProb_moved {n : ℕ} {s s' : ℕ → ℂ} {T : ℕ → ℕ} (hT : ∀ i < 2 ^ n, T i < 2 ^ n) (hTT : ∀ i < 2 ^ n, T (T i) = i)
    (h : ∀ i < 2 ^ n, s' (T i) = s i) : totalProb n s' = totalProb n s := by
  unfold totalProb
  symm
  refine Finset.sum_nbij' T T ?_ ?_ ?_ ?_ ?_
  · intro i hi; exact Finset.mem_range.2 (hT i (Finset.mem_range.1 hi))
  · intro i hi; exact Finset.mem_range.2 (hT i (Finset.mem_range.1 hi))
  · intro i hi; exact hTT i (Finset.mem_range.1 hi)
  · intro i hi; exact hTT i (Finset.mem_range.1 hi)
  · intro i hi; rw [h i (Finset.mem_range.1 hi)]

/-- The list of bit flips turns the value of the register. -/
theorem testBit_fixReg (start regVal value i k : ℕ) : ∀ length, (act (fixReg start length regVal value) i).testBit k =
    (i.testBit k ^^ decide (start ≤ k ∧ k < start + length ∧ regVal.testBit (k - start) ≠ value.testBit (k - start)))
  | 0 => by
    have : ¬ (start ≤ k ∧ k < start + 0 ∧ regVal.testBit (k - start) ≠ value.testBit (k - start)) := by omega
    rw [decide_eq_false this, Bool.xor_false]; rfl
  | l + 1 => by
    have ih := testBit_fixReg start regVal value i k l
    unfold fixReg at ih ⊢
    rw [List.range_succ, List.flatMap_append, act_append]
    simp only [List.flatMap_cons, List.flatMap_nil, List.append_nil]
    by_cases hb : regVal.testBit l = value.testBit l
    · rw [if_neg (by simp [hb])]
      rw [show ∀ j, act [] j = j from fun _ => rfl, ih]
      congr 1
      rw [decide_eq_decide]
      constructor
      · rintro ⟨h1, h2, h3⟩; exact ⟨h1, by omega, h3⟩
      · rintro ⟨h1, h2, h3⟩
        refine ⟨h1, ?_, h3⟩
        by_contra hc
        have : k - start = l := by omega
        rw [this] at h3; exact h3 hb
    · rw [if_pos (by simpa using hb)]
      rw [show ∀ j, act [Op.x (start + l)] j = flipIf true (start + l) j from fun _ => rfl, testBit_flipIf, ih]
      by_cases hk : k = start + l
      · subst hk
        simp [hb]
      · have : (start ≤ k ∧ k < start + (l + 1) ∧ regVal.testBit (k - start) ≠ value.testBit (k - start)) ↔
            (start ≤ k ∧ k < start + l ∧ regVal.testBit (k - start) ≠ value.testBit (k - start)) := by
          constructor
          · rintro ⟨h1, h2, h3⟩; exact ⟨h1, by omega, h3⟩
          · rintro ⟨h1, h2, h3⟩; exact ⟨h1, by omega, h3⟩
        simp [hk, this]

theorem fixReg_ok {n start length : ℕ} (h : start + length ≤ n) (v w : ℕ) : ∀ o ∈ fixReg start length v w, o.Ok n := by
  intro o ho
  rw [fixReg, List.mem_flatMap] at ho
  obtain ⟨i, hi, ho⟩ := ho
  rw [List.mem_range] at hi
  split_ifs at ho
  · rw [List.mem_singleton] at ho; subst ho
    show start + i < n; omega
  · simp at ho

/-- After a measurement of the register with result `v`, the flips write `w`. -/
theorem fix_writes {σ : List ℕ → List ℕ} (hσ : IsSched σ) {e e1 : Eng} (he1 : Exact e1) {start length v w : ℕ} (hr : start + length ≤ e.n)
    (hn : e1.n = e.n) (hv : v < 2 ^ length) (hw : w < 2 ^ length) (hc : Collapsed e.n (fun i => field start length i = v) e.amp e1.amp) :
    ∃ e', run σ (fixReg start length v w) e1 = some e' ∧ e'.n = e.n ∧ WrittenReg e.n start length v w e.amp e'.amp := by
  obtain ⟨e', h1, h2, _, h4⟩ := run_act hσ he1 (p := fixReg start length v w) (fixReg_ok (by omega) v w)
  set T := act (fixReg start length v w) with hT
  have hbit : ∀ i k, (T i).testBit k =
      (i.testBit k ^^ decide (start ≤ k ∧ k < start + length ∧ v.testBit (k - start) ≠ w.testBit (k - start))) :=
    fun i k => testBit_fixReg start v w i k length
  have hTT : ∀ i, T (T i) = i := by
    intro i
    apply Nat.eq_of_testBit_eq
    intro k
    rw [hbit, hbit]; simp
  have hlt : ∀ i < 2 ^ e.n, T i < 2 ^ e.n := by
    intro i hi
    rw [lt_two_pow_iff_testBit] at hi ⊢
    intro k hk
    rw [hbit, hi k hk]
    simp only [Bool.false_xor, decide_eq_false_iff_not]
    omega
  rw [hn] at h2 h4
  refine ⟨e', h1, h2, ?_⟩
  obtain ⟨k, c1, c2, c3⟩ := hc
  refine ⟨k, fun i hi => ?_, by rw [totalProb_moved hlt (fun i _ => hTT i) h4, c3]⟩
  have ha : e'.amp i = e1.amp (T i) := by
    have := h4 (T i) (hlt i hi)
    rwa [hTT] at this
  have hf : field start length (T i) = v ↔ field start length i = w := by
    constructor
    · intro hh
      apply Nat.eq_of_testBit_eq
      intro j
      rw [testBit_field]
      have hj := congrArg (fun z => Nat.testBit z j) hh
      simp only [testBit_field, hbit] at hj
      by_cases hjl : j < length
      · simp only [hjl, if_true] at hj ⊢
        by_cases hd : v.testBit j = w.testBit j
        · simp [hd] at hj; exact hj
        · simp [hjl, hd] at hj
          cases hvj : v.testBit j <;> cases hwj : w.testBit j <;> simp_all
      · simp only [hjl, if_false] at hj ⊢
        rw [lt_two_pow_iff_testBit] at hw
        exact (hw j (by omega)).symm
    · intro hh
      apply Nat.eq_of_testBit_eq
      intro j
      rw [testBit_field, hbit]
      have hj := congrArg (fun z => Nat.testBit z j) hh
      simp only [testBit_field] at hj
      by_cases hjl : j < length
      · simp only [hjl, if_true] at hj ⊢
        by_cases hd : v.testBit j = w.testBit j
        · simp [hd]; exact hj
        · simp [hjl, hd]
          cases hvj : v.testBit j <;> cases hwj : w.testBit j <;> simp_all
      · simp only [hjl, if_false]
        rw [lt_two_pow_iff_testBit] at hv
        exact (hv j (by omega)).symm
  by_cases hw' : field start length i = w
  · rw [if_pos hw', ha, c1 _ (hlt i hi) (hf.2 hw')]
    congr 2
    apply Nat.eq_of_testBit_eq
    intro j
    rw [hbit, testBit_setField]
    by_cases h5 : j < start
    · have : ¬ (start ≤ j ∧ j < start + length ∧ v.testBit (j - start) ≠ w.testBit (j - start)) := by omega
      simp [h5, this]
    · by_cases h6 : j < start + length
      · rw [if_neg h5, if_pos h6]
        have := congrArg (fun z => Nat.testBit z (j - start)) hw'
        simp only [testBit_field] at this
        rw [decide_eq_true (show j - start < length by omega), Bool.true_and, show start + (j - start) = j by omega] at this
        rw [this]
        by_cases hd : v.testBit (j - start) = w.testBit (j - start)
        · simp [hd]
        · have : start ≤ j := by omega
          simp [this, h6, hd]
          cases hvj : v.testBit (j - start) <;> cases hwj : w.testBit (j - start) <;> simp_all
      · rw [if_neg h5, if_neg h6]
        simp [h6]
  · rw [if_neg hw', ha, c2 _ (hlt i hi) (fun h => hw' (hf.1 h))]

/-- A register that was written reads as what was written. -/
theorem WrittenReg.reads {n start length v w : ℕ} {s s' : ℕ → ℂ} (h : WrittenReg n start length v w s s') :
    probIf n (fun i => field start length i = w) s' = 1 := by
  obtain ⟨k, h1, h2⟩ := h
  rw [← h2]
  unfold probIf totalProb
  apply Finset.sum_congr rfl
  intro i hi
  by_cases hp : field start length i = w
  · rw [if_pos hp]
  · rw [if_neg hp, h1 i (Finset.mem_range.1 hi), if_neg hp]; simp


/-- **C77.** `SetBit` never throws, whatever is drawn: the qubit is measured, with a result of positive probability, and then has the value
asked for, with the rest of the state as the measurement left it. -/
theorem setBit_writes {P : Par} (hP : P.Ok) {e : Eng} (hx : Exact e) (he : e.Steady) {q : ℕ} (hq : q < e.n) (value : Bool) (r u : ℝ) :
    ∃ b e', setBitM P e q value r u = some e' ∧ 0 < qProb e q b ∧ e'.n = e.n ∧
      WrittenReg e.n q 1 (if b then 1 else 0) (if value then 1 else 0) e.amp e'.amp := by
  rcases forceM_projects hP hx.1 he hq false false r u with ⟨h, _, _⟩ | ⟨b, e1, h1, _, h3, h4, h5, h6⟩
  · simp at h
  · have hk := forceM_keeps hP hx.1 he hq h1
    have hc := collapsed_congr (fun i _ => field_one q i b) h6
    have hlt : ∀ c : Bool, (if c then 1 else 0) < 2 ^ 1 := by decide
    obtain ⟨e', g1, g2, g3⟩ := fix_writes hP.1 (hk.exact hx) (w := if value then 1 else 0) (by omega) h4 (hlt b) (hlt value) hc
    refine ⟨b, e', ?_, h3, g2, g3⟩
    unfold setBitM
    rw [h1, Option.bind_some]
    dsimp only
    rw [← g1]
    cases value <;> cases b <;> rfl

/-- **C77.** `SetReg` of a part of the register: it is measured, with a result of positive probability, and then has the value asked for. -/
theorem setReg_writes {P : Par} (hP : P.Ok) {e : Eng} (hx : Exact e) (hn : e.n < 64) (he : e.Steady) {start length value : ℕ}
    (hr : start + length ≤ e.n) (hv : value < 2 ^ length) (hpart : ¬ (start = 0 ∧ length = e.n)) {r : ℝ} (h0 : 0 < r) (h1 : r < 1) (u : ℝ) :
    ∃ v e', setReg P e start length value r u = some e' ∧ v < 2 ^ length ∧ 0 < regProb e start length v ∧ e'.n = e.n ∧
      WrittenReg e.n start length v value e.amp e'.amp := by
  by_cases hl : length = 1
  · subst hl
    obtain ⟨b, e', g1, g2, g3, g4⟩ := setBit_writes hP hx he (q := start) (by omega) (value.testBit 0) r u
    have hval : (if value.testBit 0 then 1 else 0) = value := by
      have : value = 0 ∨ value = 1 := by omega
      rcases this with h | h <;> subst h <;> rfl
    rw [hval] at g4
    refine ⟨_, e', by rw [setReg, if_pos rfl]; exact g1, ?_, ?_, g3, g4⟩
    · cases b <;> decide
    · unfold regProb
      unfold qProb at g2
      rw [probIf_congr (fun i _ => field_one start i b) (fun _ _ => rfl)] at g2
      exact g2
  · obtain ⟨v, e1, g1, g2, g3, g4, g5, g6⟩ := forceMReg_measures hP hn he hr 0 h0 h1 u
    have hk := forceMReg_keeps hP hn he hr g1
    obtain ⟨e', k1, k2, k3⟩ := fix_writes hP.1 (hk.exact hx) hr g4 g2 hv g6
    refine ⟨v, e', ?_, g2, g3, k2, k3⟩
    rw [setReg, if_neg hl, if_neg hpart, g1, Option.bind_some]
    exact k1

/-- **C77.** `SetReg` of the whole register sets a basis state. -/
theorem setReg_whole {P : Par} {e : Eng} (h1 : e.n ≠ 1) (value : ℕ) (r u : ℝ) :
    ∃ e' ph, setReg P e 0 e.n value r u = some e' ∧ e'.n = e.n ∧ Complex.normSq ph = 1 ∧ ∀ i, e'.amp i = if i = value then ph else 0 :=
  ⟨setPerm e value u, nonunitaryPhase e u, by rw [setReg, if_neg h1, if_pos ⟨rfl, rfl⟩], rfl, nonunitaryPhase_norm e u, fun _ => rfl⟩

/-- **C77.** The inherited `SetPermutation` sets a basis state as well, up to a phase. -/
theorem setPermDefault_sets {P : Par} (hP : P.Ok) {e : Eng} (hx : Exact e) (he : e.Steady) {perm : ℕ} (hperm : perm < 2 ^ e.n) {r : ℝ}
    (h0 : 0 ≤ r) (h1 : r < 1) (u : ℝ) :
    ∃ e' ph, setPermDefault P e perm r u = some e' ∧ e'.n = e.n ∧ Complex.normSq ph = 1 ∧ ∀ i < 2 ^ e.n, e'.amp i = if i = perm then ph else 0 := by
  obtain ⟨g1, g2, g3, g4, g5⟩ := mAll_measures (P := P) he h0 h1 u
  set m := (mAll P e r u).1 with hm
  set e1 := (mAll P e r u).2 with he1
  have hk : Keeps e e1 := by
    rw [he1]; unfold mAll; rw [normIf_steady he]; exact ⟨rfl, rfl, rfl⟩
  have hfield : ∀ i < 2 ^ e.n, field 0 e.n i = i := fun i hi => by
    unfold field; rw [pow_zero, Nat.div_one, Nat.mod_eq_of_lt hi]
  have hset : ∀ i < 2 ^ e.n, setField 0 e.n m i = m := fun i hi => by
    unfold setField
    rw [pow_zero, Nat.mod_one, Nat.mod_eq_of_lt g1, Nat.zero_add, Nat.div_eq_of_lt hi]; simp
  have hc := collapsed_congr (q := fun i => field 0 e.n i = m) (fun i hi => by rw [hfield i hi]) g5
  obtain ⟨e', k1, k2, k, k3, k4⟩ := fix_writes hP.1 (hk.exact hx) (start := 0) (w := perm) (by omega) g3 g1 hperm hc
  refine ⟨e', k * e.amp m, ?_, k2, ?_, ?_⟩
  · rw [← k1, setPermDefault, fixReg]
    congr 2
    funext i
    rw [Nat.testBit_xor, Nat.zero_add]
    cases perm.testBit i <;> cases m.testBit i <;> rfl
  · have ha : ∀ i < 2 ^ e.n, e'.amp i = if i = perm then k * e.amp m else 0 := by
      intro i hi
      rw [k3 i hi, hfield i hi, hset i hi]
    rw [← k4]
    unfold totalProb
    rw [Finset.sum_eq_single perm]
    · rw [ha perm hperm, if_pos rfl]
    · intro i hi hne
      rw [ha i (Finset.mem_range.1 hi), if_neg hne]; simp
    · intro h; exact absurd (Finset.mem_range.2 hperm) h
  · intro i hi
    rw [k3 i hi, hfield i hi, hset i hi]

/-! ### The inherited measurement of a list -/

theorem testBit_orPow (b : ℕ) (x : Bool) (m k : ℕ) : (if x then m ||| pow2 b else m).testBit k = (m.testBit k || (x && decide (b = k))) := by
  cases x
  · simp
  · rw [if_pos rfl, Nat.testBit_or, pow2, Nat.testBit_two_pow]; simp

theorem probIf_collapsed_and {n : ℕ} {p q : ℕ → Prop} {s s' : ℕ → ℂ} (h : Collapsed n p s s') (hpos : 0 < probIf n p s) :
    (probIf n q s' = 0 → probIf n (fun i => p i ∧ q i) s = 0) ∧ (0 < probIf n q s' → 0 < probIf n (fun i => p i ∧ q i) s) := by
  have hkey : ∃ c : ℝ, 0 < c ∧ probIf n q s' = c * probIf n (fun i => p i ∧ q i) s := by
    obtain ⟨k, h1, h2, h3⟩ := h
    refine ⟨Complex.normSq k, ?_, ?_⟩
    · rw [Complex.normSq_pos]
      rintro rfl
      have : totalProb n s' = 0 := by
        unfold totalProb
        apply Finset.sum_eq_zero
        intro i hi
        rw [Finset.mem_range] at hi
        by_cases hp : p i
        · rw [h1 i hi hp]; simp
        · rw [h2 i hi hp]; simp
      rw [h3] at this; norm_num at this
    · unfold probIf
      rw [Finset.mul_sum]
      apply Finset.sum_congr rfl
      intro i hi
      rw [Finset.mem_range] at hi
      by_cases hq : q i
      · by_cases hp : p i
        · rw [if_pos hq, if_pos ⟨hp, hq⟩, h1 i hi hp, Complex.normSq_mul]
        · rw [if_pos hq, if_neg (fun hh => hp hh.1), h2 i hi hp]; simp
      · rw [if_neg hq, if_neg (fun hh => hq hh.2)]; simp
  obtain ⟨c, hc, heq⟩ := hkey
  constructor
  · intro h0
    rw [heq] at h0
    rcases mul_eq_zero.1 h0 with h | h
    · linarith
    · exact h
  · intro h0
    rw [heq] at h0
    exact (pos_iff_pos_of_mul_pos h0).1 hc

/-- The loops of the inherited version, with application: the results `xs` (which are the values if forced) have positive probability and the
state is projected on them; or the values have probability zero and an exception is thrown. -/
theorem measureEach_spec {P : Par} (hP : P.Ok) (doForce : Bool) : ∀ (l : List (ℕ × Bool)) (r u : ℕ → ℝ) (m : ℕ) {e : Eng}, e.n ≤ 64 → e.Steady →
    (∀ x ∈ l, x.1 < e.n) →
    (doForce = true ∧ probIf e.n (HasValues (l.map (·.1)) (l.map (·.2))) e.amp = 0 ∧ measureEach P doForce true l r u m e = none) ∨
    ∃ (xs : List Bool) (e' : Eng) (v : ℕ), measureEach P doForce true l r u m e = some (v, e') ∧ xs.length = l.length ∧
      (doForce = true → xs = l.map (·.2)) ∧
      (∀ k, v.testBit k = (m.testBit k || decide ((k, true) ∈ (l.map (·.1)).zip xs))) ∧
      0 < probIf e.n (HasValues (l.map (·.1)) xs) e.amp ∧ e'.n = e.n ∧ e'.Steady ∧ Collapsed e.n (HasValues (l.map (·.1)) xs) e.amp e'.amp
  | [], r, u, m, e, hn, he, hl => by
    right
    have hone : probIf e.n (HasValues [] []) e.amp = 1 := by
      rw [← he.1]
      unfold probIf totalProb
      exact Finset.sum_congr rfl fun i _ => if_pos List.Forall₂.nil
    exact ⟨[], e, m, rfl, rfl, fun _ => rfl, by simp, by rw [List.map_nil, hone]; norm_num, rfl, he, collapsed_of_certain he.1 hone⟩
  | (b, v) :: l, r, u, m, e, hn, he, hl => by
    have hb := hl (b, v) (by simp)
    dsimp only at hb
    simp only [List.map_cons]
    have hcons : ∀ (x : Bool) (ys : List Bool), ∀ i, HasValues (b :: l.map (·.1)) (x :: ys) i ↔ i.testBit b = x ∧ HasValues (l.map (·.1)) ys i :=
      fun x ys i => List.forall₂_cons
    rcases forceM_projects hP hn he hb v doForce (r 0) (u 0) with ⟨h1, h2, h3⟩ | ⟨x, e1, h1, h2, h3, h4, h5, h6⟩
    · left
      refine ⟨h1, ?_, by rw [measureEach, h3]; rfl⟩
      refine le_antisymm ?_ (probIf_nonneg _ _ _)
      rw [← h2]
      unfold qProb probIf
      apply Finset.sum_le_sum
      intro i _
      by_cases hv : HasValues (b :: l.map (·.1)) (v :: l.map (·.2)) i
      · rw [if_pos hv, if_pos ((hcons _ _ _).1 hv).1]
      · rw [if_neg hv]; split_ifs
        · exact Complex.normSq_nonneg _
        · exact le_rfl
    · rcases measureEach_spec hP doForce l (fun k => r (k + 1)) (fun k => u (k + 1)) (if x then m ||| pow2 b else m) (e := e1) (by omega) h5
        (fun y hy => by rw [h4]; exact hl y (by simp [hy])) with ⟨g1, g2, g3⟩ | ⟨xs, e', w, g1, g2, g3, g4, g5, g6, g7, g8⟩
      · left
        refine ⟨g1, ?_, by rw [measureEach, h1]; exact g3⟩
        rw [h4] at g2
        have := (probIf_collapsed_and (q := HasValues (l.map (·.1)) (l.map (·.2))) h6 h3).1 g2
        rw [h2 g1] at this
        rw [← this]
        exact probIf_congr (fun i _ => hcons v _ i) (fun _ _ => rfl)
      · right
        rw [h4] at g5 g6 g8
        refine ⟨x :: xs, e', w, by rw [measureEach, h1]; exact g1, by simp [g2], fun hf => by rw [h2 hf, g3 hf], ?_, ?_, g6, g7, ?_⟩
        · intro k
          rw [g4 k, testBit_orPow]
          cases x
          · simp
          · simp only [List.zip_cons_cons, List.mem_cons, Prod.mk.injEq, and_true, Bool.true_and, Bool.or_assoc]
            congr 1
            by_cases hbk : b = k
            · simp [hbk]
            · have : ¬ k = b := fun h => hbk h.symm
              simp [hbk, this]
        · have := (probIf_collapsed_and (q := HasValues (l.map (·.1)) xs) h6 h3).2 g5
          rwa [probIf_congr (fun i _ => hcons x xs i) (fun _ _ => rfl)]
        · exact collapsed_congr (fun i _ => (hcons x xs i).symm) (collapsed_trans h6 g8)

/-- **C77.** The inherited `ForceM` of a list of distinct qubits with values: the state is projected on the values, which are returned as a mask;
if they have probability zero, an exception is thrown. -/
theorem forceMDefault_forced {P : Par} (hP : P.Ok) {e : Eng} (hn : e.n ≤ 64) (he : e.Steady) {bits : List ℕ} (hnd : bits.Nodup)
    (hb : ∀ b ∈ bits, b < e.n) {values : List Bool} (hlen : bits.length = values.length) (hv : values ≠ []) (r u : ℕ → ℝ) :
    (probIf e.n (HasValues bits values) e.amp = 0 ∧ forceMDefault P e bits values true r u = none) ∨
    ∃ v e', forceMDefault P e bits values true r u = some (v, e') ∧ HasValues bits values v ∧ Measured e bits v e' := by
  have h1 : (bits.zip values).map (·.1) = bits := List.map_fst_zip (by omega)
  have h2 : (bits.zip values).map (·.2) = values := List.map_snd_zip (by omega)
  have hd : forceMDefault P e bits values true r u = measureEach P true true (bits.zip values) r u 0 e := by
    rw [forceMDefault, if_neg (by simp [hlen]), if_pos hv]
  rw [hd]
  rcases measureEach_spec hP true (bits.zip values) r u 0 hn he (fun x hx => hb x.1 (List.of_mem_zip hx).1) with ⟨_, g2, g3⟩ |
    ⟨xs, e', v, g1, g2, g3, g4, g5, g6, g7, g8⟩
  · left; rw [h1, h2] at g2; exact ⟨g2, g3⟩
  · right
    rw [h1] at g4 g5 g8
    rw [g3 rfl, h2] at g4 g5 g8
    simp only [Nat.zero_testBit, Bool.false_or] at g4
    have hag := agrees_values hnd hlen g4
    refine ⟨v, e', g1, (hag v).1 (fun _ _ => rfl), ?_, ?_, g6, g7, collapsed_congr (fun i _ => (hag i).symm) g8⟩
    · intro q hq
      rw [g4] at hq
      exact (List.of_mem_zip (of_decide_eq_true hq)).1
    · rwa [probIf_congr (fun i _ => hag i) (fun _ _ => rfl)]

/-- **C77.** The inherited measurement of a list of distinct qubits never throws; the result is a mask of positive probability, and the
state is projected on it. -/
theorem forceMDefault_measures {P : Par} (hP : P.Ok) {e : Eng} (hn : e.n ≤ 64) (he : e.Steady) {bits : List ℕ} (hnd : bits.Nodup)
    (hb : ∀ b ∈ bits, b < e.n) (r u : ℕ → ℝ) : ∃ v e', forceMDefault P e bits [] true r u = some (v, e') ∧ Measured e bits v e' := by
  have h1 : (bits.map fun b => (b, false)).map (·.1) = bits := by rw [List.map_map]; exact List.map_id' bits
  have hd : forceMDefault P e bits [] true r u = measureEach P false true (bits.map fun b => (b, false)) r u 0 e := by
    rw [forceMDefault, if_neg (by simp), if_neg (by simp), if_pos rfl]
  rw [hd]
  rcases measureEach_spec hP false (bits.map fun b => (b, false)) r u 0 hn he
    (fun x hx => by obtain ⟨b, hb', rfl⟩ := List.mem_map.1 hx; exact hb b hb') with ⟨g1, _, _⟩ | ⟨xs, e', v, g1, g2, _, g4, g5, g6, g7, g8⟩
  · simp at g1
  · rw [h1] at g4 g5 g8
    simp only [Nat.zero_testBit, Bool.false_or] at g4
    rw [List.length_map] at g2
    have hag := agrees_values hnd g2.symm g4
    refine ⟨v, e', g1, ?_, ?_, g6, g7, collapsed_congr (fun i _ => (hag i).symm) g8⟩
    · intro q hq
      rw [g4] at hq
      exact (List.of_mem_zip (of_decide_eq_true hq)).1
    · rwa [probIf_congr (fun i _ => hag i) (fun _ _ => rfl)]

/-- **C77, partial.** Without application the inherited version leaves the state, and returns a possible outcome, but packed: bit `k` is the
`k`-th listed qubit. Full statement: it returns the mask that it returns with application; false, `forceMDefault_packed_wrong`. -/
theorem forceMDefault_look_partial {P : Par} {e : Eng} (he : e.Steady) (bits : List ℕ) {r : ℕ → ℝ} (h0 : 0 ≤ r 0) (h1 : r 0 < 1) (u : ℕ → ℝ) :
    ∃ x < 2 ^ e.n, 0 < Complex.normSq (e.amp x) ∧ forceMDefault P e bits [] false r u = some (valueOf bits x, e) := by
  obtain ⟨x, hx, hp, hg⟩ := sampleClone_possible (P := P) he bits h0 h1 (u 0)
  exact ⟨x, hx, hp, by rw [forceMDefault, if_neg (by simp), if_neg (by simp), if_neg (by simp), hg]⟩

/-- A basis state of two qubits. -/
noncomputable def basis2 (k : ℕ) : Eng := ⟨2, fun i => if i = k then 1 else 0, 1, true, false, 0⟩

theorem basis2_steady {k : ℕ} (hk : k < 4) : (basis2 k).Steady := by
  refine ⟨?_, fun _ => rfl⟩
  unfold totalProb basis2
  have : k = 0 ∨ k = 1 ∨ k = 2 ∨ k = 3 := by omega
  rcases this with rfl | rfl | rfl | rfl <;> norm_num [Finset.sum_range_succ]

/-- The code violates C77: of the second qubit, which is certainly one, the inherited measurement without application returns 1, which is
the mask of the first qubit; with application it returns the mask 2 of the second. -/
theorem forceMDefault_packed_wrong {P : Par} (hP : P.Ok) {r : ℕ → ℝ} (h0 : 0 ≤ r 0) (h1 : r 0 < 1) (u : ℕ → ℝ) :
    forceMDefault P (basis2 2) [1] [] false r u = some (1, basis2 2) ∧ ∃ e', forceMDefault P (basis2 2) [1] [] true r u = some (2, e') := by
  have hs := basis2_steady (k := 2) (by norm_num)
  constructor
  · obtain ⟨x, hx, hp, h⟩ := forceMDefault_look_partial (P := P) hs [1] h0 h1 u
    have : x = 2 := by
      by_contra hne
      have : (basis2 2).amp x = 0 := if_neg hne
      rw [this] at hp; simp at hp
    subst this
    rw [h]; rfl
  · obtain ⟨v, e', h2, h3, h4, _⟩ := forceMDefault_measures hP (e := basis2 2) (by show 2 ≤ 64; norm_num) hs (bits := [1]) (by simp)
      (by intro b hb; rw [List.mem_singleton] at hb; subst hb; show 1 < 2; norm_num) r u
    have hv1 : v.testBit 1 = true := by
      by_contra hne
      have h5 : probIf 2 (Agrees [1] v) (basis2 2).amp = 0 := by
        unfold probIf
        apply Finset.sum_eq_zero
        intro i _
        by_cases hi : i = 2
        · subst hi
          rw [if_neg]
          intro hh
          have := hh 1 (by simp)
          exact hne (this.symm.trans (by decide))
        · rw [show (basis2 2).amp i = 0 from if_neg hi]; simp
      rw [show (basis2 2).n = 2 from rfl, h5] at h4
      exact lt_irrefl _ h4
    have : v = 2 := by
      apply Nat.eq_of_testBit_eq
      intro k
      by_cases hk : k = 1
      · subst hk; rw [hv1]; decide
      · have hz : v.testBit k = false := by
          by_contra hc
          have := h3 k (by simpa using hc)
          rw [List.mem_singleton] at this; exact hk this
        rw [hz, show (2 : ℕ) = 2 ^ 1 by norm_num, Nat.testBit_two_pow]
        simp [Ne.symm hk]
    subst this
    exact ⟨e', h2⟩

/-- A Bell pair. -/
noncomputable def bellPair : Eng := ⟨2, fun i => if i = 0 ∨ i = 3 then (Real.sqrt 2 : ℂ)⁻¹ else 0, 1, true, false, 0⟩

theorem bellPair_steady : bellPair.Steady := by
  refine ⟨?_, fun _ => rfl⟩
  unfold totalProb bellPair
  have h : Complex.normSq (Real.sqrt 2 : ℂ)⁻¹ = 1 / 2 := by
    rw [Complex.normSq_inv, Complex.normSq_ofReal, Real.mul_self_sqrt (by norm_num)]; norm_num
  norm_num [Finset.sum_range_succ, h]

theorem bellPair_half (q : ℕ) (hq : q < 2) (b : Bool) : qProb bellPair q b = 1 / 2 := by
  have h : Complex.normSq (Real.sqrt 2 : ℂ)⁻¹ = 1 / 2 := by
    rw [Complex.normSq_inv, Complex.normSq_ofReal, Real.mul_self_sqrt (by norm_num)]; norm_num
  have hq' : q = 0 ∨ q = 1 := by omega
  unfold qProb probIf bellPair
  rcases hq' with rfl | rfl <;> cases b <;> simp [Finset.sum_range_succ, h, Nat.testBit]

/-- The code violates C77: forced without application, the qubits of a Bell pair can be forced to different values, which have probability zero;
with application this is an exception. -/
theorem forceMDefault_impossible_wrong {P : Par} (hP : P.Ok) (r u : ℕ → ℝ) :
    forceMDefault P bellPair [0, 1] [true, false] false r u = some (1, bellPair) ∧
    probIf 2 (HasValues [0, 1] [true, false]) bellPair.amp = 0 ∧ forceMDefault P bellPair [0, 1] [true, false] true r u = none := by
  have hz : probIf 2 (HasValues [0, 1] [true, false]) bellPair.amp = 0 := by
    unfold probIf
    apply Finset.sum_eq_zero
    intro i _
    by_cases hi : i = 0 ∨ i = 3
    · rw [if_neg]
      intro hh
      obtain ⟨h1, h2⟩ := List.forall₂_cons.1 hh
      obtain ⟨h2, _⟩ := List.forall₂_cons.1 h2
      rcases hi with rfl | rfl <;> simp [Nat.testBit] at h1 h2
    · rw [show bellPair.amp i = 0 from if_neg hi]; simp
  refine ⟨?_, hz, ?_⟩
  · have hstep : ∀ q < 2, ∀ v r u, forceM P bellPair q v true false r u = some (v, bellPair) := by
      intro q hq v r u
      rw [forceM_eq hP (by show 2 ≤ 64; norm_num) bellPair_steady hq]
      have ho : outcome bellPair q v true r = v := by unfold outcome; rw [if_pos rfl]
      rw [ho, bellPair_half q hq, if_neg (by norm_num), if_neg (by simp)]
    rw [forceMDefault, if_neg (by simp), if_pos (by simp)]
    simp only [List.zip_cons_cons, List.zip_nil_right, measureEach, hstep 0 (by norm_num), hstep 1 (by norm_num), Option.bind_some]
    rfl
  · rcases forceMDefault_forced hP (e := bellPair) (by show 2 ≤ 64; norm_num) bellPair_steady (bits := [0, 1]) (by simp)
      (by intro b hb; show b < 2; simp at hb; omega) (values := [true, false]) rfl (by simp) r u with ⟨_, h⟩ | ⟨v, e', _, h2, _, h4, _⟩
    · exact h
    · exfalso
      have hval : ∀ i, Agrees [0, 1] v i ↔ HasValues [0, 1] [true, false] i := by
        intro i
        unfold HasValues at h2 ⊢
        simp only [List.forall₂_cons, List.forall₂_nil_right_iff, and_true] at h2 ⊢
        unfold Agrees
        simp [h2.1, h2.2]
      rw [show bellPair.n = 2 from rfl, probIf_congr (fun i _ => hval i) (fun _ _ => rfl), hz] at h4
      exact lt_irrefl _ h4

/-- Hypotheses of the theorems above: a Bell pair with normalisation on, a loop schedule that reverses, a register that is a part. -/
example : Exact bellPair ∧ bellPair.Steady ∧ Par.Ok ⟨List.reverse, 4, fun l => l % 4⟩ ∧ ¬ ((1 : ℕ) = 0 ∧ 1 = bellPair.n) :=
  ⟨⟨by show 2 ≤ 64; norm_num, Or.inr le_rfl⟩, bellPair_steady, ⟨fun l => List.reverse_perm l, fun l => Nat.mod_lt _ (by norm_num)⟩, by simp⟩

end Verif.Circ
