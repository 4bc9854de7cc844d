import Verif.Model.EngineIO
import Verif.Lemmas.EngineCompose

/-!
# C55: reading and writing amplitudes
-/

namespace Verif.Engine

open Verif.ParFor Verif.Spec Verif.Bits Verif.BlockFold Classical

theorem mem_calls {σ : List ℕ → List ℕ} (hσ : IsSched σ) (N x : ℕ) : x ∈ σ (parForPlan 0 N) ↔ x < N := by
  rw [(hσ _).mem_iff]; simp [parForPlan]

theorem fill_any {σ : List ℕ → List ℕ} (hσ : IsSched σ) (N : ℕ) (fresh f : ℕ → ℂ) (i : ℕ) :
    fill σ N fresh f i = if i < N then f i else fresh i := by
  by_cases h : i < N
  · rw [if_pos h]
    exact scatter_at (fun x => x) f (σ (parForPlan 0 N)) fresh (fun x _ y _ h => by rw [show x = y from h]) i
      ((mem_calls hσ _ _).2 h)
  · rw [if_neg h]
    exact scatter_off (fun x => x) f (σ (parForPlan 0 N)) fresh i
      (fun x hx hxi => h (hxi ▸ (mem_calls hσ _ _).1 hx))

theorem copyIn_any {σ : List ℕ → List ℕ} (hσ : IsSched σ) (page : ℕ → ℂ) (offset length : ℕ) (a : ℕ → ℂ) (i : ℕ) :
    copyIn σ page offset length a i = if offset ≤ i ∧ i < offset + length then page (i - offset) else a i := by
  by_cases h : offset ≤ i ∧ i < offset + length
  · rw [if_pos h]
    have := scatter_at (fun x => x + offset) page (σ (parForPlan 0 length)) a
      (fun x _ y _ h => by rw [show x = y by omega]) (i - offset) ((mem_calls hσ _ _).2 (by omega))
    simp only [show i - offset + offset = i by omega] at this
    exact this
  · rw [if_neg h]
    exact scatter_off (fun x => x + offset) page (σ (parForPlan 0 length)) a i
      (fun x hx hxi => h (by have := (mem_calls hσ _ _).1 hx; omega))

/-- C55. The range check accepts exactly the ranges inside of the register, even when `start + length` overflows. -/
theorem isBadPermRange_iff {start length n : ℕ} (hs : start < 2 ^ 64) (hl : length < 2 ^ 64) (hn : n < 64) :
    isBadPermRange start length (2 ^ n) = false ↔ start + length ≤ 2 ^ n := by
  have hp : 2 ^ n < 2 ^ 64 := Nat.pow_lt_pow_right (by norm_num) hn
  unfold isBadPermRange
  generalize 2 ^ n = N at *
  simp only [Bool.or_eq_false_iff, decide_eq_false_iff_not]
  by_cases h : start + length < 2 ^ 64
  · rw [Nat.mod_eq_of_lt h]; omega
  · rw [Nat.mod_eq_sub_mod (by omega), Nat.mod_eq_of_lt (by omega)]; omega

/-- C55. Writing a page of amplitudes changes exactly that page. -/
theorem setAmplitudePage_writes {σ : List ℕ → List ℕ} (hσ : IsSched σ) (fresh : ℕ → ℂ) (v : EngV) (page : ℕ → ℂ)
    {offset length : ℕ} (hs : offset < 2 ^ 64) (hl : length < 2 ^ 64) (hn : v.n < 64) (hr : offset + length ≤ 2 ^ v.n) :
    ∃ v', setAmplitudePage σ fresh v page offset length = some v' ∧ v'.n = v.n ∧
      ∀ i < 2 ^ v.n, v'.eng.amp i = if offset ≤ i ∧ i < offset + length then page (i - offset) else v.eng.amp i := by
  unfold setAmplitudePage
  rw [if_neg (by rw [(isBadPermRange_iff hs hl hn).2 hr]; simp)]
  refine ⟨_, rfl, rfl, ?_⟩
  intro i hi
  show copyIn σ page offset length _ i = _
  rw [copyIn_any hσ]
  unfold EngV.eng
  cases v.vec with
  | none =>
    simp only [Option.getD_none]
    unfold cleared
    rw [fill_any hσ, if_pos hi]
  | some a => rfl

/-- C55. Ranges outside of the register are rejected. -/
theorem amplitudePage_invalid {σ : List ℕ → List ℕ} (fresh : ℕ → ℂ) (v : EngV) (page out : ℕ → ℂ)
    {offset length : ℕ} (hs : offset < 2 ^ 64) (hl : length < 2 ^ 64) (hn : v.n < 64) (hr : 2 ^ v.n < offset + length) :
    setAmplitudePage σ fresh v page offset length = none ∧ getAmplitudePage σ v out offset length = none ∧
      ∀ src srcOffset, setAmplitudePageFrom σ fresh v src srcOffset offset length = none := by
  have hb : isBadPermRange offset length (2 ^ v.n) = true := by
    by_contra h
    have := (isBadPermRange_iff hs hl hn).1 (by simpa using h)
    omega
  refine ⟨?_, ?_, ?_⟩
  · unfold setAmplitudePage; rw [if_pos hb]
  · unfold getAmplitudePage; rw [if_pos hb]
  · intro src srcOffset; unfold setAmplitudePageFrom; rw [if_pos hb]

/-- C55. Reading a page returns the amplitudes of that page. -/
theorem getAmplitudePage_reads {σ : List ℕ → List ℕ} (hσ : IsSched σ) (v : EngV) (out : ℕ → ℂ)
    {offset length : ℕ} (hs : offset < 2 ^ 64) (hl : length < 2 ^ 64) (hn : v.n < 64) (hr : offset + length ≤ 2 ^ v.n) :
    ∃ r, getAmplitudePage σ v out offset length = some r ∧ (∀ i < length, r i = v.eng.amp (offset + i)) ∧
      ∀ i, length ≤ i → r i = out i := by
  unfold getAmplitudePage
  rw [if_neg (by rw [(isBadPermRange_iff hs hl hn).2 hr]; simp)]
  unfold EngV.eng
  cases v.vec with
  | none =>
    refine ⟨_, rfl, ?_, ?_⟩
    · intro i hi
      have := fill_any hσ length out (fun _ => 0) i
      rw [if_pos hi] at this
      exact this
    · intro i hi
      have := fill_any hσ length out (fun _ => 0) i
      rw [if_neg (by omega)] at this
      exact this
  | some a =>
    refine ⟨_, rfl, ?_, ?_⟩
    · intro i hi
      have := fill_any hσ length out (fun lcv => a (lcv + offset)) i
      rw [if_pos hi] at this
      rw [Nat.add_comm offset]
      exact this
    · intro i hi
      have := fill_any hσ length out (fun lcv => a (lcv + offset)) i
      rw [if_neg (by omega)] at this
      exact this

/-- C55. Writing a page from another engine copies exactly that page. -/
theorem setAmplitudePageFrom_copies {σ : List ℕ → List ℕ} (hσ : IsSched σ) (fresh : ℕ → ℂ) (v src : EngV)
    {srcOffset dstOffset length : ℕ} (hss : srcOffset < 2 ^ 64) (hs : dstOffset < 2 ^ 64) (hl : length < 2 ^ 64)
    (hn : v.n < 64) (hn' : src.n < 64) (hr : dstOffset + length ≤ 2 ^ v.n) (hr' : srcOffset + length ≤ 2 ^ src.n) :
    ∃ v', setAmplitudePageFrom σ fresh v src srcOffset dstOffset length = some v' ∧ v'.n = v.n ∧
      ∀ i < 2 ^ v.n, v'.eng.amp i =
        if dstOffset ≤ i ∧ i < dstOffset + length then src.eng.amp (srcOffset + (i - dstOffset)) else v.eng.amp i := by
  unfold setAmplitudePageFrom
  rw [if_neg (by rw [(isBadPermRange_iff hs hl hn).2 hr]; simp), if_neg (by rw [(isBadPermRange_iff hss hl hn').2 hr']; simp)]
  cases hv : v.vec with
  | none =>
    cases hw : src.vec with
    | none =>
      refine ⟨v, rfl, rfl, ?_⟩
      intro i _
      unfold EngV.eng
      rw [hv, hw]
      simp
    | some b =>
      refine ⟨_, rfl, rfl, ?_⟩
      intro i hi
      show copyIn σ _ dstOffset length _ i = _
      rw [copyIn_any hσ]
      unfold EngV.eng
      rw [hv, hw]
      simp only [Option.getD_none, Option.getD_some]
      unfold cleared
      rw [fill_any hσ, if_pos hi]
  | some a =>
    cases hw : src.vec with
    | none =>
      simp only []
      by_cases h : length = 2 ^ v.n
      · rw [if_pos h]
        refine ⟨_, rfl, rfl, ?_⟩
        intro i hi
        unfold EngV.eng
        rw [hw]
        simp only [Option.getD_none]
        rw [if_pos (by omega)]
      · rw [if_neg h]
        refine ⟨_, rfl, rfl, ?_⟩
        intro i hi
        show copyIn σ _ dstOffset length _ i = _
        rw [copyIn_any hσ]
        unfold EngV.eng
        rw [hv, hw]
        simp only [Option.getD_none, Option.getD_some]
    | some b =>
      refine ⟨_, rfl, rfl, ?_⟩
      intro i hi
      show copyIn σ _ dstOffset length _ i = _
      rw [copyIn_any hσ]
      unfold EngV.eng
      rw [hv, hw]
      simp only [Option.getD_some]

/-- C55. `SetAmplitude` changes one amplitude, and keeps the running norm equal to the total probability. `_partial`: on an
engine with an array, see `setAmplitude_crash`. -/
theorem setAmplitude_partial (σ : List ℕ → List ℕ) (fresh : ℕ → ℂ) (v : EngV) {a : ℕ → ℂ} (hv : v.vec = some a) {perm : ℕ}
    (hp : perm < 2 ^ v.n) (amp : ℂ) :
    ∃ v', setAmplitude σ fresh v perm amp = .done v' ∧ v'.n = v.n ∧ getAmplitudeV v' perm = some amp ∧
      (∀ i < 2 ^ v.n, i ≠ perm → getAmplitudeV v' i = getAmplitudeV v i) ∧
      (v.rn = totalProb v.n v.eng.amp → v'.rn = totalProb v.n v'.eng.amp) := by
  unfold setAmplitude
  rw [if_neg (by omega), hv]
  refine ⟨_, rfl, rfl, ?_, ?_, ?_⟩
  · unfold getAmplitudeV
    simp only []
    rw [if_neg (by omega), Function.update_self]
  · intro i hi hne
    unfold getAmplitudeV
    simp only []
    rw [if_neg (by omega), if_neg (by omega), hv, Function.update_of_ne hne]
  · intro hr
    have h0 : v.rn ≠ defaultArg := by
      have : 0 ≤ v.rn := by
        rw [hr]; exact Finset.sum_nonneg fun _ _ => Complex.normSq_nonneg _
      unfold defaultArg
      intro h; linarith
    have hva : v.eng.amp = a := by unfold EngV.eng; rw [hv]; rfl
    show (if v.rn ≠ defaultArg then v.rn + (Complex.normSq amp - Complex.normSq (a perm)) else v.rn) =
      totalProb v.n (Function.update a perm amp)
    rw [if_pos h0, hr, hva]
    unfold totalProb
    have hm : perm ∈ Finset.range (2 ^ v.n) := Finset.mem_range.2 hp
    rw [← Finset.add_sum_erase _ _ hm, ← Finset.add_sum_erase _ _ hm, Function.update_self]
    have : ∑ i ∈ (Finset.range (2 ^ v.n)).erase perm, Complex.normSq (Function.update a perm amp i) =
        ∑ i ∈ (Finset.range (2 ^ v.n)).erase perm, Complex.normSq (a i) :=
      Finset.sum_congr rfl fun i hi => by rw [Function.update_of_ne (Finset.ne_of_mem_erase hi)]
    rw [this]; ring

/-- Against C55. `SetAmplitude` of a nonzero value on an engine whose array was released by `ZeroAmplitudes` dereferences a
null pointer. -/
theorem setAmplitude_crash (σ : List ℕ → List ℕ) (fresh : ℕ → ℂ) (v : EngV) (hv : v.vec = none) (hr : v.rn = 0) {perm : ℕ}
    (hp : perm < 2 ^ v.n) {amp : ℂ} (ha : amp ≠ 0) : setAmplitude σ fresh v perm amp = .crash := by
  unfold setAmplitude
  rw [if_neg (by omega), hv]
  simp only []
  rw [if_neg (by simpa using ha), if_pos (by rw [hr]; unfold defaultArg; norm_num)]

/-- C55. `SetPermutation` puts the register into the basis state, with a phase of magnitude one. -/
theorem setPermutation_basis {σ : List ℕ → List ℕ} (hσ : IsSched σ) (fresh : ℕ → ℂ) (v : EngV) {perm : ℕ}
    (hp : perm < 2 ^ v.n) (phaseFac : Option ℂ) (hph : phaseFac ≠ some 0) (draw : ℝ) :
    ∃ v', setPermutationV σ fresh v perm phaseFac draw = some v' ∧ v'.n = v.n ∧ v'.rn = 1 ∧
      ‖v'.eng.amp perm‖ = 1 ∧ (∀ i < 2 ^ v.n, i ≠ perm → v'.eng.amp i = 0) ∧
      (phaseFac = none → v.rgp = false → v'.eng.amp perm = 1) ∧
      (∀ p, phaseFac = some p → ‖p‖ = 1 → v'.eng.amp perm = p) := by
  unfold setPermutationV
  simp only []
  rw [if_neg (by omega)]
  have hamp : ∀ (a : ℕ → ℂ) (rn : ℝ) (z : ℂ),
      (EngV.eng { v with vec := some (Function.update a perm z), rn := rn }).amp = Function.update a perm z := fun _ _ _ => rfl
  refine ⟨_, rfl, rfl, rfl, ?_, ?_, ?_, ?_⟩
  · rw [hamp, Function.update_self]
    cases phaseFac with
    | none =>
      simp only []
      by_cases h : v.rgp = true
      · rw [if_pos h, Complex.norm_exp_ofReal_mul_I]
      · rw [if_neg h]; simp
    | some p =>
      have hp0 : p ≠ 0 := fun h => hph (by rw [h])
      simp only []
      rw [norm_div, Complex.norm_real, norm_norm, div_self (norm_ne_zero_iff.2 hp0)]
  · intro i hi hne
    rw [hamp, Function.update_of_ne hne, fill_any hσ, if_pos hi]
  · intro h1 h2
    subst h1
    rw [hamp, Function.update_self]
    simp [h2]
  · intro p h1 h2
    subst h1
    rw [hamp, Function.update_self]
    simp [h2]

/-- C55. Without automatic normalisation, a state that was set is read back unchanged. -/
theorem getQuantumState_set {σ : List ℕ → List ℕ} (hσ : IsSched σ) (fresh out : ℕ → ℂ) (v : EngV) (input : ℕ → ℂ)
    (hd : v.doNorm = false) : SameOn v.n (getQuantumState σ (setQuantumState σ fresh v input) out) input := by
  intro i hi
  unfold getQuantumState setQuantumState
  simp only []
  rw [fill_any hσ, if_pos hi]
  unfold normIf EngV.eng
  simp only [hd]
  show fill σ _ _ _ i = _
  rw [fill_any hσ, if_pos hi]

/-- C55. With automatic normalisation, a state that was set is read back divided by its length, provided that no amplitude
lies below the floor. -/
theorem getQuantumState_set_normalised {σ : List ℕ → List ℕ} (hσ : IsSched σ) (fresh out : ℕ → ℂ) (v : EngV)
    (input : ℕ → ℂ) (hd : v.doNorm = true) (hf : ∀ i < 2 ^ v.n, v.floor ≤ Complex.normSq (input i))
    (ht : 0 < totalProb v.n input) :
    SameOn v.n (getQuantumState σ (setQuantumState σ fresh v input) out)
      (fun i => input i / (Real.sqrt (totalProb v.n input) : ℝ)) := by
  intro i hi
  unfold getQuantumState setQuantumState
  simp only []
  rw [fill_any hσ, if_pos hi]
  have hamp : ∀ j < 2 ^ v.n, fill σ (2 ^ v.n) (v.vec.getD fresh) input j = input j := fun j hj => by
    rw [fill_any hσ, if_pos hj]
  have hsum : (∑ j ∈ Finset.range (2 ^ v.n),
      (if Complex.normSq (fill σ (2 ^ v.n) (v.vec.getD fresh) input j) < v.floor then 0
        else Complex.normSq (fill σ (2 ^ v.n) (v.vec.getD fresh) input j))) = totalProb v.n input := by
    unfold totalProb
    apply Finset.sum_congr rfl
    intro j hj
    have hj := Finset.mem_range.1 hj
    rw [hamp j hj, if_neg (not_lt.2 (hf j hj))]
  unfold normIf EngV.eng
  simp only [hd, if_true]
  unfold normalizeState
  simp only [if_true]
  unfold updateRunningNorm
  simp only [Option.getD_some]
  rw [hsum, if_neg (not_le.2 ht)]
  simp only []
  rw [if_neg (not_le.2 ht)]
  have hsq : (1 : ℂ) / ((Real.sqrt (totalProb v.n input) : ℝ) : ℂ) * input i =
      input i / ((Real.sqrt (totalProb v.n input) : ℝ) : ℂ) := by ring
  by_cases h1 : |1 - totalProb v.n input| ≤ 0
  · rw [if_pos h1]
    have : totalProb v.n input = 1 := by
      have := abs_nonpos_iff.1 h1; linarith
    rw [this]
    simp only [Real.sqrt_one, Complex.ofReal_one, div_one]
    exact hamp i hi
  · rw [if_neg h1]
    simp only []
    refine Eq.trans (fold_map hσ v.n (fun _ z =>
      (if v.floor ≤ 0 then ((1 / Real.sqrt (totalProb v.n input) : ℝ) : ℂ) * z
        else ((1 / Real.sqrt (totalProb v.n input) : ℝ) : ℂ) * clip v.floor z))
      (fill σ (2 ^ v.n) (v.vec.getD fresh) input) i) ?_
    rw [if_pos hi]
    rw [hamp i hi]
    have hc : clip v.floor (input i) = input i := by
      unfold clip; rw [if_neg (not_lt.2 (hf i hi))]
    rw [hc, ite_self]
    push_cast
    exact hsq

/-- C55. `GetProbs` gives the squared magnitudes of the amplitudes. -/
theorem getProbs_spec {σ : List ℕ → List ℕ} (hσ : IsSched σ) (out : ℕ → ℂ) (v : EngV)
    (hr : v.doNorm = true → v.rn = 1) {i : ℕ} (hi : i < 2 ^ v.n) :
    getProbs σ v out i = ((Complex.normSq (v.eng.amp i) : ℝ) : ℂ) := by
  unfold getProbs
  cases hv : v.vec with
  | none =>
    simp only []
    rw [fill_any hσ, if_pos hi]
    unfold EngV.eng
    rw [hv]; simp
  | some a =>
    simp only []
    rw [fill_any hσ, if_pos hi, normIf_ready (by exact hr)]

/-! ### Examples -/

/-- Two qubits without an array. -/
def exEmpty : EngV := { n := 2, vec := none, rn := 0, doNorm := true, rgp := true, floor := 0 }

/-- A page of two amplitudes is written above a page of zeros; a later single amplitude would have crashed before. -/
example : (∃ v', setAmplitudePage id (fun _ => 7) exEmpty (fun k => if k = 0 then 3 / 5 else 4 / 5) 2 2 = some v' ∧
    v'.eng.amp 0 = 0 ∧ v'.eng.amp 3 = 4 / 5) ∧ setAmplitude id (fun _ => 7) exEmpty 3 (1 / 2) = .crash := by
  constructor
  · obtain ⟨v', h1, _, h3⟩ := setAmplitudePage_writes (σ := id) (fun l => List.Perm.refl l) (fun _ => 7) exEmpty
      (fun k => if k = 0 then 3 / 5 else 4 / 5) (offset := 2) (length := 2) (by norm_num) (by norm_num)
      (by simp [exEmpty]) (by simp [exEmpty])
    refine ⟨v', h1, ?_, ?_⟩
    · rw [h3 0 (by simp [exEmpty])]; simp [EngV.eng, exEmpty]
    · rw [h3 3 (by simp [exEmpty])]; simp
  · exact setAmplitude_crash _ _ _ rfl rfl (by simp [exEmpty]) (by norm_num)

/-- The hypotheses of `getQuantumState_set_normalised` hold for `(3, 0, 0, 4i)`. -/
example : getQuantumState id (setQuantumState id (fun _ => 7) exEmpty
    (fun i => if i = 0 then 3 else if i = 3 then 4 * Complex.I else 0)) (fun _ => 9) 3 = 4 / 5 * Complex.I := by
  have ht : totalProb 2 (fun i => if i = 0 then 3 else if i = 3 then 4 * Complex.I else 0) = 25 := by
    unfold totalProb
    simp only [show 2 ^ 2 = 4 from rfl, Finset.sum_range_succ, Finset.sum_range_zero]
    norm_num [Complex.normSq_apply]
  have := getQuantumState_set_normalised (σ := id) (fun l => List.Perm.refl l) (fun _ => 7) (fun _ => 9) exEmpty
    (fun i => if i = 0 then 3 else if i = 3 then 4 * Complex.I else 0) rfl (fun _ _ => Complex.normSq_nonneg _)
    (by show 0 < totalProb 2 _; rw [ht]; norm_num) 3 (by simp [exEmpty])
  rw [this]
  show (if 3 = 0 then 3 else if 3 = 3 then 4 * Complex.I else 0) / ((Real.sqrt (totalProb 2 _) : ℝ) : ℂ) = _
  rw [ht, show (25 : ℝ) = 5 ^ 2 by norm_num, Real.sqrt_sq (by norm_num)]
  norm_num
  ring

end Verif.Engine
