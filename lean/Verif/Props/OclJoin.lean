import Verif.Lemmas.OclJoin

/-!
# C61: joining and splitting OpenCL registers
-/

namespace Verif.Ocl

open Verif.ParFor Verif.Bits Verif.PairFold Verif.Spec Verif.Engine Classical

variable {R : Rt}

/-! ### Compose -/

theorem composeWith_fill (hR : R.Ok) (fresh : ℕ → ℂ) (wide : Bool) (term : (ℕ → ℕ) → (ℕ → ℂ) → (ℕ → ℂ) → ℕ → ℂ) {a b : Held}
    {l : List ℕ} (hw : wide = true → 2 ^ (a.e.n + b.e.n) ≤ R.d.count) (hal : a.live = true) (hbl : b.live = true)
    (ha : a.e.n ≠ 0) (hb : b.e.n ≠ 0) (hra : a.e.doNorm = true → a.e.rn = 1) (hrb : b.e.doNorm = true → b.e.rn = 1) :
    composeWith R fresh wide term (2 ^ (a.e.n + b.e.n) :: l) a b =
      some (⟨{ a.e with
        n := a.e.n + b.e.n
        amp := fun i => if i < 2 ^ (a.e.n + b.e.n) then
          term (writeBuf 7 (arr (2 ^ (a.e.n + b.e.n) :: l)) R.old.ul) a.e.amp b.e.amp i else fresh i }, true⟩, b) := by
  unfold composeWith
  rw [if_neg hb, if_neg (by rw [hal, hbl]; simp), if_neg ha, normIf_ready' hra, Option.bind_some, normIf_ready' hrb,
    Option.bind_some]
  simp only []
  rw [if_pos (sizes_ok hR.d _)]
  have hbb : (⟨b.e, true⟩ : Held) = b := by rw [← hbl]
  rw [hbb]
  congr 5
  funext i
  refine fill_plan ?_ _ _ i
  rw [show writeBuf 7 (arr (2 ^ (a.e.n + b.e.n) :: l)) R.old.ul 0 = 2 ^ (a.e.n + b.e.n) from rfl]
  refine ((hR.σ _).map _).trans ?_
  by_cases h : wide = true
  · rw [if_pos h, widePlan_snd]
    have : ngc R.d (2 ^ (a.e.n + b.e.n)) = 2 ^ (a.e.n + b.e.n) := by
      unfold ngc fixWorkItemCount
      rcases Nat.lt_or_ge (2 ^ (a.e.n + b.e.n)) R.d.count with h' | h'
      · rw [if_pos h']
      · rw [if_neg (by omega), show R.d.count = 2 ^ (a.e.n + b.e.n) from le_antisymm h' (hw h), Nat.log2_two_pow]
    rw [this]
  · rw [if_neg h]
    exact loopPlan_perm (ngc_pos hR.d _)

/-- **C61.** `Compose` is the tensor product, the new qubits on top. -/
theorem compose_is (hR : R.Ok) (fresh : ℕ → ℂ) {a b : Held} (hal : a.live = true) (hbl : b.live = true)
    (ha : a.e.n ≠ 0) (hb : b.e.n ≠ 0) (hra : a.e.doNorm = true → a.e.rn = 1) (hrb : b.e.doNorm = true → b.e.rn = 1) :
    ∃ r, compose R fresh a b = some (⟨r, true⟩, b) ∧ r.n = a.e.n + b.e.n ∧ r.rn = a.e.rn ∧ r.doNorm = a.e.doNorm ∧
      SameOn r.n r.amp (tensorAt a.e.n b.e.n a.e.amp b.e.amp) := by
  unfold compose
  simp only []
  rw [composeWith_fill hR fresh _ _ (by simp) hal hbl ha hb hra hrb]
  refine ⟨_, rfl, rfl, rfl, rfl, ?_⟩
  intro i hi
  have hi : i < 2 ^ (a.e.n + b.e.n) := hi
  show (if i < 2 ^ (a.e.n + b.e.n) then _ else _) = _
  rw [if_pos hi]
  unfold composeTerm
  rw [zmul_eq]
  show a.e.amp (i &&& (2 ^ a.e.n - 1)) * b.e.amp ((i &&& ((2 ^ b.e.n - 1) <<< a.e.n)) >>> a.e.n) = _
  rw [and_low, read_part]
  unfold tensorAt
  rw [rest_top hi]

/-- **C61.** `Compose(toCopy, start)` puts the new qubits at `start`. -/
theorem composeAt_is (hR : R.Ok) (fresh : ℕ → ℂ) {a b : Held} {start : ℕ} (hal : a.live = true) (hbl : b.live = true)
    (ha : a.e.n ≠ 0) (hb : b.e.n ≠ 0) (hs : start ≤ a.e.n) (h64 : a.e.n + b.e.n ≤ 64)
    (hra : a.e.doNorm = true → a.e.rn = 1) (hrb : b.e.doNorm = true → b.e.rn = 1) :
    ∃ r, composeAt R fresh a b start = some (⟨r, true⟩, b) ∧ r.n = a.e.n + b.e.n ∧ r.rn = a.e.rn ∧ r.doNorm = a.e.doNorm ∧
      SameOn r.n r.amp (tensorAt start b.e.n a.e.amp b.e.amp) := by
  unfold composeAt
  rw [if_neg (by omega)]
  simp only []
  rw [composeWith_fill hR fresh _ _ (by simp) hal hbl ha hb hra hrb]
  refine ⟨_, rfl, rfl, rfl, rfl, ?_⟩
  intro i hi
  have hi : i < 2 ^ (a.e.n + b.e.n) := hi
  show (if i < 2 ^ (a.e.n + b.e.n) then _ else _) = _
  rw [if_pos hi]
  unfold composemidTerm
  rw [zmul_eq]
  have := read_rest (s := start) (l := b.e.n) (n := a.e.n) hs h64 hi
  show a.e.amp ((i &&& (2 ^ start - 1)) ||| ((i &&& ((2 ^ (a.e.n + b.e.n) - 1) &&& ((2 ^ 64 - 1) ^^^
    ((2 ^ start - 1) ||| ((2 ^ b.e.n - 1) <<< start))))) >>> b.e.n)) *
    b.e.amp ((i &&& ((2 ^ b.e.n - 1) <<< start)) >>> start) = _
  rw [this, read_part]
  rfl

/-- **C61.** Composing normalised registers gives a normalised register. -/
theorem composeAt_steady (hR : R.Ok) (fresh : ℕ → ℂ) {a b : Held} {start : ℕ} (hal : a.live = true) (hbl : b.live = true)
    (ha : a.e.n ≠ 0) (hb : b.e.n ≠ 0) (hs : start ≤ a.e.n) (h64 : a.e.n + b.e.n ≤ 64)
    (hra : a.e.Steady) (hrb : b.e.Steady) :
    ∃ r, composeAt R fresh a b start = some (⟨r, true⟩, b) ∧ r.Steady := by
  obtain ⟨r, h1, h2, h3, h4, h5⟩ := composeAt_is hR fresh hal hbl ha hb hs h64 hra.2 hrb.2
  refine ⟨r, h1, ?_, fun h => by rw [h3]; exact hra.2 (by rw [← h4]; exact h)⟩
  have : totalProb r.n r.amp = totalProb r.n (tensorAt start b.e.n a.e.amp b.e.amp) := by
    unfold totalProb
    exact Finset.sum_congr rfl fun i hi => by rw [h5 i (Finset.mem_range.1 hi)]
  rw [this, h2, totalProb_tensorAt hs, hra.1, hrb.1, one_mul]

/-- **C61.** `Allocate` adds qubits that are 0. -/
theorem allocate_is (hR : R.Ok) (fresh : ℕ → ℂ) {a : Held} {start length : ℕ} (hal : a.live = true) (ha : a.e.n ≠ 0)
    (hs : start ≤ a.e.n) (h64 : a.e.n + length ≤ 64) (hl : length ≠ 0) (hra : a.e.doNorm = true → a.e.rn = 1) :
    ∃ r, allocate R fresh a start length = some ⟨r, true⟩ ∧ r.n = a.e.n + length ∧
      ∀ i < 2 ^ r.n, r.amp i = if field start length i = 0 then a.e.amp (rest start length i) else 0 := by
  unfold allocate
  rw [if_neg hl]
  obtain ⟨r, h1, h2, -, -, h5⟩ := composeAt_is hR fresh (a := a)
    (b := ⟨{ a.e with n := length, amp := fun i => if i = 0 then 1 else 0, rn := 1 }, true⟩) hal rfl ha hl hs h64 hra
    (fun _ => rfl)
  refine ⟨r, by rw [h1]; rfl, h2, fun i hi => ?_⟩
  rw [h5 i hi]
  unfold tensorAt
  show _ * (if _ then _ else _) = _
  by_cases h : field start length i = 0
  · rw [if_pos h, if_pos h, mul_one]
  · rw [if_neg h, if_neg h, mul_zero]

/-- **C61.** Composing an empty register changes nothing, and composing into an empty register that has a buffer copies. -/
theorem compose_empties (fresh : ℕ → ℂ) {a b : Held} :
    (b.e.n = 0 → compose R fresh a b = some (a, b)) ∧
    (a.e.n = 0 → a.live = true → b.live = true → b.e.n ≠ 0 →
      ∃ r, compose R fresh a b = some (⟨r, true⟩, b) ∧ r.n = b.e.n ∧ r.amp = b.e.amp) := by
  constructor
  · intro h
    unfold compose composeWith
    simp only []
    rw [if_pos h]
  · intro h h1 h2 h3
    unfold compose composeWith
    simp only []
    rw [if_neg h3, if_neg (by rw [h1, h2]; simp), if_pos h]
    exact ⟨_, rfl, rfl, rfl⟩

/-! ### Dispose with a known value -/

/-- **C61.** `Dispose` of a range in a known permutation keeps the amplitudes of that permutation. -/
theorem disposePerm_is (hR : R.Ok) (fresh : ℕ → ℂ) {a : Held} {start length perm : ℕ} (hal : a.live = true)
    (hs : start + length ≤ a.e.n) (h0 : length ≠ 0) (hl : length < a.e.n) (h64 : a.e.n ≤ 64) (hp : perm < 2 ^ length)
    (hr : a.e.doNorm = true → a.e.rn = 1) :
    ∃ r, disposePerm R fresh a start length perm = some ⟨r, true⟩ ∧ r.n = a.e.n - length ∧
      ∀ i < 2 ^ r.n, r.amp i = a.e.amp (insertAt start length perm i) := by
  unfold disposePerm
  rw [if_neg h0, if_neg (by omega), if_neg (by rw [hal]; simp), if_neg (by omega), normIf_ready' hr, Option.bind_some]
  simp only []
  generalize hul : writeBuf 4 (arr [2 ^ (a.e.n - length), length, 2 ^ start - 1, perm <<< start % 2 ^ 64]) R.old.ul = ul
  have u0 : ul 0 = 2 ^ (a.e.n - length) := by rw [← hul]; rfl
  have u1 : ul 1 = length := by rw [← hul]; rfl
  have u2 : ul 2 = 2 ^ start - 1 := by rw [← hul]; rfl
  have u3 : ul 3 = perm <<< start % 2 ^ 64 := by rw [← hul]; rfl
  rw [u0, launch_update hR _ (fun x (_ : ℂ) => disposeTerm ul a.e.amp x), Option.map_some]
  refine ⟨_, rfl, rfl, fun i hi => ?_⟩
  have hi : i < 2 ^ (a.e.n - length) := hi
  show (if i < 2 ^ (a.e.n - length) then _ else _) = _
  rw [if_pos hi]
  have hlt : insertAt start length perm i < 2 ^ 64 :=
    lt_of_lt_of_le (insertAt_lt hp hs hi) (Nat.pow_le_pow_right (by norm_num) h64)
  unfold disposeTerm
  simp only []
  rw [u1, u2, u3, shift_lt hp hlt]
  have := regIdx_or hp hlt
  unfold regIdx at this
  simp only [] at this
  rw [this]

/-- Against C61 (and C24). Disposing every qubit drops the buffer, and whatever is composed or allocated afterwards has all
amplitudes zero. -/
theorem dispose_all_then_zero (fresh : ℕ → ℂ) {a b : Held} (ha : a.e.n ≠ 0) (hal : a.live = true) (hb : b.e.n ≠ 0)
    (perm : ℕ) : ∃ c, disposePerm R fresh a 0 a.e.n perm = some c ∧ c.e.n = 0 ∧
      (∃ r, compose R fresh c b = some (r, b) ∧ r.e.n = b.e.n ∧ ∀ i, r.e.amp i = 0) ∧
      ∀ length, length ≠ 0 → ∃ r, allocate R fresh c 0 length = some r ∧ r.e.n = length ∧ ∀ i, r.e.amp i = 0 := by
  unfold disposePerm
  rw [if_neg ha, if_neg (lt_irrefl _), if_neg (by rw [hal]; simp), if_pos rfl]
  refine ⟨_, rfl, rfl, ?_, ?_⟩
  · unfold compose composeWith
    simp only []
    rw [if_neg hb, if_pos (by simp)]
    exact ⟨_, rfl, Nat.zero_add _, fun _ => rfl⟩
  · intro length hl
    unfold allocate composeAt composeWith
    rw [if_neg hl]
    simp only []
    rw [if_neg (lt_irrefl _), if_neg hl, if_pos (by simp)]
    exact ⟨_, rfl, Nat.zero_add _, fun _ => rfl⟩

/-! ### Decompose -/

theorem decomposeamp_polar (p t : ℕ → ℝ) (i : ℕ) : decomposeampTerm p t i = polar (p i) (t i) := by
  unfold decomposeampTerm polar
  congr 1
  rw [Real.sin_add_pi_div_two, Complex.exp_mul_I]
  apply Complex.ext <;> simp [Complex.cos_ofReal_re, Complex.sin_ofReal_re]

/-- The number of work-items of the kernels `decomposeprob` and `disposeprob`. -/
def decomposeItems (d : Dev) (n length : ℕ) : ℕ :=
  ngc d (if 2 ^ length > 2 ^ (n - length) then 2 ^ length else 2 ^ (n - length))

theorem larger_pow (x y : ℕ) : ∃ m, (if 2 ^ x > 2 ^ y then 2 ^ x else 2 ^ y) = 2 ^ m := by
  by_cases h : 2 ^ x > 2 ^ y
  · exact ⟨x, by rw [if_pos h]⟩
  · exact ⟨y, by rw [if_neg h]⟩

/-- The condition under which the last launch is accepted. -/
def LastLaunchOk (d : Dev) (n length : ℕ) : Prop := length ≤ n - length ∨ d.size ≤ ngc d (2 ^ (n - length))

theorem decompose_sizes {d : Dev} (hd : d.Ok) {n length : ℕ} (hok : LastLaunchOk d n length) :
    let g := decomposeItems d n length
    sizesOk g (fixGroupSize g d.size) ∧ sizesOk (ngc d (2 ^ length)) (fixGroupSize (ngc d (2 ^ length)) d.size) ∧
      sizesOk (ngc d (2 ^ (n - length))) (fixGroupSize g d.size) := by
  intro g
  obtain ⟨m, hm⟩ := larger_pow length (n - length)
  have hg : g = ngc d (2 ^ m) := by show decomposeItems d n length = _; unfold decomposeItems; rw [hm]
  refine ⟨by rw [hg]; exact sizes_ok hd m, sizes_ok hd length, ?_⟩
  rcases hok with h | h
  · have : ¬ 2 ^ length > 2 ^ (n - length) := by
      have := Nat.pow_le_pow_right (n := 2) (by norm_num) h
      omega
    have hg' : g = ngc d (2 ^ (n - length)) := by
      show decomposeItems d n length = _; unfold decomposeItems; rw [if_neg this]
    rw [hg']
    exact sizes_ok hd _
  · obtain ⟨k, hk⟩ := hd.size
    obtain ⟨b, -, hb⟩ := ngc_pow hd (n - length)
    obtain ⟨c, -, hc⟩ := ngc_pow hd m
    have hkb : k ≤ b := by
      rw [hk, hb] at h
      exact (Nat.pow_le_pow_iff_right (by norm_num)).1 h
    have hbc : b ≤ c := by
      have hmn : n - length ≤ m := by
        have : 2 ^ (n - length) ≤ 2 ^ m := by rw [← hm]; split_ifs <;> omega
        exact (Nat.pow_le_pow_iff_right (by norm_num)).1 this
      have hmono : ngc d (2 ^ (n - length)) ≤ ngc d (2 ^ m) := by
        have h2 : 2 ^ (n - length) ≤ 2 ^ m := Nat.pow_le_pow_right (by norm_num) hmn
        unfold ngc fixWorkItemCount
        by_cases h3 : d.count > 2 ^ m
        · rw [if_pos h3, if_pos (lt_of_le_of_lt h2 h3)]; exact h2
        · rw [if_neg h3]
          by_cases h4 : d.count > 2 ^ (n - length)
          · rw [if_pos h4]
            apply Nat.pow_le_pow_right (by norm_num)
            exact (Nat.le_log2 (by have := hd.count; omega)).2 h4.le
          · rw [if_neg h4]
      rw [hb, hc] at hmono
      exact (Nat.pow_le_pow_iff_right (by norm_num)).1 hmono
    have hfg : fixGroupSize g d.size = 2 ^ k := by
      rw [hg, hc, hk]
      unfold fixGroupSize
      have : ¬ 2 ^ k > 2 ^ c := by
        have := Nat.pow_le_pow_right (n := 2) (by norm_num) (hkb.trans hbc)
        omega
      rw [if_neg this, Nat.mod_eq_zero_of_dvd (pow_dvd_pow 2 (hkb.trans hbc)), Nat.sub_zero]
    rw [hfg, hb]
    exact ⟨by positivity, Nat.mod_eq_zero_of_dvd (pow_dvd_pow 2 hkb)⟩

/-- When the work-items run the loops in step, `Decompose` computes what `QEngineCPU` computes (without a floor). -/
theorem decompose_lockstep (hR : R.Ok) (fresh : ℕ → ℂ) {e : Eng} {start length : ℕ} {tr : List (ℕ × ℕ × ℕ)}
    (hs : start + length ≤ e.n) (h0 : length ≠ 0) (hl : length < e.n) (h64 : e.n ≤ 64)
    (hr : e.doNorm = true → e.rn = 1) (hok : LastLaunchOk R.d e.n length)
    (htr : IsDecomposeRun (decomposeItems R.d e.n length) (2 ^ length) (2 ^ (e.n - length)) tr) (hlock : Lockstep tr) :
    ∃ r d r' d', decomposeDispose R tr fresh e start length = some (r, d) ∧
      Engine.decomposeDispose id fresh { e with floor := 0 } start length = some (r', d') ∧
      r.n = e.n - length ∧ r'.n = e.n - length ∧ SameOn r.n r.amp r'.amp ∧ SameOn length d d' := by
  obtain ⟨r', d', c1, c2, c3, c4⟩ := decompose_formula (σ := id) (fun l => List.Perm.refl l) fresh (e := { e with floor := 0 })
    hs h0 hl hr
  obtain ⟨m, hm⟩ := larger_pow length (e.n - length)
  have hN : 0 < decomposeItems R.d e.n length := by unfold decomposeItems; rw [hm]; exact ngc_pos hR.d m
  obtain ⟨f1, f2⟩ := lockstep_result (start := start) (len := length) (s := e.amp) hN htr hlock
  have hcell : ∀ k < 2 ^ length, ∀ i < 2 ^ (e.n - length), cellOf start length e.amp k i = e.amp (insertAt start length k i) := by
    intro k hk i hi
    unfold cellOf
    rw [regIdx_or hk (lt_of_lt_of_le (insertAt_lt hk hs hi) (Nat.pow_le_pow_right (by norm_num) h64))]
  have hbad : ¬ Utils.isBadBitRange start length e.n = true := by
    unfold Utils.isBadBitRange
    have : (start + length) % 2 ^ 8 = start + length := Nat.mod_eq_of_lt (by omega)
    simp only [this, Bool.or_eq_true, decide_eq_true_eq]
    omega
  unfold decomposeDispose
  rw [if_neg hbad, if_neg h0, normIf_ready' hr, Option.bind_some]
  simp only []
  have hsz := decompose_sizes hR.d hok
  unfold decomposeItems at hsz
  simp only [] at hsz
  rw [if_neg (by omega), if_pos hsz]
  refine ⟨_, _, r', d', rfl, c1, rfl, c2, ?_, ?_⟩
  · intro i hi
    have hi : i < 2 ^ (e.n - length) := hi
    rw [c3 i hi]
    refine (fill_plan (((hR.σ _).map _).trans (loopPlan_perm (ngc_pos hR.d _))) _ fresh i).trans ?_
    rw [if_pos hi, decomposeamp_polar, (f1 i hi).1, (f1 i hi).2]
    have g1 : ∑ k ∈ Finset.range (2 ^ length), Complex.normSq (cellOf start length e.amp k i) =
        ∑ k ∈ Finset.range (2 ^ length), Complex.normSq (e.amp (insertAt start length k i)) :=
      Finset.sum_congr rfl fun k hk => by rw [hcell k (Finset.mem_range.1 hk) i hi]
    have g2 : ∑ k ∈ Finset.range (2 ^ length), argTerm 0 (cellOf start length e.amp k i) =
        ∑ k ∈ Finset.range (2 ^ length), argTerm 0 (e.amp (insertAt start length k i)) :=
      Finset.sum_congr rfl fun k hk => by rw [hcell k (Finset.mem_range.1 hk) i hi]
    rw [g1, g2]
  · intro k hk
    rw [c4 k hk]
    refine (fill_plan (((hR.σ _).map _).trans (loopPlan_perm (ngc_pos hR.d _))) _ fresh k).trans ?_
    rw [if_pos hk, decomposeamp_polar, (f2 k hk).1, (f2 k hk).2]
    have g1 : ∑ i ∈ Finset.range (2 ^ (e.n - length)), Complex.normSq (cellOf start length e.amp k i) =
        ∑ i ∈ Finset.range (2 ^ (e.n - length)), Complex.normSq (e.amp (insertAt start length k i)) :=
      Finset.sum_congr rfl fun i hi => by rw [hcell k hk i (Finset.mem_range.1 hi)]
    have g2 : ∑ i ∈ Finset.range (2 ^ (e.n - length)), argTerm 0 (cellOf start length e.amp k i) =
        ∑ i ∈ Finset.range (2 ^ (e.n - length)), argTerm 0 (e.amp (insertAt start length k i)) :=
      Finset.sum_congr rfl fun i hi => by rw [hcell k hk i (Finset.mem_range.1 hi)]
    rw [g1, g2]

/-- C61. Splitting a product state gives back the factors, up to phases. `_partial`: the loops of the work-items must run in
step (`decompose_race_wrong`), the last launch must be accepted (`decompose_rejected`), and the angles must not wrap around
(`Engine.decompose_wrong`). -/
theorem decompose_splits_partial (hR : R.Ok) (fresh : ℕ → ℂ) {e : Eng} {start length : ℕ} {tr : List (ℕ × ℕ × ℕ)}
    (hs : start + length ≤ e.n) (h0 : length ≠ 0) (hl : length < e.n) (h64 : e.n ≤ 64)
    (hr : e.doNorm = true → e.rn = 1) (hok : LastLaunchOk R.d e.n length)
    (htr : IsDecomposeRun (decomposeItems R.d e.n length) (2 ^ length) (2 ^ (e.n - length)) tr) (hlock : Lockstep tr)
    {A B : ℕ → ℂ} (hAB : SameOn e.n e.amp (tensorAt start length A B)) (hA : totalProb (e.n - length) A = 1)
    (hB : totalProb length B = 1) (hw : NoWrap (e.n - length) length A B) :
    ∃ r d, decomposeDispose R tr fresh e start length = some (r, d) ∧ r.n = e.n - length ∧
      ∃ u v : ℂ, ‖u‖ = 1 ∧ ‖v‖ = 1 ∧ SameOn r.n r.amp (fun i => u * A i) ∧ SameOn length d (fun k => v * B k) := by
  obtain ⟨r, d, r', d', k1, k2, k3, k4, k5, k6⟩ := decompose_lockstep hR fresh hs h0 hl h64 hr hok htr hlock
  obtain ⟨q, p, q1, q2, q3, u, v, hu, hv, q4, q5⟩ := decompose_partial (σ := id) (fun l => List.Perm.refl l) fresh
    (e := { e with floor := 0 }) (dest := { e with n := length }) hs h0 hl hr hAB hA hB
    ⟨le_rfl, fun i _ h => Complex.normSq_pos.2 h⟩ hw
  unfold decompose at q1
  rw [k2] at q1
  simp only [Option.map_some, h0, if_false, Option.some.injEq, Prod.mk.injEq] at q1
  obtain ⟨rfl, rfl⟩ := q1
  refine ⟨r, d, k1, k3, u, v, hu, hv, fun i hi => ?_, fun k hk => ?_⟩
  · rw [k5 i hi]
    exact q4 i (by rw [k4, ← k3]; exact hi)
  · rw [k6 k hk]
    exact q5 k hk

/-- With a single work-item every run is in step. -/
theorem single_lockstep {A B : ℕ} {tr : List (ℕ × ℕ × ℕ)} (h : IsDecomposeRun 1 A B tr) : Lockstep tr := by
  have hown : tr.map Prod.snd = decomposeProg 1 A B 0 := by
    rw [← h.2 0 (by norm_num)]
    unfold ownSteps
    congr 1
    symm
    rw [List.filter_eq_self]
    intro p hp
    have := h.1 p hp
    simp only [beq_iff_eq]
    omega
  have : (tr.map Prod.snd).Pairwise fun p q => p.1 ≤ q.1 := by
    rw [hown]
    unfold decomposeProg
    rw [List.pairwise_append, List.pairwise_append]
    refine ⟨⟨?_, ?_, ?_⟩, ?_, ?_⟩
    · rw [List.pairwise_map]; exact List.pairwise_of_forall fun _ _ => le_rfl
    · rw [List.pairwise_map]; exact List.pairwise_of_forall fun _ _ => le_rfl
    · intro p hp q hq
      obtain ⟨_, _, rfl⟩ := List.mem_map.1 hp
      obtain ⟨_, _, rfl⟩ := List.mem_map.1 hq
      simp
    · rw [List.pairwise_map]; exact List.pairwise_of_forall fun _ _ => le_rfl
    · intro p hp q hq
      obtain ⟨_, _, rfl⟩ := List.mem_map.1 hq
      rcases List.mem_append.1 hp with hp | hp <;> obtain ⟨_, _, rfl⟩ := List.mem_map.1 hp <;> simp
  rw [List.pairwise_map] at this
  exact this

/-- Against C61 (and C24). When the part is larger than the remainder the local size of the last launch is too large, and the
launch is rejected: whenever the remainder has fewer states than a work-group has work-items (and the part more). -/
theorem decompose_rejected (hd : R.d.Ok) (tr : List (ℕ × ℕ × ℕ)) (fresh : ℕ → ℂ) {e : Eng} {start length : ℕ}
    (hs : start + length ≤ e.n) (hl : length < e.n) (h64 : e.n ≤ 64) (hr : e.doNorm = true → e.rn = 1)
    (h1 : 2 ^ (e.n - length) < R.d.size) (h2 : 2 ^ (e.n - length) < 2 ^ length) (h3 : 2 ^ (e.n - length) < R.d.count / 2) :
    decomposeDispose R tr fresh e start length = none := by
  have hbad : ¬ Utils.isBadBitRange start length e.n = true := by
    unfold Utils.isBadBitRange
    have : (start + length) % 2 ^ 8 = start + length := Nat.mod_eq_of_lt (by omega)
    simp only [this, Bool.or_eq_true, decide_eq_true_eq]
    omega
  have h0 : length ≠ 0 := by
    rintro rfl
    have := Nat.two_pow_pos (e.n - 0)
    simp at h2
  unfold decomposeDispose
  rw [if_neg hbad, if_neg h0, normIf_ready' hr, Option.bind_some]
  simp only []
  rw [if_neg (by omega), if_neg]
  rintro ⟨-, -, -, hm⟩
  rw [if_pos h2] at hm
  have hg3 : ngc R.d (2 ^ (e.n - length)) = 2 ^ (e.n - length) := by
    unfold ngc fixWorkItemCount
    rw [if_pos (by omega)]
  obtain ⟨k, hk⟩ := hd.size
  obtain ⟨c, -, hc⟩ := ngc_pow hd length
  have hgc : 2 ^ (e.n - length) < ngc R.d (2 ^ length) := by
    unfold ngc fixWorkItemCount
    split_ifs with h
    · exact h2
    · have := Nat.lt_log2_self (n := R.d.count)
      rw [pow_succ] at this
      omega
  rw [hg3, hc] at hm
  rw [hc] at hgc
  rw [hk] at hm h1
  have hle : 2 ^ (e.n - length) < fixGroupSize (2 ^ c) (2 ^ k) := by
    unfold fixGroupSize
    by_cases h : 2 ^ k > 2 ^ c
    · rw [if_pos h]; exact hgc
    · rw [if_neg h]
      have : k ≤ c := (Nat.pow_le_pow_iff_right (by norm_num)).1 (not_lt.1 h)
      rw [Nat.mod_eq_zero_of_dvd (pow_dvd_pow 2 this), Nat.sub_zero]
      exact h1
  rw [Nat.mod_eq_of_lt hle] at hm
  have := Nat.two_pow_pos (e.n - length)
  omega

/-! ### The missing barrier -/

/-- `(1, 1)/√2` on qubit 0 and `(-1, 1)/√2` on qubit 1. -/
noncomputable def plusMinus : Eng where
  n := 2
  amp := fun i => if i = 0 ∨ i = 1 then -(1 / 2) else 1 / 2
  rn := 1
  doNorm := false
  rgp := false
  floor := 0

/-- Two work-items in one group. -/
def twoItems : Rt := ⟨⟨2, 2⟩, id, id, ⟨fun _ => 0, fun _ => 0, fun _ => 0⟩⟩

theorem twoItems_ok : twoItems.Ok :=
  ⟨⟨by decide, 1, rfl⟩, fun l => List.Perm.refl l, fun l => List.Perm.refl l⟩

theorem itemsInOrder_two : itemsInOrder 2 2 2 = [(0, 0, 0), (0, 1, 0), (0, 2, 0), (1, 0, 1), (1, 1, 1), (1, 2, 1)] := by decide

/-- Against C61 (and C24). The work-items of `decomposeprob` add to the angles of each other without a barrier. If the first
one runs before the second, it divides the sum before the second has added its share: the qubit `(-1, 1)/√2` that is split
off comes out as another state, though no angle wraps around and `QEngineCPU` splits it correctly. -/
theorem decompose_race_wrong (fresh : ℕ → ℂ) :
    IsDecomposeRun (decomposeItems twoItems.d 2 1) (2 ^ 1) (2 ^ (2 - 1)) (itemsInOrder 2 2 2) ∧
    ∃ A B : ℕ → ℂ, SameOn 2 plusMinus.amp (tensorAt 1 1 A B) ∧ totalProb 1 A = 1 ∧ totalProb 1 B = 1 ∧ NoWrap 1 1 A B ∧
    ∃ r d, decomposeDispose twoItems (itemsInOrder 2 2 2) fresh plusMinus 1 1 = some (r, d) ∧
      ¬ ∃ v : ℂ, SameOn 1 d (fun k => v * B k) := by
  have hs2 : (Real.sqrt 2)⁻¹ * (Real.sqrt 2)⁻¹ = 1 / 2 := by
    rw [← mul_inv, Real.mul_self_sqrt (by norm_num)]; norm_num
  have hs2' : ((Real.sqrt 2 : ℝ) : ℂ)⁻¹ * ((Real.sqrt 2 : ℝ) : ℂ)⁻¹ = 1 / 2 := by
    rw [← Complex.ofReal_inv, ← Complex.ofReal_mul, hs2]; push_cast; ring
  have hpos : 0 < (Real.sqrt 2)⁻¹ := inv_pos.2 (Real.sqrt_pos.2 (by norm_num))
  refine ⟨⟨by decide, by decide⟩, fun _ => (((Real.sqrt 2)⁻¹ : ℝ) : ℂ),
    fun k => if k = 0 then ((-(Real.sqrt 2)⁻¹ : ℝ) : ℂ) else (((Real.sqrt 2)⁻¹ : ℝ) : ℂ), ?_, ?_, ?_, ?_, ?_⟩
  · intro i hi
    have hi : i < 4 := hi
    have : i = 0 ∨ i = 1 ∨ i = 2 ∨ i = 3 := by omega
    unfold tensorAt rest field plusMinus
    rcases this with rfl | rfl | rfl | rfl <;> simp [hs2']
  · unfold totalProb
    rw [show 2 ^ 1 = 2 from rfl, Finset.sum_range_succ, Finset.sum_range_one]
    simp only [Complex.normSq_ofReal]
    rw [hs2]; norm_num
  · unfold totalProb
    rw [show 2 ^ 1 = 2 from rfl, Finset.sum_range_succ, Finset.sum_range_one]
    simp only [if_true, one_ne_zero, if_false, Complex.normSq_ofReal]
    rw [neg_mul_neg, hs2]; norm_num
  · intro i _ k _ _ _
    simp only []
    rw [Complex.arg_real_mul _ hpos, Complex.arg_ofReal_of_nonneg hpos.le, zero_add]
  · have c00 : cellOf 1 1 plusMinus.amp 0 0 = -(1 / 2) := by
      show plusMinus.amp 0 = _; simp [plusMinus]
    have c01 : cellOf 1 1 plusMinus.amp 0 1 = -(1 / 2) := by
      show plusMinus.amp 1 = _; simp [plusMinus]
    have c10 : cellOf 1 1 plusMinus.amp 1 0 = 1 / 2 := by
      show plusMinus.amp 2 = _; simp [plusMinus]
    have c11 : cellOf 1 1 plusMinus.amp 1 1 = 1 / 2 := by
      show plusMinus.amp 3 = _; simp [plusMinus]
    -- the run
    let step := decomposeStep (2 ^ 1) (2 ^ (2 - 1)) 1 1 plusMinus.amp
    obtain ⟨s0, hs0⟩ : ∃ s0 : Angles, s0 = ⟨fun _ => 0, fun _ => 0, fun _ => 0, fun _ => 0⟩ := ⟨_, rfl⟩
    obtain ⟨s1, hs1⟩ : ∃ s1, s1 = step s0 0 0 := ⟨_, rfl⟩
    obtain ⟨s2, hs2⟩ : ∃ s2, s2 = step s1 1 0 := ⟨_, rfl⟩
    obtain ⟨s3, hs3⟩ : ∃ s3, s3 = step s2 2 0 := ⟨_, rfl⟩
    obtain ⟨s4, hs4⟩ : ∃ s4, s4 = step s3 0 1 := ⟨_, rfl⟩
    obtain ⟨s5, hs5⟩ : ∃ s5, s5 = step s4 1 1 := ⟨_, rfl⟩
    obtain ⟨s6, hs6⟩ : ∃ s6, s6 = step s5 2 1 := ⟨_, rfl⟩
    have p1 := phase0 (2 ^ 1) (2 ^ (2 - 1)) 1 1 plusMinus.amp [0] (List.nodup_singleton _) s0
    have p2 := phase1 (2 ^ 1) (2 ^ (2 - 1)) 1 1 plusMinus.amp [0] (List.nodup_singleton _) s1
    have p3 := phase2 (2 ^ 1) (2 ^ (2 - 1)) 1 1 plusMinus.amp [0] (List.nodup_singleton _) s2
    have p4 := phase0 (2 ^ 1) (2 ^ (2 - 1)) 1 1 plusMinus.amp [1] (List.nodup_singleton _) s3
    have p5 := phase1 (2 ^ 1) (2 ^ (2 - 1)) 1 1 plusMinus.amp [1] (List.nodup_singleton _) s4
    have p6 := phase2 (2 ^ 1) (2 ^ (2 - 1)) 1 1 plusMinus.amp [1] (List.nodup_singleton _) s5
    simp only [List.foldl_cons, List.foldl_nil] at p1 p2 p3 p4 p5 p6
    rw [show decomposeStep (2 ^ 1) (2 ^ (2 - 1)) 1 1 plusMinus.amp s0 0 0 = s1 from hs1.symm] at p1
    rw [show decomposeStep (2 ^ 1) (2 ^ (2 - 1)) 1 1 plusMinus.amp s1 1 0 = s2 from hs2.symm] at p2
    rw [show decomposeStep (2 ^ 1) (2 ^ (2 - 1)) 1 1 plusMinus.amp s2 2 0 = s3 from hs3.symm] at p3
    rw [show decomposeStep (2 ^ 1) (2 ^ (2 - 1)) 1 1 plusMinus.amp s3 0 1 = s4 from hs4.symm] at p4
    rw [show decomposeStep (2 ^ 1) (2 ^ (2 - 1)) 1 1 plusMinus.amp s4 1 1 = s5 from hs5.symm] at p5
    rw [show decomposeStep (2 ^ 1) (2 ^ (2 - 1)) 1 1 plusMinus.amp s5 2 1 = s6 from hs6.symm] at p6
    have hsum : ∀ f : ℕ → ℝ, ∑ k ∈ Finset.range (2 ^ (2 - 1)), f k = f 0 + f 1 := fun f => by
      rw [show 2 ^ (2 - 1) = 2 from rfl, Finset.sum_range_succ, Finset.sum_range_one]
    have hn : Complex.normSq (-(1 / 2) : ℂ) = 1 / 4 := by
      rw [show (-(1 / 2) : ℂ) = ((-(1 / 2) : ℝ) : ℂ) by push_cast; ring, Complex.normSq_ofReal]; norm_num
    have hn' : Complex.normSq (1 / 2 : ℂ) = 1 / 4 := by
      rw [show (1 / 2 : ℂ) = ((1 / 2 : ℝ) : ℂ) by push_cast; ring, Complex.normSq_ofReal]; norm_num
    have q0 : s6.partProb 0 = 1 / 2 := by
      rw [p6.2.2.1, p5.1, if_neg (by simp), p4.2.2.2, p3.2.2.1, p2.1, if_pos (by simp), hsum, c00, c01, hn]; norm_num
    have q1 : s6.partProb 1 = 1 / 2 := by
      rw [p6.2.2.1, p5.1, if_pos (by simp), hsum, c10, c11, hn']; norm_num
    have a0 : s6.partAngle 0 = 3 * Real.pi / 4 := by
      rw [p6.2.2.2, p5.2.1, if_neg (by simp), p4.2.1, if_pos (by norm_num), p3.2.2.2, p2.2.1, if_pos (by simp), p1.2.1,
        if_pos (by norm_num), hsum, c00, c01, hn, hs0]
      simp only [List.map_cons, List.map_nil, List.sum_cons, List.sum_nil, c00, c01, argTerm_neg_half]
      unfold meanAngle
      rw [if_pos (by norm_num)]
      ring
    have a1 : s6.partAngle 1 = 0 := by
      rw [p6.2.2.2, p5.2.1, if_pos (by simp), p4.2.1, if_pos (by norm_num), p3.2.2.2, p2.2.1, if_neg (by simp), p1.2.1,
        if_pos (by norm_num), hsum, c10, c11, hn', hs0]
      simp only [List.map_cons, List.map_nil, List.sum_cons, List.sum_nil, c10, c11, argTerm_half]
      unfold meanAngle
      rw [if_pos (by norm_num)]
      norm_num
    have hfold : (itemsInOrder 2 2 2).foldl (fun st p => decomposeStep (2 ^ 1) (2 ^ (2 - 1)) 1 1 plusMinus.amp st p.2.1 p.2.2)
        ⟨fun _ => 0, fun _ => 0, fun _ => 0, fun _ => 0⟩ = s6 := by
      rw [itemsInOrder_two, hs6, hs5, hs4, hs3, hs2, hs1, hs0]
      rfl
    unfold decomposeDispose
    rw [if_neg (by decide), if_neg (by norm_num), normIf_ready' (by simp [plusMinus]), Option.bind_some]
    simp only []
    rw [show plusMinus.n = 2 from rfl, if_neg (by norm_num), if_pos (by decide), hfold]
    refine ⟨_, _, rfl, ?_⟩
    rintro ⟨v, hv⟩
    have hd : ∀ k < 2, (twoItems.σ (loopPlan (ngc twoItems.d (2 ^ 1)) (2 ^ 1))).foldl
        (fun s p => Function.update s p.2 (decomposeampTerm s6.partProb s6.partAngle p.2)) fresh k =
        polar (s6.partProb k) (s6.partAngle k) := by
      intro k hk
      refine (fill_plan (((twoItems_ok.σ _).map _).trans (loopPlan_perm (ngc_pos twoItems_ok.d _))) _ fresh k).trans ?_
      rw [if_pos (show k < 2 ^ 1 from hk), decomposeamp_polar]
    have h0 := hv 0 (by norm_num)
    have h1 := hv 1 (by norm_num)
    rw [hd 0 (by norm_num), q0, a0] at h0
    rw [hd 1 (by norm_num), q1, a1] at h1
    simp only [if_true, one_ne_zero, if_false] at h0 h1
    have hsum0 : polar (1 / 2) (3 * Real.pi / 4) + polar (1 / 2) 0 = 0 := by
      rw [h0, h1]; push_cast; ring
    have him := congrArg Complex.im hsum0
    unfold polar at him
    rw [Complex.add_im, Complex.im_ofReal_mul, Complex.im_ofReal_mul, Complex.exp_ofReal_mul_I_im,
      Complex.exp_ofReal_mul_I_im, Real.sin_zero, mul_zero, add_zero, Complex.zero_im] at him
    have hsin : 0 < Real.sin (3 * Real.pi / 4) :=
      Real.sin_pos_of_pos_of_lt_pi (by positivity) (by linarith [Real.pi_pos])
    have hsq : 0 < Real.sqrt (1 / 2) := Real.sqrt_pos.2 (by norm_num)
    have := mul_pos hsq hsin
    linarith

/-! ## Non-trivial cases -/

/-- A run in step with four work-items, of a register whose part and remainder have different sizes. -/
example : IsDecomposeRun 4 (2 ^ 1) (2 ^ 2)
    [(0, 0, 0), (2, 0, 2), (1, 0, 1), (3, 0, 3), (1, 1, 1), (0, 1, 0), (3, 2, 3), (0, 2, 0), (1, 2, 1), (2, 2, 2)] ∧
    Lockstep [(0, 0, 0), (2, 0, 2), (1, 0, 1), (3, 0, 3), (1, 1, 1), (0, 1, 0), (3, 2, 3), (0, 2, 0), (1, 2, 1), (2, 2, 2)] ∧
    decomposeItems ⟨64, 32⟩ 3 1 = 4 ∧ LastLaunchOk ⟨64, 32⟩ 3 1 := by
  refine ⟨⟨by decide, by decide⟩, by unfold Lockstep; decide, by decide, Or.inl (by decide)⟩

/-- The rejected launch: eight qubits, of which seven are split off, on a device with 64 work-items in groups of 32. -/
example : 2 ^ (8 - 7) < (⟨64, 32⟩ : Dev).size ∧ 2 ^ (8 - 7) < 2 ^ 7 ∧ 2 ^ (8 - 7) < (⟨64, 32⟩ : Dev).count / 2 := by decide

/-- A register put between the qubits of another one. -/
example : ∃ r, composeAt twoItems (fun _ => 7) ⟨exA, true⟩ ⟨exB, true⟩ 1 = some (⟨r, true⟩, ⟨exB, true⟩) ∧ r.n = 3 ∧
    r.amp 7 = 16 / 25 * Complex.I := by
  obtain ⟨r, h1, h2, -, -, h5⟩ := composeAt_is twoItems_ok (fun _ => 7) (a := ⟨exA, true⟩) (b := ⟨exB, true⟩) (start := 1) rfl rfl
    (by simp [exA]) (by simp [exB]) (by simp [exA]) (by simp [exA, exB]) (by simp [exA]) (by simp [exB])
  refine ⟨r, h1, h2, ?_⟩
  rw [h5 7 (by rw [h2]; simp [exA, exB])]
  unfold tensorAt rest field exA exB
  norm_num
  ring

end Verif.Ocl
