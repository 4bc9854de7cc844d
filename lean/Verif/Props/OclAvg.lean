import Verif.Props.OclForce
import Verif.Props.EngineExpect
import Verif.Props.EngineCompare

/-!
# C61: parity measurement, averages, reading, writing and comparing OpenCL registers
-/

namespace Verif.Ocl

open Verif.ParFor Verif.Bits Verif.PairFold Verif.Spec Verif.Engine Classical MeasureTheory

variable {R : Rt} {e : Eng} {P : Par}

/-! ### Parity -/

/-- Any number of steps of the kernel `forcemparity`. -/
theorem forcemparity_fold {ul : ℕ → ℕ} {keep : ℕ → Prop}
    (hk : ∀ x, (parityLoop 64 (x &&& ul 1) false = decide (ul 2 = 1)) ↔ keep x) : ∀ (l : List (ℕ × ℕ)),
    (l.map Prod.snd).Nodup → ∀ (s : ℕ → ℂ) (t : ℕ → ℝ),
    (∀ i, (l.foldl (forcemparityStep ul) (s, t)).1 i = if i ∈ l.map Prod.snd ∧ ¬ keep i then 0 else s i) ∧
    ∀ g, (∀ p ∈ l, p.1 < g) → ∑ id ∈ Finset.range g, (l.foldl (forcemparityStep ul) (s, t)).2 id =
      ∑ id ∈ Finset.range g, t id + ((l.map Prod.snd).map fun i => if keep i then Complex.normSq (s i) else 0).sum := by
  intro l
  induction l with
  | nil => intro _ s t; simp
  | cons p l ih =>
    intro hnd s t
    rw [List.map_cons, List.nodup_cons] at hnd
    rw [List.foldl_cons]
    by_cases h : keep p.2
    · have hs : forcemparityStep ul (s, t) p = (s, Function.update t p.1 (t p.1 + Complex.normSq (s p.2))) := by
        unfold forcemparityStep
        rw [if_pos ((hk p.2).2 h)]
      rw [hs]
      obtain ⟨h1, h2⟩ := ih hnd.2 s (Function.update t p.1 (t p.1 + Complex.normSq (s p.2)))
      refine ⟨fun i => ?_, fun g hg => ?_⟩
      · rw [h1]
        by_cases hi : i = p.2
        · subst hi; simp [h]
        · simp [hi]
      · rw [h2 g fun q hq => hg q (by simp [hq]), List.map_cons, List.map_cons, List.sum_cons, if_pos h]
        have hp := hg p (by simp)
        rw [Finset.sum_update_of_mem (Finset.mem_range.2 hp), ← Finset.add_sum_erase _ _ (Finset.mem_range.2 hp),
          Finset.sdiff_singleton_eq_erase]
        ring
    · have hs : forcemparityStep ul (s, t) p = (Function.update s p.2 0, t) := by
        unfold forcemparityStep
        rw [if_neg fun h' => h ((hk p.2).1 h')]
      rw [hs]
      obtain ⟨h1, h2⟩ := ih hnd.2 (Function.update s p.2 0) t
      refine ⟨fun i => ?_, fun g hg => ?_⟩
      · rw [h1]
        by_cases hi : i = p.2
        · subst hi; simp [h]
        · simp [hi, Function.update_of_ne hi]
      · rw [h2 g fun q hq => hg q (by simp [hq]), List.map_cons, List.map_cons, List.sum_cons, if_neg h, zero_add]
        congr 2
        apply List.map_congr_left
        intro i hi
        rw [Function.update_of_ne (show i ≠ p.2 by rintro rfl; exact hnd.1 hi)]

/-- The projection part of `ForceMParity`, for a reported parity `b` that is possible. -/
theorem parity_project (hR : R.Ok) (hn : e.n ≤ 64) (he : e.Steady) (hf : e.floor ≤ 0) {mask : ℕ} (hm : mask < 2 ^ e.n)
    (b : Bool) {ul : ℕ → ℕ} (h0 : ul 0 = 2 ^ e.n) (h1 : ul 1 = mask) (h2 : ul 2 = if b then 1 else 0)
    (hpos : 0 < probIf e.n (HasParity e.n mask b) e.amp) :
    let st := (R.σ (loopPlan (ngc R.d (2 ^ e.n)) (ul 0))).foldl (forcemparityStep ul) (e.amp, fun _ => 0)
    ∃ e', normalizeState R.d R.σ R.τ R.old
        { e with amp := st.1, rn := clampProb (sumAll R.τ (ngc R.d (2 ^ e.n)) (ngs R.d (2 ^ e.n)) st.2) }
        (-999) (-999) 0 = some e' ∧ e'.n = e.n ∧ e'.rn = 1 ∧ Collapsed e.n (HasParity e.n mask b) e.amp e'.amp := by
  intro st
  have hk : ∀ x, (parityLoop 64 (x &&& ul 1) false = decide (ul 2 = 1)) ↔ HasParity e.n mask b x := by
    intro x
    rw [h1, parityLoop_mask hn hm, h2]
    unfold HasParity
    cases b <;> simp
  have hg := ngc_pos hR.d e.n
  have hp : ((R.σ (loopPlan (ngc R.d (2 ^ e.n)) (ul 0))).map Prod.snd).Perm (List.range (2 ^ e.n)) := by
    rw [h0]
    exact ((hR.σ _).map _).trans (loopPlan_perm hg)
  obtain ⟨k1, k2⟩ := forcemparity_fold hk _ (hp.nodup_iff.2 List.nodup_range) e.amp (fun _ => 0)
  have hamp : ∀ i < 2 ^ e.n, st.1 i = if HasParity e.n mask b i then e.amp i else 0 := by
    intro i hi
    rw [k1 i]
    have : i ∈ (R.σ (loopPlan (ngc R.d (2 ^ e.n)) (ul 0))).map Prod.snd := by
      rw [hp.mem_iff, List.mem_range]; exact hi
    by_cases h : HasParity e.n mask b i <;> simp [h, this]
  have htot : totalProb e.n st.1 = probIf e.n (HasParity e.n mask b) e.amp := by
    unfold totalProb probIf
    apply Finset.sum_congr rfl
    intro i hi
    rw [hamp i (Finset.mem_range.1 hi)]
    by_cases h : HasParity e.n mask b i <;> simp [h]
  have hsum : sumAll R.τ (ngc R.d (2 ^ e.n)) (ngs R.d (2 ^ e.n)) st.2 = probIf e.n (HasParity e.n mask b) e.amp := by
    rw [sumAll_eq hR.τ hR.d, k2 _ (fun p hp' => ?_), Finset.sum_const_zero, zero_add, (hp.map _).sum_eq,
      sum_range_list]
    · unfold probIf
      exact Finset.sum_congr rfl fun i _ => by congr
    · rw [(hR.σ _).mem_iff, h0] at hp'
      rw [((loopPlan_mem hg).1 hp').1]
      exact Nat.mod_lt _ hg
  rw [hsum, clamp_probIf he.1]
  set pr := probIf e.n (HasParity e.n mask b) e.amp with hpr
  obtain ⟨e', m1, m2, m3, m4, m5⟩ := normalizeState_unit hR.d hR.σ hR.τ R.old (e := { e with amp := st.1, rn := pr }) hf
    (Or.inl htot.symm) (by show 0 < totalProb e.n st.1; rw [htot]; exact hpos)
  refine ⟨e', m1, m2, m3, ((1 / Real.sqrt (totalProb e.n st.1) : ℝ) : ℂ), ?_, ?_, m4⟩
  · intro i hi h
    rw [m5 i hi]
    show _ * st.1 i = _
    rw [hamp i hi, if_pos h]
  · intro i hi h
    rw [m5 i hi]
    show _ * st.1 i = _
    rw [hamp i hi, if_neg h, mul_zero]

/-- **C61.** Measuring the parity of a mask: for every draw the register is projected on the reported parity (by
`NormalizeState`, which the call itself or, with `doNormalize`, the next reader runs). A forced parity that is possible is
obeyed. -/
theorem forceMParity_measures' (hR : R.Ok) (hn : e.n ≤ 64) (he : e.Steady) (hf : e.floor ≤ 0) {mask : ℕ}
    (hm : mask < 2 ^ e.n) (hm0 : mask ≠ 0) (result doForce : Bool) {r : ℝ} (h0 : 0 < r) (h1 : r < 1)
    (hpos : doForce = true → 0 < probIf e.n (HasParity e.n mask result) e.amp) (u : ℝ) :
    ∃ b e' e'', forceMParity R e mask result doForce r u = some (b, e') ∧ normIf R e' = some e'' ∧
      (doForce = true → b = result) ∧ 0 < probIf e.n (HasParity e.n mask b) e.amp ∧
      e''.n = e.n ∧ e''.Steady ∧ Collapsed e.n (HasParity e.n mask b) e.amp e''.amp := by
  unfold forceMParity
  rw [if_neg (by omega), if_neg hm0]
  by_cases hp2 : isPowerOfTwo mask = true
  · rw [if_pos hp2]
    obtain ⟨l, rfl, hl⟩ := isPowerOfTwo_iff hp2
    have hln : l < e.n := (Nat.pow_lt_pow_iff_right (by norm_num)).1 hm
    rw [hl]
    have hpar : ∀ b i, HasParity e.n (2 ^ l) b i ↔ i.testBit l = b := by
      intro b i
      unfold HasParity
      rw [maskCount_two_pow hln]
      cases i.testBit l <;> simp
    have hq : ∀ b, probIf e.n (HasParity e.n (2 ^ l) b) e.amp = qProb e l b := fun b =>
      probIf_congr (fun i _ => hpar b i) (fun _ _ => rfl)
    rcases forceM_projects' hR hn he hln result doForce r u with ⟨c1, c2, c3⟩ | ⟨b, e', c1, c2, c3, c4, c5, c6⟩
    · have := hpos c1
      rw [hq, c2] at this
      exact absurd this (lt_irrefl _)
    · refine ⟨b, e', e', c1, normIf_steady' c5, c2, by rw [hq]; exact c3, c4, c5, ?_⟩
      obtain ⟨k, d1, d2, d3⟩ := c6
      exact ⟨k, fun i hi h => d1 i hi ((hpar b i).1 h), fun i hi h => d2 i hi fun h' => h ((hpar b i).2 h'), d3⟩
  · rw [if_neg hp2]
    -- the reported parity
    obtain ⟨b, hb, hforce, hbp⟩ : ∃ b, (if doForce = true then some (result, e)
        else (probParity R e mask).map fun (x : ℝ × Eng) => (decide (r ≤ x.1), x.2)) = some (b, e) ∧
        (doForce = true → b = result) ∧ 0 < probIf e.n (HasParity e.n mask b) e.amp := by
      by_cases hd : doForce = true
      · exact ⟨result, by rw [if_pos hd], fun _ => rfl, hpos hd⟩
      · rw [if_neg hd, probParity_is hR hn he hm, Option.map_some]
        set p1 := probIf e.n (HasParity e.n mask true) e.amp with hp1
        refine ⟨decide (r ≤ p1), rfl, fun h => absurd h hd, ?_⟩
        have hfalse : probIf e.n (HasParity e.n mask false) e.amp = 1 - p1 := by
          have := probIf_add_not e.n (HasParity e.n mask true) e.amp
          rw [he.1] at this
          rw [probIf_congr (p := HasParity e.n mask false) (q := fun i => ¬ HasParity e.n mask true i)
            (fun i _ => by unfold HasParity; cases decide (maskCount e.n mask i % 2 = 1) <;> simp) (fun _ _ => rfl)]
          linarith
        by_cases hc : r ≤ p1
        · rw [decide_eq_true hc]; linarith
        · rw [decide_eq_false hc, hfalse]; linarith [not_le.1 hc]
    rw [hb]
    simp only [Option.bind_some]
    rw [normIf_steady' he]
    simp only [Option.bind_some]
    rw [if_pos (sizes_ok hR.d e.n)]
    obtain ⟨e'', m1, m2, m3, m4⟩ := parity_project hR hn he hf hm b (ul := writeBuf 4
      (arr [2 ^ e.n, mask, if b = true then 1 else 0]) R.old.ul) rfl rfl rfl hbp
    have hst : e''.Steady := by
      obtain ⟨k, -, -, d3⟩ := m4
      exact ⟨by rw [m2]; exact d3, fun _ => m3⟩
    cases hdn : e.doNorm
    · simp only [hdn, Bool.not_false, if_true]
      refine ⟨b, e'', e'', by rw [hdn] at m1; rw [m1]; rfl, normIf_steady' hst, hforce, hbp, m2, hst, m4⟩
    · simp only [hdn, Bool.not_true, Bool.false_eq_true, if_false]
      refine ⟨b, _, e'', rfl, ?_, hforce, hbp, m2, hst, m4⟩
      unfold normIf
      simp only [if_true]
      rw [hdn] at m1
      exact m1

/-- Against C61. Forcing a parity that has probability zero is not refused (`ForceM` refuses it): the state becomes zero. -/
theorem forceMParity_impossible (hR : R.Ok) (hn : e.n ≤ 64) (he : e.Steady) (hd : e.doNorm = false) {mask : ℕ}
    (hm : mask < 2 ^ e.n) (hm0 : mask ≠ 0) (hp2 : isPowerOfTwo mask = false) {result : Bool} (r u : ℝ)
    (hz : probIf e.n (HasParity e.n mask result) e.amp = 0) :
    ∃ e', forceMParity R e mask result true r u = some (result, e') ∧ ∀ i, e'.amp i = 0 := by
  unfold forceMParity
  rw [if_neg (by omega), if_neg hm0, if_neg (by rw [hp2]; simp), if_pos rfl]
  simp only [Option.bind_some]
  rw [normIf_steady' he]
  simp only [Option.bind_some]
  rw [if_pos (sizes_ok hR.d e.n)]
  simp only [hd, Bool.not_false, if_true]
  generalize hul : writeBuf 4 (arr [2 ^ e.n, mask, if result = true then 1 else 0]) R.old.ul = ul
  have h0 : ul 0 = 2 ^ e.n := by rw [← hul]; rfl
  have h1 : ul 1 = mask := by rw [← hul]; rfl
  have h2 : ul 2 = if result = true then 1 else 0 := by rw [← hul]; rfl
  have hk : ∀ x, (parityLoop 64 (x &&& ul 1) false = decide (ul 2 = 1)) ↔ HasParity e.n mask result x := by
    intro x
    rw [h1, parityLoop_mask hn hm, h2]
    unfold HasParity
    cases result <;> simp
  have hg := ngc_pos hR.d e.n
  have hp : ((R.σ (loopPlan (ngc R.d (2 ^ e.n)) (ul 0))).map Prod.snd).Perm (List.range (2 ^ e.n)) := by
    rw [h0]
    exact ((hR.σ _).map _).trans (loopPlan_perm hg)
  obtain ⟨-, k2⟩ := forcemparity_fold hk _ (hp.nodup_iff.2 List.nodup_range) e.amp (fun _ => 0)
  have hsum : sumAll R.τ (ngc R.d (2 ^ e.n)) (ngs R.d (2 ^ e.n))
      ((R.σ (loopPlan (ngc R.d (2 ^ e.n)) (ul 0))).foldl (forcemparityStep ul) (e.amp, fun _ => 0)).2 = 0 := by
    rw [sumAll_eq hR.τ hR.d, k2 _ (fun p hp' => ?_), Finset.sum_const_zero, zero_add, (hp.map _).sum_eq,
      sum_range_list, ← hz]
    · unfold probIf
      exact Finset.sum_congr rfl fun i _ => by congr
    · rw [(hR.σ _).mem_iff, h0] at hp'
      rw [((loopPlan_mem hg).1 hp').1]
      exact Nat.mod_lt _ hg
  rw [hsum]
  unfold normalizeState
  have hc : clampProb 0 = 0 := by unfold clampProb; simp
  simp only [hc]
  rw [if_neg (by norm_num), Option.bind_some, if_pos (by norm_num)]
  exact ⟨_, rfl, fun _ => rfl⟩

/-! ### Averages -/

/-- The loop of the kernel `expperm` gathers the bits. -/
theorem expperm_gather (bits : List ℕ) (lcv : ℕ) :
    (List.range bits.length).foldl (fun r p => if lcv &&& arr (bits.map pow2) p ≠ 0 then r ||| 2 ^ p else r) 0 =
      valueOf bits lcv := by
  have key : ∀ m ≤ bits.length,
      (List.range m).foldl (fun r p => if lcv &&& arr (bits.map pow2) p ≠ 0 then r ||| 2 ^ p else r) 0 =
        valueOf (bits.take m) lcv := by
    intro m
    induction m with
    | zero => intro _; simp [valueOf]
    | succ m ih =>
      intro hm
      have hml : m < bits.length := by omega
      rw [List.range_succ, List.foldl_append, ih (by omega)]
      simp only [List.foldl_cons, List.foldl_nil]
      have harr : arr (bits.map pow2) m = pow2 bits[m] := by
        unfold arr
        rw [List.getD_eq_getElem?_getD, List.getElem?_map, List.getElem?_eq_getElem hml]; rfl
      have hlt : valueOf (bits.take m) lcv < 2 ^ m := by
        have := valueOf_lt (bits.take m) lcv
        rwa [List.length_take, min_eq_left (by omega)] at this
      have happ : ∀ (l : List ℕ) (b : ℕ), valueOf (l ++ [b]) lcv =
          valueOf l lcv + (if lcv.testBit b then 2 ^ l.length else 0) := by
        intro l b
        induction l with
        | nil => simp [valueOf]
        | cons c l ihl =>
          rw [List.cons_append, valueOf, ihl, valueOf, List.length_cons, pow_succ]
          split_ifs <;> ring
      rw [List.take_succ_eq_append_getElem hml, happ, harr, List.length_take, min_eq_left (by omega)]
      have hand : (lcv &&& pow2 bits[m] ≠ 0) ↔ lcv.testBit bits[m] = true := by
        unfold pow2
        rw [Nat.and_two_pow]
        cases lcv.testBit bits[m] <;> simp
      by_cases h : lcv.testBit bits[m] = true
      · rw [if_pos (hand.2 h), if_pos h, Nat.or_comm, Nat.add_comm]
        have := Nat.two_pow_add_eq_or_of_lt hlt 1
        rw [Nat.mul_one] at this
        exact this.symm
      · rw [if_neg fun h' => h (hand.1 h'), if_neg h, Nat.add_zero]
  have := key bits.length le_rfl
  rwa [List.take_length] at this

/-- **C61.** `ExpectationBitsAll` of two or more qubits is the average of `offset` plus the value of the qubits. -/
theorem expectationBitsAll_is (hR : R.Ok) (he : e.Steady) {b c : ℕ} {bits : List ℕ} {offset : ℕ}
    (hlt : ∀ i < 2 ^ e.n, offset + valueOf (b :: c :: bits) i < 2 ^ 64) :
    expectationBitsAll R e (b :: c :: bits) offset =
      some (mean e.n (fun i => ((offset + valueOf (b :: c :: bits) i : ℕ) : ℝ)) e.amp, e) := by
  unfold expectationBitsAll
  simp only []
  rw [normIf_steady' he, Option.bind_some]
  generalize hul : writeBuf 3 (arr [2 ^ e.n, (b :: c :: bits).length, offset]) R.old.ul = ul
  have h0 : ul 0 = 2 ^ e.n := by rw [← hul]; rfl
  have h1 : ul 1 = (b :: c :: bits).length := by rw [← hul]; rfl
  have h2 : ul 2 = offset := by rw [← hul]; rfl
  rw [h0, reduceKernel_eq' hR.d hR.τ, Option.map_some]
  congr 2
  unfold mean
  apply Finset.sum_congr rfl
  intro i hi
  unfold exppermTerm
  simp only []
  rw [h1, h2, expperm_gather, Nat.mod_eq_of_lt (hlt i (Finset.mem_range.1 hi))]

/-- Against C61 (and C23). The average of one qubit forgets the offset. -/
theorem expectationBitsAll_offset_wrong (hR : R.Ok) (hn : e.n ≤ 64) (he : e.Steady) {b : ℕ} (hb : b < e.n) {offset : ℕ}
    (ho : 0 < offset) :
    ∃ x, expectationBitsAll R e [b] offset = some (x, e) ∧
      x ≠ mean e.n (fun i => ((offset + valueOf [b] i : ℕ) : ℝ)) e.amp := by
  unfold expectationBitsAll
  refine ⟨_, prob_is hR hn he hb, ?_⟩
  have : mean e.n (fun i => ((offset + valueOf [b] i : ℕ) : ℝ)) e.amp =
      offset + probIf e.n (fun i => i.testBit b = true) e.amp := by
    have ht : ∑ i ∈ Finset.range (2 ^ e.n), Complex.normSq (e.amp i) = 1 := he.1
    unfold mean probIf
    rw [← mul_one (offset : ℝ), ← ht, Finset.mul_sum, ← Finset.sum_add_distrib]
    apply Finset.sum_congr rfl
    intro i _
    cases h : i.testBit b
    · simp [valueOf, h]
    · simp [valueOf, h]; ring
  rw [this]
  have : (0 : ℝ) < offset := by exact_mod_cast ho
  intro h
  linarith

/-- **C61.** One qubit without an offset: the average is the probability of 1. -/
theorem expectationBitsAll_one (hR : R.Ok) (hn : e.n ≤ 64) (he : e.Steady) {b : ℕ} (hb : b < e.n) :
    expectationBitsAll R e [b] 0 = some (mean e.n (fun i => ((valueOf [b] i : ℕ) : ℝ)) e.amp, e) := by
  unfold expectationBitsAll
  simp only []
  rw [prob_is hR hn he hb]
  congr 2
  unfold mean probIf
  apply Finset.sum_congr rfl
  intro i _
  cases h : i.testBit b <;> simp [valueOf, h]

/-- **C61.** `GetExpectation` is the average of the register. -/
theorem getExpectation_is (he : totalProb e.n e.amp = 1) (start length : ℕ) :
    getExpectation e start length = mean e.n (fun i => ((field start length i : ℕ) : ℝ)) e.amp := by
  rw [← getExpectation_spec he]
  unfold getExpectation Engine.getExpectation
  have key : ∀ (l : List ℕ) (a : ℝ × ℝ), l.foldl (fun (st : ℝ × ℝ) i =>
      (st.1 + Complex.normSq (e.amp i),
        st.2 + Complex.normSq (e.amp i) * (((i &&& ((2 ^ length - 1) <<< start)) >>> start : ℕ) : ℝ))) a =
      (l.foldl (fun (acc : ℝ × ℝ) i =>
        (acc.1 + Complex.normSq (e.amp i) * (((i &&& ((2 ^ length - 1) <<< start)) >>> start : ℕ) : ℝ),
          acc.2 + Complex.normSq (e.amp i))) a.swap).swap := by
    intro l
    induction l with
    | nil => intro a; rfl
    | cons i l ih =>
      intro a
      rw [List.foldl_cons, List.foldl_cons, ih]
      rfl
  simp only []
  rw [key]
  rfl

/-! ### Reading and writing -/

/-- **C61.** `GetQuantumState` gives back what `SetQuantumState` wrote, and reports the right norm. -/
theorem getSetState (hR : R.Ok) (hf : e.floor ≤ 0) {input : ℕ → ℂ} (hi : totalProb e.n input = 1) :
    ∃ e' s, setQuantumState R e input = some e' ∧ e'.Steady ∧ getQuantumState R e' = some (s, e') ∧ SameOn e.n s input := by
  unfold setQuantumState
  obtain ⟨e', k1, k2, -, -, -, k4, k5⟩ := updateRunningNorm_total hR.d hR.τ (e := { e with amp := input }) hf
  have ht : totalProb e'.n e'.amp = 1 := by
    rw [k2, ← hi]
    unfold totalProb
    exact Finset.sum_congr rfl fun i hi => by rw [k4 i (Finset.mem_range.1 hi)]
  have hst : e'.Steady := ⟨ht, fun _ => by rw [k5]; exact hi⟩
  refine ⟨e', e'.amp, k1, hst, ?_, k4⟩
  unfold getQuantumState
  rw [normIf_steady' hst]; rfl

/-- **C61.** `GetProbs` is the distribution of the whole register. -/
theorem getProbs_is (hR : R.Ok) (hn : e.n ≤ 64) (he : e.Steady) (fresh : ℕ → ℝ) :
    ∃ a, getProbs R fresh e = some (a, e) ∧ ∀ i < 2 ^ e.n, a i = Complex.normSq (e.amp i) := by
  unfold getProbs
  obtain ⟨a, h1, h2⟩ := probRegAll_is hR hn he (start := 0) (length := e.n) (by omega) fresh
  refine ⟨a, h1, fun i hi => ?_⟩
  rw [h2 i hi]
  unfold regProb probIf
  rw [Finset.sum_eq_single i]
  · rw [if_pos]
    show i / 2 ^ 0 % 2 ^ e.n = i
    rw [pow_zero, Nat.div_one, Nat.mod_eq_of_lt hi]
  · intro j hj hne
    rw [if_neg]
    show ¬ j / 2 ^ 0 % 2 ^ e.n = i
    rw [pow_zero, Nat.div_one, Nat.mod_eq_of_lt (Finset.mem_range.1 hj)]
    exact hne
  · intro h; exact absurd (Finset.mem_range.2 hi) h

/-- **C61.** `SetAmplitude` writes the one amplitude. -/
theorem setAmplitude_writes {perm : ℕ} (hp : perm < 2 ^ e.n) (z : ℂ) :
    ∃ e', setAmplitude e perm z = some e' ∧ e'.n = e.n ∧ ∀ i, e'.amp i = if i = perm then z else e.amp i := by
  unfold setAmplitude
  rw [if_neg (by omega)]
  refine ⟨_, rfl, rfl, fun i => ?_⟩
  by_cases h : i = perm
  · subst h; simp
  · simp [h]

/-- Against C61 (and C55). `SetAmplitude` leaves the running norm as it was, also when the norm changes: with `doNormalize`
no reader normalises the register afterwards. -/
theorem setAmplitude_norm_wrong (hr : e.rn = 1) {perm : ℕ} (hp : perm < 2 ^ e.n) (z : ℂ) :
    ∃ e', setAmplitude e perm z = some e' ∧ e'.rn = 1 ∧ ∀ R, normIf R e' = some e' := by
  unfold setAmplitude
  rw [if_neg (by omega)]
  have h : (if e.rn ≠ -999 then e.rn + (Complex.normSq z - Complex.normSq z) else e.rn) = 1 := by
    rw [if_pos (by rw [hr]; norm_num), hr]; ring
  refine ⟨_, rfl, h, fun R => normIf_ready' fun _ => h⟩

/-! ### Comparing -/

theorem innerKernel_eq (hR : R.Ok) (n : ℕ) (a b : ℕ → ℂ) : innerKernel R (2 ^ n) a b = some (Spec.inner n a b) := by
  unfold innerKernel
  rw [reduceKernel_eq' hR.d hR.τ, reduceKernel_eq' hR.d hR.τ]
  simp only [Option.bind_some, Option.map_some]
  congr 1
  have h : ∀ i, zmul ⟨(a i).re, -(a i).im⟩ (b i) = (starRingEnd ℂ) (a i) * b i := fun i => by rw [zmul_eq]; rfl
  simp only [h]
  unfold Spec.inner
  apply Complex.ext
  · rw [Complex.re_sum]
  · rw [Complex.im_sum]

/-- **C61.** `SumSqrDiff` of two normalised registers is one minus the squared magnitude of the inner product. -/
theorem sumSqrDiff_is (hR : R.Ok) {a b : Eng} (hn : a.n = b.n) (ha : a.Steady) (hb : b.Steady) :
    sumSqrDiff R a b = some (1 - Complex.normSq (Spec.inner a.n a.amp b.amp)) := by
  unfold sumSqrDiff
  rw [if_neg (by simpa using hn), normIf_steady' ha, Option.bind_some, normIf_steady' hb, Option.bind_some]
  simp only []
  rw [show writeBuf 1 (arr [2 ^ a.n]) R.old.ul 0 = 2 ^ a.n from rfl, innerKernel_eq hR, Option.map_some]
  have h1 := inner_le_one ha.1 (show totalProb a.n b.amp = 1 by rw [hn]; exact hb.1)
  unfold clampProb
  rw [if_neg (not_lt.2 (Complex.normSq_nonneg _)), if_neg (not_lt.2 h1)]

/-- **C61.** It is zero exactly when the states are equal up to a phase. -/
theorem sumSqrDiff_zero_iff (hR : R.Ok) {a b : Eng} (hn : a.n = b.n) (ha : a.Steady) (hb : b.Steady) :
    sumSqrDiff R a b = some 0 ↔ ∃ u : ℂ, ‖u‖ = 1 ∧ SameOn a.n b.amp (fun i => u * a.amp i) := by
  rw [sumSqrDiff_is hR hn ha hb, ← inner_one_iff ha.1 (show totalProb a.n b.amp = 1 by rw [hn]; exact hb.1), Option.some_inj]
  constructor <;> intro h <;> linarith

/-! ### Exchanging half registers -/

theorem shuffle_fold (h : ℕ) : ∀ (l : List ℕ), l.Nodup → ∀ (a b : ℕ → ℂ),
    (∀ i, (l.foldl (shuffleStep h) (a, b)).1 i = if h ≤ i ∧ i - h ∈ l then b (i - h) else a i) ∧
    ∀ i, (l.foldl (shuffleStep h) (a, b)).2 i = if i ∈ l then a (i + h) else b i := by
  intro l
  induction l with
  | nil => intro _ a b; simp
  | cons x l ih =>
    intro hnd a b
    rw [List.nodup_cons] at hnd
    rw [List.foldl_cons]
    obtain ⟨h1, h2⟩ := ih hnd.2 (Function.update a (x + h) (b x)) (Function.update b x (a (x + h)))
    have hs : shuffleStep h (a, b) x = (Function.update a (x + h) (b x), Function.update b x (a (x + h))) := rfl
    rw [hs]
    constructor
    · intro i
      rw [h1]
      by_cases hi : i = x + h
      · subst hi
        rw [Nat.add_sub_cancel]
        simp [hnd.1]
      · rw [Function.update_of_ne hi]
        by_cases hm : h ≤ i ∧ i - h ∈ l
        · rw [if_pos hm, if_pos ⟨hm.1, by simp [hm.2]⟩, Function.update_of_ne]
          rintro rfl; exact hnd.1 hm.2
        · rw [if_neg hm, if_neg]
          rintro ⟨k1, k2⟩
          rcases List.mem_cons.1 k2 with k2 | k2
          · omega
          · exact hm ⟨k1, k2⟩
    · intro i
      rw [h2]
      by_cases hi : i = x
      · subst hi; simp [hnd.1]
      · rw [Function.update_of_ne hi]
        by_cases hm : i ∈ l
        · rw [if_pos hm, if_pos (by simp [hm]), Function.update_of_ne]
          intro h'
          have : i = x := by omega
          exact hi this
        · rw [if_neg hm, if_neg (by simp [hm, hi])]

/-- **C61.** `ShuffleBuffers` exchanges the upper half of this register with the lower half of the other. -/
theorem shuffleBuffers_swaps (hR : R.Ok) {a b : Eng} (hn : a.n = b.n) (h0 : a.n ≠ 0) :
    ∃ a' b', shuffleBuffers R a b = some (a', b') ∧ a'.n = a.n ∧ b'.n = b.n ∧
      (∀ i < 2 ^ (a.n - 1), a'.amp i = a.amp i ∧ a'.amp (2 ^ (a.n - 1) + i) = b.amp i ∧
        b'.amp i = a.amp (2 ^ (a.n - 1) + i) ∧ b'.amp (2 ^ (a.n - 1) + i) = b.amp (2 ^ (a.n - 1) + i)) := by
  unfold shuffleBuffers
  rw [if_neg (by simpa using hn)]
  simp only []
  rw [half_eq (by omega)]
  rw [show writeBuf 1 (arr [2 ^ (a.n - 1)]) R.old.ul 0 = 2 ^ (a.n - 1) from rfl]
  obtain ⟨l, h1, h2, h3⟩ := launch_list hR (a.n - 1)
  rw [h3, Option.map_some]
  obtain ⟨k1, k2⟩ := shuffle_fold (2 ^ (a.n - 1)) l h1 a.amp b.amp
  refine ⟨_, _, rfl, rfl, rfl, fun i hi => ⟨?_, ?_, ?_, ?_⟩⟩
  · show (l.foldl (shuffleStep (2 ^ (a.n - 1))) (a.amp, b.amp)).1 i = _
    rw [k1, if_neg (by omega)]
  · show (l.foldl (shuffleStep (2 ^ (a.n - 1))) (a.amp, b.amp)).1 _ = _
    rw [k1, if_pos ⟨by omega, by rw [h2]; omega⟩, Nat.add_sub_cancel_left]
  · show (l.foldl (shuffleStep (2 ^ (a.n - 1))) (a.amp, b.amp)).2 _ = _
    rw [k2, if_pos ((h2 i).2 hi), Nat.add_comm]
  · show (l.foldl (shuffleStep (2 ^ (a.n - 1))) (a.amp, b.amp)).2 _ = _
    rw [k2, if_neg (by rw [h2]; omega)]

/-! ## Non-trivial cases -/

/-- Parity of a mask of two qubits, forced to the less likely value; the register is normalised and the parity possible. -/
example : let e : Eng := ⟨3, fun i => if i = 1 then 3 / 5 else if i = 6 then 4 / 5 * Complex.I else 0, 1, true, true, 0⟩
    e.Steady ∧ isPowerOfTwo 5 = false ∧ (5 : ℕ) < 2 ^ 3 ∧ (∀ i < 2 ^ 3, 3 + valueOf [2, 0] i < 2 ^ 64) ∧ [2, 0].length = 2 := by
  refine ⟨⟨?_, fun _ => rfl⟩, by decide, by norm_num, ?_, rfl⟩
  · unfold totalProb
    simp [Finset.sum_range_succ, Complex.normSq_apply]
    norm_num
  · intro i _
    have := valueOf_lt [2, 0] i
    simp only [List.length_cons, List.length_nil] at this
    omega

end Verif.Ocl
