import Verif.Model.CapiRead
import Verif.Lemmas.Capi
import Verif.Props.CapiPauli
import Verif.Props.EngineExpect
import Verif.Props.EngineIO
import Verif.Props.EngineMask

/-!
# C87: reading a simulator through the C API, and `Separate`

Specification: the listed ids stand for the qubits at `pos`; a probability is the sum over the basis states with the listed values,
a number is read from the listed qubits with the first the least significant, and a weight is written with its most significant word
first. `Separate` of qubits that are not entangled with the rest leaves every qubit where it was.
-/

namespace Verif.CapiRead

open Verif.Engine Verif.Spec Verif.ParFor Verif.Bits Verif.CapiPauli Classical

/-! ### Phases -/

theorem mask_map (pos : ℕ → ℕ) (q : List ℕ) : q.foldl (fun mask x => mask ||| 2 ^ pos x) 0 = makeMask (q.map pos) := by
  unfold makeMask
  rw [List.foldl_map]

/-- `PhaseParity` turns by `e^{±iλ/2}` by the parity of the listed qubits. -/
theorem phaseParity_acts {cpp20 : Bool} {σ : List ℕ → List ℕ} (hσ : IsSched σ) {e : Eng} (hn : e.n ≤ 64) {pos : ℕ → ℕ} {q : List ℕ}
    (hne : q ≠ []) (hnd : (q.map pos).Nodup) (hq : ∀ x ∈ q, pos x < e.n) (p : ℕ) (lam : ℝ)
    (hr : e.rgp = false ∨ 2 ≤ q.length) :
    ∃ e', phaseMask cpp20 σ pos e lam p q true = some e' ∧
      Applies e e' (fun s i => parityFactor (lam / 2) ((q.map pos).filter fun b => i.testBit b).length * s i) := by
  have hb : ∀ b ∈ q.map pos, b < e.n := by
    intro b hb
    obtain ⟨x, hx, rfl⟩ := List.mem_map.1 hb
    exact hq x hx
  have hm := mask_lt hb
  have h0 : makeMask (q.map pos) ≠ 0 := mask_ne (by simpa using hne)
  have hr' : e.rgp = false ∨ isPowerOfTwo (makeMask (q.map pos)) = false ∨ Real.sin (lam / 2) ≠ 0 := by
    rcases hr with h | h
    · exact Or.inl h
    · right; left
      by_contra hc
      rw [Bool.not_eq_false] at hc
      obtain ⟨l, h1, -⟩ := isPowerOfTwo_iff hc
      have hlen : 2 ≤ (q.map pos).length := by simpa using h
      match hl : q.map pos, hlen, hnd with
      | a :: b :: t, _, hnd =>
        have ha := mask_testBit (q.map pos) a
        have hb' := mask_testBit (q.map pos) b
        rw [h1, Nat.testBit_two_pow, hl] at ha hb'
        simp only [List.mem_cons, true_or, or_true, decide_true, decide_eq_true_eq] at ha hb'
        rw [List.nodup_cons] at hnd
        exact hnd.1 (by rw [← ha, hb']; simp)
  obtain ⟨e', h1, h2⟩ := phaseParity_factor hσ hn h0 hm lam hr'
  refine ⟨e', ?_, ?_⟩
  · unfold phaseMask
    simp only [mask_map]
    exact h1
  · simpa only [maskCount_eq hnd hb] using h2

/-- `PhaseRootN` turns by the `2^p`-th root of one for every listed qubit that is set. `_partial`: the listed qubits must be among the
first 32 before C++20, and `p` between 1 and 63. -/
theorem phaseRootN_partial {cpp20 : Bool} {σ : List ℕ → List ℕ} (hσ : IsSched σ) {e : Eng} (hn : e.n ≤ 64) {pos : ℕ → ℕ} {q : List ℕ}
    (hnd : (q.map pos).Nodup) (hq : ∀ x ∈ q, pos x < e.n) (h32 : cpp20 = true ∨ ∀ x ∈ q, pos x < 32) {p : ℕ} (hp : 1 ≤ p) (hp' : p < 64)
    (lam : ℝ) :
    ∃ e', phaseMask cpp20 σ pos e lam p q false = some e' ∧
      Applies e e' (fun s i =>
        Complex.exp (((-2 * Real.pi / 2 ^ p * ((q.map pos).filter fun b => i.testBit b).length : ℝ) : ℂ) * Complex.I) * s i) := by
  have hb : ∀ m, (∀ x ∈ q, pos x < m) → ∀ b ∈ q.map pos, b < m := by
    intro m h b hb
    obtain ⟨x, hx, rfl⟩ := List.mem_map.1 hb
    exact h x hx
  obtain ⟨e', h1, h2⟩ := phaseRootNMask_partial (cpp20 := cpp20) hσ hn (mask_lt (hb _ hq)) (h32.imp id fun h => mask_lt (hb _ h)) hp hp'
  refine ⟨e', ?_, ?_⟩
  · unfold phaseMask
    simp only [mask_map, Nat.mod_eq_of_lt (show p < 256 by omega)]
    exact h1
  · simpa only [maskCount_eq hnd (hb _ hq)] using h2

/-! ### Probabilities -/

theorem isOutProbs_iff {n : ℕ} {l : List ℕ} : isOutProbs n l = true ↔ l = List.range n := by
  unfold isOutProbs
  split_ifs with h
  · subst h
    rw [List.all_eq_true]
    constructor
    · intro ha
      apply List.ext_getElem
      · simp
      · intro k h1 h2
        have := ha (l[k], k) (by rw [List.mem_zipIdx_iff_getElem?]; exact List.getElem?_eq_getElem h1)
        simpa using this
    · rintro ha ⟨x, k⟩ hx
      rw [List.mem_zipIdx_iff_getElem?] at hx
      have hx' : l[k]? = some x := hx
      rw [ha] at hx'
      obtain ⟨hk, hx'⟩ := List.getElem?_eq_some_iff.1 hx'
      simp at hx'
      simp [hx']
  · simp only [Bool.false_eq_true, false_iff]
    rintro rfl
    exact h (by simp)

/-- `ProbAll` writes the probability of every number held by the listed qubits, whichever of the two routes it takes. -/
theorem probAll_is {σ : List ℕ → List ℕ} (hσ : IsSched σ) (pos : ℕ → ℕ) {v : EngV} (he : v.eng.Steady) (q : List ℕ) (p : ℕ → ℝ) {x : ℕ}
    (hx : x < 2 ^ q.length) :
    probAllApi σ pos v q p x = probIf v.n (fun i => valueOf (q.map pos) i = x) v.eng.amp := by
  unfold probAllApi
  split_ifs with h
  · rw [isOutProbs_iff] at h
    have hlen : q.length = v.n := by have := congrArg List.length h; simpa using this
    have hxn : x < 2 ^ v.n := by rw [← hlen]; exact hx
    dsimp only
    rw [getProbs_spec hσ _ v he.2 hxn, Complex.ofReal_re, h]
    unfold probIf
    rw [Finset.sum_eq_single x]
    · rw [if_pos (valueOf_range_eq _ _ hxn)]
    · intro i hi hne
      rw [if_neg]
      show ¬ valueOf (List.range v.n) i = x
      rw [valueOf_range_eq _ _ (Finset.mem_range.1 hi)]
      exact hne
    · intro hc; exact absurd (Finset.mem_range.2 hxn) hc
  · have hx' : x < 2 ^ (q.map pos).length := by simpa using hx
    dsimp only
    rw [if_pos hx']
    exact probBitsAll_spec he _ hx'

theorem permMask_testBit (pos : ℕ → ℕ) (k : ℕ) : ∀ (l : List (ℕ × Bool)) (mp : ℕ × ℕ),
    (permMask pos l mp).1.testBit k = (mp.1.testBit k || decide (∃ x ∈ l, pos x.1 = k)) ∧
    (permMask pos l mp).2.testBit k = (mp.2.testBit k || decide (∃ x ∈ l, pos x.1 = k ∧ x.2 = true)) := by
  intro l
  induction l with
  | nil => intro mp; simp [permMask]
  | cons a l ih =>
    obtain ⟨q, c⟩ := a
    rintro ⟨m, p⟩
    obtain ⟨h1, h2⟩ := ih (m ||| 2 ^ pos q, if c then p ||| 2 ^ pos q else p)
    simp only [permMask]
    rw [h1, h2]
    constructor
    · simp only [Nat.testBit_or, Nat.testBit_two_pow, List.mem_cons, exists_eq_or_imp]
      by_cases h : pos q = k <;> simp [h]
    · cases c
      · simp
      · simp only [if_true, Nat.testBit_or, Nat.testBit_two_pow, List.mem_cons, exists_eq_or_imp, and_true]
        by_cases h : pos q = k <;> simp [h]

/-- `PermutationProb` is the probability that every listed qubit has its listed value. `_partial`: no qubit may be listed twice with
different values (`permutationProb_twice_wrong`). -/
theorem permutationProb_partial {P : Par} (hP : P.Ok) {pos : ℕ → ℕ} {e : Eng} (hn : e.n ≤ 64) (he : e.Steady) {l : List (ℕ × Bool)}
    (hq : ∀ x ∈ l, pos x.1 < e.n) (hc : ∀ x ∈ l, ∀ y ∈ l, pos x.1 = pos y.1 → x.2 = y.2) :
    permutationProb P pos e l = some (probIf e.n (fun i => ∀ x ∈ l, i.testBit (pos x.1) = x.2) e.amp, e) := by
  have hm := fun k => (permMask_testBit pos k l (0, 0)).1
  have hp := fun k => (permMask_testBit pos k l (0, 0)).2
  simp only [Nat.zero_testBit, Bool.false_or] at hm hp
  unfold permutationProb
  simp only
  have hlt : (permMask pos l (0, 0)).1 < 2 ^ e.n := by
    rw [lt_two_pow_iff_testBit]
    intro k hk
    rw [hm]
    apply decide_eq_false
    rintro ⟨x, hx, hxk⟩
    have := hq x hx
    omega
  have hsub : (permMask pos l (0, 0)).2 &&& (permMask pos l (0, 0)).1 = (permMask pos l (0, 0)).2 := by
    apply Nat.eq_of_testBit_eq
    intro k
    rw [Nat.testBit_and, hm, hp, Bool.eq_iff_iff]
    simp only [Bool.and_eq_true, decide_eq_true_eq]
    constructor
    · exact fun h => h.1
    · rintro ⟨x, hx, h1, h2⟩; exact ⟨⟨x, hx, h1, h2⟩, x, hx, h1⟩
  rw [probMask_spec hP hn he hlt hsub]
  have hiff : ∀ i, (i &&& (permMask pos l (0, 0)).1 = (permMask pos l (0, 0)).2) = (∀ x ∈ l, i.testBit (pos x.1) = x.2) := by
    intro i
    apply propext
    constructor
    · intro h x hx
      have hk := congrArg (fun y => y.testBit (pos x.1)) h
      simp only [Nat.testBit_and, hm, hp] at hk
      rw [decide_eq_true (⟨x, hx, rfl⟩ : ∃ y ∈ l, pos y.1 = pos x.1), Bool.and_true] at hk
      rw [hk, Bool.eq_iff_iff, decide_eq_true_eq]
      constructor
      · rintro ⟨y, hy, h1, h2⟩; rw [hc x hx y hy h1.symm, h2]
      · intro h2; exact ⟨x, hx, rfl, h2⟩
    · intro h
      apply Nat.eq_of_testBit_eq
      intro k
      rw [Nat.testBit_and, hm, hp, Bool.eq_iff_iff]
      simp only [Bool.and_eq_true, decide_eq_true_eq]
      constructor
      · rintro ⟨h1, x, hx, rfl⟩; exact ⟨x, hx, rfl, by rw [← h x hx, h1]⟩
      · rintro ⟨x, hx, rfl, h2⟩; exact ⟨by rw [h x hx, h2], x, hx, rfl⟩
  simp only [hiff]

/-- Beyond C87. A qubit listed with both values is taken to be required to be one: the probability reported for the impossible event is
that of one. -/
theorem permutationProb_twice_wrong {P : Par} (hP : P.Ok) {pos : ℕ → ℕ} {e : Eng} (hn : e.n ≤ 64) (he : e.Steady) {q : ℕ} (hq : pos q < e.n) :
    permutationProb P pos e [(q, true), (q, false)] = permutationProb P pos e [(q, true)] ∧
    probIf e.n (fun i => ∀ x ∈ [(q, true), (q, false)], i.testBit (pos x.1) = x.2) e.amp = 0 := by
  constructor
  · unfold permutationProb
    simp [permMask]
  · unfold probIf
    apply Finset.sum_eq_zero
    intro i _
    rw [if_neg]
    intro h
    have h1 := h (q, true) (by simp)
    have h2 := h (q, false) (by simp)
    simp only at h1 h2
    rw [h1] at h2
    cases h2

/-! ### Averages -/

/-- `PermutationExpectation` and `Variance` are the average and the variance of the number held by the listed qubits. -/
theorem permutationExpVar_is {P : Par} (hP : P.Ok) {pos : ℕ → ℕ} {e : Eng} (hn : e.n ≤ 64) (he : e.Steady) {q : List ℕ} (hne : q ≠ [])
    (hnd : (q.map pos).Nodup) (hq : ∀ x ∈ q, pos x < e.n) :
    permutationExpVar P pos e q true = some (mean e.n (fun i => ((valueOf (q.map pos) i : ℕ) : ℝ)) e.amp, e) ∧
    permutationExpVar P pos e q false = some (variance e.n (fun i => ((valueOf (q.map pos) i : ℕ) : ℝ)) e.amp, e) := by
  have hb : ∀ b ∈ q.map pos, b < e.n := by
    intro b hb
    obtain ⟨x, hx, rfl⟩ := List.mem_map.1 hb
    exact hq x hx
  have hlen : (q.map pos).length ≤ e.n := by
    have := (List.subperm_of_subset hnd (fun b hb' => List.mem_range.2 (hb b hb'))).length_le
    simpa using this
  have h2 : 2 ^ (q.map pos).length ≤ 2 ^ 64 := Nat.pow_le_pow_right (by norm_num) (by omega)
  have := expVarBitsAll_spec hP hn he (by simpa using hne) hnd hb (offset := 0) (by omega)
  simpa [permutationExpVar] using this

/-- The number written by `m` words, the most significant first. -/
def number (m : ℕ) (w : ℕ → ℕ) : ℕ := ∑ j ∈ Finset.range m, w j * 2 ^ (64 * (m - 1 - j))

theorem factorPerms_eq {n m : ℕ} {c : ℕ → ℕ} (hm : m ≤ 2) (hc : ∀ k, c k < 2 ^ 64) :
    factorPerms n m c = flat ((List.range n).map fun k =>
      (number m (fun j => c (2 * k * m + j)), number m (fun j => c ((2 * k + 1) * m + j)))) := by
  have one : ∀ i, (List.range m).foldl (fun perm j => ((perm <<< 64) % 2 ^ 128) ||| c (i * m + j)) 0 = number m (fun j => c (i * m + j)) := by
    intro i
    unfold number
    match m, hm with
    | 0, _ => simp
    | 1, _ => simp
    | 2, _ =>
      simp only [List.range_succ, List.range_zero, List.nil_append, List.foldl_append, List.foldl_cons, List.foldl_nil, Finset.sum_range_succ,
        Finset.sum_range_zero]
      have h0 := hc (i * 2 + 0)
      have h1 := hc (i * 2 + 1)
      simp only [Nat.zero_shiftLeft, Nat.zero_mod, Nat.zero_or]
      rw [Nat.shiftLeft_eq, Nat.mod_eq_of_lt (by
        calc c (i * 2 + 0) * 2 ^ 64 < 2 ^ 64 * 2 ^ 64 := Nat.mul_lt_mul_of_pos_right h0 (by positivity)
          _ = 2 ^ 128 := by norm_num)]
      rw [Nat.mul_comm, ← Nat.two_pow_add_eq_or_of_lt h1]
      norm_num [Nat.mul_comm]
  unfold factorPerms
  simp only [one]
  rw [show n <<< 1 = 2 * n by rw [Nat.shiftLeft_eq]; ring]
  induction n with
  | zero => simp [flat]
  | succ n ih =>
    have hflat : ∀ (a b : List (ℕ × ℕ)), flat (a ++ b) = flat a ++ flat b := by
      intro a b
      induction a with
      | nil => rfl
      | cons x a iha => simp [flat, iha]
    rw [show 2 * (n + 1) = 2 * n + 1 + 1 by ring, List.range_succ, List.range_succ, List.range_succ (n := n), List.map_append, List.map_append,
      ih, List.map_append, hflat]
    simp [flat]

/-- `FactorizedExpectation` and `FactorizedVariance` are the average and the variance of the sum of the weights of the listed qubits,
each weight written in `m` words with the most significant first. `_partial`: at most two words, which is what 128 bits hold
(`factorPerms_long_wrong`), and a sum within 128 bits. -/
theorem factorizedExpVar_partial {P : Par} (hP : P.Ok) {pos : ℕ → ℕ} {e : Eng} (hn : e.n ≤ 64) (he : e.Steady) {q : List ℕ} (hne : q ≠ [])
    (hnd : (q.map pos).Nodup) (hq : ∀ x ∈ q, pos x < e.n) {m : ℕ} (hm : m ≤ 2) {c : ℕ → ℕ} (hc : ∀ k, c k < 2 ^ 64)
    (hlt : ∀ i < 2 ^ e.n, weightOf (q.map pos) ((List.range q.length).map fun k =>
      (number m (fun j => c (2 * k * m + j)), number m (fun j => c ((2 * k + 1) * m + j)))) i < 2 ^ 128) :
    let w := weightOf (q.map pos) ((List.range q.length).map fun k =>
      (number m (fun j => c (2 * k * m + j)), number m (fun j => c ((2 * k + 1) * m + j))))
    factorizedExpVar P pos e q m c true = some (mean e.n (fun i => ((w i : ℕ) : ℝ)) e.amp, e) ∧
    factorizedExpVar P pos e q m c false = some (variance e.n (fun i => ((w i : ℕ) : ℝ)) e.amp, e) := by
  intro w
  have hb : ∀ b ∈ q.map pos, b < e.n := by
    intro b hb
    obtain ⟨x, hx, rfl⟩ := List.mem_map.1 hb
    exact hq x hx
  have hne' : q.map pos ≠ [] := by simpa using hne
  have h1 := expectationBits_spec hP hn he hne' hnd hb (ws := (List.range q.length).map fun k =>
      (number m (fun j => c (2 * k * m + j)), number m (fun j => c ((2 * k + 1) * m + j)))) (by simp) [] (offset := 0) (by simpa using hlt)
  have h2 := varianceBits_spec hP hn he hne' hnd hb (ws := (List.range q.length).map fun k =>
      (number m (fun j => c (2 * k * m + j)), number m (fun j => c ((2 * k + 1) * m + j)))) (by simp) [] (offset := 0) (by simpa using hlt)
  simp only [List.append_nil, Nat.zero_add] at h1 h2
  unfold factorizedExpVar
  rw [factorPerms_eq hm hc]
  exact ⟨h1, h2⟩

theorem fpWeights (n : ℕ) (f : ℕ → ℝ) :
    (List.range (n <<< 1)).map f = flat ((List.range n).map fun k => (f (2 * k), f (2 * k + 1))) := by
  rw [show n <<< 1 = 2 * n by rw [Nat.shiftLeft_eq]; ring]
  induction n with
  | zero => simp [flat]
  | succ n ih =>
    have hflat : ∀ (a b : List (ℝ × ℝ)), flat (a ++ b) = flat a ++ flat b := by
      intro a b
      induction a with
      | nil => rfl
      | cons x a iha => simp [flat, iha]
    rw [show 2 * (n + 1) = 2 * n + 1 + 1 by ring, List.range_succ, List.range_succ, List.range_succ (n := n), List.map_append, List.map_append,
      ih, List.map_append, hflat]
    simp [flat]

/-- `FactorizedExpectationFp` is the average of the sum of the weights of the listed qubits. -/
theorem factorizedFp_is {P : Par} (hP : P.Ok) {pos : ℕ → ℕ} {e : Eng} (hn : e.n ≤ 64) (he : e.Steady) {q : List ℕ} (hne : q ≠ [])
    (hnd : (q.map pos).Nodup) (hq : ∀ x ∈ q, pos x < e.n) (f : ℕ → ℝ) :
    factorizedFpExpVar P pos e q f true =
      some (mean e.n (weightOf (q.map pos) ((List.range q.length).map fun k => (f (2 * k), f (2 * k + 1)))) e.amp, e) := by
  have hb : ∀ b ∈ q.map pos, b < e.n := by
    intro b hb
    obtain ⟨x, hx, rfl⟩ := List.mem_map.1 hb
    exact hq x hx
  have := expectationFloats_spec hP hn he (by simpa using hne) hnd hb
    (ws := (List.range q.length).map fun k => (f (2 * k), f (2 * k + 1))) (by simp) []
  unfold factorizedFpExpVar
  simp only [fpWeights, if_true]
  simpa using this

/-- Beyond C87. With three words or more, the most significant are lost. -/
theorem factorPerms_long_wrong : factorPerms 1 3 (fun k => if k = 0 then 1 else 0) = [0, 0] ∧
    number 3 (fun j => if j = 0 then 1 else 0) = 2 ^ 128 := by
  constructor
  · decide +kernel
  · unfold number; simp [Finset.sum_range_succ]

/-! ### Cases: four qubits of which the first was released, so that id `q` is at position `q - 1` -/

example {σ : List ℕ → List ℕ} (hσ : IsSched σ) (lam : ℝ) : ∃ e', phaseMask false σ afterRelease (plusFirst 3) lam 0 [3, 1] true = some e' ∧
    Applies (plusFirst 3) e' (fun s i => parityFactor (lam / 2) ([2, 0].filter fun b => i.testBit b).length * s i) :=
  phaseParity_acts hσ (by decide) (by simp) (by decide) (by decide) 0 lam (Or.inr (by decide))

example {σ : List ℕ → List ℕ} (hσ : IsSched σ) : ∃ e', phaseMask false σ afterRelease (plusFirst 3) 0 3 [3, 1] false = some e' ∧
    Applies (plusFirst 3) e' (fun s i =>
      Complex.exp (((-2 * Real.pi / 2 ^ 3 * ([2, 0].filter fun b => i.testBit b).length : ℝ) : ℂ) * Complex.I) * s i) :=
  phaseRootN_partial hσ (by decide) (by decide) (by decide) (Or.inr (by decide)) (by decide) (by decide) 0

/-- Two qubits of three, the later one first: the number 2 is the earlier one set. -/
example {σ : List ℕ → List ℕ} (hσ : IsSched σ) (p : ℕ → ℝ) :
    probAllApi σ afterRelease ⟨3, some (plusFirst 3).amp, (plusFirst 3).rn, (plusFirst 3).doNorm, (plusFirst 3).rgp, (plusFirst 3).floor⟩ [3, 1] p 2 =
      probIf 3 (fun i => valueOf [2, 0] i = 2) (plusFirst 3).amp :=
  probAll_is hσ afterRelease (v := ⟨3, some (plusFirst 3).amp, (plusFirst 3).rn, (plusFirst 3).doNorm, (plusFirst 3).rgp, (plusFirst 3).floor⟩)
    (plusFirst_steady 2) [3, 1] p (by decide)

example : isOutProbs 3 [0, 1, 2] = true ∧ isOutProbs 3 [2, 0] = false ∧ isOutProbs 3 [1, 0, 2] = false := by decide

example {P : Par} (hP : P.Ok) : permutationProb P afterRelease (plusFirst 3) [(3, false), (1, true)] =
    some (probIf 3 (fun i => ∀ x ∈ [(3, false), (1, true)], i.testBit (afterRelease x.1) = x.2) (plusFirst 3).amp, plusFirst 3) :=
  permutationProb_partial hP (by decide) (plusFirst_steady 2) (by decide) (by decide)

example {P : Par} (hP : P.Ok) : permutationExpVar P afterRelease (plusFirst 3) [3, 1] true =
    some (mean 3 (fun i => ((valueOf [2, 0] i : ℕ) : ℝ)) (plusFirst 3).amp, plusFirst 3) :=
  (permutationExpVar_is hP (by decide) (plusFirst_steady 2) (by simp) (by decide) (by decide)).1

/-- Weights of two words: 5 for zero and 2^64 + 7 for one. -/
def twoWords : ℕ → ℕ
  | 1 => 5
  | 2 => 1
  | 3 => 7
  | _ => 0

theorem twoWords_lt (k : ℕ) : twoWords k < 2 ^ 64 := by
  unfold twoWords
  split <;> norm_num

example : factorPerms 1 2 twoWords = [5, 2 ^ 64 + 7] := by decide +kernel

example {P : Par} (hP : P.Ok) : factorizedExpVar P afterRelease (plusFirst 3) [1] 2 twoWords true =
    some (mean 3 (fun i => ((weightOf [0] [(5, 2 ^ 64 + 7)] i : ℕ) : ℝ)) (plusFirst 3).amp, plusFirst 3) := by
  have hw : ((List.range [1].length).map fun k => (number 2 (fun j => twoWords (2 * k * 2 + j)), number 2 (fun j => twoWords ((2 * k + 1) * 2 + j)))) =
      [(5, 2 ^ 64 + 7)] := by
    simp [number, Finset.sum_range_succ, twoWords]
  have := factorizedExpVar_partial hP (pos := afterRelease) (e := plusFirst 3) (by decide) (plusFirst_steady 2) (q := [1]) (by simp) (by decide)
    (by decide) (m := 2) (by decide) twoWords_lt (by
      rw [hw]
      intro i _
      simp only [List.map_cons, List.map_nil, weightOf]
      split_ifs <;> norm_num)
  simp only [hw] at this
  exact this.1

end Verif.CapiRead

/-! ### Separate -/

namespace Verif.Capi

theorem sub8_eq {a b : ℕ} (ha : a < 256) (hb : b ≤ a) : sub8 a b = a - b := by
  unfold sub8
  rw [if_pos hb, Nat.mod_eq_of_lt (by omega)]

theorem swapEnds_perm (fin : ℕ) : ∀ (bs : List ℕ) (i : ℕ) {r r' : List ℕ}, swapEnds fin i bs r = some r' → r'.Perm r := by
  intro bs
  induction bs with
  | nil => intro i r r' h; rw [swapEnds, Option.some.injEq] at h; rw [h]
  | cons b bs ih =>
    intro i r r' h
    rw [swapEnds, Option.bind_eq_some_iff] at h
    obtain ⟨r1, h1, h2⟩ := h
    refine (ih _ h2).trans ?_
    unfold swapReg at h1
    split at h1
    case h_2 => cases h1
    rename_i x y hx hy
    obtain ⟨ha, hx⟩ := List.getElem?_eq_some_iff.mp hx
    obtain ⟨hb, hy⟩ := List.getElem?_eq_some_iff.mp hy
    rw [Option.some.injEq] at h1
    rw [← h1, ← hx, ← hy]
    exact List.set_set_perm ha hb

/-- C87. Whatever it does, `Separate` loses no qubit and changes no id. -/
theorem separate_perm {s s' : Sim} {q : List ℕ} {err : Bool} (h : separate s q = some (s', err)) : s'.reg.Perm s.reg ∧ s'.sh = s.sh := by
  unfold separate at h
  rw [Option.bind_eq_some_iff] at h
  obtain ⟨ps, -, h⟩ := h
  simp only at h
  rw [Option.bind_eq_some_iff] at h
  obtain ⟨r, h1, h⟩ := h
  rw [Option.map_eq_some_iff] at h
  obtain ⟨r', h2, h3⟩ := h
  rw [Prod.mk.injEq] at h3
  rw [← h3.1]
  refine ⟨?_, rfl⟩
  refine (swapEnds_perm _ _ _ h2).trans (List.Perm.trans ?_ (swapEnds_perm _ _ _ h1))
  unfold takeOutAppend
  split_ifs
  · exact List.Perm.refl _
  · simp only [Option.getD_some, List.append_assoc]
    generalize sub8 _ _ = st
    conv_rhs => rw [← List.take_append_drop st r, ← List.take_append_drop q.length (r.drop st), List.drop_drop]
    exact List.Perm.append_left _ List.perm_append_comm

/-- C87. Given no qubit, `Separate` changes nothing. -/
theorem separate_none {s : Sim} (h : s.reg ≠ []) (hl : s.reg.length < 256) : separate s [] = some (s, false) := by
  have h0 : s.reg.length ≠ 0 := by simpa using h
  unfold separate
  simp only [positions, Option.bind_some, swapEnds, List.length_nil]
  rw [sub8_eq hl (by omega), sub8_eq (by omega) (by omega)]
  unfold takeOutAppend
  rw [if_neg (by omega)]
  simp [swapEnds]

/-- Beyond C87. Given one qubit of two or more, `Separate` always exchanges it with another and leaves the ids as they were: it takes
`[end - 1, end)` instead of `[end, end + 1)` out of the register. -/
theorem separate_one_wrong {s : Sim} {q p : ℕ} (hp : addr s q = some p) (hpr : p < s.reg.length) (h2 : 2 ≤ s.reg.length) (hl : s.reg.length < 256)
    (hnd : s.reg.Nodup) :
    ∃ s', separate s [q] = some (s', false) ∧ s'.sh = s.sh ∧ s'.reg ≠ s.reg ∧
      swapReg s.reg p (if p = s.reg.length - 2 then s.reg.length - 1 else s.reg.length - 2) = some s'.reg := by
  set n := s.reg.length with hn
  obtain ⟨r1, h1⟩ := swapReg_valid s.reg (a := n - 1) (b := p) (by omega) (by omega)
  obtain ⟨-, -, hl1, hg1⟩ := swapReg_get h1
  have ht : takeOutAppend (n - 1 - 1) 1 r1 = some (r1.take (n - 2) ++ r1.drop (n - 1) ++ (r1.drop (n - 2)).take 1) := by
    unfold takeOutAppend
    rw [if_neg (by omega), show n - 1 - 1 = n - 2 by omega, show n - 2 + 1 = n - 1 by omega]
  set r2 := r1.take (n - 2) ++ r1.drop (n - 1) ++ (r1.drop (n - 2)).take 1 with hr2
  have hl2 : r2.length = n := by
    rw [hr2]
    simp only [List.length_append, List.length_take, List.length_drop]
    omega
  have hg2 : ∀ i, r2[i]? = r1[Equiv.swap (n - 2) (n - 1) i]? := by
    intro i
    rw [hr2, Equiv.swap_apply_def]
    by_cases hi : i < n - 2
    · rw [if_neg (by omega), if_neg (by omega), List.append_assoc, List.getElem?_append_left (by simp; omega), List.getElem?_take_of_lt hi]
    · by_cases hi' : i = n - 2
      · rw [if_pos hi', List.append_assoc, List.getElem?_append_right (by simp; omega),
          List.getElem?_append_left (by simp; omega), List.getElem?_drop]
        congr 1
        simp; omega
      · by_cases hi'' : i = n - 1
        · rw [if_neg hi', if_pos hi'', List.getElem?_append_right (by simp; omega), List.getElem?_take_of_lt (by simp; omega), List.getElem?_drop]
          congr 1
          simp; omega
        · rw [if_neg hi', if_neg hi'', ← hr2, List.getElem?_eq_none (by omega), List.getElem?_eq_none (by omega)]
  obtain ⟨r3, h3⟩ := swapReg_valid r2 (a := n - 1) (b := p) (by omega) (by omega)
  obtain ⟨-, -, hl3, hg3⟩ := swapReg_get h3
  obtain ⟨r4, h4⟩ := swapReg_valid s.reg (a := p) (b := if p = n - 2 then n - 1 else n - 2) (by omega) (by split_ifs <;> omega)
  obtain ⟨-, -, hl4, hg4⟩ := swapReg_get h4
  have h34 : r3 = r4 := by
    apply List.ext_getElem?
    intro i
    rw [hg3, hg2, hg1, hg4]
    congr 1
    by_cases hc : p = n - 2
    · rw [if_pos hc, hc, Equiv.swap_comm (n - 1) (n - 2), Equiv.swap_apply_self]
    · rw [if_neg hc]
      have hs := Equiv.swap_mul_swap_mul_swap (x := n - 2) (y := n - 1) (z := p) (by omega) (Ne.symm hc)
      have hi := congrArg (fun f : Equiv.Perm ℕ => f i) hs
      exact hi
  refine ⟨⟨r3, s.sh⟩, ?_, rfl, ?_, ?_⟩
  · unfold separate
    simp only [positions, hp, Option.bind_some, Option.map_some, swapEnds, List.length_singleton]
    rw [← hn, sub8_eq hl (by omega), sub8_eq (by omega) (by omega), sub8_eq (by omega) (by omega), Nat.sub_zero, h1]
    simp only [Option.bind_some, ht, Option.getD_some]
    rw [h3]
    rfl
  · intro hc
    have hc : r3 = s.reg := hc
    have hp' := hg4 p
    rw [← h34, hc, Equiv.swap_apply_left] at hp'
    have hlt : (if p = n - 2 then n - 1 else n - 2) < s.reg.length := by split_ifs <;> omega
    rw [List.getElem?_eq_getElem hpr, List.getElem?_eq_getElem hlt, Option.some.injEq] at hp'
    have := (hnd.getElem_inj_iff).1 hp'
    split_ifs at this <;> omega
  · rw [h4, h34]

/-- Beyond C87. Given all of the qubits, `Separate` asks for a range that begins at 255, and reports an error. -/
theorem separate_all_wrong {s s' : Sim} {q : List ℕ} {err : Bool} (hq : q.length = s.reg.length) (h0 : s.reg ≠ []) (hl : s.reg.length < 256)
    (h : separate s q = some (s', err)) : err = true := by
  have hn : s.reg.length ≠ 0 := by simpa using h0
  unfold separate at h
  rw [Option.bind_eq_some_iff] at h
  obtain ⟨ps, -, h⟩ := h
  simp only at h
  rw [Option.bind_eq_some_iff] at h
  obtain ⟨r, h1, h⟩ := h
  rw [Option.map_eq_some_iff] at h
  obtain ⟨r', h2, h3⟩ := h
  rw [Prod.mk.injEq] at h3
  rw [← h3.2, sub8_eq hl (by omega)]
  have hr := (swapEnds_perm _ _ _ h1).length_eq
  have : sub8 (s.reg.length - 1) q.length = 255 := by
    unfold sub8
    rw [hq, if_neg (by omega), show s.reg.length - (s.reg.length - 1) = 1 by omega]
    norm_num
  rw [this]
  unfold takeOutAppend
  rw [if_pos (by omega)]
  rfl

/-- Two qubits in a product: after `Separate` of the second, each id reads the other qubit. -/
example : separate (fill [10, 11]) [1] = some (⟨[11, 10], [(0, 0), (1, 1)]⟩, false) := by decide +kernel

example : separate (fill [10, 11, 12, 13]) [1] = some (⟨[10, 12, 11, 13], (fill [10, 11, 12, 13]).sh⟩, false) := by decide +kernel

example : separate (fill [10, 11, 12]) [0, 1, 2] = some (fill [10, 11, 12], true) := by decide +kernel

example : separate (fill [10, 11]) [] = some (fill [10, 11], false) := separate_none (by decide) (by decide)

example : ∃ s', separate (fill [10, 11, 12]) [2] = some (s', false) ∧ s'.sh = (fill [10, 11, 12]).sh ∧ s'.reg ≠ [10, 11, 12] := by
  obtain ⟨s', h1, h2, h3, -⟩ := separate_one_wrong (s := fill [10, 11, 12]) (q := 2) (p := 2) (by decide) (by decide) (by decide) (by decide)
    (by decide)
  exact ⟨s', h1, h2, h3⟩

end Verif.Capi
