import Verif.Lemmas.EngineGate
import Mathlib.Data.Complex.BigOperators

/-!
C03: controlled single-qubit gates of the state vector engine act as the tensor-extended operator,
for every schedule `σ` of the parallel loop.
-/

namespace Verif.Engine

open Verif.ParFor Verif.Bits Verif.Spec Classical

/-- The matrix is a global phase that the engine is allowed to drop (`randGlobalPhase`). -/
def Dropped (rgp : Bool) (m : M2) : Prop := rgp = true ∧ m.b = 0 ∧ m.c = 0 ∧ m.a = m.d

theorem isIdentity_ctrl {rgp : Bool} {m : M2} (h : isIdentity rgp m true = true) :
    m.a = 1 ∧ m.b = 0 ∧ m.c = 0 ∧ m.d = 1 := by
  unfold isIdentity at h
  split_ifs at h with h1 h2
  simp only [not_or, not_not, M2.isPhase] at h1
  simp at h2
  exact ⟨h2, h1.2.1, h1.2.2, by rw [← h1.1, h2]⟩

theorem isIdentity_plain {rgp : Bool} {m : M2} (h : isIdentity rgp m false = true) :
    m.b = 0 ∧ m.c = 0 ∧ m.a = m.d ∧ (m.a = 1 ∨ rgp = true) := by
  unfold isIdentity at h
  split_ifs at h with h1 h2
  simp only [not_or, not_not, M2.isPhase] at h1
  refine ⟨h1.2.1, h1.2.2, h1.1, ?_⟩
  cases rgp
  · simp at h2; exact Or.inl h2
  · exact Or.inr rfl

theorem gate_id (p : ℕ → Prop) [DecidablePred p] (t : ℕ) (s : ℕ → ℂ) (i : ℕ) :
    gate p t 1 0 0 1 s i = s i := by
  unfold gate; split_ifs <;> simp

/-- C03, uncontrolled. `Mtrx` on qubit `q`, without normalisation (or for a diagonal or antidiagonal
matrix), maps the amplitudes as the
operator `m ⊗ 1` does; the only exception is that a multiple of the identity may be skipped when
`randGlobalPhase` is set, which leaves the state equal up to the global factor `m.a`. -/
theorem mtrx_gate {σ : List ℕ → List ℕ} (hσ : IsSched σ) {e : Eng} (hn : e.n ≤ 64)
    {m : M2} (hd : e.doNorm = false ∨ m.isPhase ∨ m.isInvert) {q : ℕ} (hq : q < e.n) :
    ∃ e', mtrx σ e m q = some e' ∧ e'.n = e.n ∧ (e.doNorm = false → e'.rn = e.rn) ∧ e'.doNorm = e.doNorm ∧
      e'.floor = e.floor ∧ e'.rgp = e.rgp ∧
      ((¬ Dropped e.rgp m → ∀ i < 2 ^ e.n,
          e'.amp i = gate (fun _ => True) q m.a m.b m.c m.d e.amp i) ∧
       (Dropped e.rgp m → ∀ i < 2 ^ e.n,
          m.a * e'.amp i = gate (fun _ => True) q m.a m.b m.c m.d e.amp i)) := by
  unfold mtrx
  split_ifs with hid
  · refine ⟨e, rfl, rfl, fun _ => rfl, rfl, rfl, rfl, ?_, ?_⟩
    · intro hdrop i _
      obtain ⟨h1, h2, h3, h4 | h4⟩ := isIdentity_plain hid
      · rw [h1, h2, ← h3, h4, gate_id]
      · exact absurd ⟨h4, h1, h2, h3⟩ hdrop
    · rintro ⟨_, h1, h2, h3⟩ i _
      unfold gate
      rw [if_pos trivial, h1, h2, ← h3]
      split_ifs <;> simp
  · have v : Valid e.n [q] 0 (2 ^ q) := by
      refine ⟨by simp, by simpa using hq, hn, ?_, ?_, ?_⟩
      · intro k hk; simp at hk
      · intro k hk
        rw [Nat.testBit_two_pow] at hk; simpa [eq_comm] using hk
      · have : 0 < 2 ^ q := by positivity
        omega
    have := apply2x2_plain hσ v m
    simp only [List.map_cons, List.map_nil] at this
    have hcn : (e.doNorm && !decide (m.isPhase ∨ m.isInvert)) = false := by
      rcases hd with h | h
      · simp [h]
      · simp [h]
    simp only [hcn, pow2]
    rw [this]
    have hamp : ∀ i < 2 ^ e.n, pairSpec e.n [q] 0 (2 ^ q) (mul2 m 1) e.amp i =
        gate (fun _ => True) q m.a m.b m.c m.d e.amp i := by
      intro i hi
      have := pairSpec_gate (n := e.n) (t := q) (o := 0) (cs := []) (ps := [q]) (by simp) (by simp)
        (by intro k hk; simp at hk) (fun _ => True) (by simp [Pat]) m e.amp hi
      simpa using this
    refine ⟨_, rfl, rfl, fun h => by simp [h], rfl, rfl, rfl, fun _ => hamp, ?_⟩
    rintro ⟨hr, h1, h2, h3⟩
    exfalso
    apply hid
    unfold isIdentity
    simp [h1, h2, h3, hr, M2.isPhase]

theorem updateRunningNorm_amp {e : Eng} (h : e.floor ≤ 0) {i : ℕ} (hi : i < 2 ^ e.n) :
    (updateRunningNorm e).amp i = e.amp i := by
  unfold updateRunningNorm
  dsimp only
  split_ifs with hs
  · have hpos : ∀ j ∈ Finset.range (2 ^ e.n),
        0 ≤ (if Complex.normSq (e.amp j) < e.floor then 0 else Complex.normSq (e.amp j)) := by
      intro j _; split_ifs; exact le_refl _; exact Complex.normSq_nonneg _
    have h0 := (Finset.sum_eq_zero_iff_of_nonneg hpos).1
      (le_antisymm hs (Finset.sum_nonneg hpos)) i (Finset.mem_range.2 hi)
    rw [if_neg (by have := Complex.normSq_nonneg (e.amp i); linarith)] at h0
    exact (Complex.normSq_eq_zero.1 h0).symm
  · rfl

theorem updateRunningNorm_n (e : Eng) : (updateRunningNorm e).n = e.n := by
  unfold updateRunningNorm; dsimp only; split_ifs <;> rfl

theorem updateRunningNorm_floor (e : Eng) : (updateRunningNorm e).floor = e.floor := by
  unfold updateRunningNorm; dsimp only; split_ifs <;> rfl

/-- C03, controlled and anti-controlled (`MCMtrx`, `MACMtrx`). -/
theorem eitherMtrx_gate {σ : List ℕ → List ℕ} (hσ : IsSched σ) {e : Eng} (hn : e.n ≤ 64)
    (hfl : e.doNorm = false ∨ e.floor ≤ 0) {cs : List ℕ} (hne : cs ≠ []) (m : M2) {t : ℕ}
    (hnd : (cs ++ [t]).Nodup) (hb : ∀ k ∈ cs ++ [t], k < e.n) (anti : Bool) :
    ∃ e', eitherMtrx σ e cs m t anti = some e' ∧ e'.n = e.n ∧
      ∀ i < 2 ^ e.n, e'.amp i = gate (AllAre (!anti) cs) t m.a m.b m.c m.d e.amp i := by
  unfold eitherMtrx
  rw [if_neg hne]
  split_ifs with hid hanti hnorm hnorm
  · obtain ⟨h1, h2, h3, h4⟩ := isIdentity_ctrl hid
    exact ⟨e, rfl, rfl, fun i _ => by rw [h1, h2, h3, h4, gate_id]⟩
  all_goals
    first
    | (subst hanti
       have key := apply2x2_ctrl hσ hn hne hnd hb (o := 0) (by intro k hk; simp at hk)
         (AllAre false cs) (fun i => by simp [AllAre, Pat]) m
       rw [Nat.zero_or] at key
       obtain ⟨e', h, h1, -, -, h2, -, h3⟩ := key
       have hr : applyAntiControlled2x2 σ e cs t m = some e' := h)
    | (have hf : anti = false := by simpa using hanti
       subst hf
       have key := apply2x2_ctrl hσ hn hne hnd hb (o := (cs.map pow2).foldl (· ||| ·) 0)
         (by intro k hk; rw [testBit_foldl_or] at hk; simpa using hk)
         (AllAre true cs) (fun i => by
          simp only [AllAre, Pat, testBit_foldl_or, Nat.zero_testBit, Bool.false_or]
          exact forall₂_congr fun c hc => by simp [hc]) m
       obtain ⟨e', h, h1, -, -, h2, -, h3⟩ := key
       have hr : applyControlled2x2 σ e cs t m = some e' := h)
  all_goals first
    | (have hfl' : e.floor ≤ 0 := by
         rcases hfl with h' | h'
         · rw [h'] at hnorm; simp at hnorm
         · exact h'
       refine ⟨updateRunningNorm e', by rw [hr]; rfl, by rw [updateRunningNorm_n, h1], fun i hi => ?_⟩
       rw [updateRunningNorm_amp (by rw [h2]; exact hfl') (by rw [h1]; exact hi)]
       exact h3 i hi)
    | exact ⟨e', hr, h1, fun i hi => h3 i hi⟩

/-- C03, arbitrary control permutation (`UCMtrx`). -/
theorem ucMtrx_gate {σ : List ℕ → List ℕ} (hσ : IsSched σ) {e : Eng} (hn : e.n ≤ 64)
    {cs : List ℕ} (hne : cs ≠ []) (m : M2) {t : ℕ} (hnd : (cs ++ [t]).Nodup)
    (hb : ∀ k ∈ cs ++ [t], k < e.n) (perm : ℕ) :
    ∃ e', ucMtrx σ e cs m t perm = some e' ∧ e'.n = e.n ∧
      ∀ i < 2 ^ e.n, e'.amp i = gate (Matches perm cs) t m.a m.b m.c m.d e.amp i := by
  unfold ucMtrx
  rw [if_neg hne]
  split_ifs with hid
  · obtain ⟨h1, h2, h3, h4⟩ := isIdentity_ctrl hid
    exact ⟨e, rfl, rfl, fun i _ => by rw [h1, h2, h3, h4, gate_id]⟩
  · have hcs : cs.Nodup := (List.nodup_append.1 hnd).1
    have hbit : ∀ k (h : k < cs.length), (permMask perm 0 cs).testBit cs[k] = perm.testBit k := by
      intro k h
      rw [Bool.eq_iff_iff, testBit_permMask]
      constructor
      · rintro ⟨i, hi, h1, h2⟩
        have := (List.Nodup.getElem_inj_iff hcs).1 h1
        subst this
        simpa using h2
      · intro hp
        exact ⟨k, h, rfl, by simpa using hp⟩
    obtain ⟨e', h, h1, -, -, -, -, h3⟩ := apply2x2_ctrl hσ hn hne hnd hb (o := permMask perm 0 cs)
      (by
        intro k hk
        obtain ⟨i, hi, h1, -⟩ := (testBit_permMask perm cs 0 k).1 hk
        exact h1 ▸ List.getElem_mem hi)
      (Matches perm cs) (fun i => by
        constructor
        · intro h c hc
          obtain ⟨k, hk, rfl⟩ := List.getElem_of_mem hc
          rw [h k hk, hbit k hk]
        · intro h k hk
          rw [h _ (List.getElem_mem hk), hbit k hk]) m
    exact ⟨e', h, h1, h3⟩

/-- C03, error cases: a repeated qubit among controls and target, or a qubit outside the register,
is rejected (unless the matrix is the identity, which is skipped first), and the state is not
touched. -/
theorem ucMtrx_invalid {σ : List ℕ → List ℕ} {e : Eng} {cs : List ℕ} (hne : cs ≠ []) {m : M2}
    {t : ℕ} (hm : ¬ (m.a = 1 ∧ m.b = 0 ∧ m.c = 0 ∧ m.d = 1)) (perm : ℕ)
    (hbad : ¬ (cs ++ [t]).Nodup ∨ ∃ k ∈ cs ++ [t], e.n ≤ k) : ucMtrx σ e cs m t perm = none := by
  unfold ucMtrx
  rw [if_neg hne]
  split_ifs with hid
  · exact absurd (isIdentity_ctrl hid) hm
  · have : cs.map pow2 ++ [pow2 t] = (cs ++ [t]).map pow2 := by simp
    dsimp only
    rw [this]
    rcases hbad with h | ⟨k, hk, h⟩
    · exact apply2x2_dup m h _
    · exact apply2x2_bound m hk h _

/-- C03, error cases of `MCMtrx`/`MACMtrx`. -/
theorem eitherMtrx_invalid {σ : List ℕ → List ℕ} {e : Eng} {cs : List ℕ} (hne : cs ≠ []) {m : M2}
    {t : ℕ} (hm : ¬ (m.a = 1 ∧ m.b = 0 ∧ m.c = 0 ∧ m.d = 1)) (anti : Bool)
    (hbad : ¬ (cs ++ [t]).Nodup ∨ ∃ k ∈ cs ++ [t], e.n ≤ k) :
    eitherMtrx σ e cs m t anti = none := by
  unfold eitherMtrx
  rw [if_neg hne]
  have hl : cs.map pow2 ++ [pow2 t] = (cs ++ [t]).map pow2 := by simp
  have h1 : applyControlled2x2 σ e cs t m = none := by
    unfold applyControlled2x2
    dsimp only
    rw [hl]
    rcases hbad with h | ⟨k, hk, h⟩
    · exact apply2x2_dup m h _
    · exact apply2x2_bound m hk h _
  have h2 : applyAntiControlled2x2 σ e cs t m = none := by
    unfold applyAntiControlled2x2
    rw [hl]
    rcases hbad with h | ⟨k, hk, h⟩
    · exact apply2x2_dup m h _
    · exact apply2x2_bound m hk h _
  split_ifs with hid
  · exact absurd (isIdentity_ctrl hid) hm
  all_goals simp [h1, h2]

/-- C03, uncontrolled gate with normalisation switched on (`doNormalize`) and no amplitude floor:
the amplitudes are the operator's times the normalisation factor `1/√runningNorm`, and
`runningNorm` becomes the true total probability of the result. -/
theorem mtrx_gate_norm {σ : List ℕ → List ℕ} (hσ : IsSched σ) {e : Eng} (hn : e.n ≤ 64)
    (hd : e.doNorm = true) (hrn : 0 < e.rn) (hfl : e.floor ≤ 0) (m : M2)
    (hm : ¬ m.isPhase) (hi : ¬ m.isInvert) {q : ℕ} (hq : q < e.n) :
    ∃ e', mtrx σ e m q = some e' ∧ e'.n = e.n ∧ e'.rn = totalProb e.n e'.amp ∧
      ∀ i < 2 ^ e.n, e'.amp i =
        ((1 / Real.sqrt e.rn : ℝ) : ℂ) * gate (fun _ => True) q m.a m.b m.c m.d e.amp i := by
  unfold mtrx
  have hid : isIdentity e.rgp m false = false := by
    unfold isIdentity; rw [if_pos (Or.inr hm)]
  rw [hid, if_neg (by simp)]
  have v : Valid e.n [q] 0 (2 ^ q) := by
    refine ⟨by simp, by simpa using hq, hn, ?_, ?_, ?_⟩
    · intro k hk; simp at hk
    · intro k hk
      rw [Nat.testBit_two_pow] at hk; simpa [eq_comm] using hk
    · have : 0 < 2 ^ q := by positivity
      omega
  have hcn : (e.doNorm && !decide (m.isPhase ∨ m.isInvert)) = true := by simp [hd, hm, hi]
  rw [hcn]
  unfold apply2x2 pow2
  have hlt : 2 ^ q < 2 ^ e.n := Nat.pow_lt_pow_right (by norm_num) hq
  have c1 : ¬ (2 ^ e.n ≤ 0 ∨ 2 ^ e.n ≤ 2 ^ q) := by
    have : 0 < 2 ^ e.n := by positivity
    omega
  have c2 : ¬ ((∃ p ∈ [2 ^ q], 2 ^ e.n ≤ p) ∨ adjDup [2 ^ q] = true) := by
    simp [adjDup]; exact hlt
  rw [if_neg c1, if_neg c2]
  have hda : (e.doNorm && ([2 ^ q].length == 1) && decide (0 < e.rn)) = true := by simp [hd, hrn]
  simp only [hda, Bool.true_or, Bool.true_and, Bool.not_true, if_true, Bool.false_eq_true, if_false]
  have hamp := fold_amp v hσ true e.floor (1 / Real.sqrt e.rn) m e.amp 0
  have hnrm := fold_norm hn hq hσ e.floor (1 / Real.sqrt e.rn) m e.amp
  simp only [List.map_cons, List.map_nil] at hamp
  rw [hnrm, hamp]
  have hspec : ∀ i < 2 ^ e.n,
      pairSpec e.n [q] 0 (2 ^ q) (kernel true e.floor (1 / Real.sqrt e.rn) m) e.amp i =
      ((1 / Real.sqrt e.rn : ℝ) : ℂ) * gate (fun _ => True) q m.a m.b m.c m.d e.amp i := by
    intro i hi
    have h := pairSpec_gate (n := e.n) (t := q) (o := 0) (cs := []) (ps := [q]) (by simp) (by simp)
      (by intro k hk; simp at hk) (fun _ => True) (by simp [Pat]) m e.amp hi
    rw [← h]
    unfold pairSpec kernel
    have hf : ¬ 0 < e.floor := by linarith
    simp only [if_true, hf, if_false, Nat.zero_or, mul2_fst, mul2_snd, one_mul]
    have h0 : Pat [q] 0 i ∨ Pat [q] (2 ^ q) i := by
      simp only [Pat, List.mem_singleton, forall_eq, Nat.zero_testBit, Nat.testBit_two_pow,
        decide_true]
      cases i.testBit q <;> simp
    by_cases h1 : Pat [q] 0 i
    · simp [hi, h1]
    · rcases h0 with h0 | h0
      · exact absurd h0 h1
      · simp [hi, h1, h0]
  split_ifs with hz
  · have h0 : totalProb e.n (pairSpec e.n [q] 0 (2 ^ q)
        (kernel true e.floor (1 / Real.sqrt e.rn) m) e.amp) = 0 :=
      le_antisymm hz (Finset.sum_nonneg fun i _ => Complex.normSq_nonneg _)
    refine ⟨_, rfl, rfl, by simp [totalProb], fun i hi => ?_⟩
    rw [← hspec i hi]
    have := (Finset.sum_eq_zero_iff_of_nonneg (fun i _ => Complex.normSq_nonneg _)).1 h0 i
      (Finset.mem_range.2 hi)
    exact (Complex.normSq_eq_zero.1 this).symm
  · exact ⟨_, rfl, rfl, rfl, hspec⟩

/-- `include/qengine.hpp:36-37` promises that "the value stored in runningNorm should always be the
total probability". It is not: with `doNormalize`, a diagonal gate on a state of norm `1/4`
(`runningNorm = 1/4`) multiplies the amplitudes by the gate only, but sets `runningNorm` to 1. -/
theorem runningNorm_wrong : ∃ (e : Eng) (m : M2) (e' : Eng),
    e.rn = totalProb e.n e.amp ∧ 0 < e.rn ∧ mtrx id e m 0 = some e' ∧
      e'.rn ≠ totalProb e.n e'.amp := by
  let e : Eng := ⟨1, fun i => if i = 0 then 1 / 2 else 0, 1 / 4, true, true, 0⟩
  let m : M2 := ⟨1, 0, 0, -1⟩
  have v : Valid e.n [0] 0 (2 ^ 0) := by
    refine ⟨by simp, by simp [e], by simp [e], ?_, ?_, by simp⟩
    · intro k hk; simp at hk
    · intro k hk
      rw [Nat.testBit_two_pow] at hk; simpa [eq_comm] using hk
  have h := apply2x2_plain (σ := id) (fun l => List.Perm.refl l) v m
  have hid : isIdentity e.rgp m false = false := by
    unfold isIdentity; rw [if_pos]; left; simp only [m]; norm_num
  have hcn : (e.doNorm && !decide (m.isPhase ∨ m.isInvert)) = false := by
    simp [m, M2.isPhase]
  have hm : mtrx id e m 0 = apply2x2 id e 0 (2 ^ 0) m (List.map (2 ^ ·) [0]) false := by
    unfold mtrx
    rw [hid, hcn, if_neg (by simp)]
    rfl
  rw [h] at hm
  refine ⟨e, m, _, ?_, by simp [e], hm, ?_⟩
  · simp [e, totalProb, Finset.sum_range_succ]; norm_num
  · simp [e, totalProb, Finset.sum_range_succ, pairSpec, mul2, m, Pat]
    norm_num

/-- Non-vacuity of the hypotheses above: a 3-qubit register, controls 2 and 0 with permutation
`0b10` (control 2 clear, control 0 set), target 1. -/
example : Matches 0b10 [2, 0] 0b001 ∧ ¬ Matches 0b10 [2, 0] 0b101 ∧ ([2, 0] ++ [1]).Nodup ∧
    ∀ k ∈ [2, 0] ++ [1], k < 3 := by decide

end Verif.Engine
