import Verif.Lemmas.BdtAnti
import Mathlib.Data.Finset.Max

/-!
Helper lemmas: anti-controls that are not next to each other. The jump `j |= controlMask - 1` then leaves out numbers that
match.
-/

namespace Verif.Bdt

open Verif.Matrix2 Verif.Spec.Circuit Verif.Spec

/-- Every node above depth `d` has branches. -/
def Full : ℕ → Node → Prop
  | 0, _ => True
  | _ + 1, .leaf _ => False
  | d + 1, .fork _ b0 b1 => Full d b0 ∧ Full d b1

theorem full_mapAt (F : Node → Node) : ∀ (d : ℕ) (S : ℕ → Prop) (t : Node), Full d t → Full d (mapAt F d S t)
  | 0, _, _, _ => trivial
  | _ + 1, _, .leaf _, h => h.elim
  | d + 1, _, .fork _ _ _, h => ⟨full_mapAt F d _ _ h.1, full_mapAt F d _ _ h.2⟩

theorem visit_full (f : Node → Option Node) : ∀ (d i k : ℕ) (t t' : Node), Full d t → visit f d i t = some (k, t') → k = 0
  | 0, _, _, .leaf _, _, _, h => by simp only [visit, Option.some.injEq, Prod.mk.injEq] at h; exact h.1.symm
  | 0, _, _, .fork s b0 b1, _, _, h => by
    simp only [visit, Option.map_eq_some_iff, Prod.mk.injEq] at h
    obtain ⟨_, -, h, -⟩ := h
    exact h.symm
  | _ + 1, _, _, .leaf _, _, h, _ => h.elim
  | d + 1, i, k, .fork s b0 b1, _, hf, h => by
    rw [visit] at h
    split at h
    · simp only [Option.map_eq_some_iff, Prod.mk.injEq] at h
      obtain ⟨⟨k', t'⟩, e, rfl, -⟩ := h
      exact visit_full f d i _ b1 t' hf.2 e
    · simp only [Option.map_eq_some_iff, Prod.mk.injEq] at h
      obtain ⟨⟨k', t'⟩, e, rfl, -⟩ := h
      exact visit_full f d i _ b0 t' hf.1 e

theorem full_of_amp : ∀ (d n : ℕ) (t : Node), d ≤ n → Good n t → (∀ x < 2 ^ d, ∃ k, k % 2 ^ d = x ∧ amp n t k ≠ 0) → Full d t
  | 0, _, _, _, _, _ => trivial
  | d + 1, 0, _, h, _, _ => by omega
  | d + 1, n + 1, .leaf s, _, hg, h => by
    obtain ⟨k, -, hk⟩ := h 0 (Nat.two_pow_pos _)
    have : s = 0 := hg
    subst this
    exact absurd rfl hk
  | d + 1, n + 1, .fork s b0 b1, hd, hg, h => by
    have e2 : 2 ^ (d + 1) = 2 ^ d * 2 := pow_succ 2 d
    have key : ∀ k, k % 2 ^ (d + 1) = k % 2 + 2 * (k / 2 % 2 ^ d) := by
      intro k
      rw [e2, mul_comm, Nat.mod_mul]
    refine ⟨full_of_amp d n b0 (by omega) hg.2.2.1 fun x hx => ?_, full_of_amp d n b1 (by omega) hg.2.2.2 fun x hx => ?_⟩
    · obtain ⟨k, h1, h2⟩ := h (2 * x) (by omega)
      rw [key] at h1
      refine ⟨k / 2, by omega, fun h0 => h2 ?_⟩
      rw [amp_fork, if_neg (by omega), h0, mul_zero]
    · obtain ⟨k, h1, h2⟩ := h (2 * x + 1) (by omega)
      rw [key] at h1
      refine ⟨k / 2, by omega, fun h0 => h2 ?_⟩
      rw [amp_fork, if_pos (by omega), h0, mul_zero]

/-- What the loop has done below its counter stays. -/
theorem loop_rest {m : Mtrx} {n target cm cp : ℕ} {t : Node} {F : Node → Node}
    (hE : EachAt (fun x => apply2x2 m n x = some (F x)) target t) :
    ∀ (fuel j : ℕ) (S : ℕ → Prop), (∀ x, j ≤ x → ¬ S x) →
      ∃ V : ℕ → Prop, loop (controlledBody m n cm cp target) (2 ^ target) fuel j (mapAt F target S t) =
        some (mapAt F target V t) ∧ ∀ x < j, (V x ↔ S x)
  | 0, j, S, _ => ⟨S, rfl, fun _ _ => Iff.rfl⟩
  | fuel + 1, j, S, hS => by
    by_cases hj : j < 2 ^ target
    · rw [loop, if_pos hj]
      by_cases hm : j &&& cm = cp
      · obtain ⟨k, -, hk, H⟩ := visit_ok (apply2x2 m n) F target j t hE hj
        have hle := Nat.left_le_or (n := j) (m := k)
        have e := H S (fun x => S x ∨ (j ≤ x ∧ x ≤ j ||| k)) (hS j le_rfl) (Or.inr ⟨le_rfl, hle⟩)
          (fun x _ hx => ⟨Or.inl, fun h => h.resolve_right hx⟩)
        obtain ⟨V, e', hV⟩ := loop_rest hE fuel ((j ||| k) + 1) (fun x => S x ∨ (j ≤ x ∧ x ≤ j ||| k)) (by
          rintro x hx (h | h)
          · exact hS x (by omega) h
          · omega)
        refine ⟨V, ?_, fun x hx => (hV x (by omega)).trans ⟨fun h => h.resolve_right (by omega), Or.inl⟩⟩
        rw [controlledBody, if_neg (by simpa using hm), e]
        exact e'
      · obtain ⟨V, e', hV⟩ := loop_rest hE fuel ((j ||| (cm - 1)) + 1) S (by
          intro x hx
          have := Nat.left_le_or (n := j) (m := cm - 1)
          exact hS x (by omega))
        have := Nat.left_le_or (n := j) (m := cm - 1)
        refine ⟨V, ?_, fun x hx => hV x (by omega)⟩
        rw [controlledBody, if_pos hm]
        exact e'
    · exact ⟨S, by rw [loop, if_neg hj], fun _ _ => Iff.rfl⟩

/-- A number with only the bit `g` set is left out if there are bits of the mask below and above `g`. -/
theorem gap_loop {m : Mtrx} (hm : Unitary m) {n target cm l g h : ℕ} {t : Node} (hg : Good (n + 1 + target) t)
    (hf : Full target t) (hl : cm.testBit l = true) (hlow : ∀ b < l, cm.testBit b = false) (hlg : l < g) (hgh : g < h)
    (hh : cm.testBit h = true) (hcm : cm < 2 ^ target) :
    ∃ V : ℕ → Prop, loop (controlledBody m (n + 1) cm 0 target) (2 ^ target) (2 ^ target) 0 t =
      some (mapAt (fun x => (apply2x2 m (n + 1) x).getD zero) target V t) ∧ ¬ V (2 ^ g) := by
  set F : Node → Node := fun x => (apply2x2 m (n + 1) x).getD zero with hF
  have hE := apply_each hm hg
  have hcmh : 2 ^ h ≤ cm := Nat.ge_two_pow_of_testBit hh
  have hlt : 2 ^ l < 2 ^ target := lt_of_lt_of_le (Nat.pow_lt_pow_right (by norm_num) (hlg.trans hgh)) (by omega)
  -- the rounds up to `2 ^ l`
  have hpre : ∀ i ≤ 2 ^ l, loop (controlledBody m (n + 1) cm 0 target) (2 ^ target) (2 ^ target) 0 t =
      loop (controlledBody m (n + 1) cm 0 target) (2 ^ target) (2 ^ target - i) i (mapAt F target (fun x => x < i) t) := by
    intro i
    induction i with
    | zero =>
      intro _
      rw [mapAt_congr F target (fun x => x < 0) (fun _ => False) t (fun x _ => by simp), mapAt_none]
      rfl
    | succ i ih =>
      intro hi
      rw [ih (by omega), show 2 ^ target - i = (2 ^ target - (i + 1)) + 1 by omega, loop, if_pos (by omega)]
      have hmt : i &&& cm = 0 := by
        apply Nat.eq_of_testBit_eq
        intro b
        rw [Nat.testBit_and, Nat.zero_testBit]
        by_cases hb : b < l
        · rw [hlow b hb, Bool.and_false]
        · rw [Nat.testBit_lt_two_pow (lt_of_lt_of_le (show i < 2 ^ l by omega) (Nat.pow_le_pow_right (by norm_num) (by omega))),
            Bool.false_and]
      obtain ⟨k, -, hk, H⟩ := visit_ok (apply2x2 m (n + 1)) F target i t hE (by omega)
      have hle := Nat.left_le_or (n := i) (m := k)
      have e := H (fun x => x < i) (fun x => x < (i ||| k) + 1) (by omega) (by omega) (fun x _ hx => by
        constructor <;> intro h' <;> omega)
      obtain rfl := visit_full _ _ _ _ _ _ (full_mapAt F target _ t hf) e
      rw [controlledBody, if_neg (by simpa using hmt), e]
      simp only [Option.bind_eq_bind, Option.bind_some, Nat.or_zero]
  have hnm : 2 ^ l &&& cm ≠ 0 := by
    intro e
    have := congrArg (fun x => x.testBit l) e
    simp [Nat.testBit_and, hl] at this
  obtain ⟨V, e, hV⟩ := loop_rest (cm := cm) (cp := 0) hE (2 ^ target - 2 ^ l - 1) ((2 ^ l ||| (cm - 1)) + 1) (fun x => x < 2 ^ l) (by
    intro x hx
    have := Nat.left_le_or (n := 2 ^ l) (m := cm - 1)
    omega)
  have hne : cm ≠ 2 ^ h := by
    rintro rfl
    rw [Nat.testBit_two_pow] at hl
    simp at hl
    omega
  have hgl : 2 ^ g < 2 ^ h := Nat.pow_lt_pow_right (by norm_num) hgh
  have hlg' : 2 ^ l < 2 ^ g := Nat.pow_lt_pow_right (by norm_num) hlg
  refine ⟨V, ?_, ?_⟩
  · rw [hpre _ le_rfl, show 2 ^ target - 2 ^ l = (2 ^ target - 2 ^ l - 1) + 1 by omega, loop, if_pos hlt, controlledBody,
      if_pos hnm]
    exact e
  · rw [hV _ (by have := Nat.right_le_or (n := 2 ^ l) (m := cm - 1); omega)]
    omega

theorem rev_single : ∀ (d b k : ℕ), b < d → (∀ q < d, k.testBit q = decide (q = b)) → rev d k = 2 ^ (d - (b + 1)) := by
  intro d b k hb h
  apply Nat.eq_of_testBit_eq
  intro j
  rw [Nat.testBit_two_pow]
  by_cases hj : j < d
  · have := testBit_rev d k (d - (j + 1)) (by omega)
    rw [show d - (d - (j + 1) + 1) = j by omega, h _ (by omega)] at this
    rw [this]
    by_cases hq : d - (j + 1) = b
    · rw [decide_eq_true hq, decide_eq_true (by omega)]
    · rw [decide_eq_false hq, decide_eq_false (by omega)]
  · rw [Nat.testBit_lt_two_pow (lt_of_lt_of_le (rev_lt d k) (Nat.pow_le_pow_right (by norm_num) (by omega))),
      decide_eq_false (by omega)]

theorem controlledLoop_gap {m : Mtrx} (hm : Unitary m) {n target : ℕ} {t : Node} {controls : List ℕ} (ht : target < n)
    (h : Good n t) (hf : Full target t) (hc : ∀ c ∈ controls, c < target) {a b c : ℕ} (ha : a ∈ controls) (hab : a < b)
    (hbc : b < c) (hcc : c ∈ controls) :
    ∃ t', controlledLoop n m controls target true t = some t' ∧ Good n t' ∧ ‖t'.scale‖ = ‖t.scale‖ ∧
      ∀ k, (∀ q < target, k.testBit q = decide (q = b)) → amp n t' k = amp n t k := by
  classical
  obtain ⟨r, rfl⟩ : ∃ r, n = r + 1 + target := ⟨n - target - 1, by omega⟩
  -- the greatest control gives the lowest bit of the mask
  obtain ⟨c', hc', hmax⟩ : ∃ c' ∈ controls, ∀ x ∈ controls, x ≤ c' := by
    have hne : controls.toFinset.Nonempty := ⟨c, by simpa using hcc⟩
    exact ⟨controls.toFinset.max' hne, by simpa using Finset.max'_mem _ hne, fun x hx =>
      Finset.le_max' _ _ (by simpa using hx)⟩
  have h1 := hmax c hcc
  have h2 := hc c' hc'
  obtain ⟨V, e, hV⟩ := gap_loop hm (cm := controlMask controls target) (l := target - (c' + 1)) (g := target - (b + 1))
    (h := target - (a + 1)) h hf ((testBit_controlMask ..).2 ⟨c', hc', rfl⟩) (fun x hx => by
      by_contra hb
      rw [Bool.not_eq_false, testBit_controlMask] at hb
      obtain ⟨d, hd, rfl⟩ := hb
      have := hmax d hd
      omega) (by omega) (by omega) ((testBit_controlMask ..).2 ⟨a, ha, rfl⟩) (controlMask_lt hc)
  obtain ⟨G, N, A⟩ := mapAt_amp m hm r (fun x => (apply2x2 m (r + 1) x).getD zero) (fun _ => rfl) target V t h
  obtain ⟨t'', e', g, s, a'⟩ := parForQbdt_ok h (by omega) e G
  refine ⟨t'', ?_, g, s.trans N, fun k hk => ?_⟩
  · rw [controlledLoop, if_neg (by push Not; exact hc), show r + 1 + target - target = r + 1 by omega]
    exact e'
  · rw [a', A, gate, if_neg]
    rw [rev_single target b k (by omega) hk]
    exact hV

theorem acWith_gap (sw : ℕ → ℕ → Node → Option Node) (fuel : ℕ) {m : Mtrx} (hm : Unitary m) (h2 : m.m2 ≠ 0) {n target : ℕ}
    {t : Node} {controls : List ℕ} (hnd : controls.Nodup) (ht : target < n)
    (h : Good n t) (hf : Full target t) (hc : ∀ c ∈ controls, c < target) {a b c : ℕ} (ha : a ∈ controls) (hab : a < b)
    (hbc : b < c) (hcc : c ∈ controls) :
    ∃ t', applyControlledWith sw n m (fuel + 1) controls target true t = some t' ∧ Good n t' ∧ ‖t'.scale‖ = ‖t.scale‖ ∧
      ∀ k, (∀ q < target, k.testBit q = decide (q = b)) → amp n t' k = amp n t k := by
  obtain ⟨b', hb', hbm, hbmax, -, -⟩ := top_split (List.ne_nil_of_mem ha) hnd
  have hperm := List.perm_insertionSort (· ≤ ·) controls
  have hbad : ¬ badIds controls n := by
    rintro (⟨c, hcm, h⟩ | h)
    · have := hc c hcm; omega
    · exact h hnd
  simp only [applyControlledWith]
  rw [if_neg (by omega), if_neg hbad, if_neg (by rintro ⟨⟨-, h, -⟩, -⟩; exact h2 h), hb']
  have := hc b' hbm
  dsimp only
  rw [if_neg (by omega)]
  exact controlledLoop_gap hm ht h hf (fun c h => hc c (hperm.mem_iff.1 h)) (hperm.mem_iff.2 ha) hab hbc (hperm.mem_iff.2 hcc)

/-- Qubits that are not next to each other leave a gap. -/
theorem exists_gap {P : ℕ → Prop} {l : List ℕ} (hP : ∀ q, P q ↔ q ∈ l) (h : ¬ ∃ a b, ∀ q, P q ↔ a ≤ q ∧ q < b) :
    ∃ a b c, P a ∧ a < b ∧ b < c ∧ P c ∧ ¬ P b := by
  by_contra hno
  push Not at hno
  apply h
  by_cases hne : l = []
  · subst hne
    exact ⟨0, 0, fun q => by rw [hP]; simp⟩
  · have hfin : l.toFinset.Nonempty := by
      obtain ⟨x, hx⟩ := List.exists_mem_of_ne_nil l hne
      exact ⟨x, by simpa using hx⟩
    refine ⟨l.toFinset.min' hfin, l.toFinset.max' hfin + 1, fun q => ?_⟩
    have hlo : P (l.toFinset.min' hfin) := (hP _).2 (by simpa using Finset.min'_mem _ hfin)
    have hhi : P (l.toFinset.max' hfin) := (hP _).2 (by simpa using Finset.max'_mem _ hfin)
    constructor
    · intro hq
      have hq' : q ∈ l.toFinset := by simpa using (hP q).1 hq
      have h1 := Finset.min'_le _ _ hq'
      have h2 := Finset.le_max' _ _ hq'
      exact ⟨h1, by omega⟩
    · rintro ⟨h1, h2⟩
      by_cases e1 : l.toFinset.min' hfin = q
      · rw [← e1]; exact hlo
      · by_cases e2 : q = l.toFinset.max' hfin
        · rw [e2]; exact hhi
        · exact hno _ q _ hlo (by omega) (by omega) hhi

theorem scale_perm (n perm : ℕ) (z : ℂ) : (setPermutation n perm z).scale = z := by
  cases n with
  | zero => rfl
  | succ n => rw [setPermutation]; split <;> rfl

theorem good_perm : ∀ (n perm : ℕ) (z : ℂ), z ≠ 0 → Good n (setPermutation n perm z)
  | 0, _, _, _ => trivial
  | n + 1, perm, z, hz => by
    have h := good_perm n (perm / 2) 1 one_ne_zero
    have hs := scale_perm n (perm / 2) 1
    rw [setPermutation]
    split
    · exact ⟨hz, by rw [hs]; simp, good_zero n, h⟩
    · exact ⟨hz, by rw [hs]; simp, h, good_zero n⟩

theorem amp_perm : ∀ (n perm : ℕ) (z : ℂ) (k : ℕ),
    amp n (setPermutation n perm z) k = if k % 2 ^ n = perm % 2 ^ n then z else 0
  | 0, perm, z, k => by simp [setPermutation, amp, getAmplitude, Nat.mod_one]
  | n + 1, perm, z, k => by
    have key : ∀ k, k % 2 ^ (n + 1) = k % 2 + 2 * (k / 2 % 2 ^ n) := by
      intro k
      rw [pow_succ, mul_comm, Nat.mod_mul]
    have h := amp_perm n (perm / 2) 1 (k / 2)
    have hz := amp_zero n (k / 2)
    rw [setPermutation]
    split
    · rename_i hp
      rw [amp_fork]
      by_cases hk : k % 2 = 1
      · rw [if_pos hk, h]
        by_cases he : k / 2 % 2 ^ n = perm / 2 % 2 ^ n
        · rw [if_pos he, if_pos (by rw [key, key]; omega), mul_one]
        · rw [if_neg he, if_neg (by rw [key, key]; omega), mul_zero]
      · rw [if_neg hk, hz, if_neg (by rw [key, key]; omega), mul_zero]
    · rename_i hp
      rw [amp_fork]
      by_cases hk : k % 2 = 1
      · rw [if_pos hk, hz, if_neg (by rw [key, key]; omega), mul_zero]
      · rw [if_neg hk, h]
        by_cases he : k / 2 % 2 ^ n = perm / 2 % 2 ^ n
        · rw [if_pos he, if_pos (by rw [key, key]; omega), mul_one]
        · rw [if_neg he, if_neg (by rw [key, key]; omega), mul_zero]

/-- The first `d` qubits in the uniform superposition, the other `n` qubits zero. -/
noncomputable def uni (n : ℕ) : ℕ → ℂ → Node
  | 0, z => setPermutation n 0 z
  | d + 1, z => .fork z (uni n d (Real.sqrt (1 / 2))) (uni n d (Real.sqrt (1 / 2)))

theorem scale_uni (n d : ℕ) (z : ℂ) : (uni n d z).scale = z := by
  cases d with
  | zero => exact scale_perm n 0 z
  | succ d => rfl

theorem sqrt_half_ne : (Real.sqrt (1 / 2) : ℂ) ≠ 0 := by
  intro h
  have := sqrt_half_sq
  rw [h] at this
  norm_num at this

theorem good_uni (n : ℕ) : ∀ (d : ℕ) (z : ℂ), z ≠ 0 → Good (n + d) (uni n d z)
  | 0, z, hz => good_perm n 0 z hz
  | d + 1, z, hz => by
    have h := good_uni n d _ sqrt_half_ne
    refine ⟨hz, ?_, h, h⟩
    rw [scale_uni, Complex.normSq_ofReal, Real.mul_self_sqrt (by norm_num)]
    norm_num

theorem amp_uni (n : ℕ) : ∀ (d : ℕ) (z : ℂ) (k : ℕ), amp (n + d) (uni n d z) k =
    if k / 2 ^ d % 2 ^ n = 0 then z * (Real.sqrt (1 / 2)) ^ d else 0
  | 0, z, k => by
    have := amp_perm n 0 z k
    rw [Nat.zero_mod] at this
    rw [uni, pow_zero, pow_zero, Nat.div_one, mul_one]
    exact this
  | d + 1, z, k => by
    have h := amp_uni n d (Real.sqrt (1 / 2)) (k / 2)
    rw [Nat.div_div_eq_div_mul, show 2 * 2 ^ d = 2 ^ (d + 1) by ring] at h
    rw [uni, show n + (d + 1) = (n + d) + 1 by ring, amp_fork]
    have e : amp (n + d) (if k % 2 = 1 then uni n d (Real.sqrt (1 / 2)) else uni n d (Real.sqrt (1 / 2))) (k / 2) =
        if k / 2 ^ (d + 1) % 2 ^ n = 0 then (Real.sqrt (1 / 2) : ℂ) * (Real.sqrt (1 / 2)) ^ d else 0 := by
      rw [ite_self, h]
    rw [e]
    split <;> ring

theorem unitary_m2 {m : Mtrx} (hm : Unitary m) (h1 : ¬ (m.m1 = 0 ∧ m.m2 = 0)) : m.m2 ≠ 0 := by
  intro h2
  apply h1
  refine ⟨?_, h2⟩
  have e := unitary_scalar hm h2
  have h := hm.2.2.2.1
  rw [Complex.mul_conj, Complex.mul_conj, normSq_of_norm, normSq_of_norm, e] at h
  have h' : (1 : ℝ) ^ 2 + ‖m.m1‖ ^ 2 = 1 := by exact_mod_cast h
  have : ‖m.m1‖ = 0 := by nlinarith [norm_nonneg m.m1]
  exact norm_eq_zero.1 this

/-- `MACMtrx` with a matrix that is neither diagonal nor antidiagonal is wrong for a state when the qubits of the gate
other than the greatest one are not next to each other. -/
theorem macMtrx_bad (rgp : Bool) {n : ℕ} {m : Mtrx} (hm : Unitary m) {controls : List ℕ} {target : ℕ}
    (hne : controls ≠ []) (hl : Legal n controls target) (h1 : ¬ (m.m1 = 0 ∧ m.m2 = 0)) (h2 : ¬ (m.m0 = 0 ∧ m.m3 = 0))
    (h : ¬ LowConsecutive (target :: controls)) :
    ∃ t, Good n t ∧ ‖t.scale‖ = 1 ∧ ∃ t', macMtrx rgp n controls m target t = some t' ∧
      ∃ k < 2 ^ n, amp n t' k ≠ gate (AllAre false controls) target m.m0 m.m1 m.m2 m.m3 (amp n t) k := by
  have hm2 := unitary_m2 hm h1
  have hcall : ∀ t, macMtrx rgp n controls m target t = applyControlled rgp n m controls target true t := by
    intro t; rw [macMtrx, if_neg hne, if_neg h1, if_neg h2]
  -- the greatest qubit and the gap
  obtain ⟨top, htop, hmax⟩ : ∃ top ∈ target :: controls, ∀ q ∈ target :: controls, q ≤ top := by
    have hfin : (target :: controls).toFinset.Nonempty := ⟨target, by simp⟩
    exact ⟨(target :: controls).toFinset.max' hfin, List.mem_toFinset.1 (Finset.max'_mem _ hfin), fun x hx =>
      Finset.le_max' _ _ (List.mem_toFinset.2 hx)⟩
  have htopn : top < n := by
    rcases List.mem_cons.1 htop with h | h
    · rw [h]; exact hl.target
    · exact hl.lt _ h
  obtain ⟨a, b, c, ha, hab, hbc, hcc, hb⟩ := exists_gap (P := fun q => q ∈ target :: controls ∧ q ≠ top)
    (l := (target :: controls).filter (· ≠ top)) (fun q => by simp) (fun ⟨a, b, hab⟩ => h ⟨top, htop, hmax, a, b, hab⟩)
  have hctop : c < top := lt_of_le_of_ne (hmax c hcc.1) hcc.2
  have hbm : b ∉ target :: controls := fun h => hb ⟨h, by omega⟩
  obtain ⟨r, hr⟩ : ∃ r, n = r + 1 + top := ⟨n - top - 1, by omega⟩
  set t0 := uni (r + 1) top 1 with ht0
  have hg0 : Good n t0 := by rw [hr]; exact good_uni (r + 1) top 1 one_ne_zero
  have hs0 : ‖t0.scale‖ = 1 := by rw [ht0, scale_uni]; simp
  have ha0 : ∀ k, amp n t0 k = if k / 2 ^ top % 2 ^ (r + 1) = 0 then 1 * (Real.sqrt (1 / 2) : ℂ) ^ top else 0 := by
    intro k; rw [hr]; exact amp_uni (r + 1) top 1 k
  -- the state with the bits `b` and `top`
  set k0 := 2 ^ b + 2 ^ top with hk0
  have hbt : 2 ^ b < 2 ^ top := Nat.pow_lt_pow_right (by norm_num) (by omega)
  have hk0n : k0 < 2 ^ n := by
    have h3 : 2 ^ (top + 1) ≤ 2 ^ n := Nat.pow_le_pow_right (by norm_num) (by omega)
    have h4 : 2 ^ (top + 1) = 2 ^ top * 2 := pow_succ 2 top
    omega
  have hbits : ∀ q, k0.testBit q = (decide (q = b) || decide (q = top)) := by
    intro q
    have e := Nat.testBit_two_pow_mul_add 1 hbt (j := q)
    rw [Nat.mul_one, Nat.add_comm] at e
    rw [hk0, e]
    by_cases hq : q < top
    · rw [if_pos hq, Nat.testBit_two_pow]
      have : ¬ q = top := by omega
      simp [this, eq_comm]
    · rw [if_neg hq]
      by_cases hqt : q = top
      · subst hqt; simp
      · have hqb : ¬ q = b := by omega
        rw [Nat.testBit_lt_two_pow (lt_of_lt_of_le (show 1 < 2 ^ 1 by norm_num) (Nat.pow_le_pow_right (by norm_num) (by omega)))]
        simp [hqt, hqb]
  have hbits' : ∀ q < top, k0.testBit q = decide (q = b) := by
    intro q hq
    rw [hbits]
    have : ¬ q = top := by omega
    simp [this]
  have hflip : flipBit top k0 = 2 ^ b := by
    apply Nat.eq_of_testBit_eq
    intro q
    rw [testBit_flip, hbits, Nat.testBit_two_pow]
    by_cases h3 : q = b
    · subst h3
      have : ¬ q = top := by omega
      simp [this, Ne.symm this]
    · by_cases h4 : q = top
      · subst h4; simp [h3, Ne.symm h3]
      · simp [h3, h4, Ne.symm h3, Ne.symm h4]
  have hz : amp n t0 k0 = 0 := by
    rw [ha0, if_neg]
    rw [hk0, Nat.add_div_right _ (Nat.two_pow_pos _), Nat.div_eq_of_lt hbt]
    have : 1 < 2 ^ (r + 1) := Nat.one_lt_two_pow (by omega)
    rw [Nat.mod_eq_of_lt (by omega)]
    omega
  have hnz : amp n t0 (flipBit top k0) ≠ 0 := by
    rw [hflip, ha0, if_pos (by rw [Nat.div_eq_of_lt hbt, Nat.zero_mod]), one_mul]
    exact pow_ne_zero _ sqrt_half_ne
  have hsup : ∀ x < 2 ^ top, ∃ k, k % 2 ^ top = x ∧ amp n t0 k ≠ 0 := by
    intro x hx
    refine ⟨x, Nat.mod_eq_of_lt hx, ?_⟩
    rw [ha0, if_pos (by rw [Nat.div_eq_of_lt hx, Nat.zero_mod]), one_mul]
    exact pow_ne_zero _ sqrt_half_ne
  -- the value that the gate should give
  have hgate : ∀ cs : List ℕ, b ∉ cs → top ∉ cs →
      gate (AllAre false cs) top m.m0 m.m1 m.m2 m.m3 (amp n t0) k0 = m.m2 * amp n t0 (flipBit top k0) := by
    intro cs hbcs htcs
    rw [gate, if_pos, if_pos (by rw [hbits]; simp), hz, mul_zero, add_zero]
    intro q hq
    rw [hbits]
    have h3 : ¬ q = b := fun e => hbcs (e ▸ hq)
    have h4 : ¬ q = top := fun e => htcs (e ▸ hq)
    simp [h3, h4]
  by_cases htt : top = target
  · -- the target is the greatest
    subst htt
    have hmem : ∀ q, q ∈ top :: controls → q ≠ top → q ∈ controls := fun q h h' => (List.mem_cons.1 h).resolve_left h'
    obtain ⟨t', e, g, s, A⟩ := acWith_gap (swap rgp n) 1 hm hm2 hl.nodup hl.target hg0
      (full_of_amp top n t0 (by omega) hg0 hsup)
      (fun c h => lt_of_le_of_ne (hmax c (by simp [h])) (fun e => hl.notMem (e ▸ h)))
      (hmem a ha.1 ha.2) hab hbc (hmem c hcc.1 hcc.2)
    refine ⟨t0, hg0, hs0, t', (hcall t0).trans e, k0, hk0n, ?_⟩
    rw [A k0 hbits', hz, hgate controls (fun h => hbm (by simp [h])) hl.notMem]
    exact (mul_ne_zero hm2 hnz).symm
  · -- the target has to be exchanged with the greatest control
    have htopc : top ∈ controls := (List.mem_cons.1 htop).resolve_left htt
    have hlt : target < top := lt_of_le_of_ne (hmax target (by simp)) (Ne.symm htt)
    obtain ⟨b', hb', hbm', hbmax', hbd', hbn'⟩ := top_split hne hl.nodup
    obtain rfl : b' = top := le_antisymm (hmax b' (by simp [hbm'])) (hbmax' top htopc)
    set controls' := (controls.insertionSort (· ≤ ·)).dropLast ++ [target] with hcs
    have hmem : ∀ c, c ∈ controls' ↔ (c ∈ controls ∧ c ≠ b') ∨ c = target := by
      intro c
      rw [hcs, List.mem_append, hbd', List.mem_singleton]
    have hmem' : ∀ q, q ∈ target :: controls → q ≠ b' → q ∈ controls' := by
      intro q h h'
      rw [hmem]
      rcases List.mem_cons.1 h with h | h
      · exact Or.inr h
      · exact Or.inl ⟨h, h'⟩
    have hnd' : controls'.Nodup := by
      rw [hcs, List.nodup_append]
      refine ⟨hbn', by simp, ?_⟩
      intro x hx y hy
      rw [List.mem_singleton] at hy
      rintro rfl
      exact hl.notMem (hy ▸ ((hbd' _).1 hx).1)
    have hlt' : ∀ c ∈ controls', c < b' := by
      intro c h
      rcases (hmem c).1 h with ⟨h1, h2⟩ | rfl
      · have := hbmax' c h1; omega
      · exact hlt
    have hsw := swap_ok rgp htopn hl.target
    obtain ⟨t1, e1, g1, s1, A1'⟩ := hsw t0 hg0
    obtain ⟨t2, e2, g2, s2, A2'⟩ := hsw t1 g1
    have A1 : ∀ k, amp n t1 k = amp n t0 (swapBits b' target k) := A1'
    have A2 : ∀ k, amp n t2 k = amp n t1 (swapBits b' target k) := A2'
    have A20 : ∀ k, amp n t2 k = amp n t0 k := fun k => by rw [A2, A1, swap_swap]
    have hsup2 : ∀ x < 2 ^ b', ∃ k, k % 2 ^ b' = x ∧ amp n t2 k ≠ 0 := by
      intro x hx
      obtain ⟨k, h3, h4⟩ := hsup x hx
      exact ⟨k, h3, by rw [A20]; exact h4⟩
    obtain ⟨t3, e3, g3, s3, A3⟩ := acWith_gap (swap rgp n) 0 hm hm2 hnd' htopn g2
      (full_of_amp b' n t2 (by omega) g2 hsup2) hlt' (hmem' a ha.1 ha.2) hab hbc (hmem' c hcc.1 hcc.2)
    obtain ⟨t4, e4, g4, s4, A4'⟩ := hsw t3 g3
    have A4 : ∀ k, amp n t4 k = amp n t3 (swapBits b' target k) := A4'
    refine ⟨t1, g1, s1.trans hs0, t4, ?_, swapBits b' target k0, ?_, ?_⟩
    · rw [hcall, applyControlled]
      conv_lhs => rw [applyControlledWith]
      have hbad : ¬ badIds controls n := by
        rintro (⟨c, hcm, h⟩ | h)
        · have := hl.lt c hcm; omega
        · exact h hl.nodup
      have ht := hl.target
      rw [if_neg (by omega), if_neg hbad]
      dsimp only
      rw [if_neg (by rintro ⟨⟨-, h, -⟩, -⟩; exact hm2 h), hb']
      dsimp only
      rw [if_pos hlt, if_neg (by rintro ⟨-, h, -⟩; exact hm2 h), ← hcs]
      simp [e2, e3, e4]
    · rw [Verif.Bits.lt_two_pow_iff_testBit] at hk0n ⊢
      intro q hq
      have ht := hl.target
      rw [testBit_swap, if_neg (by omega), if_neg (by omega)]
      exact hk0n q hq
    · have hgs := gate_swap (v := false) hbm' hl.notMem hmem m.m0 m.m1 m.m2 m.m3 (amp n t1) (swapBits b' target k0)
      rw [swap_swap] at hgs
      have hfun : (fun k => amp n t1 (swapBits b' target k)) = amp n t0 := by
        funext k
        rw [A1, swap_swap]
      rw [hfun, hgate controls' (fun h => hbm (by
        rcases (hmem b).1 h with ⟨h3, -⟩ | h3
        · simp [h3]
        · simp [h3])) (fun h => by
        rcases (hmem b').1 h with ⟨-, h3⟩ | h3
        · exact h3 rfl
        · omega)] at hgs
      rw [A4, swap_swap, A3 k0 hbits', A20, hz, ← hgs]
      exact (mul_ne_zero hm2 hnz).symm

end Verif.Bdt
