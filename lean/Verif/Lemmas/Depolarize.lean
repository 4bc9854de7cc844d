import Verif.Model.Depolarize
import Verif.Props.EngineExpect
import Verif.Props.EngineCompose
import Verif.Props.EngineUniform
import Verif.Lemmas.PagerLoop

/-!
Helper lemmas about the noise channels: what each step does to the two halves of a register with an ancilla on top.
-/

namespace Verif.Depolarize

open Verif.Engine Verif.ParFor Verif.Spec Verif.Bits Verif.Pager Classical

/-- A register of `n + 1` qubits, given by its two halves. -/
structure Halves (n : ℕ) (fl : ℝ) (e : Eng) (s0 s1 : ℕ → ℂ) : Prop where
  size : e.n = n + 1
  doNorm : e.doNorm = false
  floor : e.floor = fl
  lo : ∀ i < 2 ^ n, e.amp i = s0 i
  hi : ∀ i < 2 ^ n, e.amp (2 ^ n + i) = s1 i

theorem hGate_eq (q : ℕ) (s : ℕ → ℂ) (i : ℕ) : gate (fun _ => True) q hMat.a hMat.b hMat.c hMat.d s i =
    ((1 / Real.sqrt 2 : ℝ) : ℂ) * (s (flipBit q i) + (if i.testBit q then -1 else 1) * s i) := by
  unfold gate hMat
  simp only [if_true]
  by_cases h : i.testBit q = true
  · rw [if_pos h, if_pos h]; ring
  · rw [if_neg h, if_neg h]; ring

theorem testBit_hi {n q i : ℕ} (hq : q < n) : (2 ^ n + i).testBit q = i.testBit q := Nat.testBit_two_pow_add_gt hq i

theorem flip_hi {n q i : ℕ} (hq : q < n) (hi : i < 2 ^ n) : flipBit q (2 ^ n + i) = 2 ^ n + flipBit q i := by
  apply Nat.eq_of_testBit_eq
  intro k
  have hf : flipBit q i < 2 ^ n := flip_lt' hq hi
  rw [testBit_flip']
  rcases lt_trichotomy k n with h | h | h
  · rw [testBit_hi h, testBit_hi h, testBit_flip']
  · subst h
    rw [Nat.testBit_two_pow_add_eq, Nat.testBit_two_pow_add_eq, testBit_flip']
    have : decide (k = q) = false := by simp; omega
    rw [this]; simp
  · have e1 : (2 ^ n + i).testBit k = false := Nat.testBit_lt_two_pow (by
      calc 2 ^ n + i < 2 ^ (n + 1) := by rw [pow_succ]; omega
        _ ≤ 2 ^ k := Nat.pow_le_pow_right (by norm_num) h)
    have e2 : (2 ^ n + flipBit q i).testBit k = false := Nat.testBit_lt_two_pow (by
      calc 2 ^ n + flipBit q i < 2 ^ (n + 1) := by rw [pow_succ]; omega
        _ ≤ 2 ^ k := Nat.pow_le_pow_right (by norm_num) h)
    have : decide (k = q) = false := by simp; omega
    rw [e1, e2, this]; rfl

theorem flip_top {n i : ℕ} (hi : i < 2 ^ n) : flipBit n i = 2 ^ n + i := by
  apply Nat.eq_of_testBit_eq
  intro k
  rw [testBit_flip']
  rcases lt_trichotomy k n with h | h | h
  · rw [Nat.testBit_two_pow_add_gt h]
    have : decide (k = n) = false := by simp; omega
    rw [this]; simp
  · subst h
    rw [Nat.testBit_two_pow_add_eq]; simp
  · have e1 : (2 ^ n + i).testBit k = false := Nat.testBit_lt_two_pow (by
      calc 2 ^ n + i < 2 ^ (n + 1) := by rw [pow_succ]; omega
        _ ≤ 2 ^ k := Nat.pow_le_pow_right (by norm_num) h)
    have e2 : i.testBit k = false := Nat.testBit_lt_two_pow (lt_of_lt_of_le hi (Nat.pow_le_pow_right (by norm_num) h.le))
    have : decide (k = n) = false := by simp; omega
    rw [e1, e2, this]; rfl

theorem flip_top' {n i : ℕ} (hi : i < 2 ^ n) : flipBit n (2 ^ n + i) = i := by
  rw [← flip_top hi]
  unfold flipBit
  rw [Nat.xor_assoc, Nat.xor_self, Nat.xor_zero]

theorem top_lo {n i : ℕ} (hi : i < 2 ^ n) : i.testBit n = false := Nat.testBit_lt_two_pow hi

theorem top_hi {n i : ℕ} (hi : i < 2 ^ n) : (2 ^ n + i).testBit n = true := by
  rw [Nat.testBit_two_pow_add_eq, top_lo hi]; rfl

theorem hi_lt {n i : ℕ} (hi : i < 2 ^ n) : 2 ^ n + i < 2 ^ (n + 1) := by rw [pow_succ]; omega

theorem lo_lt {n i : ℕ} (hi : i < 2 ^ n) : i < 2 ^ (n + 1) := by rw [pow_succ]; omega

/-- The Hadamard gate. -/
theorem gateH_ok {σ : List ℕ → List ℕ} (hσ : IsSched σ) {e : Eng} (hn : e.n ≤ 64) (hd : e.doNorm = false) {q : ℕ} (hq : q < e.n) :
    ∃ f, gateH σ e q = some f ∧ f.n = e.n ∧ f.doNorm = false ∧ f.floor = e.floor ∧
      ∀ i < 2 ^ e.n, f.amp i = gate (fun _ => True) q hMat.a hMat.b hMat.c hMat.d e.amp i := by
  obtain ⟨f, h1, h2, _, h4, h5, _, h7, _⟩ := mtrx_gate hσ hn (m := hMat) (Or.inl hd) hq
  exact ⟨f, h1, h2, by rw [h4, hd], h5, h7 (hMat_kept e.rgp)⟩

theorem gateH_halves {σ : List ℕ → List ℕ} (hσ : IsSched σ) {n : ℕ} (hn : n + 1 ≤ 64) {fl : ℝ} {e : Eng} {s0 s1 : ℕ → ℂ}
    (h : Halves n fl e s0 s1) {q : ℕ} (hq : q < n) :
    ∃ f, gateH σ e q = some f ∧ Halves n fl f (gate (fun _ => True) q hMat.a hMat.b hMat.c hMat.d s0)
      (gate (fun _ => True) q hMat.a hMat.b hMat.c hMat.d s1) := by
  obtain ⟨f, f1, f2, f3, f4, f5⟩ := gateH_ok hσ (e := e) (by rw [h.size]; exact hn) h.doNorm (q := q) (by rw [h.size]; omega)
  rw [h.size] at f2 f5
  refine ⟨f, f1, f2, f3, by rw [f4, h.floor], fun i hi => ?_, fun i hi => ?_⟩
  · rw [f5 i (lo_lt hi), hGate_eq, hGate_eq, h.lo i hi, h.lo _ (flip_lt' hq hi)]
  · rw [f5 _ (hi_lt hi), hGate_eq, hGate_eq, flip_hi hq hi, h.hi i hi, h.hi _ (flip_lt' hq hi), testBit_hi hq]

/-- The new qubit is on top, and is clear. -/
theorem allocate_ok {maxQb : ℕ} {σ : List ℕ → List ℕ} (hσ : IsSched σ) (fresh : ℕ → ℂ) {e : Eng} (h0 : e.n ≠ 0) (hn : e.n + 1 ≤ 64)
    (hm : e.n + 1 ≤ maxQb) (hd : e.doNorm = false) :
    ∃ f, allocate maxQb σ fresh e e.n 1 = some (f, e.n) ∧ Halves e.n e.floor f e.amp (fun _ => 0) := by
  obtain ⟨r, r1, r2, r3⟩ := composeAt_tensor (maxQb := maxQb) hσ fresh (a := e)
    (b := { e with n := 1, amp := fun i => if i = 0 then 1 else 0, rn := 1 }) (start := e.n) h0 (by simp) le_rfl hm hn
    (by simp [hd]) (by simp)
  refine ⟨r, ?_, ?_⟩
  · unfold allocate
    rw [if_neg (lt_irrefl _), if_neg (by norm_num)]
    simp only [r1, Option.map_some]
  · have hmeta : r.doNorm = e.doNorm ∧ r.floor = e.floor := by
      unfold composeAt at r1
      rw [if_neg (lt_irrefl _), if_neg h0, if_neg (by simp), if_neg (by simp only []; omega)] at r1
      simp only [Option.some.injEq, Prod.mk.injEq] at r1
      rw [← r1.1]
      simp only []
      rw [normIf_ready (by simp [hd])]
      exact ⟨rfl, rfl⟩
    have r2' : r.n = e.n + 1 := r2
    rw [r2'] at r3
    have hfield : ∀ i, field e.n 1 i = i / 2 ^ e.n % 2 := fun i => by unfold field; rw [pow_one]
    refine ⟨r2', by rw [hmeta.1, hd], hmeta.2, fun i hi => ?_, fun i hi => ?_⟩
    · rw [r3 i (lo_lt hi)]
      unfold tensorAt
      rw [rest_top (lo_lt hi), Nat.mod_eq_of_lt hi, hfield, Nat.div_eq_of_lt hi]
      simp
    · rw [r3 _ (hi_lt hi)]
      unfold tensorAt
      rw [rest_top (hi_lt hi), hfield, Nat.add_div_of_dvd_right (dvd_refl _), Nat.div_eq_of_lt hi, Nat.div_self (by positivity)]
      simp

/-- The controlled rotation of a clear ancilla. -/
theorem cry_ok {σ : List ℕ → List ℕ} (hσ : IsSched σ) {n : ℕ} (hn : n + 1 ≤ 64) {fl : ℝ} {e : Eng} {s0 : ℕ → ℂ}
    (h : Halves n fl e s0 (fun _ => 0)) {q : ℕ} (hq : q < n) (θ : ℝ) :
    ∃ f, eitherMtrx σ e [q] (Verif.Defaults.ryM θ) n false = some f ∧
      Halves n fl f (fun i => if i.testBit q then Real.cos (θ / 2) * s0 i else s0 i)
        (fun i => if i.testBit q then Real.sin (θ / 2) * s0 i else 0) := by
  obtain ⟨f, f1, f2, f3⟩ := eitherMtrx_gate hσ (e := e) (by rw [h.size]; exact hn) (Or.inl h.doNorm) (cs := [q]) (by simp)
    (Verif.Defaults.ryM θ) (t := n) (by simp; omega) (by intro k hk; simp at hk; rw [h.size]; omega) false
  obtain ⟨_, _, g3, g4⟩ := eitherMtrx_meta f1
  rw [h.size] at f2 f3
  refine ⟨f, f1, f2, by rw [g3, h.doNorm], by rw [g4, h.floor], fun i hi => ?_, fun i hi => ?_⟩
  · rw [f3 i (lo_lt hi)]
    unfold gate AllAre Verif.Defaults.ryM
    simp only [List.mem_singleton, forall_eq, Bool.not_false, top_lo hi, Bool.false_eq_true, if_false, flip_top hi, h.lo i hi, h.hi i hi, mul_zero,
      add_zero]
  · rw [f3 _ (hi_lt hi)]
    unfold gate AllAre Verif.Defaults.ryM
    simp only [List.mem_singleton, forall_eq, Bool.not_false, testBit_hi hq, top_hi hi, if_true, flip_top' hi, h.lo i hi, h.hi i hi, mul_zero,
      add_zero]

theorem angle_ok {x : ℝ} (h0 : 0 ≤ x) (h1 : x ≤ 1) :
    ∃ θ, angle x = some θ ∧ Real.sin (θ / 2) = Real.sqrt (Real.sqrt x) ∧ Real.cos (θ / 2) = Real.sqrt (1 - Real.sqrt x) := by
  have ht : x ^ (1 / 4 : ℝ) = Real.sqrt (Real.sqrt x) := by
    rw [Real.sqrt_eq_rpow, Real.sqrt_eq_rpow, ← Real.rpow_mul h0]; norm_num
  have hle : Real.sqrt (Real.sqrt x) ≤ 1 := by
    exact Real.sqrt_le_iff.2 ⟨by norm_num, by rw [one_pow]; exact Real.sqrt_le_iff.2 ⟨by norm_num, by simpa using h1⟩⟩
  unfold angle
  rw [if_neg (not_lt.2 h0), ht, if_neg (not_lt.2 hle)]
  refine ⟨_, rfl, ?_, ?_⟩
  · rw [mul_div_cancel_left₀ _ (by norm_num), Real.sin_arcsin (by linarith [Real.sqrt_nonneg (Real.sqrt x)]) hle]
  · rw [mul_div_cancel_left₀ _ (by norm_num), Real.cos_arcsin, Real.sq_sqrt (Real.sqrt_nonneg _)]

theorem angle_none {x : ℝ} (h : x < 0 ∨ 1 < x) : angle x = none := by
  unfold angle
  rcases h with h | h
  · rw [if_pos h]
  · rw [if_neg (by linarith), if_pos (Real.one_lt_rpow h (by norm_num))]

/-- The state before the ancilla is measured. -/
theorem entangle_ok {maxQb : ℕ} {σ : List ℕ → List ℕ} (hσ : IsSched σ) (fresh : ℕ → ℂ) {e : Eng} (hn : e.n + 1 ≤ 64)
    (hm : e.n + 1 ≤ maxQb) (hd : e.doNorm = false) {q : ℕ} (hq : q < e.n) {x : ℝ} (h0 : 0 ≤ x) (h1 : x ≤ 1) :
    ∃ f, entangle maxQb σ fresh e q x = some (f, e.n) ∧ Halves e.n e.floor f
      (fun i => if i.testBit q then Real.sqrt (1 - Real.sqrt x) * gate (fun _ => True) q hMat.a hMat.b hMat.c hMat.d e.amp i
        else gate (fun _ => True) q hMat.a hMat.b hMat.c hMat.d e.amp i)
      (fun i => if i.testBit q then Real.sqrt (Real.sqrt x) * gate (fun _ => True) q hMat.a hMat.b hMat.c hMat.d e.amp i else 0) := by
  obtain ⟨a, a1, a2, a3, a4, a5⟩ := gateH_ok hσ (e := e) (by omega) hd hq
  obtain ⟨b, b1, b2⟩ := allocate_ok (maxQb := maxQb) hσ fresh (e := a) (by omega) (by omega) (by omega) a3
  obtain ⟨θ, t1, t2, t3⟩ := angle_ok h0 h1
  rw [a2, a4] at b2
  rw [a2] at b1
  obtain ⟨c, c1, c2⟩ := cry_ok hσ hn b2 hq θ
  refine ⟨c, ?_, c2.size, c2.doNorm, c2.floor, fun i hi => ?_, fun i hi => ?_⟩
  · unfold entangle
    rw [a1, Option.bind_some, a2, b1, Option.bind_some]
    simp only [t1, Option.bind_some, c1, Option.map_some]
  · rw [c2.lo i hi, a5 i hi, t3]
  · rw [c2.hi i hi, a5 i hi, t2]

end Verif.Depolarize
