import Verif.Lemmas.BdtCtrl

/-!
Helper lemmas: `MCMtrx`, `MACMtrx`, and the matching numbers that `MACMtrx` leaves out.
-/

namespace Verif.Bdt

open Verif.Matrix2 Verif.Spec.Circuit Verif.Spec

/-- Legal qubits of a controlled gate. -/
structure Legal (n : ℕ) (controls : List ℕ) (target : ℕ) : Prop where
  nodup : controls.Nodup
  lt : ∀ c ∈ controls, c < n
  notMem : target ∉ controls
  target : target < n

theorem mcPhase_ok (rgp : Bool) {n : ℕ} {tl br : ℂ} (hm : Unitary ⟨tl, 0, 0, br⟩) {controls : List ℕ} {target : ℕ}
    (hne : controls ≠ []) (hl : Legal n controls target) :
    Does n (mcPhase rgp n controls tl br target) (gate (AllAre true controls) target tl 0 0 br) := by
  by_cases h1 : 1 - tl = 0
  · have : tl = 1 := by linear_combination -h1
    subst this
    exact mcPhaseWith_one (acWith_easy (swap rgp n) 1 n) rgp (unitary_diag_iff hm).2 hne hl.nodup hl.lt hl.notMem hl.target
  · refine Does.congr (applyControlled_ok rgp hm (isAnti := false) hne hl.nodup hl.lt hl.notMem hl.target (by simp))
      (fun t => ?_) (fun s k => rfl)
    rw [mcPhase, mcPhaseWith, if_neg hne, if_pos h1]

theorem mcInvert_ok (rgp : Bool) {n : ℕ} {tr bl : ℂ} (hm : Unitary ⟨0, tr, bl, 0⟩) {controls : List ℕ} {target : ℕ}
    (hne : controls ≠ []) (hl : Legal n controls target) :
    Does n (mcInvert rgp n controls tr bl target) (gate (AllAre true controls) target 0 tr bl 0) := by
  by_cases h1 : 1 - tr ≠ 0 ∨ 1 - bl ≠ 0
  · refine Does.congr (applyControlled_ok rgp hm (isAnti := false) hne hl.nodup hl.lt hl.notMem hl.target (by simp))
      (fun t => ?_) (fun s k => rfl)
    rw [mcInvert, mcInvertWith, if_neg hne, if_pos h1]
  · push Not at h1
    have e1 : tr = 1 := by linear_combination -h1.1
    have e2 : bl = 1 := by linear_combination -h1.2
    subst e1 e2
    exact mcInvertWith_one (acWith_easy (swap rgp n) 1 n) rgp hne hl.nodup hl.lt hl.notMem hl.target

theorem mcMtrx_ok (rgp : Bool) {n : ℕ} {m : Mtrx} (hm : Unitary m) {controls : List ℕ} {target : ℕ}
    (hne : controls ≠ []) (hl : Legal n controls target) :
    Does n (mcMtrx rgp n controls m target) (gate (AllAre true controls) target m.m0 m.m1 m.m2 m.m3) := by
  by_cases h1 : m.m1 = 0 ∧ m.m2 = 0
  · have hm' : Unitary ⟨m.m0, 0, 0, m.m3⟩ := by
      have : m = ⟨m.m0, 0, 0, m.m3⟩ := by cases m; simp_all
      rwa [← this]
    refine Does.congr (mcPhase_ok rgp hm' hne hl) (fun t => ?_) (fun s k => by rw [h1.1, h1.2])
    rw [mcMtrx, if_neg hne, if_pos h1]
  · by_cases h2 : m.m0 = 0 ∧ m.m3 = 0
    · have hm' : Unitary ⟨0, m.m1, m.m2, 0⟩ := by
        have : m = ⟨0, m.m1, m.m2, 0⟩ := by cases m; simp_all
        rwa [← this]
      refine Does.congr (mcInvert_ok rgp hm' hne hl) (fun t => ?_) (fun s k => by rw [h2.1, h2.2])
      rw [mcMtrx, if_neg hne, if_neg h1, if_pos h2]
    · refine Does.congr (applyControlled_ok rgp hm (isAnti := false) hne hl.nodup hl.lt hl.notMem hl.target (by simp))
        (fun t => ?_) (fun s k => rfl)
      rw [mcMtrx, if_neg hne, if_neg h1, if_neg h2]

/-- Flip all listed qubits. -/
def flipAll : List ℕ → ℕ → ℕ
  | [], k => k
  | q :: l, k => flipBit q (flipAll l k)

theorem testBit_flipAll : ∀ (l : List ℕ) (k b : ℕ), l.Nodup → (flipAll l k).testBit b = (k.testBit b ^^ decide (b ∈ l))
  | [], k, b, _ => by simp [flipAll]
  | q :: l, k, b, h => by
    rw [List.nodup_cons] at h
    rw [flipAll, testBit_flip, testBit_flipAll l k b h.2]
    by_cases hq : q = b
    · subst hq; simp [h.1]
    · simp [hq, Ne.symm hq]

theorem invert_ok (rgp : Bool) {n q : ℕ} (hq : q < n) : Does n (invert rgp n 1 1 q) (fun s k => s (flipBit q k)) := by
  refine Does.congr (applySingle_exact rgp unitary_x hq (by simp)) (fun t => rfl) (fun s k => ?_)
  simp only [gate, if_true]
  split <;> ring

theorem foldlM_flip (rgp : Bool) {n : ℕ} : ∀ (l : List ℕ), (∀ q ∈ l, q < n) →
    Does n (fun t => l.foldlM (fun t q => invert rgp n 1 1 q t) t) (fun s k => s (flipAll l k))
  | [], _ => Does.congr (does_id n) (fun t => rfl) (fun s k => rfl)
  | q :: l, h => by
    refine Does.congr ((invert_ok rgp (h q (by simp))).bind (foldlM_flip rgp l fun c hc => h c (by simp [hc])))
      (fun t => ?_) (fun s k => rfl)
    rw [List.foldlM_cons]

theorem macWrapper_ok (rgp : Bool) {n : ℕ} {controls : List ℕ} {target : ℕ} (hl : Legal n controls target)
    {fn : Node → Option Node} {m0 m1 m2 m3 : ℂ} (hfn : Does n fn (gate (AllAre true controls) target m0 m1 m2 m3)) :
    Does n (macWrapper rgp n controls fn) (gate (AllAre false controls) target m0 m1 m2 m3) := by
  set L := controls.dedup.insertionSort (· ≤ ·) with hL
  have hperm : L.Perm controls.dedup := List.perm_insertionSort _ _
  have hnd : L.Nodup := hperm.nodup_iff.2 (List.nodup_dedup _)
  have hmem : ∀ c, c ∈ L ↔ c ∈ controls := fun c => by rw [hperm.mem_iff, List.mem_dedup]
  have hx := foldlM_flip rgp L (fun q hq => hl.lt q ((hmem q).1 hq))
  refine Does.congr ((hx.bind hfn).bind hx) (fun t => ?_) (fun s k => ?_)
  · simp [macWrapper, xMask, Option.bind_assoc, hL]
  · have hA : AllAre true controls (flipAll L k) ↔ AllAre false controls k := by
      constructor
      · intro H c hc
        have := H c hc
        rw [testBit_flipAll L k c hnd] at this
        simpa [(hmem c).2 hc] using this
      · intro H c hc
        rw [testBit_flipAll L k c hnd, H c hc]
        simp [(hmem c).2 hc]
    have hT : (flipAll L k).testBit target = k.testBit target := by
      rw [testBit_flipAll L k target hnd]
      simp [hmem, hl.notMem]
    have hF : flipAll L (flipBit target (flipAll L k)) = flipBit target k := by
      apply Nat.eq_of_testBit_eq
      intro j
      rw [testBit_flipAll _ _ _ hnd, testBit_flip, testBit_flip, testBit_flipAll _ _ _ hnd]
      by_cases h1 : j ∈ L <;> by_cases h2 : target = j <;> simp [h1, h2]
    have hI : flipAll L (flipAll L k) = k := by
      apply Nat.eq_of_testBit_eq
      intro j
      rw [testBit_flipAll _ _ _ hnd, testBit_flipAll _ _ _ hnd]
      by_cases h1 : j ∈ L <;> simp [h1]
    simp only [gate, hT, hF, hI]
    exact if_congr hA rfl rfl

/-- `MACMtrx`: right for every phase gate and every inversion, and for other matrices if the qubits of the gate other than
the greatest one are next to each other. -/
theorem macMtrx_ok (rgp : Bool) {n : ℕ} {m : Mtrx} (hm : Unitary m) {controls : List ℕ} {target : ℕ}
    (hne : controls ≠ []) (hl : Legal n controls target)
    (h : (m.m1 = 0 ∧ m.m2 = 0) ∨ (m.m0 = 0 ∧ m.m3 = 0) ∨ LowConsecutive (target :: controls)) :
    Does n (macMtrx rgp n controls m target) (gate (AllAre false controls) target m.m0 m.m1 m.m2 m.m3) := by
  by_cases h1 : m.m1 = 0 ∧ m.m2 = 0
  · have hm' : Unitary ⟨m.m0, 0, 0, m.m3⟩ := by
      have : m = ⟨m.m0, 0, 0, m.m3⟩ := by cases m; simp_all
      rwa [← this]
    by_cases hi : 1 - m.m0 = 0 ∧ 1 - m.m3 = 0
    · refine Does.congr (does_id n) (fun t => ?_) (fun s k => (gate_one h1.1 h1.2 hi.1 hi.2 ..).symm)
      rw [macMtrx, if_neg hne, if_pos h1, macPhase, if_pos hi]
    · refine Does.congr (macWrapper_ok rgp hl (mcPhase_ok rgp hm' hne hl)) (fun t => ?_) (fun s k => by rw [h1.1, h1.2])
      rw [macMtrx, if_neg hne, if_pos h1, macPhase, if_neg hi]
  · by_cases h2 : m.m0 = 0 ∧ m.m3 = 0
    · have hm' : Unitary ⟨0, m.m1, m.m2, 0⟩ := by
        have : m = ⟨0, m.m1, m.m2, 0⟩ := by cases m; simp_all
        rwa [← this]
      refine Does.congr (macWrapper_ok rgp hl (mcInvert_ok rgp hm' hne hl)) (fun t => ?_) (fun s k => by rw [h2.1, h2.2])
      rw [macMtrx, if_neg hne, if_neg h1, if_pos h2, macInvert]
    · refine Does.congr (applyControlled_ok rgp hm (isAnti := true) hne hl.nodup hl.lt hl.notMem hl.target
        (fun _ => (h.resolve_left h1).resolve_left h2)) (fun t => ?_) (fun s k => rfl)
      rw [macMtrx, if_neg hne, if_neg h1, if_neg h2]

end Verif.Bdt
