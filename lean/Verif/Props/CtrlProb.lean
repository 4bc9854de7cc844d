import Verif.Model.CtrlProb
import Verif.Props.EngineUnitary
import Verif.Lemmas.EngineMeas

/-!
# C22 for the inherited conditional probabilities
-/

namespace Verif.CtrlProb

open Verif.Spec Verif.Engine Finset

theorem unless_flip {c t : ℕ} (h : c ≠ t) (b : Bool) (i : ℕ) : AllAre b [c] (flipBit t i) ↔ AllAre b [c] i := by
  unfold AllAre
  simp only [List.mem_singleton, forall_eq]
  unfold flipBit
  rw [Nat.testBit_xor, Nat.testBit_two_pow]
  simp [Ne.symm h]

theorem flipUnless_eq (b : Bool) (c t : ℕ) (s : ℕ → ℂ) (i : ℕ) : flipUnless b c t s i = if i.testBit c = b then s i else s (flipBit t i) := by
  unfold flipUnless gate AllAre
  simp only [List.mem_singleton, forall_eq, zero_mul, one_mul, zero_add, add_zero, ite_self]
  cases b <;> cases i.testBit c <;> simp

/-- **C22.** The inherited `CProb` and `ACProb` leave the state as it is. -/
theorem ctrlOrAntiProb_keeps (n : ℕ) (b : Bool) {c t : ℕ} (h : c ≠ t) (s : ℕ → ℂ) : (ctrlOrAntiProb n b c t s).2 = s := by
  funext i
  have hf : (flipBit t i).testBit c = i.testBit c := by
    unfold flipBit; rw [Nat.testBit_xor, Nat.testBit_two_pow]; simp [Ne.symm h]
  change flipUnless b c t (flipUnless b c t s) i = s i
  rw [flipUnless_eq, flipUnless_eq, flipUnless_eq, hf]
  by_cases hb : i.testBit c = b
  · rw [if_pos hb, if_pos hb]
  · rw [if_neg hb, if_neg hb]
    congr 1
    unfold flipBit
    rw [Nat.xor_assoc, Nat.xor_self, Nat.xor_zero]

example : (ctrlOrAntiProb 3 true 0 2 fun i : ℕ => (i : ℂ)).2 = fun i : ℕ => (i : ℂ) := ctrlOrAntiProb_keeps 3 true (c := 0) (t := 2) (by decide) _

/-- What they return: the probability that the control has its value and the target is set, or the control has the other value and the
target is not set. -/
theorem ctrlOrAntiProb_is {n : ℕ} (b : Bool) {c t : ℕ} (h : c ≠ t) (ht : t < n) (s : ℕ → ℂ) :
    (ctrlOrAntiProb n b c t s).1 = probIf n (fun i => i.testBit c = b ∧ i.testBit t = true) s +
      probIf n (fun i => i.testBit c ≠ b ∧ i.testBit t = false) s := by
  have hc : ∀ i, (flipBit t i).testBit c = i.testBit c := by
    intro i; unfold flipBit; rw [Nat.testBit_xor, Nat.testBit_two_pow]; simp [Ne.symm h]
  have htt : ∀ i, (flipBit t i).testBit t = !i.testBit t := by
    intro i; unfold flipBit; rw [Nat.testBit_xor, Nat.testBit_two_pow]; simp
  have hff : ∀ i, flipBit t (flipBit t i) = i := by
    intro i; unfold flipBit; rw [Nat.xor_assoc, Nat.xor_self, Nat.xor_zero]
  have hl : ∀ i ∈ range (2 ^ n), flipBit t i ∈ range (2 ^ n) := fun i hi => mem_range.2 (flip_lt ht (mem_range.1 hi))
  classical
  have key : probIf n (fun i => i.testBit c ≠ b ∧ i.testBit t = false) s =
      ∑ i ∈ range (2 ^ n), if i.testBit c ≠ b ∧ i.testBit t = true then Complex.normSq (s (flipBit t i)) else 0 := by
    unfold probIf
    refine sum_nbij' (flipBit t) (flipBit t) hl hl (fun i _ => hff i) (fun i _ => hff i) fun i _ => ?_
    rw [hc, htt, hff]
    cases hb : i.testBit t <;> simp [hb]
  rw [key]
  change probIf n _ (flipUnless b c t s) = _
  unfold probIf
  rw [← sum_add_distrib]
  refine sum_congr rfl fun i _ => ?_
  rw [flipUnless_eq]
  by_cases hb : i.testBit c = b <;> cases hb' : i.testBit t <;> simp [hb, hb']

/-- **C22, partial.** They are the conditional probability when the control has its value for certain. -/
theorem ctrlOrAntiProb_partial {n : ℕ} (b : Bool) {c t : ℕ} (h : c ≠ t) (ht : t < n) {s : ℕ → ℂ} (hs : totalProb n s = 1)
    (hc : probIf n (fun i => i.testBit c = b) s = 1) :
    (ctrlOrAntiProb n b c t s).1 = probIf n (fun i => i.testBit c = b ∧ i.testBit t = true) s / probIf n (fun i => i.testBit c = b) s := by
  rw [ctrlOrAntiProb_is b h ht, hc, div_one, add_eq_left]
  have h0 : probIf n (fun i => ¬ i.testBit c = b) s = 0 := by
    have := probIf_add_not n (fun i => i.testBit c = b) s
    rw [hs, hc] at this
    linarith
  unfold probIf
  refine sum_eq_zero fun i hi => ?_
  by_cases hb : i.testBit c = b
  · rw [if_neg fun h1 => h1.1 hb]
  · rw [probIf_eq_zero h0 (mem_range.1 hi) hb]; simp

theorem one_total : totalProb 2 (fun i => if i = 3 then 1 else 0) = 1 := by
  norm_num [totalProb, sum_range_succ]

theorem one_certain : probIf 2 (fun i => i.testBit 0 = true) (fun i => if i = 3 then 1 else 0) = 1 := by
  norm_num [probIf, sum_range_succ, Nat.testBit, Nat.shiftRight_eq_div_pow]

example : (ctrlOrAntiProb 2 true 0 1 fun i => if i = 3 then 1 else 0).1 =
    probIf 2 (fun i => i.testBit 0 = true ∧ i.testBit 1 = true) (fun i => if i = 3 then 1 else 0) /
      probIf 2 (fun i => i.testBit 0 = true) (fun i => if i = 3 then 1 else 0) :=
  ctrlOrAntiProb_partial true (by decide) (by decide) one_total one_certain

/-- **C22** fails for the inherited `CProb`: the control is set with probability 16/25 and the target is never set, but the result is 9/25. -/
theorem ctrlOrAntiProb_wrong : ∃ s : ℕ → ℂ, totalProb 2 s = 1 ∧ probIf 2 (fun i => i.testBit 0 = true) s = 16 / 25 ∧
    probIf 2 (fun i => i.testBit 0 = true ∧ i.testBit 1 = true) s = 0 ∧ (ctrlOrAntiProb 2 true 0 1 s).1 = 9 / 25 := by
  refine ⟨fun i => if i = 0 then ((3 / 5 : ℝ) : ℂ) else if i = 1 then ((4 / 5 : ℝ) : ℂ) else 0, ?_, ?_, ?_, ?_⟩
  · norm_num [totalProb, sum_range_succ]
  · norm_num [probIf, sum_range_succ, Nat.testBit, Nat.shiftRight_eq_div_pow]
  · norm_num [probIf, sum_range_succ, Nat.testBit, Nat.shiftRight_eq_div_pow]
  · rw [ctrlOrAntiProb_is true (by decide) (by decide)]
    norm_num [probIf, sum_range_succ, Nat.testBit, Nat.shiftRight_eq_div_pow]

end Verif.CtrlProb
