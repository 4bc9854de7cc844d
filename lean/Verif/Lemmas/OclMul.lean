import Verif.Lemmas.OclArith
import Verif.Props.EngineCtrl

/-!
Helper lemmas for the multiplications of the OpenCL engine.
-/

namespace Verif.Ocl

open Verif.Engine Verif.Utils Verif.ParFor Verif.BlockFold Verif.Spec Verif.Bits Classical

theorem devPow_eq {k : ℕ} (hk : k < 2 ^ 64) (x : ℕ) : devPow k x = k ^ x % 2 ^ 64 := by
  have h : ∀ m, (List.range m).foldl (fun r _ => r * k % 2 ^ 64) k = k ^ (m + 1) % 2 ^ 64 := by
    intro m
    induction m with
    | zero => rw [Nat.zero_add, pow_one, Nat.mod_eq_of_lt hk]; rfl
    | succ m ih => rw [List.range_succ, List.foldl_append, ih]; simp [pow_succ, Nat.mod_mul_mod]
  unfold devPow
  by_cases hx : x = 0
  · subst hx; norm_num
  · rw [if_neg hx, h, show x - 1 + 1 = x by omega]

theorem skipList_nodup {cs : List ℕ} {s l : ℕ} (hnd : cs.Nodup) (hd : ∀ q ∈ cs, q < s ∨ s + l ≤ q) :
    (cs ++ (List.range l).map (s + ·)).Nodup := by
  rw [List.nodup_append]
  refine ⟨hnd, List.nodup_range.map fun x y h => Nat.add_left_cancel h, ?_⟩
  rintro a ha b hb rfl
  obtain ⟨k, hk, rfl⟩ := List.mem_map.1 hb
  have := hd _ ha
  have := List.mem_range.1 hk
  omega

theorem skipPows_map (cs : List ℕ) (s l : ℕ) :
    skipPows cs s l = sortPows ((cs ++ (List.range l).map (s + ·)).map Engine.pow2) := by
  rw [skipPows, List.map_append, List.map_map]
  rfl

theorem part_same {cs : List ℕ} {s l j : ℕ} {junk : ℕ → ℕ} (hj : ∀ k < cs.length, junk k = 2 ^ cs.getD k 0) :
    devPartMask (ctrlBuf cs s l junk) cs.length l j = partControlMask cs j := by
  unfold devPartMask partControlMask
  apply List.foldl_ext
  intro m k hk
  have hk := List.mem_range.1 hk
  have h1 : ctrlBuf cs s l junk (cs.length + l + k) = 2 ^ cs.getD k 0 := by
    simp only [ctrlBuf]
    rw [if_neg (by omega), show cs.length + l + k - (cs.length + l) = k by omega, hj k hk]
  have h2 : (j &&& 2 ^ k ≠ 0) ↔ ((j >>> k) &&& 1 ≠ 0) := by
    rw [Nat.and_two_pow, Nat.and_one_is_mod, Nat.testBit_eq_decide_div_mod_eq, Nat.shiftRight_eq_div_pow]
    have : j / 2 ^ k % 2 < 2 := Nat.mod_lt _ (by norm_num)
    by_cases h : j / 2 ^ k % 2 = 1
    · simp [h]
    · have : j / 2 ^ k % 2 = 0 := by omega
      simp [this]
  rw [h1]
  by_cases h : j &&& 2 ^ k ≠ 0
  · rw [if_pos h, if_pos (h2.1 h)]
  · rw [if_neg h, if_neg (fun hc => h (h2.2 hc))]

theorem finish_same {cs : List ℕ} {s l i : ℕ} {junk : ℕ → ℕ} (hne : cs ≠ [])
    (hj : 2 ≤ cs.length → ∀ k < cs.length, junk k = 2 ^ cs.getD k 0) {out inn : ℕ → ℕ} {old n : ℕ → ℂ} :
    cmodFinish (ctrlBuf cs s l junk) cs.length l i old (Function.update n (out i) (old (inn i))) =
      ctrlStep cs out inn old n i := by
  unfold cmodFinish ctrlStep
  dsimp only
  apply List.foldl_ext
  intro t j hmem
  have h2 : 2 ≤ cs.length := by
    by_contra hc
    have : cs.length = 1 := by have := List.length_pos_of_ne_nil hne; omega
    rw [this] at hmem
    simp at hmem
  rw [part_same (hj h2)]

theorem fold_skip {step : (ℕ → ℂ) → ℕ → ℕ → ℂ} {j : ℕ} : ∀ (l : List ℕ) (init : ℕ → ℂ),
    (∀ x ∈ l, ∀ s, step s x j = s j) → l.foldl step init j = init j := by
  intro l
  induction l with
  | nil => intro init _; rfl
  | cons x l ih =>
    intro init h
    rw [List.foldl_cons, ih _ fun y hy => h y (List.mem_cons_of_mem _ hy), h x List.mem_cons_self]

theorem part_zero (cs : List ℕ) (s l j : ℕ) : devPartMask (ctrlBuf cs s l fun _ => 0) cs.length l j = 0 := by
  unfold devPartMask
  have : ∀ (L : List ℕ), L.foldl (fun m k => if j &&& 2 ^ k ≠ 0 then
      m ||| ctrlBuf cs s l (fun _ => 0) (cs.length + l + k) else m) 0 = 0 := by
    intro L
    induction L with
    | nil => rfl
    | cons x L ih =>
      rw [List.foldl_cons]
      have : ctrlBuf cs s l (fun _ => 0) (cs.length + l + x) = 0 := by simp [ctrlBuf]
      rw [this]
      simpa using ih
  exact this _

/-- With zeros after the buffer the kernel writes only the image of the state and the state itself. -/
theorem finish_zero {cs : List ℕ} {s l i j : ℕ} {old n : ℕ → ℂ} (h : j ≠ i) :
    cmodFinish (ctrlBuf cs s l fun _ => 0) cs.length l i old n j = n j := by
  unfold cmodFinish
  simp only [part_zero, Nat.or_zero]
  rw [fold_skip _ _ fun x _ s => Function.update_of_ne h _ _, Function.update_of_ne h]

end Verif.Ocl
