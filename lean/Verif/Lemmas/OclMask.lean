import Verif.Props.EngineUniform
import Verif.Props.OclGate
import Verif.Props.Utils

/-! Helper lemmas for the OpenCL kernels that visit every amplitude. -/

namespace Verif.Ocl

open Verif.ParFor Verif.Bits Verif.PairFold Verif.Spec Verif.Engine Classical

/-- A launch over `2^a` indices visits each of them once. -/
theorem runLoop_list {d : Dev} (hd : d.Ok) {σ : List (ℕ × ℕ) → List (ℕ × ℕ)} (hσ : IsSched2 σ) (a : ℕ) :
    ∃ l : List ℕ, l.Nodup ∧ (∀ i, i ∈ l ↔ i < 2 ^ a) ∧
      ∀ step s, runLoop d σ (2 ^ a) (2 ^ a) step s = some (l.foldl step s) := by
  have hp : ((σ (loopPlan (ngc d (2 ^ a)) (2 ^ a))).map Prod.snd).Perm (List.range (2 ^ a)) :=
    ((hσ _).map _).trans (loopPlan_perm (ngc_pos hd a))
  refine ⟨_, hp.nodup_iff.2 List.nodup_range, fun i => hp.mem_iff.trans List.mem_range, fun step s => ?_⟩
  unfold runLoop
  rw [if_pos (sizes_ok hd a), List.foldl_map]

/-- With the bases spread over the clear positions. -/
theorem runLoop_bases {d : Dev} (hd : d.Ok) {σ : List (ℕ × ℕ) → List (ℕ × ℕ)} (hσ : IsSched2 σ) {n : ℕ} {ps : List ℕ}
    (hs : ps.Pairwise (· < ·)) (hb : ∀ p ∈ ps, p < n) :
    ∃ l : List ℕ, l.Nodup ∧ (∀ i, i ∈ l ↔ MaskClear n ps i) ∧
      ∀ (step f : (ℕ → ℂ) → ℕ → ℕ → ℂ), (∀ s lcv, lcv < 2 ^ (n - ps.length) → step s lcv = f s (insAll ps lcv)) →
        ∀ s, runLoop d σ (2 ^ (n - ps.length)) (2 ^ (n - ps.length)) step s = some (l.foldl f s) := by
  obtain ⟨l, h1, h2, h3⟩ := runLoop_list hd hσ (n - ps.length)
  refine ⟨l.map (insAll ps), h1.map (insAll_injective ps), fun i => ?_, fun step f hf s => ?_⟩
  · rw [← mem_insAll_range hs hb, List.mem_map]
    simp only [h2]
  · rw [h3, List.foldl_map]
    congr 1
    apply List.foldl_ext
    intro s x hx
    exact hf s x ((h2 x).1 hx)

/-- `PUSH_APART_GEN` is `pushApartBits` in 64-bit words. -/
theorem pushApart_aux {l : List ℕ} {q : ℕ → ℕ} (x : ℕ) (hq : ∀ i (h : i < l.length), q i = l[i]) :
    pushApart q l.length x = Utils.pushApartAux 64 l 0 x := by
  have e1 : ∀ st : ℕ × ℕ, (List.range l.length).foldl (fun st p => pushStep st (q p)) st = l.foldl pushStep st := by
    intro st
    rw [← List.foldl_map (f := q) (g := pushStep)]
    congr 1
    apply List.ext_getElem
    · simp
    · intro i h1 h2
      simp at h1 h2 ⊢
      exact hq i h1
  have e2 : ∀ (l : List ℕ) (st : ℕ × ℕ), (l.foldl pushStep st).1 ||| (l.foldl pushStep st).2 =
      Utils.pushApartAux 64 l st.1 st.2 := by
    intro l
    induction l with
    | nil => intro st; rfl
    | cons p l ih =>
      intro st
      rw [List.foldl_cons, ih, Utils.pushApartAux]
      simp only [pushStep, Nat.shiftLeft_eq, pow_one]
  unfold pushApart
  rw [e1]
  exact e2 l (0, x)

theorem popLoop_eq : ∀ (fuel v : ℕ), v < 2 ^ fuel → popLoop fuel v = popCount fuel v := by
  have key : ∀ w v, popCount (w + 1) v = v % 2 + popCount w (v / 2) := by
    intro w
    induction w with
    | zero =>
      intro v
      have : v % 2 = 0 ∨ v % 2 = 1 := by omega
      rcases this with h | h <;> simp [popCount, Nat.testBit_zero, h]
    | succ w ih =>
      intro v
      rw [popCount, ih, popCount, Nat.testBit_div_two]
      omega
  intro fuel
  induction fuel with
  | zero => intro v _; rfl
  | succ w ih =>
    intro v hv
    rw [popLoop, key]
    split_ifs with h
    · subst h
      have : ∀ w, popCount w 0 = 0 := by
        intro w
        induction w with
        | zero => rfl
        | succ w ih => simp [popCount, ih]
      simp [this]
    · rw [ih _ (by rw [pow_succ] at hv; omega)]

theorem popLoop_maskCount {n mask i : ℕ} (hn : n ≤ 64) (hm : mask < 2 ^ n) :
    popLoop 64 (i &&& mask) = maskCount n mask i := by
  have hlt : i &&& mask < 2 ^ n := lt_of_le_of_lt Nat.and_le_right hm
  rw [popLoop_eq _ _ (lt_of_lt_of_le hlt (Nat.pow_le_pow_right (by norm_num) hn)), popCount_ge hlt hn, popCount_and]

theorem kernighan_eq : ∀ (fuel v w : ℕ), v < 2 ^ w → ((Finset.range w).filter fun k => v.testBit k = true).card ≤ fuel →
    kernighan fuel v = ((Finset.range w).filter fun k => v.testBit k = true).card := by
  intro fuel
  induction fuel with
  | zero => intro v w _ h; rw [kernighan]; omega
  | succ f ih =>
    intro v w hw hc
    rw [kernighan]
    split_ifs with h
    · simp [h]
    · obtain ⟨l, h1, h2, h3, h4⟩ := and_pred h
      have hlt : v &&& (v - 1) < v := by
        have : v &&& (v - 1) ≤ v - 1 := Nat.and_le_right
        omega
      have hl : l < w := by
        by_contra hc
        rw [lt_two_pow_iff_testBit.1 hw l (by omega)] at h1
        cases h1
      have : (Finset.range w).filter (fun k => v.testBit k = true) =
          insert l ((Finset.range w).filter fun k => (v &&& (v - 1)).testBit k = true) := by
        ext k
        simp only [Finset.mem_insert, Finset.mem_filter, Finset.mem_range, h3]
        by_cases hk : k = l
        · subst hk; simp [h1, hl]
        · simp [hk]
      rw [this, Finset.card_insert_of_notMem (by simp [h3])] at hc ⊢
      rw [ih _ w (lt_trans hlt hw) (by omega)]
      omega

theorem kernighan_maskCount {n mask i : ℕ} (hn : n ≤ 64) (hm : mask < 2 ^ n) :
    kernighan 64 (i &&& mask) = maskCount n mask i := by
  have hlt : i &&& mask < 2 ^ n := lt_of_le_of_lt Nat.and_le_right hm
  have hcard : ((Finset.range n).filter fun k => (i &&& mask).testBit k = true).card ≤ 64 :=
    le_trans (Finset.card_filter_le _ _) (by simpa using hn)
  rw [kernighan_eq 64 _ n hlt hcard]
  unfold maskCount
  congr 1
  ext k
  simp [Nat.testBit_and, and_comm]

/-- Nothing pending: no normalisation, or a state of norm one. -/
def Settled (e : Eng) : Prop := e.doNorm = false ∨ e.rn = 1

theorem settled_rn {e : Eng} (h : Settled e) : (if NormOn e 1 then (1 : ℝ) else e.rn) = e.rn := by
  split_ifs with hn
  · rcases h with h | h
    · rw [hn.1] at h; cases h
    · exact h.symm
  · rfl

end Verif.Ocl
