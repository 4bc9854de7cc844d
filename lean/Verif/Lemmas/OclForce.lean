import Verif.Props.OclMeas

/-!
# The OpenCL projections are those of the CPU engine
-/

namespace Verif.Ocl

open Verif.ParFor Verif.Bits Verif.PairFold Verif.Spec Verif.Engine Classical

variable {R : Rt} {e : Eng} {P : Par}

/-- The state after `ApplyM`. -/
theorem applyM_eq {σ : List ℕ → List ℕ} (hσ : IsSched σ) (e : Eng) (m r : ℕ) (k : ℂ) :
    applyM σ e m r k =
      { e with amp := fun i => if i < 2 ^ e.n then (if i &&& m = r then k * e.amp i else 0) else e.amp i, rn := 1 } := by
  have : (applyM σ e m r k).amp = (σ (parForPlan 0 (2 ^ e.n))).foldl
      (fun s l => Function.update s l (if l &&& m = r then k * s l else 0)) e.amp := by
    unfold applyM
    simp only
    congr 1
    funext s l
    by_cases h : l &&& m = r
    · rw [if_pos h, if_pos h]
    · rw [if_neg h, if_neg h]
  have h2 : (applyM σ e m r k).amp = fun i => if i < 2 ^ e.n then (if i &&& m = r then k * e.amp i else 0) else e.amp i := by
    funext i
    rw [this, fold_map hσ e.n (fun l z => if l &&& m = r then k * z else 0)]
  unfold applyM at h2 ⊢
  simp only at h2
  rw [h2]

theorem applyMReg_eq (hR : R.Ok) (hP : P.Ok) {m : ℕ} (hm : m < 2 ^ e.n) (r : ℕ) (k : ℂ) :
    applyMReg R e m r k = some (applyM P.σ e m r k) := by
  rw [applyM_eq hP.1]
  unfold applyMReg applyMx
  rw [if_neg (by omega)]
  simp only [List.getD_cons_zero]
  generalize hul : writeBuf 3 (arr [2 ^ e.n, m, r]) R.old.ul = ul
  have u0 : ul 0 = 2 ^ e.n := by rw [← hul]; rfl
  have u1 : ul 1 = m := by rw [← hul]; rfl
  have u2 : ul 2 = r := by rw [← hul]; rfl
  generalize hcx : writeBuf 1 (fun _ => k) R.old.cx = cx
  have c0 : cx 0 = k := by rw [← hcx]; rfl
  rw [u0]
  have := launch_update hR e.n (fun i z => if i &&& m = r then k * z else 0) e.amp
  rw [show (launch R (2 ^ e.n) (2 ^ e.n) (applymregStep ul cx) e.amp) = _ from ?_, Option.map_some]
  · refine Eq.trans ?_ this
    congr 1
    funext s i
    unfold applymregStep
    rw [u1, u2, c0, zmul_eq]

theorem insZero_or (q x : ℕ) (b : Bool) (k : ℕ) :
    (insZero q x ||| (if b then 2 ^ q else 0)).testBit k =
      if k < q then x.testBit k else if k = q then b else x.testBit (k - 1) := by
  rw [Nat.testBit_or, testBit_insZero]
  by_cases h1 : k < q
  · cases b <;> simp [h1, Nat.testBit_two_pow]
    intro h; omega
  · by_cases h2 : k = q
    · subst h2; cases b <;> simp
    · cases b <;> simp [h1, h2, Nat.testBit_two_pow]
      intro h; omega

theorem delBit_insZero_or (q x : ℕ) (b : Bool) : delBit q (insZero q x ||| (if b then 2 ^ q else 0)) = x := by
  apply Nat.eq_of_testBit_eq
  intro k
  rw [testBit_delBit, insZero_or, insZero_or]
  by_cases h : k < q
  · simp [h]
  · simp [h, show ¬ k + 1 < q by omega, show ¬ k + 1 = q by omega]

theorem insZero_or_delBit (q y : ℕ) : insZero q (delBit q y) ||| (if y.testBit q then 2 ^ q else 0) = y := by
  apply Nat.eq_of_testBit_eq
  intro k
  rw [insZero_or, testBit_delBit, testBit_delBit]
  by_cases h1 : k < q
  · simp [h1]
  · by_cases h2 : k = q
    · subst h2; simp
    · simp only [h1, h2, if_false, show ¬ k - 1 < q by omega]
      congr 1; omega

theorem insZero_or_lt {n q x : ℕ} (hq : q < n) (hx : x < 2 ^ (n - 1)) (b : Bool) :
    insZero q x ||| (if b then 2 ^ q else 0) < 2 ^ n := by
  rw [lt_two_pow_iff_testBit] at hx ⊢
  intro k hk
  rw [insZero_or, if_neg (by omega), if_neg (by omega)]
  exact hx _ (by omega)

theorem delBit_lt' {n q y : ℕ} (hq : q < n) (hy : y < 2 ^ n) : delBit q y < 2 ^ (n - 1) := by
  rw [lt_two_pow_iff_testBit] at hy ⊢
  intro k hk
  rw [testBit_delBit, if_neg (by omega)]
  exact hy _ (by omega)

theorem applyMBit_eq (hR : R.Ok) (hP : P.Ok) (hn : e.n ≤ 64) {q : ℕ} (hq : q < e.n) (b : Bool) (k : ℂ) :
    applyMBit R e (pow2 q) b k = some (applyM P.σ e (pow2 q) (if b then pow2 q else 0) k) := by
  rw [applyM_eq hP.1]
  unfold applyMBit applyMx
  rw [half_eq (by omega)]
  simp only [List.getD_cons_zero]
  generalize hul : writeBuf 3 (arr [2 ^ (e.n - 1), pow2 q, if b then pow2 q else 0]) R.old.ul = ul
  have u0 : ul 0 = 2 ^ (e.n - 1) := by rw [← hul]; rfl
  have u1 : ul 1 = 2 ^ q := by rw [← hul]; rfl
  have u2 : ul 2 = if b then 2 ^ q else 0 := by rw [← hul]; rfl
  generalize hcx : writeBuf 1 (fun _ => k) R.old.cx = cx
  have c0 : cx 0 = k := by rw [← hcx]; rfl
  rw [u0]
  obtain ⟨l, h1, h2, h3⟩ := launch_list hR (e.n - 1)
  rw [h3, Option.map_some]
  congr 2
  -- each index writes the two cells of its pair
  set F : ℕ → ℂ → ℂ := fun i z => if i &&& pow2 q = (if b then pow2 q else 0) then k * z else 0 with hF
  set L := l.flatMap fun x => [insZero q x ||| (if b then 2 ^ q else 0), insZero q x ||| (if !b then 2 ^ q else 0)] with hL
  have key : l.foldl (applymStep ul cx) e.amp = L.foldl (fun s y => Function.update s y (F y (s y))) e.amp := by
    rw [hL, List.foldl_flatMap]
    apply List.foldl_ext
    intro s x hx
    have hx' := (h2 x).1 hx
    have hlt : insZero q x < 2 ^ 64 := by
      have := insZero_or_lt hq hx' false
      simp only [Bool.false_eq_true, if_false, Nat.or_zero] at this
      exact lt_of_lt_of_le this (Nat.pow_le_pow_right (by norm_num) hn)
    have e1 := pushApart1_eq hlt
    unfold pushApart1 at e1
    simp only [] at e1
    have hd : 2 ^ q ^^^ (if b then 2 ^ q else 0) = if !b then 2 ^ q else 0 := by cases b <;> simp
    have hs : F (insZero q x ||| (if b then 2 ^ q else 0)) = fun z => k * z := by
      funext z
      rw [hF]
      simp only []
      rw [if_pos]
      rw [and_pow2_iff, insZero_or]
      simp
    have hz : F (insZero q x ||| (if !b then 2 ^ q else 0)) = fun _ => 0 := by
      funext z
      rw [hF]
      simp only []
      rw [if_neg]
      rw [and_pow2_iff, insZero_or]
      simp
    unfold applymStep
    simp only [List.foldl_cons, List.foldl_nil]
    rw [u1, u2, c0, zmul_eq, e1, hd, hs, hz]
  rw [key]
  have hnd : L.Nodup := by
    rw [hL, List.nodup_flatMap]
    refine ⟨?_, h1.imp ?_⟩
    · intro x _
      simp only [List.nodup_cons, List.mem_singleton, List.not_mem_nil, not_false_eq_true, List.nodup_nil, and_true]
      intro h
      have := congrArg (fun z => z.testBit q) h
      simp only [insZero_or] at this
      simp at this
    · intro x y hxy
      simp only [Function.onFun, List.disjoint_iff_ne]
      intro a ha c hc hac
      apply hxy
      have ha' : delBit q a = x := by
        simp only [List.mem_cons, List.not_mem_nil, or_false] at ha
        rcases ha with rfl | rfl <;> exact delBit_insZero_or _ _ _
      have hc' : delBit q c = y := by
        simp only [List.mem_cons, List.not_mem_nil, or_false] at hc
        rcases hc with rfl | rfl <;> exact delBit_insZero_or _ _ _
      rw [← ha', ← hc', hac]
  have hmem : ∀ y, y ∈ L ↔ y < 2 ^ e.n := by
    intro y
    rw [hL, List.mem_flatMap]
    constructor
    · rintro ⟨x, hx, hy⟩
      have hx := (h2 x).1 hx
      simp only [List.mem_cons, List.not_mem_nil, or_false] at hy
      rcases hy with rfl | rfl <;> exact insZero_or_lt hq hx _
    · intro hy
      refine ⟨delBit q y, (h2 _).2 (delBit_lt' hq hy), ?_⟩
      have := insZero_or_delBit q y
      by_cases h : y.testBit q = b
      · rw [h] at this
        simp [this]
      · have h' : y.testBit q = !b := by cases b <;> simpa using h
        rw [h'] at this
        simp only [List.mem_cons, List.not_mem_nil, or_false]
        exact Or.inr this.symm
  funext i
  rw [foldl_update F L hnd]
  simp only [hmem]
  rfl

theorem sampleLoop_congr {a b : ℕ → ℝ} {len : ℕ} (h : ∀ i < len, a i = b i) (r : ℝ) : ∀ (fuel : ℕ) (st : ℕ × ℝ × ℝ × ℕ),
    sampleLoop a len r fuel st = sampleLoop b len r fuel st := by
  intro fuel
  induction fuel with
  | zero => intro st; rfl
  | succ fuel ih =>
    rintro ⟨lcv, lower, nrm, res⟩
    rw [sampleLoop, sampleLoop]
    by_cases h1 : lower < r ∧ lcv < len
    · rw [if_pos h1, if_pos h1]
      by_cases h2 : lcv + 1 = len
      · rw [if_pos h2, if_pos h2]
      · rw [if_neg h2, if_neg h2]
        simp only []
        rw [h (lcv + 1) (by omega), ih]
    · rw [if_neg h1, if_neg h1]

theorem sampleBits_congr {a b : ℕ → ℝ} {len : ℕ} (h : ∀ i < len, a i = b i) (h0 : 0 < len) (r : ℝ) :
    sampleBits a len r = sampleBits b len r := by
  unfold sampleBits
  rw [sampleLoop_congr h, h 0 h0]
  cases sampleLoop b len r len (0, b 0, 1, len - 1) with
  | none => rfl
  | some st =>
    obtain ⟨lcv, lower, nrm, res⟩ := st
    simp only [Option.map_some]
    by_cases hl : lcv < len
    · rw [if_pos hl, if_pos hl, h lcv hl]
    · rw [if_neg hl, if_neg hl]

theorem regLoop_congr {a b : ℕ → ℝ} {len : ℕ} (h : ∀ i < len, a i = b i) (r : ℝ) : ∀ (fuel : ℕ) (st : ℕ × ℝ × ℝ × ℕ),
    regLoop a len r fuel st = regLoop b len r fuel st := by
  intro fuel
  induction fuel with
  | zero => intro st; rfl
  | succ fuel ih =>
    rintro ⟨lcv, lower, nrm, res⟩
    rw [regLoop, regLoop]
    by_cases h1 : lower < r ∧ lcv < len
    · rw [if_pos h1, if_pos h1, h lcv h1.2, ih]
    · rw [if_neg h1, if_neg h1]

theorem sampleReg_congr {a b : ℕ → ℝ} {len : ℕ} (h : ∀ i < len, a i = b i) (r : ℝ) :
    sampleReg a len r = sampleReg b len r := by
  unfold sampleReg
  rw [regLoop_congr h]

end Verif.Ocl
