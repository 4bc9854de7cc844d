import Verif.Model.OclGate
import Verif.Lemmas.Ocl
import Verif.Lemmas.EngineGate
import Verif.Lemmas.EngineSwap
import Mathlib.Data.Complex.BigOperators

/-!
Helper lemmas for the OpenCL gates: every kernel of the `apply2x2` family, launched with any left-over
buffers and any interleaving, computes the pair specification of the CPU loop.
-/

namespace Verif.Ocl

open Verif.Engine Verif.Bits Verif.ParFor Verif.PairFold Verif.Spec Classical

theorem zmul_eq (x y : ℂ) : zmul x y = x * y := by
  apply Complex.ext <;> simp [zmul]

theorem zmatrixmul_eq (nrm : ℝ) (c : ℕ → ℂ) (x y : ℂ) :
    zmatrixmul nrm c x y = ((nrm : ℂ) * (c 0 * x + c 1 * y), (nrm : ℂ) * (c 2 * x + c 3 * y)) := by
  unfold zmatrixmul
  refine Prod.ext ?_ ?_ <;> apply Complex.ext <;> simp <;> (left; ring)

theorem mul2_eq (m : M2) (k x y : ℂ) : mul2 m k x y = (k * (m.a * x + m.b * y), k * (m.c * x + m.d * y)) :=
  Prod.ext (mul2_fst m k x y) (mul2_snd m k x y)

theorem clear_or {n : ℕ} {ps : List ℕ} {l o : ℕ} (hl : MaskClear n ps l) (ho : Sub ps o) : l ||| o = l + o := by
  rw [clear_add hl ho]
  apply Nat.eq_of_testBit_eq
  intro k
  rw [Nat.testBit_or, Nat.testBit_xor]
  by_cases h : o.testBit k = true
  · rw [hl.2 k (ho k h)]; simp
  · simp [h]

/-- What the buffers have to hold for one operation to be the matrix `m` times `r`. -/
def opOk (b : Bufs) (m : M2) (r : ℝ) (o1 : ℕ) : Op → Prop
  | .apply | .norm => b.cx 0 = m.a ∧ b.cx 1 = m.b ∧ b.cx 2 = m.c ∧ b.cx 3 = m.d ∧ b.cx 4 = (r : ℂ)
  | .x => m = ⟨0, 1, 1, 0⟩ ∧ r = 1 ∧ o1 = 0
  | .z => m = ⟨1, 0, 0, -1⟩ ∧ r = 1 ∧ o1 = 0
  | .invert => b.cx 1 = m.b ∧ b.cx 2 = m.c ∧ m.a = 0 ∧ m.d = 0 ∧ r = 1 ∧ o1 = 0
  | .phase => b.cx 0 = m.a ∧ b.cx 3 = m.d ∧ m.b = 0 ∧ m.c = 0 ∧ r = 1 ∧ o1 = 0

/-- The contribution of one pair to the running norm. -/
noncomputable def opSum (op : Op) (x y : ℂ) : ℝ :=
  if op = .norm then Complex.normSq x + Complex.normSq y else 0

theorem step_fst {k : Kern} {b : Bufs} {m : M2} {r : ℝ} {o1 o2 : ℕ} (h0 : b.ul 0 = o2) (h1 : b.ul 1 = o1)
    (hop : opOk b m r o1 k.op) {n : ℕ} {ps : List ℕ} (v : Valid n ps o1 o2) (s : ℕ → ℂ) (part : ℕ → ℝ) (p : ℕ × ℕ)
    (hc : MaskClear n ps (k.index b p.2)) (g : ℕ) (hg : p.1 < g) :
    let st := k.step b (s, part) p
    let ps' := pstep (· + o1) (· + o2) (fun _ => mul2 m r) (opSum k.op)
      (s, ∑ i ∈ Finset.range g, part i) (k.index b p.2)
    st.1 = ps'.1 ∧ ∑ i ∈ Finset.range g, st.2 i = ps'.2 := by
  have e1 := clear_or hc v.s1
  have e2 := clear_or hc v.s2
  generalize hi : k.index b p.2 = i at *
  have hne : i + o1 ≠ i + o2 := by have := v.ne; omega
  have hupd : ∀ x : ℝ, ∑ j ∈ Finset.range g, Function.update part p.1 (part p.1 + x) j =
      ∑ j ∈ Finset.range g, part j + x := by
    intro x
    rw [Finset.sum_update_of_mem (Finset.mem_range.2 hg)]
    rw [← Finset.sum_sdiff (Finset.singleton_subset_iff.2 (Finset.mem_range.2 hg)) (f := part)]
    simp; ring
  unfold Kern.step pstep opSum
  rcases k with ⟨sp, w, op⟩
  simp only [hi, h0, h1, e1, e2] at *
  cases op
  · obtain ⟨c0, c1, c2, c3, c4⟩ := hop
    simp only [zmatrixmul_eq, realAt, mul2_eq, c0, c1, c2, c3]
    norm_num [c4, set2]
    intro h; cases h
  · obtain ⟨c0, c1, c2, c3, c4⟩ := hop
    have t : realAt b.cx 9 = 0 := by simp [realAt, c4]
    have q : realAt b.cx 8 = r := by simp [realAt, c4]
    simp only [zmatrixmul_eq, mul2_eq, c0, c1, c2, c3, t, q, set2]
    have hn : ∀ z : ℂ, ¬ Complex.normSq z < 0 := fun z => not_lt.2 (Complex.normSq_nonneg z)
    simp only [hn, if_false, if_true]
    refine ⟨trivial, ?_⟩
    rw [add_assoc, hupd]
  · obtain ⟨rfl, rfl, rfl⟩ := hop
    simp [set2, mul2_eq]
  · obtain ⟨rfl, rfl, rfl⟩ := hop
    simp [mul2_eq]
  · obtain ⟨c1, c2, c3, c4, rfl, rfl⟩ := hop
    simp [set2, mul2_eq, zmul_eq, c1, c2, c3, c4]
  · obtain ⟨c1, c2, c3, c4, rfl, rfl⟩ := hop
    simp only [Nat.add_zero] at hne
    simp [mul2_eq, zmul_eq, c1, c2, c3, c4, Function.update_of_ne hne.symm]

theorem fold_steps {k : Kern} {b : Bufs} {m : M2} {r : ℝ} {o1 o2 : ℕ} (h0 : b.ul 0 = o2) (h1 : b.ul 1 = o1)
    (hop : opOk b m r o1 k.op) {n : ℕ} {ps : List ℕ} (v : Valid n ps o1 o2) (g : ℕ) :
    ∀ (L : List (ℕ × ℕ)), (∀ p ∈ L, MaskClear n ps (k.index b p.2) ∧ p.1 < g) → ∀ (s : ℕ → ℂ) (part : ℕ → ℝ),
    (L.foldl (k.step b) (s, part)).1 = ((L.map fun p => k.index b p.2).foldl
      (pstep (· + o1) (· + o2) (fun _ => mul2 m r) (opSum k.op)) (s, ∑ i ∈ Finset.range g, part i)).1 ∧
    ∑ i ∈ Finset.range g, (L.foldl (k.step b) (s, part)).2 i = ((L.map fun p => k.index b p.2).foldl
      (pstep (· + o1) (· + o2) (fun _ => mul2 m r) (opSum k.op)) (s, ∑ i ∈ Finset.range g, part i)).2 := by
  intro L
  induction L with
  | nil => intro _ s part; exact ⟨rfl, rfl⟩
  | cons p L ih =>
    intro hL s part
    obtain ⟨hc, hg⟩ := hL p (by simp)
    have hst := step_fst h0 h1 hop v s part p hc g hg
    simp only at hst
    have hi := ih (fun q hq => hL q (by simp [hq])) (k.step b (s, part) p).1 (k.step b (s, part) p).2
    rw [List.map_cons, List.foldl_cons, List.foldl_cons]
    rw [show k.step b (s, part) p = ((k.step b (s, part) p).1, (k.step b (s, part) p).2) from rfl]
    rw [hst.2, hst.1] at hi
    rw [hst.1]
    exact hi

/-- The pair loop over any list that visits every index with clear bits once. -/
theorem pair_fold {n : ℕ} {ps : List ℕ} {o1 o2 : ℕ} (v : Valid n ps o1 o2) (K : ℂ → ℂ → ℂ × ℂ) (G : ℂ → ℂ → ℝ)
    {L : List ℕ} (hnd : L.Nodup) (hm : ∀ i, i ∈ L ↔ MaskClear n ps i) (s : ℕ → ℂ) (r : ℝ) :
    (L.foldl (pstep (· + o1) (· + o2) (fun _ => K) G) (s, r)).1 = pairSpec n ps o1 o2 K s ∧
    (L.foldl (pstep (· + o1) (· + o2) (fun _ => K) G) (s, r)).2 =
      r + (L.map fun x => G (pairSpec n ps o1 o2 K s (x + o1)) (pairSpec n ps o1 o2 K s (x + o2))).sum := by
  have hdj : Disj (· + o1) (· + o2) L := by
    refine ⟨?_, ?_, ?_, ?_⟩
    · intro x _ h
      exact v.ne (by simpa using h)
    · intro x _ y _ h; simpa using h
    · intro x _ y _ h; simpa using h
    · intro x hx y hy h
      exact v.ne (parForMask_disjoint ((hm x).1 hx) ((hm y).1 hy) v.s1 v.s2 h).2
  obtain ⟨h1, h2, h3⟩ := fold_spec (· + o1) (· + o2) (fun _ => K) G _ hnd hdj s r
  have hA : (L.foldl (pstep (· + o1) (· + o2) (fun _ => K) G) (s, r)).1 = pairSpec n ps o1 o2 K s := by
    generalize List.foldl _ (s, r) _ = F at h1 h2 ⊢
    funext i
    unfold pairSpec
    split_ifs with c1 c2
    · have hc := xor_clear c1.1 v.bound v.s1 c1.2
      have := (h1 _ ((hm _).2 hc)).1
      have e1 : (i ^^^ o1) + o1 = i := by
        rw [clear_add hc v.s1, Nat.xor_assoc, Nat.xor_self, Nat.xor_zero]
      have e2 : (i ^^^ o1) + o2 = i ^^^ (o1 ^^^ o2) := by rw [clear_add hc v.s2, Nat.xor_assoc]
      simp only [e1, e2] at this
      exact this
    · have hc := xor_clear c2.1 v.bound v.s2 c2.2
      have := (h1 _ ((hm _).2 hc)).2
      have e1 : (i ^^^ o2) + o2 = i := by
        rw [clear_add hc v.s2, Nat.xor_assoc, Nat.xor_self, Nat.xor_zero]
      have e2 : (i ^^^ o2) + o1 = i ^^^ (o1 ^^^ o2) := by
        rw [clear_add hc v.s1, Nat.xor_assoc, Nat.xor_comm o2]
      simp only [e1, e2] at this
      exact this
    · apply h2
      intro x hx
      have hx := (hm x).1 hx
      constructor
      · rintro rfl
        rw [clear_add hx v.s1] at c1
        exact c1 ⟨Nat.xor_lt_two_pow hx.1 (v.s1.lt v.bound), pat_of_clear hx⟩
      · rintro rfl
        rw [clear_add hx v.s2] at c2
        exact c2 ⟨Nat.xor_lt_two_pow hx.1 (v.s2.lt v.bound), pat_of_clear hx⟩
  refine ⟨hA, ?_⟩
  rw [h3, ← hA]
  congr 2
  apply List.map_congr_left
  intro x hx
  rw [(h1 x hx).1, (h1 x hx).2]

/-- The iterations of a launch, as visited states. -/
theorem plan_bases {n : ℕ} {ps : List ℕ} {o1 o2 : ℕ} (v : Valid n ps o1 o2) {k : Kern} {b : Bufs} {g : ℕ} (hg : 0 < g)
    (hb : k.wide = false → b.ul 2 = 2 ^ (n - ps.length)) (hw : k.wide = true → g = 2 ^ (n - ps.length))
    (hi : ∀ lcv < 2 ^ (n - ps.length), k.index b lcv = insAll ps lcv)
    {σ : List (ℕ × ℕ) → List (ℕ × ℕ)} (hσ : IsSched2 σ) :
    ((σ (k.plan b g)).map fun p => k.index b p.2).Nodup ∧
    (∀ i, i ∈ (σ (k.plan b g)).map (fun p => k.index b p.2) ↔ MaskClear n ps i) ∧
    ∀ p ∈ σ (k.plan b g), MaskClear n ps (k.index b p.2) ∧ p.1 < g := by
  have hp : ((k.plan b g).map Prod.snd).Perm (List.range (2 ^ (n - ps.length))) := by
    unfold Kern.plan
    cases hk : k.wide
    · simp only [hb hk]
      exact loopPlan_perm hg
    · simp only [if_true, hw hk, widePlan_snd]
      exact List.Perm.refl _
  have hfst : ∀ p ∈ k.plan b g, p.1 < g := by
    intro p hp
    unfold Kern.plan at hp
    cases hk : k.wide
    · simp only [hk, Bool.false_eq_true, if_false] at hp
      rw [((loopPlan_mem hg).1 hp).1]
      exact Nat.mod_lt _ hg
    · simp only [hk, if_true, widePlan, List.mem_map, List.mem_range] at hp
      obtain ⟨a, ha, rfl⟩ := hp
      exact ha
  have hp2 : ((σ (k.plan b g)).map Prod.snd).Perm (List.range (2 ^ (n - ps.length))) := ((hσ _).map _).trans hp
  have hmap : (σ (k.plan b g)).map (fun p => k.index b p.2) =
      ((σ (k.plan b g)).map Prod.snd).map (insAll ps) := by
    rw [List.map_map]
    apply List.map_congr_left
    intro p hpm
    have : p.2 ∈ List.range (2 ^ (n - ps.length)) := hp2.mem_iff.1 (List.mem_map.2 ⟨p, hpm, rfl⟩)
    exact hi p.2 (List.mem_range.1 this)
  have hmem : ∀ i, i ∈ (σ (k.plan b g)).map (fun p => k.index b p.2) ↔ MaskClear n ps i := by
    intro i
    rw [hmap, (hp2.map _).mem_iff, ← mem_insAll_range v.sorted v.bound, List.mem_map]
    simp only [List.mem_range]
  refine ⟨?_, hmem, ?_⟩
  · rw [hmap, (hp2.map _).nodup_iff]
    exact List.nodup_range.map (insAll_injective ps)
  · intro p hpm
    exact ⟨(hmem _).1 (List.mem_map.2 ⟨p, hpm, rfl⟩), hfst p ((hσ _).mem_iff.1 hpm)⟩

/-- Pending normalisation is applied by gates on one qubit. -/
def NormOn (e : Eng) (len : ℕ) : Prop := e.doNorm = true ∧ len = 1 ∧ 0 < e.rn

/-- The factor that it contributes. -/
noncomputable def scale (e : Eng) (len : ℕ) : ℝ := if NormOn e len then 1 / Real.sqrt e.rn else 1

/-- The matrix passed along with a special kind. -/
def SpOk (m : M2) (o1 len : ℕ) : Special → Prop
  | .none => True
  | .pauliX => m = ⟨0, 1, 1, 0⟩ ∧ o1 = 0 ∧ len = 1
  | .pauliZ => m = ⟨1, 0, 0, -1⟩ ∧ o1 = 0 ∧ len = 1
  | .invert => m.a = 0 ∧ m.d = 0 ∧ o1 = 0 ∧ len = 1
  | .phase => m.b = 0 ∧ m.c = 0 ∧ o1 = 0 ∧ len = 1

theorem args_index {n : ℕ} {ps : List ℕ} {o1 o2 : ℕ} (v : Valid n ps o1 o2) (old : Bufs) (e : Eng) (m : M2) (g : ℕ)
    (fl : Flags) (thr : ℝ) (x z i p c : Bool) :
    let maxI := 2 ^ (n - ps.length)
    let b := apply2x2Bufs old e o1 o2 m (ps.map (2 ^ ·)) maxI g fl thr
    let k := selectKern ps.length x z i p c (g == maxI)
    b.ul 0 = o2 ∧ b.ul 1 = o1 ∧ (k.wide = false → b.ul 2 = maxI) ∧
      ∀ lcv < maxI, k.index b lcv = insAll ps lcv := by
  intro maxI b k
  have hlen := length_le_of_pairwise_lt ps n v.sorted v.bound
  have hne : ps ≠ [] := by
    rintro rfl
    refine v.ne ?_
    rw [show o1 = 0 from Nat.eq_of_testBit_eq fun k => by
      by_contra h
      have : o1.testBit k = true := by simpa using h
      simpa using v.s1 k this]
    rw [show o2 = 0 from Nat.eq_of_testBit_eq fun k => by
      by_contra h
      have : o2.testBit k = true := by simpa using h
      simpa using v.s2 k this]
  have hul : b.ul = writeBuf (apply2x2Args o1 o2 maxI g (ps.map (2 ^ ·))).1
    (apply2x2Args o1 o2 maxI g (ps.map (2 ^ ·))).2 old.ul := rfl
  have hw := v.word
  match hps : ps, hne with
  | [q], _ =>
    subst hps
    by_cases hg : g = maxI
    · have hk : k = ⟨.single, true, k.op⟩ := by simp [k, selectKern, hg]
      have hu : b.ul = writeBuf 3 (arr [o2, o1, 2 ^ q - 1, 1, 0]) old.ul := by
        rw [hul]; simp [apply2x2Args, hg]
      refine ⟨by rw [hu]; rfl, by rw [hu]; rfl, by rw [hk]; simp, fun lcv hl => ?_⟩
      rw [hk]
      simp only [Kern.index, if_true]
      rw [show b.ul 2 = 2 ^ q - 1 by rw [hu]; rfl]
      exact pushApart1_eq (lt_of_lt_of_le (insZero_lt hl)
        (Nat.pow_le_pow_right (by norm_num) (by simp at hlen ⊢; omega)))
    · have hk : k = ⟨.single, false, k.op⟩ := by simp [k, selectKern, hg]
      have hu : b.ul = writeBuf 4 (arr [o2, o1, maxI, 2 ^ q - 1, 0]) old.ul := by
        rw [hul]; simp [apply2x2Args, hg]
      refine ⟨by rw [hu]; rfl, by rw [hu]; rfl, fun _ => by rw [hu]; rfl, fun lcv hl => ?_⟩
      rw [hk]
      simp only [Kern.index, Bool.false_eq_true, if_false]
      rw [show b.ul 3 = 2 ^ q - 1 by rw [hu]; rfl]
      exact pushApart1_eq (lt_of_lt_of_le (insZero_lt hl)
        (Nat.pow_le_pow_right (by norm_num) (by simp at hlen ⊢; omega)))
  | [q1, q2], _ =>
    subst hps
    have hk : k = ⟨.double, k.wide, k.op⟩ := by simp [k, selectKern]
    have hu : b.ul = writeBuf 5 (arr [o2, o1, maxI, 2 ^ q1 - 1, 2 ^ q2 - 1]) old.ul := by
      rw [hul]; simp [apply2x2Args]
    refine ⟨by rw [hu]; rfl, by rw [hu]; rfl, fun _ => by rw [hu]; rfl, fun lcv hl => ?_⟩
    rw [hk]
    simp only [Kern.index]
    rw [show b.ul 3 = 2 ^ q1 - 1 by rw [hu]; rfl, show b.ul 4 = 2 ^ q2 - 1 by rw [hu]; rfl]
    have hs := v.sorted
    simp at hs hlen
    exact pushApart2_eq hs hl (by simp; omega)
  | q1 :: q2 :: q3 :: qs, _ =>
    subst hps
    have hk : k = ⟨.gen, k.wide, k.op⟩ := by simp [k, selectKern]
    have hu : b.ul = writeBuf 4 (arr [o2, o1, maxI, (q1 :: q2 :: q3 :: qs).length, 0]) old.ul := by
      rw [hul]; simp [apply2x2Args]
    refine ⟨by rw [hu]; rfl, by rw [hu]; rfl, fun _ => by rw [hu]; rfl, fun lcv hl => ?_⟩
    rw [hk]
    simp only [Kern.index]
    rw [show b.ul 3 = (q1 :: q2 :: q3 :: qs).length by rw [hu]; rfl]
    refine pushApart_eq v.sorted ?_ hl (by omega)
    intro i hi
    have hpw : b.pw = writeBuf (q1 :: q2 :: q3 :: qs).length (arr ((q1 :: q2 :: q3 :: qs).map (2 ^ ·))) old.pw := by
      simp only [b, apply2x2Bufs, List.length_map]
      rw [if_pos (by simp)]
    rw [hpw, writeBuf, if_pos hi, arr, List.getD_eq_getElem _ _ (by simpa using hi), List.getElem_map]

theorem valid_ne {n : ℕ} {ps : List ℕ} {o1 o2 : ℕ} (v : Valid n ps o1 o2) : ps.length ≠ 0 := by
  intro h
  have hne : ps = [] := List.length_eq_zero_iff.1 h
  subst hne
  refine v.ne ?_
  rw [show o1 = 0 from Nat.eq_of_testBit_eq fun k => by
    by_contra h
    have : o1.testBit k = true := by simpa using h
    simpa using v.s1 k this]
  rw [show o2 = 0 from Nat.eq_of_testBit_eq fun k => by
    by_contra h
    have : o2.testBit k = true := by simpa using h
    simpa using v.s2 k this]

theorem scale_one {e : Eng} (h : e.doNorm = false ∨ e.rn = 1) (len : ℕ) : scale e len = 1 := by
  unfold scale
  split_ifs with hn
  · rcases h with h | h
    · rw [hn.1] at h; cases h
    · rw [h]; simp
  · rfl

theorem flags_doApply (e : Eng) (len : ℕ) (dc : Bool) (sp : Special) :
    (flags e len dc sp).doApply = true ↔ NormOn e len ∧ e.rn ≠ 1 := by
  unfold flags NormOn
  cases h : e.doNorm <;> by_cases h1 : e.rn = 1 <;> simp [h1]

theorem flags_scale (e : Eng) (len : ℕ) (dc : Bool) (sp : Special) :
    (if (flags e len dc sp).doApply then ((1 / Real.sqrt e.rn : ℝ) : ℂ) else 1) = (scale e len : ℂ) := by
  by_cases h : (flags e len dc sp).doApply = true
  · rw [if_pos h, scale, if_pos ((flags_doApply e len dc sp).1 h).1]
  · rw [if_neg h]
    rw [flags_doApply] at h
    unfold scale
    split_ifs with hn
    · have : e.rn = 1 := by
        by_contra hc
        exact h ⟨hn, hc⟩
      rw [this]; simp
    · simp

/-- The flags and the kernel that they choose: the operation is the matrix times the scale. -/
theorem flags_op {n : ℕ} {ps : List ℕ} {o1 o2 : ℕ} (v : Valid n ps o1 o2) (old : Bufs) (e : Eng) (m : M2) (g maxI : ℕ)
    (thr : ℝ) (dc : Bool) (sp : Special) (hdc : dc = true → ps.length = 1 ∧ sp = .none) (hsp : SpOk m o1 ps.length sp) :
    let fl := flags e ps.length dc sp
    let b := apply2x2Bufs old e o1 o2 m (ps.map (2 ^ ·)) maxI g fl thr
    let k := selectKern ps.length fl.isX fl.isZ fl.isInvert fl.isPhase fl.cn (g == maxI)
    opOk b m (scale e ps.length) o1 k.op ∧ k.arity = hostArity ps.length fl.isX fl.isZ fl.cn ∧
      (k.op = .norm ↔ fl.cn = true) ∧ (fl.cn = true ↔ dc = true ∧ (NormOn e ps.length ∨ e.rn ≤ 0)) ∧
      (if fl.doApply then (1 : ℝ) else e.rn) = if NormOn e ps.length then 1 else e.rn := by
  intro fl b k
  have hl := valid_ne v
  have hcx : fl.isX = false → fl.isZ = false →
      b.cx 0 = m.a ∧ b.cx 1 = m.b ∧ b.cx 2 = m.c ∧ b.cx 3 = m.d ∧ b.cx 4 = (scale e ps.length : ℂ) := by
    intro h1 h2
    rw [← flags_scale e ps.length dc sp]
    simp [b, apply2x2Bufs, h1, h2, writeBuf, cmplxArgs, fl]
  have hrn : (if fl.doApply then (1 : ℝ) else e.rn) = if NormOn e ps.length then 1 else e.rn := by
    have h := flags_doApply e ps.length dc sp
    by_cases hn : NormOn e ps.length
    · by_cases h1 : e.rn = 1
      · simp [h1]
      · rw [if_pos (h.2 ⟨hn, h1⟩), if_pos hn]
    · rw [if_neg (fun hc => hn (h.1 hc).1), if_neg hn]
  have hcn : fl.cn = true ↔ dc = true ∧ (NormOn e ps.length ∨ e.rn ≤ 0) := by
    cases hd : dc
    · simp [fl, flags, hd]
    · have hs := (hdc hd).2
      simp [fl, flags, hd, hs, NormOn, and_assoc]
  have hcn' : fl.cn = true → ps.length = 1 ∧ sp = .none := fun h => hdc (hcn.1 h).1
  refine ⟨?_, ?_, ?_, hcn, hrn⟩
  all_goals
    have hk : k.op = if ps.length = 1 then
      (if fl.isX then .x else if fl.isZ then .z else if fl.isInvert then .invert else if fl.isPhase then .phase
        else if fl.cn then .norm else .apply) else .apply := rfl
    have hksp : k.spread = if ps.length = 1 then .single else if ps.length = 2 then .double else .gen := rfl
  all_goals
    by_cases hsk : e.doNorm = false ∨ e.rn = 1
  all_goals
    have hskb : (!e.doNorm || decide (e.rn = 1)) = decide (e.doNorm = false ∨ e.rn = 1) := by
      cases e.doNorm <;> simp
  · have hsc := scale_one hsk ps.length
    cases sp
    · have hx : fl.isX = false := by simp [fl, flags]
      have hz : fl.isZ = false := by simp [fl, flags]
      have hi : fl.isInvert = false := by simp [fl, flags]
      have hp : fl.isPhase = false := by simp [fl, flags]
      have := hcx hx hz
      rw [hk, hx, hz, hi, hp]
      by_cases h1 : ps.length = 1 <;> cases fl.cn <;> simpa [h1, opOk] using this
    · obtain ⟨h1, h2, h3⟩ := hsp
      have hx : fl.isX = true := by simp [fl, flags, hskb, hsk]
      rw [hk, hx, if_pos h3]
      exact ⟨h1, hsc, h2⟩
    · obtain ⟨h1, h2, h3⟩ := hsp
      have hx : fl.isX = false := by simp [fl, flags]
      have hz : fl.isZ = true := by simp [fl, flags, hskb, hsk]
      rw [hk, hx, hz, if_pos h3]
      exact ⟨h1, hsc, h2⟩
    · obtain ⟨h1, h2, h3, h4⟩ := hsp
      have hx : fl.isX = false := by simp [fl, flags]
      have hz : fl.isZ = false := by simp [fl, flags]
      have hi : fl.isInvert = true := by simp [fl, flags, hskb, hsk]
      have := hcx hx hz
      rw [hk, hx, hz, hi, if_pos h4]
      exact ⟨this.2.1, this.2.2.1, h1, h2, hsc, h3⟩
    · obtain ⟨h1, h2, h3, h4⟩ := hsp
      have hx : fl.isX = false := by simp [fl, flags]
      have hz : fl.isZ = false := by simp [fl, flags]
      have hi : fl.isInvert = false := by simp [fl, flags]
      have hp : fl.isPhase = true := by simp [fl, flags, hskb, hsk]
      have := hcx hx hz
      rw [hk, hx, hz, hi, hp, if_pos h4]
      exact ⟨this.1, this.2.2.2.1, h1, h2, hsc, h3⟩
  · have hx : fl.isX = false := by simp [fl, flags, hskb, hsk]
    have hz : fl.isZ = false := by simp [fl, flags, hskb, hsk]
    have hi : fl.isInvert = false := by simp [fl, flags, hskb, hsk]
    have hp : fl.isPhase = false := by simp [fl, flags, hskb, hsk]
    have := hcx hx hz
    rw [hk, hx, hz, hi, hp]
    by_cases h1 : ps.length = 1 <;> cases fl.cn <;> simpa [h1, opOk] using this
  · have hcf : sp ≠ .none ∨ ps.length ≠ 1 → fl.cn = false := by
      intro h
      by_contra hc
      have := hcn' (by simpa using hc)
      tauto
    unfold Kern.arity hostArity
    rw [hk, hksp]
    cases sp
    · have hx : fl.isX = false := by simp [fl, flags]
      have hz : fl.isZ = false := by simp [fl, flags]
      have hi : fl.isInvert = false := by simp [fl, flags]
      have hp : fl.isPhase = false := by simp [fl, flags]
      rw [hx, hz, hi, hp]
      by_cases h1 : ps.length = 1
      · cases fl.cn <;> simp [h1]
      · rw [hcf (Or.inr h1)]
        by_cases h2 : ps.length = 2
        · simp [h2]
        · have : ps.length > 2 := by omega
          simp [h1, h2, this]
    · have hx : fl.isX = true := by simp [fl, flags, hskb, hsk]
      rw [hx]; simp [hsp.2.2]
    · have hx : fl.isX = false := by simp [fl, flags]
      have hz : fl.isZ = true := by simp [fl, flags, hskb, hsk]
      rw [hx, hz]; simp [hsp.2.2]
    · have hx : fl.isX = false := by simp [fl, flags]
      have hz : fl.isZ = false := by simp [fl, flags]
      have hi : fl.isInvert = true := by simp [fl, flags, hskb, hsk]
      rw [hx, hz, hi, hcf (Or.inl (by decide))]; simp [hsp.2.2.2]
    · have hx : fl.isX = false := by simp [fl, flags]
      have hz : fl.isZ = false := by simp [fl, flags]
      have hi : fl.isInvert = false := by simp [fl, flags]
      have hp : fl.isPhase = true := by simp [fl, flags, hskb, hsk]
      rw [hx, hz, hi, hp, hcf (Or.inl (by decide))]; simp [hsp.2.2.2]
  · have hcf : ps.length ≠ 1 → fl.cn = false := by
      intro h
      by_contra hc
      exact h (hcn' (by simpa using hc)).1
    have hx : fl.isX = false := by simp [fl, flags, hskb, hsk]
    have hz : fl.isZ = false := by simp [fl, flags, hskb, hsk]
    have hi : fl.isInvert = false := by simp [fl, flags, hskb, hsk]
    have hp : fl.isPhase = false := by simp [fl, flags, hskb, hsk]
    unfold Kern.arity hostArity
    rw [hk, hksp, hx, hz, hi, hp]
    by_cases h1 : ps.length = 1
    · cases fl.cn <;> simp [h1]
    · rw [hcf h1]
      by_cases h2 : ps.length = 2
      · simp [h2]
      · have : ps.length > 2 := by omega
        simp [h1, h2, this]
  · rw [hk]
    constructor
    · intro h
      by_contra hc
      have hc : fl.cn = false := by simpa using hc
      rw [hc] at h
      revert h
      cases fl.isX <;> cases fl.isZ <;> cases fl.isInvert <;> cases fl.isPhase <;>
        by_cases h1 : ps.length = 1 <;> simp [h1]
    · intro h
      obtain ⟨h1, h2⟩ := hcn' h
      have hx : fl.isX = false := by simp [fl, flags, h2]
      have hz : fl.isZ = false := by simp [fl, flags, h2]
      have hi : fl.isInvert = false := by simp [fl, flags, h2]
      have hp : fl.isPhase = false := by simp [fl, flags, h2]
      simp [h1, h, hx, hz, hi, hp]
  · rw [hk]
    constructor
    · intro h
      by_contra hc
      have hc : fl.cn = false := by simpa using hc
      rw [hc] at h
      revert h
      cases fl.isX <;> cases fl.isZ <;> cases fl.isInvert <;> cases fl.isPhase <;>
        by_cases h1 : ps.length = 1 <;> simp [h1]
    · intro h
      obtain ⟨h1, h2⟩ := hcn' h
      have hx : fl.isX = false := by simp [fl, flags, h2]
      have hz : fl.isZ = false := by simp [fl, flags, h2]
      have hi : fl.isInvert = false := by simp [fl, flags, h2]
      have hp : fl.isPhase = false := by simp [fl, flags, h2]
      simp [h1, h, hx, hz, hi, hp]

/-- `Apply2x2` with valid arguments: whatever the buffers held, however the work-items interleave, and for
every threshold. -/
theorem apply2x2_ocl {d : Dev} (hd : d.Ok) {σ : List (ℕ × ℕ) → List (ℕ × ℕ)} (hσ : IsSched2 σ) {τ : List ℕ → List ℕ}
    (hτ : IsSched τ) (old : Bufs) {e : Eng} {ps : List ℕ} {o1 o2 : ℕ} (v : Valid e.n ps o1 o2) (m : M2) (dc : Bool)
    (sp : Special) (thr : ℝ) (hdc : dc = true → ps.length = 1 ∧ sp = .none ∧ o1 = 0)
    (hsp : SpOk m o1 ps.length sp) :
    ∃ e', apply2x2 d σ τ old e o1 o2 m (ps.map (2 ^ ·)) dc sp thr = some e' ∧
      e'.n = e.n ∧ e'.doNorm = e.doNorm ∧ e'.floor = e.floor ∧ e'.rgp = e.rgp ∧
      (∀ i < 2 ^ e.n, e'.amp i = pairSpec e.n ps o1 o2 (mul2 m (scale e ps.length)) e.amp i) ∧
      e'.rn = if dc = true ∧ (NormOn e ps.length ∨ e.rn ≤ 0) then totalProb e.n e'.amp
        else if NormOn e ps.length then 1 else e.rn := by
  have hlen := length_le_of_pairwise_lt ps e.n v.sorted v.bound
  have c1 : ¬ (2 ^ e.n ≤ o1 ∨ 2 ^ e.n ≤ o2) := by
    have := v.s1.lt v.bound
    have := v.s2.lt v.bound
    omega
  have c2 : ¬ ((∃ p ∈ ps.map (2 ^ ·), 2 ^ e.n ≤ p) ∨ adjDup (ps.map (2 ^ ·)) = true) := by
    rintro (⟨p, hp, h⟩ | h)
    · obtain ⟨q, hq, rfl⟩ := List.mem_map.1 hp
      have := v.bound q hq
      exact absurd h (not_le.2 (Nat.pow_lt_pow_right (by norm_num) this))
    · rw [adjDup_of_sorted] at h
      · cases h
      · exact v.sorted.map _ (fun a b hab => Nat.pow_lt_pow_right (by norm_num) hab)
  have hmax : 2 ^ e.n / 2 ^ ps.length = 2 ^ (e.n - ps.length) := Nat.pow_div hlen (by norm_num)
  unfold apply2x2
  rw [if_neg c1, if_neg c2]
  simp only [List.length_map, hmax]
  set a := e.n - ps.length with ha
  obtain ⟨hop, har, hnorm, hcn, hrn⟩ := flags_op v old e m (ngc d (2 ^ a)) (2 ^ a) thr dc sp
    (fun h => ⟨(hdc h).1, (hdc h).2.1⟩) hsp
  obtain ⟨h0, h1, h2, hi⟩ := args_index v old e m (ngc d (2 ^ a)) (flags e ps.length dc sp) thr
    (flags e ps.length dc sp).isX (flags e ps.length dc sp).isZ (flags e ps.length dc sp).isInvert
    (flags e ps.length dc sp).isPhase (flags e ps.length dc sp).cn
  rw [← ha] at h0 h1 h2 hi
  set fl := flags e ps.length dc sp
  set b := apply2x2Bufs old e o1 o2 m (ps.map (2 ^ ·)) (2 ^ a) (ngc d (2 ^ a)) fl thr
  set k := selectKern ps.length fl.isX fl.isZ fl.isInvert fl.isPhase fl.cn (ngc d (2 ^ a) == 2 ^ a)
  rw [if_neg (by rintro (h | h); exacts [h har, h (sizes_ok hd a)])]
  have hw : k.wide = true → ngc d (2 ^ a) = 2 ^ a := by
    intro h
    simpa [k, selectKern] using h
  obtain ⟨hnd, hm, hL⟩ := plan_bases v (ngc_pos hd a) h2 hw hi hσ
  obtain ⟨f1, f2⟩ := fold_steps h0 h1 hop v (ngc d (2 ^ a)) _ hL e.amp (fun _ => 0)
  obtain ⟨g1, g2⟩ := pair_fold v (mul2 m (scale e ps.length)) (opSum k.op) hnd hm e.amp
    (∑ i ∈ Finset.range (ngc d (2 ^ a)), (fun _ => (0 : ℝ)) i)
  rw [g1] at f1
  rw [g2] at f2
  by_cases hc : fl.cn = true
  · rw [if_neg (by simp [hc])]
    obtain ⟨l1, -, hz⟩ := hdc (hcn.1 hc).1
    obtain ⟨t, rfl⟩ := List.length_eq_one_iff.1 l1
    subst hz
    have ho2 : o2 = 2 ^ t := by
      apply Nat.eq_of_testBit_eq
      intro j
      rw [Nat.testBit_two_pow]
      by_cases hj : t = j
      · subst hj
        simp only [decide_true]
        by_contra hcon
        refine v.ne (Nat.eq_of_testBit_eq fun i => ?_).symm
        by_contra hx
        have hx' : o2.testBit i = true := by simpa using hx
        have := v.s2 i hx'
        simp at this
        subst this
        exact hcon hx'
      · simp only [hj, decide_false]
        by_contra hx
        have := v.s2 j (by simpa using hx)
        simp at this
        exact hj this.symm
    have hop' : k.op = .norm := hnorm.2 hc
    have htot : sumAll τ (ngc d (2 ^ a)) (ngs d (2 ^ a))
        (List.foldl (k.step b) (e.amp, fun _ => 0) (σ (k.plan b (ngc d (2 ^ a))))).2 =
        totalProb e.n (pairSpec e.n [t] 0 o2 (mul2 m (scale e [t].length)) e.amp) := by
      rw [sumAll_eq hτ hd a, f2]
      have := sum_parts (v.bound t (by simp)) hnd hm (fun i => Complex.normSq
        (pairSpec e.n [t] 0 o2 (mul2 m (scale e [t].length)) e.amp i))
      simp only [opSum, hop', if_true, Nat.add_zero, ho2] at this ⊢
      rw [this]
      simp [totalProb]
    rw [htot, f1]
    have hcond := hcn.1 hc
    by_cases hpos : totalProb e.n (pairSpec e.n [t] 0 o2 (mul2 m (scale e [t].length)) e.amp) ≤ 0
    · rw [if_pos hpos]
      have hz : ∀ i < 2 ^ e.n, pairSpec e.n [t] 0 o2 (mul2 m (scale e [t].length)) e.amp i = 0 := by
        intro i hi
        have h0 : totalProb e.n (pairSpec e.n [t] 0 o2 (mul2 m (scale e [t].length)) e.amp) = 0 :=
          le_antisymm hpos (Finset.sum_nonneg fun _ _ => Complex.normSq_nonneg _)
        have := (Finset.sum_eq_zero_iff_of_nonneg (fun _ _ => Complex.normSq_nonneg _)).1 h0 i (Finset.mem_range.2 hi)
        exact Complex.normSq_eq_zero.1 this
      refine ⟨_, rfl, rfl, rfl, rfl, rfl, fun i hi => (hz i hi).symm, ?_⟩
      rw [if_pos hcond]
      simp [totalProb]
    · rw [if_neg hpos]
      refine ⟨_, rfl, rfl, rfl, rfl, rfl, fun i hi => rfl, ?_⟩
      rw [if_pos hcond]
  · rw [if_pos (by simpa using hc), f1]
    refine ⟨_, rfl, rfl, rfl, rfl, rfl, fun i hi => rfl, ?_⟩
    rw [if_neg (fun h => hc (hcn.2 h))]
    exact hrn

theorem valid_single {n q : ℕ} (hn : n ≤ 64) (hq : q < n) : Valid n [q] 0 (2 ^ q) := by
  refine ⟨by simp, by simpa using hq, hn, ?_, ?_, ?_⟩
  · intro k hk; simp at hk
  · intro k hk
    rw [Nat.testBit_two_pow] at hk; simpa [eq_comm] using hk
  · have : 0 < 2 ^ q := by positivity
    omega

theorem pairSpec_scale {n t o1 o2 : ℕ} (hc : ∀ i, Pat [t] o1 i ∨ Pat [t] o2 i) (m : M2) (r : ℂ) (s : ℕ → ℂ) {i : ℕ}
    (hi : i < 2 ^ n) : pairSpec n [t] o1 o2 (mul2 m r) s i = r * pairSpec n [t] o1 o2 (mul2 m 1) s i := by
  unfold pairSpec
  simp only [mul2_fst, mul2_snd, one_mul, hi, true_and]
  by_cases h1 : Pat [t] o1 i
  · simp [h1]
  · have h2 := (hc i).resolve_left h1
    simp [h1, h2]

/-- `Apply2x2` on one qubit. -/
theorem apply_single {d : Dev} (hd : d.Ok) {σ : List (ℕ × ℕ) → List (ℕ × ℕ)} (hσ : IsSched2 σ) {τ : List ℕ → List ℕ}
    (hτ : IsSched τ) (old : Bufs) {e : Eng} (hn : e.n ≤ 64) {q : ℕ} (hq : q < e.n) (m : M2) (dc : Bool)
    (sp : Special) (thr : ℝ) (hdc : dc = true → sp = .none) (hsp : SpOk m 0 1 sp) :
    ∃ e', apply2x2 d σ τ old e 0 (pow2 q) m [pow2 q] dc sp thr = some e' ∧
      e'.n = e.n ∧ e'.doNorm = e.doNorm ∧ e'.floor = e.floor ∧ e'.rgp = e.rgp ∧
      (∀ i < 2 ^ e.n, e'.amp i = scale e 1 * gate (fun _ => True) q m.a m.b m.c m.d e.amp i) ∧
      e'.rn = if dc = true ∧ (NormOn e 1 ∨ e.rn ≤ 0) then totalProb e.n e'.amp
        else if NormOn e 1 then 1 else e.rn := by
  obtain ⟨e', h1, h2, h3, h4, h5, h6, h7⟩ := apply2x2_ocl hd hσ hτ old (valid_single hn hq) m dc sp thr
    (fun h => ⟨rfl, hdc h, rfl⟩) hsp
  refine ⟨e', h1, h2, h3, h4, h5, fun i hi => ?_, h7⟩
  rw [h6 i hi, pairSpec_scale _ _ _ _ hi]
  · congr 1
    have := pairSpec_gate (n := e.n) (t := q) (o := 0) (cs := []) (ps := [q]) (by simp) (by simp)
      (by intro k hk; simp at hk) (fun _ => True) (by simp [Pat]) m e.amp hi
    simpa using this
  · intro i
    simp only [Pat, List.mem_singleton, forall_eq, Nat.zero_testBit, Nat.testBit_two_pow, decide_true]
    cases i.testBit q <;> simp

theorem not_normOn {e : Eng} {len : ℕ} (h : len ≠ 1) : ¬ NormOn e len := fun hn => h hn.2.1

theorem apply_pairs {d : Dev} (hd : d.Ok) {σ : List (ℕ × ℕ) → List (ℕ × ℕ)} (hσ : IsSched2 σ) {τ : List ℕ → List ℕ}
    (hτ : IsSched τ) (old : Bufs) {e : Eng} {l : List ℕ} (hl : l.length ≠ 1) {o1 o2 : ℕ}
    (v : Valid e.n (l.mergeSort (· ≤ ·)) o1 o2) (m : M2) :
    ∃ e', apply d σ τ old e o1 o2 m (sortPows (l.map pow2)) false = some e' ∧
      e'.n = e.n ∧ e'.rn = e.rn ∧ e'.doNorm = e.doNorm ∧ e'.floor = e.floor ∧ e'.rgp = e.rgp ∧
      (∀ i < 2 ^ e.n, e'.amp i = pairSpec e.n (l.mergeSort (· ≤ ·)) o1 o2 (mul2 m 1) e.amp i) := by
  have hlen : (l.mergeSort (· ≤ ·)).length ≠ 1 := by rwa [List.length_mergeSort]
  obtain ⟨e', h1, h2, h3, h4, h5, h6, h7⟩ := apply2x2_ocl hd hσ hτ old v m false .none (-999) (by simp) trivial
  rw [sortPows_map]
  refine ⟨e', h1, h2, ?_, h3, h4, h5, fun i hi => ?_⟩
  · simpa [not_normOn hl] using h7
  · rw [h6 i hi, scale, if_neg (not_normOn hlen), Complex.ofReal_one]

theorem apply_ctrl {d : Dev} (hd : d.Ok) {σ : List (ℕ × ℕ) → List (ℕ × ℕ)} (hσ : IsSched2 σ) {τ : List ℕ → List ℕ}
    (hτ : IsSched τ) (old : Bufs) {e : Eng} {t o : ℕ} {cs : List ℕ}
    (hn : e.n ≤ 64) (hne : cs ≠ []) (hnd : (cs ++ [t]).Nodup) (hb : ∀ k ∈ cs ++ [t], k < e.n)
    (ho : Sub cs o) (p : ℕ → Prop) [DecidablePred p] (hp : ∀ i, p i ↔ Pat cs o i) (m : M2) :
    ∃ e', apply d σ τ old e o (o ||| pow2 t) m (sortPows (cs.map pow2 ++ [pow2 t])) false = some e' ∧
      e'.n = e.n ∧ e'.rn = e.rn ∧ e'.doNorm = e.doNorm ∧ e'.floor = e.floor ∧ e'.rgp = e.rgp ∧
      (∀ i < 2 ^ e.n, e'.amp i = gate p t m.a m.b m.c m.d e.amp i) := by
  have htc : t ∉ cs := fun h => (List.nodup_append.1 hnd).2.2 t h t (by simp) rfl
  have hl : (cs ++ [t]).length ≠ 1 := by
    have := List.length_pos_iff.2 hne
    simp; exact hne
  obtain ⟨e', h1, h2, h3, h4, h5, h6, h7⟩ := apply_pairs hd hσ hτ old hl (valid_ctrl hn hnd hb ho) m
  rw [List.map_append] at h1
  refine ⟨e', h1, h2, h3, h4, h5, h6, fun i hi => ?_⟩
  rw [h7 i hi]
  exact pairSpec_gate (fun k => by rw [mem_sort]; simp) htc ho p hp m e.amp hi

theorem apply_exchange {d : Dev} (hd : d.Ok) {σ : List (ℕ × ℕ) → List (ℕ × ℕ)} (hσ : IsSched2 σ) {τ : List ℕ → List ℕ}
    (hτ : IsSched τ) (old : Bufs) {e : Eng} {a b o : ℕ} {cs : List ℕ} (hn : e.n ≤ 64) (hnd : (cs ++ [a, b]).Nodup)
    (hb : ∀ k ∈ cs ++ [a, b], k < e.n) (ho : Sub cs o) (p : ℕ → Prop) [DecidablePred p]
    (hp : ∀ i, p i ↔ Pat cs o i) {m : M2} (h1 : m.d = m.a) (h2 : m.c = m.b) :
    ∃ e', apply d σ τ old e (o ||| pow2 a) (o ||| pow2 b) m (sortPows (cs.map pow2 ++ [pow2 a, pow2 b])) false = some e' ∧
      e'.n = e.n ∧ e'.rn = e.rn ∧ e'.doNorm = e.doNorm ∧ e'.floor = e.floor ∧ e'.rgp = e.rgp ∧
      (∀ i < 2 ^ e.n, e'.amp i = exchange p a b m.a m.b e.amp i) := by
  have hac : a ∉ cs := fun h => (List.nodup_append.1 hnd).2.2 a h a (by simp) rfl
  have hbc : b ∉ cs := fun h => (List.nodup_append.1 hnd).2.2 b h b (by simp) rfl
  have hab : a ≠ b := by
    have := (List.nodup_append.1 hnd).2.1
    simpa using this
  have hl : (cs ++ [a, b]).length ≠ 1 := by simp
  obtain ⟨e', k1, k2, k3, k4, k5, k6, k7⟩ := apply_pairs hd hσ hτ old hl (valid_swap hn hnd hb ho) m
  rw [List.map_append] at k1
  refine ⟨e', k1, k2, k3, k4, k5, k6, fun i hi => ?_⟩
  rw [k7 i hi]
  exact pairSpec_exchange (fun k => by rw [mem_sort]; simp) hab hac hbc ho p hp h1 h2 e.amp hi

theorem apply_dup {d : Dev} {σ : List (ℕ × ℕ) → List (ℕ × ℕ)} {τ : List ℕ → List ℕ} {old : Bufs} {e : Eng} {o1 o2 : ℕ}
    (m : M2) {l : List ℕ} (h : ¬ l.Nodup) (dc : Bool) : apply d σ τ old e o1 o2 m (sortPows (l.map pow2)) dc = none := by
  unfold apply apply2x2
  by_cases h1 : 2 ^ e.n ≤ o1 ∨ 2 ^ e.n ≤ o2
  · rw [if_pos h1]
  · rw [if_neg h1, if_pos (Or.inr (adjDup_of_dup l h))]

theorem apply_bound {d : Dev} {σ : List (ℕ × ℕ) → List (ℕ × ℕ)} {τ : List ℕ → List ℕ} {old : Bufs} {e : Eng} {o1 o2 : ℕ}
    (m : M2) {l : List ℕ} {q : ℕ} (hq : q ∈ l) (h : e.n ≤ q) (dc : Bool) :
    apply d σ τ old e o1 o2 m (sortPows (l.map pow2)) dc = none := by
  unfold apply apply2x2
  by_cases h1 : 2 ^ e.n ≤ o1 ∨ 2 ^ e.n ≤ o2
  · rw [if_pos h1]
  · rw [if_neg h1, if_pos]
    left
    refine ⟨2 ^ q, ?_, Nat.pow_le_pow_right (by norm_num) h⟩
    rw [sortPows_map]
    exact List.mem_map.2 ⟨q, mem_sort.2 hq, rfl⟩

end Verif.Ocl
