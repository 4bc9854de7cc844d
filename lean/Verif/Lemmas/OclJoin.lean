import Verif.Lemmas.OclMeas
import Verif.Props.Ocl
import Verif.Props.EngineCompose

/-!
# Lemmas for joining and splitting OpenCL registers
-/

namespace Verif.Ocl

open Verif.ParFor Verif.Bits Verif.PairFold Verif.Spec Verif.Engine Classical

/-- Every cell of a new buffer is written once. -/
theorem fill_plan {N : ℕ} {l : List (ℕ × ℕ)} (hl : (l.map Prod.snd).Perm (List.range N)) (f fresh : ℕ → ℂ) (i : ℕ) :
    l.foldl (fun s p => Function.update s p.2 (f p.2)) fresh i = if i < N then f i else fresh i := by
  have h := foldl_update (fun x (_ : ℂ) => f x) (l.map Prod.snd) (hl.nodup_iff.2 List.nodup_range) fresh i
  rw [List.foldl_map] at h
  refine h.trans ?_
  have : (i ∈ l.map Prod.snd) ↔ i < N := by rw [hl.mem_iff, List.mem_range]
  by_cases hi : i < N
  · rw [if_pos hi, if_pos (this.2 hi)]
  · rw [if_neg hi, if_neg fun h' => hi (this.1 h')]

/-! ### Runs of the kernel `decomposeprob` -/

theorem decomposeRun_perm {N A B : ℕ} {tr : List (ℕ × ℕ × ℕ)} (h : IsDecomposeRun N A B tr) :
    (tr.map Prod.snd).Perm ((List.range N).flatMap fun id => decomposeProg N A B id) := by
  have key : tr.Perm ((List.range N).flatMap fun id => tr.filter fun p => p.1 == id) := by
    rw [List.perm_iff_count]
    intro q
    rw [List.count_flatMap]
    by_cases hq : q ∈ tr
    · have hlt := h.1 q hq
      have : (List.range N).map (List.count q ∘ fun id => tr.filter fun p => p.1 == id) =
          (List.range N).map fun id => if id = q.1 then tr.count q else 0 := by
        apply List.map_congr_left
        intro id _
        simp only [Function.comp_apply]
        by_cases hid : id = q.1
        · rw [if_pos hid, List.count_filter (by simp [hid])]
        · rw [if_neg hid, List.count_eq_zero]
          intro hm
          have := (List.mem_filter.1 hm).2
          exact hid (by simpa using (by simpa using this : q.1 = id).symm)
      rw [this, sum_range_list, Finset.sum_ite_eq' (Finset.range N) q.1, if_pos (Finset.mem_range.2 hlt)]
    · rw [List.count_eq_zero.2 hq]
      symm
      rw [List.sum_eq_zero]
      intro x hx
      obtain ⟨id, _, rfl⟩ := List.mem_map.1 hx
      exact List.count_eq_zero.2 fun hm => hq (List.mem_filter.1 hm).1
  refine (key.map _).trans ?_
  rw [List.map_flatMap]
  rw [List.flatMap_def, List.flatMap_def]
  rw [show (List.range N).map (fun id => (tr.filter fun p => p.1 == id).map Prod.snd) =
    (List.range N).map fun id => decomposeProg N A B id from
    List.map_congr_left fun id hid => h.2 id (List.mem_range.1 hid)]

/-- The indices of one of the three loops, in the order of the run. -/
def loopIdx (tr : List (ℕ × ℕ × ℕ)) (ph : ℕ) : List ℕ := ((tr.map Prod.snd).filter fun p => p.1 == ph).map Prod.snd

theorem loopIdx_perm {N A B : ℕ} (hN : 0 < N) {tr : List (ℕ × ℕ × ℕ)} (h : IsDecomposeRun N A B tr) (ph : ℕ) (hp : ph < 3) :
    (loopIdx tr ph).Perm (List.range (if ph = 1 then A else B)) := by
  unfold loopIdx
  refine (((decomposeRun_perm h).filter _).map _).trans ?_
  rw [List.filter_flatMap, List.map_flatMap]
  have : ∀ M : ℕ, ((List.range N).flatMap fun id => stride N M id).Perm (List.range M) := by
    intro M
    have h' := loopPlan_perm (M := M) hN
    unfold loopPlan at h'
    rw [List.map_flatMap] at h'
    simpa [List.map_map, Function.comp_def] using h'
  refine List.Perm.trans ?_ (this _)
  apply List.Perm.of_eq
  congr 1
  funext id
  unfold decomposeProg
  rw [List.filter_append, List.filter_append, List.filter_map, List.filter_map, List.filter_map]
  have h3 : ph = 0 ∨ ph = 1 ∨ ph = 2 := by omega
  rcases h3 with rfl | rfl | rfl <;> simp [Function.comp_def]

/-- The work-items run the loops in step: nobody starts a loop before everybody has finished the one before. -/
def Lockstep (tr : List (ℕ × ℕ × ℕ)) : Prop := tr.Pairwise fun p q => p.2.1 ≤ q.2.1

theorem lockstep_split {l : List (ℕ × ℕ)} (hs : l.Pairwise fun p q => p.1 ≤ q.1) (h3 : ∀ p ∈ l, p.1 < 3) :
    l = ((l.filter fun p => p.1 == 0).map Prod.snd).map (fun x => (0, x)) ++
      (((l.filter fun p => p.1 == 1).map Prod.snd).map (fun x => (1, x)) ++
        ((l.filter fun p => p.1 == 2).map Prod.snd).map (fun x => (2, x))) := by
  induction l with
  | nil => rfl
  | cons p l ih =>
    rw [List.pairwise_cons] at hs
    have ih := ih hs.2 fun q hq => h3 q (by simp [hq])
    have hp := h3 p (by simp)
    have hempty : ∀ k, k < p.1 → (l.filter fun q => q.1 == k) = [] := by
      intro k hk
      rw [List.filter_eq_nil_iff]
      intro q hq
      have := hs.1 q hq
      simp only [beq_iff_eq]
      omega
    obtain ⟨a, x⟩ := p
    have h' : a = 0 ∨ a = 1 ∨ a = 2 := by simp only at hp; omega
    rcases h' with rfl | rfl | rfl
    · simpa [List.filter_cons] using ih
    · rw [hempty 0 (by simp)] at ih
      simpa [List.filter_cons, hempty 0 (by simp)] using ih
    · rw [hempty 0 (by simp), hempty 1 (by simp)] at ih
      simpa [List.filter_cons, hempty 0 (by simp), hempty 1 (by simp)] using ih

theorem foldl_pair (f : ℕ → ℝ) (g : ℕ → ℂ) (l : List ℕ) : ∀ (c : ℝ) (a : ℕ → ℝ), l.Nodup →
    (l.foldl (fun (acc : ℝ × (ℕ → ℝ)) k => (acc.1 + f k, addAngle acc.2 k (g k))) (c, a)).1 = c + (l.map f).sum ∧
    ∀ k, (l.foldl (fun (acc : ℝ × (ℕ → ℝ)) k => (acc.1 + f k, addAngle acc.2 k (g k))) (c, a)).2 k =
      if k ∈ l then a k + argTerm 0 (g k) else a k := by
  induction l with
  | nil => intro c a _; simp
  | cons x l ih =>
    intro c a hnd
    rw [List.nodup_cons] at hnd
    rw [List.foldl_cons]
    obtain ⟨h1, h2⟩ := ih (c + f x) (addAngle a x (g x)) hnd.2
    have ha : ∀ k, addAngle a x (g x) k = if k = x then a k + argTerm 0 (g x) else a k := by
      intro k
      unfold addAngle argTerm
      by_cases hp : 0 < Complex.normSq (g x)
      · rw [if_pos hp, if_pos hp]
        by_cases hk : k = x
        · subst hk; simp
        · simp [hk]
      · rw [if_neg hp, if_neg hp]; simp
    refine ⟨by rw [h1, List.map_cons, List.sum_cons]; ring, fun k => ?_⟩
    rw [h2, ha]
    by_cases hk : k = x
    · subst hk; simp [hnd.1]
    · simp [hk]

section Phases

variable (A B start len : ℕ) (s : ℕ → ℂ)

/-- The cell of index `k` of the part and `i` of the remainder, as the kernel reads it. -/
def cellOf (k i : ℕ) : ℂ := s (regIdx start len i ||| (k <<< start))

theorem phase0 (l : List ℕ) : l.Nodup → ∀ st : Angles,
    let st' := l.foldl (fun st x => decomposeStep A B start len s st 0 x) st
    (∀ i, st'.remProb i = if i ∈ l then ∑ k ∈ Finset.range A, Complex.normSq (cellOf start len s k i) else st.remProb i) ∧
    (∀ k, st'.partAngle k = if k < A then st.partAngle k + (l.map fun i => argTerm 0 (cellOf start len s k i)).sum
      else st.partAngle k) ∧ st'.remAngle = st.remAngle ∧ st'.partProb = st.partProb := by
  induction l with
  | nil => intro _ st; simp
  | cons x l ih =>
    intro hnd st
    rw [List.nodup_cons] at hnd
    simp only [List.foldl_cons]
    obtain ⟨h1, h2⟩ := foldl_pair (fun k => Complex.normSq (cellOf start len s k x)) (fun k => cellOf start len s k x)
      (List.range A) 0 st.partAngle List.nodup_range
    obtain ⟨k1, k2, k3, k4⟩ := ih hnd.2 (decomposeStep A B start len s st 0 x)
    have e1 : (decomposeStep A B start len s st 0 x).remProb =
        Function.update st.remProb x (∑ k ∈ Finset.range A, Complex.normSq (cellOf start len s k x)) := by
      unfold decomposeStep
      rw [if_pos rfl]
      show Function.update st.remProb x _ = _
      congr 1
      refine h1.trans ?_
      rw [zero_add, sum_range_list]
    have e2 : ∀ k, (decomposeStep A B start len s st 0 x).partAngle k =
        if k < A then st.partAngle k + argTerm 0 (cellOf start len s k x) else st.partAngle k := by
      intro k
      unfold decomposeStep
      rw [if_pos rfl]
      refine (h2 k).trans ?_
      simp only [List.mem_range]
    refine ⟨fun i => ?_, fun k => ?_, by rw [k3]; rfl, by rw [k4]; rfl⟩
    · rw [k1, e1]
      by_cases hi : i = x
      · subst hi; simp [hnd.1]
      · simp [hi]
    · rw [k2, e2]
      by_cases hk : k < A
      · simp only [hk, if_true, List.map_cons, List.sum_cons]; ring
      · simp only [hk, if_false]

theorem phase1 (l : List ℕ) : l.Nodup → ∀ st : Angles,
    let st' := l.foldl (fun st x => decomposeStep A B start len s st 1 x) st
    let p := fun k => ∑ i ∈ Finset.range B, Complex.normSq (cellOf start len s k i)
    (∀ k, st'.partProb k = if k ∈ l then p k else st.partProb k) ∧
    (∀ k, st'.partAngle k = if k ∈ l then meanAngle 0 (p k) (st.partAngle k) else st.partAngle k) ∧
    (∀ i, st'.remAngle i = if i < B then st.remAngle i + (l.map fun k => argTerm 0 (cellOf start len s k i)).sum
      else st.remAngle i) ∧ st'.remProb = st.remProb := by
  induction l with
  | nil => intro _ st; simp
  | cons x l ih =>
    intro hnd st
    rw [List.nodup_cons] at hnd
    simp only [List.foldl_cons]
    obtain ⟨h1, h2⟩ := foldl_pair (fun i => Complex.normSq (cellOf start len s x i)) (fun i => cellOf start len s x i)
      (List.range B) 0 st.remAngle List.nodup_range
    rw [zero_add, sum_range_list] at h1
    obtain ⟨k1, k2, k3, k4⟩ := ih hnd.2 (decomposeStep A B start len s st 1 x)
    have e1 : (decomposeStep A B start len s st 1 x).partProb =
        Function.update st.partProb x (∑ i ∈ Finset.range B, Complex.normSq (cellOf start len s x i)) := by
      unfold decomposeStep
      rw [if_neg (by norm_num), if_pos rfl, ← h1]
      rfl
    have e2 : ∀ i, (decomposeStep A B start len s st 1 x).remAngle i =
        if i < B then st.remAngle i + argTerm 0 (cellOf start len s x i) else st.remAngle i := by
      intro i
      unfold decomposeStep
      rw [if_neg (by norm_num), if_pos rfl]
      refine (h2 i).trans ?_
      simp only [List.mem_range]
    have e3 : (decomposeStep A B start len s st 1 x).partAngle = Function.update st.partAngle x
        (meanAngle 0 (∑ i ∈ Finset.range B, Complex.normSq (cellOf start len s x i)) (st.partAngle x)) := by
      unfold decomposeStep meanAngle
      rw [if_neg (by norm_num), if_pos rfl, ← h1]
      unfold cellOf
      simp only []
      split_ifs with h
      · rfl
      · rw [Function.update_eq_self]
    refine ⟨fun k => ?_, fun k => ?_, fun i => ?_, by rw [k4]; rfl⟩
    · rw [k1, e1]
      by_cases hk : k = x
      · subst hk; simp [hnd.1]
      · simp [hk]
    · rw [k2, e3]
      by_cases hk : k = x
      · subst hk; simp [hnd.1]
      · simp [hk]
    · rw [k3, e2]
      by_cases hi : i < B
      · simp only [hi, if_true, List.map_cons, List.sum_cons]; ring
      · simp only [hi, if_false]

theorem phase2 (l : List ℕ) : l.Nodup → ∀ st : Angles,
    let st' := l.foldl (fun st x => decomposeStep A B start len s st 2 x) st
    (∀ i, st'.remAngle i = if i ∈ l then meanAngle 0 (st.remProb i) (st.remAngle i) else st.remAngle i) ∧
    st'.remProb = st.remProb ∧ st'.partProb = st.partProb ∧ st'.partAngle = st.partAngle := by
  induction l with
  | nil => intro _ st; simp
  | cons x l ih =>
    intro hnd st
    rw [List.nodup_cons] at hnd
    simp only [List.foldl_cons]
    obtain ⟨k1, k2, k3, k4⟩ := ih hnd.2 (decomposeStep A B start len s st 2 x)
    have e1 : decomposeStep A B start len s st 2 x = { st with
        remAngle := Function.update st.remAngle x (meanAngle 0 (st.remProb x) (st.remAngle x)) } := by
      unfold decomposeStep meanAngle
      rw [if_neg (by norm_num), if_neg (by norm_num)]
      split_ifs with h
      · rfl
      · rw [Function.update_eq_self]
    refine ⟨fun i => ?_, by rw [k2, e1], by rw [k3, e1], by rw [k4, e1]⟩
    rw [k1, e1]
    by_cases hi : i = x
    · subst hi; simp [hnd.1]
    · simp [hi]

end Phases

/-- What a run in step leaves in the buffers. -/
theorem lockstep_result {N A B start len : ℕ} {s : ℕ → ℂ} (hN : 0 < N) {tr : List (ℕ × ℕ × ℕ)} (h : IsDecomposeRun N A B tr)
    (hl : Lockstep tr) :
    let st := tr.foldl (fun st p => decomposeStep A B start len s st p.2.1 p.2.2)
      ⟨fun _ => 0, fun _ => 0, fun _ => 0, fun _ => 0⟩
    (∀ i < B, st.remProb i = ∑ k ∈ Finset.range A, Complex.normSq (cellOf start len s k i) ∧
      st.remAngle i = meanAngle 0 (∑ k ∈ Finset.range A, Complex.normSq (cellOf start len s k i))
        (∑ k ∈ Finset.range A, argTerm 0 (cellOf start len s k i))) ∧
    ∀ k < A, st.partProb k = ∑ i ∈ Finset.range B, Complex.normSq (cellOf start len s k i) ∧
      st.partAngle k = meanAngle 0 (∑ i ∈ Finset.range B, Complex.normSq (cellOf start len s k i))
        (∑ i ∈ Finset.range B, argTerm 0 (cellOf start len s k i)) := by
  have hp0 := loopIdx_perm hN h 0 (by norm_num)
  have hp1 := loopIdx_perm hN h 1 (by norm_num)
  have hp2 := loopIdx_perm hN h 2 (by norm_num)
  rw [if_neg (by norm_num)] at hp0 hp2
  rw [if_pos rfl] at hp1
  have h3 : ∀ p ∈ tr.map Prod.snd, p.1 < 3 := by
    intro p hp
    rw [(decomposeRun_perm h).mem_iff, List.mem_flatMap] at hp
    obtain ⟨id, _, hp⟩ := hp
    unfold decomposeProg at hp
    rw [List.mem_append, List.mem_append, List.mem_map, List.mem_map, List.mem_map] at hp
    rcases hp with (⟨_, _, rfl⟩ | ⟨_, _, rfl⟩) | ⟨_, _, rfl⟩ <;> simp
  have hsplit := lockstep_split (l := tr.map Prod.snd) (by rw [List.pairwise_map]; exact hl) h3
  have hfold : tr.foldl (fun st p => decomposeStep A B start len s st p.2.1 p.2.2)
      ⟨fun _ => 0, fun _ => 0, fun _ => 0, fun _ => 0⟩ =
      (loopIdx tr 2).foldl (fun st x => decomposeStep A B start len s st 2 x)
        ((loopIdx tr 1).foldl (fun st x => decomposeStep A B start len s st 1 x)
          ((loopIdx tr 0).foldl (fun st x => decomposeStep A B start len s st 0 x)
            ⟨fun _ => 0, fun _ => 0, fun _ => 0, fun _ => 0⟩)) := by
    have : tr.foldl (fun st p => decomposeStep A B start len s st p.2.1 p.2.2)
        ⟨fun _ => 0, fun _ => 0, fun _ => 0, fun _ => 0⟩ =
        (tr.map Prod.snd).foldl (fun st p => decomposeStep A B start len s st p.1 p.2)
          ⟨fun _ => 0, fun _ => 0, fun _ => 0, fun _ => 0⟩ := by rw [List.foldl_map]
    rw [this, hsplit, List.foldl_append, List.foldl_append]
    unfold loopIdx
    simp only [List.foldl_map]
  intro st
  have hst : st = _ := hfold
  rw [hst]
  set st0 := (loopIdx tr 0).foldl (fun st x => decomposeStep A B start len s st 0 x)
    ⟨fun _ => 0, fun _ => 0, fun _ => 0, fun _ => 0⟩ with hst0
  set st1 := (loopIdx tr 1).foldl (fun st x => decomposeStep A B start len s st 1 x) st0 with hst1
  obtain ⟨a1, a2, a3, a4⟩ := phase0 A B start len s (loopIdx tr 0) (hp0.nodup_iff.2 List.nodup_range)
    ⟨fun _ => 0, fun _ => 0, fun _ => 0, fun _ => 0⟩
  obtain ⟨b1, b2, b3, b4⟩ := phase1 A B start len s (loopIdx tr 1) (hp1.nodup_iff.2 List.nodup_range) st0
  obtain ⟨c1, c2, c3, c4⟩ := phase2 A B start len s (loopIdx tr 2) (hp2.nodup_iff.2 List.nodup_range) st1
  rw [← hst0] at a1 a2 a3 a4
  rw [← hst1] at b1 b2 b3 b4
  constructor
  · intro i hi
    have m0 : i ∈ loopIdx tr 0 := by rw [hp0.mem_iff]; exact List.mem_range.2 hi
    have m2 : i ∈ loopIdx tr 2 := by rw [hp2.mem_iff]; exact List.mem_range.2 hi
    have hr : st1.remProb i = ∑ k ∈ Finset.range A, Complex.normSq (cellOf start len s k i) := by
      rw [b4, a1, if_pos m0]
    refine ⟨by rw [c2, hr], ?_⟩
    rw [c1, if_pos m2, hr, b3, if_pos hi, a3, zero_add, (hp1.map _).sum_eq, sum_range_list]
  · intro k hk
    have m1 : k ∈ loopIdx tr 1 := by rw [hp1.mem_iff]; exact List.mem_range.2 hk
    refine ⟨by rw [c3, b1, if_pos m1], ?_⟩
    rw [c4, b2, if_pos m1, a2, if_pos hk, zero_add, (hp0.map _).sum_eq, sum_range_list]

end Verif.Ocl
