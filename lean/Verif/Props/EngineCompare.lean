import Verif.Model.EngineIO
import Verif.Props.EngineCompose

/-!
# C56: comparing states, and splitting only what is separable
-/

namespace Verif.Engine

open Verif.ParFor Verif.Spec Verif.Bits Classical

theorem reduceC_fold (P : Par) (h : ∀ l, P.cpu l < P.cores) (f : ℕ → ℂ) (l : List ℕ) (b : ℕ → ℂ) :
    ((List.range P.cores).map (l.foldl
      (fun (b : ℕ → ℂ) l => Function.update b (P.cpu l) (b (P.cpu l) + f l)) b)).sum =
      ((List.range P.cores).map b).sum + (l.map f).sum := by
  induction l generalizing b with
  | nil => simp
  | cons x l ih =>
    rw [List.foldl_cons, ih, List.map_cons, List.sum_cons, ← add_assoc]
    congr 1
    have e : ∀ g : ℕ → ℂ, ((List.range P.cores).map g).sum = ∑ i ∈ Finset.range P.cores, g i := fun _ => rfl
    rw [e, e]
    rw [Finset.sum_update_of_mem (Finset.mem_range.2 (h x)),
      ← Finset.add_sum_erase _ _ (Finset.mem_range.2 (h x)), Finset.sdiff_singleton_eq_erase]
    ring

theorem reduceC_range {P : Par} (hP : P.Ok) (N : ℕ) (f : ℕ → ℂ) :
    reduceC P (parForPlan 0 N) f = ∑ i ∈ Finset.range N, f i := by
  unfold reduceC
  simp only []
  rw [reduceC_fold P hP.2]
  simp only [List.map_const', List.sum_replicate, smul_zero, zero_add]
  rw [((hP.1 _).map f).sum_eq]
  unfold parForPlan
  rw [Nat.sub_zero, ← List.range_eq_range']
  rfl

/-- The distance of `b` from its projection on the normalised state `a`. -/
theorem project_dist {n : ℕ} {a : ℕ → ℂ} (b : ℕ → ℂ) (ha : totalProb n a = 1) :
    ∑ i ∈ Finset.range (2 ^ n), Complex.normSq (b i - Spec.inner n a b * a i) =
      totalProb n b - Complex.normSq (Spec.inner n a b) := by
  generalize hc : Spec.inner n a b = c
  have h1 : ∀ i ∈ Finset.range (2 ^ n), Complex.normSq (b i - c * a i) =
      Complex.normSq (b i) + Complex.normSq c * Complex.normSq (a i) -
        2 * ((starRingEnd ℂ) c * ((starRingEnd ℂ) (a i) * b i)).re := by
    intro i _
    rw [Complex.normSq_sub, Complex.normSq_mul, map_mul]
    rw [show b i * ((starRingEnd ℂ) c * (starRingEnd ℂ) (a i)) = (starRingEnd ℂ) c * ((starRingEnd ℂ) (a i) * b i) by ring]
  rw [Finset.sum_congr rfl h1, Finset.sum_sub_distrib, Finset.sum_add_distrib, ← Finset.mul_sum, ← Finset.mul_sum,
    ← Complex.re_sum, ← Finset.mul_sum]
  have h2 : ∑ i ∈ Finset.range (2 ^ n), (starRingEnd ℂ) (a i) * b i = c := hc
  have h3 : ∑ i ∈ Finset.range (2 ^ n), Complex.normSq (a i) = 1 := ha
  rw [h2, h3, mul_one, mul_comm ((starRingEnd ℂ) c), Complex.mul_conj, Complex.ofReal_re]
  show totalProb n b + _ - _ = _
  ring

theorem inner_le_one {n : ℕ} {a b : ℕ → ℂ} (ha : totalProb n a = 1) (hb : totalProb n b = 1) :
    Complex.normSq (Spec.inner n a b) ≤ 1 := by
  have h := project_dist b ha
  have : 0 ≤ ∑ i ∈ Finset.range (2 ^ n), Complex.normSq (b i - Spec.inner n a b * a i) :=
    Finset.sum_nonneg fun _ _ => Complex.normSq_nonneg _
  rw [h, hb] at this
  linarith

theorem inner_one_iff {n : ℕ} {a b : ℕ → ℂ} (ha : totalProb n a = 1) (hb : totalProb n b = 1) :
    Complex.normSq (Spec.inner n a b) = 1 ↔ ∃ u : ℂ, ‖u‖ = 1 ∧ SameOn n b (fun i => u * a i) := by
  constructor
  · intro h
    have hd := project_dist b ha
    rw [hb, h, sub_self] at hd
    refine ⟨Spec.inner n a b, ?_, ?_⟩
    · rw [Complex.normSq_eq_norm_sq] at h
      exact (pow_eq_one_iff_of_nonneg (norm_nonneg _) two_ne_zero).1 h
    · intro i hi
      have := (Finset.sum_eq_zero_iff_of_nonneg (fun i _ => Complex.normSq_nonneg _)).1 hd i (Finset.mem_range.2 hi)
      exact sub_eq_zero.1 (Complex.normSq_eq_zero.1 this)
  · rintro ⟨u, hu, hs⟩
    have : Spec.inner n a b = u := by
      unfold Spec.inner
      rw [Finset.sum_congr rfl (g := fun i => u * ((Complex.normSq (a i) : ℝ) : ℂ)) (fun i hi => by
        rw [hs i (Finset.mem_range.1 hi), ← Complex.mul_conj]; ring), ← Finset.mul_sum, ← Complex.ofReal_sum]
      have h3 : ∑ i ∈ Finset.range (2 ^ n), Complex.normSq (a i) = 1 := ha
      rw [h3]; simp
    rw [this, Complex.normSq_eq_norm_sq, hu]; norm_num

/-- C56. `SumSqrDiff` of two normalised registers is one minus the squared magnitude of the inner product. -/
theorem sumSqrDiff_inner {P : Par} (hP : P.Ok) {a b : Eng} (hn : a.n = b.n) (ha : a.Steady) (hb : b.Steady) :
    sumSqrDiff P a b = 1 - Complex.normSq (Spec.inner a.n a.amp b.amp) := by
  unfold sumSqrDiff
  rw [if_neg (by simpa using hn)]
  simp only []
  rw [normIf_ready ha.2, normIf_ready hb.2, reduceC_range hP]
  have : ∑ i ∈ Finset.range (2 ^ a.n), (starRingEnd ℂ) (a.amp i) * b.amp i = Spec.inner a.n a.amp b.amp := rfl
  rw [this]
  have h1 := inner_le_one ha.1 (show totalProb a.n b.amp = 1 by rw [hn]; exact hb.1)
  unfold clampProb
  rw [if_neg (not_lt.2 (Complex.normSq_nonneg _)), if_neg (not_lt.2 h1)]

/-- C56. It lies between 0 and 1. -/
theorem sumSqrDiff_range {P : Par} (hP : P.Ok) {a b : Eng} (hn : a.n = b.n) (ha : a.Steady) (hb : b.Steady) :
    0 ≤ sumSqrDiff P a b ∧ sumSqrDiff P a b ≤ 1 := by
  rw [sumSqrDiff_inner hP hn ha hb]
  have h1 := inner_le_one ha.1 (show totalProb a.n b.amp = 1 by rw [hn]; exact hb.1)
  have h0 := Complex.normSq_nonneg (Spec.inner a.n a.amp b.amp)
  constructor <;> linarith

/-- C56. It is zero exactly for registers of equal size whose states agree up to a global phase. -/
theorem sumSqrDiff_zero_iff {P : Par} (hP : P.Ok) {a b : Eng} (ha : a.Steady) (hb : b.Steady) :
    sumSqrDiff P a b = 0 ↔ a.n = b.n ∧ ∃ u : ℂ, ‖u‖ = 1 ∧ SameOn a.n b.amp (fun i => u * a.amp i) := by
  by_cases hn : a.n = b.n
  · rw [sumSqrDiff_inner hP hn ha hb, ← inner_one_iff ha.1 (show totalProb a.n b.amp = 1 by rw [hn]; exact hb.1)]
    constructor
    · intro h; exact ⟨hn, by linarith⟩
    · rintro ⟨_, h⟩; linarith
  · constructor
    · intro h
      unfold sumSqrDiff at h
      rw [if_pos hn] at h
      norm_num at h
    · rintro ⟨h, _⟩; exact absurd h hn

/-- C56. `TryDecompose` answers, with a destination of the right size. When it says yes, both parts are normalised and their
product is the state that was split, up to `tol`; when it says no, the register is unchanged. Stated for automatic
normalisation off: see `copy_norm_wrong` for what happens to the copy that it makes otherwise. -/
theorem tryDecompose_sound_partial {maxQb : ℕ} {P : Par} (hP : P.Ok) (fresh : ℕ → ℂ) {e : Eng} {start : ℕ} {dest : Eng} (tol : ℝ)
    (hs : start + dest.n ≤ e.n) (h0 : dest.n ≠ 0) (hl : dest.n < e.n) (hm : e.n ≤ maxQb) (h64 : e.n ≤ 64)
    (hd : e.doNorm = false) (ht : totalProb e.n e.amp = 1) (hrd : dest.doNorm = true → dest.rn = 1) :
    ∃ ok r d, tryDecompose maxQb P fresh e start dest tol = some (ok, r, d) ∧
      (ok = true → r.n = e.n - dest.n ∧ d.n = dest.n ∧ totalProb r.n r.amp = 1 ∧ totalProb d.n d.amp = 1 ∧
        1 - tol ≤ Complex.normSq (Spec.inner e.n e.amp (tensorAt start d.n r.amp d.amp))) ∧
      (ok = false → r = e) := by
  obtain ⟨r, d, h1, h2, h3, h4, h5⟩ := decompose_marginals hP.1 fresh (e := copyE e) (dest := dest) hs h0 hl
    (by intro h; rw [show (copyE e).doNorm = e.doNorm from rfl, hd] at h; exact absurd h (by simp))
  have hen : (copyE e).n = e.n := rfl
  have hea : (copyE e).amp = e.amp := rfl
  have hrdn : r.doNorm = false ∧ d.doNorm = dest.doNorm ∧ d.rn = dest.rn := by
    unfold decompose decomposeDispose at h1
    rw [if_neg (by omega), if_neg h0, if_neg (by omega)] at h1
    simp only [] at h1
    rw [normIf_ready (e := copyE e) (by
      intro h; rw [show (copyE e).doNorm = e.doNorm from rfl, hd] at h; exact absurd h (by simp))] at h1
    simp only [Option.map_some, Option.some.injEq, Prod.mk.injEq] at h1
    obtain ⟨g1, g2⟩ := h1
    subst g1
    rw [if_neg h0] at g2
    subst g2
    exact ⟨hd, rfl, rfl⟩
  have tr : totalProb r.n r.amp = 1 := by
    unfold totalProb
    rw [Finset.sum_congr rfl (fun i hi => h4 i (Finset.mem_range.1 hi))]
    unfold probIf
    rw [Finset.sum_comm, hen, hea, ← ht]
    unfold totalProb
    apply Finset.sum_congr rfl
    intro j hj
    beta_reduce
    refine (Finset.sum_eq_single (rest start dest.n j) (fun x _ hne => if_neg (Ne.symm hne))
      (fun h => absurd (Finset.mem_range.2 (by rw [h2]; exact rest_lt hs (Finset.mem_range.1 hj))) h)).trans ?_
    rw [if_pos rfl]
  have td : totalProb d.n d.amp = 1 := by
    unfold totalProb
    rw [Finset.sum_congr rfl (fun i hi => h5 i (Finset.mem_range.1 hi))]
    unfold probIf
    rw [Finset.sum_comm, hen, hea, ← ht]
    unfold totalProb
    apply Finset.sum_congr rfl
    intro j hj
    beta_reduce
    refine (Finset.sum_eq_single (field start dest.n j) (fun x _ hne => if_neg (Ne.symm hne))
      (fun h => absurd (Finset.mem_range.2 (by rw [h3]; exact Nat.mod_lt _ (Nat.two_pow_pos _))) h)).trans ?_
    rw [if_pos rfl]
  have hsum : r.n + d.n = e.n := by omega
  obtain ⟨c, e1, e2, e3⟩ := composeAt_tensor (maxQb := maxQb) hP.1 fresh (a := r) (b := d) (start := start) (by omega)
    (by omega) (by omega) (by omega) (by omega) (by rw [hrdn.1]; intro h; exact absurd h (by simp))
    (by rw [hrdn.2.1, hrdn.2.2]; exact hrd)
  have hcd : c.doNorm = false := by
    unfold composeAt at e1
    rw [if_neg (by omega), if_neg (by omega), if_neg (by omega), if_neg (by omega)] at e1
    simp only [] at e1
    rw [normIf_ready (e := r) (by rw [hrdn.1]; intro h; exact absurd h (by simp))] at e1
    have := (Prod.mk.inj (Option.some.inj e1)).1
    rw [← this]; exact hrdn.1
  have tc : totalProb c.n c.amp = 1 := by
    have : totalProb c.n c.amp = totalProb c.n (tensorAt start d.n r.amp d.amp) := by
      unfold totalProb
      exact Finset.sum_congr rfl fun i hi => by rw [e3 i (Finset.mem_range.1 hi)]
    rw [this, e2, totalProb_tensorAt (by omega), tr, td, one_mul]
  have hsd : sumSqrDiff P e c = 1 - Complex.normSq (Spec.inner e.n e.amp (tensorAt start d.n r.amp d.amp)) := by
    rw [sumSqrDiff_inner hP (by omega) ⟨ht, by rw [hd]; intro h; exact absurd h (by simp)⟩
      ⟨tc, by rw [hcd]; intro h; exact absurd h (by simp)⟩]
    have : Spec.inner e.n e.amp c.amp = Spec.inner e.n e.amp (tensorAt start d.n r.amp d.amp) := by
      unfold Spec.inner
      exact Finset.sum_congr rfl fun i hi => by rw [e3 i (by rw [e2, hsum]; exact Finset.mem_range.1 hi)]
    rw [this]
  refine ⟨decide (sumSqrDiff P e c ≤ tol), if decide (sumSqrDiff P e c ≤ tol) then copyE r else e, d, ?_, ?_, ?_⟩
  · unfold tryDecompose
    rw [h1]
    simp only [Option.bind_some]
    rw [e1]
    simp only [Option.map_some]
  · intro hk
    rw [if_pos hk]
    refine ⟨h2, h3, tr, td, ?_⟩
    have := of_decide_eq_true hk
    show _ ≤ Complex.normSq (Spec.inner e.n e.amp (tensorAt start d.n r.amp d.amp))
    linarith
  · intro hk
    rw [hk]; simp

/-- C56. At tolerance zero, a successful split is exact up to a global phase. -/
theorem tryDecompose_exact {maxQb : ℕ} {P : Par} (hP : P.Ok) (fresh : ℕ → ℂ) {e : Eng} {start : ℕ} {dest : Eng}
    (hs : start + dest.n ≤ e.n) (h0 : dest.n ≠ 0) (hl : dest.n < e.n) (hm : e.n ≤ maxQb) (h64 : e.n ≤ 64)
    (hd : e.doNorm = false) (ht : totalProb e.n e.amp = 1) (hrd : dest.doNorm = true → dest.rn = 1) {r d : Eng}
    (h : tryDecompose maxQb P fresh e start dest 0 = some (true, r, d)) :
    ∃ u : ℂ, ‖u‖ = 1 ∧ SameOn e.n (tensorAt start d.n r.amp d.amp) (fun i => u * e.amp i) := by
  obtain ⟨ok, r', d', e1, e2, _⟩ := tryDecompose_sound_partial (maxQb := maxQb) hP fresh (0 : ℝ) hs h0 hl hm h64 hd ht hrd
  rw [h] at e1
  simp only [Option.some.injEq, Prod.mk.injEq] at e1
  obtain ⟨g1, g2, g3⟩ := e1
  subst g1 g2 g3
  obtain ⟨h2, h3, h4, h5, h6⟩ := e2 rfl
  have hsum : r.n + d.n = e.n := by omega
  have tc : totalProb e.n (tensorAt start d.n r.amp d.amp) = 1 := by
    rw [← hsum, totalProb_tensorAt (by omega), h4, h5, one_mul]
  have := inner_le_one ht tc
  exact (inner_one_iff ht tc).1 (by linarith)

/-- C56, incompleteness. `TryDecompose` refuses to split `|−⟩ ⊗ |−⟩`, at every tolerance below one: `Decompose` gets the
phases wrong (`decompose_wrong`). -/
theorem tryDecompose_incomplete {maxQb : ℕ} {P : Par} (hP : P.Ok) (fresh : ℕ → ℂ) (dest : Eng) (hdn : dest.n = 1)
    (hrd : dest.doNorm = true → dest.rn = 1) (hm : 2 ≤ maxQb) {tol : ℝ} (htol : tol < 1) :
    SameOn 2 minusMinus.amp (tensorAt 1 1 minusAmp minusAmp) ∧
    ∃ d, tryDecompose maxQb P fresh minusMinus 1 dest tol = some (false, minusMinus, d) := by
  obtain ⟨_, hsep, hw⟩ := decompose_wrong fresh dest hdn
  refine ⟨hsep, ?_⟩
  have ht : totalProb minusMinus.n minusMinus.amp = 1 := by
    show totalProb 2 _ = 1
    unfold totalProb minusMinus
    rw [show 2 ^ 2 = 4 from rfl]
    simp only [Finset.sum_range_succ, Finset.sum_range_zero]
    norm_num [Complex.normSq_apply]
  obtain ⟨ok, r, d, e1, e2, e3⟩ := tryDecompose_sound_partial (maxQb := maxQb) hP fresh (e := minusMinus) (start := 1)
    (dest := dest) tol (by rw [hdn]; simp [minusMinus]) (by omega) (by rw [hdn]; simp [minusMinus]) hm
    (by simp [minusMinus]) rfl ht hrd
  cases ok with
  | false => rw [e3 rfl] at e1; exact ⟨d, e1⟩
  | true =>
    exfalso
    obtain ⟨r', d', f1, f2, f3, _, _, f6⟩ := hw P.σ hP.1
    obtain ⟨_, _, _, _, h6⟩ := e2 rfl
    have hrd' : r.amp = r'.amp ∧ d = d' := by
      unfold tryDecompose at e1
      have hcp : decompose P.σ fresh (copyE minusMinus) 1 dest = some (copyE r', d') := by
        unfold decompose decomposeDispose at f1 ⊢
        rw [if_neg (by rw [hdn]; simp [minusMinus]), if_neg (by omega), if_neg (by rw [hdn]; simp [minusMinus])] at f1
        rw [if_neg (by rw [hdn]; simp [copyE, minusMinus]), if_neg (by omega),
          if_neg (by rw [hdn]; simp [copyE, minusMinus])]
        simp only [] at f1 ⊢
        rw [normIf_ready (e := minusMinus) (by intro h; exact absurd h (by simp [minusMinus]))] at f1
        rw [normIf_ready (e := copyE minusMinus) (by intro h; exact absurd h (by simp [copyE, minusMinus]))]
        simp only [Option.map_some, Option.some.injEq, Prod.mk.injEq] at f1 ⊢
        exact ⟨by rw [← f1.1]; rfl, f1.2⟩
      rw [hcp] at e1
      simp only [Option.bind_some] at e1
      cases hc : composeAt maxQb P.σ fresh (copyE r') d' 1 with
      | none => rw [hc] at e1; simp at e1
      | some x =>
        rw [hc] at e1
        obtain ⟨c, dd, pos⟩ := x
        simp only [Option.map_some, Option.some.injEq, Prod.mk.injEq] at e1
        obtain ⟨g1, g2, g3⟩ := e1
        rw [if_pos g1] at g2
        have hdd : dd = d' := by
          obtain ⟨c', q1, _⟩ := composeAt_tensor (maxQb := maxQb) hP.1 fresh (a := copyE r') (b := d') (start := 1)
            (by show r'.n ≠ 0; omega) (by omega) (by show 1 ≤ r'.n; omega) (by show r'.n + _ ≤ _; omega)
            (by show r'.n + _ ≤ _; omega) (by
              intro h
              exfalso
              have : r'.doNorm = false := by
                unfold decompose decomposeDispose at f1
                rw [if_neg (by rw [hdn]; simp [minusMinus]), if_neg (by omega),
                  if_neg (by rw [hdn]; simp [minusMinus])] at f1
                simp only [] at f1
                rw [normIf_ready (e := minusMinus) (by intro h; exact absurd h (by simp [minusMinus]))] at f1
                simp only [Option.map_some, Option.some.injEq, Prod.mk.injEq] at f1
                rw [← f1.1]; rfl
              rw [show (copyE r').doNorm = r'.doNorm from rfl, this] at h
              exact absurd h (by simp)) (by
              have : d'.doNorm = dest.doNorm ∧ d'.rn = dest.rn := by
                unfold decompose decomposeDispose at f1
                rw [if_neg (by rw [hdn]; simp [minusMinus]), if_neg (by omega),
                  if_neg (by rw [hdn]; simp [minusMinus])] at f1
                simp only [] at f1
                rw [normIf_ready (e := minusMinus) (by intro h; exact absurd h (by simp [minusMinus]))] at f1
                simp only [Option.map_some, Option.some.injEq, Prod.mk.injEq] at f1
                rw [← f1.2, if_neg (by omega)]; exact ⟨rfl, rfl⟩
              rw [this.1, this.2]; exact hrd)
          rw [hc] at q1
          simp only [Option.some.injEq, Prod.mk.injEq] at q1
          exact q1.2.1
        rw [← g2, ← g3, hdd]
        exact ⟨rfl, rfl⟩
    rw [hrd'.1, hrd'.2, f3] at h6
    have : Spec.inner minusMinus.n minusMinus.amp (tensorAt 1 1 r'.amp d'.amp) = 0 := f6
    rw [this, map_zero] at h6
    linarith

/-- One qubit with the given amplitudes. -/
noncomputable def exQubit (f : ℕ → ℂ) : Eng := { n := 1, amp := f, rn := 1, doNorm := false, rgp := false, floor := 0 }

/-- The hypotheses of `sumSqrDiff_inner` hold for two orthogonal and two proportional states. -/
example {P : Par} (hP : P.Ok) :
    sumSqrDiff P (exQubit exB.amp) (exQubit fun i => if i = 0 then 4 / 5 else -(3 / 5) * Complex.I) = 1 ∧
    sumSqrDiff P (exQubit exB.amp) (exQubit fun i => Complex.I * exB.amp i) = 0 := by
  have hst : ∀ f : ℕ → ℂ, totalProb 1 f = 1 → (exQubit f).Steady := fun f h =>
    ⟨h, by intro h; exact absurd h (by simp [exQubit])⟩
  have hB : (exQubit exB.amp).Steady := hst exB.amp (by
    unfold totalProb exB
    rw [show 2 ^ 1 = 2 from rfl, Finset.sum_range_succ, Finset.sum_range_one]
    norm_num [Complex.normSq_apply])
  have hC : (exQubit fun i => if i = 0 then 4 / 5 else -(3 / 5) * Complex.I).Steady := hst _ (by
    unfold totalProb
    rw [show 2 ^ 1 = 2 from rfl, Finset.sum_range_succ, Finset.sum_range_one]
    norm_num [Complex.normSq_apply])
  have hD : (exQubit fun i => Complex.I * exB.amp i).Steady := hst _ (by
    unfold totalProb exB
    rw [show 2 ^ 1 = 2 from rfl, Finset.sum_range_succ, Finset.sum_range_one]
    norm_num [Complex.normSq_apply])
  constructor
  · have hn : ∀ f g, (exQubit f).n = (exQubit g).n := fun _ _ => rfl
    have key := sumSqrDiff_inner hP (hn _ _) hB hC
    rw [key]
    have : Spec.inner 1 exB.amp (fun i => if i = 0 then 4 / 5 else -(3 / 5) * Complex.I) = 0 := by
      unfold Spec.inner exB
      rw [show 2 ^ 1 = 2 from rfl, Finset.sum_range_succ, Finset.sum_range_one]
      apply Complex.ext <;> norm_num [map_div₀, map_ofNat]
    show 1 - Complex.normSq (Spec.inner 1 exB.amp (fun i => if i = 0 then 4 / 5 else -(3 / 5) * Complex.I)) = 1
    rw [this]
    simp
  · rw [sumSqrDiff_zero_iff hP hB hD]
    exact ⟨rfl, Complex.I, by simp, fun i _ => rfl⟩

end Verif.Engine
