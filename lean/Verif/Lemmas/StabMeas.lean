import Verif.Lemmas.StabInv
import Mathlib.Algebra.Field.ZMod
import Mathlib.LinearAlgebra.Dimension.Constructions
import Mathlib.LinearAlgebra.FiniteDimensional.Basic
import Mathlib.LinearAlgebra.FiniteDimensional.Lemmas

/-!
Helper lemmas: measurement on the tableau.
-/

namespace Verif.Stab

open Verif.Pauli Complex

variable {n : ℕ}

theorem measMult_apply (t : Fin n) (p : ℕ) (l : List ℕ) (hl : l.Nodup) (hp : p ∉ l) (T : Tab n) (i : ℕ) :
    measMult t p l T i = if i ∈ l ∧ (T i).x t = true then rowmult (T i) (T p) else T i := by
  induction l generalizing T with
  | nil => simp [measMult]
  | cons a l ih =>
    rw [List.nodup_cons] at hl
    rw [List.mem_cons, not_or] at hp
    unfold measMult at ih ⊢
    rw [List.foldl_cons, ih hl.2 hp.2]
    by_cases hx : (T a).x t = true
    · rw [if_pos hx]
      unfold rowmultT
      rw [Function.update_of_ne hp.1]
      by_cases hi : i = a
      · subst hi; simp [hl.1, hx]
      · simp [Function.update_of_ne hi, hi]
    · rw [if_neg hx]
      by_cases hi : i = a
      · subst hi; simp [hl.1, hx]
      · simp [hi]

theorem collapse_apply {p : ℕ} (hp : p < n) (T : Tab n) (t : Fin n) (b : Bool) (i : ℕ) :
    collapse T t p b i = if i = p then T (p + n) else if i = p + n then zRow t (if b then 2 else 0)
      else if i < 2 * n ∧ (T i).x t = true then rowmult (T i) (T (p + n)) else T i := by
  unfold collapse
  rw [measMult_apply _ _ _ List.nodup_range' (by rw [List.mem_range'_1]; omega),
    measMult_apply _ _ _ List.nodup_range (by rw [List.mem_range]; omega),
    measMult_apply _ _ _ List.nodup_range (by rw [List.mem_range]; omega)]
  have h0 : rowcopyT T p (p + n) = Function.update T p (T (p + n)) := by
    unfold rowcopyT; rw [if_neg (by omega)]
  have hpp : p ≠ p + n := by omega
  rw [h0]
  simp only [List.mem_range, List.mem_range'_1, Function.update_of_ne hpp, Function.update_self, lt_irrefl, false_and,
    if_false]
  by_cases h1 : i = p
  · subst h1
    simp [Function.update_of_ne hpp]
  · rw [if_neg h1]
    by_cases h2 : i = p + n
    · subst h2
      simp [zRow]
    · rw [if_neg h2]
      simp only [Function.update_of_ne h2, Function.update_of_ne h1]
      by_cases h3 : i < p
      · have a1 : ¬ (p + 1 ≤ i ∧ i < p + 1 + (2 * n - (p + 1))) := by omega
        have a2 : i < 2 * n := by omega
        simp only [h3, a1, a2, false_and, true_and, if_false]
      · by_cases h4 : i < 2 * n
        · have a1 : p + 1 ≤ i ∧ i < p + 1 + (2 * n - (p + 1)) := by omega
          simp only [h3, h4, a1, false_and, true_and, if_false]
        · have a1 : ¬ (p + 1 ≤ i ∧ i < p + 1 + (2 * n - (p + 1))) := by omega
          simp only [h3, h4, a1, false_and, if_false]

theorem Partner.symm {n i j : ℕ} (h : Partner n i j) : Partner n j i := Or.symm h

theorem collapse_inv {T : Tab n} (h : Inv T) {t : Fin n} {p : ℕ} (hp : p < n) (hx : (T (p + n)).x t = true) (b : Bool) :
    Inv (collapse T t p b) := by
  have hn : 0 < n := by omega
  have hq : p + n < 2 * n := by omega
  have P0 : ∀ {i j : ℕ}, i < 2 * n → j < 2 * n → ¬ Partner n i j → sp (T i) (T j) = 0 := fun hi hj hp => by
    rw [h.comm _ _ hi hj, if_neg hp]
  constructor
  · intro i hi
    rw [collapse_apply hp]
    split_ifs with h1 h2 h3 h4
    · exact h.herm _ hq
    · exact Or.inr rfl
    · exact Or.inl rfl
    · exact clifford_even (h.herm i hi) (h.herm _ hq) (P0 hi hq (by unfold Partner; omega))
    · exact h.herm i hi
  · -- the rows other than `p` and `p + n`
    have hq' : ∀ j, j < 2 * n → j ≠ p → j ≠ p + n →
        sp (T (p + n)) (collapse T t p b j) = 0 ∧ (collapse T t p b j).x t = false := by
      intro j hj j1 j2
      rw [collapse_apply hp, if_neg j1, if_neg j2]
      have e0 : sp (T (p + n)) (T j) = 0 := P0 hq hj (by unfold Partner; omega)
      split_ifs with h3
      · rw [sp_rowmult', sp_self, e0]
        exact ⟨rfl, by simp [rowmult, hx, h3.2]⟩
      · refine ⟨e0, ?_⟩
        simpa [hj] using h3
    have main : ∀ i j, i < 2 * n → j < 2 * n → (i = p ∨ i = p + n) → sp (collapse T t p b i) (collapse T t p b j) =
        if Partner n i j then 1 else 0 := by
      intro i j hi hj hip
      by_cases hij : i = j
      · subst hij; rw [sp_self, if_neg (by unfold Partner; omega)]
      rcases hip with rfl | rfl
      · rw [collapse_apply hp T t b i, if_pos rfl]
        by_cases j2 : j = i + n
        · subst j2
          rw [collapse_apply hp, if_neg (by omega), if_pos rfl, sp_zRow, hx, if_pos rfl,
            if_pos (by unfold Partner; omega)]
        · rw [(hq' j hj (Ne.symm hij) j2).1, if_neg (by unfold Partner; omega)]
      · rw [collapse_apply hp T t b (p + n), if_neg (by omega), if_pos rfl, sp_comm, sp_zRow]
        by_cases j1 : j = p
        · subst j1
          rw [collapse_apply hp, if_pos rfl, hx, if_pos rfl, if_pos (by unfold Partner; omega)]
        · rw [(hq' j hj j1 (Ne.symm hij)).2, if_neg (by simp), if_neg (by unfold Partner; omega)]
    intro i j hi hj
    by_cases i1 : i = p ∨ i = p + n
    · exact main i j hi hj i1
    by_cases j1 : j = p ∨ j = p + n
    · rw [sp_comm, main j i hj hi j1]
      exact if_congr ⟨Partner.symm, Partner.symm⟩ rfl rfl
    push Not at i1 j1
    rw [collapse_apply hp, if_neg i1.1, if_neg i1.2]
    have e1 := (hq' j hj j1.1 j1.2).1
    have e2 : sp (T i) (collapse T t p b j) = if Partner n i j then 1 else 0 := by
      rw [collapse_apply hp, if_neg j1.1, if_neg j1.2]
      split_ifs with a1 a2 a2
      · rw [sp_rowmult', h.comm i j hi hj, if_pos a2, P0 hi hq (by unfold Partner; omega), add_zero]
      · rw [sp_rowmult', h.comm i j hi hj, if_neg a2, P0 hi hq (by unfold Partner; omega), add_zero]
      · rw [h.comm i j hi hj, if_pos a2]
      · rw [h.comm i j hi hj, if_neg a2]
    by_cases a1 : i < 2 * n ∧ (T i).x t = true
    · rw [if_pos a1, sp_rowmult, e1, add_zero, e2]
    · rw [if_neg a1, e2]

/-! ### The rows span -/

/-- The bits of a row as a vector over the field with two elements. -/
def vec (w : Row n) : Fin n ⊕ Fin n → ZMod 2
  | .inl j => if w.x j then 1 else 0
  | .inr j => if w.z j then 1 else 0

/-- The form with a fixed row. -/
def form (v : Row n) : (Fin n ⊕ Fin n → ZMod 2) →ₗ[ZMod 2] ZMod 2 where
  toFun u := ∑ j, (u (.inl j) * (if v.z j then 1 else 0) + u (.inr j) * (if v.x j then 1 else 0))
  map_add' a b := by
    rw [← Finset.sum_add_distrib]
    refine Finset.sum_congr rfl fun j _ => ?_
    simp only [Pi.add_apply]; ring
  map_smul' c a := by
    simp only [RingHom.id_apply, smul_eq_mul, Finset.mul_sum]
    refine Finset.sum_congr rfl fun j _ => ?_
    simp only [Pi.smul_apply, smul_eq_mul]; ring

theorem form_vec (w v : Row n) : form v (vec w) = sp w v := by
  simp only [form, LinearMap.coe_mk, AddHom.coe_mk, sp]
  refine Finset.sum_congr rfl fun j _ => ?_
  simp only [vec, sp1]
  cases w.x j <;> cases w.z j <;> cases v.x j <;> cases v.z j <;> decide

/-- Number of the partner row. -/
def partner (n i : ℕ) : ℕ := if i < n then i + n else i - n

theorem rows_independent {T : Tab n} (h : Inv T) : LinearIndependent (ZMod 2) fun i : Fin (2 * n) => vec (T i) := by
  rw [linearIndependent_iff']
  intro s g hg i hi
  have hp : partner n i < 2 * n := by unfold partner; split_ifs <;> omega
  have h1 := congrArg (form (T (partner n i))) hg
  rw [map_sum, map_zero, Finset.sum_eq_single i] at h1
  · rw [map_smul, form_vec, h.comm _ _ i.isLt hp, if_pos (by unfold Partner partner; split_ifs <;> omega)] at h1
    simpa using h1
  · intro j _ hj
    have hj' : j.val ≠ i.val := fun hc => hj (Fin.ext hc)
    have := i.isLt
    have := j.isLt
    rw [map_smul, form_vec, h.comm _ _ j.isLt hp, if_neg (by unfold Partner partner; split_ifs <;> omega), smul_zero]
  · intro hc; exact absurd hi hc

theorem rows_span {T : Tab n} (h : Inv T) : Submodule.span (ZMod 2) (Set.range fun i : Fin (2 * n) => vec (T i)) = ⊤ := by
  rcases Nat.eq_zero_or_pos n with hn | hn
  · subst hn
    exact Subsingleton.elim _ _
  · haveI : Nonempty (Fin (2 * n)) := ⟨⟨0, by omega⟩⟩
    refine (rows_independent h).span_eq_top_of_card_eq_finrank ?_
    rw [Module.finrank_fintype_fun_eq_card, Fintype.card_sum, Fintype.card_fin, Fintype.card_fin]; omega

theorem bits_of_form {T : Tab n} (h : Inv T) {w v : Row n} (hwv : ∀ i, i < 2 * n → sp w (T i) = sp v (T i)) :
    w.x = v.x ∧ w.z = v.z := by
  have hz : form (rowmult w v) = 0 := by
    apply LinearMap.ext_on_range (rows_span h)
    intro i
    rw [form_vec, sp_rowmult', LinearMap.zero_apply, sp_comm (T i) w, sp_comm (T i) v, hwv i i.isLt]
    exact z2_add _
  have hX : ∀ j, (rowmult w v).x j = false := by
    intro j
    have h1 := LinearMap.congr_fun hz (vec (zRow j 0))
    rw [form_vec, sp_comm, sp_zRow] at h1
    by_contra hc
    simp only [Bool.not_eq_false] at hc
    simp [hc] at h1
  have hZ : ∀ j, (rowmult w v).z j = false := by
    intro j
    have h1 := LinearMap.congr_fun hz (vec (xRow j))
    rw [form_vec, sp_comm, sp_xRow] at h1
    by_contra hc
    simp only [Bool.not_eq_false] at hc
    simp [hc] at h1
  constructor
  · funext j
    have := hX j
    simp only [rowmult] at this
    revert this
    cases w.x j <;> cases v.x j <;> simp
  · funext j
    have := hZ j
    simp only [rowmult] at this
    revert this
    cases w.z j <;> cases v.z j <;> simp

/-! ### The scratch row of a determinate measurement -/

theorem findRow_some {f : ℕ → Bool} {p : ℕ} (h : findRow n f = some p) : p < n ∧ f p = true ∧ ∀ q < p, f q = false := by
  unfold findRow at h
  have hm := List.mem_of_find?_eq_some h
  have hf := List.find?_some h
  rw [List.mem_range] at hm
  refine ⟨hm, hf, fun q hq => ?_⟩
  rw [List.find?_range_eq_some] at h
  have := h.2.2 q hq
  simpa using this

theorem findRow_none {f : ℕ → Bool} (h : findRow n f = none) : ∀ p < n, f p = false := by
  unfold findRow at h
  rw [List.find?_eq_none] at h
  intro p hp
  simpa using h p (List.mem_range.mpr hp)

/-- The product of stabiliser rows accumulated in the scratch row. -/
def accRow (T : Tab n) (t : Fin n) (l : List ℕ) (S : Row n) : Row n :=
  l.foldl (fun S i => if (T i).x t then rowmult S (T (i + n)) else S) S

theorem scratch_fold (t : Fin n) (l : List ℕ) (hl : ∀ i ∈ l, i < n) (T : Tab n) :
    l.foldl (fun T i => if (T i).x t then rowmultT T (2 * n) (i + n) else T) T =
      Function.update T (2 * n) (accRow T t l (T (2 * n))) := by
  induction l generalizing T with
  | nil => simp [accRow]
  | cons a l ih =>
    have ha := hl a List.mem_cons_self
    have hl' : ∀ i ∈ l, i < n := fun i hi => hl i (List.mem_cons_of_mem _ hi)
    rw [List.foldl_cons, ih hl']
    have hacc : ∀ (S R : Row n), accRow (Function.update T (2 * n) R) t l S = accRow T t l S := by
      intro S R
      unfold accRow
      clear ih hl
      induction l generalizing S with
      | nil => rfl
      | cons b l ih =>
        have hb := hl' b List.mem_cons_self
        rw [List.foldl_cons, List.foldl_cons, Function.update_of_ne (by omega), Function.update_of_ne (by omega)]
        exact ih (fun i hi => hl' i (List.mem_cons_of_mem _ hi)) _
    by_cases hx : (T a).x t = true
    · rw [if_pos hx]
      unfold rowmultT
      rw [hacc, Function.update_idem, Function.update_self]
      simp [accRow, hx]
    · rw [if_neg hx]
      simp [accRow, hx]

theorem accRow_form {T : Tab n} (h : Inv T) (t : Fin n) (l : List ℕ) (hl : ∀ i ∈ l, i < n) (hd : l.Nodup) (S : Row n) (j : ℕ) (hj : j < 2 * n) :
    sp (accRow T t l S) (T j) = sp S (T j) + if j ∈ l ∧ (T j).x t = true then 1 else 0 := by
  induction l generalizing S with
  | nil => simp [accRow]
  | cons a l ih =>
    have ha := hl a List.mem_cons_self
    have hl' : ∀ i ∈ l, i < n := fun i hi => hl i (List.mem_cons_of_mem _ hi)
    rw [List.nodup_cons] at hd
    have e : accRow T t (a :: l) S = accRow T t l (if (T a).x t then rowmult S (T (a + n)) else S) := rfl
    rw [e, ih hl' hd.2]
    by_cases hx : (T a).x t = true
    · rw [if_pos hx, sp_rowmult, h.comm _ _ (by omega) hj]
      by_cases hja : j = a
      · subst hja
        rw [if_pos (by unfold Partner; omega)]
        simp [hd.1, hx]
      · by_cases hjl : j ∈ l
        · have := hl' j hjl
          rw [if_neg (by unfold Partner; omega)]
          simp [hjl]
        · rw [if_neg (by unfold Partner; omega)]
          simp [hjl, hja]
    · rw [if_neg hx]
      by_cases hja : j = a
      · subst hja; simp [hx]
      · simp [hja]

theorem accRow_stab {T : Tab n} {ψ : State n} (h : Stabilises T ψ) (t : Fin n) (l : List ℕ) (hl : ∀ i ∈ l, i < n)
    (S : Row n) (hS : S.op ψ = ψ) : (accRow T t l S).op ψ = ψ := by
  unfold accRow
  refine foldl_ind (fun S : Row n => S.op ψ = ψ) _ l ?_ S hS
  intro S hS i hi
  split_ifs
  · rw [rowmult_op, hS, h _ (by omega) (by have := hl i hi; omega)]
  · exact hS

theorem accRow_herm {T : Tab n} (h : Inv T) (t : Fin n) (l : List ℕ) (hl : ∀ i ∈ l, i < n) (S : Row n)
    (hS : (S.r = 0 ∨ S.r = 2) ∧ ∀ j < n, sp S (T (j + n)) = 0) :
    ((accRow T t l S).r = 0 ∨ (accRow T t l S).r = 2) := by
  unfold accRow
  refine (foldl_ind (fun S : Row n => (S.r = 0 ∨ S.r = 2) ∧ ∀ j < n, sp S (T (j + n)) = 0) _ l ?_ S hS).1
  intro S hS i hi
  have hin := hl i hi
  split_ifs
  · refine ⟨clifford_even hS.1 (h.herm _ (by omega)) (hS.2 i hin), fun j hj => ?_⟩
    rw [sp_rowmult, hS.2 j hj, h.comm _ _ (by omega) (by omega), if_neg (by unfold Partner; omega), add_zero]
  · exact hS

theorem scratchRow_eq {m : ℕ} (hm : m < n) (T : Tab n) (t : Fin n) :
    scratchRow T t m = Function.update T (2 * n) (accRow T t (List.range' (m + 1) (n - (m + 1))) (T (m + n))) := by
  unfold scratchRow
  have h0 : rowcopyT T (2 * n) (m + n) = Function.update T (2 * n) (T (m + n)) := by
    unfold rowcopyT; rw [if_neg (by omega)]
  have hl : ∀ i ∈ List.range' (m + 1) (n - (m + 1)), i < n := by
    intro i hi; rw [List.mem_range'_1] at hi; omega
  rw [h0, scratch_fold t _ hl, Function.update_idem, Function.update_self]
  congr 1
  -- the scratch row is not read
  have : ∀ (l : List ℕ) (hl : ∀ i ∈ l, i < n) (S R : Row n), accRow (Function.update T (2 * n) R) t l S = accRow T t l S := by
    intro l hl S R
    unfold accRow
    induction l generalizing S with
    | nil => rfl
    | cons b l ih =>
      have hb := hl b List.mem_cons_self
      rw [List.foldl_cons, List.foldl_cons, Function.update_of_ne (by omega), Function.update_of_ne (by omega)]
      exact ih (fun i hi => hl i (List.mem_cons_of_mem _ hi)) _
  exact this _ hl _ _

/-- The scratch row of a determinate qubit is `±Z_t`, a product of stabilisers. -/
theorem scratch_is_z {T : Tab n} (h : Inv T) {t : Fin n} (hsep : ∀ p < n, (T (p + n)).x t = false) {m : ℕ} (hm : m < n)
    (hmx : (T m).x t = true) (hfirst : ∀ q < m, (T q).x t = false) :
    ∃ r, (r = 0 ∨ r = 2) ∧ scratchRow T t m (2 * n) = zRow t r ∧ ∀ ψ, Stabilises T ψ → (zRow t r).op ψ = ψ := by
  rw [scratchRow_eq hm, Function.update_self]
  set l := List.range' (m + 1) (n - (m + 1))
  have hl : ∀ i ∈ l, i < n := by
    intro i hi; rw [List.mem_range'_1] at hi; omega
  set S := accRow T t l (T (m + n)) with hS
  have hherm : S.r = 0 ∨ S.r = 2 := by
    refine accRow_herm h t l hl _ ⟨h.herm _ (by omega), fun j hj => ?_⟩
    rw [h.comm _ _ (by omega) (by omega), if_neg (by unfold Partner; omega)]
  have hform : ∀ j, j < 2 * n → sp S (T j) = sp (zRow t S.r) (T j) := by
    intro j hj
    rw [hS, accRow_form h t l hl List.nodup_range' _ j hj, sp_comm (zRow _ _), sp_zRow, h.comm _ _ (by omega) hj]
    have hmem : j ∈ l ↔ m + 1 ≤ j ∧ j < n := by
      rw [List.mem_range'_1]; omega
    by_cases h1 : j = m
    · subst h1
      rw [if_pos (by unfold Partner; omega), if_neg (by rw [hmem]; omega), hmx]
      simp
    · by_cases h2 : j < n
      · rw [if_neg (by unfold Partner; omega), zero_add]
        refine if_congr ?_ rfl rfl
        rw [hmem]
        constructor
        · exact fun h => h.2
        · intro hx
          refine ⟨⟨?_, h2⟩, hx⟩
          by_contra hc
          have := hfirst j (by omega)
          rw [hx] at this; simp at this
      · have := hsep (j - n) (by omega)
        rw [Nat.sub_add_cancel (by omega)] at this
        rw [if_neg (by unfold Partner; omega), if_neg (by rw [hmem]; omega), this]
        simp
  have hb := bits_of_form h hform
  have hz : S = zRow t S.r := Row.ext hb.1 hb.2 rfl
  refine ⟨S.r, hherm, hz, fun ψ hψ => ?_⟩
  rw [← hz]
  exact accRow_stab hψ t l hl _ (hψ _ (by omega) (by omega))

/-- Some row carries an `X` or `Y` at every qubit. -/
theorem some_x {T : Tab n} (h : Inv T) (t : Fin n) : ∃ i, i < 2 * n ∧ (T i).x t = true := by
  by_contra hc
  push Not at hc
  have : (zRow t 0).z = (idRow n).z := (bits_of_form h (w := zRow t 0) (v := idRow n) fun i hi => by
    rw [sp_comm, sp_zRow, if_neg (hc i hi)]
    unfold sp
    exact (Finset.sum_eq_zero fun j _ => by simp [sp1, idRow]).symm).2
  have := congrFun this t
  simp [zRow, idRow] at this

theorem forceM_skip (T : Tab n) {t : ℕ} (ht : t < n) (result rnd : Bool) :
    forceM T t result true false rnd = some (result, T) := by
  unfold forceM; rw [dif_pos ht]; rfl

theorem forceM_rand (T : Tab n) {t : ℕ} (ht : t < n) (result doForce doApply rnd : Bool) (h : (doForce && !doApply) = false)
    {p : ℕ} (hp : findRow n (fun p => (T (p + n)).x ⟨t, ht⟩) = some p) :
    forceM T t result doForce doApply rnd = some (if doForce then result else rnd,
      if doApply then collapse T ⟨t, ht⟩ p (if doForce then result else rnd) else T) := by
  unfold forceM
  rw [dif_pos ht, h]
  simp only [Bool.false_eq_true, if_false]
  rw [hp]
  cases doApply <;> rfl

theorem forceM_det (T : Tab n) {t : ℕ} (ht : t < n) (result doForce doApply rnd : Bool) (h : (doForce && !doApply) = false)
    (hp : findRow n (fun p => (T (p + n)).x ⟨t, ht⟩) = none) {m : ℕ} (hm : findRow n (fun m => (T m).x ⟨t, ht⟩) = some m) :
    forceM T t result doForce doApply rnd =
      if doForce = true ∧ result ≠ decide ((scratchRow T ⟨t, ht⟩ m (2 * n)).r ≠ 0) then none
      else some (decide ((scratchRow T ⟨t, ht⟩ m (2 * n)).r ≠ 0), scratchRow T ⟨t, ht⟩ m) := by
  unfold forceM
  rw [dif_pos ht, h]
  simp only [Bool.false_eq_true, if_false]
  rw [hp]
  simp only [hm]
  refine if_congr ?_ rfl rfl
  rw [Bool.and_eq_true, bne_iff_ne]

theorem forceM_zero (T : Tab n) {t : ℕ} (ht : t < n) (result doForce doApply rnd : Bool) (h : (doForce && !doApply) = false)
    (hp : findRow n (fun p => (T (p + n)).x ⟨t, ht⟩) = none) (hm : findRow n (fun m => (T m).x ⟨t, ht⟩) = none) :
    forceM T t result doForce doApply rnd = some (false, T) := by
  unfold forceM
  rw [dif_pos ht, h]
  simp only [Bool.false_eq_true, if_false]
  rw [hp]
  simp only [hm]

end Verif.Stab
