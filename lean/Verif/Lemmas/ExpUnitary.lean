import Verif.Model.ExpUnitary
import Verif.Props.EngineExpect
import Verif.Lemmas.DefaultsRot
import Verif.Spec.Observable

/-!
Helper lemmas about expectation values in other bases: one-qubit matrices on a state vector, their adjoints, and the loops that apply them.
-/

namespace Verif.Engine

open Verif.Spec Verif.Spec.Rotation Verif.Spec.Observable Verif.Defaults Matrix Classical

abbrev Mat := Matrix (Fin 2) (Fin 2) ℂ

theorem act_apply (M : Mat) (q : ℕ) (s : ℕ → ℂ) (i : ℕ) :
    act M q s i = (if i.testBit q then M 1 1 else M 0 0) * s i + (if i.testBit q then M 1 0 else M 0 1) * s (flipBit q i) := by
  unfold act gate
  simp only [if_true]
  cases i.testBit q <;> simp [add_comm]

theorem act_comm (M N : Mat) {q q' : ℕ} (h : q ≠ q') (s : ℕ → ℂ) : act M q (act N q' s) = act N q' (act M q s) :=
  funext fun i => gate_comm h (fun _ => Iff.rfl) (fun _ => Iff.rfl) _ _ _ _ _ _ _ _ s i

theorem act_one (q : ℕ) (s : ℕ → ℂ) : act 1 q s = s := by
  funext i
  rw [act_apply]
  simp

theorem act_smul (M : Mat) (q : ℕ) (u : ℂ) (s : ℕ → ℂ) : act M q (fun i => u * s i) = fun i => u * act M q s i := by
  funext i
  rw [act_apply, act_apply]; ring

theorem act_congr {n : ℕ} (M : Mat) {q : ℕ} (hq : q < n) {s s' : ℕ → ℂ} (h : SameOn n s s') : SameOn n (act M q s) (act M q s') :=
  gate_congr hq _ _ _ _ _ h

/-- The adjoint. -/
theorem inner_adj {n q : ℕ} (hq : q < n) (M : Mat) (s s' : ℕ → ℂ) :
    Spec.inner n (act Mᴴ q s) s' = Spec.inner n s (act M q s') := by
  unfold Spec.inner
  have e1 : ∀ i, (starRingEnd ℂ) (act Mᴴ q s i) * s' i = (starRingEnd ℂ) (s i) * ((if i.testBit q then M 1 1 else M 0 0) * s' i) +
      (starRingEnd ℂ) (s (flipBit q i)) * ((if (flipBit q i).testBit q then M 1 0 else M 0 1) * s' i) := by
    intro i
    rw [act_apply, testBit_flip]
    cases hb : i.testBit q <;> simp [Matrix.conjTranspose_apply] <;> ring
  have e2 : ∀ i, (starRingEnd ℂ) (s i) * act M q s' i = (starRingEnd ℂ) (s i) * ((if i.testBit q then M 1 1 else M 0 0) * s' i) +
      (starRingEnd ℂ) (s i) * ((if i.testBit q then M 1 0 else M 0 1) * s' (flipBit q i)) := by
    intro i
    rw [act_apply]; ring
  rw [Finset.sum_congr rfl fun i _ => e1 i, Finset.sum_congr rfl fun i _ => e2 i, Finset.sum_add_distrib, Finset.sum_add_distrib]
  congr 1
  rw [← sum_flip hq]
  exact Finset.sum_congr rfl fun i _ => by rw [Engine.flip_flip]

theorem inner_adj' {n q : ℕ} (hq : q < n) (M : Mat) (s s' : ℕ → ℂ) :
    Spec.inner n (act M q s) s' = Spec.inner n s (act Mᴴ q s') := by
  rw [← inner_adj hq, conjTranspose_conjTranspose]

/-- Matrices on several qubits one after the other. -/
def turn (l : List (ℕ × Mat)) (s : ℕ → ℂ) : ℕ → ℂ := l.foldl (fun s p => act p.2 p.1 s) s

/-- Unitary matrices on different qubits of the register. -/
structure Good (n : ℕ) (l : List (ℕ × Mat)) : Prop where
  nd : (l.map Prod.fst).Nodup
  lt : ∀ p ∈ l, p.1 < n
  uni : ∀ p ∈ l, p.2 * p.2ᴴ = 1 ∧ p.2ᴴ * p.2 = 1

theorem Good.tail {n : ℕ} {p : ℕ × Mat} {l : List (ℕ × Mat)} (h : Good n (p :: l)) : Good n l :=
  ⟨(List.nodup_cons.1 h.nd).2, fun x hx => h.lt x (List.mem_cons_of_mem _ hx), fun x hx => h.uni x (List.mem_cons_of_mem _ hx)⟩

theorem Good.head {n : ℕ} {p : ℕ × Mat} {l : List (ℕ × Mat)} (h : Good n (p :: l)) : ∀ x ∈ l, p.1 ≠ x.1 := by
  intro x hx e
  exact (List.nodup_cons.1 h.nd).1 (e ▸ List.mem_map_of_mem hx)

/-- The list of adjoints. -/
def adjs (l : List (ℕ × Mat)) : List (ℕ × Mat) := l.map fun p => (p.1, p.2ᴴ)

theorem Good.adjs {n : ℕ} {l : List (ℕ × Mat)} (h : Good n l) : Good n (Engine.adjs l) := by
  refine ⟨?_, ?_, ?_⟩
  · have : (Engine.adjs l).map Prod.fst = l.map Prod.fst := by simp [Engine.adjs]
    rw [this]; exact h.nd
  · intro p hp
    obtain ⟨x, hx, rfl⟩ := List.mem_map.1 hp
    exact h.lt x hx
  · intro p hp
    obtain ⟨x, hx, rfl⟩ := List.mem_map.1 hp
    rw [conjTranspose_conjTranspose]
    exact ⟨(h.uni x hx).2, (h.uni x hx).1⟩

theorem turn_comm (M : Mat) {q : ℕ} : ∀ (l : List (ℕ × Mat)), (∀ x ∈ l, q ≠ x.1) → ∀ s, act M q (turn l s) = turn l (act M q s)
  | [], _, _ => rfl
  | p :: l, h, s => by
    show act M q (turn l (act p.2 p.1 s)) = turn l (act p.2 p.1 (act M q s))
    rw [turn_comm M l (fun x hx => h x (List.mem_cons_of_mem _ hx)), act_comm _ _ (h p (by simp))]

theorem turn_congr {n : ℕ} : ∀ (l : List (ℕ × Mat)), (∀ x ∈ l, x.1 < n) → ∀ {s s' : ℕ → ℂ}, SameOn n s s' →
    SameOn n (turn l s) (turn l s')
  | [], _, _, _, h => h
  | p :: l, hl, s, s', h =>
    turn_congr l (fun x hx => hl x (List.mem_cons_of_mem _ hx)) (act_congr p.2 (hl p (by simp)) h)

theorem turn_smul (u : ℂ) : ∀ (l : List (ℕ × Mat)) (s : ℕ → ℂ), turn l (fun i => u * s i) = fun i => u * turn l s i
  | [], _ => rfl
  | p :: l, s => by
    show turn l (act p.2 p.1 fun i => u * s i) = _
    rw [act_smul, turn_smul u l]; rfl

/-- Turning back in the same order undoes the turn. -/
theorem turn_back {n : ℕ} : ∀ {l : List (ℕ × Mat)}, Good n l → ∀ s, turn l (turn (adjs l) s) = s
  | [], _, _ => rfl
  | p :: l, h, s => by
    show turn l (act p.2 p.1 (turn (adjs l) (act p.2ᴴ p.1 s))) = s
    rw [turn_comm p.2 (adjs l), turn_back h.tail, act_act, (h.uni p (by simp)).1, act_one]
    intro x hx
    obtain ⟨y, hy, rfl⟩ := List.mem_map.1 hx
    exact h.head y hy

theorem turn_inner {n : ℕ} : ∀ {l : List (ℕ × Mat)}, Good n l → ∀ s s', Spec.inner n (turn l s) (turn l s') = Spec.inner n s s'
  | [], _, _, _ => rfl
  | p :: l, h, s, s' => by
    show Spec.inner n (turn l (act p.2 p.1 s)) (turn l (act p.2 p.1 s')) = _
    rw [turn_inner h.tail, inner_adj' (h.lt p (by simp)), act_act, (h.uni p (by simp)).2, act_one]

theorem turn_total {n : ℕ} {l : List (ℕ × Mat)} (h : Good n l) (s : ℕ → ℂ) : totalProb n (turn l s) = totalProb n s := by
  have := turn_inner h s s
  rw [← totalProb_eq_inner, ← totalProb_eq_inner] at this
  exact_mod_cast this

/-- One qubit in its own basis; the other qubits do not matter. -/
theorem turn_one {n : ℕ} (D : Mat) {q : ℕ} {U : Mat} : ∀ {l : List (ℕ × Mat)}, Good n l → (q, U) ∈ l → ∀ s s',
    Spec.inner n (turn (adjs l) s) (act D q (turn (adjs l) s')) = Spec.inner n s (act (U * D * Uᴴ) q s')
  | [], _, hm, _, _ => by cases hm
  | p :: l, h, hm, s, s' => by
    have hp := h.lt p (by simp)
    show Spec.inner n (turn (adjs l) (act p.2ᴴ p.1 s)) (act D q (turn (adjs l) (act p.2ᴴ p.1 s'))) = _
    by_cases hq : q = p.1
    · have hU : U = p.2 := by
        rcases List.mem_cons.1 hm with e | e
        · rw [← e]
        · exact absurd hq.symm (h.head _ e)
      subst hq hU
      rw [turn_comm D (adjs l), turn_inner h.tail.adjs, inner_adj hp, act_act, act_act, Matrix.mul_assoc]
      intro x hx
      obtain ⟨y, hy, rfl⟩ := List.mem_map.1 hx
      exact h.head y hy
    · have hm' : (q, U) ∈ l := by
        rcases List.mem_cons.1 hm with e | e
        · exact absurd (by rw [← e]) hq
        · exact e
      rw [turn_one D h.tail hm', act_comm _ _ hq, inner_adj hp, act_act, (h.uni p (by simp)).1, act_one]

/-- All qubits at once. -/
theorem tensor_comm (M : Mat) {q : ℕ} : ∀ (l : List (ℕ × Mat)), (∀ x ∈ l, q ≠ x.1) → ∀ s, act M q (tensor l s) = tensor l (act M q s)
  | [], _, _ => rfl
  | p :: l, h, s => by
    show act M q (act p.2 p.1 (tensor l s)) = act p.2 p.1 (tensor l (act M q s))
    rw [act_comm _ _ (h p (by simp)), tensor_comm M l (fun x hx => h x (List.mem_cons_of_mem _ hx))]

/-- The qubits and bases of a list of qubits, bases and operators. -/
def bases (L : List (ℕ × Mat × Mat)) : List (ℕ × Mat) := L.map fun p => (p.1, p.2.1)

/-- The operators themselves. -/
def diags (L : List (ℕ × Mat × Mat)) : List (ℕ × Mat) := L.map fun p => (p.1, p.2.2)

/-- The operators in their bases. -/
def inBasis (L : List (ℕ × Mat × Mat)) : List (ℕ × Mat) := L.map fun p => (p.1, p.2.1 * p.2.2 * p.2.1ᴴ)

theorem turn_tensor {n : ℕ} : ∀ {L : List (ℕ × Mat × Mat)}, Good n (bases L) → ∀ s s',
    Spec.inner n (turn (adjs (bases L)) s) (tensor (diags L) (turn (adjs (bases L)) s')) = Spec.inner n s (tensor (inBasis L) s')
  | [], _, _, _ => rfl
  | p :: L, h, s, s' => by
    have hp : p.1 < n := h.lt (p.1, p.2.1) (by simp [bases])
    have hh : ∀ y ∈ L, p.1 ≠ y.1 := fun y hy => Good.head (p := (p.1, p.2.1)) (l := bases L) h (y.1, y.2.1) (List.mem_map.2 ⟨y, hy, rfl⟩)
    have ht : Good n (bases L) := Good.tail (p := (p.1, p.2.1)) (l := bases L) h
    have hadj : ∀ x ∈ adjs (bases L), p.1 ≠ x.1 := by
      intro x hx
      obtain ⟨y, hy, rfl⟩ := List.mem_map.1 hx
      obtain ⟨z, hz, rfl⟩ := List.mem_map.1 hy
      exact hh z hz
    have hD : ∀ x ∈ diags L, p.1 ≠ x.1 := by
      intro x hx
      obtain ⟨y, hy, rfl⟩ := List.mem_map.1 hx
      exact hh y hy
    have hB : ∀ x ∈ inBasis L, p.1 ≠ x.1 := by
      intro x hx
      obtain ⟨y, hy, rfl⟩ := List.mem_map.1 hx
      exact hh y hy
    show Spec.inner n (turn (adjs (bases L)) (act p.2.1ᴴ p.1 s)) (act p.2.2 p.1 (tensor (diags L) (turn (adjs (bases L)) (act p.2.1ᴴ p.1 s')))) =
      Spec.inner n s (act (p.2.1 * p.2.2 * p.2.1ᴴ) p.1 (tensor (inBasis L) s'))
    rw [tensor_comm _ _ hD, turn_comm _ _ hadj, turn_tensor ht, inner_adj hp, tensor_comm _ _ hB, act_act, act_act, Matrix.mul_assoc,
      tensor_comm _ _ hB]

/-! ### Averages -/

/-- A diagonal matrix with the two weights. -/
noncomputable def dg (w : ℝ × ℝ) : Mat := !![(w.1 : ℂ), 0; 0, (w.2 : ℂ)]

theorem act_dg (w : ℝ × ℝ) (q : ℕ) (s : ℕ → ℂ) (i : ℕ) : act (dg w) q s i = ((if i.testBit q then w.2 else w.1 : ℝ) : ℂ) * s i := by
  rw [act_apply]
  unfold dg
  cases i.testBit q <;> simp

theorem mean_inner (n : ℕ) (f : ℕ → ℝ) (s : ℕ → ℂ) : (mean n f s : ℂ) = Spec.inner n s (fun i => (f i : ℂ) * s i) := by
  unfold mean Spec.inner
  rw [Complex.ofReal_sum]
  refine Finset.sum_congr rfl fun i _ => ?_
  rw [Complex.ofReal_mul, Complex.normSq_eq_conj_mul_self]; ring

theorem mean_add (n : ℕ) (f g : ℕ → ℝ) (s : ℕ → ℂ) : mean n (fun i => f i + g i) s = mean n f s + mean n g s := by
  unfold mean
  rw [← Finset.sum_add_distrib]
  exact Finset.sum_congr rfl fun i _ => by ring

theorem mean_zero (n : ℕ) (s : ℕ → ℂ) : mean n (fun _ => 0) s = 0 := by simp [mean]

/-- The sum of the weights, term by term. -/
theorem mean_weights (n : ℕ) (s : ℕ → ℂ) : ∀ (bits : List ℕ) (ws : List (ℝ × ℝ)),
    mean n (weightOf bits ws) s = ((bits.zip ws).map fun x => (Spec.inner n s (act (dg x.2) x.1 s)).re).sum
  | [], ws => by
    have : (weightOf [] ws : ℕ → ℝ) = fun _ => 0 := by funext i; simp [weightOf]
    rw [this, mean_zero]; rfl
  | b :: bs, [] => by
    have : (weightOf (b :: bs) [] : ℕ → ℝ) = fun _ => 0 := by funext i; simp [weightOf]
    rw [this, mean_zero]; rfl
  | b :: bs, w :: ws => by
    have : (weightOf (b :: bs) (w :: ws) : ℕ → ℝ) = fun i => (if i.testBit b then w.2 else w.1) + weightOf bs ws i := by
      funext i; simp [weightOf]
    rw [this, mean_add, mean_weights n s bs ws]
    rw [List.zip_cons_cons, List.map_cons, List.sum_cons]
    congr 1
    rw [← Complex.ofReal_re (mean n _ s), mean_inner]
    congr 2
    funext i
    rw [act_dg]

/-- The product of the weights. -/
noncomputable def prodOf : List ℕ → List (ℝ × ℝ) → ℕ → ℝ
  | b :: bs, w :: ws, i => (if i.testBit b then w.2 else w.1) * prodOf bs ws i
  | _, _, _ => 1

theorem tensor_dg (s : ℕ → ℂ) : ∀ (bits : List ℕ) (ws : List (ℝ × ℝ)) (i : ℕ),
    tensor ((bits.zip ws).map fun x => (x.1, dg x.2)) s i = (prodOf bits ws i : ℂ) * s i
  | [], ws, i => by simp [tensor, prodOf]
  | b :: bs, [], i => by simp [tensor, prodOf]
  | b :: bs, w :: ws, i => by
    show act (dg w) b (tensor ((bs.zip ws).map fun x => (x.1, dg x.2)) s) i = _
    rw [act_dg, tensor_dg s bs ws i, prodOf, Complex.ofReal_mul]; ring

/-! ### Unitary matrices of the engine -/

theorem det_conj {m : M2} (hm : m.IsUnitary) :
    (m.a * m.d - m.b * m.c) * (starRingEnd ℂ) m.a = m.d ∧ (m.a * m.d - m.b * m.c) * (starRingEnd ℂ) m.c = -m.b ∧
    (m.a * m.d - m.b * m.c) * (starRingEnd ℂ) m.b = -m.c ∧ (m.a * m.d - m.b * m.c) * (starRingEnd ℂ) m.d = m.a := by
  have o1 := hm.orth
  have o2 : m.a * (starRingEnd ℂ) m.b + m.c * (starRingEnd ℂ) m.d = 0 := by
    have := congrArg (starRingEnd ℂ) hm.orth
    simpa using this
  have c0 := hm.col0
  have c1 := hm.col1
  refine ⟨?_, ?_, ?_, ?_⟩
  · linear_combination m.d * c0 - m.c * o1
  · linear_combination (-m.b) * c0 + m.a * o1
  · linear_combination (-m.c) * c1 + m.d * o2
  · linear_combination m.a * c1 - m.b * o2

theorem det_ne {m : M2} (hm : m.IsUnitary) : m.a * m.d - m.b * m.c ≠ 0 := by
  intro h
  obtain ⟨h1, h2, _, _⟩ := det_conj hm
  rw [h, zero_mul] at h1 h2
  have hb : m.b = 0 := by linear_combination h2
  have := hm.col1
  rw [hb, ← h1] at this
  simp at this

/-- The inverse of a unitary matrix is its adjoint. -/
theorem invM_unitary {m : M2} (hm : m.IsUnitary) : invM m = some m.adj := by
  obtain ⟨h1, h2, h3, h4⟩ := det_conj hm
  have hd := det_ne hm
  unfold invM Matrix2.inv2x2
  simp only [if_neg hd, Option.map_some, M2.adj, Option.some.injEq, M2.mk.injEq]
  refine ⟨?_, ?_, ?_, ?_⟩ <;> field_simp
  · linear_combination -h1
  · linear_combination -h2
  · linear_combination -h3
  · linear_combination -h4

theorem mat_adj (m : M2) : mat m.adj = (mat m)ᴴ := by
  ext i j
  fin_cases i <;> fin_cases j <;> rfl

theorem mat_unitary {m : M2} (hm : m.IsUnitary) : mat m * (mat m)ᴴ = 1 ∧ (mat m)ᴴ * mat m = 1 := by
  have h : (mat m)ᴴ * mat m = 1 := by
    have o2 : m.a * (starRingEnd ℂ) m.b + m.c * (starRingEnd ℂ) m.d = 0 := by
      have := congrArg (starRingEnd ℂ) hm.orth
      simpa using this
    rw [← mat_adj]
    unfold mat M2.adj
    rw [Matrix.mul_fin_two, Matrix.one_fin_two]
    rw [hm.col0, hm.col1, hm.orth]
    congr 1
    have : (starRingEnd ℂ) m.b * m.a + (starRingEnd ℂ) m.d * m.c = 0 := by rw [← o2]; ring
    rw [this]
  exact ⟨mul_eq_one_comm.1 h, h⟩

theorem unitary_of_mat {m : M2} (h : (mat m)ᴴ * mat m = 1) : m.IsUnitary := by
  rw [← mat_adj] at h
  unfold mat M2.adj at h
  rw [Matrix.mul_fin_two, Matrix.one_fin_two] at h
  refine ⟨?_, ?_, ?_⟩
  · simpa using congrFun (congrFun h 0) 0
  · simpa using congrFun (congrFun h 1) 1
  · simpa using congrFun (congrFun h 0) 1

theorem adj_unitary {m : M2} (hm : m.IsUnitary) : m.adj.IsUnitary := by
  apply unitary_of_mat
  rw [mat_adj, conjTranspose_conjTranspose]
  exact (mat_unitary hm).1

/-! ### The loops -/

/-- What the loops need of an engine, and keep. -/
structure Calm (n : ℕ) (r : Bool) (e : Eng) : Prop where
  n_eq : e.n = n
  norm : e.doNorm = false
  rgp : e.rgp = r

theorem mtrx_calm {σ : List ℕ → List ℕ} (hσ : IsSched σ) {n : ℕ} (hn : n ≤ 64) {r : Bool} {e : Eng} (he : Calm n r e) {m : M2}
    (hm : m.IsUnitary) {q : ℕ} (hq : q < n) :
    ∃ e' u, mtrx σ e m q = some e' ∧ Calm n r e' ∧ ‖u‖ = 1 ∧ SameOn n e'.amp (fun i => u * act (mat m) q e.amp i) := by
  obtain ⟨rfl, hd, rfl⟩ := he
  obtain ⟨e', h1, h2, _, h4, _, h6, h7, h8⟩ := mtrx_gate hσ hn (m := m) (Or.inl hd) hq
  by_cases hdr : Dropped e.rgp m
  · have ha : ‖m.a‖ = 1 := scalar_norm hm hdr.2.2.1
    have ha0 : m.a ≠ 0 := by intro h; rw [h] at ha; simp at ha
    refine ⟨e', m.a⁻¹, h1, ⟨h2, by rw [h4, hd], h6⟩, by rw [norm_inv, ha, inv_one], fun i hi => ?_⟩
    rw [act_mat]
    dsimp only
    rw [← h8 hdr i hi, ← mul_assoc, inv_mul_cancel₀ ha0, one_mul]
  · refine ⟨e', 1, h1, ⟨h2, by rw [h4, hd], h6⟩, by simp, fun i hi => ?_⟩
    rw [act_mat]
    dsimp only
    rw [one_mul]; exact h7 hdr i hi

theorem applyOps_calm {σ : List ℕ → List ℕ} (hσ : IsSched σ) {n : ℕ} (hn : n ≤ 64) {r : Bool} :
    ∀ (l : List (ℕ × M2)) {e : Eng}, Calm n r e → (∀ p ∈ l, p.1 < n ∧ p.2.IsUnitary) →
    ∃ e' u, applyOps σ e l = some e' ∧ Calm n r e' ∧ ‖u‖ = 1 ∧
      SameOn n e'.amp (fun i => u * turn (l.map fun p => (p.1, mat p.2)) e.amp i)
  | [], e, he, _ => ⟨e, 1, rfl, he, by simp, fun i _ => by simp [turn]⟩
  | (b, m) :: l, e, he, hl => by
    obtain ⟨hb, hm⟩ := hl (b, m) (by simp)
    obtain ⟨f, u, f1, f2, f3, f4⟩ := mtrx_calm hσ hn he hm hb
    have hl' : ∀ p ∈ l, p.1 < n ∧ p.2.IsUnitary := fun p hp => hl p (List.mem_cons_of_mem _ hp)
    obtain ⟨g, v, g1, g2, g3, g4⟩ := applyOps_calm hσ hn l f2 hl'
    refine ⟨g, v * u, ?_, g2, by rw [norm_mul, g3, f3, mul_one], fun i hi => ?_⟩
    · rw [applyOps, f1, Option.bind_some, g1]
    · have ht := turn_congr (n := n) (l.map fun p => (p.1, mat p.2)) (fun x hx => by
        obtain ⟨y, hy, rfl⟩ := List.mem_map.1 hx; exact (hl' y hy).1) f4 i hi
      rw [turn_smul] at ht
      rw [g4 i hi]
      dsimp only
      rw [ht]
      show v * (u * turn (l.map fun p => (p.1, mat p.2)) (act (mat m) b e.amp) i) = v * u * turn (l.map fun p => (p.1, mat p.2)) (act (mat m) b e.amp) i
      ring

theorem applyInv_eq (σ : List ℕ → List ℕ) : ∀ (l : List (ℕ × M2)) (e : Eng), (∀ p ∈ l, p.2.IsUnitary) →
    applyInv σ e l = applyOps σ e (l.map fun p => (p.1, p.2.adj))
  | [], _, _ => rfl
  | (b, m) :: l, e, h => by
    rw [applyInv, invM_unitary (h (b, m) (by simp)), Option.bind_some, List.map_cons, applyOps]
    congr 1
    funext f
    exact applyInv_eq σ l f fun p hp => h p (List.mem_cons_of_mem _ hp)

/-! ### The matrix of three angles -/

theorem uM_neg (x y z : ℝ) : uM (-x) (-y) (-z) = (uM x z y).adj := by
  unfold uM M2.adj
  rw [M2.mk.injEq]
  refine ⟨?_, ?_, ?_, ?_⟩ <;> apply Complex.ext <;>
    simp [neg_div, Real.cos_neg, Real.sin_neg, ← neg_add, add_comm, -neg_add_rev, -Complex.ofReal_sin, -Complex.ofReal_cos]

theorem uM_unitary (x y z : ℝ) : (uM x y z).IsUnitary := by
  have h := Real.sin_sq_add_cos_sq (x / 2)
  have hy := Real.sin_sq_add_cos_sq y
  have hz := Real.sin_sq_add_cos_sq z
  have hyz := Real.sin_sq_add_cos_sq (y + z)
  refine ⟨?_, ?_, ?_⟩ <;> apply Complex.ext <;> simp [uM, -Complex.ofReal_sin, -Complex.ofReal_cos]
  · linear_combination h + (Real.sin (x / 2)) ^ 2 * hy
  · ring
  · linear_combination h + (Real.sin (x / 2)) ^ 2 * hz + (Real.cos (x / 2)) ^ 2 * hyz
  · ring
  · rw [Real.cos_add, Real.sin_add]
    linear_combination (Real.sin (x/2) * Real.cos (x/2) * Real.cos z) * hy
  · rw [Real.cos_add, Real.sin_add]
    linear_combination (Real.sin (x/2) * Real.cos (x/2) * Real.sin z) * hy

theorem applyNegU_eq (σ : List ℕ → List ℕ) : ∀ (l : List (ℕ × ℝ × ℝ × ℝ)) (e : Eng),
    applyNegU σ e l = applyOps σ e (l.map fun p => (p.1, (uM p.2.1 p.2.2.2 p.2.2.1).adj))
  | [], _ => rfl
  | (b, x, y, z) :: l, e => by
    rw [applyNegU, uM_neg, List.map_cons, applyOps]
    congr 1
    funext f
    exact applyNegU_eq σ l f

theorem applyU_eq (σ : List ℕ → List ℕ) : ∀ (l : List (ℕ × ℝ × ℝ × ℝ)) (e : Eng),
    applyU σ e l = applyOps σ e (l.map fun p => (p.1, uM p.2.1 p.2.2.1 p.2.2.2))
  | [], _ => rfl
  | (b, x, y, z) :: l, e => by
    rw [applyU, List.map_cons, applyOps]
    congr 1
    funext f
    exact applyU_eq σ l f

end Verif.Engine
