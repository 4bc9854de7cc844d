import Verif.Lemmas.DefaultsPair
import Verif.Lemmas.DefaultsUniform
import Verif.Props.EngineUnitary
import Verif.Props.EngineMaskGates
import Mathlib.LinearAlgebra.Matrix.NonsingularInverse

/-!
The calls of the default bodies are calls that a simulator accepts, and the state transformations of the mask gates.
-/

namespace Verif.Defaults

open Verif.Engine Verif.Spec Verif.Bits Complex Classical

/-- Every call is one that an `n`-qubit simulator accepts, with a matrix of the given kind. -/
def Fine (Adm : M2 → Prop) (n : ℕ) (p : List Prim) : Prop := ∀ o ∈ p, o.Ok n ∧ Adm o.m

variable {Adm : M2 → Prop} {n : ℕ}

theorem fine_nil : Fine Adm n [] := by intro o ho; cases ho

theorem fine_append {p q : List Prim} : Fine Adm n (p ++ q) ↔ Fine Adm n p ∧ Fine Adm n q := by
  unfold Fine; simp only [List.mem_append]
  exact ⟨fun h => ⟨fun o ho => h o (Or.inl ho), fun o ho => h o (Or.inr ho)⟩, fun h o ho => ho.elim (h.1 o) (h.2 o)⟩

theorem fine_cons {o : Prim} {p : List Prim} : Fine Adm n (o :: p) ↔ (o.Ok n ∧ Adm o.m) ∧ Fine Adm n p := by
  unfold Fine; simp

theorem fine_flatMap {α : Type*} {l : List α} {f : α → List Prim} (h : ∀ a ∈ l, Fine Adm n (f a)) : Fine Adm n (l.flatMap f) := by
  intro o ho
  obtain ⟨a, ha, hoa⟩ := List.mem_flatMap.1 ho
  exact h a ha o hoa

theorem fine_mtrx {m : M2} {t : ℕ} (hm : Adm m) (ht : t < n) : Fine Adm n [.mtrx m t] := by
  intro o ho; obtain rfl := List.mem_singleton.1 ho; exact ⟨ht, hm⟩

theorem fine_mc {cs : List ℕ} {m : M2} {t : ℕ} (hm : Adm m) (hnd : (cs ++ [t]).Nodup) (hb : ∀ k ∈ cs ++ [t], k < n) :
    Fine Adm n [.mc cs m t] := by
  intro o ho; obtain rfl := List.mem_singleton.1 ho; exact ⟨⟨hnd, hb⟩, hm⟩

/-! ## Unitary matrices -/

theorem conj_mul_of_norm {z : ℂ} (h : ‖z‖ = 1) : (starRingEnd ℂ) z * z = 1 := by
  rw [mul_comm, Complex.mul_conj, Complex.normSq_eq_norm_sq, h]; norm_num

theorem unitary_diag {a d : ℂ} (ha : ‖a‖ = 1) (hd : ‖d‖ = 1) : M2.IsUnitary ⟨a, 0, 0, d⟩ :=
  ⟨by simp [conj_mul_of_norm ha], by simp [conj_mul_of_norm hd], by simp⟩

theorem unitary_anti {b c : ℂ} (hb : ‖b‖ = 1) (hc : ‖c‖ = 1) : M2.IsUnitary ⟨0, b, c, 0⟩ :=
  ⟨by simp [conj_mul_of_norm hc], by simp [conj_mul_of_norm hb], by simp⟩

theorem unitary_x : M2.IsUnitary ⟨0, 1, 1, 0⟩ := unitary_anti (by simp) (by simp)

theorem unitary_hM : M2.IsUnitary hM := by
  have h := s12_sqC
  refine ⟨?_, ?_, ?_⟩ <;> simp only [hM, map_neg, Complex.conj_ofReal]
  · linear_combination 2 * h
  · linear_combination 2 * h
  · ring

theorem norm_sqrtI : ‖sqrtI‖ = 1 := by
  have : Complex.normSq sqrtI = 1 := by rw [Complex.normSq_apply]; show s12 * s12 + s12 * s12 = 1; rw [s12_sq]; norm_num
  rw [Complex.norm_def, this, Real.sqrt_one]

theorem norm_sqrtNI : ‖sqrtNI‖ = 1 := by
  have : Complex.normSq sqrtNI = 1 := by rw [Complex.normSq_apply]; show s12 * s12 + -s12 * -s12 = 1; linarith [s12_sq]
  rw [Complex.norm_def, this, Real.sqrt_one]

/-- A multiple of the identity that is unitary is a phase. -/
theorem scalar_norm {m : M2} (h : m.IsUnitary) (hc : m.c = 0) : ‖m.a‖ = 1 := by
  have h1 := h.col0
  rw [hc] at h1
  simp only [map_zero, mul_zero, add_zero] at h1
  rw [mul_comm, Complex.mul_conj, Complex.normSq_eq_norm_sq] at h1
  have h2 : ‖m.a‖ ^ 2 = 1 := by exact_mod_cast h1
  nlinarith [norm_nonneg m.a]

/-! ## Acceptance -/

theorem fine_x (hU : ∀ m : M2, m.IsUnitary → Adm m) {q : ℕ} (hq : q < n) : Fine Adm n (x q) := fine_mtrx (hU _ unitary_x) hq

theorem mask_lt {mask q : ℕ} (hm : mask < 2 ^ n) (hq : mask.testBit q = true) : q < n := by
  by_contra h
  rw [lt_two_pow_iff_testBit.1 hm q (by omega)] at hq
  cases hq

theorem fine_xMask (hU : ∀ m : M2, m.IsUnitary → Adm m) {mask : ℕ} (hm : mask < 2 ^ n) : Fine Adm n (xMask mask) :=
  fine_flatMap fun q hq => fine_x hU (mask_lt hm (((maskQubits_spec mask).2 q).1 hq))

theorem ctrlMask_lt {cs : List ℕ} (h : ∀ c ∈ cs, c < n) : ctrlMask cs < 2 ^ n := by
  apply lt_two_pow_iff_testBit.2
  intro k hk
  rw [testBit_ctrlMask, decide_eq_false_iff_not]
  intro hc; have := h k hc; omega

theorem fine_phase {tl br : ℂ} {q : ℕ} (r : Bool) (hm : Adm ⟨tl, 0, 0, br⟩) (hq : q < n) : Fine Adm n (phase r tl br q) := by
  unfold phase; split_ifs
  · exact fine_nil
  · exact fine_mtrx hm hq

theorem fine_mcPhase {cs : List ℕ} {tl br : ℂ} {t : ℕ} (hm : Adm ⟨tl, 0, 0, br⟩) (hnd : (cs ++ [t]).Nodup)
    (hb : ∀ k ∈ cs ++ [t], k < n) : Fine Adm n (mcPhase cs tl br t) := by
  unfold mcPhase; split_ifs
  · exact fine_nil
  · exact fine_mc hm hnd hb

theorem fine_wrap (hU : ∀ m : M2, m.IsUnitary → Adm m) {cs : List ℕ} (hb : ∀ c ∈ cs, c < n) {p : List Prim} (hp : Fine Adm n p) :
    Fine Adm n (xMask (ctrlMask cs) ++ p ++ xMask (ctrlMask cs)) :=
  fine_append.2 ⟨fine_append.2 ⟨fine_xMask hU (ctrlMask_lt hb), hp⟩, fine_xMask hU (ctrlMask_lt hb)⟩

theorem fine_macPhase (hU : ∀ m : M2, m.IsUnitary → Adm m) {cs : List ℕ} {tl br : ℂ} {t : ℕ} (hm : Adm ⟨tl, 0, 0, br⟩)
    (hnd : (cs ++ [t]).Nodup) (hb : ∀ k ∈ cs ++ [t], k < n) : Fine Adm n (macPhase cs tl br t) := by
  unfold macPhase; split_ifs
  · exact fine_nil
  · exact fine_wrap hU (fun c hc => hb c (by simp [hc])) (fine_mcPhase hm hnd hb)

theorem fine_macInvert (hU : ∀ m : M2, m.IsUnitary → Adm m) {cs : List ℕ} {tr bl : ℂ} {t : ℕ} (hm : Adm ⟨0, tr, bl, 0⟩)
    (hnd : (cs ++ [t]).Nodup) (hb : ∀ k ∈ cs ++ [t], k < n) : Fine Adm n (macInvert cs tr bl t) :=
  fine_wrap hU (fun c hc => hb c (by simp [hc])) (fine_mc hm hnd hb)

theorem fine_macMtrx (hU : ∀ m : M2, m.IsUnitary → Adm m) {cs : List ℕ} {m : M2} {t : ℕ} (hm : Adm m)
    (hnd : (cs ++ [t]).Nodup) (hb : ∀ k ∈ cs ++ [t], k < n) : Fine Adm n (macMtrx cs m t) := by
  obtain ⟨a, b, c, d⟩ := m
  unfold macMtrx; dsimp only; split_ifs with h1 h2
  · obtain ⟨rfl, rfl⟩ := h1; exact fine_macPhase hU hm hnd hb
  · obtain ⟨rfl, rfl⟩ := h2; exact fine_macInvert hU hm hnd hb
  · exact fine_wrap hU (fun c hc => hb c (by simp [hc])) (fine_mc hm hnd hb)

theorem fine_xWhere (hU : ∀ m : M2, m.IsUnitary → Adm m) {cs : List ℕ} (hb : ∀ c ∈ cs, c < n) (v : Bool) (perm : ℕ) :
    Fine Adm n (xWhere v cs perm) := by
  refine fine_flatMap fun i hi => ?_
  have hi' := List.mem_range.1 hi
  split_ifs
  · rw [List.getD_eq_getElem _ _ hi']; exact fine_x hU (hb _ (List.getElem_mem hi'))
  · exact fine_nil

theorem fine_ucMtrx (hU : ∀ m : M2, m.IsUnitary → Adm m) {cs : List ℕ} {m : M2} {t : ℕ} (hm : Adm m)
    (hnd : (cs ++ [t]).Nodup) (hb : ∀ k ∈ cs ++ [t], k < n) (perm : ℕ) : Fine Adm n (ucMtrx cs m t perm) := by
  have hc : ∀ c ∈ cs, c < n := fun c hc => hb c (by simp [hc])
  unfold ucMtrx; dsimp only; split_ifs
  · exact fine_append.2 ⟨fine_append.2 ⟨fine_xWhere hU hc _ _, fine_mc hm hnd hb⟩, fine_xWhere hU hc _ _⟩
  · exact fine_append.2 ⟨fine_append.2 ⟨fine_xWhere hU hc _ _, fine_macMtrx hU hm hnd hb⟩, fine_xWhere hU hc _ _⟩

theorem fine_uniform (hU : ∀ m : M2, m.IsUnitary → Adm m) {cs : List ℕ} {ms : ℕ → M2} {t : ℕ} {ps : List ℕ} {val : ℕ}
    (hm : ∀ v < 2 ^ cs.length, Adm (ms (Utils.pushApart 128 v ps ||| val)))
    (hnd : (cs ++ [t]).Nodup) (hb : ∀ k ∈ cs ++ [t], k < n) : Fine Adm n (uniform cs t ms ps val) := by
  have hc : ∀ c ∈ cs, c < n := fun c hc => hb c (by simp [hc])
  have h1 : 0 < 2 ^ cs.length := by positivity
  unfold uniform
  refine fine_append.2 ⟨fine_append.2 ⟨fine_flatMap fun q hq => fine_x hU (hc q hq), fine_flatMap fun v hv => ?_⟩,
    fine_mc (hm _ (by omega)) hnd hb⟩
  have := List.mem_range.1 hv
  exact fine_cons.2 ⟨⟨⟨hnd, hb⟩, hm _ (by omega)⟩, fine_xWhere hU hc _ _⟩

theorem nodup_pair {a b : ℕ} (h : a ≠ b) : ([a] ++ [b]).Nodup := by simpa using h

theorem lt_pair {a b : ℕ} (ha : a < n) (hb : b < n) : ∀ k ∈ [a] ++ [b], k < n := by
  intro k hk; simp at hk; rcases hk with rfl | rfl <;> assumption

theorem fine_cnot (hU : ∀ m : M2, m.IsUnitary → Adm m) {c q : ℕ} (h : c ≠ q) (hc : c < n) (hq : q < n) : Fine Adm n (cnot c q) :=
  fine_mc (hU _ unitary_x) (nodup_pair h) (lt_pair hc hq)

theorem fine_phaseU (hU : ∀ m : M2, m.IsUnitary → Adm m) (r : Bool) {tl br : ℂ} (h1 : ‖tl‖ = 1) (h2 : ‖br‖ = 1) {q : ℕ} (hq : q < n) :
    Fine Adm n (phase r tl br q) := fine_phase r (hU _ (unitary_diag h1 h2)) hq

theorem fine_swap (hU : ∀ m : M2, m.IsUnitary → Adm m) {q1 q2 : ℕ} (h1 : q1 < n) (h2 : q2 < n) : Fine Adm n (swap q1 q2) := by
  unfold swap; split_ifs with h
  · exact fine_nil
  · simp only [fine_append]
    exact ⟨⟨fine_cnot hU h h1 h2, fine_cnot hU (Ne.symm h) h2 h1⟩, fine_cnot hU h h1 h2⟩

theorem fine_s (hU : ∀ m : M2, m.IsUnitary → Adm m) (r : Bool) {q : ℕ} (hq : q < n) : Fine Adm n (Defaults.s r q) :=
  fine_phaseU hU r (by simp) (by simp) hq
theorem fine_is (hU : ∀ m : M2, m.IsUnitary → Adm m) (r : Bool) {q : ℕ} (hq : q < n) : Fine Adm n (Defaults.is r q) :=
  fine_phaseU hU r (by simp) (by simp) hq
theorem fine_t (hU : ∀ m : M2, m.IsUnitary → Adm m) (r : Bool) {q : ℕ} (hq : q < n) : Fine Adm n (Defaults.t r q) :=
  fine_phaseU hU r (by simp) norm_sqrtI hq
theorem fine_it (hU : ∀ m : M2, m.IsUnitary → Adm m) (r : Bool) {q : ℕ} (hq : q < n) : Fine Adm n (Defaults.it r q) :=
  fine_phaseU hU r (by simp) norm_sqrtNI hq
theorem fine_h (hU : ∀ m : M2, m.IsUnitary → Adm m) {q : ℕ} (hq : q < n) : Fine Adm n (Defaults.h q) :=
  fine_mtrx (hU _ unitary_hM) hq
theorem fine_cz (hU : ∀ m : M2, m.IsUnitary → Adm m) {c q : ℕ} (h : c ≠ q) (hc : c < n) (hq : q < n) : Fine Adm n (cz c q) :=
  fine_mcPhase (hU _ (unitary_diag (by simp) (by simp))) (nodup_pair h) (lt_pair hc hq)

theorem fine_iswap (hU : ∀ m : M2, m.IsUnitary → Adm m) (r : Bool) {q1 q2 : ℕ} (h1 : q1 < n) (h2 : q2 < n) : Fine Adm n (iswap r q1 q2) := by
  unfold iswap; split_ifs with h
  · exact fine_nil
  · simp only [fine_append]
    exact ⟨⟨⟨fine_swap hU h1 h2, fine_cz hU h h1 h2⟩, fine_s hU r h1⟩, fine_s hU r h2⟩

theorem fine_iiswap (hU : ∀ m : M2, m.IsUnitary → Adm m) (r : Bool) {q1 q2 : ℕ} (h1 : q1 < n) (h2 : q2 < n) : Fine Adm n (iiswap r q1 q2) := by
  unfold iiswap; split_ifs with h
  · exact fine_nil
  · simp only [fine_append]
    exact ⟨⟨⟨fine_is hU r h2, fine_is hU r h1⟩, fine_cz hU h h1 h2⟩, fine_swap hU h1 h2⟩

theorem fine_sqrtSwap (hU : ∀ m : M2, m.IsUnitary → Adm m) (r : Bool) {q1 q2 : ℕ} (h1 : q1 < n) (h2 : q2 < n) :
    Fine Adm n (sqrtSwap r q1 q2) := by
  unfold sqrtSwap; split_ifs with h
  · exact fine_nil
  · simp only [fine_append, fine_cnot hU h h1 h2, fine_h hU h1, fine_h hU h2, fine_s hU r h2, fine_is hU r h1, fine_t hU r h1,
      fine_it hU r h2, fine_it hU r h1, and_self]

theorem fine_isqrtSwap (hU : ∀ m : M2, m.IsUnitary → Adm m) (r : Bool) {q1 q2 : ℕ} (h1 : q1 < n) (h2 : q2 < n) :
    Fine Adm n (isqrtSwap r q1 q2) := by
  unfold isqrtSwap; split_ifs with h
  · exact fine_nil
  · simp only [fine_append, fine_cnot hU h h1 h2, fine_h hU h1, fine_h hU h2, fine_s hU r h1, fine_is hU r h2, fine_t hU r h1,
      fine_t hU r h2, fine_it hU r h1, and_self]

theorem nodup_snoc {cs : List ℕ} {q : ℕ} (h : cs.Nodup) (hq : q ∉ cs) : (cs ++ [q]).Nodup := by
  rw [List.nodup_append]
  refine ⟨h, by simp, fun a ha b hb => ?_⟩
  simp at hb; rintro rfl; exact hq (hb ▸ ha)

theorem lt_snoc {cs : List ℕ} {q : ℕ} (h : ∀ c ∈ cs, c < n) (hq : q < n) : ∀ k ∈ cs ++ [q], k < n := by
  intro k hk; simp at hk; rcases hk with hk | rfl
  · exact h k hk
  · exact hq

/-- Controls and targets of a controlled exchange. -/
structure Distinct (n : ℕ) (cs : List ℕ) (q1 q2 : ℕ) : Prop where
  nodup : cs.Nodup
  lt : ∀ c ∈ cs, c < n
  lt1 : q1 < n
  lt2 : q2 < n
  not1 : q1 ∉ cs
  not2 : q2 ∉ cs

theorem fine_ccx (hU : ∀ m : M2, m.IsUnitary → Adm m) {cs : List ℕ} {q1 q2 : ℕ} (h : Distinct n cs q1 q2) (hq : q1 ≠ q2) :
    (Prim.mc (cs ++ [q1]) ⟨0, 1, 1, 0⟩ q2).Ok n ∧ Adm (Prim.mc (cs ++ [q1]) ⟨0, 1, 1, 0⟩ q2).m :=
  ⟨⟨nodup_snoc (nodup_snoc h.nodup h.not1) (by simp [h.not2, Ne.symm hq]), lt_snoc (lt_snoc h.lt h.lt1) h.lt2⟩, hU _ unitary_x⟩

theorem fine_cswap (hU : ∀ m : M2, m.IsUnitary → Adm m) {cs : List ℕ} {q1 q2 : ℕ} (h : Distinct n cs q1 q2) :
    Fine Adm n (cswap cs q1 q2) := by
  unfold cswap; split_ifs with hc hq
  · exact fine_swap hU h.lt1 h.lt2
  · exact fine_nil
  · have h' : Distinct n cs q2 q1 := ⟨h.nodup, h.lt, h.lt2, h.lt1, h.not2, h.not1⟩
    simp only [fine_append, mcInvert, fine_cons, fine_nil, fine_ccx hU h hq, fine_ccx hU h' (Ne.symm hq), and_self]

theorem ok_mc {cs : List ℕ} {q : ℕ} (h : cs.Nodup) (hl : ∀ c ∈ cs, c < n) (hq : q < n) (hn : q ∉ cs) (m : M2) :
    (Prim.mc cs m q).Ok n := ⟨nodup_snoc h hn, lt_snoc hl hq⟩

theorem fine_csqrtSwap (hU : ∀ m : M2, m.IsUnitary → Adm m) (r : Bool) {cs : List ℕ} {q1 q2 : ℕ} (h : Distinct n cs q1 q2) :
    Fine Adm n (csqrtSwap r cs q1 q2) := by
  unfold csqrtSwap; split_ifs with hc hq
  · exact fine_sqrtSwap hU r h.lt1 h.lt2
  · exact fine_nil
  · have o1 := ok_mc h.nodup h.lt h.lt1 h.not1
    have o2 := ok_mc h.nodup h.lt h.lt2 h.not2
    have d1 : Adm ⟨1, 0, 0, sqrtI⟩ := hU _ (unitary_diag (by simp) norm_sqrtI)
    have d2 : Adm ⟨1, 0, 0, sqrtNI⟩ := hU _ (unitary_diag (by simp) norm_sqrtNI)
    have d3 : Adm ⟨1, 0, 0, I⟩ := hU _ (unitary_diag (by simp) (by simp))
    have d4 : Adm ⟨1, 0, 0, -I⟩ := hU _ (unitary_diag (by simp) (by simp))
    have d5 : Adm hM := hU _ unitary_hM
    have d6 : Adm ⟨0, 1, 1, 0⟩ := hU _ unitary_x
    simp only [fine_cons, fine_nil, fine_ccx hU h hq, o1, o2, Prim.m, d1, d2, d3, d4, d5, d6, and_self]

theorem fine_cisqrtSwap (hU : ∀ m : M2, m.IsUnitary → Adm m) {cs : List ℕ} {q1 q2 : ℕ} (h : Distinct n cs q1 q2) :
    Fine Adm n (cisqrtSwap cs q1 q2) := by
  unfold cisqrtSwap; split_ifs with hq
  · exact fine_nil
  · have o1 := ok_mc h.nodup h.lt h.lt1 h.not1
    have o2 := ok_mc h.nodup h.lt h.lt2 h.not2
    have d1 : Adm ⟨1, 0, 0, sqrtI⟩ := hU _ (unitary_diag (by simp) norm_sqrtI)
    have d2 : Adm ⟨1, 0, 0, sqrtNI⟩ := hU _ (unitary_diag (by simp) norm_sqrtNI)
    have d3 : Adm ⟨1, 0, 0, I⟩ := hU _ (unitary_diag (by simp) (by simp))
    have d4 : Adm ⟨1, 0, 0, -I⟩ := hU _ (unitary_diag (by simp) (by simp))
    have d5 : Adm hM := hU _ unitary_hM
    have d6 : Adm ⟨0, 1, 1, 0⟩ := hU _ unitary_x
    simp only [fine_cons, fine_nil, fine_ccx hU h hq, o1, o2, Prim.m, d1, d2, d3, d4, d5, d6, and_self]

/-! ## Masks -/

theorem gate_phase (q : ℕ) (w : ℂ) (s : ℕ → ℂ) (i : ℕ) :
    gate (fun _ => True) q 1 0 0 w s i = (if i.testBit q = true then w else 1) * s i := by
  unfold gate; rw [if_pos trivial]; split_ifs <;> ring

theorem sem_flatMap_phase {l : List ℕ} {f : ℕ → List Prim} {w : ℂ}
    (h : ∀ q ∈ l, ∀ s, sem (f q) s = gate (fun _ => True) q 1 0 0 w s) (s : ℕ → ℂ) :
    sem (l.flatMap f) s = fun i => w ^ (l.countP fun q => i.testBit q) * s i := by
  induction l generalizing s with
  | nil => funext i; simp [sem_nil]
  | cons q l ih =>
    rw [List.flatMap_cons, sem_append, h q (by simp), ih (fun q' hq' => h q' (by simp [hq']))]
    funext i
    rw [gate_phase, List.countP_cons]
    cases hb : i.testBit q <;> simp [pow_succ]
    ring

theorem sem_zMask (r : Bool) {mask : ℕ} (hm : mask < 2 ^ n) (s : ℕ → ℂ) :
    sem (zMask r mask) s = fun i => (-1) ^ maskCount n mask i * s i := by
  rw [zMask, sem_flatMap_phase (f := z r) (w := -1) (fun q _ s => sem_phase_one r (-1) q s)]
  funext i; rw [maskCount_eq_countP hm]

theorem sem_phaseRootN (sg : ℤ) (r : Bool) {k : ℕ} (hk : k ≠ 0) (q : ℕ) (s : ℕ → ℂ) :
    sem (phaseRootN sg r k q) s = gate (fun _ => True) q 1 0 0 (rootN sg k) s := by
  rw [phaseRootN, if_neg hk, sem_phase_one]

theorem sem_phaseRootNMask (sg : ℤ) (r : Bool) {k : ℕ} (hk : k ≠ 0) {mask : ℕ} (hm : mask < 2 ^ n) (s : ℕ → ℂ) :
    sem (phaseRootNMask sg r k mask) s = fun i => rootN sg k ^ maskCount n mask i * s i := by
  rw [phaseRootNMask, sem_flatMap_phase (f := phaseRootN sg r k) (w := rootN sg k) (fun q _ s => sem_phaseRootN sg r hk q s)]
  funext i; rw [maskCount_eq_countP hm]

theorem fine_zMask (hU : ∀ m : M2, m.IsUnitary → Adm m) (r : Bool) {mask : ℕ} (hm : mask < 2 ^ n) : Fine Adm n (zMask r mask) :=
  fine_flatMap fun q hq => fine_phaseU hU r (by simp) (by simp) (mask_lt hm (((maskQubits_spec mask).2 q).1 hq))

theorem norm_rootN (sg : ℤ) (k : ℕ) : ‖rootN sg k‖ = 1 := by
  unfold rootN
  exact Complex.norm_exp_ofReal_mul_I _

theorem fine_phaseRootNMask (hU : ∀ m : M2, m.IsUnitary → Adm m) (sg : ℤ) (r : Bool) (k : ℕ) {mask : ℕ} (hm : mask < 2 ^ n) :
    Fine Adm n (phaseRootNMask sg r k mask) := by
  refine fine_flatMap fun q hq => ?_
  unfold phaseRootN; split_ifs
  · exact fine_nil
  · exact fine_phaseU hU r (by simp) (norm_rootN sg k) (mask_lt hm (((maskQubits_spec mask).2 q).1 hq))

/-- A phase gate, up to a global phase when that is random. -/
theorem sem_phase (r : Bool) {tl : ℂ} (h1 : ‖tl‖ = 1) (br : ℂ) (q : ℕ) (s : ℕ → ℂ) :
    ∃ w : ℂ, ‖w‖ = 1 ∧ (r = false → w = 1) ∧ ∀ i, w * sem (phase r tl br q) s i = gate (fun _ => True) q tl 0 0 br s i := by
  unfold phase
  split_ifs with h
  · have h2 : tl = br := sub_eq_zero.1 h.2
    refine ⟨tl, h1, fun hr => ?_, fun i => ?_⟩
    · rcases h.1 with h' | h'
      · rw [hr] at h'; cases h'
      · exact (sub_eq_zero.1 h').symm
    · subst h2; rw [sem_nil]; unfold gate; rw [if_pos trivial]; split_ifs <;> ring
  · exact ⟨1, by simp, fun _ => rfl, fun i => by rw [one_mul]; rfl⟩

theorem sem_phase_scalar (w : ℂ) (q : ℕ) (s : ℕ → ℂ) : sem (phase false w w q) s = fun i => w * s i := by
  unfold phase
  by_cases h : 1 - w = 0
  · rw [if_pos ⟨Or.inr h, sub_self w⟩, sem_nil, ← sub_eq_zero.1 h]
    funext i; rw [one_mul]
  · rw [if_neg (fun hc => hc.1.elim (fun h' => by cases h') h)]
    funext i
    show gate (fun _ => True) q w 0 0 w s i = _
    unfold gate; rw [if_pos trivial]; split_ifs <;> ring

theorem maskCount_self_add {mask i : ℕ} : maskCount n mask (i ^^^ mask) + maskCount n mask i = maskCount n mask mask := by
  unfold maskCount
  rw [← Finset.card_union_of_disjoint]
  · congr 1
    ext k
    simp only [Finset.mem_union, Finset.mem_filter, Finset.mem_range, Nat.testBit_xor]
    cases mask.testBit k <;> cases i.testBit k <;> simp
  · rw [Finset.disjoint_left]
    intro k h1 h2
    simp only [Finset.mem_filter, Nat.testBit_xor] at h1 h2
    rw [h1.2.1, h2.2.2] at h1
    simp at h1

theorem maskCount_self {mask : ℕ} (hm : mask < 2 ^ n) : maskCount n mask mask = (maskQubits mask).length := by
  rw [maskCount_eq_countP hm, List.countP_eq_length]
  intro q hq
  exact ((maskQubits_spec mask).2 q).1 hq

/-- The state transformation of `YMask`, up to a global phase when that is random. -/
theorem sem_yMask (r : Bool) {mask : ℕ} (h0 : mask ≠ 0) (hm : mask < 2 ^ n) (s : ℕ → ℂ) :
    ∃ w : ℂ, ‖w‖ = 1 ∧ (r = false → w = 1) ∧ ∀ i,
      w * sem (yMask r mask) s i = (-I) ^ maskCount n mask mask * (-1) ^ maskCount n mask i * s (i ^^^ mask) := by
  unfold yMask
  by_cases hp : 2 ^ Nat.log2 mask = mask
  · rw [if_pos hp]
    set l := Nat.log2 mask with hl
    have hln : l < n := (Nat.pow_lt_pow_iff_right (by norm_num : 1 < 2)).1 (hp ▸ hm)
    refine ⟨1, by simp, fun _ => rfl, fun i => ?_⟩
    have hone : ∀ j : ℕ, maskCount n mask j = if j.testBit l = true then 1 else 0 := by
      intro j
      unfold maskCount
      split_ifs with hj
      · rw [Finset.card_eq_one]
        refine ⟨l, ?_⟩
        ext k
        simp only [Finset.mem_filter, Finset.mem_range, Finset.mem_singleton, ← hp, Nat.testBit_two_pow, decide_eq_true_eq]
        exact ⟨fun h => h.2.1.symm, fun h => ⟨h ▸ hln, h.symm, h ▸ hj⟩⟩
      · rw [Finset.card_eq_zero, Finset.filter_eq_empty_iff]
        intro k _ h
        rw [← hp, Nat.testBit_two_pow, decide_eq_true_eq] at h
        exact hj (h.1 ▸ h.2)
    rw [one_mul, hone, hone, if_pos (by rw [← hp]; simp), y, sem_invert]
    have hx : i ^^^ mask = flipBit l i := by rw [flipBit, hp]
    rw [hx]
    unfold gate
    rw [if_pos trivial]
    split_ifs <;> simp
  · rw [if_neg hp, ]
    have hzx : sem (zMask r mask ++ xMask mask) s = fun i => (-1) ^ maskCount n mask (i ^^^ mask) * s (i ^^^ mask) := by
      rw [sem_append, sem_xMask, sem_zMask r hm]
    have hsq : ∀ k : ℕ, ((-1 : ℂ)) ^ k * (-1) ^ k = 1 := fun k => by rw [← mul_pow]; norm_num
    have hcnt : ∀ i, ((-1 : ℂ)) ^ maskCount n mask (i ^^^ mask) = (-1) ^ maskCount n mask mask * (-1) ^ maskCount n mask i := by
      intro i
      rw [← maskCount_self_add (n := n) (mask := mask) (i := i), pow_add, mul_assoc, hsq, mul_one]
    have hI : ∀ k : ℕ, (I : ℂ) ^ k * (-1) ^ k = (-I) ^ k := fun k => by rw [← mul_pow]; congr 1; ring
    have hIk : ∀ k : ℕ, (I : ℂ) ^ k = if k % 4 = 1 then I else if k % 4 = 2 then -1 else if k % 4 = 3 then -I else 1 := by
      intro k
      conv_lhs => rw [← Nat.div_add_mod k 4, pow_add, pow_mul, I_pow_four, one_pow, one_mul]
      have := Nat.mod_lt k (show 0 < 4 by norm_num)
      generalize k % 4 = j at this
      interval_cases j <;> simp [pow_succ]
    have hpar : parity4 mask = maskCount n mask mask % 4 := by rw [maskCount_self hm]; rfl
    cases r with
    | true =>
      rw [if_pos rfl, List.append_nil, hzx]
      refine ⟨I ^ maskCount n mask mask, by simp, fun h => absurd h (by simp), fun i => ?_⟩
      dsimp only; rw [hcnt, ← hI]; ring
    | false =>
      rw [if_neg (by simp)]
      refine ⟨1, by simp, fun _ => rfl, fun i => ?_⟩
      have hgoal : sem (zMask false mask ++ xMask mask ++ if parity4 mask = 1 then phase false I I 0
          else if parity4 mask = 2 then phaseFlip false
          else if parity4 mask = 3 then phase false (-I) (-I) 0 else []) s i =
          I ^ maskCount n mask mask * ((-1) ^ maskCount n mask (i ^^^ mask) * s (i ^^^ mask)) := by
        rw [sem_append, hzx, hIk, hpar]
        split_ifs <;> simp only [phaseFlip, sem_phase_scalar, sem_nil, one_mul]
      rw [one_mul, hgoal, hcnt, ← hI]; ring

theorem fine_yMask (hU : ∀ m : M2, m.IsUnitary → Adm m) (r : Bool) {mask : ℕ} (h0 : mask ≠ 0) (hm : mask < 2 ^ n) :
    Fine Adm n (yMask r mask) := by
  have hn : 0 < n := by
    rcases Nat.eq_zero_or_pos n with rfl | h
    · rw [pow_zero] at hm; omega
    · exact h
  unfold yMask
  split_ifs with h1 h2 h3 h4 h5
  · exact fine_mtrx (hU _ (unitary_anti (by simp) (by simp))) ((Nat.pow_lt_pow_iff_right (by norm_num : 1 < 2)).1 (by rw [h1]; exact hm))
  all_goals refine fine_append.2 ⟨fine_append.2 ⟨fine_zMask hU _ hm, fine_xMask hU hm⟩, ?_⟩
  · exact fine_nil
  · exact fine_phaseU hU _ (by simp) (by simp) hn
  · exact fine_phaseU hU _ (by simp) (by simp) hn
  · exact fine_phaseU hU _ (by simp) (by simp) hn
  · exact fine_nil

/-! ## Parity -/

theorem sem_cnot (c t : ℕ) (s : ℕ → ℂ) : sem (cnot c t) s = fun i => s (cnotIdx c t i) := by
  rw [cnot, sem_mcInvert]
  funext i
  unfold gate cnotIdx flipIf AllAre
  cases hb : i.testBit c <;> cases hb' : i.testBit t <;> simp [hb, hb']

theorem sem_flatMap_foldl {α : Type*} {l : List α} {f : α → List Prim} {F : α → (ℕ → ℂ) → ℕ → ℂ}
    (h : ∀ a ∈ l, ∀ s, sem (f a) s = F a s) (s : ℕ → ℂ) : sem (l.flatMap f) s = l.foldl (fun s a => F a s) s := by
  induction l generalizing s with
  | nil => rfl
  | cons a l ih => rw [List.flatMap_cons, sem_append, h a (by simp), ih (fun b hb => h b (by simp [hb]))]; rfl

theorem norm_cis (θ : ℝ) : ‖((Real.cos θ : ℂ) + I * (Real.sin θ : ℂ))‖ = 1 := by
  have : (Real.cos θ : ℂ) + I * (Real.sin θ : ℂ) = Complex.exp (θ * I) := by
    rw [Complex.exp_mul_I]; push_cast; ring
  rw [this, Complex.norm_exp_ofReal_mul_I]

theorem norm_cis' (θ : ℝ) : ‖((Real.cos θ : ℂ) - I * (Real.sin θ : ℂ))‖ = 1 := by
  have := norm_cis (-θ)
  rw [Real.cos_neg, Real.sin_neg] at this
  rw [← this]; congr 1; push_cast; ring

/-- The factor of a parity rotation. -/
theorem sem_phaseParity (r : Bool) {mask : ℕ} (h0 : mask ≠ 0) (hm : mask < 2 ^ n) (θ : ℝ) (s : ℕ → ℂ) :
    ∃ w : ℂ, ‖w‖ = 1 ∧ (r = false → w = 1) ∧ ∀ i,
      w * sem (phaseParity r θ mask) s i = parityFactor (θ / 2) (maskCount n mask i) * s i := by
  obtain ⟨hnd, hmem⟩ := maskQubits_spec mask
  have hcount : ∀ i, maskCount n mask i = _ := fun i => maskCount_eq_countP (n := n) (mask := mask) (i := i) hm
  obtain ⟨q, l, hql⟩ : ∃ q l, maskQubits mask = q :: l := by
    cases h : maskQubits mask with
    | nil =>
      exfalso
      apply h0
      apply Nat.eq_of_testBit_eq
      intro k
      rw [Nat.zero_testBit]
      by_contra hk
      have := (hmem k).2 (by simpa using hk)
      rw [h] at this
      simp at this
    | cons q l => exact ⟨q, l, rfl⟩
  unfold phaseParity
  rw [if_neg h0]
  dsimp only
  rw [sem_append, sem_append, sem_flatMap_foldl (fun a _ s => sem_cnot _ _ s), sem_flatMap_foldl (fun a _ s => sem_cnot _ _ s),
    fold_up, fold_down]
  obtain ⟨w, w1, w2, w3⟩ := sem_phase r (norm_cis' (θ / 2)) ((Real.cos (θ / 2) : ℂ) + I * (Real.sin (θ / 2) : ℂ))
    ((maskQubits mask).getD ((maskQubits mask).length - 1) 0) fun i => s (downIdx (maskQubits mask) i)
  refine ⟨w, w1, w2, fun i => ?_⟩
  dsimp only
  rw [w3]
  have hlast : (maskQubits mask).getD ((maskQubits mask).length - 1) 0 = (q :: l).getLast (by simp) := by
    rw [hql, List.getD_eq_getElem _ _ (by simp), List.getLast_eq_getElem]
  unfold gate
  rw [if_pos trivial, hlast, hql]
  have hup := up_last l q (hql ▸ hnd) i
  rw [hup]
  dsimp only
  rw [down_up _ (hql ▸ hnd), parityFactor_cos, hcount, hql]
  by_cases hp : ((q :: l).countP fun k => i.testBit k) % 2 = 1
  · rw [if_pos hp, if_pos (by simpa using hp), zero_mul, zero_add]
    congr 1
    apply Complex.ext <;> simp [← Complex.ofReal_cos, ← Complex.ofReal_sin]
  · rw [if_neg hp, if_neg (by simpa using hp), zero_mul, add_zero]
    congr 1
    apply Complex.ext <;> simp [← Complex.ofReal_cos, ← Complex.ofReal_sin]

theorem fine_phaseParity (hU : ∀ m : M2, m.IsUnitary → Adm m) (r : Bool) (θ : ℝ) {mask : ℕ} (hm : mask < 2 ^ n) :
    Fine Adm n (phaseParity r θ mask) := by
  obtain ⟨hnd, hmem⟩ := maskQubits_spec mask
  unfold phaseParity
  split_ifs with h0
  · exact fine_nil
  have hlen : 0 < (maskQubits mask).length := by
    rcases Nat.eq_zero_or_pos (maskQubits mask).length with h | h
    · exfalso; apply h0
      apply Nat.eq_of_testBit_eq
      intro k
      rw [Nat.zero_testBit]
      by_contra hk
      have := (hmem k).2 (by simpa using hk)
      rw [List.length_eq_zero_iff.1 h] at this
      cases this
    · exact h
  have hget : ∀ k < (maskQubits mask).length, (maskQubits mask).getD k 0 < n := fun k hk => by
    rw [List.getD_eq_getElem _ _ hk]; exact mask_lt hm ((hmem _).1 (List.getElem_mem hk))
  have hne : ∀ j k, j < (maskQubits mask).length → k < (maskQubits mask).length → j ≠ k →
      (maskQubits mask).getD j 0 ≠ (maskQubits mask).getD k 0 := by
    intro j k hj hk hjk he
    rw [List.getD_eq_getElem _ _ hj, List.getD_eq_getElem _ _ hk] at he
    exact hjk ((List.Nodup.getElem_inj_iff hnd).1 he)
  dsimp only
  refine fine_append.2 ⟨fine_append.2 ⟨fine_flatMap fun i hi => ?_, fine_phaseU hU r (norm_cis' _) (norm_cis _) (hget _ (by omega))⟩,
    fine_flatMap fun i hi => ?_⟩
  · have := List.mem_range.1 hi
    exact fine_cnot hU (hne _ _ (by omega) (by omega) (by omega)) (hget _ (by omega)) (hget _ (by omega))
  · have := List.mem_range.1 hi
    exact fine_cnot hU (hne _ _ (by omega) (by omega) (by omega)) (hget _ (by omega)) (hget _ (by omega))

end Verif.Defaults
