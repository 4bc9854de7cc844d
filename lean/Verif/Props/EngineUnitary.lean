import Verif.Props.EngineGate
import Mathlib.Tactic.LinearCombination

/-!
C04: unitary gates preserve probability and inner products and are undone by their adjoint.
C05: gates on disjoint qubits commute.
-/

namespace Verif.Engine

open Verif.ParFor Verif.Bits Verif.Spec Classical ComplexConjugate

theorem flip_lt {n t i : ℕ} (ht : t < n) (hi : i < 2 ^ n) : flipBit t i < 2 ^ n :=
  Nat.xor_lt_two_pow hi (Nat.pow_lt_pow_right (by norm_num) ht)

theorem flip_flip (t i : ℕ) : flipBit t (flipBit t i) = i := by simp [flipBit, Nat.xor_assoc]

theorem testBit_flip (t i k : ℕ) :
    (flipBit t i).testBit k = if k = t then !i.testBit k else i.testBit k := by
  unfold flipBit
  rw [Nat.testBit_xor, Nat.testBit_two_pow]
  by_cases h : t = k
  · simp [h]
  · simp [h, Ne.symm h]

theorem flip_comm (t u i : ℕ) : flipBit t (flipBit u i) = flipBit u (flipBit t i) := by
  simp [flipBit, Nat.xor_assoc, Nat.xor_comm (2 ^ t)]

/-- A condition that does not look at qubit `t`. -/
def Ignores (p : ℕ → Prop) (t : ℕ) : Prop := ∀ i, p (flipBit t i) ↔ p i

theorem ignores_matches {perm t : ℕ} {cs : List ℕ} (h : t ∉ cs) : Ignores (Matches perm cs) t := by
  intro i
  refine forall₂_congr fun k hk => ?_
  rw [testBit_flip, if_neg (fun e => h (by rw [← e]; exact List.getElem_mem hk))]

theorem ignores_allAre {v : Bool} {t : ℕ} {cs : List ℕ} (h : t ∉ cs) : Ignores (AllAre v cs) t := by
  intro i
  refine forall₂_congr fun c hc => ?_
  rw [testBit_flip, if_neg (fun e => h (by rw [← e]; exact hc))]

/-- `m` is unitary (its columns are orthonormal). -/
structure M2.IsUnitary (m : M2) : Prop where
  col0 : conj m.a * m.a + conj m.c * m.c = 1
  col1 : conj m.b * m.b + conj m.d * m.d = 1
  orth : conj m.a * m.b + conj m.c * m.d = 0

/-- The conjugate transpose. -/
def M2.adj (m : M2) : M2 := ⟨conj m.a, conj m.c, conj m.b, conj m.d⟩

theorem sum_flip {n t : ℕ} (ht : t < n) (f : ℕ → ℂ) :
    ∑ i ∈ Finset.range (2 ^ n), f (flipBit t i) = ∑ i ∈ Finset.range (2 ^ n), f i := by
  refine Finset.sum_bij' (fun x _ => flipBit t x) (fun x _ => flipBit t x) ?_ ?_ ?_ ?_ ?_
  · intro x hx; exact Finset.mem_range.2 (flip_lt ht (Finset.mem_range.1 hx))
  · intro x hx; exact Finset.mem_range.2 (flip_lt ht (Finset.mem_range.1 hx))
  · intro x _; exact flip_flip t x
  · intro x _; exact flip_flip t x
  · intro x _; rfl

theorem gate_inner {n t : ℕ} (ht : t < n) {p : ℕ → Prop} [DecidablePred p] (hp : Ignores p t)
    {m : M2} (hm : m.IsUnitary) (s s' : ℕ → ℂ) :
    inner n (gate p t m.a m.b m.c m.d s) (gate p t m.a m.b m.c m.d s') = inner n s s' := by
  unfold inner
  set G := gate p t m.a m.b m.c m.d with hG
  have key : ∀ i, conj (G s i) * G s' i + conj (G s (flipBit t i)) * G s' (flipBit t i) =
      conj (s i) * s' i + conj (s (flipBit t i)) * s' (flipBit t i) := by
    have half : ∀ i, i.testBit t = false →
        conj (G s i) * G s' i + conj (G s (flipBit t i)) * G s' (flipBit t i) =
        conj (s i) * s' i + conj (s (flipBit t i)) * s' (flipBit t i) := by
      intro i hi
      have hf : (flipBit t i).testBit t = true := by rw [testBit_flip]; simp [hi]
      by_cases hpi : p i
      · have hpf : p (flipBit t i) := (hp i).2 hpi
        simp only [hG, gate, hpi, hpf, if_true, hi, hf, flip_flip, Bool.false_eq_true, if_false,
          map_add, map_mul]
        have o2 : m.a * conj m.b + m.c * conj m.d = 0 := by
          have := congrArg conj hm.orth
          simpa using this
        linear_combination conj (s i) * s' i * hm.col0 +
          conj (s (flipBit t i)) * s' (flipBit t i) * hm.col1 +
          conj (s i) * s' (flipBit t i) * hm.orth + conj (s (flipBit t i)) * s' i * o2
      · have hpf : ¬ p (flipBit t i) := fun h => hpi ((hp i).1 h)
        simp only [hG, gate, hpi, hpf, if_false]
    intro i
    cases hi : i.testBit t with
    | false => exact half i hi
    | true =>
      have := half (flipBit t i) (by rw [testBit_flip]; simp [hi])
      rw [flip_flip] at this
      rw [add_comm, this, add_comm]
  have h1 := sum_flip ht (fun i => conj (G s i) * G s' i)
  have h2 := sum_flip ht (fun i => conj (s i) * s' i)
  have h3 : ∑ i ∈ Finset.range (2 ^ n), (conj (G s i) * G s' i +
      conj (G s (flipBit t i)) * G s' (flipBit t i)) = ∑ i ∈ Finset.range (2 ^ n),
      (conj (s i) * s' i + conj (s (flipBit t i)) * s' (flipBit t i)) :=
    Finset.sum_congr rfl fun i _ => key i
  rw [Finset.sum_add_distrib, Finset.sum_add_distrib, h1, h2] at h3
  have : (2 : ℂ) * ∑ i ∈ Finset.range (2 ^ n), conj (G s i) * G s' i =
      2 * ∑ i ∈ Finset.range (2 ^ n), conj (s i) * s' i := by linear_combination h3
  exact mul_left_cancel₀ two_ne_zero this

theorem totalProb_eq_inner (n : ℕ) (s : ℕ → ℂ) : (totalProb n s : ℂ) = inner n s s := by
  unfold totalProb inner
  rw [Complex.ofReal_sum]
  exact Finset.sum_congr rfl fun i _ => Complex.normSq_eq_conj_mul_self

theorem inner_congr {n : ℕ} {s s' r r' : ℕ → ℂ} (h : SameOn n s r) (h' : SameOn n s' r') :
    inner n s s' = inner n r r' := by
  unfold inner
  exact Finset.sum_congr rfl fun i hi => by
    rw [h i (Finset.mem_range.1 hi), h' i (Finset.mem_range.1 hi)]

theorem totalProb_congr {n : ℕ} {s s' : ℕ → ℂ} (h : SameOn n s s') :
    totalProb n s = totalProb n s' := by
  unfold totalProb
  exact Finset.sum_congr rfl fun i hi => by rw [h i (Finset.mem_range.1 hi)]

theorem gate_congr {n t : ℕ} (ht : t < n) (p : ℕ → Prop) [DecidablePred p] (a b c d : ℂ)
    {s s' : ℕ → ℂ} (h : SameOn n s s') : SameOn n (gate p t a b c d s) (gate p t a b c d s') := by
  intro i hi
  unfold gate
  rw [h i hi, h _ (flip_lt ht hi)]

theorem gate_adj {p : ℕ → Prop} [DecidablePred p] {t : ℕ} (hp : Ignores p t) {m : M2}
    (hm : m.IsUnitary) (s : ℕ → ℂ) (i : ℕ) :
    gate p t m.adj.a m.adj.b m.adj.c m.adj.d (gate p t m.a m.b m.c m.d s) i = s i := by
  have o2 : m.a * conj m.b + m.c * conj m.d = 0 := by
    have := congrArg conj hm.orth
    simpa using this
  by_cases hpi : p i
  · have hpf : p (flipBit t i) := (hp i).2 hpi
    cases hi : i.testBit t with
    | false =>
      have hf : (flipBit t i).testBit t = true := by rw [testBit_flip]; simp [hi]
      simp only [gate, hpi, hpf, if_true, hi, hf, flip_flip, Bool.false_eq_true, if_false, M2.adj]
      linear_combination s i * hm.col0 + s (flipBit t i) * hm.orth
    | true =>
      have hf : (flipBit t i).testBit t = false := by rw [testBit_flip]; simp [hi]
      simp only [gate, hpi, hpf, if_true, hi, hf, flip_flip, Bool.false_eq_true, if_false, M2.adj]
      linear_combination s i * hm.col1 + s (flipBit t i) * o2
  · simp only [gate, hpi, if_false]

/-- C04. A unitary gate with any controls and control permutation leaves the total probability and
all inner products unchanged. -/
theorem ucMtrx_unitary {σ : List ℕ → List ℕ} (hσ : IsSched σ) {e f : Eng} (hn : e.n ≤ 64)
    (hf : f.n = e.n) {cs : List ℕ} (hne : cs ≠ []) {m : M2} (hm : m.IsUnitary) {t : ℕ}
    (hnd : (cs ++ [t]).Nodup) (hb : ∀ k ∈ cs ++ [t], k < e.n) (perm : ℕ) :
    ∃ e' f', ucMtrx σ e cs m t perm = some e' ∧ ucMtrx σ f cs m t perm = some f' ∧
      inner e.n e'.amp f'.amp = inner e.n e.amp f.amp ∧
      totalProb e.n e'.amp = totalProb e.n e.amp := by
  obtain ⟨e', h1, _, h3⟩ := ucMtrx_gate hσ hn hne m hnd hb perm
  obtain ⟨f', k1, _, k3⟩ := ucMtrx_gate hσ (e := f) (by omega) hne m hnd (by rwa [hf]) perm
  have ht : t < e.n := hb t (by simp)
  have htc : t ∉ cs := fun h => (List.nodup_append.1 hnd).2.2 t h t (by simp) rfl
  have hp := ignores_matches (perm := perm) htc
  refine ⟨e', f', h1, k1, ?_, ?_⟩
  · rw [inner_congr h3 (by rw [← hf]; exact k3), gate_inner ht hp hm]
  · have := gate_inner ht hp hm e.amp e.amp
    rw [← totalProb_eq_inner, ← totalProb_eq_inner] at this
    rw [totalProb_congr h3]
    exact_mod_cast this

/-- C04, the same for `MCMtrx`/`MACMtrx`. -/
theorem eitherMtrx_unitary {σ : List ℕ → List ℕ} (hσ : IsSched σ) {e f : Eng} (hn : e.n ≤ 64)
    (hf : f.n = e.n) (hfl : e.doNorm = false ∨ e.floor ≤ 0) (hfl' : f.doNorm = false ∨ f.floor ≤ 0)
    {cs : List ℕ} (hne : cs ≠ []) {m : M2} (hm : m.IsUnitary) {t : ℕ}
    (hnd : (cs ++ [t]).Nodup) (hb : ∀ k ∈ cs ++ [t], k < e.n) (anti : Bool) :
    ∃ e' f', eitherMtrx σ e cs m t anti = some e' ∧ eitherMtrx σ f cs m t anti = some f' ∧
      inner e.n e'.amp f'.amp = inner e.n e.amp f.amp ∧
      totalProb e.n e'.amp = totalProb e.n e.amp := by
  obtain ⟨e', h1, _, h3⟩ := eitherMtrx_gate hσ hn hfl hne m hnd hb anti
  obtain ⟨f', k1, _, k3⟩ := eitherMtrx_gate hσ (e := f) (by omega) hfl' hne m hnd (by rwa [hf]) anti
  have ht : t < e.n := hb t (by simp)
  have htc : t ∉ cs := fun h => (List.nodup_append.1 hnd).2.2 t h t (by simp) rfl
  have hp := ignores_allAre (v := !anti) htc
  refine ⟨e', f', h1, k1, ?_, ?_⟩
  · rw [inner_congr h3 (by rw [← hf]; exact k3), gate_inner ht hp hm]
  · have := gate_inner ht hp hm e.amp e.amp
    rw [← totalProb_eq_inner, ← totalProb_eq_inner] at this
    rw [totalProb_congr h3]
    exact_mod_cast this

/-- C04, uncontrolled. (When a global phase is dropped, the state is unchanged.) -/
theorem mtrx_unitary {σ : List ℕ → List ℕ} (hσ : IsSched σ) {e : Eng} (hn : e.n ≤ 64)
    (hd : e.doNorm = false) {m : M2} (hm : m.IsUnitary) {q : ℕ} (hq : q < e.n) :
    ∃ e', mtrx σ e m q = some e' ∧ totalProb e.n e'.amp = totalProb e.n e.amp := by
  obtain ⟨e', h1, -, -, -, -, -, h2, h3⟩ := mtrx_gate hσ hn (m := m) (Or.inl hd) hq
  refine ⟨e', h1, ?_⟩
  have hp : Ignores (fun _ => True) q := fun _ => Iff.rfl
  have key := gate_inner hq hp hm e.amp e.amp
  rw [← totalProb_eq_inner, ← totalProb_eq_inner] at key
  by_cases hdr : Dropped e.rgp m
  · have hz : Complex.normSq m.a = 1 := by
      have hc : m.c = 0 := hdr.2.2.1
      have h := hm.col0
      rw [hc, mul_zero, add_zero, ← Complex.normSq_eq_conj_mul_self] at h
      exact_mod_cast h
    have : totalProb e.n (fun i => m.a * e'.amp i) = totalProb e.n e'.amp := by
      unfold totalProb
      simp [hz]
    rw [← this, totalProb_congr (h3 hdr)]
    exact_mod_cast key
  · rw [totalProb_congr (h2 hdr)]
    exact_mod_cast key

/-- C04, inverse. Applying the conjugate transpose after a unitary gate restores every amplitude. -/
theorem ucMtrx_inverse {σ σ' : List ℕ → List ℕ} (hσ : IsSched σ) (hσ' : IsSched σ') {e : Eng}
    (hn : e.n ≤ 64) {cs : List ℕ} (hne : cs ≠ []) {m : M2} (hm : m.IsUnitary) {t : ℕ}
    (hnd : (cs ++ [t]).Nodup) (hb : ∀ k ∈ cs ++ [t], k < e.n) (perm : ℕ) :
    ∃ e' e'', ucMtrx σ e cs m t perm = some e' ∧ ucMtrx σ' e' cs m.adj t perm = some e'' ∧
      SameOn e.n e''.amp e.amp := by
  obtain ⟨e', h1, hn', h3⟩ := ucMtrx_gate hσ hn hne m hnd hb perm
  obtain ⟨e'', k1, _, k3⟩ := ucMtrx_gate hσ' (e := e') (by omega) hne m.adj hnd (by rwa [hn']) perm
  have ht : t < e.n := hb t (by simp)
  have htc : t ∉ cs := fun h => (List.nodup_append.1 hnd).2.2 t h t (by simp) rfl
  refine ⟨e', e'', h1, k1, fun i hi => ?_⟩
  rw [k3 i (by rwa [hn']), gate_congr ht _ _ _ _ _ h3 i hi]
  exact gate_adj (ignores_matches htc) hm e.amp i

/-- C04, uncontrolled inverse, when no global phase is dropped. -/
theorem mtrx_inverse {σ σ' : List ℕ → List ℕ} (hσ : IsSched σ) (hσ' : IsSched σ') {e : Eng}
    (hn : e.n ≤ 64) (hd : e.doNorm = false) (hr : e.rgp = false) {m : M2} (hm : m.IsUnitary)
    {q : ℕ} (hq : q < e.n) :
    ∃ e' e'', mtrx σ e m q = some e' ∧ mtrx σ' e' m.adj q = some e'' ∧
      SameOn e.n e''.amp e.amp := by
  obtain ⟨e', h1, hn', -, hd', -, hr', h3, -⟩ := mtrx_gate hσ hn (m := m) (Or.inl hd) hq
  obtain ⟨e'', k1, -, -, -, -, -, k3, -⟩ := mtrx_gate hσ' (e := e') (by omega)
    (m := m.adj) (Or.inl (by rw [hd', hd])) (by rwa [hn'])
  have hnd : ∀ m', ¬ Dropped e.rgp m' := fun m' h => by rw [hr] at h; simp [Dropped] at h
  have hnd' : ∀ m', ¬ Dropped e'.rgp m' := fun m' h => by rw [hr', hr] at h; simp [Dropped] at h
  refine ⟨e', e'', h1, k1, fun i hi => ?_⟩
  rw [k3 (hnd' _) i (by rwa [hn']), gate_congr hq _ _ _ _ _ (h3 (hnd _)) i hi]
  exact gate_adj (p := fun _ => True) (fun _ => Iff.rfl) hm e.amp i

/-- Non-vacuity of C04: the Hadamard matrix is unitary. -/
example : M2.IsUnitary ⟨(Real.sqrt (1 / 2) : ℝ), (Real.sqrt (1 / 2) : ℝ), (Real.sqrt (1 / 2) : ℝ),
    -(Real.sqrt (1 / 2) : ℝ)⟩ := by
  have h : (Real.sqrt (1 / 2) : ℂ) * (Real.sqrt (1 / 2) : ℂ) = 1 / 2 := by
    rw [← Complex.ofReal_mul, Real.mul_self_sqrt (by norm_num)]; norm_num
  constructor <;> simp only [map_neg, Complex.conj_ofReal]
  · linear_combination 2 * h
  · linear_combination 2 * h
  · ring

/-! ## C05 -/

theorem gate_comm {p p' : ℕ → Prop} [DecidablePred p] [DecidablePred p'] {t t' : ℕ} (htt : t ≠ t')
    (h1 : Ignores p t') (h2 : Ignores p' t) (a b c d a' b' c' d' : ℂ) (s : ℕ → ℂ) (i : ℕ) :
    gate p t a b c d (gate p' t' a' b' c' d' s) i =
      gate p' t' a' b' c' d' (gate p t a b c d s) i := by
  have e1 : (flipBit t i).testBit t' = i.testBit t' := by rw [testBit_flip, if_neg (Ne.symm htt)]
  have e2 : (flipBit t' i).testBit t = i.testBit t := by rw [testBit_flip, if_neg htt]
  have e3 := flip_comm t t' i
  by_cases hp : p i <;> by_cases hp' : p' i
  · have k1 := (h1 i).2 hp
    have k2 := (h2 i).2 hp'
    cases ht : i.testBit t <;> cases ht' : i.testBit t' <;>
      simp only [gate, hp, hp', k1, k2, e1, e2, ht, ht', if_true, Bool.false_eq_true, if_false,
        e3] <;> ring
  · have k1 := (h1 i).2 hp
    have k2 : ¬ p' (flipBit t i) := fun h => hp' ((h2 i).1 h)
    cases ht : i.testBit t <;> cases ht' : i.testBit t' <;>
      simp only [gate, hp, hp', k1, k2, e1, e2, ht, ht', if_true, Bool.false_eq_true, if_false, e3]
  · have k1 : ¬ p (flipBit t' i) := fun h => hp ((h1 i).1 h)
    have k2 := (h2 i).2 hp'
    cases ht : i.testBit t <;> cases ht' : i.testBit t' <;>
      simp only [gate, hp, hp', k1, k2, e1, e2, ht, ht', if_true, Bool.false_eq_true, if_false, e3]
  · simp only [gate, hp, hp', if_false]

/-- C05. Two controlled gates with different targets, neither target among the other's controls
(controls may be shared), give the same state in either order. -/
theorem ucMtrx_comm {σ₁ σ₂ σ₃ σ₄ : List ℕ → List ℕ} (h₁ : IsSched σ₁) (h₂ : IsSched σ₂)
    (h₃ : IsSched σ₃) (h₄ : IsSched σ₄) {e : Eng} (hn : e.n ≤ 64)
    {cs cs' : List ℕ} (hne : cs ≠ []) (hne' : cs' ≠ []) (m m' : M2) {t t' : ℕ}
    (hnd : (cs ++ [t]).Nodup) (hnd' : (cs' ++ [t']).Nodup)
    (hb : ∀ k ∈ cs ++ [t], k < e.n) (hb' : ∀ k ∈ cs' ++ [t'], k < e.n)
    (htt : t ≠ t') (h1 : t' ∉ cs) (h2 : t ∉ cs') (perm perm' : ℕ) :
    ∃ e1 e2 f1 f2, ucMtrx σ₁ e cs m t perm = some e1 ∧ ucMtrx σ₂ e1 cs' m' t' perm' = some e2 ∧
      ucMtrx σ₃ e cs' m' t' perm' = some f1 ∧ ucMtrx σ₄ f1 cs m t perm = some f2 ∧
      SameOn e.n e2.amp f2.amp := by
  obtain ⟨e1, a1, a2, a3⟩ := ucMtrx_gate h₁ hn hne m hnd hb perm
  obtain ⟨e2, b1, b2, b3⟩ := ucMtrx_gate h₂ (e := e1) (by omega) hne' m' hnd' (by rwa [a2]) perm'
  obtain ⟨f1, c1, c2, c3⟩ := ucMtrx_gate h₃ hn hne' m' hnd' hb' perm'
  obtain ⟨f2, d1, d2, d3⟩ := ucMtrx_gate h₄ (e := f1) (by omega) hne m hnd (by rwa [c2]) perm
  refine ⟨e1, e2, f1, f2, a1, b1, c1, d1, fun i hi => ?_⟩
  rw [b3 i (by rwa [a2]), d3 i (by rwa [c2]),
    gate_congr (hb' t' (by simp)) _ _ _ _ _ a3 i hi, gate_congr (hb t (by simp)) _ _ _ _ _ c3 i hi]
  exact gate_comm (Ne.symm htt) (ignores_matches h2) (ignores_matches h1) _ _ _ _ _ _ _ _ _ _

/-- C05 for uncontrolled gates (when no global phase is dropped). -/
theorem mtrx_comm {σ₁ σ₂ σ₃ σ₄ : List ℕ → List ℕ} (h₁ : IsSched σ₁) (h₂ : IsSched σ₂)
    (h₃ : IsSched σ₃) (h₄ : IsSched σ₄) {e : Eng} (hn : e.n ≤ 64) (hd : e.doNorm = false)
    (m m' : M2) (hm : ¬ Dropped e.rgp m) (hm' : ¬ Dropped e.rgp m') {t t' : ℕ}
    (ht : t < e.n) (ht' : t' < e.n) (htt : t ≠ t') :
    ∃ e1 e2 f1 f2, mtrx σ₁ e m t = some e1 ∧ mtrx σ₂ e1 m' t' = some e2 ∧
      mtrx σ₃ e m' t' = some f1 ∧ mtrx σ₄ f1 m t = some f2 ∧ SameOn e.n e2.amp f2.amp := by
  obtain ⟨e1, a1, a2, -, a4, -, a5, a3, -⟩ := mtrx_gate h₁ hn (m := m) (Or.inl hd) ht
  obtain ⟨e2, b1, b2, -, -, -, -, b3, -⟩ := mtrx_gate h₂ (e := e1) (by omega) (m := m')
    (Or.inl (by rw [a4, hd]))
    (by rwa [a2] : t' < e1.n)
  obtain ⟨f1, c1, c2, -, c4, -, c5, c3, -⟩ := mtrx_gate h₃ hn (m := m') (Or.inl hd) ht'
  obtain ⟨f2, d1, d2, -, -, -, -, d3, -⟩ := mtrx_gate h₄ (e := f1) (by omega) (m := m)
    (Or.inl (by rw [c4, hd]))
    (by rwa [c2] : t < f1.n)
  refine ⟨e1, e2, f1, f2, a1, b1, c1, d1, fun i hi => ?_⟩
  rw [b3 (by rwa [a5]) i (by rwa [a2]), d3 (by rwa [c5]) i (by rwa [c2]),
    gate_congr ht' _ _ _ _ _ (a3 hm) i hi, gate_congr ht _ _ _ _ _ (c3 hm') i hi]
  exact gate_comm (p := fun _ => True) (p' := fun _ => True) (Ne.symm htt) (fun _ => Iff.rfl)
    (fun _ => Iff.rfl) _ _ _ _ _ _ _ _ _ _

/-- The side condition matters: CNOT(0→1) and X on the control qubit 0 do not commute. -/
example : gate (AllAre true [0]) 1 0 1 1 0 (gate (fun _ => True) 0 0 1 1 0
      (fun i => if i = 0 then 1 else 0)) 3 ≠
    gate (fun _ => True) 0 0 1 1 0 (gate (AllAre true [0]) 1 0 1 1 0
      (fun i => if i = 0 then 1 else 0)) 3 := by
  have e1 : flipBit 1 3 = 1 := by decide
  have e2 : flipBit 0 3 = 2 := by decide
  have e3 : flipBit 0 1 = 0 := by decide
  have e4 : flipBit 1 2 = 0 := by decide
  have b1 : Nat.testBit 3 1 = true := by decide
  have b2 : Nat.testBit 3 0 = true := by decide
  have b3 : Nat.testBit 1 0 = true := by decide
  have b4 : Nat.testBit 2 1 = true := by decide
  have b5 : Nat.testBit 2 0 = false := by decide
  simp [gate, AllAre, e1, e2, e3, e4, b1, b2, b3, b4, b5]

end Verif.Engine
