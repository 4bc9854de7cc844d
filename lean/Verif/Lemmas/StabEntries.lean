import Verif.Lemmas.StabRead

/-!
Helper lemmas: the entries of the read-outs, and the rows they leave.
-/

namespace Verif.Stab

open Verif.Pauli Complex

variable {n : ℕ}

/-- Squared norm of a state. -/
noncomputable def norm2 (ψ : State n) : ℝ := ∑ f : Bits n, normSq (ψ f)

/-! ### Folds -/

theorem fold_update_at {β : Type} (a : ℕ → ℕ) (b : ℕ → β) {k : ℕ} (hinj : ∀ t < k, ∀ u < k, a t = a u → t = u) (v : ℕ → β) {t : ℕ}
    (ht : t < k) : (List.range k).foldl (fun v t => Function.update v (a t) (b t)) v (a t) = b t := by
  induction k with
  | zero => omega
  | succ k ih =>
    rw [List.range_succ, List.foldl_append, List.foldl_cons, List.foldl_nil]
    by_cases h : t = k
    · subst h; rw [Function.update_self]
    · rw [Function.update_of_ne (fun he => h (hinj t ht k (by omega) he))]
      exact ih (fun t ht u hu => hinj t (by omega) u (by omega)) (by omega)

theorem fold_update_off {β : Type} (a : ℕ → ℕ) (b : ℕ → β) {k : ℕ} (v : ℕ → β) {p : ℕ} (hp : ∀ t < k, a t ≠ p) :
    (List.range k).foldl (fun v t => Function.update v (a t) (b t)) v p = v p := by
  induction k with
  | zero => rfl
  | succ k ih =>
    rw [List.range_succ, List.foldl_append, List.foldl_cons, List.foldl_nil,
      Function.update_of_ne (fun he => hp k (by omega) he.symm)]
    exact ih fun t ht => hp t (by omega)

theorem fold_sum (F : ℕ → ℝ) (k : ℕ) : (List.range k).foldl (fun v t => v + F t) 0 = ∑ t ∈ Finset.range k, F t := by
  induction k with
  | zero => rfl
  | succ k ih => rw [List.range_succ, List.foldl_append, ih, Finset.sum_range_succ]; rfl

theorem nrm_sq (g : ℕ) : normSq (readNrm g : ℂ) * 2 ^ g = 1 := by
  rw [normSq_ofReal]
  unfold readNrm
  rw [Real.mul_self_sqrt (by positivity)]
  push_cast
  have : (2 : ℝ) ^ g ≠ 0 := by positivity
  field_simp

/-- Sums over basis states as sums over their numbers. -/
theorem sum_bits (F : Bits n → ℝ) : ∑ f, F f = ∑ p ∈ Finset.range (2 ^ n), F (bitsOf n p) := by
  symm
  refine Finset.sum_bij (fun p _ => bitsOf n p) (fun _ _ => Finset.mem_univ _) ?_ ?_ (fun _ _ => rfl)
  · intro p hp q hq he
    exact bitsOf_inj (Finset.mem_range.1 hp) (Finset.mem_range.1 hq) he
  · intro f _
    refine ⟨basisPerm (bRow f), Finset.mem_range.2 (perm_lt _), perm_bits _⟩

section
variable {T : Tab n} {g : ℕ} {P : Row n} (h : Start T g P)
include h

theorem Start.perm_inj : ∀ t < 2 ^ g, ∀ u < 2 ^ g, basisPerm (wrow T g P t) = basisPerm (wrow T g P u) → t = u := by
  intro t ht u hu he
  refine h.wrow_inj ht hu ?_
  rw [← perm_bits, ← perm_bits, he]

theorem Start.vector (ph : ℂ) (nrm : ℝ) {p : ℕ} (hp : p < 2 ^ n) :
    (List.range (2 ^ g)).foldl (fun (v : ℕ → ℂ) t => Function.update v (getBasisAmp ph nrm (wrow T g P t)).permutation
      (getBasisAmp ph nrm (wrow T g P t)).amplitude) (fun _ => 0) p = nrm * ph * total T g P (bitsOf n p) := by
  by_cases hx : ∃ t < 2 ^ g, basisPerm (wrow T g P t) = p
  · obtain ⟨t, ht, rfl⟩ := hx
    have e := fold_update_at (fun t => (getBasisAmp ph nrm (wrow T g P t)).permutation)
      (fun t => (getBasisAmp ph nrm (wrow T g P t)).amplitude) h.perm_inj (fun _ => 0) ht
    refine e.trans ?_
    rw [amp_eq ph nrm (h.wrow_lt t), perm_bits, h.total_at t ht]
  · have e := fold_update_off (k := 2 ^ g) (fun t => (getBasisAmp ph nrm (wrow T g P t)).permutation)
      (fun t => (getBasisAmp ph nrm (wrow T g P t)).amplitude) (fun _ => 0) (p := p) (fun t ht he => hx ⟨t, ht, he⟩)
    refine e.trans ?_
    rw [total_off, mul_zero]
    intro t ht he
    exact hx ⟨t, ht, (perm_eq_iff _ hp).2 he⟩

theorem Start.weights {ψ : State n} (hψ : Stabilises T ψ) (f : Bits n) :
    normSq (ψ f) = normSq (ψ P.x) * normSq (total T g P f) := by
  conv_lhs => rw [h.unique hψ f]
  rw [map_mul, map_mul, map_inv₀, map_pow, normSq_I, one_pow, inv_one, mul_one]

theorem Start.head {ψ : State n} (hψ : Stabilises T ψ) : normSq (ψ P.x) * 2 ^ g = norm2 ψ := by
  unfold norm2
  rw [← h.total_norm, Finset.mul_sum]
  exact Finset.sum_congr rfl fun f _ => (h.weights hψ f).symm

/-- The sum of a quantity over the entries, weighted with their probabilities. -/
theorem Start.average {ph : ℂ} (hph : normSq ph = 1) {ψ : State n} (hψ : Stabilises T ψ) (hn : norm2 ψ = 1) (F : ℕ → ℝ) :
    ∑ t ∈ Finset.range (2 ^ g), F (getBasisAmp ph (readNrm g) (wrow T g P t)).permutation *
      normSq (getBasisAmp ph (readNrm g) (wrow T g P t)).amplitude =
    ∑ p ∈ Finset.range (2 ^ n), F p * normSq (ψ (bitsOf n p)) := by
  have hg : (2 : ℝ) ^ g ≠ 0 := by positivity
  have hn2 : normSq (readNrm g : ℂ) = normSq (ψ P.x) := by
    have h1 := nrm_sq g
    have h2 := h.head hψ
    rw [hn, ← h1] at h2
    exact (mul_right_cancel₀ hg h2).symm
  have e1 : ∀ t ∈ Finset.range (2 ^ g), F (getBasisAmp ph (readNrm g) (wrow T g P t)).permutation *
      normSq (getBasisAmp ph (readNrm g) (wrow T g P t)).amplitude =
      (fun f : Bits n => F (basisPerm (bRow f)) * normSq (ψ P.x)) (wrow T g P t).x := by
    intro t _
    rw [amp_eq ph _ (h.wrow_lt t), map_mul, map_mul, map_pow, normSq_I, one_pow, hph, hn2, mul_one, mul_one]
    rfl
  rw [Finset.sum_congr rfl e1, h.sum_visited (fun f : Bits n => F (basisPerm (bRow f)) * normSq (ψ P.x)), sum_bits]
  refine Finset.sum_congr rfl fun p hp => ?_
  have : basisPerm (bRow (bitsOf n p)) = p := (perm_eq_iff _ (Finset.mem_range.1 hp)).2 rfl
  rw [this, h.weights hψ (bitsOf n p)]
  ring

end

theorem state_eq {T : Tab n} (h : Inv T) (ph : ℂ) {p : ℕ} (hp : p < 2 ^ n) :
    (getQuantumState ph T).2 p = readNrm (gaussian T).2 * ph * total (gaussian T).1 (gaussian T).2 (seedRow T) (bitsOf n p) := by
  unfold getQuantumState
  rw [prepare_eq]
  dsimp only
  rw [(start_prepare h).walk_eq]
  exact (start_prepare h).vector ph _ hp

theorem Start.find {T : Tab n} {g : ℕ} {P : Row n} (h : Start T g P) (ph : ℂ) (nrm : ℝ) {p : ℕ} (hp : p < 2 ^ n) :
    ((List.range (2 ^ g)).findSome? (fun t => if (getBasisAmp ph nrm (wrow T g P t)).permutation = p then
      some (getBasisAmp ph nrm (wrow T g P t)).amplitude else none)).getD 0 = nrm * ph * total T g P (bitsOf n p) := by
  cases hf : (List.range (2 ^ g)).findSome? (fun t => if (getBasisAmp ph nrm (wrow T g P t)).permutation = p then
      some (getBasisAmp ph nrm (wrow T g P t)).amplitude else none) with
  | none =>
    rw [List.findSome?_eq_none_iff] at hf
    rw [total_off]
    · simp
    · intro t ht he
      have := hf t (List.mem_range.2 ht)
      rw [if_pos (show (getBasisAmp ph nrm (wrow T g P t)).permutation = p from (perm_eq_iff _ hp).2 he)] at this
      exact absurd this (by simp)
  | some a =>
    obtain ⟨t, ht, he⟩ := List.exists_of_findSome?_eq_some hf
    rw [List.mem_range] at ht
    by_cases hc : (getBasisAmp ph nrm (wrow T g P t)).permutation = p
    · rw [if_pos hc, Option.some.injEq] at he
      rw [Option.getD_some, ← he, amp_eq ph nrm (h.wrow_lt t), ← (perm_eq_iff _ hp).1 hc, h.total_at t ht]
    · rw [if_neg hc] at he
      exact absurd he (by simp)

/-- The walk of `GetAmplitudes` after the entries of `t = 0 .. k`: every entry asked for is held, once, and nothing else;
unless all that were asked for are held already. -/
theorem Start.amps {T : Tab n} {g : ℕ} {P : Row n} (h : Start T g P) (ph : ℂ) (nrm : ℝ) (perms : List ℕ) {k : ℕ} (hk : k < 2 ^ g) :
    ∃ m, m ≤ k ∧ (List.range k).foldl
      (fun (s : Tab n × List (ℕ × ℂ)) t =>
        if perms.length ≤ s.2.length then s
        else
          let T := walkStep g s.1 t
          (T, ampsStep perms (getBasisAmp ph nrm (T (2 * n))) s.2))
      (at' T g P 0, ampsStep perms (getBasisAmp ph nrm (at' T g P 0 (2 * n))) []) =
      (at' T g P m, ((((List.range (m + 1)).map fun t => getBasisAmp ph nrm (wrow T g P t)).filter
        fun e => e.permutation ∈ perms).map fun e => (e.permutation, e.amplitude)).reverse) ∧
      (m = k ∨ perms.length ≤ (((List.range (m + 1)).map fun t => getBasisAmp ph nrm (wrow T g P t)).filter
        fun e => e.permutation ∈ perms).length) := by
  have hat : ∀ t, at' T g P t (2 * n) = wrow T g P t := fun t => Function.update_self ..
  have hstep : ∀ m, m + 1 < 2 ^ g → ampsStep perms (getBasisAmp ph nrm (wrow T g P (m + 1)))
      ((((List.range (m + 1)).map fun t => getBasisAmp ph nrm (wrow T g P t)).filter
        fun e => e.permutation ∈ perms).map fun e => (e.permutation, e.amplitude)).reverse =
      ((((List.range (m + 1 + 1)).map fun t => getBasisAmp ph nrm (wrow T g P t)).filter
        fun e => e.permutation ∈ perms).map fun e => (e.permutation, e.amplitude)).reverse := by
    intro m hm
    rw [List.range_succ (n := m + 1), List.map_append, List.filter_append, List.map_append, List.reverse_append]
    unfold ampsStep
    by_cases hc : (getBasisAmp ph nrm (wrow T g P (m + 1))).permutation ∈ perms
    · rw [if_pos hc, List.filter_eq_self.2]
      · simp [hc]
      · intro q hq
        rw [List.mem_reverse, List.mem_map] at hq
        obtain ⟨e, he, rfl⟩ := hq
        rw [List.mem_filter, List.mem_map] at he
        obtain ⟨⟨t, ht, rfl⟩, -⟩ := he
        rw [List.mem_range] at ht
        simp only [ne_eq, decide_not, Bool.not_eq_true', decide_eq_false_iff_not]
        intro hq
        have := h.perm_inj t (by omega) (m + 1) hm hq
        omega
    · rw [if_neg hc]
      simp [hc]
  induction k with
  | zero =>
    refine ⟨0, le_refl _, ?_, Or.inl rfl⟩
    rw [hat]
    simp only [List.range_zero, List.foldl_nil, Nat.zero_add, List.range_one, List.map_cons, List.map_nil]
    congr 1
    unfold ampsStep
    by_cases hc : (getBasisAmp ph nrm (wrow T g P 0)).permutation ∈ perms
    · simp [hc]
    · simp [hc]
  | succ k ih =>
    obtain ⟨m, hm, e, hd⟩ := ih (by omega)
    rw [List.range_succ, List.foldl_append, e, List.foldl_cons, List.foldl_nil]
    dsimp only
    rw [List.length_reverse, List.length_map]
    by_cases hc : perms.length ≤ (((List.range (m + 1)).map fun t => getBasisAmp ph nrm (wrow T g P t)).filter
        fun e => e.permutation ∈ perms).length
    · rw [if_pos hc]
      exact ⟨m, by omega, rfl, Or.inr hc⟩
    · rw [if_neg hc]
      have hmk : m = k := hd.resolve_right hc
      subst hmk
      refine ⟨m + 1, le_refl _, ?_, Or.inl rfl⟩
      rw [h.step, hat, hstep m hk]

/-! ### What a read-out leaves -/

theorem reduced_scratch {T : Tab n} {g : ℕ} (h : Reduced T g) (w : Row n) : Reduced (Function.update T (2 * n) w) g := by
  have hle := h.le
  refine ⟨h.le, fun a ha ha' => ?_, fun b hb hb' j => ?_, fun a ha ha' => ?_⟩
  · obtain ⟨q, q1, q2, q3⟩ := h.xs a ha ha'
    refine ⟨q, ?_, fun b hb hb' => ?_, fun b hb hb' j hj => ?_⟩
    · rw [Function.update_of_ne (by omega)]; exact q1
    · rw [Function.update_of_ne (by omega)]; exact q2 b hb hb'
    · rw [Function.update_of_ne (by omega)]; exact q3 b hb hb' j hj
  · rw [Function.update_of_ne (by omega)]; exact h.zero b hb hb' j
  · obtain ⟨q, q1, q2, q3⟩ := h.zs a ha ha'
    refine ⟨q, ?_, fun b hb hb' => ?_, fun b hb hb' j hj => ?_⟩
    · rw [Function.update_of_ne (by omega)]; exact q1
    · rw [Function.update_of_ne (by omega)]; exact q2 b hb hb'
    · rw [Function.update_of_ne (by omega)]; exact q3 b hb hb' j hj

theorem seedBits_scratch (T : Tab n) {g : ℕ} (hg : g ≤ n) (w : Row n) : seedBits (Function.update T (2 * n) w) g = seedBits T g := by
  unfold seedBits
  refine List.foldl_ext _ _ _ fun s i hi => ?_
  rw [List.mem_reverse, List.mem_range'_1] at hi
  rw [Function.update_of_ne (by omega)]

/-- Only the scratch row tells what was read before, and every read-out rewrites it. -/
theorem prepare_again {T : Tab n} (h : Inv T) (w : Row n) :
    prepare (Function.update (gaussian T).1 (2 * n) w) = prepare T := by
  have hr := reduced_gaussian h
  unfold prepare
  rw [gaussian_reduced (reduced_scratch hr w)]
  dsimp only
  unfold seed
  rw [seedBits_scratch _ hr.le, Function.update_idem]

end Verif.Stab
