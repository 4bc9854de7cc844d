import Verif.Model.StabCompare
import Verif.Props.StabCompose

/-!
# C70: comparing stabilizer states
-/

namespace Verif.Stab

open Verif.Pauli Complex

variable {n : ℕ}

/-! ### Overlaps -/

/-- The inner product of two states. -/
noncomputable def overlap (ψ φ : State n) : ℂ := ∑ f, (starRingEnd ℂ) (ψ f) * φ f

theorem overlap_self (ψ : State n) : overlap ψ ψ = norm2 ψ := by
  unfold overlap norm2
  push_cast
  exact Finset.sum_congr rfl fun f _ => (normSq_eq_conj_mul_self).symm

theorem overlap_conj (ψ φ : State n) : (starRingEnd ℂ) (overlap ψ φ) = overlap φ ψ := by
  unfold overlap
  rw [map_sum]
  refine Finset.sum_congr rfl fun f _ => ?_
  rw [map_mul, conj_conj, mul_comm]

/-- The inequality of Cauchy and Schwarz. -/
theorem overlap_le (ψ φ : State n) : normSq (overlap ψ φ) ≤ norm2 ψ * norm2 φ := by
  have h1 : ‖overlap ψ φ‖ ≤ ∑ f, ‖ψ f‖ * ‖φ f‖ := by
    refine (norm_sum_le _ _).trans (Finset.sum_le_sum fun f _ => ?_)
    rw [norm_mul, RCLike.norm_conj]
  have h2 := Finset.sum_mul_sq_le_sq_mul_sq Finset.univ (fun f : Bits n => ‖ψ f‖) (fun f => ‖φ f‖)
  have h3 : ∀ χ : State n, norm2 χ = ∑ f, ‖χ f‖ ^ 2 := fun χ => Finset.sum_congr rfl fun f _ => normSq_eq_norm_sq _
  rw [h3 ψ, h3 φ, normSq_eq_norm_sq]
  exact (pow_le_pow_left₀ (norm_nonneg _) h1 2).trans h2

theorem coef_conj (x z b : Bool) : (starRingEnd ℂ) (coef x z b) = coef x z (b ^^ x) := by
  cases x <;> cases z <;> cases b <;> simp [coef_ff, coef_tf, coef_ft0, coef_ft1, coef_tt0, coef_tt1]

/-- A generator moves from one side to the other. -/
theorem overlap_op {w : Row n} (h : w.r = 0 ∨ w.r = 2) (ψ φ : State n) : overlap (w.op ψ) φ = overlap ψ (w.op φ) := by
  have hinv : ∀ f : Bits n, bxor (bxor f w.x) w.x = f := by
    intro f; funext j; simp [bxor]
  unfold overlap
  refine Finset.sum_bij' (fun f _ => bxor f w.x) (fun f _ => bxor f w.x) (fun _ _ => Finset.mem_univ _)
    (fun _ _ => Finset.mem_univ _) (fun f _ => hinv f) (fun f _ => hinv f) ?_
  intro f _
  rw [op_apply, op_apply, hinv, map_mul, map_mul, map_prod]
  have e1 : (starRingEnd ℂ) (I ^ w.r) = I ^ w.r := by
    rcases h with h | h <;> rw [h] <;> simp
  have e2 : ∏ j, (starRingEnd ℂ) (coef (w.x j) (w.z j) (f j)) = ∏ j, coef (w.x j) (w.z j) (bxor f w.x j) :=
    Finset.prod_congr rfl fun j _ => coef_conj _ _ _
  rw [e1, e2]
  ring

theorem overlap_add (ψ φ χ : State n) : overlap ψ (fun f => φ f + χ f) = overlap ψ φ + overlap ψ χ := by
  unfold overlap
  rw [← Finset.sum_add_distrib]
  exact Finset.sum_congr rfl fun f _ => by ring

theorem overlap_smul (ψ φ : State n) (c : ℂ) : overlap ψ (fun f => c * φ f) = c * overlap ψ φ := by
  unfold overlap
  rw [Finset.mul_sum]
  exact Finset.sum_congr rfl fun f _ => by ring

theorem op_smul (w : Row n) (c : ℂ) (φ : State n) : w.op (fun f => c * φ f) = fun f => c * w.op φ f := by
  funext f; rw [op_apply, op_apply]; ring

/-- Stabilizer states are equal up to a factor, or overlap by at most one half. -/
theorem overlap_dichotomy {T S : Tab n} {ψ φ : State n} (hT : Holds T ψ) (hS : Holds S φ) (hψ : norm2 ψ = 1) (hφ : norm2 φ = 1) :
    (∃ c : ℂ, ∀ f, φ f = c * ψ f) ∨ normSq (overlap ψ φ) ≤ 1 / 2 := by
  by_cases hall : ∀ i, n ≤ i → i < 2 * n → (T i).op φ = φ
  · left
    obtain ⟨c, -, hc⟩ := holds_unique (⟨hT.1, hall, hS.2.2⟩ : Holds T φ) hT
    exact ⟨c, hc⟩
  · right
    push Not at hall
    obtain ⟨i, hi, hi', hne⟩ := hall
    have hherm := hT.1.herm i hi'
    have hmove : overlap ψ ((T i).op φ) = overlap ψ φ := by rw [← overlap_op hherm, hT.2.1 i hi hi']
    by_cases hcomm : ∀ j, n ≤ j → j < 2 * n → sp (S j) (T i) = 0
    · -- the generator fixes the other state up to a sign
      have hst : Stabilises S ((T i).op φ) := by
        intro j hj hj'
        rw [op_commutes (hcomm j hj hj'), hS.2.1 j hj hj']
      have hnz : (T i).op φ ≠ 0 := by
        intro h0
        apply hS.2.2
        have := op_op_self hherm φ
        rw [h0] at this
        rw [← this]
        funext f; rw [op_apply]; simp
      obtain ⟨c, hc0, hc⟩ := holds_unique (⟨hS.1, hst, hnz⟩ : Holds S ((T i).op φ)) hS
      have hcf : (T i).op φ = fun f => c * φ f := funext hc
      have hcc : c * c = 1 := by
        have h2 := op_op_self hherm φ
        rw [hcf, op_smul, hcf] at h2
        obtain ⟨f, hf⟩ : ∃ f, φ f ≠ 0 := by
          by_contra hn; push Not at hn; exact hS.2.2 (funext hn)
        have := congrFun h2 f
        apply mul_right_cancel₀ hf
        rw [one_mul, mul_assoc]; exact this
      have hc1 : c = -1 := by
        rcases mul_self_eq_one_iff.1 hcc with h | h
        · exfalso; apply hne; rw [hcf, h]; funext f; rw [one_mul]
        · exact h
      rw [hcf, overlap_smul, hc1] at hmove
      have : overlap ψ φ = 0 := by linear_combination (-1 / 2 : ℂ) * hmove
      rw [this, map_zero]; norm_num
    · push Not at hcomm
      obtain ⟨j, hj, hj', hsp⟩ := hcomm
      have hsp1 : sp (S j) (T i) = 1 := by
        revert hsp; generalize sp (S j) (T i) = z; revert z; decide
      have hanti : overlap φ ((T i).op φ) = 0 := by
        have h1 : (S j).op ((T i).op φ) = fun f => (-1) * (T i).op φ f := by
          funext f
          rw [op_comm, hsp1, hS.2.1 j hj hj']
          simp [sg]
        have h2 : overlap φ ((T i).op φ) = overlap φ ((S j).op ((T i).op φ)) := by
          rw [← overlap_op (hS.1.herm j hj'), hS.2.1 j hj hj']
        rw [h1, overlap_smul] at h2
        linear_combination (1 / 2 : ℂ) * h2
      have hnorm : norm2 (fun f => φ f + (T i).op φ f) = 2 := by
        have e : ((norm2 (fun f => φ f + (T i).op φ f) : ℝ) : ℂ) = 2 := by
          rw [← overlap_self, overlap_add]
          rw [← overlap_conj φ, ← overlap_conj ((T i).op φ), overlap_add, overlap_add, hanti]
          have h3 : overlap ((T i).op φ) ((T i).op φ) = 1 := by
            rw [overlap_op hherm, op_op_self hherm, overlap_self, hφ]; norm_num
          have h4 : overlap ((T i).op φ) φ = 0 := by rw [← overlap_conj, hanti, map_zero]
          rw [h3, h4, overlap_self, hφ]; norm_num
        exact_mod_cast e
      have hcs := overlap_le ψ (fun f => φ f + (T i).op φ f)
      rw [hnorm, hψ, overlap_add, hmove, ← two_mul, map_mul] at hcs
      have : normSq (2 : ℂ) = 4 := by rw [show (2 : ℂ) = ((2 : ℝ) : ℂ) by norm_num, normSq_ofReal]; norm_num
      rw [this] at hcs
      linarith

/-! ### The walks -/

theorem read_trans {T T' T'' : Tab n} (h : Inv T) (h1 : Read T T') (h2 : Read T' T'') : Read T T'' := by
  obtain ⟨w, rfl⟩ := h1
  obtain ⟨w', rfl⟩ := h2
  rw [gaussian_reduced (reduced_scratch (reduced_gaussian h) w), Function.update_idem]
  exact ⟨w', rfl⟩

/-- The tableau itself, or what a read-out leaves of it. -/
def Same (T T' : Tab n) : Prop := T' = T ∨ Read T T'

theorem same_amplitude {T T' : Tab n} (h : Inv T) (hs : Same T T') (ph : ℂ) (p : ℕ) :
    (getAmplitude ph T' p).2 = (getAmplitude ph T p).2 ∧ Read T (getAmplitude ph T' p).1 := by
  rcases hs with rfl | hr
  · exact ⟨rfl, (reads_leave h ph [] [] [] p 0 0 false).2.2.2.1⟩
  · have := (read_repeats h hr ph).2.2.2.1
    rw [this]
    exact ⟨rfl, (reads_leave h ph [] [] [] p 0 0 false).2.2.2.1⟩

/-- The terms that the comparison adds up. -/
noncomputable def term (ph ph' : ℂ) (T S : Tab n) (t : ℕ) : ℂ :=
  (starRingEnd ℂ) (getBasisAmp ph (readNrm (gaussian T).2) (wrow (gaussian T).1 (gaussian T).2 (seedRow T) t)).amplitude *
    (getAmplitude ph' S (basisPerm (wrow (gaussian T).1 (gaussian T).2 (seedRow T) t))).2

theorem entry_amp {T : Tab n} (h : Inv T) (ph : ℂ) {t : ℕ} (ht : t < 2 ^ (gaussian T).2) :
    (getBasisAmp ph (readNrm (gaussian T).2) (wrow (gaussian T).1 (gaussian T).2 (seedRow T) t)).amplitude =
      (getQuantumState ph T).2 (basisPerm (wrow (gaussian T).1 (gaussian T).2 (seedRow T) t)) := by
  rw [state_eq h ph (perm_lt _), perm_bits, (start_prepare h).total_at t ht, amp_eq ph _ ((start_prepare h).wrow_lt t)]

/-- Sums over the entries visited. -/
theorem sum_entries {T : Tab n} (h : Inv T) (ph : ℂ) (F : Bits n → ℂ)
    (hF : ∀ f, (getQuantumState ph T).2 (basisPerm (bRow f)) = 0 → F f = 0) :
    ∑ t ∈ Finset.range (2 ^ (gaussian T).2), F (wrow (gaussian T).1 (gaussian T).2 (seedRow T) t).x = ∑ f, F f := by
  have hs := start_prepare h
  have hinj : Set.InjOn (fun t => (wrow (gaussian T).1 (gaussian T).2 (seedRow T) t).x) (Finset.range (2 ^ (gaussian T).2) : Set ℕ) := by
    intro t ht u hu he
    exact hs.wrow_inj (by simpa using ht) (by simpa using hu) he
  rw [← Finset.sum_image (f := F) hinj]
  refine Finset.sum_subset (Finset.subset_univ _) fun f _ hf => ?_
  refine hF f ?_
  rw [state_eq h ph (perm_lt _), perm_bits]
  show _ * total _ _ _ f = 0
  rw [total_off, mul_zero]
  intro t ht he
  exact hf (Finset.mem_image.2 ⟨t, Finset.mem_range.2 ht, he⟩)

/-- The terms add up to the overlap, up to a phase. -/
theorem sum_terms {T S : Tab n} {ψ φ : State n} (hT : Holds T ψ) (hS : Holds S φ) (hψ : norm2 ψ = 1) (hφ : norm2 φ = 1) {ph ph' : ℂ}
    (hph : normSq ph = 1) (hph' : normSq ph' = 1) :
    normSq (∑ t ∈ Finset.range (2 ^ (gaussian T).2), term ph ph' T S t) = normSq (overlap ψ φ) := by
  obtain ⟨c, hc, hv⟩ := quantumState_spec hT.1 hph hT.2.1 (norm2_ne.2 hT.2.2)
  obtain ⟨d, hd, hw⟩ := quantumState_spec hS.1 hph' hS.2.1 (norm2_ne.2 hS.2.2)
  rw [hψ, mul_one] at hc
  rw [hφ, mul_one] at hd
  have e : ∀ t ∈ Finset.range (2 ^ (gaussian T).2), term ph ph' T S t =
      (fun f : Bits n => (starRingEnd ℂ) (c * ψ f) * (d * φ f)) (wrow (gaussian T).1 (gaussian T).2 (seedRow T) t).x := by
    intro t ht
    unfold term
    rw [entry_amp hT.1 ph (Finset.mem_range.1 ht), amplitude_spec hS.1 ph' (perm_lt _), hv _ (perm_lt _), hw _ (perm_lt _), perm_bits]
  rw [Finset.sum_congr rfl e, sum_entries hT.1 ph (fun f : Bits n => (starRingEnd ℂ) (c * ψ f) * (d * φ f)) ?_]
  · have : ∑ f : Bits n, (starRingEnd ℂ) (c * ψ f) * (d * φ f) = (starRingEnd ℂ) c * d * overlap ψ φ := by
      unfold overlap
      rw [Finset.mul_sum]
      refine Finset.sum_congr rfl fun f _ => ?_
      rw [map_mul]; ring
    rw [this, map_mul, map_mul, normSq_conj, hc, hd, one_mul, one_mul]
  · intro f hf
    rw [hv _ (perm_lt _), perm_bits] at hf
    have : c * ψ f = 0 := hf
    rw [this, map_zero, zero_mul]

theorem clampProb_id {p : ℝ} (h0 : 0 ≤ p) (h1 : p ≤ 1) : clampProb p = p := by
  unfold clampProb
  rw [if_neg (not_lt.2 h0)]
  exact if_neg (not_lt.2 h1)

theorem fold_csum (F : ℕ → ℂ) (k : ℕ) : (List.range k).foldl (fun v t => v + F t) 0 = ∑ t ∈ Finset.range k, F t := by
  induction k with
  | zero => rfl
  | succ k ih => rw [List.range_succ, List.foldl_append, ih, Finset.sum_range_succ]; rfl

theorem compareAmps_eq {T S S' : Tab n} (hT : Inv T) (hS : Inv S) (hs : Same S S') (ph ph' : ℂ) :
    (compareAmps ph ph' T S').2.2 = 1 - clampProb (normSq (∑ t ∈ Finset.range (2 ^ (gaussian T).2), term ph ph' T S t)) ∧
    Read T (compareAmps ph ph' T S').1 ∧ Read S (compareAmps ph ph' T S').2.1 := by
  have hst := start_prepare hT
  unfold compareAmps
  rw [prepare_eq]
  dsimp only
  rw [hst.walk_eq]
  dsimp only
  have key : ∀ k, ((List.range k).foldl (fun (d : Tab n × ℂ) t =>
      ((getAmplitude ph' d.1 (getBasisAmp ph (readNrm (gaussian T).2) (wrow (gaussian T).1 (gaussian T).2 (seedRow T) t)).permutation).1,
        d.2 + (starRingEnd ℂ) (getBasisAmp ph (readNrm (gaussian T).2) (wrow (gaussian T).1 (gaussian T).2 (seedRow T) t)).amplitude *
          (getAmplitude ph' d.1 (getBasisAmp ph (readNrm (gaussian T).2) (wrow (gaussian T).1 (gaussian T).2 (seedRow T) t)).permutation).2))
      (S', 0)).2 = ∑ t ∈ Finset.range k, term ph ph' T S t ∧
      Same S ((List.range k).foldl (fun (d : Tab n × ℂ) t =>
      ((getAmplitude ph' d.1 (getBasisAmp ph (readNrm (gaussian T).2) (wrow (gaussian T).1 (gaussian T).2 (seedRow T) t)).permutation).1,
        d.2 + (starRingEnd ℂ) (getBasisAmp ph (readNrm (gaussian T).2) (wrow (gaussian T).1 (gaussian T).2 (seedRow T) t)).amplitude *
          (getAmplitude ph' d.1 (getBasisAmp ph (readNrm (gaussian T).2) (wrow (gaussian T).1 (gaussian T).2 (seedRow T) t)).permutation).2))
      (S', 0)).1 ∧ (0 < k → Read S ((List.range k).foldl (fun (d : Tab n × ℂ) t =>
      ((getAmplitude ph' d.1 (getBasisAmp ph (readNrm (gaussian T).2) (wrow (gaussian T).1 (gaussian T).2 (seedRow T) t)).permutation).1,
        d.2 + (starRingEnd ℂ) (getBasisAmp ph (readNrm (gaussian T).2) (wrow (gaussian T).1 (gaussian T).2 (seedRow T) t)).amplitude *
          (getAmplitude ph' d.1 (getBasisAmp ph (readNrm (gaussian T).2) (wrow (gaussian T).1 (gaussian T).2 (seedRow T) t)).permutation).2))
      (S', 0)).1) := by
    intro k
    induction k with
    | zero => exact ⟨rfl, hs, fun h => absurd h (by omega)⟩
    | succ k ih =>
      obtain ⟨i1, i2, -⟩ := ih
      rw [List.range_succ, List.foldl_append, Finset.sum_range_succ, ← i1]
      have := same_amplitude hS i2 ph' (getBasisAmp ph (readNrm (gaussian T).2) (wrow (gaussian T).1 (gaussian T).2 (seedRow T) k)).permutation
      simp only [List.foldl_cons, List.foldl_nil]
      rw [this.1]
      exact ⟨rfl, Or.inr this.2, fun _ => this.2⟩
  obtain ⟨k1, -, k3⟩ := key (2 ^ (gaussian T).2)
  refine ⟨?_, ⟨_, rfl⟩, k3 (Nat.two_pow_pos _)⟩
  rw [k1]

theorem compareMap_eq {T S S' : Tab n} (hT : Inv T) (hS : Inv S) (hs : Same S S') {ph ph' : ℂ} (hph' : normSq ph' = 1) :
    (compareMap ph ph' T S').2.2 = 1 - clampProb (normSq (∑ t ∈ Finset.range (2 ^ (gaussian T).2), term ph ph' T S t)) ∧
    Read T (compareMap ph ph' T S').1 ∧ Read S (compareMap ph ph' T S').2.1 := by
  have hst := start_prepare hT
  have hmap : getQuantumStateMap ph' S' = getQuantumStateMap ph' S := by
    rcases hs with rfl | hr
    · rfl
    · exact (read_repeats hS hr ph').2.1
  unfold compareMap
  rw [prepare_eq, hmap]
  dsimp only
  rw [hst.walk_eq]
  dsimp only
  refine ⟨?_, ⟨_, rfl⟩, (reads_leave hS ph' [] [] [] 0 0 0 false).2.1⟩
  rw [← fold_csum]
  congr 3
  refine List.foldl_ext _ _ _ fun v t _ => ?_
  unfold term
  rw [amplitude_spec hS ph' (perm_lt _)]
  show (match (getQuantumStateMap ph' S).2 (basisPerm (wrow (gaussian T).1 (gaussian T).2 (seedRow T) t)) with
    | some a => v + (starRingEnd ℂ) (getBasisAmp ph (readNrm (gaussian T).2) (wrow (gaussian T).1 (gaussian T).2 (seedRow T) t)).amplitude * a
    | none => v) = _
  rw [stateMap_spec hS hph' (perm_lt _)]
  split_ifs with h0
  · rw [h0, mul_zero, add_zero]
  · rfl

/-- The terms added so far, and whether the overlap has fallen behind. -/
noncomputable def behind (ph ph' : ℂ) (T S : Tab n) (tol : ℝ) (k : ℕ) : Prop :=
  tol < k * (1 / ((2 ^ (gaussian T).2 : ℕ) : ℝ)) - ‖∑ t ∈ Finset.range k, term ph ph' T S t‖

theorem compareDiscrete_eq {T S S' : Tab n} (hT : Inv T) (hS : Inv S) (hs : Same S S') (ph ph' : ℂ) (tol : ℝ) :
    ((∃ k, 0 < k ∧ k ≤ 2 ^ (gaussian T).2 ∧ behind ph ph' T S tol k) → (compareDiscrete ph ph' T S' tol).2.2 = 1) ∧
    ((∀ k, 0 < k → k ≤ 2 ^ (gaussian T).2 → ¬ behind ph ph' T S tol k) → (compareDiscrete ph ph' T S' tol).2.2 =
      1 - clampProb (normSq (∑ t ∈ Finset.range (2 ^ (gaussian T).2), term ph ph' T S t))) ∧
    Read T (compareDiscrete ph ph' T S' tol).1 ∧ Read S (compareDiscrete ph ph' T S' tol).2.1 := by
  have hst := start_prepare hT
  have hat : ∀ t, at' (gaussian T).1 (gaussian T).2 (seedRow T) t (2 * n) = wrow (gaussian T).1 (gaussian T).2 (seedRow T) t :=
    fun t => Function.update_self ..
  unfold compareDiscrete
  rw [prepare_eq]
  dsimp only
  have hent : ∀ (d : Tab n × ℝ × ℂ × Bool) (k : ℕ), Same S d.1 → d.2.1 = k * (1 / ((2 ^ (gaussian T).2 : ℕ) : ℝ)) →
      d.2.2.1 = ∑ t ∈ Finset.range k, term ph ph' T S t →
      ∀ e, e = discEntry ph' (1 / ((2 ^ (gaussian T).2 : ℕ) : ℝ)) tol
        (getBasisAmp ph (readNrm (gaussian T).2) (wrow (gaussian T).1 (gaussian T).2 (seedRow T) k)) d →
      Read S e.1 ∧ e.2.1 = (k + 1 : ℕ) * (1 / ((2 ^ (gaussian T).2 : ℕ) : ℝ)) ∧
      e.2.2.1 = ∑ t ∈ Finset.range (k + 1), term ph ph' T S t ∧ (e.2.2.2 = true ↔ behind ph ph' T S tol (k + 1)) := by
    intro d k h1 h2 h3 e he
    have hs := same_amplitude hS h1 ph' (getBasisAmp ph (readNrm (gaussian T).2) (wrow (gaussian T).1 (gaussian T).2 (seedRow T) k)).permutation
    unfold discEntry at he
    dsimp only at he
    rw [hs.1, h2, h3] at he
    have e1 : (k : ℝ) * (1 / ((2 ^ (gaussian T).2 : ℕ) : ℝ)) + 1 / ((2 ^ (gaussian T).2 : ℕ) : ℝ) =
        (k + 1 : ℕ) * (1 / ((2 ^ (gaussian T).2 : ℕ) : ℝ)) := by push_cast; ring
    have e2 : ∑ t ∈ Finset.range k, term ph ph' T S t +
        (starRingEnd ℂ) (getBasisAmp ph (readNrm (gaussian T).2) (wrow (gaussian T).1 (gaussian T).2 (seedRow T) k)).amplitude *
          (getAmplitude ph' S (getBasisAmp ph (readNrm (gaussian T).2) (wrow (gaussian T).1 (gaussian T).2 (seedRow T) k)).permutation).2 =
        ∑ t ∈ Finset.range (k + 1), term ph ph' T S t := by rw [Finset.sum_range_succ]; rfl
    rw [e1, e2] at he
    subst he
    refine ⟨hs.2, rfl, rfl, ?_⟩
    unfold behind
    rw [decide_eq_true_eq]
  have key : ∀ k, ∃ d : Tab n × Tab n × ℝ × ℂ × Bool, (List.range k).foldl (discStep ph ph' (readNrm (gaussian T).2)
        (1 / ((2 ^ (gaussian T).2 : ℕ) : ℝ)) tol (gaussian T).2)
      (at' (gaussian T).1 (gaussian T).2 (seedRow T) 0, discEntry ph' (1 / ((2 ^ (gaussian T).2 : ℕ) : ℝ)) tol
        (getBasisAmp ph (readNrm (gaussian T).2) (at' (gaussian T).1 (gaussian T).2 (seedRow T) 0 (2 * n))) (S', 0, 0, false)) = d ∧
      Read T d.1 ∧ Read S d.2.1 ∧ (d.2.2.2.2 = true → ∃ j, 0 < j ∧ j ≤ k + 1 ∧ behind ph ph' T S tol j) ∧
      (d.2.2.2.2 = false → d.1 = at' (gaussian T).1 (gaussian T).2 (seedRow T) k ∧
        d.2.2.1 = (k + 1 : ℕ) * (1 / ((2 ^ (gaussian T).2 : ℕ) : ℝ)) ∧ d.2.2.2.1 = ∑ t ∈ Finset.range (k + 1), term ph ph' T S t ∧
        ∀ j, 0 < j → j ≤ k + 1 → ¬ behind ph ph' T S tol j) := by
    intro k
    induction k with
    | zero =>
      refine ⟨_, rfl, ⟨_, rfl⟩, ?_⟩
      obtain ⟨r1, r2, r3, r4⟩ := hent (S', 0, 0, false) 0 hs (by simp) (by simp) _ rfl
      rw [List.range_zero, List.foldl_nil]
      dsimp only
      rw [hat]
      refine ⟨r1, fun h => ⟨1, by norm_num, le_refl _, r4.1 h⟩, fun h => ⟨rfl, r2, r3, fun j hj hj' => ?_⟩⟩
      have : j = 1 := by omega
      subst this
      intro hb
      rw [r4.2 hb] at h
      exact absurd h (by simp)
    | succ k ih =>
      obtain ⟨d, e, i1, i2, i3, i4⟩ := ih
      rw [List.range_succ, List.foldl_append, e, List.foldl_cons, List.foldl_nil]
      unfold discStep
      by_cases hstop : d.2.2.2.2 = true
      · rw [if_pos hstop]
        refine ⟨d, rfl, i1, i2, fun h => ?_, fun h => absurd hstop (by rw [h]; simp)⟩
        obtain ⟨j, hj, hj', hb⟩ := i3 h
        exact ⟨j, hj, by omega, hb⟩
      · rw [if_neg hstop]
        obtain ⟨j1, j2, j3, j4⟩ := i4 (by simpa using hstop)
        rw [j1, hst.step, hat]
        obtain ⟨r1, r2, r3, r4⟩ := hent d.2 (k + 1) (Or.inr i2) j2 j3 _ rfl
        refine ⟨_, rfl, ⟨_, rfl⟩, r1, fun h => ⟨k + 2, by omega, le_refl _, r4.1 h⟩, fun h => ⟨rfl, r2, r3, fun j hj hj' => ?_⟩⟩
        rcases Nat.lt_or_ge j (k + 2) with hlt | hge
        · exact j4 j hj (by omega)
        · have : j = k + 2 := by omega
          subst this
          intro hb
          rw [r4.2 hb] at h
          exact absurd h (by simp)
  have h0 : 0 < 2 ^ (gaussian T).2 := Nat.two_pow_pos _
  obtain ⟨d, e, i1, i2, i3, i4⟩ := key (2 ^ (gaussian T).2 - 1)
  rw [show 2 ^ (gaussian T).2 - 1 + 1 = 2 ^ (gaussian T).2 by omega] at i3 i4
  rw [e]
  refine ⟨fun ⟨k, hk, hk', hb⟩ => ?_, fun hall => ?_, i1, i2⟩
  · rw [if_pos]
    by_contra hc
    exact (i4 (by simpa using hc)).2.2.2 k hk hk' hb
  · have hf : d.2.2.2.2 = false := by
      by_contra hc
      obtain ⟨j, hj, hj', hb⟩ := i3 (by simpa using hc)
      exact hall j hj hj' hb
    rw [hf, if_neg (by simp), (i4 hf).2.2.1]

theorem compareHelper_same (ph ph' : ℂ) (cache : ℕ) (T S : Tab n) (tol : ℝ) (b : Bool) (hn : n ≠ 0) :
    compareHelper ph ph' cache T S tol b = if b then compareDiscrete ph ph' T S tol
      else if 2 ^ (gaussian S).2 < 2 ^ cache then compareMap ph ph' T (gaussian S).1 else compareAmps ph ph' T (gaussian S).1 := by
  unfold compareHelper
  rw [dif_pos rfl]
  exact if_neg hn

theorem gaussian_read (S : Tab n) : Read S (gaussian S).1 := ⟨(gaussian S).1 (2 * n), by rw [Function.update_eq_self]⟩

/-- `SumSqrDiff` is one minus the fidelity, whichever way it goes. -/
theorem sumSqrDiff_spec {T S : Tab n} {ψ φ : State n} (hT : Holds T ψ) (hS : Holds S φ) (hψ : norm2 ψ = 1) (hφ : norm2 φ = 1) {ph ph' : ℂ}
    (hph : normSq ph = 1) (hph' : normSq ph' = 1) (cache : ℕ) :
    sumSqrDiff ph ph' cache T S = 1 - normSq (overlap ψ φ) := by
  unfold sumSqrDiff
  by_cases hn : n = 0
  · subst hn
    have : normSq (overlap ψ φ) = 1 := by
      unfold overlap
      unfold norm2 at hψ hφ
      rw [Fintype.sum_unique] at hψ hφ ⊢
      rw [map_mul, normSq_conj, hψ, hφ, one_mul]
    rw [this]
    unfold compareHelper
    rw [dif_pos rfl]
    show (0 : ℝ) = 1 - 1
    norm_num
  · have hle : normSq (overlap ψ φ) ≤ 1 := by
      have := overlap_le ψ φ
      rwa [hψ, hφ, one_mul] at this
    rw [compareHelper_same ph ph' cache T S 0 false hn, if_neg (by simp)]
    split_ifs
    · rw [(compareMap_eq hT.1 hS.1 (Or.inr (gaussian_read S)) hph').1, sum_terms hT hS hψ hφ hph hph', clampProb_id (normSq_nonneg _) hle]
    · rw [(compareAmps_eq hT.1 hS.1 (Or.inr (gaussian_read S)) ph ph').1, sum_terms hT hS hψ hφ hph hph', clampProb_id (normSq_nonneg _) hle]

/-- Registers of different sizes differ as much as can be. -/
theorem sumSqrDiff_unequal {m : ℕ} (T : Tab n) (S : Tab m) (h : m ≠ n) (ph ph' : ℂ) (cache : ℕ) {tol : ℝ} (ht : tol < 1) :
    sumSqrDiff ph ph' cache T S = 1 ∧ approxCompare ph ph' cache T S tol = false := by
  unfold sumSqrDiff approxCompare compareHelper
  rw [dif_neg h, dif_neg h]
  exact ⟨rfl, decide_eq_false (not_le.2 ht)⟩

/-- `ApproxCompare` with a tolerance below one half is true exactly for states that are equal up to a global phase. -/
theorem approxCompare_iff {T S : Tab n} {ψ φ : State n} (hT : Holds T ψ) (hS : Holds S φ) (hψ : norm2 ψ = 1) (hφ : norm2 φ = 1) {ph ph' : ℂ}
    (hph : normSq ph = 1) (hph' : normSq ph' = 1) (cache : ℕ) {tol : ℝ} (ht : 0 ≤ tol) (ht' : tol < 1 / 2) :
    approxCompare ph ph' cache T S tol = true ↔ ∃ c : ℂ, normSq c = 1 ∧ ∀ f, φ f = c * ψ f := by
  have hunit : ∀ c : ℂ, (∀ f, φ f = c * ψ f) → normSq c = 1 := by
    intro c hc
    unfold norm2 at hψ hφ
    simp only [hc, map_mul] at hφ
    rwa [← Finset.mul_sum, hψ, mul_one] at hφ
  unfold approxCompare
  rw [decide_eq_true_eq]
  by_cases hn : n = 0
  · subst hn
    constructor
    · intro _
      have hex : ∃ c : ℂ, ∀ f, φ f = c * ψ f := by
        refine ⟨φ default * (ψ default)⁻¹, fun f => ?_⟩
        have h0 : ψ default ≠ 0 := by
          intro h0
          apply hT.2.2
          funext g; rw [Subsingleton.elim g default, h0]; rfl
        rw [Subsingleton.elim f default]
        field_simp
      obtain ⟨c, hc⟩ := hex
      exact ⟨c, hunit c hc, hc⟩
    · intro _
      unfold compareHelper
      rw [dif_pos rfl]
      exact ht
  · have hle : normSq (overlap ψ φ) ≤ 1 := by
      have := overlap_le ψ φ
      rwa [hψ, hφ, one_mul] at this
    rw [compareHelper_same ph ph' cache T S tol true hn, if_pos rfl]
    obtain ⟨d1, d2, -, -⟩ := compareDiscrete_eq hT.1 hS.1 (Or.inl rfl) ph ph' tol
    have d2' : (∀ k, 0 < k → k ≤ 2 ^ (gaussian T).2 → ¬ behind ph ph' T S tol k) →
        (compareDiscrete ph ph' T S tol).2.2 = 1 - normSq (overlap ψ φ) := by
      intro h
      rw [d2 h, sum_terms hT hS hψ hφ hph hph', clampProb_id (normSq_nonneg _) hle]
    constructor
    · intro h
      by_cases hb : ∃ k, 0 < k ∧ k ≤ 2 ^ (gaussian T).2 ∧ behind ph ph' T S tol k
      · rw [d1 hb] at h; linarith
      · push Not at hb
        rw [d2' hb] at h
        rcases overlap_dichotomy hT hS hψ hφ with ⟨c, hc⟩ | hsmall
        · exact ⟨c, hunit c hc, hc⟩
        · linarith
    · rintro ⟨c, hc1, hc⟩
      obtain ⟨a, ha, hv⟩ := quantumState_spec hT.1 hph hT.2.1 (norm2_ne.2 hT.2.2)
      obtain ⟨b, hb, hw⟩ := quantumState_spec hS.1 hph' hS.2.1 (norm2_ne.2 hS.2.2)
      rw [hψ, mul_one] at ha
      rw [hφ, mul_one] at hb
      have hterm : ∀ t < 2 ^ (gaussian T).2, term ph ph' T S t = b * c * a⁻¹ * ((1 / ((2 ^ (gaussian T).2 : ℕ) : ℝ) : ℝ) : ℂ) := by
        intro t ht
        have ha0 : a ≠ 0 := fun h0 => by rw [h0, map_zero] at ha; exact zero_ne_one ha
        have hamp := entry_amp hT.1 ph ht
        have hnorm : normSq (getBasisAmp ph (readNrm (gaussian T).2) (wrow (gaussian T).1 (gaussian T).2 (seedRow T) t)).amplitude =
            1 / ((2 ^ (gaussian T).2 : ℕ) : ℝ) := by
          rw [amp_eq ph _ ((start_prepare hT.1).wrow_lt t), map_mul, map_mul, map_pow, normSq_I, one_pow, hph, mul_one, mul_one]
          have := nrm_sq (gaussian T).2
          have hne : ((2 : ℝ) ^ (gaussian T).2) ≠ 0 := by positivity
          push_cast
          field_simp
          linarith
        unfold term
        rw [amplitude_spec hS.1 ph' (perm_lt _), hw _ (perm_lt _), hc, ← hnorm, ← mul_conj, hamp, hv _ (perm_lt _)]
        field_simp
      have hsum : ∀ k ≤ 2 ^ (gaussian T).2, ∑ t ∈ Finset.range k, term ph ph' T S t =
          b * c * a⁻¹ * ((k * (1 / ((2 ^ (gaussian T).2 : ℕ) : ℝ)) : ℝ) : ℂ) := by
        intro k hk
        rw [Finset.sum_congr rfl fun t ht => hterm t (by have := Finset.mem_range.1 ht; omega), Finset.sum_const, Finset.card_range]
        push_cast
        rw [nsmul_eq_mul]
        ring
      have hone : ‖b * c * a⁻¹‖ = 1 := by
        have : normSq (b * c * a⁻¹) = 1 := by rw [map_mul, map_mul, map_inv₀, ha, hb, hc1]; norm_num
        rw [normSq_eq_norm_sq] at this
        nlinarith [norm_nonneg (b * c * a⁻¹)]
      have hnot : ∀ k, 0 < k → k ≤ 2 ^ (gaussian T).2 → ¬ behind ph ph' T S tol k := by
        intro k _ hk hbh
        unfold behind at hbh
        rw [hsum k hk, norm_mul, hone, one_mul, norm_real, Real.norm_of_nonneg (by positivity), sub_self] at hbh
        linarith
      rw [d2' hnot]
      have : normSq (overlap ψ φ) = 1 := by
        rw [show φ = fun f => c * ψ f from funext hc, overlap_smul, overlap_self, hψ, map_mul, hc1]; norm_num
      rw [this]; linarith

/-- The comparisons leave both objects as a read-out does, so that later read-outs give the same. -/
theorem compare_leaves {T S : Tab n} (hT : Inv T) (hS : Inv S) (hn : n ≠ 0) (ph : ℂ) {ph' : ℂ} (hph' : normSq ph' = 1) (cache : ℕ) (tol : ℝ)
    (b : Bool) : Read T (compareHelper ph ph' cache T S tol b).1 ∧ Read S (compareHelper ph ph' cache T S tol b).2.1 := by
  rw [compareHelper_same ph ph' cache T S tol b hn]
  split_ifs
  · exact (compareDiscrete_eq hT hS (Or.inl rfl) ph ph' tol).2.2
  · exact (compareMap_eq hT hS (Or.inr (gaussian_read S)) hph').2
  · exact (compareAmps_eq hT hS (Or.inr (gaussian_read S)) ph ph').2

/-! ### The global phase -/

/-- `GlobalPhaseCompare` is false for an object and its exact copy. -/
theorem globalPhaseCompare_copy {T : Tab n} (hT : Inv T) (hg : (gaussian T).2 < 64) (ph : ℂ) (cache : ℕ) {eps : ℝ} (he : 0 ≤ eps) (tol : ℝ) :
    globalPhaseCompare ph ph cache eps T T tol = some false := by
  have h1 : getAnyAmplitude ph T = some ((prepare T).1, getBasisAmp ph (readNrm (prepare T).2) ((prepare T).1 (2 * n))) := by
    unfold getAnyAmplitude
    rw [if_pos (by rw [prepare_eq]; exact hg)]
  have h2 : (getAmplitude ph T (getBasisAmp ph (readNrm (prepare T).2) ((prepare T).1 (2 * n))).permutation).2 =
      (getBasisAmp ph (readNrm (prepare T).2) ((prepare T).1 (2 * n))).amplitude := by
    have h0 : 0 < 2 ^ (gaussian T).2 := Nat.two_pow_pos _
    have hz : at' (gaussian T).1 (gaussian T).2 (seedRow T) 0 (2 * n) = wrow (gaussian T).1 (gaussian T).2 (seedRow T) 0 := Function.update_self ..
    rw [prepare_eq]
    dsimp only
    rw [hz, entry_amp hT ph h0]
    exact amplitude_spec hT ph (perm_lt _)
  unfold globalPhaseCompare
  rw [h1]
  dsimp only
  rw [h2, sub_self, zero_div, abs_zero]
  norm_num [he]

/-- The hypotheses are met by `|00⟩` and the Bell pair. -/
example : (∃ T : Tab 2, Holds T bell ∧ ∃ S : Tab 2, Holds S (ket (bitsOf 2 0)) ∧ ∀ cache,
      sumSqrDiff 1 1 cache T S = 1 / 2 ∧ approxCompare 1 1 cache T S (1 / 4) = false ∧ approxCompare 1 1 cache T T (1 / 4) = true) := by
  obtain ⟨T, hT⟩ := bell_reaches (idRow 2)
  have h1 := reaches_holds hT
  have h2 := reaches_holds (Reaches.start (idRow 2) 0)
  have u : normSq (1 : ℂ) = 1 := map_one _
  refine ⟨T, h1, _, h2, fun cache => ?_⟩
  have hov : overlap bell (ket (bitsOf 2 0)) = rt := by
    unfold overlap
    rw [Finset.sum_eq_single (bitsOf 2 0)]
    · rw [bell_at, ket, if_pos rfl, mul_one, if_pos (by simp [bitsOf])]
      unfold rt; rw [conj_ofReal]
    · intro f _ hf
      unfold ket; rw [if_neg hf, mul_zero]
    · intro h; exact absurd (Finset.mem_univ _) h
  refine ⟨?_, ?_, ?_⟩
  · rw [sumSqrDiff_spec h1 h2 bell_norm (norm2_ket _) u u, hov, rt_normSq]; norm_num
  · rw [Bool.eq_false_iff, Ne, approxCompare_iff h1 h2 bell_norm (norm2_ket _) u u cache (by norm_num) (by norm_num)]
    rintro ⟨c, hc, he⟩
    have := he (fun _ => true)
    rw [bell_at, if_pos rfl] at this
    unfold ket at this
    rw [if_neg (by intro h; have := congrFun h 0; simp [bitsOf] at this)] at this
    have hrt : rt ≠ 0 := by intro h; have := rt_normSq; rw [h, map_zero] at this; norm_num at this
    have hc0 : c ≠ 0 := by intro h; rw [h, map_zero] at hc; norm_num at hc
    exact mul_ne_zero hc0 hrt this.symm
  · rw [approxCompare_iff h1 h1 bell_norm bell_norm u u cache (by norm_num) (by norm_num)]
    exact ⟨1, u, fun f => (one_mul _).symm⟩

end Verif.Stab
