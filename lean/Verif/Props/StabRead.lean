import Verif.Lemmas.StabEntries
import Verif.Props.StabMeasure

/-!
# C68: reading out a stabilizer state

Every read-out of a tableau agrees with the one state the generators stabilise, up to a global phase.
-/

namespace Verif.Stab

open Verif.Pauli Complex

variable {n : ℕ}

/-! ### The whole vector -/

/-- `GetQuantumState` returns every state that the generators stabilise, up to a scalar that makes the norm one. -/
theorem quantumState_spec {T : Tab n} (h : Inv T) {ph : ℂ} (hph : normSq ph = 1) {ψ : State n} (hψ : Stabilises T ψ)
    (h0 : norm2 ψ ≠ 0) :
    ∃ c, normSq c * norm2 ψ = 1 ∧ ∀ p, p < 2 ^ n → (getQuantumState ph T).2 p = c * ψ (bitsOf n p) := by
  have hs := start_prepare h
  have hψ' := stab_gaussian hψ
  have hh := hs.head hψ'
  have hne : ψ (seedRow T).x ≠ 0 := by
    intro hc
    rw [hc, normSq_zero, zero_mul] at hh
    exact h0 hh.symm
  refine ⟨readNrm (gaussian T).2 * ph * I ^ basisExp (seedRow T) * (ψ (seedRow T).x)⁻¹, ?_, ?_⟩
  · rw [map_mul, map_mul, map_mul, map_pow, normSq_I, one_pow, hph, map_inv₀, ← hh, mul_one, mul_one]
    have h1 := nrm_sq (gaussian T).2
    have h2 : normSq (ψ (seedRow T).x) ≠ 0 := by rw [Ne, normSq_eq_zero]; exact hne
    field_simp
    linarith [h1]
  · intro p hp
    rw [state_eq h ph hp, hs.unique hψ' (bitsOf n p)]
    have := pow_ne_zero (basisExp (seedRow T)) I_ne_zero
    field_simp

/-- The vector returned is itself of norm one and stabilised by every generator: so there is such a state. -/
theorem quantumState_stabilised {T : Tab n} (h : Inv T) {ph : ℂ} (hph : normSq ph = 1) :
    ∃ φ : State n, Stabilises T φ ∧ norm2 φ = 1 ∧ ∀ p, p < 2 ^ n → (getQuantumState ph T).2 p = φ (bitsOf n p) := by
  have hs := start_prepare h
  refine ⟨fun f => readNrm (gaussian T).2 * ph * total (gaussian T).1 (gaussian T).2 (seedRow T) f, ?_, ?_, ?_⟩
  · have key : Stabilises (gaussian T).1 (fun f => readNrm (gaussian T).2 * ph * total (gaussian T).1 (gaussian T).2 (seedRow T) f) := by
      intro a ha ha'
      funext f
      have := congrFun (hs.total_stab a ha ha') f
      rw [op_apply] at this ⊢
      rw [← this]; ring
    -- elimination can be undone
    exact unstab_gaussian h key
  · unfold norm2
    simp only [map_mul, hph, mul_one]
    rw [← Finset.mul_sum, hs.total_norm]
    exact nrm_sq _
  · intro p hp; exact state_eq h ph hp

/-! ### One amplitude, or some -/

/-- `GetAmplitude` reads the entry of the vector that `GetQuantumState` returns. -/
theorem amplitude_spec {T : Tab n} (h : Inv T) (ph : ℂ) {p : ℕ} (hp : p < 2 ^ n) :
    (getAmplitude ph T p).2 = (getQuantumState ph T).2 p := by
  rw [state_eq h ph hp]
  unfold getAmplitude
  rw [prepare_eq]
  dsimp only
  rw [((start_prepare h).search_eq ph _ _).2]
  exact (start_prepare h).find ph _ hp

/-- `GetAmplitudes` reads the entries of the vector that `GetQuantumState` returns. -/
theorem amplitudes_spec {T : Tab n} (h : Inv T) (ph : ℂ) {perms : List ℕ} (hp : ∀ p ∈ perms, p < 2 ^ n) :
    (getAmplitudes ph T perms).2 = perms.map (getQuantumState ph T).2 := by
  have hs := start_prepare h
  have h0 : 0 < 2 ^ (gaussian T).2 := Nat.two_pow_pos _
  obtain ⟨m, hm, e, hd⟩ := hs.amps ph (readNrm (gaussian T).2) perms (k := 2 ^ (gaussian T).2 - 1) (by omega)
  unfold getAmplitudes ampsWalk
  rw [prepare_eq]
  dsimp only
  dsimp only at e
  rw [e]
  refine List.map_congr_left fun p hpp => ?_
  have hpn := hp p hpp
  rw [state_eq h ph hpn]
  dsimp only
  generalize hL : ((((List.range (m + 1)).map fun t => getBasisAmp ph (readNrm (gaussian T).2)
      (wrow (gaussian T).1 (gaussian T).2 (seedRow T) t)).filter fun e => e.permutation ∈ perms).map
        fun e => (e.permutation, e.amplitude)).reverse = L
  have hmem : ∀ q ∈ L, ∃ t < m + 1, q = (basisPerm (wrow (gaussian T).1 (gaussian T).2 (seedRow T) t),
      (getBasisAmp ph (readNrm (gaussian T).2) (wrow (gaussian T).1 (gaussian T).2 (seedRow T) t)).amplitude) := by
    intro q hq
    rw [← hL, List.mem_reverse, List.mem_map] at hq
    obtain ⟨e, he, rfl⟩ := hq
    rw [List.mem_filter, List.mem_map] at he
    obtain ⟨⟨t, ht, rfl⟩, -⟩ := he
    exact ⟨t, List.mem_range.1 ht, rfl⟩
  cases hf : L.find? (fun q => decide (q.1 = p)) with
  | some q =>
    obtain ⟨t, ht, rfl⟩ := hmem q (List.mem_of_find?_eq_some hf)
    have hq := List.find?_some hf
    simp only [decide_eq_true_eq] at hq
    rw [Option.map_some, Option.getD_some]
    dsimp only
    rw [amp_eq ph _ (hs.wrow_lt t), ← (perm_eq_iff _ hpn).1 hq, hs.total_at t (by omega)]
  | none =>
    rw [List.find?_eq_none] at hf
    rw [Option.map_none, Option.getD_none, total_off, mul_zero]
    intro t ht he
    have hperm : basisPerm (wrow (gaussian T).1 (gaussian T).2 (seedRow T) t) = p := (perm_eq_iff _ hpn).2 he
    have hin : ∀ t < m + 1, basisPerm (wrow (gaussian T).1 (gaussian T).2 (seedRow T) t) ≠ p := by
      intro t ht hc
      refine hf (basisPerm (wrow (gaussian T).1 (gaussian T).2 (seedRow T) t),
        (getBasisAmp ph (readNrm (gaussian T).2) (wrow (gaussian T).1 (gaussian T).2 (seedRow T) t)).amplitude) ?_ (by simpa using hc)
      rw [← hL, List.mem_reverse, List.mem_map]
      refine ⟨getBasisAmp ph (readNrm (gaussian T).2) (wrow (gaussian T).1 (gaussian T).2 (seedRow T) t), ?_, rfl⟩
      rw [List.mem_filter, List.mem_map]
      refine ⟨⟨t, List.mem_range.2 ht, rfl⟩, ?_⟩
      rw [decide_eq_true_eq]
      show basisPerm _ ∈ perms
      rw [hc]; exact hpp
    rcases hd with hd | hd
    · exact hin t (by omega) hperm
    · -- all that were asked for are held
      have hnd : (L.map Prod.fst).Nodup := by
        rw [← hL, List.map_reverse, List.nodup_reverse, List.map_map]
        refine List.Nodup.map_on ?_ (List.Nodup.filter _ (List.Nodup.map_on ?_ List.nodup_range))
        · intro a ha b hb hab
          rw [List.mem_filter, List.mem_map] at ha hb
          obtain ⟨⟨t, ht, rfl⟩, -⟩ := ha
          obtain ⟨⟨u, hu, rfl⟩, -⟩ := hb
          rw [List.mem_range] at ht hu
          rw [hs.perm_inj t (by omega) u (by omega) hab]
        · intro t ht u hu htu
          rw [List.mem_range] at ht hu
          exact hs.perm_inj t (by omega) u (by omega) (congrArg Entry.permutation htu)
      have hsub : L.map Prod.fst ⊆ perms := by
        intro x hx
        rw [List.mem_map] at hx
        obtain ⟨q, hq, rfl⟩ := hx
        rw [← hL, List.mem_reverse, List.mem_map] at hq
        obtain ⟨e, he, rfl⟩ := hq
        rw [List.mem_filter] at he
        simpa using he.2
      have hlen : perms.length ≤ (L.map Prod.fst).length := by
        rw [List.length_map, ← hL, List.length_reverse, List.length_map]; exact hd
      have hpm := (List.subperm_of_subset hnd hsub).perm_of_length_le hlen
      have : p ∈ L.map Prod.fst := hpm.mem_iff.2 hpp
      rw [List.mem_map] at this
      obtain ⟨q, hq, hqp⟩ := this
      exact hf q hq (by simpa using hqp)

/-- `GetQuantumState()` holds exactly the basis states of nonzero amplitude, with the amplitudes of the vector. -/
theorem stateMap_spec {T : Tab n} (h : Inv T) {ph : ℂ} (hph : normSq ph = 1) {p : ℕ} (hp : p < 2 ^ n) :
    (getQuantumStateMap ph T).2 p = if (getQuantumState ph T).2 p = 0 then none else some ((getQuantumState ph T).2 p) := by
  have hs := start_prepare h
  rw [state_eq h ph hp]
  unfold getQuantumStateMap
  rw [prepare_eq]
  dsimp only
  rw [hs.walk_eq]
  have hne : (readNrm (gaussian T).2 : ℂ) * ph ≠ 0 := by
    intro hc
    have h1 := congrArg normSq hc
    rw [map_mul, hph, mul_one, normSq_zero] at h1
    have h2 := nrm_sq (gaussian T).2
    rw [h1] at h2
    norm_num at h2
  by_cases hx : ∃ t < 2 ^ (gaussian T).2, basisPerm (wrow (gaussian T).1 (gaussian T).2 (seedRow T) t) = p
  · obtain ⟨t, ht, rfl⟩ := hx
    have e := fold_update_at
      (fun t => (getBasisAmp ph (readNrm (gaussian T).2) (wrow (gaussian T).1 (gaussian T).2 (seedRow T) t)).permutation)
      (fun t => some (getBasisAmp ph (readNrm (gaussian T).2) (wrow (gaussian T).1 (gaussian T).2 (seedRow T) t)).amplitude)
      hs.perm_inj (fun _ => none) ht
    refine e.trans ?_
    rw [amp_eq ph _ (hs.wrow_lt t), perm_bits, hs.total_at t ht, if_neg (mul_ne_zero hne (pow_ne_zero _ I_ne_zero))]
  · have e := fold_update_off (k := 2 ^ (gaussian T).2)
      (fun t => (getBasisAmp ph (readNrm (gaussian T).2) (wrow (gaussian T).1 (gaussian T).2 (seedRow T) t)).permutation)
      (fun t => some (getBasisAmp ph (readNrm (gaussian T).2) (wrow (gaussian T).1 (gaussian T).2 (seedRow T) t)).amplitude)
      (fun _ => none) (p := p) (fun t ht he => hx ⟨t, ht, he⟩)
    refine e.trans ?_
    rw [total_off, mul_zero, if_pos rfl]
    intro t ht he
    exact hx ⟨t, ht, (perm_eq_iff _ hp).2 he⟩

/-- `GetQubitAmplitude` returns an entry of the vector, of nonzero amplitude, in which the qubit has the value asked for;
and a zero entry only if there is none. -/
theorem qubitAmplitude_spec {T : Tab n} (h : Inv T) {ph : ℂ} (hph : normSq ph = 1) {t : ℕ} (m : Bool) :
    let e := (getQubitAmplitude ph T t m).2
    (e.amplitude ≠ 0 ∧ e.permutation < 2 ^ n ∧ e.permutation.testBit t = m ∧
      e.amplitude = (getQuantumState ph T).2 e.permutation) ∨
    (e.permutation = 0 ∧ e.amplitude = 0 ∧ ∀ p, p < 2 ^ n → p.testBit t = m → (getQuantumState ph T).2 p = 0) := by
  have hs := start_prepare h
  have hne : (readNrm (gaussian T).2 : ℂ) * ph ≠ 0 := by
    intro hc
    have h1 := congrArg normSq hc
    rw [map_mul, hph, mul_one, normSq_zero] at h1
    have h2 := nrm_sq (gaussian T).2
    rw [h1] at h2
    norm_num at h2
  have hbit : ∀ p : ℕ, (p &&& 2 ^ t = if m then 2 ^ t else 0) ↔ p.testBit t = m := by
    intro p
    have : p &&& 2 ^ t = if p.testBit t then 2 ^ t else 0 := by
      rw [Nat.and_two_pow]; cases p.testBit t <;> simp
    have h2 : (2 : ℕ) ^ t ≠ 0 := (Nat.two_pow_pos t).ne'
    rw [this]
    cases p.testBit t <;> cases m <;> simp [h2, h2.symm]
  unfold getQubitAmplitude
  rw [prepare_eq]
  dsimp only
  rw [(hs.search_eq ph _ _).2]
  cases hf : (List.range (2 ^ (gaussian T).2)).findSome? (fun u =>
      if (getBasisAmp ph (readNrm (gaussian T).2) (wrow (gaussian T).1 (gaussian T).2 (seedRow T) u)).permutation &&& 2 ^ t =
        (if m then 2 ^ t else 0) then
        some (getBasisAmp ph (readNrm (gaussian T).2) (wrow (gaussian T).1 (gaussian T).2 (seedRow T) u)) else none) with
  | none =>
    right
    rw [List.findSome?_eq_none_iff] at hf
    refine ⟨rfl, rfl, fun p hp hb => ?_⟩
    rw [state_eq h ph hp, total_off, mul_zero]
    intro u hu he
    have := hf u (List.mem_range.2 hu)
    have hpu : (getBasisAmp ph (readNrm (gaussian T).2) (wrow (gaussian T).1 (gaussian T).2 (seedRow T) u)).permutation = p :=
      (perm_eq_iff _ hp).2 he
    rw [hpu, if_pos ((hbit p).2 hb)] at this
    exact absurd this (by simp)
  | some e =>
    left
    obtain ⟨u, hu, he⟩ := List.exists_of_findSome?_eq_some hf
    rw [List.mem_range] at hu
    by_cases hc : (getBasisAmp ph (readNrm (gaussian T).2) (wrow (gaussian T).1 (gaussian T).2 (seedRow T) u)).permutation &&& 2 ^ t =
        (if m then 2 ^ t else 0)
    · rw [if_pos hc, Option.some.injEq] at he
      rw [Option.getD_some, ← he]
      refine ⟨?_, perm_lt _, (hbit _).1 hc, ?_⟩
      · rw [amp_eq ph _ (hs.wrow_lt u)]
        exact mul_ne_zero hne (pow_ne_zero _ I_ne_zero)
      · have hl : (getBasisAmp ph (readNrm (gaussian T).2) (wrow (gaussian T).1 (gaussian T).2 (seedRow T) u)).permutation < 2 ^ n :=
          perm_lt _
        rw [state_eq h ph hl, amp_eq ph _ (hs.wrow_lt u)]
        show _ = _ * total _ _ _ (bitsOf n (basisPerm _))
        rw [perm_bits, hs.total_at u hu]
    · rw [if_neg hc] at he
      exact absurd he (by simp)

/-- `GetAnyAmplitude` returns an entry of the vector, of nonzero amplitude, if the state has fewer than `2^64` of them. -/
theorem anyAmplitude_partial {T : Tab n} (h : Inv T) {ph : ℂ} (hph : normSq ph = 1) (hg : (gaussian T).2 < 64) :
    ∃ T' e, getAnyAmplitude ph T = some (T', e) ∧ e.amplitude ≠ 0 ∧ e.permutation < 2 ^ n ∧
      e.amplitude = (getQuantumState ph T).2 e.permutation := by
  have hs := start_prepare h
  unfold getAnyAmplitude
  rw [prepare_eq]
  dsimp only
  rw [if_pos hg]
  refine ⟨_, _, rfl, ?_, perm_lt _, ?_⟩
  · have hat : at' (gaussian T).1 (gaussian T).2 (seedRow T) 0 (2 * n) = wrow (gaussian T).1 (gaussian T).2 (seedRow T) 0 :=
      Function.update_self ..
    rw [hat, amp_eq ph _ (hs.wrow_lt 0)]
    refine mul_ne_zero ?_ (pow_ne_zero _ I_ne_zero)
    intro hc
    have h1 := congrArg normSq hc
    rw [map_mul, hph, mul_one, normSq_zero] at h1
    have h2 := nrm_sq (gaussian T).2
    rw [h1] at h2
    norm_num at h2
  · have hat : at' (gaussian T).1 (gaussian T).2 (seedRow T) 0 (2 * n) = wrow (gaussian T).1 (gaussian T).2 (seedRow T) 0 :=
      Function.update_self ..
    rw [hat]
    have hl : (getBasisAmp ph (readNrm (gaussian T).2) (wrow (gaussian T).1 (gaussian T).2 (seedRow T) 0)).permutation < 2 ^ n :=
      perm_lt _
    rw [state_eq h ph hl, amp_eq ph _ (hs.wrow_lt 0)]
    show _ = _ * total _ _ _ (bitsOf n (basisPerm _))
    rw [perm_bits, hs.total_at 0 (Nat.two_pow_pos _)]

end Verif.Stab
