import Verif.Lemmas.UnitCliffordGate
import Mathlib.Data.List.Perm.Lattice

/-!
Ordering the qubits of a unit of `QUnitClifford`.
-/

namespace Verif.Units

open Verif.Stab Verif.Pauli

variable {n : ℕ}

theorem swapOp_twice (c t : Fin n) (ψ : State n) : swapOp c t 1 (swapOp c t 1 ψ) = ψ := by
  funext f
  unfold swapOp
  have : (f ∘ Equiv.swap c t) ∘ Equiv.swap c t = f := by funext i; simp
  rw [this]
  simp

theorem sortSwap_rep {Q : QUC n} {Ψ : State n} (h : Rep Q Ψ) {u : ℕ} (i j : Fin n) (hij : i ≠ j) (hi : Q.unit i = u) (hj : Q.unit j = u) :
    ∃ Q', Q.sortSwap u i j = some Q' ∧ Rep Q' Ψ ∧ Q'.unit = Q.unit ∧ Q'.mapped = Q.mapped ∘ Equiv.swap i j := by
  subst hi
  obtain ⟨o, e, ho⟩ := pull_two h i j hij hj.symm (g := .swap) (by simp)
  have h' := rep_swap ho i j
  have hU : (Gate.swap i j).U n Ψ = swapOp i j 1 Ψ := by simp [Gate.U]
  rw [hU, swapOp_twice] at h'
  have hunit : Q.unit ∘ Equiv.swap i j = Q.unit := by
    funext k
    show Q.unit (Equiv.swap i j k) = Q.unit k
    by_cases hk : k = i
    · rw [hk, Equiv.swap_apply_left, hj]
    · by_cases hk' : k = j
      · rw [hk', Equiv.swap_apply_right, hj]
      · rw [Equiv.swap_apply_of_ne_of_ne hk hk']
  refine ⟨{ (Q.setUnit (Q.unit i) o) with mapped := Q.mapped ∘ Equiv.swap i j }, ?_, ?_, rfl, rfl⟩
  · unfold QUC.sortSwap
    rw [e]; rfl
  · have e2 : ({ (Q.setUnit (Q.unit i) o) with
          mapped := (Q.setUnit (Q.unit i) o).mapped ∘ Equiv.swap i j, unit := (Q.setUnit (Q.unit i) o).unit ∘ Equiv.swap i j } : QUC n) =
        { (Q.setUnit (Q.unit i) o) with mapped := Q.mapped ∘ Equiv.swap i j } := by
      rw [show (Q.setUnit (Q.unit i) o).unit ∘ Equiv.swap i j = Q.unit from hunit]; rfl
    rw [e2] at h'
    exact h'

theorem sortSwaps_rep {u : ℕ} {bits : List (Fin n)} (hn : bits.Nodup) : ∀ (sw : List (ℕ × ℕ)), Within 0 (bits.length - 1) sw →
    2 ≤ bits.length → ∀ {Q : QUC n} {Ψ : State n} (v : ℕ → ℕ), Rep Q Ψ → (∀ i ∈ bits, Q.unit i = u) →
      (∀ k (hk : k < bits.length), Q.mapped bits[k] = v k) → ∃ Q', sortSwaps u bits sw Q = some Q' ∧ Rep Q' Ψ ∧ Q'.unit = Q.unit ∧
        ∀ k (hk : k < bits.length), Q'.mapped bits[k] = exchs sw v k := by
  intro sw
  induction sw with
  | nil => intro _ _ Q Ψ v h _ hv; exact ⟨Q, rfl, h, rfl, hv⟩
  | cons p sw ih =>
    intro hw hlen Q Ψ v h hu hv
    have hp := hw p (by simp)
    have h1 : p.1 < bits.length := by omega
    have h2 : p.2 < bits.length := by omega
    have hne : bits[p.1] ≠ bits[p.2] := fun he => by
      have := (List.Nodup.getElem_inj_iff hn).1 he
      omega
    obtain ⟨Q1, e1, r1, hu1, hm1⟩ := sortSwap_rep h bits[p.1] bits[p.2] hne (hu _ (List.getElem_mem h1)) (hu _ (List.getElem_mem h2))
    obtain ⟨Q', e', r', hu', hm'⟩ := ih (fun q hq => hw q (by simp [hq])) hlen (exch v p.1 p.2) r1 (by rw [hu1]; exact hu) (by
      intro k hk
      rw [hm1]
      show Q.mapped (Equiv.swap bits[p.1] bits[p.2] bits[k]) = _
      unfold exch
      by_cases ha : k = p.1
      · subst ha
        rw [Equiv.swap_apply_left, if_pos rfl, hv]
      · rw [if_neg ha]
        by_cases hb : k = p.2
        · subst hb
          rw [Equiv.swap_apply_right, if_pos rfl, hv]
        · rw [if_neg hb, Equiv.swap_apply_of_ne_of_ne, hv]
          · exact fun he => ha ((List.Nodup.getElem_inj_iff hn).1 he)
          · exact fun he => hb ((List.Nodup.getElem_inj_iff hn).1 he))
    refine ⟨Q', ?_, r', by rw [hu', hu1], hm'⟩
    show (match bits[p.1]?, bits[p.2]? with
      | some i, some j => (Q.sortSwap u i j).bind (sortSwaps u bits sw)
      | _, _ => none) = _
    rw [List.getElem?_eq_getElem h1, List.getElem?_eq_getElem h2]
    dsimp only
    rw [e1, Option.bind_some, e']

theorem bitsOf_length {Q : QUC n} (hQ : WF Q) (t : Fin n) : (Q.bitsOf (Q.unit t)).length = (Q.heap (Q.unit t)).size := by
  have hmem : ∀ i, i ∈ Q.bitsOf (Q.unit t) ↔ Q.unit i = Q.unit t := by
    intro i; unfold QUC.bitsOf; simp
  have hn : (Q.bitsOf (Q.unit t)).Nodup := (List.nodup_finRange n).filter _
  have hp : ((Q.bitsOf (Q.unit t)).map Q.mapped).Perm (List.range (Q.heap (Q.unit t)).size) := by
    refine (List.perm_ext_iff_of_nodup ?_ List.nodup_range).2 fun p => ?_
    · refine List.Nodup.map_on ?_ hn
      intro i hi j hj he
      exact hQ.inj i j (((hmem i).1 hi).trans ((hmem j).1 hj).symm) he
    · rw [List.mem_map, List.mem_range]
      constructor
      · rintro ⟨i, hi, rfl⟩
        have := hQ.lt i
        rwa [(hmem i).1 hi] at this
      · intro hp
        obtain ⟨j, hj, hjp⟩ := hQ.surj t p hp
        exact ⟨j, (hmem j).2 hj, hjp⟩
  have := hp.length_eq
  rwa [List.length_map, List.length_range] at this

/-- After `OrderContiguous` the places of a unit's qubits follow the qubits' order, and the state is the same. -/
theorem order_rep {Q : QUC n} {Ψ : State n} (h : Rep Q Ψ) (t : Fin n) : ∃ Q', Q.order (Q.unit t) = some Q' ∧ Rep Q' Ψ ∧ Q'.unit = Q.unit ∧
    ∀ i j, Q.unit i = Q.unit t → Q.unit j = Q.unit t → i < j → Q'.mapped i < Q'.mapped j := by
  have hlen := bitsOf_length h.1 t
  have hmem : ∀ i, i ∈ Q.bitsOf (Q.unit t) ↔ Q.unit i = Q.unit t := by
    intro i; unfold QUC.bitsOf; simp
  have hn : (Q.bitsOf (Q.unit t)).Nodup := (List.nodup_finRange n).filter _
  have hsorted : (Q.bitsOf (Q.unit t)).Pairwise (· < ·) := (List.pairwise_lt_finRange n).filter _
  unfold QUC.order
  by_cases hs : (Q.heap (Q.unit t)).size = 1
  · rw [if_pos hs]
    refine ⟨Q, rfl, h, rfl, fun i j hi hj hij => ?_⟩
    have h1 := h.1.lt i
    have h2 := h.1.lt j
    rw [hi, hs] at h1
    rw [hj, hs] at h2
    exact absurd (h.1.inj i j (hi.trans hj.symm) (by omega)) (ne_of_lt hij)
  · rw [if_neg hs]
    dsimp only
    rw [if_pos hlen]
    have h2 : 2 ≤ (Q.bitsOf (Q.unit t)).length := by
      have := h.1.lt t
      omega
    obtain ⟨v', sw, e, hv', hw, hso⟩ := sortUnit_sorts (len := (Q.bitsOf (Q.unit t)).length) (Q.bitsOf (Q.unit t)).length
      (fun k => ((Q.bitsOf (Q.unit t))[k]?.map Q.mapped).getD 0) 0 ((Q.bitsOf (Q.unit t)).length - 1) (by omega) (by omega) (by omega)
    rw [e, Option.bind_some]
    obtain ⟨Q', e', r', hu', hm'⟩ := sortSwaps_rep hn sw hw h2 _ h (fun i hi => (hmem i).1 hi)
      (fun k hk => show _ = ((Q.bitsOf (Q.unit t))[k]?.map Q.mapped).getD 0 by rw [List.getElem?_eq_getElem hk]; rfl)
    refine ⟨Q', e', r', hu', fun i j hi hj hij => ?_⟩
    obtain ⟨a, ha, rfl⟩ := List.getElem_of_mem ((hmem i).2 hi)
    obtain ⟨b, hb, rfl⟩ := List.getElem_of_mem ((hmem j).2 hj)
    have hab : a < b := by
      by_contra hn'
      rcases eq_or_lt_of_le (not_lt.1 hn') with hh | hh
      · subst hh; exact absurd hij (lt_irrefl _)
      · have := List.pairwise_iff_getElem.1 hsorted b a hb ha hh
        exact absurd hij (not_lt.2 this.le)
    have hle : Q'.mapped (Q.bitsOf (Q.unit t))[a] ≤ Q'.mapped (Q.bitsOf (Q.unit t))[b] := by
      rw [hm' a ha, hm' b hb, ← hv']
      exact hso a b (by omega) hab.le (by omega)
    refine lt_of_le_of_ne hle fun he => ?_
    have := r'.1.inj _ _ (by rw [hu', hi, hj]) he
    exact absurd hij (by rw [this]; exact lt_irrefl _)

/-- A unit of all qubits in their order has every qubit at its own number. -/
theorem ordered_id {Q : QUC n} (hQ : WF Q) (hu : ∀ i j, Q.unit i = Q.unit j) (hm : ∀ i j, i < j → Q.mapped i < Q.mapped j) :
    ∀ i, Q.mapped i = i.val := by
  have key : ∀ (k : ℕ) (i : Fin n), i.val = k → Q.mapped i = i.val := by
    intro k
    induction k using Nat.strong_induction_on with
    | _ k ih =>
      intro i hi
      have hge : i.val ≤ Q.mapped i := by
        rcases Nat.eq_zero_or_pos i.val with h0 | h0
        · omega
        · have h1 := ih (i.val - 1) (by omega) ⟨i.val - 1, by omega⟩ rfl
          have h2 := hm ⟨i.val - 1, by omega⟩ i (by rw [Fin.lt_def]; dsimp only; omega)
          dsimp only at h1
          omega
      by_contra hne
      obtain ⟨j, hj, hjp⟩ := hQ.surj i i.val (by have := hQ.lt i; omega)
      rcases lt_trichotomy j i with hlt | heq | hgt
      · have := ih j.val (by rw [Fin.lt_def] at hlt; omega) j rfl
        rw [Fin.lt_def] at hlt
        omega
      · rw [heq] at hjp; omega
      · have := hm i j hgt
        omega
  exact fun i => key i.val i rfl

/-- `EntangleAll`: one unit, in which every qubit has its own number. -/
theorem entangleAll_rep {Q : QUC (n + 1)} {Ψ : State (n + 1)} (h : Rep Q Ψ) : ∃ Q', Q.entangleAll = some Q' ∧ Rep Q' Ψ ∧
    (∀ i, Q'.unit i = Q'.unit 0) ∧ ∀ i, Q'.mapped i = i.val := by
  have hl : List.finRange (n + 1) = 0 :: (List.finRange n).map Fin.succ := List.finRange_succ
  obtain ⟨Q1, e1, r1, hu1⟩ := entangle_rep h 0 ((List.finRange n).map Fin.succ)
  rw [← hl] at e1 hu1
  have hone : ∀ i, Q1.unit i = Q1.unit 0 := fun i => by
    rw [hu1 i (List.mem_finRange i), hu1 0 (List.mem_finRange 0)]
  obtain ⟨Q2, e2, r2, hu2, hm2⟩ := order_rep r1 0
  refine ⟨Q2, ?_, r2, fun i => by rw [hu2]; exact hone i, ?_⟩
  · unfold QUC.entangleAll
    rw [e1, Option.bind_some, e2]
  · exact ordered_id r2.1 (fun i j => by rw [hu2, hone i, hone j]) (fun i j hij => hm2 i j (hone i) (hone j) hij)

end Verif.Units
