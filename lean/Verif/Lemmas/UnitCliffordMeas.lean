import Verif.Lemmas.UnitCliffordOrder

/-!
Measuring a qubit of `QUnitClifford`.
-/

namespace Verif.Units

open Verif.Stab Verif.Pauli

variable {n : ℕ}

theorem ket_holds (m perm : ℕ) : Holds (setPermutation m (idRow m) perm) (ket fun j : Fin m => perm.testBit j.val) :=
  ⟨setPermutation_inv _ _, setPermutation_stabilises _ _, fun h => by
    have := congrFun h fun j : Fin m => perm.testBit j.val
    simp [ket] at this⟩

theorem one_holds (v : Bool) : Holds (setPermutation 1 (idRow 1) (if v then 1 else 0)) (ket fun _ : Fin 1 => v) := by
  have := ket_holds 1 (if v then 1 else 0)
  have e : (fun j : Fin 1 => (if v then 1 else 0 : ℕ).testBit j.val) = fun _ : Fin 1 => v := by
    funext j
    have : j.val = 0 := by omega
    rw [this]
    cases v <;> simp
  rwa [e] at this

theorem bits_one (f : Bits 1) (v : Bool) (h : f 0 = v) : f = fun _ => v := by
  funext j
  obtain rfl : j = 0 := Subsingleton.elim _ _
  exact h

/-- A state of one qubit with a definite value. -/
theorem one_state {φ : State 1} {v : Bool} (h0 : φ ≠ 0) (hv : ∀ f, f 0 ≠ v → φ f = 0) :
    ∃ c : ℂ, c ≠ 0 ∧ φ = fun f => c * ket (fun _ : Fin 1 => v) f := by
  refine ⟨φ fun _ => v, fun hz => h0 ?_, ?_⟩
  · funext f
    by_cases hf : f 0 = v
    · rw [bits_one f v hf, hz]; rfl
    · exact hv f hf
  · funext f
    unfold ket
    by_cases hf : f 0 = v
    · rw [bits_one f v hf]; simp
    · rw [hv f hf, if_neg (fun he => hf (by rw [he])), mul_zero]

theorem separateBit_rep {Q : QUC n} {Ψ : State n} (h : Rep Q Ψ) (q : Fin n) {v : Bool} (hv : ∀ b, b q ≠ v → Ψ b = 0) :
    ∃ s, Q.separateBit v q = some s ∧ Rep s.2 Ψ := by
  unfold QUC.separateBit
  have hm := h.1.lt q
  by_cases hs : (Q.heap (Q.unit q)).size ≤ 1
  · rw [if_pos hs]
    obtain ⟨R, ψ, hψ, hΨ, hR, hset⟩ := rep_view h q
    have hdef := definite_unit h q hv hψ
    have hone : (Q.heap (Q.unit q)).size = 1 := by omega
    have hm0 : Q.mapped q = 0 := by omega
    have hd : ∀ f, f ⟨0, by omega⟩ ≠ v → ψ f = 0 := by
      intro f hf
      refine hdef f ?_
      simpa [hm0] using hf
    have hb : isSeparableZ (Q.heap (Q.unit q)).tab 0 = some true := by
      obtain ⟨b, hb⟩ := sepZ_some (Q.heap (Q.unit q)).tab (t := 0) (by omega)
      rw [hb, (sepZ_iff hψ (by omega) hb).2 ⟨v, hd⟩]
    obtain ⟨u, hu, hmm, -, -⟩ := measure_determined hψ.1 (t := 0) (by omega) hb
    obtain ⟨T', e, hrow⟩ := hmm false true false
    have huv : u = v := by
      by_contra hne
      refine hψ.2.2 (funext fun f => ?_)
      by_cases hf : f ⟨0, by omega⟩ = v
      · exact hu ψ hψ.2.1 f (by rw [hf]; exact fun he => hne he.symm)
      · exact hd f hf
    subst huv
    have hT' : ∀ ψ, Holds (Q.heap (Q.unit q)).tab ψ → Holds T' ψ := by
      intro φ hφ
      refine ⟨forceM_inv hφ.1 e, fun i hi hi' => ?_, hφ.2.2⟩
      rw [hrow i hi']; exact hφ.2.1 i hi hi'
    refine ⟨(true, Q.setUnit (Q.unit q) ⟨_, T'⟩), ?_, rep_same h q hT'⟩
    unfold Obj.setBit
    rw [e, Option.bind_some]
    simp
  · rw [if_neg hs]
    obtain ⟨⟨b, G⟩, e⟩ : ∃ s, trySeparate1 (Q.heap (Q.unit q)).tab (Q.mapped q) = some s := canDecompose_some _ _ (by omega)
    rw [e, Option.bind_some]
    dsimp only
    cases b
    · rw [if_neg (by simp)]
      exact ⟨_, rfl, rep_same h q fun ψ hψ => canDecompose_holds hψ e⟩
    · rw [if_pos rfl]
      obtain ⟨o1, o2, e', hs1, hs2, hsp⟩ := split_of_cut h q hs e
      rw [e', Option.map_some]
      refine ⟨_, rfl, split_rep h q o1 _ hs1 rfl (by omega) fun f hf => ?_⟩
      obtain ⟨A, B, hA, hB, hAB⟩ := hsp f hf
      refine ⟨A, B, hA, ?_, hAB⟩
      obtain ⟨ψ, hψ, hfψ⟩ := hf
      have hdef := definite_unit h q hv hψ
      obtain ⟨φ, hφ, hBφ⟩ := hB
      obtain ⟨χ, hχ, hAχ⟩ := hA
      obtain ⟨s2, T2⟩ := o2
      dsimp only at hs2
      subst hs2
      have hzero : ∀ g : Bits 1, g 0 ≠ v → φ g = 0 := by
        intro g hg
        by_contra hne
        refine hχ.2.2 (funext fun a => ?_)
        let b : ℕ → Bool := fun p => if p = Q.mapped q then g 0 else
          if hp : (if p < Q.mapped q then p else p - 1) < o1.size then a ⟨_, hp⟩ else false
        have hb := hAB b
        have e1 : B (fun p => b (Q.mapped q + p)) = φ g := by
          rw [hBφ]
          congr 1
          funext j
          obtain rfl : j = 0 := Subsingleton.elim _ _
          show b (Q.mapped q + 0) = g 0
          simp [b]
        have e2 : A (fun p => b (if p < Q.mapped q then p else p + 1)) = χ a := by
          rw [hAχ]
          congr 1
          funext j
          dsimp only [b]
          by_cases hj : j.val < Q.mapped q
          · rw [if_pos hj, if_neg (by omega)]
            have : (if j.val < Q.mapped q then j.val else j.val - 1) = j.val := if_pos hj
            rw [dif_pos (by rw [this]; exact j.isLt)]
            congr 1
            exact Fin.ext this
          · rw [if_neg hj, if_neg (by omega)]
            have : (if j.val + 1 < Q.mapped q then j.val + 1 else j.val + 1 - 1) = j.val := by rw [if_neg (by omega)]; omega
            rw [dif_pos (by rw [this]; exact j.isLt)]
            congr 1
            exact Fin.ext this
        have e3 : f b = 0 := by
          rw [hfψ]
          refine hdef _ ?_
          show b (Q.mapped q) ≠ v
          simpa [b] using hg
        rw [e3, e1, e2] at hb
        exact (mul_eq_zero.1 hb.symm).resolve_right hne
      obtain ⟨c, hc, hφc⟩ := one_state hφ.2.2 hzero
      exact ⟨φ, by rw [hφc]; exact holds_smul (one_holds v) hc, hBφ⟩

/-- `ForceM`: the outcome is possible, is the forced one or, for a qubit without a definite value, the drawn one, and the state is what
is left. -/
theorem forceM_rep {Q : QUC n} {Ψ : State n} (h : Rep Q Ψ) (t : Fin n) (res doForce rnd : Bool)
    (hf : doForce = true → ∃ f, f t = res ∧ Ψ f ≠ 0) :
    ∃ v Q', Q.forceM t res doForce true rnd = some (v, Q') ∧ (doForce = true → v = res) ∧ (∃ f, f t = v ∧ Ψ f ≠ 0) ∧
      (doForce = false → ¬ Definite t Ψ → v = rnd) ∧ Rep Q' (proj t v Ψ) := by
  obtain ⟨R, ψ, hψ, hΨ, hR, hset⟩ := rep_view h t
  have hm := h.1.lt t
  have hdef : ∀ v, (∀ f, f ⟨Q.mapped t, hm⟩ ≠ v → ψ f = 0) → ∀ b, b t ≠ v → Ψ b = 0 := by
    intro v hv b hb
    rw [hΨ, hv _ (by rw [subF_at h.1 b t hm]; exact hb), mul_zero]
  have hne := rep_ne h
  obtain ⟨b, hb⟩ := sepZ_some (Q.heap (Q.unit t)).tab hm
  obtain ⟨v, T', e, h1, h2⟩ : ∃ v T', Stab.forceM (Q.heap (Q.unit t)).tab (Q.mapped t) res doForce true rnd = some (v, T') ∧
      (doForce = true → v = res) ∧ (doForce = false → ¬ Definite t Ψ → v = rnd) := by
    cases b
    · obtain ⟨-, T', e, -⟩ := measure_random hψ.1 hm hb hψ.2.1 res doForce rnd
      exact ⟨_, T', e, fun hd => by rw [hd]; rfl, fun hd _ => by rw [hd]; rfl⟩
    · obtain ⟨u, hu, hmm, hff, -⟩ := measure_determined hψ.1 hm hb
      have hd := hdef u (hu ψ hψ.2.1)
      cases doForce
      · obtain ⟨T', e, -⟩ := hmm res true rnd
        exact ⟨u, T', e, by simp, fun _ hn => absurd ⟨u, hd⟩ hn⟩
      · obtain ⟨f, hft, hf0⟩ := hf rfl
        have : res = u := by
          by_contra hne'
          exact hf0 (hd f (by rw [hft]; exact hne'))
        subst this
        obtain ⟨T', e, -⟩ := hff rnd
        exact ⟨res, T', e, fun _ => rfl, by simp⟩
  have hT' := force_holds hψ hm e
  have r1 := hset T' _ hT'
  have hp : (fun b => R b * proj ⟨Q.mapped t, hm⟩ v ψ (subF Q b (Q.unit t) _)) = proj t v Ψ := by
    funext b
    unfold proj
    rw [subF_at h.1 b t hm]
    split_ifs
    · exact (hΨ b).symm
    · exact mul_zero _
  rw [hp] at r1
  have hposs : ∃ f, f t = v ∧ Ψ f ≠ 0 := by
    by_contra hn
    push Not at hn
    refine rep_ne r1 (funext fun f => ?_)
    unfold proj
    split_ifs with hf
    · exact hn f hf
    · rfl
  obtain ⟨s, e2, r2⟩ := separateBit_rep r1 t (v := v) (fun b hb => by unfold proj; rw [if_neg hb])
  refine ⟨v, s.2, ?_, h1, hposs, h2, r2⟩
  unfold QUC.forceM
  rw [dif_pos t.isLt, e, Option.bind_some]
  dsimp only
  rw [if_neg (by simp), e2]
  rfl

/-- Forcing a result that is impossible throws. -/
theorem forceM_impossible {Q : QUC n} {Ψ : State n} (h : Rep Q Ψ) (t : Fin n) (res rnd : Bool) (hz : ∀ f, f t = res → Ψ f = 0) :
    Q.forceM t res true true rnd = none := by
  obtain ⟨R, ψ, hψ, hΨ, hR, hset⟩ := rep_view h t
  have hm := h.1.lt t
  have hd : ∀ b, b t ≠ (!res) → Ψ b = 0 := fun b hb => hz b (by cases hbt : b t <;> cases res <;> simp_all)
  have hu := definite_unit h t hd hψ
  obtain ⟨b, hb⟩ := sepZ_some (Q.heap (Q.unit t)).tab hm
  have : b = true := (sepZ_iff hψ hm hb).2 ⟨_, hu⟩
  subst this
  obtain ⟨u, hu', -, -, hn⟩ := measure_determined hψ.1 hm hb
  have hur : u = !res := by
    by_contra hne
    refine hψ.2.2 (funext fun f => ?_)
    by_cases hf : f ⟨Q.mapped t, hm⟩ = !res
    · exact hu' ψ hψ.2.1 f (by rw [hf]; exact fun he => hne he.symm)
    · exact hu f hf
  have e := hn rnd
  rw [hur, Bool.not_not] at e
  unfold QUC.forceM
  rw [dif_pos t.isLt, e]
  rfl

/-- Without `doApply` the state stays. -/
theorem look_rep {Q : QUC n} {Ψ : State n} (h : Rep Q Ψ) (t : Fin n) (res doForce rnd : Bool) {s : Bool × QUC n}
    (e : Q.forceM t res doForce false rnd = some s) : Rep s.2 Ψ ∧ s.2.mapped = Q.mapped ∧ s.2.unit = Q.unit := by
  unfold QUC.forceM at e
  rw [dif_pos t.isLt, Option.bind_eq_some_iff] at e
  obtain ⟨⟨v, T'⟩, e1, e2⟩ := e
  dsimp only at e2
  rw [if_pos (by simp), Option.some.injEq] at e2
  rw [← e2]
  exact ⟨rep_same h t fun ψ hψ => look_holds hψ e1, rfl, rfl⟩

end Verif.Units
