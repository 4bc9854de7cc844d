import Verif.Lemmas.TensorNetCollapse
import Verif.Props.QCircuitCone

/-!
# What a tensor network shows
-/

namespace Verif.TN

open Verif.Matrix2 Verif.Spec.Circuit Verif.QCirc

variable {Q : Type} [LinearOrder Q] [Fintype Q]

theorem normSq_probOf (ψ : St Q) : normSq ψ = probOf ∅ ψ (fun _ => false) := by
  unfold normSq probOf
  refine Finset.sum_congr rfl fun b _ => ?_
  simp [Complex.normSq_eq_norm_sq]

theorem normSq_act {g : Gate Q} (hg : g.Wf) (ψ : St Q) : normSq (g.act ψ) = normSq ψ := by
  rw [normSq_probOf, normSq_probOf]
  exact probOf_of_rho (fun x y => rho_act_out hg (by simp) (by simp) ψ x y) _

theorem normSq_run (c : List (Gate Q)) (hc : ∀ g ∈ c, g.Wf) (ψ : St Q) : normSq (run c ψ) = normSq ψ := by
  induction c generalizing ψ with
  | nil => rfl
  | cons g c ih =>
    rw [run_cons, ih (fun x hx => hc x (List.mem_cons_of_mem _ hx)), normSq_act (hc g (by simp))]

theorem normSq_zeroState : normSq (zeroState : St Q) = 1 := by
  unfold normSq
  rw [Finset.sum_eq_single (fun _ => false)]
  · simp [zeroState]
  · intro b _ hb
    unfold zeroState
    rw [if_neg]
    · simp
    · intro h; exact hb (funext h)
  · intro h; exact absurd (Finset.mem_univ _) h

theorem zeroState_ne : (zeroState : St Q) ≠ 0 := by
  intro e
  have := normSq_zeroState (Q := Q)
  rw [e] at this
  simp [normSq] at this

theorem runMeasurementLayer_norm {m : Meas Q} {ψ φ : St Q} (h : runMeasurementLayer m ψ = some φ) : normSq φ = 1 := by
  have h0 := (runMeasurementLayer_some h).1
  unfold runMeasurementLayer at h
  rw [if_neg h0, Option.some.injEq] at h
  subst h
  have hp := normSq_pos h0
  have : (fun b => project m ψ b / ((Real.sqrt (normSq (project m ψ)) : ℝ) : ℂ)) =
      fun b => ((Real.sqrt (normSq (project m ψ)) : ℝ) : ℂ)⁻¹ * project m ψ b := by
    funext b; rw [div_eq_inv_mul]
  rw [this, normSq_smul, norm_inv, Complex.norm_real, Real.norm_of_nonneg (Real.sqrt_nonneg _), inv_pow,
    Real.sq_sqrt hp.le, inv_mul_cancel₀ hp.ne']

theorem runLayers_norm (cs : List (List (Gate Q))) (hcs : ∀ c ∈ cs, ∀ g ∈ c, g.Wf) (ms : List (Meas Q)) {ψ φ : St Q}
    (h : normSq ψ = 1) (e : runLayers cs ms ψ = some φ) : normSq φ = 1 := by
  induction cs generalizing ms ψ with
  | nil =>
    rw [runLayers, Option.some.injEq] at e
    rw [← e]; exact h
  | cons c cs ih =>
    have hc := hcs c (by simp)
    have hn : normSq (run c ψ) = 1 := by rw [normSq_run c hc]; exact h
    cases ms with
    | nil =>
      rw [runLayers, runCircuit_run hc] at e
      exact ih (fun x hx => hcs x (List.mem_cons_of_mem _ hx)) [] hn e
    | cons m ms =>
      rw [runLayers, runCircuit_run hc] at e
      simp only [Option.bind_some] at e
      obtain ⟨χ, e1, e2⟩ := Option.bind_eq_some_iff.1 e
      exact ih (fun x hx => hcs x (List.mem_cons_of_mem _ hx)) ms (runMeasurementLayer_norm e1) e2

/-- The network holds the state `Φ` (up to a factor). -/
structure Good (net : Net Q) (Φ : St Q) : Prop where
  ok : Ok (net.circuit, net.meas)
  ne : Φ ≠ 0
  par : Par (sem (net.circuit, net.meas)) Φ
  cache : ∀ ψ, net.stack = some ψ → Par ψ Φ ∧ normSq ψ = 1

theorem Good.sem_ne {net : Net Q} {Φ : St Q} (h : Good net Φ) : sem (net.circuit, net.meas) ≠ 0 := h.par.symm.ne_zero h.ne

/-- The whole state is looked at. -/
theorem Good.view_all {net : Net Q} {Φ : St Q} (h : Good net Φ) (cl : Bool) {S : Finset Q} (hS : S = ∅ ∨ net.big = false) :
    ∃ ψ, view cl net S = some (ψ, true) ∧ Par ψ Φ ∧ normSq ψ = 1 := by
  have hk : (decide (S = ∅) || !net.big) = true := by
    rcases hS with hS | hS <;> simp [hS]
  unfold view
  simp only [hk, if_true]
  cases hst : net.stack with
  | some ψ => exact ⟨ψ, rfl, h.cache ψ hst⟩
  | none =>
    unfold makeLayers
    rw [if_pos rfl]
    obtain ⟨φ, e1, e2⟩ := runLayers_par net.circuit h.ok.wf net.meas zeroState h.sem_ne
    rw [e1]
    exact ⟨φ, rfl, e2.trans h.par, runLayers_norm _ h.ok.wf _ normSq_zeroState e1⟩

/-- `ForceM`, when the simulator that is asked can give the result. -/
theorem Good.forceM {net : Net Q} {Φ : St Q} (h : Good net Φ) (cl : Bool) {q : Q} {r : Bool} (hr : project [(q, r)] Φ ≠ 0)
    {v : St Q × Bool} (hv : view cl net {q} = some v) (hv0 : project [(q, r)] v.1 ≠ 0)
    (hvk : v.2 = true → Par v.1 Φ)
    (hd : ∀ i, 0 < i → isNonPhaseTarget (fn net.circuit i) q = false → DeleteOk q r (fn net.circuit i))
    (hc : ∀ k L, walkBack q r (net.circuit.length - 1) (net.circuit, net.meas) = some (k, L) →
      CollapseOk k (insertMeas q r k L)) :
    ∃ net', net.forceM cl q r = some net' ∧ Good net' (project [(q, r)] Φ) ∧ net'.big = net.big := by
  unfold Net.forceM
  rw [hv]
  obtain ⟨ψ, e1, e2⟩ := runMeasurementLayer_par hv0
  have hpos : 0 < net.circuit.length := h.ok.pos
  have hlast := semAt_last q r h.ok.pos
  have hpar : Par (semAt q r (net.circuit, net.meas) (net.circuit.length - 1)) (project [(q, r)] Φ) := by
    have := project_par [(q, r)] h.par
    rwa [← hlast] at this
  have h0 := hpar.symm.ne_zero hr
  obtain ⟨k, L, f1, f2, f3, _, f5⟩ := walkBack_par (net.circuit.length - 1) h.ok (by simp only []; omega)
    (fun i hi _ hn => hd i hi hn) h0
  obtain ⟨g1, g2, g3, g4⟩ := insertMeas_par f2 f3 (f5.symm.ne_zero h0)
  obtain ⟨L', k1, k2, k3⟩ := collapse_par k g1 g3 (hc k L f1) (by rw [g2]; exact f5.symm.ne_zero h0)
  simp only [Option.bind_some, e1, f1, k1, Option.map_some]
  refine ⟨_, rfl, ⟨k2, hr, ?_, ?_⟩, rfl⟩
  · have : Par (sem L') (project [(q, r)] Φ) := k3.trans ((Par.of_eq g2).trans (f5.trans hpar))
    exact this
  · intro χ hχ
    cases hv2 : v.2 with
    | false => rw [hv2] at hχ; cases hχ
    | true =>
      rw [hv2] at hχ
      simp only [if_true, Option.some.injEq] at hχ
      subst hχ
      exact ⟨e2.trans (project_par _ (hvk hv2)), runMeasurementLayer_norm e1⟩

end Verif.TN
