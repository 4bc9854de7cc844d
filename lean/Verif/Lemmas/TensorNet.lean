import Verif.Model.TensorNet
import Verif.Props.QCircuitPost
import Mathlib.Tactic.Ring
import Mathlib.Tactic.Linarith

/-!
# The layers of a tensor network as one operation

`lay C M a n` runs the layers `a, ..., a + n - 1`, each a circuit and then a projection.
-/

namespace Verif.TN

open Verif.Matrix2 Verif.Spec.Circuit Verif.QCirc

variable {Q : Type} [LinearOrder Q]

/-- Equal up to a factor that is not zero. -/
def Par (φ ψ : St Q) : Prop := ∃ z : ℂ, z ≠ 0 ∧ φ = fun b => z * ψ b

theorem Par.refl (ψ : St Q) : Par ψ ψ := ⟨1, one_ne_zero, by simp⟩

theorem Par.trans {a b c : St Q} (h1 : Par a b) (h2 : Par b c) : Par a c := by
  obtain ⟨z, hz, rfl⟩ := h1
  obtain ⟨w, hw, rfl⟩ := h2
  exact ⟨z * w, mul_ne_zero hz hw, by funext x; ring⟩

theorem Par.symm {a b : St Q} (h : Par a b) : Par b a := by
  obtain ⟨z, hz, rfl⟩ := h
  exact ⟨z⁻¹, inv_ne_zero hz, by funext x; field_simp⟩

theorem Par.of_eq {a b : St Q} (h : a = b) : Par a b := h ▸ Par.refl _

theorem Par.ne_zero {a b : St Q} (h : Par a b) (ha : a ≠ 0) : b ≠ 0 := by
  obtain ⟨z, _, rfl⟩ := h
  intro e
  exact ha (by funext x; simp [e])

/-! ### Projections -/

theorem project_apply (m : Meas Q) (ψ : St Q) (b : Q → Bool) :
    project m ψ b = if ∀ e ∈ m, b e.1 = e.2 then ψ b else 0 := by
  unfold project
  exact if_congr (by simp) rfl rfl

theorem project_nil (ψ : St Q) : project [] ψ = ψ := by funext b; simp [project]

theorem project_smul (m : Meas Q) (z : ℂ) (ψ : St Q) : project m (fun b => z * ψ b) = fun b => z * project m ψ b := by
  funext b
  unfold project
  split <;> simp

theorem project_comm (m o : Meas Q) (ψ : St Q) : project m (project o ψ) = project o (project m ψ) := by
  funext b
  unfold project
  by_cases h1 : (m.all fun e => b e.1 == e.2) = true <;> by_cases h2 : (o.all fun e => b e.1 == e.2) = true <;> simp [h1, h2]

theorem Meas.has_false {m : Meas Q} {q : Q} : m.has q = false ↔ ∀ e ∈ m, e.1 ≠ q := by
  simp [Meas.has]

/-- A gate whose target is not measured passes the projection. -/
theorem project_act {g : Gate Q} {m : Meas Q} (h : m.has g.target = false) (ψ : St Q) :
    project m (g.act ψ) = g.act (project m ψ) := by
  rw [Meas.has_false] at h
  funext b
  have hu : ∀ v, (m.all fun e => (Function.update b g.target v) e.1 == e.2) = (m.all fun e => b e.1 == e.2) := by
    intro v
    rw [Bool.eq_iff_iff]
    simp only [List.all_eq_true]
    refine forall₂_congr fun e he => ?_
    rw [Function.update_of_ne (h e he)]
  unfold project
  cases hm : g.payloads.get (key g.controls b) with
  | none => rw [act_none hm, act_none hm]
  | some x =>
    rw [act_some hm, act_some hm]
    unfold onQubit
    simp only [hu]
    split
    · rfl
    · simp

theorem project_run {gs : List (Gate Q)} {m : Meas Q} (h : ∀ g ∈ gs, m.has g.target = false) (ψ : St Q) :
    project m (run gs ψ) = run gs (project m ψ) := by
  induction gs generalizing ψ with
  | nil => rfl
  | cons g gs ih =>
    rw [run_cons, run_cons, ih (fun x hx => h x (List.mem_cons_of_mem _ hx)), project_act (h g (by simp))]

/-! ### Layers -/

/-- `n` layers from layer `a` on. -/
def lay (C : ℕ → List (Gate Q)) (M : ℕ → Meas Q) : ℕ → ℕ → St Q → St Q
  | _, 0, ψ => ψ
  | a, n + 1, ψ => lay C M (a + 1) n (project (M a) (run (C a) ψ))

theorem lay_add (C : ℕ → List (Gate Q)) (M : ℕ → Meas Q) (a n k : ℕ) (ψ : St Q) :
    lay C M a (n + k) ψ = lay C M (a + n) k (lay C M a n ψ) := by
  induction n generalizing a ψ with
  | zero => simp [lay]
  | succ n ih =>
    rw [show n + 1 + k = (n + k) + 1 by omega, lay, lay, ih, show a + 1 + n = a + (n + 1) by omega]

theorem lay_congr {C C' : ℕ → List (Gate Q)} {M M' : ℕ → Meas Q} {a n : ℕ}
    (h : ∀ i, a ≤ i → i < a + n → C i = C' i ∧ M i = M' i) (ψ : St Q) : lay C M a n ψ = lay C' M' a n ψ := by
  induction n generalizing a ψ with
  | zero => rfl
  | succ n ih =>
    rw [lay, lay, (h a le_rfl (by omega)).1, (h a le_rfl (by omega)).2]
    exact ih (fun i h1 h2 => h i (by omega) (by omega)) _

theorem lay_shift (C : ℕ → List (Gate Q)) (M : ℕ → Meas Q) (d a n : ℕ) (ψ : St Q) :
    lay (fun i => C (i + d)) (fun i => M (i + d)) a n ψ = lay C M (a + d) n ψ := by
  induction n generalizing a ψ with
  | zero => rfl
  | succ n ih => rw [lay, lay, ih, show a + 1 + d = a + d + 1 by omega]

theorem lay_smul (C : ℕ → List (Gate Q)) (M : ℕ → Meas Q) (a n : ℕ) (z : ℂ) (ψ : St Q) :
    lay C M a n (fun b => z * ψ b) = fun b => z * lay C M a n ψ b := by
  induction n generalizing a ψ with
  | zero => rfl
  | succ n ih => rw [lay, lay, run_smul, project_smul, ih]

theorem lay_par (C : ℕ → List (Gate Q)) (M : ℕ → Meas Q) (a n : ℕ) {φ ψ : St Q} (h : Par φ ψ) :
    Par (lay C M a n φ) (lay C M a n ψ) := by
  obtain ⟨z, hz, rfl⟩ := h
  exact ⟨z, hz, lay_smul _ _ _ _ _ _⟩

theorem project_par (m : Meas Q) {φ ψ : St Q} (h : Par φ ψ) : Par (project m φ) (project m ψ) := by
  obtain ⟨z, hz, rfl⟩ := h
  exact ⟨z, hz, project_smul _ _ _⟩

theorem run_par (gs : List (Gate Q)) {φ ψ : St Q} (h : Par φ ψ) : Par (run gs φ) (run gs ψ) := by
  obtain ⟨z, hz, rfl⟩ := h
  exact ⟨z, hz, run_smul _ _ _⟩

theorem act_par (g : Gate Q) {φ ψ : St Q} (h : Par φ ψ) : Par (g.act φ) (g.act ψ) := run_par [g] h

theorem unit_ne {z : ℂ} (h : z * (starRingEnd ℂ) z = 1) : z ≠ 0 := by
  rintro rfl; simp at h

theorem rayEq_par {gs hs : List (Gate Q)} (h : RayEq gs hs) (ψ : St Q) : Par (run gs ψ) (run hs ψ) := by
  obtain ⟨z, hz, e⟩ := h
  exact ⟨z, unit_ne hz, e ψ⟩

theorem lay_zero (C : ℕ → List (Gate Q)) (M : ℕ → Meas Q) (a n : ℕ) : lay C M a n (0 : St Q) = 0 := by
  have := lay_smul C M a n 0 (0 : St Q)
  simp only [zero_mul] at this
  exact this

theorem ne_of_lay {C : ℕ → List (Gate Q)} {M : ℕ → Meas Q} {a n : ℕ} {ψ : St Q} (h : lay C M a n ψ ≠ 0) : ψ ≠ 0 := by
  rintro rfl; exact h (lay_zero _ _ _ _)

/-- A gate passes later layers that do not touch its qubits. -/
theorem lay_act {C : ℕ → List (Gate Q)} {M : ℕ → Meas Q} {a n : ℕ} {g : Gate Q}
    (h : ∀ i, a ≤ i → (M i).has g.target = false ∧
      ∀ x ∈ C i, x.target ∉ g.controls ∧ g.target ∉ x.controls ∧ x.target ≠ g.target) (ψ : St Q) :
    lay C M a n (g.act ψ) = g.act (lay C M a n ψ) := by
  induction n generalizing a ψ with
  | zero => rfl
  | succ n ih =>
    rw [lay, lay]
    have hrun : ∀ (gs : List (Gate Q)), (∀ x ∈ gs, x.target ∉ g.controls ∧ g.target ∉ x.controls ∧ x.target ≠ g.target) →
        ∀ ψ, run gs (g.act ψ) = g.act (run gs ψ) := by
      intro gs
      induction gs with
      | nil => intro _ ψ; rfl
      | cons x gs ihg =>
        intro hx ψ
        obtain ⟨h1, h2, h3⟩ := hx x (by simp)
        rw [run_cons, run_cons, ← ihg (fun y hy => hx y (List.mem_cons_of_mem _ hy)),
          disjoint_comm h2 h1 h3.symm]
    rw [hrun _ (h a le_rfl).2, project_act (h a le_rfl).1, ih (fun i hi => h i (by omega))]

/-! ### The model's loops -/

/-- A list as a function. -/
def fn {α : Type} (l : List (List α)) (i : ℕ) : List α := l[i]?.getD []

theorem fn_cons_succ {α : Type} (c : List α) (l : List (List α)) : (fun i => fn (c :: l) (i + 1)) = fn l := by
  funext i; simp [fn]

theorem fn_nil {α : Type} (i : ℕ) : fn ([] : List (List α)) i = [] := rfl

theorem fn_ge {α : Type} {l : List (List α)} {i : ℕ} (h : l.length ≤ i) : fn l i = [] := by
  unfold fn; rw [List.getElem?_eq_none h]; rfl

theorem fn_mem {α : Type} {l : List (List α)} {i : ℕ} (h : i < l.length) : fn l i ∈ l := by
  unfold fn; rw [List.getElem?_eq_getElem h]; exact List.getElem_mem h

theorem fn_set {α : Type} (l : List (List α)) (k : ℕ) (x : List α) (i : ℕ) :
    fn (l.set k x) i = if i = k ∧ k < l.length then x else fn l i := by
  unfold fn
  rw [List.getElem?_set]
  by_cases h : k = i
  · subst h
    by_cases h2 : k < l.length
    · simp [h2]
    · simp [h2]
  · have : ¬ i = k := fun h0 => h h0.symm
    simp [h, this]

theorem fn_eraseIdx {α : Type} (l : List (List α)) (k : ℕ) (i : ℕ) :
    fn (l.eraseIdx k) i = if i < k then fn l i else fn l (i + 1) := by
  unfold fn
  rw [List.getElem?_eraseIdx]
  split <;> rfl

theorem fn_push {α : Type} (l : List (List α)) : fn (l ++ [[]]) = fn l := by
  funext i
  unfold fn
  by_cases h : i < l.length
  · rw [List.getElem?_append_left h]
  · rw [List.getElem?_append_right (by omega), List.getElem?_eq_none (l := l) (by omega)]
    by_cases h2 : i - l.length = 0
    · rw [h2]; rfl
    · rw [List.getElem?_eq_none (by simp; omega)]

theorem simOp_eq : (simOp : Op Q → St Q → St Q) = opAct := by
  funext o ψ; cases o <;> rfl

theorem runCircuit_run {c : List (Gate Q)} (hc : ∀ g ∈ c, g.Wf) (ψ : St Q) : runCircuit c ψ = some (run c ψ) := by
  obtain ⟨ops, e1, e2, _⟩ := runOps_act c hc
  unfold runCircuit
  rw [e1, ← e2 ψ, simOp_eq]; rfl

variable [Fintype Q]

theorem normSq_pos {ψ : St Q} (h : ψ ≠ 0) : 0 < normSq ψ := by
  unfold normSq
  obtain ⟨b, hb⟩ := Function.ne_iff.1 h
  refine Finset.sum_pos' (fun _ _ => by positivity) ⟨b, Finset.mem_univ _, ?_⟩
  have : 0 < ‖ψ b‖ := norm_pos_iff.2 hb
  positivity

theorem normSq_smul (z : ℂ) (ψ : St Q) : normSq (fun b => z * ψ b) = ‖z‖ ^ 2 * normSq ψ := by
  unfold normSq
  rw [Finset.mul_sum]
  exact Finset.sum_congr rfl fun b _ => by rw [norm_mul]; ring

theorem runMeasurementLayer_par {m : Meas Q} {ψ : St Q} (h : project m ψ ≠ 0) :
    ∃ φ, runMeasurementLayer m ψ = some φ ∧ Par φ (project m ψ) := by
  unfold runMeasurementLayer
  rw [if_neg h]
  refine ⟨_, rfl, ((Real.sqrt (normSq (project m ψ)) : ℝ) : ℂ)⁻¹, ?_, ?_⟩
  · have := Real.sqrt_pos.2 (normSq_pos h)
    simp only [ne_eq, inv_eq_zero, Complex.ofReal_eq_zero]
    exact ne_of_gt this
  · funext b; rw [div_eq_inv_mul]

theorem runMeasurementLayer_some {m : Meas Q} {ψ φ : St Q} (h : runMeasurementLayer m ψ = some φ) :
    project m ψ ≠ 0 ∧ Par φ (project m ψ) := by
  by_cases h0 : project m ψ = 0
  · unfold runMeasurementLayer at h; rw [if_pos h0] at h; cases h
  · obtain ⟨φ', e, hp⟩ := runMeasurementLayer_par h0
    rw [e, Option.some.injEq] at h
    exact ⟨h0, h ▸ hp⟩

/-- The state vector that the layers give is the one of the projections, normalised. -/
theorem runLayers_par (cs : List (List (Gate Q))) (hcs : ∀ c ∈ cs, ∀ g ∈ c, g.Wf) (ms : List (Meas Q)) (ψ : St Q)
    (h : lay (fn cs) (fn ms) 0 cs.length ψ ≠ 0) :
    ∃ φ, runLayers cs ms ψ = some φ ∧ Par φ (lay (fn cs) (fn ms) 0 cs.length ψ) := by
  have key : ∀ φ φ' : St Q, ∀ cs ms, Par φ φ' → ∀ x, runLayers cs ms φ' = some x → (∀ c ∈ cs, ∀ g ∈ c, g.Wf) →
      ∃ y, runLayers (Q := Q) cs ms φ = some y ∧ Par y x := by
    intro φ φ' cs
    induction cs generalizing φ φ' with
    | nil =>
      intro ms hp x hx _
      rw [runLayers, Option.some.injEq] at hx
      exact ⟨φ, rfl, hx ▸ hp⟩
    | cons c cs ih =>
      intro ms hp x hx hw
      have hc := hw c (by simp)
      have hw' : ∀ c ∈ cs, ∀ g ∈ c, g.Wf := fun c hc => hw c (List.mem_cons_of_mem _ hc)
      cases ms with
      | nil =>
        rw [runLayers, runCircuit_run hc] at hx ⊢
        exact ih _ _ [] (run_par c hp) x hx hw'
      | cons m ms =>
        rw [runLayers, runCircuit_run hc] at hx ⊢
        simp only [Option.bind_some] at hx ⊢
        have hq := project_par m (run_par c hp)
        cases e : runMeasurementLayer m (run c φ') with
        | none => rw [e] at hx; cases hx
        | some y =>
          rw [e] at hx
          obtain ⟨h0, h1⟩ := runMeasurementLayer_some e
          obtain ⟨y', e', h2⟩ := runMeasurementLayer_par (hq.symm.ne_zero h0)
          rw [e']
          exact ih _ _ ms ((h2.trans hq).trans h1.symm) x hx hw'
  induction cs generalizing ms ψ with
  | nil => exact ⟨ψ, rfl, Par.refl _⟩
  | cons c cs ih =>
    have hc := hcs c (by simp)
    have hw' : ∀ c ∈ cs, ∀ g ∈ c, g.Wf := fun c hc => hcs c (List.mem_cons_of_mem _ hc)
    rw [List.length_cons, lay] at h ⊢
    have hs : ∀ φ, lay (fn (c :: cs)) (fn ms) (0 + 1) cs.length φ = lay (fn cs) (fun i => fn ms (i + 1)) 0 cs.length φ := by
      intro φ; rw [← lay_shift, fn_cons_succ]
    rw [hs] at h ⊢
    cases ms with
    | nil =>
      rw [runLayers, runCircuit_run hc]
      have e : project (fn ([] : List (Meas Q)) 0) (run (fn (c :: cs) 0) ψ) = run c ψ := project_nil _
      rw [e] at h ⊢
      exact ih hw' [] _ h
    | cons m ms =>
      rw [runLayers, runCircuit_run hc]
      have e : project (fn (m :: ms) 0) (run (fn (c :: cs) 0) ψ) = project m (run c ψ) := rfl
      rw [e, fn_cons_succ] at h ⊢
      obtain ⟨y, e1, h1⟩ := runMeasurementLayer_par (ne_of_lay h)
      simp only [Option.bind_some]
      rw [e1]
      obtain ⟨x, e2, h2⟩ := ih hw' ms _ h
      obtain ⟨x', e3, h3⟩ := key y _ cs ms h1 x e2 hw'
      exact ⟨x', e3, h3.trans h2⟩

end Verif.TN
