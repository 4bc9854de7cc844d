import Verif.Props.QCircuit

/-!
# C32: the inverse circuit undoes the circuit

For every list of gates made by any of the constructors, including swaps, with unitary payloads. Stated about the calls that `Run`
makes for the circuit and for its inverse.
-/

namespace Verif.QCirc

open Verif.Matrix2 Verif.Spec.Circuit

variable {Q : Type} [LinearOrder Q]

/-- One gate inverted, as `Inverse` does it. -/
noncomputable def Gate.dag (g : Gate Q) : Gate Q := { g with payloads := g.payloads.map (fun e => (e.1, dagger e.2)) }

theorem get_dag (g : Gate Q) (k : ℕ) : g.dag.payloads.get k = (g.payloads.get k).map dagger := by
  unfold Gate.dag
  dsimp only
  induction g.payloads with
  | nil => rfl
  | cons e m ih =>
    rw [List.map_cons, get_cons, get_cons, ih]
    by_cases h : e.1 = k <;> simp [h]

theorem dagger_dagger (m : Mtrx) : dagger (dagger m) = m := by
  obtain ⟨a, b, c, d⟩ := m
  simp [dagger]

theorem unitary_dagger {m : Mtrx} (h : Unitary m) : Unitary (dagger m) := by
  obtain ⟨h1, h2, h3, h4, h5, h6⟩ := h
  have h3' := congrArg (starRingEnd ℂ) h3
  have h6' := congrArg (starRingEnd ℂ) h6
  simp only [map_add, map_mul, Complex.conj_conj, map_zero] at h3' h6'
  refine ⟨?_, ?_, ?_, ?_, ?_, ?_⟩ <;> simp only [dagger, Complex.conj_conj]
  · exact h4
  · exact h5
  · rw [← h6]
  · exact h1
  · exact h2
  · rw [← h3]

theorem dag_wf {g : Gate Q} (hg : g.Wf) : g.dag.Wf := by
  refine ⟨hg.notMem, hg.sorted, ?_, ?_, ?_⟩
  · have := hg.ok
    unfold PMap.Ok at this ⊢
    unfold Gate.dag
    rw [List.map_map]; exact this
  · intro h; exact hg.nonempty (List.map_eq_nil_iff.1 h)
  · intro k v h
    rw [get_dag, Option.map_eq_some_iff] at h
    obtain ⟨w, hw, rfl⟩ := h
    exact ⟨(hg.entries k w hw).1, unitary_dagger (hg.entries k w hw).2⟩

/-- The inverted gate undoes the gate. -/
theorem dag_act {g : Gate Q} (hg : g.Wf) (ψ : St Q) : g.dag.act (g.act ψ) = ψ := by
  funext b
  cases h : g.payloads.get (key g.controls b) with
  | none =>
    have h' : g.dag.payloads.get (key g.dag.controls b) = none := by
      rw [get_dag]; show Option.map _ (g.payloads.get (key g.controls b)) = _; rw [h]; rfl
    rw [act_none h', act_none h]
  | some m =>
    have h' : g.dag.payloads.get (key g.dag.controls b) = some (dagger m) := by
      rw [get_dag]; show Option.map _ (g.payloads.get (key g.controls b)) = _; rw [h]; rfl
    rw [act_some h']
    have e : ∀ v, g.act ψ (Function.update b g.target v) = onQubit g.target m ψ (Function.update b g.target v) :=
      fun v => act_some (by rw [key_update hg.notMem]; exact h) ψ
    have e' : onQubit g.dag.target (dagger m) (g.act ψ) b = onQubit g.target (dagger m) (onQubit g.target m ψ) b := by
      show (if _ then _ else _) = (if _ then _ else _)
      have ht : g.dag.target = g.target := rfl
      rw [ht, e, e]
    rw [e', onQubit_mul]
    obtain ⟨h1, h2, h3, h4, h5, h6⟩ := (hg.entries _ _ h).2
    rw [onQubit_id]
    · rw [mul_m0]; exact h1
    · rw [mul_m1]; exact h3
    · have := congrArg (starRingEnd ℂ) h3
      simp only [map_add, map_mul, Complex.conj_conj, map_zero] at this
      rw [mul_m2, ← this]; simp only [dagger]; ring
    · rw [mul_m3]; exact h2

theorem dag_dag (g : Gate Q) : g.dag.dag = g := by
  unfold Gate.dag
  simp only [List.map_map]
  have : ((fun e : ℕ × Mtrx => (e.1, dagger e.2)) ∘ fun e => (e.1, dagger e.2)) = id := by
    funext e; simp [dagger_dagger]
  rw [this, List.map_id]

theorem dag_good {g : Gate Q} (hg : g.Good) : g.dag.Good := by
  rcases hg with hg | ⟨p, q, h, rfl⟩
  · exact Or.inl (dag_wf hg)
  · exact Or.inr ⟨p, q, h, rfl⟩

theorem dag_meaning {g : Gate Q} (hg : g.Good) (ψ : St Q) : g.dag.meaning (g.meaning ψ) = ψ := by
  rcases hg with hg | ⟨p, q, h, rfl⟩
  · rw [meaning_wf hg, meaning_wf (dag_wf hg), dag_act hg]
  · show swap q p (swap q p ψ) = ψ
    funext b
    unfold swap
    congr 1
    funext r
    by_cases h1 : r = q
    · subst h1; simp [h]
    · by_cases h2 : r = p
      · subst h2; simp [h1]
      · simp [h1, h2]

theorem meanings_inverse (gs : List (Gate Q)) (hgs : ∀ g ∈ gs, g.Good) (ψ : St Q) :
    (inverse gs).foldl (fun φ g => g.meaning φ) (gs.foldl (fun φ g => g.meaning φ) ψ) = ψ := by
  have hinv : ∀ l : List (Gate Q), inverse l = (l.map Gate.dag).reverse := fun l => rfl
  induction gs generalizing ψ with
  | nil => rfl
  | cons g gs ih =>
    rw [hinv, List.map_cons, List.reverse_cons, List.foldl_append, ← hinv, List.foldl_cons (l := gs),
      ih (fun x hx => hgs x (List.mem_cons_of_mem _ hx))]
    exact dag_meaning (hgs g (by simp)) ψ

theorem inverse_inverse (gs : List (Gate Q)) : inverse (inverse gs) = gs := by
  have hinv : ∀ l : List (Gate Q), inverse l = (l.map Gate.dag).reverse := fun l => rfl
  rw [hinv, hinv, List.map_reverse, List.reverse_reverse, List.map_map]
  have : (Gate.dag ∘ Gate.dag : Gate Q → Gate Q) = id := by funext g; exact dag_dag g
  rw [this, List.map_id]

/-- **C32.** The calls for the inverse circuit undo the calls for the circuit, and the other way round. -/
theorem inverse_undoes (gs : List (Gate Q)) (hgs : ∀ g ∈ gs, g.Good) :
    ∃ ops inv, runOps gs = some ops ∧ runOps (inverse gs) = some inv ∧
      ∀ ψ, opsAct inv (opsAct ops ψ) = ψ ∧ opsAct ops (opsAct inv ψ) = ψ := by
  have hig : ∀ g ∈ inverse gs, g.Good := by
    intro g hg
    have : g ∈ (gs.map Gate.dag).reverse := hg
    rw [List.mem_reverse, List.mem_map] at this
    obtain ⟨h, hh, rfl⟩ := this
    exact dag_good (hgs h hh)
  obtain ⟨ops, e1, e2, _⟩ := runOps_meaning gs hgs
  obtain ⟨inv, f1, f2, _⟩ := runOps_meaning (inverse gs) hig
  refine ⟨ops, inv, e1, f1, fun ψ => ⟨?_, ?_⟩⟩
  · rw [e2, f2]; exact meanings_inverse gs hgs ψ
  · rw [e2, f2]
    have := meanings_inverse (inverse gs) hig ψ
    rwa [inverse_inverse] at this

/-- A circuit with a phase gate, a controlled gate and a swap. -/
example : ∀ g ∈ [Gate.mk 0 [] [(0, ⟨1, 0, 0, Complex.I⟩)], Gate.mk 1 [0] [(1, xM)], swapGate 0 1], Gate.Good g := by
  intro g hg
  simp only [List.mem_cons, List.not_mem_nil, or_false] at hg
  rcases hg with rfl | rfl | rfl
  · exact Or.inl (single_wf (by simp) (by simp) (by simp) (by simp [Unitary]))
  · exact Or.inl (single_wf (by simp) (by simp) (by simp) (by simp [Unitary, xM]))
  · exact Or.inr ⟨0, 1, by simp, rfl⟩

end Verif.QCirc
