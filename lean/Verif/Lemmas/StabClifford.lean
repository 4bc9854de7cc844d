import Verif.Model.StabClifford
import Verif.Props.StabMeasure

/-!
Helper lemmas for recognition of Clifford matrices.
-/

namespace Verif.Stab

open Verif.Pauli Complex

variable {n : ℕ}

theorem gate1_comp (t : Fin n) (a b c d a' b' c' d' : ℂ) (ψ : State n) :
    gate1 t a b c d (gate1 t a' b' c' d' ψ) =
      gate1 t (a * a' + b * c') (a * b' + b * d') (c * a' + d * c') (c * b' + d * d') ψ := by
  funext f
  simp only [gate1, Function.update_self, Function.update_idem, Bool.false_eq_true, if_false, if_true]
  split_ifs <;> ring

theorem gate1_smul (t : Fin n) (k a b c d : ℂ) (ψ : State n) :
    gate1 t (k * a) (k * b) (k * c) (k * d) ψ = fun f => k * gate1 t a b c d ψ f := by
  funext f; simp only [gate1]; split_ifs <;> ring

theorem ctrl_comp {c t : Fin n} (hct : c ≠ t) (v : Bool) (a b c' d a' b' e' d' : ℂ) (ψ : State n) :
    ctrl v c (gate1 t a b c' d) (ctrl v c (gate1 t a' b' e' d') ψ) =
      ctrl v c (gate1 t (a * a' + b * e') (a * b' + b * d') (c' * a' + d * e') (c' * b' + d * d')) ψ := by
  rw [← show (gate1 t a b c' d ∘ gate1 t a' b' e' d') = _ from funext fun ψ => gate1_comp t a b c' d a' b' e' d' ψ]
  funext f
  unfold ctrl
  by_cases h : f c = v
  · simp only [h, if_true, Function.comp_apply]
    conv_lhs => rw [gate1]
    conv_rhs => rw [gate1]
    simp only [Function.update_of_ne hct, h, if_true]
  · simp only [h, if_false]

theorem stab_smul {T : Tab n} {ψ : State n} (h : Stabilises T ψ) (k : ℂ) : Stabilises T (fun f => k * ψ f) := by
  intro i hi hi'
  funext f
  have := congrFun (h i hi hi') f
  rw [op_apply] at this ⊢
  linear_combination k * this

/-- The unitaries of a sequence, first gate first. -/
noncomputable def seqU (n : ℕ) (gs : List Gate) (ψ : State n) : State n := gs.foldl (fun ψ g => g.U n ψ) ψ

theorem runSeq_ok (scr : Row n) (gs : List Gate) (hg : ∀ g ∈ gs, g.Valid n) {T : Tab n} (h : Inv T) :
    ∃ T', runSeq scr gs T = (T', false) ∧ Inv T' ∧ ∀ ψ, Stabilises T ψ → Stabilises T' (seqU n gs ψ) := by
  induction gs generalizing T with
  | nil => exact ⟨T, rfl, h, fun ψ hψ => hψ⟩
  | cons g gs ih =>
    have hv := hg g List.mem_cons_self
    have hex : ∃ T1, g.run scr T = some T1 := by
      obtain ⟨T1, h1, -⟩ := gate_stabilises scr hv (T := T) (ψ := fun _ => 0) (by
        intro i _ _; funext f; rw [op_apply]; simp)
      exact ⟨T1, h1⟩
    obtain ⟨T1, h1⟩ := hex
    obtain ⟨T', h2, h3, h4⟩ := ih (fun g hg' => hg g (List.mem_cons_of_mem _ hg')) (gate_inv scr hv h h1)
    refine ⟨T', ?_, h3, fun ψ hψ => ?_⟩
    · rw [runSeq, h1]; exact h2
    · obtain ⟨T2, h5, h6⟩ := gate_stabilises scr hv hψ
      rw [h1, Option.some.injEq] at h5
      subst h5
      exact h4 _ h6

/-- A sequence of gates on the same qubits throws at once or not at all. -/
theorem runSeq_threw (scr : Row n) (gs : List Gate) (T T' : Tab n) (hbad : (∃ g ∈ gs.head?, g.run scr T = none) ∨
      ∀ g ∈ gs, ∀ T, g.run scr T ≠ none) (h : runSeq scr gs T = (T', true)) : T' = T := by
  cases gs with
  | nil => simp [runSeq] at h
  | cons g gs =>
    rcases hbad with ⟨g', hg', hn⟩ | hgood
    · simp only [List.head?_cons, Option.mem_def, Option.some.injEq] at hg'
      subst hg'
      rw [runSeq, hn] at h
      simpa using h.symm
    · exfalso
      have : ∀ gs : List Gate, (∀ g ∈ gs, ∀ T, g.run scr T ≠ none) → ∀ T, (runSeq scr gs T).2 = false := by
        intro gs
        induction gs with
        | nil => intro _ T; rfl
        | cons g gs ih =>
          intro hg T
          obtain ⟨T1, h1⟩ := Option.ne_none_iff_exists'.mp (hg g List.mem_cons_self T)
          rw [runSeq, h1]
          exact ih (fun g hg' => hg g (List.mem_cons_of_mem _ hg')) T1
      have := this _ hgood T
      rw [h] at this
      simp at this

end Verif.Stab
