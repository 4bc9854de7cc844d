import Verif.Lemmas.QCircuitPass

/-! Building a circuit introduces no new qubits. -/

namespace Verif.QCirc

variable {Q : Type} [LinearOrder Q]

/-- All qubits of the gate satisfy `S`. -/
def Gate.In (S : Q → Prop) (g : Gate Q) : Prop := S g.target ∧ ∀ c ∈ g.controls, S c

theorem addControls_in {S : Q → Prop} (cs : List Q) {g : Gate Q} (hg : g.In S) (hc : ∀ c ∈ cs, S c) :
    (cs.foldl Gate.addControl g).In S := by
  induction cs generalizing g with
  | nil => exact hg
  | cons c cs ih =>
    refine ih ⟨?_, ?_⟩ (fun x hx => hc x (List.mem_cons_of_mem _ hx))
    · rw [addControl_target]; exact hg.1
    · intro x hx
      rw [addControl_controls] at hx
      rcases hx with rfl | hx
      · exact hc _ (by simp)
      · exact hg.2 x hx

theorem tryRemoveControls_in {S : Q → Prop} (cs : List Q) {g : Gate Q} (hg : g.In S) :
    (cs.foldl Gate.tryRemoveControl g).In S := by
  induction cs generalizing g with
  | nil => exact hg
  | cons c cs ih =>
    refine ih ?_
    unfold Gate.tryRemoveControl
    by_cases h : g.canRemoveControl c = true
    · rw [if_pos h]
      exact ⟨hg.1, fun x hx => hg.2 x (List.mem_of_mem_erase hx)⟩
    · rw [if_neg h]; exact hg

theorem combine_in {S : Q → Prop} {g o : Gate Q} (hg : g.In S) (ho : o.In S) : (g.combine o).In S := by
  have h1 : (if g.controls.length < o.controls.length then o.controls.foldl Gate.addControl g else g).In S := by
    by_cases h : g.controls.length < o.controls.length
    · rw [if_pos h]; exact addControls_in _ hg ho.2
    · rw [if_neg h]; exact hg
  unfold Gate.combine
  dsimp only
  generalize (if g.controls.length < o.controls.length then o.controls.foldl Gate.addControl g else g) = g1 at *
  generalize List.foldl combineStep _ _ = ps
  by_cases h : ps.isEmpty = true
  · rw [if_pos h]; exact ⟨h1.1, by simp [Gate.clear]⟩
  · rw [if_neg h]; exact tryRemoveControls_in _ ⟨h1.1, h1.2⟩

theorem canPass_in {S : Q → Prop} {g n n' : Gate Q} (hn : n.In S) (h : g.canPass n = some n') : n'.In S := by
  have : n'.target = n.target ∧ n'.controls = n.controls := by
    unfold Gate.canPass at h
    split_ifs at h <;> first | (rw [Option.some.injEq] at h; subst h; exact ⟨rfl, rfl⟩) | cases h
  exact ⟨by rw [this.1]; exact hn.1, by rw [this.2]; exact hn.2⟩

theorem walk_in {S : Q → Prop} (cl : Bool) (nq : Finset Q) (rev : List (Gate Q)) (n : Gate Q) (newer : List (Gate Q)) (did : Bool)
    (hrev : ∀ g ∈ rev, g.In S) (hn : n.In S) (hnew : ∀ g ∈ newer, g.In S) :
    match walk cl nq rev n newer did with
    | .placed gs _ => ∀ g ∈ gs, g.In S
    | .cancelled older nw _ => (∀ g ∈ older, g.In S) ∧ (∀ g ∈ nw, g.In S) := by
  induction rev generalizing n newer did with
  | nil =>
    simp only [walk]
    intro g hg
    rcases List.mem_cons.1 hg with rfl | hg
    · exact hn
    · exact hnew g hg
  | cons g rev ih =>
    have hgw := hrev g (by simp)
    have hrw : ∀ g ∈ rev, g.In S := fun x hx => hrev x (List.mem_cons_of_mem _ hx)
    rw [walk]
    unfold Gate.tryCombine
    by_cases hc : g.canCombine n cl = true
    · rw [if_pos hc]
      simp only
      by_cases hi : (g.combine n).isIdentity = true
      · rw [if_pos hi]
        exact ⟨fun x hx => hrw x (by simpa using hx), hnew⟩
      · rw [if_neg hi]
        simp only
        intro x hx
        rw [List.mem_append, List.mem_cons, List.mem_reverse] at hx
        rcases hx with hx | rfl | hx
        · exact hrw x hx
        · exact combine_in hgw hn
        · exact hnew x hx
    · rw [if_neg hc]
      simp only
      cases hp : g.canPass n with
      | none =>
        simp only
        intro x hx
        rw [List.mem_append, List.mem_cons, List.mem_cons, List.mem_reverse] at hx
        rcases hx with hx | rfl | rfl | hx
        · exact hrw x hx
        · exact hgw
        · exact hn
        · exact hnew x hx
      | some n' =>
        simp only
        refine ih n' (g :: newer) _ hrw (canPass_in hn hp) ?_
        intro x hx
        rcases List.mem_cons.1 hx with rfl | hx
        · exact hgw
        · exact hnew x hx

theorem reappend_in {S : Q → Prop} {append : List (Gate Q) → Gate Q → Option (List (Gate Q) × Bool)}
    (ha : ∀ gates n gs r, (∀ g ∈ gates, g.In S) → n.In S → append gates n = some (gs, r) → ∀ g ∈ gs, g.In S)
    (gates head : List (Gate Q)) (gq : Finset Q) (hg : ∀ g ∈ gates, g.In S) (hh : ∀ g ∈ head, g.In S) {gs : List (Gate Q)}
    (h : reappend append gates head gq = some gs) : ∀ g ∈ gs, g.In S := by
  induction head generalizing gates gq with
  | nil => rw [reappend, Option.some.injEq] at h; subst h; exact hg
  | cons x head ih =>
    have hhs : ∀ g ∈ head, g.In S := fun x hx => hh x (List.mem_cons_of_mem _ hx)
    rw [reappend] at h
    by_cases hq : gq = ∅
    · rw [if_pos hq, Option.some.injEq] at h
      subst h
      intro y hy
      rcases List.mem_append.1 hy with hy | hy
      · exact hg y hy
      · exact hh y hy
    · rw [if_neg hq] at h
      by_cases hd : Disjoint x.qubits gq
      · rw [if_pos hd] at h
        refine ih _ _ ?_ hhs h
        intro y hy
        rcases List.mem_append.1 hy with hy | hy
        · exact hg y hy
        · rw [List.mem_singleton.1 hy]; exact hh x (by simp)
      · rw [if_neg hd] at h
        cases hap : append gates x with
        | none => rw [hap] at h; cases h
        | some p =>
          obtain ⟨gs', r⟩ := p
          rw [hap] at h
          have := ha gates x gs' r hg (hh x (by simp)) hap
          cases r <;> exact ih _ _ this hhs h

theorem appendGate_in {S : Q → Prop} (cl : Bool) (N : ℕ) (gates : List (Gate Q)) (n : Gate Q) (gs : List (Gate Q)) (r : Bool)
    (hg : ∀ g ∈ gates, g.In S) (hn : n.In S) (h : appendGate cl N gates n = some (gs, r)) : ∀ g ∈ gs, g.In S := by
  induction N generalizing gates n gs r with
  | zero => cases h
  | succ N ih =>
    rw [appendGate] at h
    by_cases hi : n.isIdentity = true
    · rw [if_pos hi, Option.some.injEq, Prod.mk.injEq] at h
      rw [← h.1]; exact hg
    · rw [if_neg hi] at h
      have := walk_in cl n.qubits gates.reverse n [] false (fun x hx => hg x (by simpa using hx)) hn (by simp)
      revert this h
      cases walk cl n.qubits gates.reverse n [] false with
      | placed gs' r' =>
        simp only
        intro h hw
        rw [Option.some.injEq, Prod.mk.injEq] at h
        rw [← h.1]; exact hw
      | cancelled older nw gq =>
        simp only
        intro h hw
        rw [Option.map_eq_some_iff] at h
        obtain ⟨gs', h1, h2⟩ := h
        rw [Prod.mk.injEq] at h2
        rw [← h2.1]
        exact reappend_in ih older nw gq hw.1 hw.2 h1

end Verif.QCirc
