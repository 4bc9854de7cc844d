import Verif.Props.QCircuit

/-!
# C34: post-selecting a control

Replacing a control by a known value is right as long as a payload remains. When none remains, a gate that should do nothing is run as
a swap, or reads a null pointer. Deleting the phase targets drops controlled phases that should act on the controls.
-/

namespace Verif.QCirc

open Verif.Matrix2 Verif.Spec.Circuit

variable {Q : Type} [LinearOrder Q]

theorem postSelect_payloads {g : Gate Q} {c : Q} (hc : c ∈ g.controls) (e : Bool) :
    (g.postSelectControl c e).payloads = List.foldl PMap.emplace []
      ((g.payloads.filter (fun x => x.1.testBit (g.controls.idxOf c) == e)).map
        (fun x => (squeeze (g.controls.idxOf c) x.1, x.2))) := by
  unfold Gate.postSelectControl
  rw [if_neg (by simpa using hc)]
  dsimp only
  generalize g.controls.idxOf c = p
  generalize ([] : PMap) = acc
  induction g.payloads generalizing acc with
  | nil => rfl
  | cons x m ih =>
    rw [List.foldl_cons, List.filter_cons]
    have hx : (x.1 &&& 2 ^ p ≠ if e = true then 2 ^ p else 0) ↔ ¬ (x.1.testBit p == e) = true := by
      rw [Nat.and_two_pow]
      have := Nat.two_pow_pos p
      cases hb : x.1.testBit p <;> cases e <;> simp <;> omega
    by_cases h : (x.1.testBit p == e) = true
    · rw [if_neg (fun h0 => hx.1 h0 h), if_pos h, List.map_cons, List.foldl_cons]
      exact ih _
    · rw [if_pos (hx.2 h), if_neg h]
      exact ih _

theorem postSelect_get {g : Gate Q} {c : Q} (hg : g.payloads.Ok) (hc : c ∈ g.controls) (e : Bool) (k : ℕ) :
    (g.postSelectControl c e).payloads.get k = g.payloads.get (insKey (g.controls.idxOf c) e k) := by
  rw [postSelect_payloads hc, get_foldl_emplace, get_nil, Option.none_or]
  generalize g.controls.idxOf c = p
  unfold PMap.Ok at hg
  induction hm : g.payloads generalizing g with
  | nil => rfl
  | cons x m ih =>
    have ih' := @ih ⟨g.target, g.controls, m⟩ (by
      rw [hm, List.map_cons, List.nodup_cons] at hg; exact hg.2) hc rfl
    rw [List.filter_cons, get_cons]
    have hk := insKey_eq_iff p e k x.1
    by_cases h : (x.1.testBit p == e) = true
    · rw [if_pos h, List.map_cons, get_cons, ih']
      have h' : x.1.testBit p = e := by simpa using h
      by_cases hs : squeeze p x.1 = k
      · rw [if_pos hs, if_pos (hk.2 ⟨hs, h'⟩).symm]
      · rw [if_neg hs, if_neg (fun h0 => hs (hk.1 h0.symm).1)]
    · rw [if_neg h, ih', if_neg]
      intro h0
      exact h (by simp [(hk.1 h0.symm).2])

theorem postSelect_target (g : Gate Q) (c : Q) (e : Bool) : (g.postSelectControl c e).target = g.target := by
  unfold Gate.postSelectControl; split_ifs <;> rfl

/-- On basis states where the control has the given value, the post-selected gate acts as the gate. -/
theorem postSelect_act {g : Gate Q} (hg : g.Wf) (c : Q) (e : Bool) (ψ : St Q) (b : Q → Bool) (hb : b c = e) :
    (g.postSelectControl c e).act ψ b = g.act ψ b := by
  by_cases hc : c ∈ g.controls
  · obtain ⟨l1, l2, e1, e2, e3⟩ := split_of_mem hg hc
    have hcon : (g.postSelectControl c e).controls = l1 ++ l2 := by
      unfold Gate.postSelectControl; rw [if_neg (by simpa using hc)]; exact e2
    have hk : (g.postSelectControl c e).payloads.get (key (g.postSelectControl c e).controls b) =
        g.payloads.get (key g.controls b) := by
      rw [postSelect_get hg.ok hc, hcon, e3, ← hb, ← key_append_cons, ← e1]
    rw [act_apply, act_apply, hk, postSelect_target]
  · unfold Gate.postSelectControl; rw [if_pos hc]

theorem postSelect_wf {g : Gate Q} (hg : g.Wf) (c : Q) (e : Bool) (hne : (g.postSelectControl c e).payloads ≠ []) :
    (g.postSelectControl c e).Wf := by
  by_cases hc : c ∈ g.controls
  · obtain ⟨l1, l2, e1, e2, e3⟩ := split_of_mem hg hc
    have hcon : (g.postSelectControl c e).controls = l1 ++ l2 := by
      unfold Gate.postSelectControl; rw [if_neg (by simpa using hc)]; exact e2
    refine ⟨?_, ?_, ?_, hne, ?_⟩
    · rw [hcon, postSelect_target]
      intro h0
      apply hg.notMem
      rw [e1]
      rw [List.mem_append] at h0 ⊢
      rw [List.mem_cons]; tauto
    · rw [hcon]
      have := hg.sorted
      rw [e1] at this
      exact this.sublist (List.Sublist.append_left (List.sublist_cons_self c l2) l1)
    · rw [postSelect_payloads hc]
      exact ok_foldl_emplace _ (by simp [PMap.Ok])
    · intro k v hkv
      rw [postSelect_get hg.ok hc] at hkv
      obtain ⟨h1, h2⟩ := hg.entries _ _ hkv
      refine ⟨?_, h2⟩
      rw [e3] at h1
      have h3 : squeeze l1.length (insKey l1.length e k) < 2 ^ (l1 ++ l2).length := by
        apply squeeze_lt (by simp)
        rw [e1] at h1
        simpa [Nat.add_assoc] using h1
      rw [squeeze_insKey] at h3
      rw [hcon]; exact h3
  · unfold Gate.postSelectControl; rw [if_pos hc]; exact hg

/-- **C34 for one gate.** When a payload remains, the call that `Run` makes for the post-selected gate acts as the original gate
wherever the control has the given value. What is missing: gates left without payloads, see `postSelect_swaps` and
`postSelect_null`. -/
theorem postSelect_run_partial {g : Gate Q} (hg : g.Wf) (c : Q) (e : Bool) (hne : (g.postSelectControl c e).payloads ≠ []) :
    ∃ o, (g.postSelectControl c e).op = some o ∧ ∀ ψ b, b c = e → opAct o ψ b = g.act ψ b := by
  obtain ⟨o, h1, h2, _⟩ := op_act (postSelect_wf hg c e hne)
  exact ⟨o, h1, fun ψ b hb => by rw [h2, postSelect_act hg c e ψ b hb]⟩

/-- A doubly controlled NOT, with one control known to be set. -/
example : (Gate.mk 2 [0, 1] [(3, xM)]).Wf ∧ ((Gate.mk 2 [0, 1] [(3, xM)]).postSelectControl 0 true).payloads ≠ [] := by
  constructor
  · exact single_wf (by simp) (by simp) (by simp) (by simp [Unitary, xM])
  · simp [Gate.postSelectControl, PMap.emplace, get_nil]

/-- A doubly controlled NOT with one control known to be clear should do nothing: `Run` swaps the other control with the
target. -/
theorem postSelect_swaps : ∃ (g : Gate ℕ) (c : ℕ) (e : Bool) (o : Op ℕ), g.Wf ∧ (g.postSelectControl c e).op = some o ∧
    ∃ ψ b, b c = e ∧ opAct o ψ b ≠ g.act ψ b := by
  refine ⟨⟨2, [0, 1], [(3, xM)]⟩, 0, false, .swap 1 2, single_wf (by simp) (by simp) (by simp) (by simp [Unitary, xM]), ?_,
    fun b => if b 2 then 1 else 0, fun q => decide (q = 2), by simp, ?_⟩
  · simp [Gate.postSelectControl, Gate.op]
  · have : (Gate.mk 2 [0, 1] [(3, xM)]).act (fun b => if b 2 then 1 else 0) (fun q => decide (q = 2)) = 1 := by
      rw [act_none] <;> simp [get_cons, get_nil, key]
    rw [this]
    simp [opAct, swap]

/-- A controlled NOT with its control known to be clear: `Run` reads a null pointer. -/
theorem postSelect_null : ∃ (g : Gate ℕ) (c : ℕ) (e : Bool), g.Wf ∧ (g.postSelectControl c e).op = none := by
  refine ⟨⟨1, [0], [(1, xM)]⟩, 0, false, single_wf (by simp) (by simp) (by simp) (by simp [Unitary, xM]), ?_⟩
  simp [Gate.postSelectControl, Gate.op, get_nil]

/-! ### Deleting phase targets -/

theorem deletePhaseTarget_eq (gs : List (Gate Q)) (q : Q) (e : Bool) :
    deletePhaseTarget gs q e = (gs.filter (fun g => g.target ≠ q)).map (fun g => g.postSelectControl q e) := by
  unfold deletePhaseTarget
  rw [List.foldl_reverse]
  induction gs with
  | nil => rfl
  | cons g gs ih =>
    rw [List.foldr_cons, ih, List.filter_cons]
    by_cases h : g.target = q <;> simp [h]

/-- The effect of the remaining gates where the qubit has the given value. -/
theorem delete_run (gs : List (Gate Q)) (hgs : ∀ g ∈ gs, g.Wf) (q : Q) (e : Bool) (hph : isNonPhaseTarget gs q = false)
    (hun : ∀ g ∈ gs, g.target = q → g.controls = []) :
    ∃ z : ℂ, z * (starRingEnd ℂ) z = 1 ∧ ∀ ψ b, b q = e → run gs ψ b = z * run (deletePhaseTarget gs q e) ψ b := by
  -- a gate with another target uses only amplitudes with the same value of the qubit
  have hcongr : ∀ (g : Gate Q), g.target ≠ q → ∀ φ φ' : St Q, ∀ z : ℂ, (∀ b, b q = e → φ b = z * φ' b) →
      ∀ b, b q = e → g.act φ b = z * g.act φ' b := by
    intro g hgq φ φ' z h b hb
    cases hm : g.payloads.get (key g.controls b) with
    | none => rw [act_none hm, act_none hm, h b hb]
    | some m =>
      rw [act_some hm, act_some hm]
      have hu : ∀ v, (Function.update b g.target v) q = e := by
        intro v; rw [Function.update_of_ne hgq.symm]; exact hb
      simp only [onQubit]
      rw [h _ (hu _), h _ (hu _)]
      cases b g.target <;> simp only [if_true, Bool.false_eq_true, if_false] <;> ring
  suffices H : ∀ (l : List (Gate Q)), (∀ g ∈ l, g.Wf) → isNonPhaseTarget l q = false → (∀ g ∈ l, g.target = q → g.controls = []) →
      ∀ w : ℂ, w * (starRingEnd ℂ) w = 1 → ∃ z : ℂ, z * (starRingEnd ℂ) z = 1 ∧
      ∀ φ φ' : St Q, (∀ b, b q = e → φ b = w * φ' b) → ∀ b, b q = e →
        run l φ b = z * run (deletePhaseTarget l q e) φ' b by
    obtain ⟨z, hz, h⟩ := H gs hgs hph hun 1 (by simp)
    exact ⟨z, hz, fun ψ b hb => h ψ ψ (fun b _ => (one_mul _).symm) b hb⟩
  intro l
  induction l with
  | nil => intro _ _ _ w hw; exact ⟨w, hw, fun φ φ' h b hb => h b hb⟩
  | cons g l ih =>
    intro hw hp hu w hww
    have hpl : isNonPhaseTarget l q = false ∧ (g.target = q → g.isPhase = true) := by
      unfold isNonPhaseTarget at hp ⊢
      rw [List.any_cons, Bool.or_eq_false_iff] at hp
      refine ⟨hp.2, fun h => ?_⟩
      have := hp.1
      simpa [h] using this
    have hwl : ∀ x ∈ l, x.Wf := fun x hx => hw x (List.mem_cons_of_mem _ hx)
    have hul : ∀ x ∈ l, x.target = q → x.controls = [] := fun x hx => hu x (List.mem_cons_of_mem _ hx)
    by_cases ht : g.target = q
    · have hc := hu g (by simp) ht
      have hphase := hpl.2 ht
      have hd : deletePhaseTarget (g :: l) q e = deletePhaseTarget l q e := by
        rw [deletePhaseTarget_eq, deletePhaseTarget_eq, List.filter_cons]; simp [ht]
      -- the factor of the uncontrolled phase gate
      cases hp0 : g.payloads with
      | nil => exact absurd hp0 (hw g (by simp)).nonempty
      | cons x m =>
        have h1 : g.payloads.get x.1 = some x.2 := mem_get (hw g (by simp)).ok (by rw [hp0]; simp)
        have h2 := ((hw g (by simp)).entries _ _ h1)
        have h3 : x.1 = 0 := by have := h2.1; rw [hc] at this; simpa using this
        rw [h3] at h1
        have hfac : ∀ b, b q = e → g.fac b = if e then x.2.m3 else x.2.m0 := by
          intro b hb
          unfold Gate.fac
          rw [hc]
          simp only [key]
          rw [h1, ht, hb]
        have hxz : x.2.m1 = 0 ∧ x.2.m2 = 0 := by
          unfold Gate.isPhase at hphase
          simp only [List.all_eq_true, decide_eq_true_eq] at hphase
          exact hphase x (by rw [hp0]; simp)
        have hunit : (if e then x.2.m3 else x.2.m0) * (starRingEnd ℂ) (if e then x.2.m3 else x.2.m0) = 1 := by
          obtain ⟨_, _, _, u4, u5, _⟩ := h2.2
          rw [hxz.1] at u4
          rw [hxz.2] at u5
          cases e
          · simpa using u4
          · simpa using u5
        obtain ⟨z, hz, h⟩ := ih hwl hpl.1 hul ((if e then x.2.m3 else x.2.m0) * w) (by
          rw [map_mul]
          linear_combination (w * (starRingEnd ℂ) w) * hunit + hww)
        refine ⟨z, hz, fun φ φ' hφ b hb => ?_⟩
        rw [run_cons, hd]
        refine h _ _ (fun b hb => ?_) b hb
        rw [phase_act hphase, hfac b hb, hφ b hb]; ring
    · have hd : deletePhaseTarget (g :: l) q e = g.postSelectControl q e :: deletePhaseTarget l q e := by
        rw [deletePhaseTarget_eq, deletePhaseTarget_eq, List.filter_cons]; simp [ht]
      obtain ⟨z, hz, h⟩ := ih hwl hpl.1 hul w hww
      refine ⟨z, hz, fun φ φ' hφ b hb => ?_⟩
      rw [run_cons, hd, run_cons]
      refine h _ _ (fun b hb => ?_) b hb
      rw [postSelect_act (hw g (by simp)) q e φ' b hb]
      exact hcongr g ht φ φ' w hφ b hb

/-- **C34 for circuits.** When no gate on the qubit is anything but an uncontrolled phase, and every post-selected gate keeps a payload,
`Run` of the shortened circuit acts as the circuit, up to a phase, wherever the qubit has the given value. What is missing:
controlled phases on the qubit, see `deletePhaseTarget_wrong`, and gates left without payloads. -/
theorem deletePhaseTarget_run_partial (gs : List (Gate Q)) (hgs : ∀ g ∈ gs, g.Wf) (q : Q) (e : Bool)
    (hph : isNonPhaseTarget gs q = false) (hun : ∀ g ∈ gs, g.target = q → g.controls = [])
    (hne : ∀ g ∈ deletePhaseTarget gs q e, g.payloads ≠ []) :
    ∃ ops, runOps (deletePhaseTarget gs q e) = some ops ∧
      ∃ z : ℂ, z * (starRingEnd ℂ) z = 1 ∧ ∀ ψ b, b q = e → run gs ψ b = z * opsAct ops ψ b := by
  have hwf : ∀ g ∈ deletePhaseTarget gs q e, g.Wf := by
    intro g hg
    have hne' := hne g hg
    rw [deletePhaseTarget_eq, List.mem_map] at hg
    obtain ⟨h, hh, rfl⟩ := hg
    exact postSelect_wf (hgs h (List.mem_filter.1 hh).1) q e hne'
  obtain ⟨ops, e1, e2, _⟩ := runOps_act _ hwf
  obtain ⟨z, hz, h⟩ := delete_run gs hgs q e hph hun
  exact ⟨ops, e1, z, hz, fun ψ b hb => by rw [h ψ b hb, e2]⟩

/-- A phase on qubit 1 between controlled gates. -/
example : let gs := [Gate.mk 0 [1] [(1, xM)], Gate.mk 1 [] [(0, ⟨1, 0, 0, Complex.I⟩)], Gate.mk 2 [0, 1] [(3, xM)]]
    (∀ g ∈ gs, g.Wf) ∧ isNonPhaseTarget gs 1 = false ∧ (∀ g ∈ gs, g.target = 1 → g.controls = []) ∧
      (∀ g ∈ deletePhaseTarget gs 1 true, g.payloads ≠ []) := by
  refine ⟨?_, ?_, ?_, ?_⟩
  · intro g hg
    simp only [List.mem_cons, List.not_mem_nil, or_false] at hg
    rcases hg with rfl | rfl | rfl <;>
      exact single_wf (by simp) (by simp) (by simp) (by simp [Unitary, xM])
  · simp [isNonPhaseTarget, Gate.isPhase]
  · intro g hg
    simp only [List.mem_cons, List.not_mem_nil, or_false] at hg
    rcases hg with rfl | rfl | rfl <;> simp
  · intro g hg
    simp [deletePhaseTarget, Gate.postSelectControl, PMap.emplace, get_nil] at hg
    rcases hg with rfl | rfl <;> simp

/-- A controlled Z whose target is known to be set should become a Z on the control; it is deleted. -/
theorem deletePhaseTarget_wrong : ∃ (gs : List (Gate ℕ)) (q : ℕ) (e : Bool), (∀ g ∈ gs, g.Wf) ∧
    isNonPhaseTarget gs q = false ∧ deletePhaseTarget gs q e = [] ∧
    ∃ ψ, ¬ ∃ z : ℂ, ∀ b, b q = e → run gs ψ b = z * ψ b := by
  refine ⟨[Gate.mk 1 [0] [(1, zM)]], 1, true, ?_, ?_, ?_, fun _ => 1, ?_⟩
  · intro g hg
    rw [List.mem_singleton.1 hg]
    exact single_wf (by simp) (by simp) (by simp) (by simp [Unitary, zM])
  · simp [isNonPhaseTarget, Gate.isPhase, zM]
  · simp [deletePhaseTarget]
  · rintro ⟨z, h⟩
    have h1 := h (fun q => decide (q = 1)) (by simp)
    have h2 := h (fun _ => true) rfl
    rw [run_cons, run_nil, act_none (by simp [key, get_cons, get_nil])] at h1
    rw [run_cons, run_nil, act_some (m := zM) (by simp [key, get_cons])] at h2
    simp [onQubit, zM] at h1 h2
    rw [← h1] at h2
    norm_num at h2

end Verif.QCirc
