import Verif.Props.TensorNet
import Mathlib.Tactic.NormNum

/-!
# C54: networks that do not give the results of direct execution, and a network that does
-/

namespace Verif.TN

open Verif.Matrix2 Verif.Spec.Circuit Verif.QCirc

section General

variable {Q : Type} [LinearOrder Q] [Fintype Q]

/-- Where a gate goes. -/
theorem append_at {net : Net Q} (h : Ok (net.circuit, net.meas)) {g : Gate Q} (hg : g.Wf) :
    ∃ c', net.append g = some { net with
        circuit := (if net.circuit.length = layerFor (g.target :: g.controls) net.meas then net.circuit ++ [[]]
          else net.circuit).set (layerFor (g.target :: g.controls) net.meas) c',
        stack := none } ∧ (∀ x ∈ c', x.Wf) ∧
      RayEq c' (fn net.circuit (layerFor (g.target :: g.controls) net.meas) ++ [g]) ∧
      appendTo false (fn net.circuit (layerFor (g.target :: g.controls) net.meas)) g = some c' := by
  have hl := (layerFor_spec (g.target :: g.controls) net.meas).1
  unfold Net.append
  simp only []
  generalize layerFor (g.target :: g.controls) net.meas = l at hl ⊢
  have hll : l ≤ net.circuit.length := le_trans hl h.le
  generalize hcirc : (if net.circuit.length = l then net.circuit ++ [[]] else net.circuit) = cs
  have hfn : fn cs = fn net.circuit := by rw [← hcirc]; split; exact fn_push _; rfl
  have hlen : l < cs.length := by
    rw [← hcirc]; split
    · simp; omega
    · omega
  rw [List.getElem?_eq_getElem hlen]
  have hcl : cs[l] = fn net.circuit l := by
    rw [← hfn]; unfold fn; rw [List.getElem?_eq_getElem hlen]; rfl
  simp only []
  rw [hcl]
  obtain ⟨c', e1, e2, e3⟩ := appendTo_spec false (h.wf_fn l) hg
  have e1 : appendTo false (fn net.circuit l) g = some c' := e1
  rw [e1]
  exact ⟨c', rfl, e2, e3, rfl⟩

/-- A first gate. -/
theorem appendTo_nil (cl : Bool) {g : Gate Q} (h : g.isIdentity = false) : appendTo cl [] g = some [g] := by
  unfold appendTo
  rw [appendGate, h]
  rfl

/-- The network that the wrong answer is read from. -/
theorem Good.of_par {net : Net Q} {Φ : St Q} (h : Ok (net.circuit, net.meas)) (hs : net.stack = none) (hn : Φ ≠ 0)
    (hp : Par (sem (net.circuit, net.meas)) Φ) : Good net Φ :=
  ⟨h, hn, hp, fun ψ e => by rw [hs] at e; cases e⟩

end General

/-- A real, self-inverse gate that is neither a phase gate nor an inversion. -/
noncomputable def aM : Mtrx := ⟨3 / 5, 4 / 5, 4 / 5, -3 / 5⟩

theorem aM_unitary : Unitary aM := by
  unfold Unitary aM
  norm_num [Complex.ext_iff, starRingEnd_apply]

/-- `aM` on `q`. -/
noncomputable def aGate {Q : Type} (q : Q) : Gate Q := ⟨q, [], [(0, aM)]⟩

/-- X on `t` controlled by `c`. -/
noncomputable def cnot {Q : Type} (c t : Q) : Gate Q := ⟨t, [c], [(1, ⟨0, 1, 1, 0⟩)]⟩

section
variable {Q : Type} [LinearOrder Q]

theorem aGate_wf (q : Q) : (aGate q).Wf := single_wf (by simp) (by simp) (by simp) aM_unitary

theorem cnot_wf {c t : Q} (h : c ≠ t) : (cnot c t).Wf :=
  single_wf (by simpa using fun e => h e.symm) (by simp) (by simp) (by simp [Unitary])

theorem aGate_act (q : Q) (ψ : St Q) (b : Q → Bool) : (aGate q).act ψ b =
    if b q then 4 / 5 * ψ (Function.update b q false) + -3 / 5 * ψ (Function.update b q true)
    else 3 / 5 * ψ (Function.update b q false) + 4 / 5 * ψ (Function.update b q true) := by
  rw [act_some (m := aM) (by simp [aGate, key, get_cons])]
  rfl

theorem cnot_act {c t : Q} (ψ : St Q) (b : Q → Bool) : (cnot c t).act ψ b =
    if b c then ψ (Function.update b t (!b t)) else ψ b := by
  cases hb : b c
  · rw [act_none (by simp [cnot, key, get_cons, hb]; rfl)]; simp
  · rw [act_some (m := ⟨0, 1, 1, 0⟩) (by simp [cnot, key, get_cons, hb])]
    unfold onQubit cnot
    cases h : b t <;> simp [h]

end

theorem sum2 (f : (Fin 2 → Bool) → ℝ) :
    ∑ b, f b = f ![false, false] + f ![true, false] + f ![false, true] + f ![true, true] := by
  have : (Finset.univ : Finset (Fin 2 → Bool)) = {![false, false], ![true, false], ![false, true], ![true, true]} := by decide
  rw [this, Finset.sum_insert (by decide), Finset.sum_insert (by decide), Finset.sum_insert (by decide), Finset.sum_singleton]
  ring

theorem at2 (a b c : Bool) : ![a, b, c] (2 : Fin 3) = c := rfl

theorem sum3 (f : (Fin 3 → Bool) → ℝ) :
    ∑ b, f b = f ![false, false, false] + f ![true, false, false] + f ![false, true, false] + f ![true, true, false] +
      f ![false, false, true] + f ![true, false, true] + f ![false, true, true] + f ![true, true, true] := by
  have : (Finset.univ : Finset (Fin 3 → Bool)) = {![false, false, false], ![true, false, false], ![false, true, false],
    ![true, true, false], ![false, false, true], ![true, false, true], ![false, true, true], ![true, true, true]} := by decide
  rw [this]
  repeat rw [Finset.sum_insert (by decide)]
  rw [Finset.sum_singleton]
  ring

/-! ## A gate that ends up before an earlier one -/

/-- X on 0, A on 1, 0 found to be 1, CNOT from 0 to 1, A on 1, the probability of 1. -/
noncomputable def lateGate : List (Cmd (Fin 2)) :=
  [.gate (xGate 0), .gate (aGate 1), .meas 0 true, .gate (cnot 0 1), .gate (aGate 1), .prob 1]

/-- The state of direct execution after the measurement. -/
theorem late_state : branch 0 true ((aGate 1).act ((xGate (0 : Fin 2)).act zeroState)) =
    fun b => if b 0 then (if b 1 then 4 / 5 else 3 / 5) else 0 := by
  funext b
  cases h0 : b 0 <;> cases h1 : b 1 <;>
    simp [branch, aGate_act, xGate_act, zeroState, Fin.forall_fin_two, h0, h1]

theorem late_network : (cnot 0 1).act ((aGate 1).act (fun b : Fin 2 → Bool => if b 0 then (if b 1 then (4 / 5 : ℂ) else 3 / 5) else 0)) =
    fun b => if b 0 && b 1 then 1 else 0 := by
  funext b
  cases h0 : b 0 <;> cases h1 : b 1 <;> simp [aGate_act, cnot_act, h0, h1] <;> norm_num

theorem late_direct : (aGate 1).act ((cnot 0 1).act (fun b : Fin 2 → Bool => if b 0 then (if b 1 then (4 / 5 : ℂ) else 3 / 5) else 0)) =
    fun b => if b 0 then (if b 1 then 7 / 25 else 24 / 25) else 0 := by
  funext b
  cases h0 : b 0 <;> cases h1 : b 1 <;> simp [aGate_act, cnot_act, h0, h1] <;> norm_num

/-- **C54, counterexample.** The layer for a gate is chosen by the measurements alone: the second A is put before the CNOT and
cancels the first. The network says that qubit 1 is certainly set; the probability is 49/625. -/
theorem lateGate_wrong : NoReuse (lateGate.take 3) (fun _ => False) zeroState ∧
    (∃ n, exec false lateGate ⟨false, [[]], [], none⟩ = some (n, [1])) ∧ (direct lateGate zeroState).2 = [49 / 625] := by
  have hbr : branch 0 true ((aGate 1).act ((xGate (0 : Fin 2)).act zeroState)) ≠ 0 := by
    rw [late_state]
    intro e
    have := congrFun e ![true, true]
    norm_num at this
  refine ⟨⟨xGate_wf _, by simp, by simp [xGate], aGate_wf _, by simp, by simp [aGate], hbr, trivial⟩, ?_, ?_⟩
  · unfold lateGate
    obtain ⟨n1, a1, a2, a3⟩ := append_partial (fresh_good (Q := Fin 2) false) (xGate_wf 0) (clear_single rfl _)
    have s1 := append_length a1
    have l1 : n1.circuit.length = 1 := s1.2 (by decide)
    obtain ⟨n2, b1, b2, b3⟩ := append_partial a2 (aGate_wf 1) (clear_single l1 _)
    have s2 := append_length b1
    have m2 : n2.meas = [] := by rw [s2.1, s1.1]
    have l2 : n2.circuit.length = 1 := by rw [s2.2 (by rw [s1.1, l1]; decide), l1]
    obtain ⟨n3, c1, c2, c3⟩ := forceM_partial b2 false (by rw [b3, a3]) (q := 0) (r := true) hbr (measureOk_single l2 _ _)
    obtain ⟨l3, m3⟩ := forceM_single l2 c1
    have m3 : n3.meas = [[(0, true)]] := by rw [m3, m2]; rfl
    obtain ⟨k3, hk3⟩ : ∃ c, n3.circuit = [c] := List.length_eq_one_iff.1 l3
    have lf4 : layerFor ((cnot (0 : Fin 2) 1).target :: (cnot (0 : Fin 2) 1).controls) n3.meas = 1 := by rw [m3]; decide
    obtain ⟨k4, d1, d2, d3, _⟩ := append_at c2.ok (cnot_wf (c := (0 : Fin 2)) (t := 1) (by decide))
    rw [lf4] at d1 d3
    rw [hk3] at d1
    simp only [List.length_singleton, if_true] at d1
    rw [fn_ge (by rw [l3])] at d3
    obtain ⟨n4, hn4⟩ : ∃ n, n = ({ n3 with circuit := ([k3] ++ [[]]).set 1 k4, stack := none } : Net (Fin 2)) := ⟨_, rfl⟩
    rw [← hn4] at d1
    have o4 : Ok (n4.circuit, n4.meas) := by
      have := append_par c2.ok (cnot_wf (c := (0 : Fin 2)) (t := 1) (by decide)) (clear_single l3 _)
      obtain ⟨n, e1, _, _, e4, _⟩ := this
      rw [d1, Option.some.injEq] at e1
      rw [e1]; exact e4
    have m4 : n4.meas = [[(0, true)]] := by rw [hn4]; exact m3
    have k4' : n4.circuit = [k3, k4] := by rw [hn4]; rfl
    have lf5 : layerFor ((aGate (1 : Fin 2)).target :: (aGate (1 : Fin 2)).controls) n4.meas = 0 := by
      rw [m4]; unfold aGate; decide
    obtain ⟨k5, f1, f2, f3, _⟩ := append_at o4 (aGate_wf (1 : Fin 2))
    rw [lf5, k4'] at f1 f3
    simp only [List.length_cons, List.length_nil, Nat.zero_add, Nat.reduceAdd, OfNat.ofNat_ne_zero, if_false] at f1
    obtain ⟨n5, hn5⟩ : ∃ n, n = ({ n4 with circuit := [k3, k4].set 0 k5, stack := none } : Net (Fin 2)) := ⟨_, rfl⟩
    rw [← hn5] at f1
    have m5 : n5.meas = [[(0, true)]] := by rw [hn5]; exact m4
    have k5' : n5.circuit = [k5, k4] := by rw [hn5]; rfl
    have o5 : Ok (n5.circuit, n5.meas) := by
      rw [m5, k5']
      exact ⟨by simp, by simp, by simp, by simpa using ⟨f2, d2⟩, by simp⟩
    have hpar : Par (sem (n5.circuit, n5.meas)) ((cnot 0 1).act ((aGate 1).act
        (branch 0 true ((aGate 1).act ((xGate (0 : Fin 2)).act zeroState))))) := by
      rw [m5, k5']
      unfold sem
      simp only [List.length_cons, List.length_nil, lay]
      show Par (project [] (run k4 (project [(0, true)] (run k5 zeroState)))) _
      rw [project_nil]
      refine (rayEq_par d3 _).trans (act_par (cnot 0 1) ?_)
      refine (project_par _ (rayEq_par f3 _)).trans ?_
      rw [run_append]
      show Par (project [(0, true)] ((aGate 1).act (run k3 zeroState))) _
      rw [project_act (by decide)]
      refine act_par _ ?_
      have := c2.par
      rw [m3, hk3] at this
      exact this
    rw [late_state, late_network] at hpar
    have hg : Good n5 _ := Good.of_par o5 (by rw [hn5]) (by
      intro e
      have := congrFun e ![true, true]
      norm_num at this) hpar
    obtain ⟨n6, g1, _⟩ := prob_direct hg false (by rw [hn5, hn4]; exact c3) 1
    refine ⟨n6, ?_⟩
    have hborn : born (fun b : Fin 2 → Bool => if b 0 && b 1 then (1 : ℂ) else 0) 1 = 1 := by
      unfold born; rw [sum2, sum2]; norm_num
    rw [hborn] at g1
    simp only [exec, a1, b1, c1, d1, f1, g1, Option.bind_some, Option.map_some]
  · unfold lateGate
    simp only [direct]
    have : ∀ (g : Gate (Fin 2)) Φ, multiplex g.target g.controls g.payloads.get Φ = g.act Φ := fun _ _ => rfl
    simp only [this]
    rw [late_state, late_direct]
    have hborn : born (fun b : Fin 2 → Bool => if b 0 then (if b 1 then (7 / 25 : ℂ) else 24 / 25) else 0) 1 = 49 / 625 := by
      unfold born; rw [sum2, sum2]; norm_num
    rw [hborn]

/-! ## A layer that is erased -/

theorem xGate_not_phase {Q : Type} [LinearOrder Q] (q : Q) : (xGate q).isPhase = false := by
  simp [xGate, Gate.isPhase]

theorem cnot_not_phase {Q : Type} [LinearOrder Q] (c t : Q) : (cnot c t).isPhase = false := by
  simp [cnot, Gate.isPhase]

theorem aGate_not_phase {Q : Type} [LinearOrder Q] (q : Q) : (aGate q).isPhase = false := by
  simp [aGate, Gate.isPhase, aM]

theorem xGate_not_identity {Q : Type} [LinearOrder Q] (q : Q) : (xGate q).isIdentity = false := by
  simp [xGate, Gate.isIdentity]

theorem cnot_not_identity {Q : Type} [LinearOrder Q] (c t : Q) : (cnot c t).isIdentity = false := by
  simp [cnot, Gate.isIdentity]

theorem aGate_not_identity {Q : Type} [LinearOrder Q] (q : Q) : (aGate q).isIdentity = false := by
  simp [aGate, Gate.isIdentity, aM]

/-- A on 2, CNOT from 2 to 1, X on 0, 0 found to be 1, CNOT from 0 to 1, 1 found to be 1, X on 0, the probability of 2. -/
noncomputable def erased : List (Cmd (Fin 3)) :=
  [.gate (aGate 2), .gate (cnot 2 1), .gate (xGate 0), .meas 0 true, .gate (cnot 0 1), .meas 1 true, .gate (xGate 0), .prob 2]

theorem erased_state : branch 0 true ((xGate 0).act ((cnot 2 1).act ((aGate (2 : Fin 3)).act zeroState))) =
    fun b => if b 0 && (b 1 == b 2) then (if b 2 then 4 / 5 else 3 / 5) else 0 := by
  funext b
  cases h0 : b 0 <;> cases h1 : b 1 <;> cases h2 : b 2 <;>
    simp [branch, aGate_act, xGate_act, cnot_act, zeroState, Fin.forall_fin_succ, h0, h1, h2]

theorem erased_network : (xGate 0).act (branch 1 true
      (fun b : Fin 3 → Bool => if b 0 && (b 1 == b 2) then (if b 2 then (4 / 5 : ℂ) else 3 / 5) else 0)) =
    fun b => if !b 0 && b 1 && b 2 then 4 / 5 else 0 := by
  funext b
  cases h0 : b 0 <;> cases h1 : b 1 <;> cases h2 : b 2 <;> simp [branch, xGate_act, h0, h1, h2]

theorem erased_second : branch 1 true ((cnot 0 1).act
      (fun b : Fin 3 → Bool => if b 0 && (b 1 == b 2) then (if b 2 then (4 / 5 : ℂ) else 3 / 5) else 0)) =
    fun b => if b 0 && b 1 && !b 2 then 3 / 5 else 0 := by
  funext b
  cases h0 : b 0 <;> cases h1 : b 1 <;> cases h2 : b 2 <;> simp [branch, cnot_act, h0, h1, h2]

theorem erased_direct : (xGate 0).act (fun b : Fin 3 → Bool => if b 0 && b 1 && !b 2 then (3 / 5 : ℂ) else 0) =
    fun b => if !b 0 && b 1 && !b 2 then 3 / 5 else 0 := by
  funext b
  cases h0 : b 0 <;> cases h1 : b 1 <;> cases h2 : b 2 <;> simp [xGate_act, h0, h1, h2]

theorem collapse_succ {Q : Type} [LinearOrder Q] [Fintype Q] (k : ℕ) (L : Layers Q) : collapse (k + 1) L =
    if isCollapsed (L.1[k + 1]?.getD []) (L.2[k + 1]?.getD []) then
      (appendAllTo false ((L.1.eraseIdx (k + 1))[k]?.getD []) (((L.2[k + 1]?.getD []).filter fun e =>
        Meas.has (L.2[k]?.getD []) e.1 && !((L.2[k]?.getD []).contains e)).map fun e => xGate e.1)).bind fun c =>
        collapse k ((L.1.eraseIdx (k + 1)).set k c, (L.2.set (k + 1) (Meas.insertAll (L.2[k + 1]?.getD []) (L.2[k]?.getD []))).eraseIdx k)
    else some L := by
  rw [collapse]

/-- The second loop of `ForceM` erases the layer with the CNOT, because its control is not the target of a gate. -/
theorem erased_layer (c : List (Gate (Fin 3))) :
    collapse 1 (insertMeas 1 true 1 ([c, [cnot 0 1]], [[(0, true)]])) = collapse 0 ([c], [[(1, true), (0, true)]]) := by
  have h1 : insertMeas 1 true 1 ([c, [cnot 0 1]], [[((0 : Fin 3), true)]]) =
      ([c, [cnot 0 1]], [[(0, true)], [(1, true)]]) := rfl
  rw [h1]
  have h2 : isCollapsed [cnot (0 : Fin 3) 1] [(1, true)] = true := by
    unfold isCollapsed
    rw [decide_eq_true_eq]
    intro q hq
    have : q ≠ 1 := by rintro rfl; revert hq; decide
    simp [isNonPhaseTarget, cnot, this.symm]
  refine Eq.trans (collapse_succ 0 _) ?_
  refine Eq.trans (if_pos h2) ?_
  rfl

/-- **C54, counterexample.** A measurement erases a layer in which only measured qubits are changed, although what it did to
them matters: the network says that qubit 2 is certainly set, and it is certainly not set. -/
theorem collapse_wrong : NoReuse (erased.take 4) (fun _ => False) zeroState ∧
    branch 1 true (direct (erased.take 5) zeroState).1 ≠ 0 ∧
    (∃ n, exec false erased ⟨false, [[]], [], none⟩ = some (n, [1])) ∧ (direct erased zeroState).2 = [0] := by
  have hbr : branch 0 true ((xGate 0).act ((cnot 2 1).act ((aGate (2 : Fin 3)).act zeroState))) ≠ 0 := by
    rw [erased_state]
    intro e
    have := congrFun e ![true, true, true]
    norm_num [at2] at this
  have hbr2 : branch 1 true ((cnot 0 1).act (branch 0 true ((xGate 0).act ((cnot 2 1).act
      ((aGate (2 : Fin 3)).act zeroState))))) ≠ 0 := by
    rw [erased_state, erased_second]
    intro e
    have := congrFun e ![true, true, false]
    norm_num [at2] at this
  have hw : ∀ a b : Fin 3, a ≠ b → (cnot a b).Wf := fun a b h => cnot_wf h
  refine ⟨⟨aGate_wf _, by simp, by simp [aGate], hw _ _ (by decide), by simp, by simp [cnot], xGate_wf _, by simp,
    by simp [xGate], hbr, trivial⟩, hbr2, ?_, ?_⟩
  · unfold erased
    obtain ⟨n1, a1, a2, a3⟩ := append_partial (fresh_good (Q := Fin 3) false) (aGate_wf 2) (clear_single rfl _)
    have s1 := append_length a1
    have l1 : n1.circuit.length = 1 := s1.2 (by simp [layerFor])
    have m1 : n1.meas = [] := s1.1
    obtain ⟨n2, b1, b2, b3⟩ := append_partial a2 (hw 2 1 (by decide)) (clear_single l1 _)
    have s2 := append_length b1
    have m2 : n2.meas = [] := by rw [s2.1, m1]
    have l2 : n2.circuit.length = 1 := by rw [s2.2 (by rw [m1, l1]; simp [layerFor]), l1]
    obtain ⟨n3, c1, c2, c3⟩ := append_partial b2 (xGate_wf 0) (clear_single l2 _)
    have s3 := append_length c1
    have m3 : n3.meas = [] := by rw [s3.1, m2]
    have l3 : n3.circuit.length = 1 := by rw [s3.2 (by rw [m2, l2]; simp [layerFor]), l2]
    obtain ⟨n4, d1, d2, d3⟩ := forceM_partial c2 false (by rw [c3, b3, a3]) (q := 0) (r := true) hbr (measureOk_single l3 _ _)
    obtain ⟨l4, m4⟩ := forceM_single l3 d1
    have m4 : n4.meas = [[(0, true)]] := by rw [m4, m3]; rfl
    obtain ⟨k4, hk4⟩ : ∃ c, n4.circuit = [c] := List.length_eq_one_iff.1 l4
    -- the CNOT
    have lf5 : layerFor ((cnot (0 : Fin 3) 1).target :: (cnot (0 : Fin 3) 1).controls) n4.meas = 1 := by rw [m4]; decide
    obtain ⟨n5, f1, f2, f3⟩ := append_partial d2 (hw 0 1 (by decide)) (clear_single l4 _)
    obtain ⟨k5, f4, _, _, f5⟩ := append_at d2.ok (hw 0 1 (by decide))
    rw [lf5] at f4 f5
    rw [fn_ge (by rw [l4]), appendTo_nil false (cnot_not_identity 0 1), Option.some.injEq] at f5
    subst f5
    rw [hk4] at f4
    simp only [List.length_singleton, if_true] at f4
    rw [f1, Option.some.injEq] at f4
    have k5' : n5.circuit = [k4, [cnot 0 1]] := by rw [f4]; rfl
    have m5 : n5.meas = [[(0, true)]] := by rw [f4]; exact m4
    have st5 : n5.big = false := by rw [f3, d3]
    -- the second measurement
    obtain ⟨ψ, g1, g2, _⟩ := f2.view_all false (S := {1}) (Or.inr st5)
    have hn2 : project [(1, true)] ψ ≠ 0 := (project_par _ g2).symm.ne_zero (by rw [project_branch]; exact hbr2)
    obtain ⟨φ, g3, _⟩ := runMeasurementLayer_par hn2
    have hwalk : walkBack 1 true (n5.circuit.length - 1) (n5.circuit, n5.meas) = some (1, ([k4, [cnot 0 1]], [[(0, true)]])) := by
      rw [k5', m5]
      show walkBack 1 true 1 _ = _
      rw [walkBack, if_pos]
      simp only [List.getElem?_cons_succ, List.getElem?_cons_zero, Option.getD_some, isNonPhaseTarget, List.any_cons, List.any_nil,
        cnot_not_phase]
      simp [cnot]
    have o4 : Ok ([k4], [[((1 : Fin 3), true), (0, true)]]) := by
      have := d2.ok.wf
      rw [hk4] at this
      exact ⟨by simp, by simp, by simp, this, by simp⟩
    have p4 : Par (project [((0 : Fin 3), true)] (run k4 zeroState))
        (branch 0 true ((xGate 0).act ((cnot 2 1).act ((aGate (2 : Fin 3)).act zeroState)))) := by
      have := d2.par
      rw [hk4, m4] at this
      exact this
    have hcomp : ∀ Ψ : St (Fin 3), project [(1, true), (0, true)] Ψ = project [(1, true)] (project [(0, true)] Ψ) := by
      intro Ψ; funext b
      simp only [project_apply, List.mem_cons, List.not_mem_nil, or_false, forall_eq_or_imp, forall_eq]
      by_cases h0 : b 0 = true <;> by_cases h1 : b 1 = true <;> simp [h0, h1]
    have ps : Par (sem ([k4], [[((1 : Fin 3), true), (0, true)]]))
        (branch 1 true (branch 0 true ((xGate 0).act ((cnot 2 1).act ((aGate (2 : Fin 3)).act zeroState))))) := by
      show Par (project [(1, true), (0, true)] (run k4 zeroState)) _
      rw [hcomp, ← project_branch 1]
      exact project_par _ p4
    have hnb : branch 1 true (branch 0 true ((xGate 0).act ((cnot 2 1).act ((aGate (2 : Fin 3)).act zeroState)))) ≠ 0 := by
      rw [erased_state]
      intro e
      have := congrFun e ![true, true, true]
      norm_num [branch, at2] at this
    obtain ⟨L6, h1, h2, h3⟩ := collapse_zero_par o4 (ps.symm.ne_zero hnb)
    have hL6 : L6.1.length = 1 ∧ L6.2 = [[((1 : Fin 3), true), (0, true)]] := by
      rw [collapse] at h1
      split at h1
      · obtain ⟨c, _, rfl⟩ := Option.map_eq_some_iff.1 h1
        exact ⟨rfl, rfl⟩
      · rw [Option.some.injEq] at h1; subst h1; exact ⟨rfl, rfl⟩
    obtain ⟨n6, hn6⟩ : ∃ n, n = ({ n5 with circuit := L6.1, meas := L6.2, stack := some φ } : Net (Fin 3)) := ⟨_, rfl⟩
    have hf6 : n5.forceM false 1 true = some n6 := by
      unfold Net.forceM
      rw [g1]
      simp only [Option.bind_some, g3, hwalk]
      rw [erased_layer, h1, hn6]
      rfl
    -- the last X
    obtain ⟨k6, hk6⟩ : ∃ c, L6.1 = [c] := List.length_eq_one_iff.1 hL6.1
    have k6' : n6.circuit = [k6] := by rw [hn6]; exact hk6
    have m6 : n6.meas = [[(1, true), (0, true)]] := by rw [hn6]; exact hL6.2
    have o6 : Ok (n6.circuit, n6.meas) := by rw [hn6]; exact h2
    have lf7 : layerFor ((xGate (0 : Fin 3)).target :: (xGate (0 : Fin 3)).controls) n6.meas = 1 := by
      rw [m6]; unfold xGate; decide
    obtain ⟨k7, q1, q2, q3, _⟩ := append_at o6 (xGate_wf (0 : Fin 3))
    rw [lf7, k6'] at q1 q3
    simp only [List.length_singleton, if_true] at q1
    obtain ⟨n7, hn7⟩ : ∃ n, n = ({ n6 with circuit := ([k6] ++ [[]]).set 1 k7, stack := none } : Net (Fin 3)) := ⟨_, rfl⟩
    rw [← hn7] at q1
    have k7' : n7.circuit = [k6, k7] := by rw [hn7]; rfl
    have m7 : n7.meas = [[(1, true), (0, true)]] := by rw [hn7]; exact m6
    have o7 : Ok (n7.circuit, n7.meas) := by
      have hw6 := h2.wf
      rw [hk6] at hw6
      rw [m7, k7']
      exact ⟨by simp, by simp, by simp, by simpa using ⟨by simpa using hw6, q2⟩, by simp⟩
    have hpar : Par (sem (n7.circuit, n7.meas)) ((xGate 0).act (branch 1 true (branch 0 true ((xGate 0).act ((cnot 2 1).act
        ((aGate (2 : Fin 3)).act zeroState)))))) := by
      rw [m7, k7']
      show Par (project [] (run k7 (project [(1, true), (0, true)] (run k6 zeroState)))) _
      rw [project_nil]
      refine (rayEq_par q3 _).trans (act_par (xGate 0) ?_)
      have : sem L6 = project [(1, true), (0, true)] (run k6 zeroState) := by
        unfold sem
        rw [hL6.1, hL6.2, hk6]
        rfl
      rw [← this]
      exact h3.trans ps
    rw [erased_state, erased_network] at hpar
    have hg : Good n7 _ := Good.of_par o7 (by rw [hn7]) (by
      intro e
      have := congrFun e ![false, true, true]
      norm_num [at2] at this) hpar
    obtain ⟨n8, r1, _⟩ := prob_direct hg false (by rw [hn7, hn6]; exact st5) 2
    refine ⟨n8, ?_⟩
    have hborn : born (fun b : Fin 3 → Bool => if !b 0 && b 1 && b 2 then (4 / 5 : ℂ) else 0) 2 = 1 := by
      unfold born; rw [sum3, sum3]; norm_num [at2]
    rw [hborn] at r1
    simp only [exec, a1, b1, c1, d1, f1, hf6, q1, r1, Option.bind_some, Option.map_some]
  · unfold erased
    simp only [direct]
    have : ∀ (g : Gate (Fin 3)) Φ, multiplex g.target g.controls g.payloads.get Φ = g.act Φ := fun _ _ => rfl
    simp only [this]
    rw [erased_state, erased_second, erased_direct]
    have hborn : born (fun b : Fin 3 → Bool => if !b 0 && b 1 && !b 2 then (3 / 5 : ℂ) else 0) 2 = 0 := by
      unfold born; rw [sum3, sum3]; norm_num [at2]
    rw [hborn]

/-! ## A light cone without what was measured -/

/-- X on 0, 0 found to be 1, the probability of 1. -/
noncomputable def coneMeasured : List (Cmd (Fin 2)) := [.gate (xGate 0), .meas 0 true, .prob 1]

/-- **C54, counterexample.** A large network leaves the gates on measured qubits outside the light cone out, but forces their
results: reading any other qubit after `X` and `M` of qubit 0 throws. -/
theorem coneMeasured_wrong : NoReuse coneMeasured (fun _ => False) zeroState ∧
    exec false coneMeasured ⟨true, [[]], [], none⟩ = none ∧ (direct coneMeasured zeroState).2 = [0] := by
  have hs : branch 0 true ((xGate (0 : Fin 2)).act zeroState) = fun b => if b 0 && !b 1 then 1 else 0 := by
    funext b
    cases h0 : b 0 <;> cases h1 : b 1 <;> simp [branch, xGate_act, zeroState, Fin.forall_fin_two, h0, h1]
  have hbr : branch 0 true ((xGate (0 : Fin 2)).act zeroState) ≠ 0 := by
    rw [hs]
    intro e
    have := congrFun e ![true, false]
    norm_num at this
  refine ⟨⟨xGate_wf _, by simp, by simp [xGate], hbr, trivial⟩, ?_, ?_⟩
  · unfold coneMeasured
    have a1 : Net.append (⟨true, [[]], [], none⟩ : Net (Fin 2)) (xGate 0) = some ⟨true, [[xGate 0]], [], none⟩ := by
      show Option.map _ (appendTo false [] (xGate 0)) = _
      rw [appendTo_nil false (xGate_not_identity 0)]
      rfl
    have hx : run [xGate (0 : Fin 2)] zeroState = fun b => if b 0 && !b 1 then (1 : ℂ) else 0 := by
      funext b
      show (xGate 0).act zeroState b = _
      cases h0 : b 0 <;> cases h1 : b 1 <;> simp [xGate_act, zeroState, Fin.forall_fin_two, h0, h1]
    obtain ⟨n0, a2, a3, _⟩ := append_partial (fresh_good (Q := Fin 2) true) (xGate_wf 0) (clear_single rfl _)
    rw [a1, Option.some.injEq] at a2
    subst a2
    obtain ⟨n1, b1, b2, b3⟩ := first_forceM (q := 0) (r := true) a3 rfl false hbr
    have hcol : isCollapsed [xGate (0 : Fin 2)] [(0, true)] = true := by
      unfold isCollapsed
      rw [decide_eq_true_eq]
      intro q hq
      have : q ≠ 0 := by rintro rfl; revert hq; decide
      simp [isNonPhaseTarget, xGate, this.symm]
    have hn1 : n1 = ⟨true, [[xGate 0]], [[(0, true)]], none⟩ := by
      unfold Net.forceM at b1
      obtain ⟨v, v1, b1⟩ := Option.bind_eq_some_iff.1 b1
      have hv2 : v.2 = false := by
        unfold view at v1
        simp only [Finset.singleton_ne_empty, decide_false, Bool.not_true, Bool.or_self] at v1
        obtain ⟨x, _, rfl⟩ := Option.map_eq_some_iff.1 v1
        rfl
      obtain ⟨ψ, _, b1⟩ := Option.bind_eq_some_iff.1 b1
      have hw : walkBack (0 : Fin 2) true (1 - 1) ([[xGate 0]], []) = some (0, ([[xGate 0]], [])) := rfl
      have hw' : (walkBack (0 : Fin 2) true (([[xGate 0]] : List (List (Gate (Fin 2)))).length - 1)
        ([[xGate 0]], ([] : List (Meas (Fin 2))))) = some (0, ([[xGate 0]], [])) := hw
      simp only [hw', Option.bind_some] at b1
      have hc : collapse 0 (insertMeas (0 : Fin 2) true 0 ([[xGate 0]], [])) = some ([[xGate 0]], [[(0, true)]]) := by
        have h1 : insertMeas (0 : Fin 2) true 0 ([[xGate 0]], []) = ([[xGate 0]], [[(0, true)]]) := rfl
        rw [h1, collapse]
        show (if isCollapsed [xGate (0 : Fin 2)] [(0, true)] = true then _ else _) = _
        rw [if_pos hcol]
        show Option.map _ ((appendTo false [] (xGate 0)).bind _) = _
        rw [appendTo_nil false (xGate_not_identity 0)]
        rfl
      rw [hc, Option.map_some, Option.some.injEq, hv2] at b1
      rw [← b1]; rfl
    have hp : Net.prob false (⟨true, [[xGate 0]], [[(0, true)]], none⟩ : Net (Fin 2)) 1 = none := by
      unfold Net.prob view
      simp only [Finset.singleton_ne_empty, decide_false, Bool.not_true, Bool.or_self, Bool.false_eq_true, if_false]
      unfold makeLayers
      rw [if_neg (Finset.singleton_ne_empty _)]
      have hcone : coneLayers false [[((0 : Fin 2), true)]] [[xGate 0]].reverse {1} [] = some [[]] := by
        rw [List.reverse_singleton, coneLayers]
        refine Eq.trans (if_neg (by decide)) ?_
        show some [pastLightCone [xGate 0] (({1} : Finset (Fin 2)) \ {0})] = _
        have : pastLightCone [xGate 0] (({1} : Finset (Fin 2)) \ {0}) = [] := by
          simp [pastLightCone, lightConeLoop, xGate]
        rw [this]
      rw [hcone]
      show Option.map _ (Option.map _ ((runCircuit [] zeroState).bind fun φ => (runMeasurementLayer [((0 : Fin 2), true)] φ).bind _)) = none
      rw [runCircuit_run (by simp)]
      have hz : project [((0 : Fin 2), true)] (run [] zeroState) = 0 := by
        funext b
        rw [run_nil]
        cases h0 : b 0 <;> simp [project, zeroState, Fin.forall_fin_two, h0]
      simp only [Option.bind_some]
      unfold runMeasurementLayer
      rw [if_pos hz]
      rfl
    simp only [exec, a1, b1, Option.bind_some]
    rw [hn1, hp]
    rfl
  · unfold coneMeasured
    simp only [direct]
    have : ∀ (g : Gate (Fin 2)) Φ, multiplex g.target g.controls g.payloads.get Φ = g.act Φ := fun _ _ => rfl
    simp only [this]
    rw [hs]
    have hborn : born (fun b : Fin 2 → Bool => if b 0 && !b 1 then (1 : ℂ) else 0) 1 = 0 := by
      unfold born; rw [sum2, sum2]; norm_num
    rw [hborn]

/-! ## Histories that meet the conditions -/

/-- A Bell-like pair, a measurement, two reads: the history of `history_terminal`, with what is read. -/
theorem pair_state : branch 1 true ((cnot 0 1).act ((aGate (0 : Fin 2)).act zeroState)) =
    fun b => if b 0 && b 1 then 4 / 5 else 0 := by
  funext b
  cases h0 : b 0 <;> cases h1 : b 1 <;>
    simp [branch, aGate_act, cnot_act, zeroState, Fin.forall_fin_two, h0, h1]

theorem pair_ne : branch 1 true ((cnot 0 1).act ((aGate (0 : Fin 2)).act zeroState)) ≠ 0 := by
  rw [pair_state]
  intro e
  have := congrFun e ![true, true]
  norm_num at this

example : ∃ n, exec false [.gate (aGate (0 : Fin 2)), .gate (cnot 0 1), .meas 1 true, .prob 0, .amp ![true, true]]
    ⟨false, [[]], [], none⟩ = some (n, [1, 1]) := by
  obtain ⟨n, h, _⟩ := history_terminal false
    [.gate (aGate (0 : Fin 2)), .gate (cnot 0 1), .meas 1 true, .prob 0, .amp ![true, true]]
    ⟨aGate_wf _, by simp, by simp [aGate], cnot_wf (by decide), by simp, by simp [cnot], pair_ne, trivial⟩
  refine ⟨n, ?_⟩
  rw [h]
  simp only [direct]
  have : ∀ (g : Gate (Fin 2)) Φ, multiplex g.target g.controls g.payloads.get Φ = g.act Φ := fun _ _ => rfl
  simp only [this]
  rw [pair_state]
  have h1 : born (fun b : Fin 2 → Bool => if b 0 && b 1 then (4 / 5 : ℂ) else 0) 0 = 1 := by
    unfold born; rw [sum2, sum2]; norm_num
  have h2 : weight (fun b : Fin 2 → Bool => if b 0 && b 1 then (4 / 5 : ℂ) else 0) ![true, true] = 1 := by
    unfold weight; rw [sum2]; norm_num
  rw [h1, h2]

/-- A large network without measurements. -/
example : ∃ n, exec true [.gate (aGate (0 : Fin 2)), .gate (cnot 0 1), .prob 1] ⟨true, [[]], [], none⟩ = some (n, [16 / 25]) := by
  obtain ⟨n, h, _⟩ := history_unmeasured true true [.gate (aGate (0 : Fin 2)), .gate (cnot 0 1), .prob 1]
    ⟨aGate_wf _, cnot_wf (by decide), trivial⟩
  refine ⟨n, ?_⟩
  rw [h]
  simp only [direct]
  have : ∀ (g : Gate (Fin 2)) Φ, multiplex g.target g.controls g.payloads.get Φ = g.act Φ := fun _ _ => rfl
  simp only [this]
  have hs : (cnot 0 1).act ((aGate (0 : Fin 2)).act zeroState) =
      fun b => if b 0 && b 1 then 4 / 5 else if !b 0 && !b 1 then 3 / 5 else 0 := by
    funext b
    cases h0 : b 0 <;> cases h1 : b 1 <;> simp [aGate_act, cnot_act, zeroState, Fin.forall_fin_two, h0, h1]
  rw [hs]
  have h1 : born (fun b : Fin 2 → Bool => if b 0 && b 1 then (4 / 5 : ℂ) else if !b 0 && !b 1 then 3 / 5 else 0) 1 = 16 / 25 := by
    unfold born; rw [sum2, sum2]; norm_num
  rw [h1]

/-- A measured qubit that is used again and measured again, so that a layer is erased: the history of `history_partial`. -/
theorem again_fine : Fine false [.gate (aGate (0 : Fin 2)), .gate (cnot 0 1), .meas 1 true, .gate (aGate 1), .meas 1 false, .prob 0]
    ⟨false, [[]], [], none⟩ zeroState := by
  have f0 := fresh_good (Q := Fin 2) false
  refine ⟨aGate_wf _, clear_single rfl _, fun n1 a1 => ?_⟩
  have s1 := append_length a1
  have m1 : n1.meas = [] := s1.1
  have l1 : n1.circuit.length = 1 := s1.2 (by simp [layerFor])
  obtain ⟨_, a2, a3, a4⟩ := append_partial f0 (aGate_wf 0) (clear_single rfl _)
  rw [a1, Option.some.injEq] at a2; subst a2
  refine ⟨cnot_wf (by decide), clear_single l1 _, fun n2 b1 => ?_⟩
  have s2 := append_length b1
  have m2 : n2.meas = [] := by rw [s2.1, m1]
  have l2 : n2.circuit.length = 1 := by rw [s2.2 (by rw [m1, l1]; simp [layerFor]), l1]
  obtain ⟨_, b2, b3, b4⟩ := append_partial a3 (cnot_wf (c := (0 : Fin 2)) (t := 1) (by decide)) (clear_single l1 _)
  rw [b1, Option.some.injEq] at b2; subst b2
  refine ⟨pair_ne, measureOk_single l2 _ _, fun n3 c1 => ?_⟩
  obtain ⟨l3, m3⟩ := forceM_single l2 c1
  have m3 : n3.meas = [[(1, true)]] := by rw [m3, m2]; rfl
  obtain ⟨_, c2, c3, c4⟩ := forceM_partial b3 false (by rw [b4, a4]) (q := 1) (r := true) pair_ne (measureOk_single l2 _ _)
  rw [c1, Option.some.injEq] at c2; subst c2
  obtain ⟨k3, hk3⟩ : ∃ c, n3.circuit = [c] := List.length_eq_one_iff.1 l3
  refine ⟨aGate_wf _, clear_single l3 _, fun n4 d1 => ?_⟩
  have lf : layerFor ((aGate (1 : Fin 2)).target :: (aGate (1 : Fin 2)).controls) n3.meas = 1 := by
    rw [m3]; unfold aGate; decide
  obtain ⟨k4, d4, _, _, d5⟩ := append_at c3.ok (aGate_wf (1 : Fin 2))
  rw [lf] at d4 d5
  rw [fn_ge (by rw [l3]), appendTo_nil false (aGate_not_identity 1), Option.some.injEq] at d5
  subst d5
  rw [hk3] at d4
  simp only [List.length_singleton, if_true] at d4
  rw [d1, Option.some.injEq] at d4
  have k4' : n4.circuit = [k3, [aGate 1]] := by rw [d4]; rfl
  have m4 : n4.meas = [[(1, true)]] := by rw [d4]; exact m3
  have hnp : isNonPhaseTarget [aGate (1 : Fin 2)] 1 = true := by
    simp only [isNonPhaseTarget, List.any_cons, List.any_nil, aGate_not_phase]
    simp [aGate]
  refine ⟨?_, ⟨?_, ?_⟩, fun _ _ _ _ _ => trivial⟩
  · have : ∀ (g : Gate (Fin 2)) Φ, multiplex g.target g.controls g.payloads.get Φ = g.act Φ := fun _ _ => rfl
    simp only [this]
    rw [pair_state]
    intro e
    have := congrFun e ![true, false]
    norm_num [branch, aGate_act] at this
  · intro i hi hn
    rw [k4'] at hn ⊢
    match i, hi with
    | 1, _ =>
      have hn : isNonPhaseTarget [aGate (1 : Fin 2)] 1 = false := hn
      rw [hnp] at hn; cases hn
    | i + 2, _ =>
      rw [fn_ge (by simp)]
      refine ⟨by simp, fun g hg => ?_⟩
      cases hg
  · intro k L e
    rw [k4', m4] at e
    have e : walkBack (1 : Fin 2) false 1 ([k3, [aGate 1]], [[(1, true)]]) = some (k, L) := e
    rw [walkBack] at e
    have e := (if_pos (show isNonPhaseTarget [aGate (1 : Fin 2)] 1 = true from hnp)).symm.trans e
    rw [Option.some.injEq, Prod.mk.injEq] at e
    obtain ⟨rfl, rfl⟩ := e
    intro _
    refine ⟨fun g hg => ?_, fun c _ => trivial⟩
    have hg : g ∈ [aGate (1 : Fin 2)] := hg
    rw [List.mem_singleton.1 hg]
    exact ⟨rfl, by simp [aGate]⟩

example : ∃ n, exec false [.gate (aGate (0 : Fin 2)), .gate (cnot 0 1), .meas 1 true, .gate (aGate 1), .meas 1 false, .prob 0]
    ⟨false, [[]], [], none⟩ = some (n, [1]) := by
  obtain ⟨n, h, _⟩ := history_partial false _ (fresh_good false) rfl again_fine
  refine ⟨n, ?_⟩
  rw [h]
  simp only [direct]
  have : ∀ (g : Gate (Fin 2)) Φ, multiplex g.target g.controls g.payloads.get Φ = g.act Φ := fun _ _ => rfl
  simp only [this]
  rw [pair_state]
  have h1 : branch 1 false ((aGate 1).act fun b : Fin 2 → Bool => if b 0 && b 1 then (4 / 5 : ℂ) else 0) =
      fun b => if b 0 && !b 1 then 16 / 25 else 0 := by
    funext b
    cases h0 : b 0 <;> cases h1 : b 1 <;> simp [branch, aGate_act, h0, h1]
    norm_num
  rw [h1]
  have h2 : born (fun b : Fin 2 → Bool => if b 0 && !b 1 then (16 / 25 : ℂ) else 0) 0 = 1 := by
    unfold born; rw [sum2, sum2]; norm_num
  rw [h2]

/-- `SetPermutation` on three qubits. -/
example : ∃ n Φ, setPermutation false [(2 : Fin 3), 0] = some n ∧ n.meas = [] ∧ Good n Φ ∧ Φ ![true, false, true] = 1 := by
  obtain ⟨n, e1, e2, e3⟩ := setPermutation_direct false [(2 : Fin 3), 0] (by decide)
  exact ⟨n, _, e1, e2, e3, if_pos (by decide)⟩

/-- A first measurement of a large network. -/
example : ∃ n n', Net.appendAll (⟨true, [[]], [], none⟩ : Net (Fin 2)) [aGate 0, cnot 0 1] = some n ∧ n.forceM true 1 true = some n' ∧
    Good n' (branch 1 true ((cnot 0 1).act ((aGate (0 : Fin 2)).act zeroState))) := by
  obtain ⟨n, e1, _, e3, e4⟩ := gates_direct true [aGate (0 : Fin 2), cnot 0 1]
    (by intro g hg; simp only [List.mem_cons, List.not_mem_nil, or_false] at hg
        rcases hg with rfl | rfl
        · exact aGate_wf _
        · exact cnot_wf (by decide))
  obtain ⟨n', f1, f2, _⟩ := first_forceM (q := 1) (r := true) e4 e3 true pair_ne
  exact ⟨n, n', e1, f1, f2⟩

end Verif.TN
