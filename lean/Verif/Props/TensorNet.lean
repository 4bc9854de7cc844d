import Verif.Lemmas.TensorNetView
import Mathlib.Data.Fintype.BigOperators
import Mathlib.Tactic.FinCases

/-!
# C54: deferred circuits give the results of direct execution

A command is a gate, a measurement with its result, a probability that is read or an amplitude that is read. `direct` carries the
commands out at once on a state (not normalised after measurements); the probabilities read from it are those of the Born rule.
-/

namespace Verif.TN

open Verif.Matrix2 Verif.Spec.Circuit Verif.QCirc

variable {Q : Type} [LinearOrder Q] [Fintype Q]

/-! ## Specification -/

/-- What a caller can ask for. -/
inductive Cmd (Q : Type) where
  | gate (g : Gate Q)
  | meas (q : Q) (r : Bool)
  | prob (q : Q)
  | amp (b : Q → Bool)

/-- The probability of finding `q` set. -/
noncomputable def born (Φ : St Q) (q : Q) : ℝ := (∑ b, if b q = true then ‖Φ b‖ ^ 2 else 0) / ∑ b, ‖Φ b‖ ^ 2

/-- The probability of the basis state `b`. -/
noncomputable def weight (Φ : St Q) (b : Q → Bool) : ℝ := ‖Φ b‖ ^ 2 / ∑ b, ‖Φ b‖ ^ 2

/-- The branch in which `q` was found to be `r`. -/
def branch (q : Q) (r : Bool) (Φ : St Q) : St Q := fun b => if b q = r then Φ b else 0

/-- The commands carried out one by one: the final state and the values read. -/
noncomputable def direct : List (Cmd Q) → St Q → St Q × List ℝ
  | [], Φ => (Φ, [])
  | .gate g :: cs, Φ => direct cs (multiplex g.target g.controls g.payloads.get Φ)
  | .meas q r :: cs, Φ => direct cs (branch q r Φ)
  | .prob q :: cs, Φ => ((direct cs Φ).1, born Φ q :: (direct cs Φ).2)
  | .amp b :: cs, Φ => ((direct cs Φ).1, weight Φ b :: (direct cs Φ).2)

/-- The commands carried out by the network. -/
noncomputable def exec (cl : Bool) : List (Cmd Q) → Net Q → Option (Net Q × List ℝ)
  | [], net => some (net, [])
  | .gate g :: cs, net => (net.append g).bind (exec cl cs)
  | .meas q r :: cs, net => (net.forceM cl q r).bind (exec cl cs)
  | .prob q :: cs, net => (net.prob cl q).bind fun x => (exec cl cs x.2).map fun y => (y.1, x.1 :: y.2)
  | .amp b :: cs, net => (net.amplitude cl b).bind fun x => (exec cl cs x.2).map fun y => (y.1, ‖x.1‖ ^ 2 :: y.2)

/-! ## Reading -/

theorem project_branch (q : Q) (r : Bool) (Φ : St Q) : project [(q, r)] Φ = branch q r Φ := by
  funext b; simp [project, branch]

theorem born_eq (Φ : St Q) (q : Q) : normSq (project [(q, true)] Φ) / normSq Φ = born Φ q := by
  unfold born normSq
  congr 1
  refine Finset.sum_congr rfl fun b _ => ?_
  rw [project_branch, branch]
  split <;> simp

theorem born_par {Φ Ψ : St Q} (h : Par Φ Ψ) (q : Q) : born Φ q = born Ψ q := by
  obtain ⟨z, hz, rfl⟩ := h
  rw [← born_eq, ← born_eq, project_smul, normSq_smul, normSq_smul, mul_div_mul_left]
  exact pow_ne_zero _ (norm_ne_zero_iff.2 hz)

theorem weight_par {Φ Ψ : St Q} (h : Par Φ Ψ) (b : Q → Bool) : weight Φ b = weight Ψ b := by
  have key : ∀ Φ : St Q, weight Φ b = ‖Φ b‖ ^ 2 / normSq Φ := fun _ => rfl
  obtain ⟨z, hz, rfl⟩ := h
  rw [key, key, normSq_smul, norm_mul, mul_pow, mul_div_mul_left]
  exact pow_ne_zero _ (norm_ne_zero_iff.2 hz)

/-- **C54.** A small network gives the probability of direct execution. -/
theorem prob_direct {net : Net Q} {Φ : St Q} (h : Good net Φ) (cl : Bool) (hb : net.big = false) (q : Q) :
    ∃ n, net.prob cl q = some (born Φ q, n) ∧ Good n Φ ∧ n.big = false ∧ n.circuit = net.circuit ∧ n.meas = net.meas := by
  obtain ⟨ψ, e1, e2, e3⟩ := h.view_all cl (S := {q}) (Or.inr hb)
  unfold Net.prob
  rw [e1]
  refine ⟨{ net with stack := some ψ }, ?_, ⟨h.ok, h.ne, h.par, ?_⟩, hb, rfl, rfl⟩
  · rw [Option.map_some, born_eq, born_par e2]; rfl
  · intro χ hχ
    simp only [Option.some.injEq] at hχ
    subst hχ
    exact ⟨e2, e3⟩

/-- **C54.** Amplitudes, whatever the size of the network. -/
theorem amplitude_direct {net : Net Q} {Φ : St Q} (h : Good net Φ) (cl : Bool) (b : Q → Bool) :
    ∃ z n, net.amplitude cl b = some (z, n) ∧ ‖z‖ ^ 2 = weight Φ b ∧ Good n Φ ∧ n.big = net.big ∧ n.circuit = net.circuit ∧
      n.meas = net.meas := by
  obtain ⟨ψ, e1, e2, e3⟩ := h.view_all cl (S := ∅) (Or.inl rfl)
  unfold Net.amplitude
  rw [e1]
  refine ⟨ψ b, { net with stack := some ψ }, rfl, ?_, ⟨h.ok, h.ne, h.par, ?_⟩, rfl, rfl, rfl⟩
  · rw [← weight_par e2]
    have : weight ψ b = ‖ψ b‖ ^ 2 / normSq ψ := rfl
    rw [this, e3, div_one]
  · intro χ hχ
    simp only [Option.some.injEq] at hχ
    subst hχ
    exact ⟨e2, e3⟩

/-! ## Gates -/

/-- **C54**, a gate. The network afterwards holds the state after the gate, if no later layer touches the qubits of the gate.

Full statement: for every gate. It fails, see `lateGate_wrong`: the layer is chosen by looking at the measurements alone. -/
theorem append_partial {net : Net Q} {Φ : St Q} (h : Good net Φ) {g : Gate Q} (hg : g.Wf) (hc : Clear net g) :
    ∃ n, net.append g = some n ∧ Good n (multiplex g.target g.controls g.payloads.get Φ) ∧ n.big = net.big := by
  obtain ⟨n, e1, e2, e3, e4, e5⟩ := append_par h.ok hg hc
  have hne : g.act Φ ≠ 0 := by
    intro e
    have h1 := normSq_act hg Φ
    rw [e] at h1
    have h2 := normSq_pos h.ne
    rw [← h1] at h2
    simp [normSq] at h2
  refine ⟨n, e1, ⟨e4, hne, e5.trans (act_par g h.par), ?_⟩, e3⟩
  intro ψ hψ
  rw [e2] at hψ; cases hψ

/-- The network that a constructor leaves: all qubits in `|0⟩`. -/
theorem fresh_good (big : Bool) : Good (⟨big, [[]], [], none⟩ : Net Q) zeroState := by
  refine ⟨⟨by simp, by simp, by simp, by simp, by simp⟩, zeroState_ne, Par.of_eq ?_, by simp⟩
  unfold sem
  simp only [List.length_singleton, lay]
  rw [show fn ([[]] : List (List (Gate Q))) 0 = [] from rfl, show fn ([] : List (Meas Q)) 0 = [] from rfl, project_nil, run_nil]

theorem append_length {net n : Net Q} {g : Gate Q} (h : net.append g = some n) :
    n.meas = net.meas ∧ (layerFor (g.target :: g.controls) net.meas < net.circuit.length →
      n.circuit.length = net.circuit.length) := by
  unfold Net.append at h
  simp only [] at h
  split at h
  · cases h
  · obtain ⟨c, _, rfl⟩ := Option.map_eq_some_iff.1 h
    refine ⟨rfl, fun hl => ?_⟩
    rw [List.length_set, if_neg (by omega)]

theorem layerFor_zero {qs : List Q} {ms : List (Meas Q)} (h : ∀ m ∈ ms, ∀ q ∈ qs, m.has q = false) : layerFor qs ms = 0 := by
  induction ms with
  | nil => rfl
  | cons m ms ih =>
    rw [layerFor, ih fun x hx => h x (List.mem_cons_of_mem _ hx)]
    simp only [ne_eq, not_true_eq_false, if_false]
    rw [if_neg]
    simp only [List.any_eq_true, not_exists, not_and, Bool.not_eq_true]
    exact h m (by simp)

theorem clear_single {net : Net Q} (h : net.circuit.length = 1) (g : Gate Q) : Clear net g := by
  intro i hi x hx
  rw [fn_ge (by omega)] at hx; cases hx

/-- **C54.** Gates only: a network of any size holds the state of direct execution. -/
theorem gates_direct (big : Bool) (gs : List (Gate Q)) (hg : ∀ g ∈ gs, g.Wf) :
    ∃ n, Net.appendAll ⟨big, [[]], [], none⟩ gs = some n ∧ n.big = big ∧ n.meas = [] ∧
      Good n (gs.foldl (fun Φ g => multiplex g.target g.controls g.payloads.get Φ) zeroState) := by
  have key : ∀ (gs : List (Gate Q)) (net : Net Q) (Φ : St Q), (∀ g ∈ gs, g.Wf) → Good net Φ → net.circuit.length = 1 →
      net.meas = [] → ∃ n, net.appendAll gs = some n ∧ n.big = net.big ∧ n.meas = [] ∧
      Good n (gs.foldl (fun Φ g => multiplex g.target g.controls g.payloads.get Φ) Φ) := by
    intro gs
    induction gs with
    | nil => intro net Φ _ h _ hm; exact ⟨net, rfl, rfl, hm, h⟩
    | cons g gs ih =>
      intro net Φ hg h hl hm
      obtain ⟨n, e1, e2, e3⟩ := append_partial h (hg g (by simp)) (clear_single hl g)
      have hlen := append_length e1
      obtain ⟨n', f1, f2, f3, f4⟩ := ih n _ (fun x hx => hg x (List.mem_cons_of_mem _ hx)) e2
        (by rw [hlen.2 (by rw [hm]; simp [layerFor, hl]), hl]) (by rw [hlen.1, hm])
      exact ⟨n', by rw [Net.appendAll, e1]; exact f1, by rw [f2, e3], f3, f4⟩
  exact key gs _ _ hg (fresh_good big) rfl rfl

/-- **C54.** `SetPermutation`: every qubit of the list is set, the others are not. -/
theorem setPermutation_direct (big : Bool) (ones : List Q) (h : ones.Nodup) :
    ∃ n, setPermutation big ones = some n ∧ n.meas = [] ∧ Good n (fun b => if ∀ q, b q = decide (q ∈ ones) then 1 else 0) := by
  obtain ⟨n, e1, _, e3, e4⟩ := gates_direct big (ones.map xGate)
    (by intro g hg; obtain ⟨q, _, rfl⟩ := List.mem_map.1 hg; exact xGate_wf q)
  refine ⟨n, e1, e3, ?_⟩
  have : (ones.map xGate).foldl (fun Φ g => multiplex g.target g.controls g.payloads.get Φ) zeroState =
      run (ones.map xGate) zeroState := rfl
  rw [this] at e4
  have hs : run (ones.map xGate) zeroState = fun b => if ∀ q, b q = decide (q ∈ ones) then (1 : ℂ) else 0 := by
    funext b
    rw [run_xGates _ h]
    unfold zeroState
    refine if_congr (forall_congr' fun q => ?_) rfl rfl
    cases hb : b q <;> by_cases hq : q ∈ ones <;> simp [hq, hb]
  rwa [hs] at e4

/-- The reads of one qubit in a large network without measurements go through its light cone. -/
theorem Good.view_cone {net : Net Q} {Φ : St Q} (h : Good net Φ) (hm : net.meas = []) (cl : Bool) (q : Q) :
    ∃ v, view cl net {q} = some v ∧ (v.2 = true → Par v.1 Φ ∧ normSq v.1 = 1) ∧
      ∀ r, normSq (project [(q, r)] v.1) / normSq v.1 = normSq (project [(q, r)] Φ) / normSq Φ := by
  have hratio : ∀ {ψ : St Q} r, Par ψ Φ →
      normSq (project [(q, r)] ψ) / normSq ψ = normSq (project [(q, r)] Φ) / normSq Φ := by
    rintro ψ r ⟨z, hz, rfl⟩
    rw [project_smul, normSq_smul, normSq_smul, mul_div_mul_left]
    exact pow_ne_zero _ (norm_ne_zero_iff.2 hz)
  cases hb : net.big with
  | false =>
    obtain ⟨ψ, e1, e2, e3⟩ := h.view_all cl (S := {q}) (Or.inr hb)
    exact ⟨_, e1, fun _ => ⟨e2, e3⟩, fun r => hratio r e2⟩
  | true =>
    unfold view
    simp only [hb, Finset.singleton_ne_empty, decide_false, Bool.not_true, Bool.or_self, Bool.false_eq_true, if_false]
    cases hst : net.stack with
    | some ψ => exact ⟨(ψ, false), rfl, (fun e => by cases e), fun r => hratio r (h.cache ψ hst).1⟩
    | none =>
      have hpos := h.ok.pos
      have hge := h.ok.ge
      simp only [hm, List.length_nil] at hpos hge
      obtain ⟨c, hc⟩ : ∃ c, net.circuit = [c] := by
        match hcc : net.circuit with
        | [] => rw [hcc] at hpos; simp at hpos
        | [c] => exact ⟨c, rfl⟩
        | _ :: _ :: _ => rw [hcc] at hge; simp at hge
      have hwf : ∀ g ∈ c, g.Wf := h.ok.wf c (by rw [hc]; simp)
      have hcone : ∀ g ∈ pastLightCone c {q}, g.Wf := fun g hg => hwf g (by
        have := lightCone_subset c.reverse {q} g hg
        simpa using this)
      unfold makeLayers
      rw [if_neg (Finset.singleton_ne_empty q), hm, hc]
      simp only [List.reverse_singleton, coneLayers, List.getElem?_nil, Option.getD_none, List.map_nil, List.toFinset_nil,
        Finset.sdiff_empty, Finset.singleton_ne_empty, if_false, Option.bind_some, List.drop_nil, runLayers,
        runCircuit_run hcone, Option.map_some]
      refine ⟨_, rfl, (fun e => by cases e), fun r => ?_⟩
      -- the whole circuit
      have hΦ : Par (run c zeroState) Φ := by
        have := h.par
        unfold sem at this
        rw [hc, hm] at this
        simp only [List.length_singleton, lay] at this
        rwa [show fn ([] : List (Meas Q)) 0 = [] from rfl, project_nil] at this
      rw [← hratio r hΦ]
      have hpr : ∀ ψ : St Q, normSq (project [(q, r)] ψ) = probOf {q} ψ (fun _ => r) := by
        intro ψ
        unfold normSq probOf
        refine Finset.sum_congr rfl fun b _ => ?_
        rw [project_branch, branch]
        simp only [Finset.mem_singleton, forall_eq]
        split <;> simp [Complex.normSq_eq_norm_sq]
      simp only [hpr]
      obtain ⟨ops, cone, f1, f2, f3⟩ := pastLightCone_prob c (fun g hg => Or.inl (hwf g hg)) {q}
      obtain ⟨ops', g1, g2, _⟩ := runOps_act c hwf
      obtain ⟨cone', k1, k2, _⟩ := runOps_act (pastLightCone c {q}) hcone
      have hops : ops = ops' := Option.some.inj (f1.symm.trans g1)
      have hcon : cone = cone' := Option.some.inj (f2.symm.trans k1)
      subst hops hcon
      have := f3 zeroState (fun _ => r)
      rw [g2, k2] at this
      rw [this, normSq_run _ hwf, normSq_run _ hcone]

/-- **C54.** A network of any size without measurements: the probability that its light cone gives is that of direct execution. -/
theorem prob_cone {net : Net Q} {Φ : St Q} (h : Good net Φ) (hm : net.meas = []) (cl : Bool) (q : Q) :
    ∃ n, net.prob cl q = some (born Φ q, n) ∧ Good n Φ ∧ n.big = net.big ∧ n.circuit = net.circuit ∧ n.meas = [] := by
  obtain ⟨v, e1, e2, e3⟩ := h.view_cone hm cl q
  unfold Net.prob
  rw [e1]
  refine ⟨{ net with stack := if v.2 then some v.1 else none }, ?_, ⟨h.ok, h.ne, h.par, ?_⟩, rfl, rfl, hm⟩
  · rw [Option.map_some, e3, born_eq]
  · intro χ hχ
    cases hv : v.2 with
    | false => rw [hv] at hχ; cases hχ
    | true =>
      rw [hv] at hχ
      simp only [if_true, Option.some.injEq] at hχ
      subst hχ
      exact e2 hv

/-! ## Measurements -/

/-- What a measurement of `q` with result `r` needs of the layers: circuits that it passes do not control a phase on `q` and keep
their payloads, and circuits that it erases act only on qubits measured just before. -/
def MeasureOk (net : Net Q) (q : Q) (r : Bool) : Prop :=
  (∀ i, 0 < i → isNonPhaseTarget (fn net.circuit i) q = false → DeleteOk q r (fn net.circuit i)) ∧
  ∀ k L, walkBack q r (net.circuit.length - 1) (net.circuit, net.meas) = some (k, L) → CollapseOk k (insertMeas q r k L)

/-- **C54**, a measurement: the network afterwards holds the branch that was found.

Full statement: without `MeasureOk`. It fails, see `collapse_wrong`. -/
theorem forceM_partial {net : Net Q} {Φ : St Q} (h : Good net Φ) (cl : Bool) (hb : net.big = false) {q : Q} {r : Bool}
    (hr : branch q r Φ ≠ 0) (hok : MeasureOk net q r) :
    ∃ n, net.forceM cl q r = some n ∧ Good n (branch q r Φ) ∧ n.big = false := by
  obtain ⟨ψ, e1, e2, _⟩ := h.view_all cl (S := {q}) (Or.inr hb)
  rw [← project_branch] at hr ⊢
  obtain ⟨n, f1, f2, f3⟩ := h.forceM cl hr e1 ((project_par _ e2).symm.ne_zero hr) (fun _ => e2) hok.1 hok.2
  exact ⟨n, f1, f2, by rw [f3, hb]⟩

/-- With one circuit there is nothing to pass and nothing to erase. -/
theorem measureOk_single {net : Net Q} (h : net.circuit.length = 1) (q : Q) (r : Bool) : MeasureOk net q r := by
  refine ⟨fun i hi _ => ?_, fun k L e => ?_⟩
  · rw [fn_ge (by omega)]
    refine ⟨by simp, ?_⟩
    intro g hg
    cases hg
  · rw [h, Nat.sub_self, walkBack, Option.some.injEq, Prod.mk.injEq] at e
    rw [← e.1]
    trivial

/-- **C54.** The first measurement of a network of any size. -/
theorem first_forceM {net : Net Q} {Φ : St Q} (h : Good net Φ) (hm : net.meas = []) (cl : Bool) {q : Q} {r : Bool}
    (hr : branch q r Φ ≠ 0) : ∃ n, net.forceM cl q r = some n ∧ Good n (branch q r Φ) ∧ n.big = net.big := by
  have hl : net.circuit.length = 1 := by
    have h1 := h.ok.pos
    have h2 := h.ok.ge
    simp only [hm, List.length_nil] at h1 h2
    omega
  obtain ⟨v, e1, e2, e3⟩ := h.view_cone hm cl q
  rw [← project_branch] at hr ⊢
  obtain ⟨m1, m2⟩ := measureOk_single hl q r
  refine h.forceM cl hr e1 ?_ (fun hv => (e2 hv).1) m1 m2
  intro h0
  have h1 := e3 r
  have : normSq (0 : St Q) = 0 := by simp [normSq]
  rw [h0, this, zero_div] at h1
  exact absurd h1.symm (div_pos (normSq_pos hr) (normSq_pos h.ne)).ne'

theorem forceM_single {net n : Net Q} {cl : Bool} {q : Q} {r : Bool} (hl : net.circuit.length = 1)
    (h : net.forceM cl q r = some n) :
    n.circuit.length = 1 ∧ n.meas = (insertMeas q r 0 (net.circuit, net.meas)).2 := by
  unfold Net.forceM at h
  obtain ⟨v, _, h⟩ := Option.bind_eq_some_iff.1 h
  obtain ⟨ψ, _, h⟩ := Option.bind_eq_some_iff.1 h
  obtain ⟨w, e1, h⟩ := Option.bind_eq_some_iff.1 h
  rw [hl, Nat.sub_self, walkBack, Option.some.injEq] at e1
  subst e1
  obtain ⟨L, e2, rfl⟩ := Option.map_eq_some_iff.1 h
  rw [collapse] at e2
  split at e2
  · obtain ⟨c, _, rfl⟩ := Option.map_eq_some_iff.1 e2
    exact ⟨by rw [List.length_set]; exact hl, rfl⟩
  · rw [Option.some.injEq] at e2
    subst e2
    exact ⟨hl, rfl⟩

theorem forceM_shape {net n : Net Q} {cl : Bool} {q : Q} {r : Bool} (hl : net.circuit.length = 1)
    (h : net.forceM cl q r = some n) (hm : net.meas.length ≤ 1) :
    n.circuit.length = 1 ∧ n.meas.length ≤ 1 ∧ ∀ m ∈ n.meas, ∀ p, m.has p = true →
      p = q ∨ ∃ m' ∈ net.meas, m'.has p = true := by
  have hL := forceM_single hl h
  refine ⟨hL.1, ?_, ?_⟩
  · rw [hL.2]
    unfold insertMeas
    simp only [List.length_set]
    split
    · rename_i hh
      have : net.meas.length = 0 := by simpa using hh
      simp [this]
    · exact hm
  · intro m hmm p hp
    rw [hL.2] at hmm
    unfold insertMeas at hmm
    simp only [] at hmm
    rcases hms : net.meas with _ | ⟨m0, rest⟩
    · rw [hms] at hmm
      simp [Meas.set, Meas.erase] at hmm
      subst hmm
      left
      simpa [Meas.has, eq_comm] using hp
    · rw [hms] at hmm
      have hrest : rest = [] := by
        rw [hms] at hm
        simpa using hm
      subst hrest
      simp at hmm
      subst hmm
      rw [Meas.has, List.any_eq_true] at hp
      obtain ⟨e, he, hep⟩ := hp
      simp only [decide_eq_true_eq] at hep
      unfold Meas.set at he
      rcases List.mem_cons.1 he with rfl | he
      · exact Or.inl hep.symm
      · refine Or.inr ⟨m0, by simp, has_iff.2 ⟨e.2, ?_⟩⟩
        rw [← hep]
        exact (List.mem_filter.1 he).1

/-! ## Histories -/

/-- The results are possible, gates have a shape that the constructors make, and no gate touches a qubit that has been measured. -/
def NoReuse : List (Cmd Q) → (Q → Prop) → St Q → Prop
  | [], _, _ => True
  | .gate g :: cs, S, Φ => g.Wf ∧ ¬ S g.target ∧ (∀ c ∈ g.controls, ¬ S c) ∧
      NoReuse cs S (multiplex g.target g.controls g.payloads.get Φ)
  | .meas q r :: cs, S, Φ => branch q r Φ ≠ 0 ∧ NoReuse cs (fun p => p = q ∨ S p) (branch q r Φ)
  | .prob _ :: cs, S, Φ => NoReuse cs S Φ
  | .amp _ :: cs, S, Φ => NoReuse cs S Φ

/-- **C54.** Small networks: every history of gates, measurements and reads gives the values of direct execution, as long as no
gate touches a measured qubit. -/
theorem history_terminal (cl : Bool) (cs : List (Cmd Q)) (h : NoReuse cs (fun _ => False) zeroState) :
    ∃ n, exec cl cs ⟨false, [[]], [], none⟩ = some (n, (direct cs zeroState).2) ∧ Good n (direct cs zeroState).1 := by
  have key : ∀ (cs : List (Cmd Q)) (net : Net Q) (S : Q → Prop) (Φ : St Q), Good net Φ → net.big = false →
      net.circuit.length = 1 → net.meas.length ≤ 1 → (∀ m ∈ net.meas, ∀ p, m.has p = true → S p) → NoReuse cs S Φ →
      ∃ n, exec cl cs net = some (n, (direct cs Φ).2) ∧ Good n (direct cs Φ).1 := by
    intro cs
    induction cs with
    | nil => intro net S Φ h _ _ _ _ _; exact ⟨net, rfl, h⟩
    | cons c cs ih =>
      intro net S Φ h hb hl hm hS hn
      cases c with
      | gate g =>
        obtain ⟨hg, ht, hcs, hn⟩ := hn
        obtain ⟨n, e1, e2, e3⟩ := append_partial h hg (clear_single hl g)
        have hlen := append_length e1
        have hz : layerFor (g.target :: g.controls) net.meas = 0 := by
          refine layerFor_zero fun m hmm q hq => ?_
          by_contra hh
          have hh : m.has q = true := by simpa using hh
          rcases List.mem_cons.1 hq with rfl | hq
          · exact ht (hS m hmm _ hh)
          · exact hcs q hq (hS m hmm _ hh)
        obtain ⟨n', f1, f2⟩ := ih n S _ e2 (by rw [e3, hb]) (by rw [hlen.2 (by omega), hl]) (by rw [hlen.1]; exact hm)
          (by rw [hlen.1]; exact hS) hn
        exact ⟨n', by rw [exec, e1]; exact f1, f2⟩
      | meas q r =>
        obtain ⟨hr, hn⟩ := hn
        obtain ⟨n, e1, e2, e3⟩ := forceM_partial h cl hb hr (measureOk_single hl q r)
        obtain ⟨s1, s2, s3⟩ := forceM_shape hl e1 hm
        obtain ⟨n', f1, f2⟩ := ih n _ _ e2 e3 s1 s2 (fun m hmm p hp => (s3 m hmm p hp).imp id
          fun ⟨m', h1, h2⟩ => hS m' h1 p h2) hn
        exact ⟨n', by rw [exec, e1]; exact f1, f2⟩
      | prob q =>
        obtain ⟨n, e1, e2, e3, e4, e5⟩ := prob_direct h cl hb q
        obtain ⟨n', f1, f2⟩ := ih n S _ e2 e3 (by rw [e4, hl]) (by rw [e5]; exact hm) (by rw [e5]; exact hS) hn
        exact ⟨n', by rw [exec, e1]; simp only [Option.bind_some]; rw [f1]; rfl, f2⟩
      | amp b =>
        obtain ⟨z, n, e1, e0, e2, e3, e4, e5⟩ := amplitude_direct h cl b
        obtain ⟨n', f1, f2⟩ := ih n S _ e2 (by rw [e3, hb]) (by rw [e4, hl]) (by rw [e5]; exact hm) (by rw [e5]; exact hS) hn
        exact ⟨n', by rw [exec, e1]; simp only [Option.bind_some]; rw [f1, e0]; rfl, f2⟩
  exact key cs _ _ _ (fresh_good false) rfl rfl (by simp) (by simp) h

/-- No measurements, and gates have a shape that the constructors make. -/
def NoMeas : List (Cmd Q) → Prop
  | [] => True
  | .gate g :: cs => g.Wf ∧ NoMeas cs
  | .meas _ _ :: _ => False
  | .prob _ :: cs => NoMeas cs
  | .amp _ :: cs => NoMeas cs

/-- **C54.** Networks of any size: every history of gates and reads gives the values of direct execution. -/
theorem history_unmeasured (big cl : Bool) (cs : List (Cmd Q)) (h : NoMeas cs) :
    ∃ n, exec cl cs ⟨big, [[]], [], none⟩ = some (n, (direct cs zeroState).2) ∧ Good n (direct cs zeroState).1 := by
  have key : ∀ (cs : List (Cmd Q)) (net : Net Q) (Φ : St Q), Good net Φ → net.circuit.length = 1 → net.meas = [] → NoMeas cs →
      ∃ n, exec cl cs net = some (n, (direct cs Φ).2) ∧ Good n (direct cs Φ).1 := by
    intro cs
    induction cs with
    | nil => intro net Φ h _ _ _; exact ⟨net, rfl, h⟩
    | cons c cs ih =>
      intro net Φ h hl hm hn
      cases c with
      | gate g =>
        obtain ⟨hg, hn⟩ := hn
        obtain ⟨n, e1, e2, _⟩ := append_partial h hg (clear_single hl g)
        have hlen := append_length e1
        obtain ⟨n', f1, f2⟩ := ih n _ e2 (by rw [hlen.2 (by rw [hm]; simp [layerFor, hl]), hl]) (by rw [hlen.1, hm]) hn
        exact ⟨n', by rw [exec, e1]; exact f1, f2⟩
      | meas q r => exact hn.elim
      | prob q =>
        obtain ⟨n, e1, e2, _, e4, e5⟩ := prob_cone h hm cl q
        obtain ⟨n', f1, f2⟩ := ih n _ e2 (by rw [e4, hl]) e5 hn
        exact ⟨n', by rw [exec, e1]; simp only [Option.bind_some]; rw [f1]; rfl, f2⟩
      | amp b =>
        obtain ⟨z, n, e1, e0, e2, _, e4, e5⟩ := amplitude_direct h cl b
        obtain ⟨n', f1, f2⟩ := ih n _ e2 (by rw [e4, hl]) (by rw [e5, hm]) hn
        exact ⟨n', by rw [exec, e1]; simp only [Option.bind_some]; rw [f1, e0]; rfl, f2⟩
  exact key cs _ _ (fresh_good big) rfl rfl h

/-- The conditions of `append_partial` and `forceM_partial` along a history. -/
def Fine (cl : Bool) : List (Cmd Q) → Net Q → St Q → Prop
  | [], _, _ => True
  | .gate g :: cs, net, Φ => g.Wf ∧ Clear net g ∧
      ∀ n, net.append g = some n → Fine cl cs n (multiplex g.target g.controls g.payloads.get Φ)
  | .meas q r :: cs, net, Φ => branch q r Φ ≠ 0 ∧ MeasureOk net q r ∧
      ∀ n, net.forceM cl q r = some n → Fine cl cs n (branch q r Φ)
  | .prob q :: cs, net, Φ => ∀ p n, net.prob cl q = some (p, n) → Fine cl cs n Φ
  | .amp b :: cs, net, Φ => ∀ z n, net.amplitude cl b = some (z, n) → Fine cl cs n Φ

/-- **C54.** Histories with gates on measured qubits, as long as no step meets one of the situations of `lateGate_wrong` and
`collapse_wrong`.

Full statement: `exec cl cs net = some (n, (direct cs Φ).2)` for all histories with possible results, for networks of any size.
It fails, see `lateGate_wrong`, `collapse_wrong` and `coneMeasured_wrong`. -/
theorem history_partial (cl : Bool) (cs : List (Cmd Q)) {net : Net Q} {Φ : St Q} (h : Good net Φ) (hb : net.big = false)
    (hf : Fine cl cs net Φ) : ∃ n, exec cl cs net = some (n, (direct cs Φ).2) ∧ Good n (direct cs Φ).1 := by
  induction cs generalizing net Φ with
  | nil => exact ⟨net, rfl, h⟩
  | cons c cs ih =>
    cases c with
    | gate g =>
      obtain ⟨hg, hc, hn⟩ := hf
      obtain ⟨n, e1, e2, e3⟩ := append_partial h hg hc
      obtain ⟨n', f1, f2⟩ := ih e2 (by rw [e3, hb]) (hn n e1)
      exact ⟨n', by rw [exec, e1]; exact f1, f2⟩
    | meas q r =>
      obtain ⟨hr, hok, hn⟩ := hf
      obtain ⟨n, e1, e2, e3⟩ := forceM_partial h cl hb hr hok
      obtain ⟨n', f1, f2⟩ := ih e2 e3 (hn n e1)
      exact ⟨n', by rw [exec, e1]; exact f1, f2⟩
    | prob q =>
      obtain ⟨n, e1, e2, e3, _⟩ := prob_direct h cl hb q
      obtain ⟨n', f1, f2⟩ := ih e2 e3 (hf _ n e1)
      exact ⟨n', by rw [exec, e1]; simp only [Option.bind_some]; rw [f1]; rfl, f2⟩
    | amp b =>
      obtain ⟨z, n, e1, e0, e2, e3, _⟩ := amplitude_direct h cl b
      obtain ⟨n', f1, f2⟩ := ih e2 (by rw [e3, hb]) (hf z n e1)
      exact ⟨n', by rw [exec, e1]; simp only [Option.bind_some]; rw [f1, e0]; rfl, f2⟩

end Verif.TN
