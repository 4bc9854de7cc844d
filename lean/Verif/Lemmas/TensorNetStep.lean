import Verif.Lemmas.TensorNet

/-!
# One gate and one measurement of a tensor network
-/

namespace Verif.TN

open Verif.Matrix2 Verif.Spec.Circuit Verif.QCirc

variable {Q : Type} [LinearOrder Q]

/-! ### Appending to a circuit -/

theorem appendTo_spec (cl : Bool) {c : List (Gate Q)} (hc : ∀ g ∈ c, g.Wf) {g : Gate Q} (hg : g.Wf) :
    ∃ c', appendTo cl c g = some c' ∧ (∀ x ∈ c', x.Wf) ∧ RayEq c' (c ++ [g]) := by
  obtain ⟨gs, r, e1, e2, _, e4⟩ := appendGate_ok cl (c.length + 1) c g hc hg (by omega)
  exact ⟨gs, by unfold appendTo; rw [e1]; rfl, e2, e4⟩

theorem appendAllTo_spec (cl : Bool) (gs : List (Gate Q)) {c : List (Gate Q)} (hc : ∀ g ∈ c, g.Wf)
    (hg : ∀ g ∈ gs, g.Wf) :
    ∃ c', appendAllTo cl c gs = some c' ∧ (∀ x ∈ c', x.Wf) ∧ RayEq c' (c ++ gs) := by
  induction gs generalizing c with
  | nil => exact ⟨c, rfl, hc, by rw [List.append_nil]; exact RayEq.refl _⟩
  | cons g gs ih =>
    obtain ⟨c1, e1, e2, e3⟩ := appendTo_spec cl hc (hg g (by simp))
    obtain ⟨c2, f1, f2, f3⟩ := ih e2 (fun x hx => hg x (List.mem_cons_of_mem _ hx))
    refine ⟨c2, by rw [appendAllTo, e1]; exact f1, f2, f3.trans ?_⟩
    have := e3.append gs
    rwa [List.append_assoc] at this

theorem xGate_wf (q : Q) : (xGate q).Wf := single_wf (by simp) (by simp) (by simp) (by simp [Unitary])

theorem xGate_act (q : Q) (ψ : St Q) (b : Q → Bool) : (xGate q).act ψ b = ψ (Function.update b q (!b q)) := by
  rw [act_some (m := ⟨0, 1, 1, 0⟩) (by simp [xGate, key, get_cons])]
  unfold onQubit xGate
  cases h : b q <;> simp [h]

/-- X on every qubit of a list. -/
theorem run_xGates (l : List Q) (hl : l.Nodup) (ψ : St Q) (b : Q → Bool) :
    run (l.map xGate) ψ b = ψ (fun q => b q ^^ decide (q ∈ l)) := by
  induction l generalizing ψ b with
  | nil => simp [run_nil]
  | cons a l ih =>
    rw [List.nodup_cons] at hl
    rw [List.map_cons, run_cons, ih hl.2, xGate_act]
    congr 1
    funext q
    by_cases hq : q = a
    · subst hq
      rw [Function.update_self]
      simp [hl.1]
    · rw [Function.update_of_ne hq]; simp [hq]

/-! ### Which layer takes a gate -/

theorem layerFor_spec (qs : List Q) (ms : List (Meas Q)) :
    layerFor qs ms ≤ ms.length ∧ ∀ i, layerFor qs ms ≤ i → ∀ q ∈ qs, Meas.has (fn ms i) q = false := by
  induction ms with
  | nil => exact ⟨le_rfl, fun i _ q _ => rfl⟩
  | cons m ms ih =>
    rw [layerFor]
    by_cases h : layerFor qs ms ≠ 0
    · rw [if_pos h]
      refine ⟨by simp [ih.1], fun i hi q hq => ?_⟩
      obtain ⟨j, rfl⟩ : ∃ j, i = j + 1 := ⟨i - 1, by omega⟩
      have := ih.2 j (by omega) q hq
      simpa [fn] using this
    · rw [if_neg h]
      have h0 : layerFor qs ms = 0 := by omega
      have rest : ∀ j, ∀ q ∈ qs, Meas.has (fn (m :: ms) (j + 1)) q = false := by
        intro j q hq
        have := ih.2 j (by omega) q hq
        simpa [fn] using this
      by_cases h2 : qs.any m.has = true
      · rw [if_pos h2]
        refine ⟨by simp, fun i hi q hq => ?_⟩
        obtain ⟨j, rfl⟩ : ∃ j, i = j + 1 := ⟨i - 1, by omega⟩
        exact rest j q hq
      · rw [if_neg h2]
        refine ⟨by simp, fun i _ q hq => ?_⟩
        cases i with
        | zero =>
          have : fn (m :: ms) 0 = m := rfl
          rw [this]
          simp only [List.any_eq_true, not_exists, not_and, Bool.not_eq_true] at h2
          exact h2 q hq
        | succ j => exact rest j q hq

/-- What holds of the layers of a network. -/
structure Ok (L : Layers Q) : Prop where
  pos : 0 < L.1.length
  le : L.2.length ≤ L.1.length
  ge : L.1.length ≤ L.2.length + 1
  wf : ∀ c ∈ L.1, ∀ g ∈ c, g.Wf
  nodup : ∀ m ∈ L.2, (m.map Prod.fst).Nodup

theorem Ok.wf_fn {L : Layers Q} (h : Ok L) (i : ℕ) : ∀ g ∈ fn L.1 i, g.Wf := by
  intro g hg
  by_cases hi : i < L.1.length
  · exact h.wf _ (fn_mem hi) g hg
  · rw [fn_ge (by omega)] at hg; cases hg

theorem Ok.nodup_fn {L : Layers Q} (h : Ok L) (i : ℕ) : ((fn L.2 i).map Prod.fst).Nodup := by
  by_cases hi : i < L.2.length
  · exact h.nodup _ (fn_mem hi)
  · rw [fn_ge (by omega)]; simp

variable [Fintype Q]

/-- The state of the layers. -/
def sem (L : Layers Q) : St Q := lay (fn L.1) (fn L.2) 0 L.1.length zeroState

/-- Later gates do not act on what the new gate looks at, and conversely. -/
def Clear (net : Net Q) (g : Gate Q) : Prop :=
  ∀ i, layerFor (g.target :: g.controls) net.meas < i →
    ∀ x ∈ fn net.circuit i, x.target ∉ g.controls ∧ g.target ∉ x.controls ∧ x.target ≠ g.target

theorem append_par {net : Net Q} (h : Ok (net.circuit, net.meas)) {g : Gate Q} (hg : g.Wf) (hc : Clear net g) :
    ∃ net', net.append g = some net' ∧ net'.stack = none ∧ net'.big = net.big ∧ Ok (net'.circuit, net'.meas) ∧
      Par (sem (net'.circuit, net'.meas)) (g.act (sem (net.circuit, net.meas))) := by
  unfold Net.append
  simp only []
  obtain ⟨hl1, hl2⟩ := layerFor_spec (g.target :: g.controls) net.meas
  unfold Clear at hc
  generalize hl : layerFor (g.target :: g.controls) net.meas = l at *
  have hll : l ≤ net.circuit.length := le_trans hl1 h.le
  generalize hcirc : (if net.circuit.length = l then net.circuit ++ [[]] else net.circuit) = cs
  have hfn : fn cs = fn net.circuit := by rw [← hcirc]; split; exact fn_push _; rfl
  have hlen : l < cs.length := by
    rw [← hcirc]; split
    · simp; omega
    · omega
  have hge : net.circuit.length ≤ cs.length := by rw [← hcirc]; split <;> simp
  have hle' : cs.length ≤ net.meas.length + 1 := by
    rw [← hcirc]; split
    · simp; omega
    · exact h.ge
  have hwf : ∀ c ∈ cs, ∀ g ∈ c, g.Wf := by
    intro c hcc
    rw [← hcirc] at hcc
    split at hcc
    · rcases List.mem_append.1 hcc with hcc | hcc
      · exact h.wf c hcc
      · rw [List.mem_singleton.1 hcc]; simp
    · exact h.wf c hcc
  rw [List.getElem?_eq_getElem hlen]
  have hcl : cs[l] = fn net.circuit l := by
    rw [← hfn]; unfold fn; rw [List.getElem?_eq_getElem hlen]; rfl
  simp only []
  obtain ⟨c', e1, e2, e3⟩ := appendTo_spec false (hwf _ (List.getElem_mem hlen)) hg
  rw [e1]
  refine ⟨_, rfl, rfl, rfl, ⟨?_, ?_, ?_, ?_, h.nodup⟩, ?_⟩
  · simp; omega
  · simp only [List.length_set]; exact le_trans h.le hge
  · simp only [List.length_set]; exact hle'
  · intro c hcc
    rcases List.mem_or_eq_of_mem_set hcc with hcc | rfl
    · exact hwf c hcc
    · exact e2
  · -- the state
    have hext : sem (net.circuit, net.meas) = lay (fn net.circuit) (fn net.meas) 0 cs.length zeroState := by
      unfold sem
      obtain ⟨d, hd⟩ : ∃ d, cs.length = net.circuit.length + d := ⟨cs.length - net.circuit.length, by omega⟩
      rw [hd, lay_add]
      have : ∀ (d a : ℕ) (ψ : St Q), net.circuit.length ≤ a → lay (fn net.circuit) (fn net.meas) a d ψ = ψ := by
        intro d
        induction d with
        | zero => intro a ψ _; rfl
        | succ d ih =>
          intro a ψ ha
          rw [lay, fn_ge ha, fn_ge (le_trans h.le ha), project_nil, run_nil, ih _ _ (by omega)]
      rw [this d (0 + net.circuit.length) _ (by simp)]
    rw [hext]
    unfold sem
    simp only [List.length_set]
    obtain ⟨k, hk⟩ : ∃ k, cs.length = l + (k + 1) := ⟨cs.length - l - 1, by omega⟩
    rw [hk, lay_add _ _ 0 l (k + 1), lay_add _ _ 0 l (k + 1), lay, lay, Nat.zero_add]
    have hpre : lay (fn (cs.set l c')) (fn net.meas) 0 l zeroState = lay (fn net.circuit) (fn net.meas) 0 l zeroState :=
      lay_congr (fun i _ hi => ⟨by rw [fn_set, if_neg (by omega), hfn], rfl⟩) _
    have hpost : ∀ ψ, lay (fn (cs.set l c')) (fn net.meas) (l + 1) k ψ = lay (fn net.circuit) (fn net.meas) (l + 1) k ψ :=
      fun ψ => lay_congr (fun i hi _ => ⟨by rw [fn_set, if_neg (by omega), hfn], rfl⟩) _
    rw [hpre, hpost]
    have hat : fn (cs.set l c') l = c' := by rw [fn_set, if_pos ⟨rfl, hlen⟩]
    rw [hat]
    generalize lay (fn net.circuit) (fn net.meas) 0 l zeroState = χ
    have h1 := rayEq_par e3 χ
    rw [run_append, hcl] at h1
    have h2 := lay_par (fn net.circuit) (fn net.meas) (l + 1) k (project_par (fn net.meas l) h1)
    refine h2.trans (Par.of_eq ?_)
    show lay _ _ _ _ (project _ (g.act _)) = _
    rw [project_act (hl2 l le_rfl _ (by simp)), lay_act]
    intro i hi
    exact ⟨hl2 i (by omega) _ (by simp), fun x hx => hc i (by omega) x hx⟩

/-! ### A measurement -/

/-- The state with qubit `q` projected after circuit `k`. -/
def semAt (q : Q) (r : Bool) (L : Layers Q) (k : ℕ) : St Q :=
  lay (fn L.1) (fn L.2) (k + 1) (L.1.length - (k + 1))
    (project (fn L.2 k) (project [(q, r)] (run (fn L.1 k) (lay (fn L.1) (fn L.2) 0 k zeroState))))

theorem semAt_last (q : Q) (r : Bool) {L : Layers Q} (h : 0 < L.1.length) :
    semAt q r L (L.1.length - 1) = project [(q, r)] (sem L) := by
  obtain ⟨n, hn⟩ : ∃ n, L.1.length = n + 1 := ⟨L.1.length - 1, by omega⟩
  unfold semAt sem
  rw [hn, Nat.add_sub_cancel, Nat.sub_self, lay_add]
  simp only [lay, Nat.zero_add]
  rw [project_comm]

theorem erase_has (m : Meas Q) (q : Q) : (m.erase q).has q = false := by
  rw [Meas.has_false]; intro e he
  simpa using (List.mem_filter.1 he).2

/-- With the qubit known, the measurement of it is redundant. -/
theorem project_erase {m : Meas Q} {q : Q} {r : Bool} {φ : St Q} (hφ : project [(q, r)] φ = φ) (h : project m φ ≠ 0) :
    project m φ = project (m.erase q) φ := by
  have hs : ∀ b, b q ≠ r → φ b = 0 := by
    intro b hb
    rw [← hφ, project_apply, if_neg]
    simpa using hb
  obtain ⟨b0, hb0⟩ := Function.ne_iff.1 h
  rw [project_apply] at hb0
  have hall : ∀ e ∈ m, b0 e.1 = e.2 := by
    by_contra hn
    rw [if_neg hn] at hb0
    exact hb0 rfl
  rw [if_pos hall] at hb0
  have hq0 : b0 q = r := by
    by_contra hn
    exact hb0 (hs b0 hn)
  have hv : ∀ e ∈ m, e.1 = q → e.2 = r := by
    intro e he hq
    rw [← hall e he, hq, hq0]
  funext b
  rw [project_apply, project_apply]
  by_cases hb : b q = r
  · have hiff : (∀ e ∈ m, b e.1 = e.2) ↔ ∀ e ∈ m.erase q, b e.1 = e.2 := by
      refine ⟨fun h e he => h e (List.mem_filter.1 he).1, fun h e he => ?_⟩
      by_cases hq : e.1 = q
      · rw [hq, hb, hv e he hq]
      · exact h e (List.mem_filter.2 ⟨he, by simpa using hq⟩)
    by_cases h1 : ∀ e ∈ m, b e.1 = e.2
    · rw [if_pos h1, if_pos (hiff.1 h1)]
    · rw [if_neg h1, if_neg (fun h => h1 (hiff.2 h))]
  · rw [hs b hb]; simp

theorem project_set {m : Meas Q} {q : Q} {r : Bool} {φ : St Q} (h : project m (project [(q, r)] φ) ≠ 0) :
    project m (project [(q, r)] φ) = project (m.set q r) φ := by
  have hidem : project [(q, r)] (project [(q, r)] φ) = project [(q, r)] φ := by
    funext b; simp only [project_apply]; split <;> simp_all
  rw [project_erase hidem h]
  funext b
  unfold Meas.set
  simp only [project_apply, List.mem_cons, List.not_mem_nil, or_false, forall_eq_or_imp, forall_eq]
  by_cases h1 : b q = r <;> by_cases h2 : ∀ e ∈ m.erase q, b e.1 = e.2 <;> simp [h1, h2]

/-- What `DeletePhaseTarget` needs: gates on `q` are not controlled, and no gate loses its last payload. -/
def DeleteOk (q : Q) (r : Bool) (c : List (Gate Q)) : Prop :=
  (∀ g ∈ c, g.target = q → g.controls = []) ∧ ∀ g ∈ deletePhaseTarget c q r, g.payloads ≠ []

theorem delete_wf {q : Q} {r : Bool} {c : List (Gate Q)} (hc : ∀ g ∈ c, g.Wf) (hd : DeleteOk q r c) :
    ∀ g ∈ deletePhaseTarget c q r, g.Wf := by
  intro g hg
  have hne := hd.2 g hg
  rw [deletePhaseTarget_eq, List.mem_map] at hg
  obtain ⟨x, hx, rfl⟩ := hg
  exact postSelect_wf (hc x (List.mem_filter.1 hx).1) q r hne

theorem delete_target {q : Q} {r : Bool} {c : List (Gate Q)} : ∀ g ∈ deletePhaseTarget c q r, g.target ≠ q := by
  intro g hg
  rw [deletePhaseTarget_eq, List.mem_map] at hg
  obtain ⟨x, hx, rfl⟩ := hg
  rw [postSelect_target]
  simpa using (List.mem_filter.1 hx).2

/-- Measuring before a circuit that does not change the qubit. -/
theorem delete_par {q : Q} {r : Bool} {c : List (Gate Q)} (hc : ∀ g ∈ c, g.Wf) (hn : isNonPhaseTarget c q = false)
    (hd : DeleteOk q r c) (χ : St Q) :
    Par (project [(q, r)] (run c χ)) (run (deletePhaseTarget c q r) (project [(q, r)] χ)) := by
  obtain ⟨z, hz, h⟩ := delete_run c hc q r hn hd.1
  refine ⟨z, unit_ne hz, ?_⟩
  rw [← project_run (fun g hg => Meas.has_false.2 (by simpa using (delete_target g hg).symm))]
  funext b
  simp only [project_apply, List.mem_cons, List.not_mem_nil, or_false, forall_eq]
  by_cases hb : b q = r
  · rw [if_pos hb, if_pos hb, h χ b hb]
  · rw [if_neg hb, if_neg hb, mul_zero]

/-- One round of the first loop of `ForceM`. -/
theorem walkStep_par {q : Q} {r : Bool} {k : ℕ} {L : Layers Q} (h : Ok L) (hk : k + 1 < L.1.length)
    (hn : isNonPhaseTarget (fn L.1 (k + 1)) q = false) (hd : DeleteOk q r (fn L.1 (k + 1)))
    (h0 : semAt q r L (k + 1) ≠ 0) :
    ∃ L', walkStep q r (k + 1) L = some L' ∧ Ok L' ∧ k < L'.1.length ∧ (∀ i, i ≤ k → fn L'.1 i = fn L.1 i) ∧
      Par (semAt q r L' k) (semAt q r L (k + 1)) := by
  obtain ⟨d, hdl⟩ : ∃ d, L.1.length = k + 2 + d := ⟨L.1.length - (k + 2), by omega⟩
  -- the state up to the projection after circuit `k`
  set χ := project (fn L.2 k) (project [(q, r)] (run (fn L.1 k) (lay (fn L.1) (fn L.2) 0 k zeroState))) with hχ
  set D := deletePhaseTarget (fn L.1 (k + 1)) q r with hD
  have hDwf := delete_wf (h.wf_fn (k + 1)) hd
  have hχq : project [(q, r)] χ = χ := by
    rw [hχ, project_comm]
    congr 1
    funext b; simp only [project_apply]; split <;> simp_all
  have hsem : Par (semAt q r L (k + 1))
      (lay (fn L.1) (fn L.2) (k + 2) d (project (fn L.2 (k + 1)) (run D χ))) := by
    unfold semAt
    rw [hdl, show k + 2 + d - (k + 1 + 1) = d by omega, lay_add _ _ 0 k 1, Nat.zero_add]
    simp only [lay]
    refine lay_par _ _ _ _ (project_par _ ?_)
    refine (delete_par (h.wf_fn (k + 1)) hn hd _).trans (Par.of_eq ?_)
    rw [hχ, project_comm]
  have hne := ne_of_lay (hsem.ne_zero h0)
  have hDq : project [(q, r)] (run D χ) = run D χ := by
    rw [project_run (fun g hg => Meas.has_false.2 (by simpa using (delete_target g hg).symm)), hχq]
  have herase := project_erase hDq hne
  rw [herase] at hsem
  unfold walkStep
  simp only []
  have hfc : L.1[k + 1]?.getD [] = fn L.1 (k + 1) := rfl
  have hfm : L.2[k + 1]?.getD [] = fn L.2 (k + 1) := rfl
  rw [hfc, hfm, ← hD]
  have hset : fn (L.1.set (k + 1) D) = fun i => if i = k + 1 then D else fn L.1 i := by
    funext i; rw [fn_set]; by_cases hi : i = k + 1 <;> simp [hi, hk]
  have hwfset : ∀ c ∈ L.1.set (k + 1) D, ∀ g ∈ c, g.Wf := by
    intro c hc
    rcases List.mem_or_eq_of_mem_set hc with hc | rfl
    · exact h.wf c hc
    · exact hDwf
  -- the state when only circuit and measurements `k + 1` change
  have plain : ∀ ms : List (Meas Q), (∀ i, i ≠ k + 1 → fn ms i = fn L.2 i) →
      fn ms (k + 1) = Meas.erase (fn L.2 (k + 1)) q →
      Par (semAt q r (L.1.set (k + 1) D, ms) k) (semAt q r L (k + 1)) := by
    intro ms h1 h2
    refine Par.trans (Par.of_eq ?_) hsem.symm
    unfold semAt
    simp only [List.length_set]
    rw [hdl, show k + 2 + d - (k + 1) = 1 + d by omega, lay_add]
    simp only [lay]
    rw [hset]
    simp only [if_true]
    rw [if_neg (by omega), h2, h1 k (by omega)]
    rw [lay_congr (a := 0) (n := k) (C' := fn L.1) (M' := fn L.2)
      (fun i _ hi => ⟨if_neg (by omega), h1 i (by omega)⟩)]
    rw [← hχ]
    exact lay_congr (fun i hi _ => ⟨if_neg (by omega), h1 i (by omega)⟩) _
  by_cases hms : L.2.length ≤ k + 1
  · rw [if_pos hms]
    refine ⟨_, rfl, ⟨by simp; omega, by simp only [List.length_set]; exact h.le, by simp only [List.length_set]; exact h.ge,
      hwfset, h.nodup⟩, by simp only [List.length_set]; omega, fun i hi => ?_, plain _ (fun _ _ => rfl) ?_⟩
    · simp only [hset]; rw [if_neg (by omega)]
    · rw [fn_ge hms]; rfl
  · rw [if_neg hms]
    have hms' : k + 1 < L.2.length := by omega
    by_cases hemp : (Meas.erase (fn L.2 (k + 1)) q).isEmpty = true
    · rw [if_pos hemp]
      have hem : Meas.erase (fn L.2 (k + 1)) q = [] := List.isEmpty_iff.1 hemp
      by_cases hlast : k + 1 + 1 < (L.1.set (k + 1) D).length
      · rw [if_pos hlast]
        simp only [List.length_set] at hlast
        have hnext : (L.1.set (k + 1) D)[k + 1 + 1]?.getD [] = fn L.1 (k + 2) := by
          have : (L.1.set (k + 1) D)[k + 1 + 1]?.getD [] = fn (L.1.set (k + 1) D) (k + 2) := rfl
          rw [this, hset]; simp
        rw [hnext]
        obtain ⟨c', e1, e2, e3⟩ := appendAllTo_spec false (fn L.1 (k + 2)) hDwf (h.wf_fn _)
        rw [e1]
        have hfn : fn (((L.1.set (k + 1) D).set (k + 1) c').eraseIdx (k + 1 + 1)) =
            fun i => if i ≤ k then fn L.1 i else if i = k + 1 then c' else fn L.1 (i + 1) := by
          funext i
          rw [fn_eraseIdx, fn_set, fn_set, fn_set, hset]
          simp only [List.length_set]
          by_cases h1 : i ≤ k
          · rw [if_pos (by omega), if_neg (by omega), if_neg (by omega), if_pos h1]
          · rw [if_neg h1]
            by_cases h2 : i = k + 1
            · rw [if_pos (by omega), if_pos ⟨h2, hk⟩, if_pos h2]
            · rw [if_neg (by omega), if_neg (by omega), if_neg h2, if_neg (by omega)]
        have hlen : (((L.1.set (k + 1) D).set (k + 1) c').eraseIdx (k + 1 + 1)).length = L.1.length - 1 := by
          rw [List.length_eraseIdx]; simp only [List.length_set]; rw [if_pos hlast]
        have hlenm : (L.2.eraseIdx (k + 1)).length = L.2.length - 1 := by
          rw [List.length_eraseIdx, if_pos hms']
        refine ⟨_, rfl, ⟨?_, ?_, ?_, ?_, ?_⟩, ?_, ?_, ?_⟩
        · rw [hlen]; omega
        · rw [hlen]; simp only [hlenm]; have := h.le; omega
        · rw [hlen]; simp only [hlenm]; have := h.ge; omega
        · intro c hc
          have hc := List.mem_of_mem_eraseIdx hc
          rcases List.mem_or_eq_of_mem_set hc with hc | rfl
          · exact hwfset c hc
          · exact e2
        · intro m hm
          exact h.nodup m (List.mem_of_mem_eraseIdx hm)
        · rw [hlen]; omega
        · intro i hi; simp only [hfn]; rw [if_pos hi]
        · refine Par.trans ?_ hsem.symm
          unfold semAt
          simp only [hlen]
          obtain ⟨d', rfl⟩ : ∃ d', d = d' + 1 := ⟨d - 1, by omega⟩
          rw [hdl, show k + 2 + (d' + 1) - 1 - (k + 1) = 1 + d' by omega, lay_add, Nat.add_comm d' 1, lay_add]
          simp only [lay]
          rw [hfn]
          simp only [le_refl, if_true, show ¬ k + 1 ≤ k by omega, if_false]
          have hM : fn (L.2.eraseIdx (k + 1)) = fun i => if i < k + 1 then fn L.2 i else fn L.2 (i + 1) := by
            funext i; exact fn_eraseIdx _ _ _
          rw [hM]
          simp only [lt_irrefl, if_false, show k < k + 1 by omega, if_true]
          rw [lay_congr (a := 0) (n := k) (C' := fn L.1) (M' := fn L.2)
            (fun i _ hi => ⟨if_pos (by omega), if_pos (by omega)⟩), ← hχ]
          rw [hem, project_nil]
          have h3 := rayEq_par e3 χ
          rw [run_append] at h3
          have h4 : ∀ ψ, lay (fun i => if i ≤ k then fn L.1 i else if i = k + 1 then c' else fn L.1 (i + 1))
              (fun i => if i < k + 1 then fn L.2 i else fn L.2 (i + 1)) (k + 1 + 1) d' ψ =
              lay (fn L.1) (fn L.2) (k + 2 + 1) d' ψ := by
            intro ψ
            rw [← lay_shift (fn L.1) (fn L.2) 1 (k + 2) d']
            exact lay_congr (fun i hi _ => ⟨by rw [if_neg (by omega), if_neg (by omega)],
              if_neg (by omega)⟩) _
          rw [h4]
          exact lay_par _ _ _ _ (project_par _ h3)
      · rw [if_neg hlast]
        simp only [List.length_set] at hlast
        have hlenm : (L.2.eraseIdx (k + 1)).length = L.2.length - 1 := by
          rw [List.length_eraseIdx, if_pos hms']
        have := h.le
        refine ⟨_, rfl, ⟨by simp; omega, ?_, ?_, hwfset, ?_⟩, by simp only [List.length_set]; omega, fun i hi => ?_,
          plain _ (fun i hi => ?_) ?_⟩
        · simp only [List.length_set, hlenm]; omega
        · simp only [List.length_set, hlenm]; omega
        · intro m hm; exact h.nodup m (List.mem_of_mem_eraseIdx hm)
        · simp only [hset]; rw [if_neg (by omega)]
        · rw [fn_eraseIdx]
          by_cases h1 : i < k + 1
          · rw [if_pos h1]
          · rw [if_neg h1, fn_ge (by omega), fn_ge (by omega)]
        · rw [hem, fn_eraseIdx, if_neg (by omega), fn_ge (by omega)]
    · rw [if_neg hemp]
      refine ⟨_, rfl, ⟨by simp; omega, by simp only [List.length_set]; exact h.le, by simp only [List.length_set]; exact h.ge,
        hwfset, ?_⟩, by simp only [List.length_set]; omega, fun i hi => ?_, plain _ (fun i hi => ?_) ?_⟩
      · intro m hm
        rcases List.mem_or_eq_of_mem_set hm with hm | rfl
        · exact h.nodup m hm
        · exact (h.nodup_fn (k + 1)).sublist (List.Sublist.map _ List.filter_sublist)
      · simp only [hset]; rw [if_neg (by omega)]
      · rw [fn_set, if_neg (by omega)]
      · rw [fn_set, if_pos ⟨rfl, hms'⟩]

/-- The first loop of `ForceM`. -/
theorem walkBack_par {q : Q} {r : Bool} (j : ℕ) {L : Layers Q} (h : Ok L) (hj : j < L.1.length)
    (hd : ∀ i, 0 < i → i ≤ j → isNonPhaseTarget (fn L.1 i) q = false → DeleteOk q r (fn L.1 i))
    (h0 : semAt q r L j ≠ 0) :
    ∃ k L', walkBack q r j L = some (k, L') ∧ Ok L' ∧ k < L'.1.length ∧ (∀ i, i ≤ k → fn L'.1 i = fn L.1 i) ∧
      Par (semAt q r L' k) (semAt q r L j) := by
  induction j generalizing L with
  | zero => exact ⟨0, L, rfl, h, hj, fun _ _ => rfl, Par.refl _⟩
  | succ j ih =>
    rw [walkBack]
    have hf : L.1[j + 1]?.getD [] = fn L.1 (j + 1) := rfl
    rw [hf]
    by_cases hn : isNonPhaseTarget (fn L.1 (j + 1)) q = true
    · rw [if_pos hn]
      exact ⟨j + 1, L, rfl, h, hj, fun _ _ => rfl, Par.refl _⟩
    · rw [if_neg hn]
      have hn : isNonPhaseTarget (fn L.1 (j + 1)) q = false := by simpa using hn
      obtain ⟨L1, e1, k1, k2, k3, k4⟩ := walkStep_par h hj hn (hd (j + 1) (by omega) le_rfl hn) h0
      rw [e1]
      obtain ⟨k, L2, f1, f2, f3, f4, f5⟩ := ih k1 k2 (fun i h1 h2 h3 => by
        rw [k3 i h2] at h3 ⊢
        exact hd i h1 (by omega) h3) (k4.symm.ne_zero h0)
      have hkj : k ≤ j := by
        clear f5 f4 f3 f2 ih
        have : ∀ j (L : Layers Q) k L', walkBack q r j L = some (k, L') → k ≤ j := by
          intro j
          induction j with
          | zero => intro L k L' e; rw [walkBack, Option.some.injEq, Prod.mk.injEq] at e; omega
          | succ j ih =>
            intro L k L' e
            rw [walkBack] at e
            split at e
            · rw [Option.some.injEq, Prod.mk.injEq] at e; omega
            · cases e2 : walkStep q r (j + 1) L with
              | none => rw [e2] at e; cases e
              | some L1 => rw [e2] at e; have := ih L1 k L' e; omega
        exact this j L1 k L2 f1
      exact ⟨k, L2, f1, f2, f3, fun i hi => by rw [f4 i hi, k3 i (by omega)], f5.trans k4⟩

/-- Inserting the measurement. -/
theorem insertMeas_par {q : Q} {r : Bool} {k : ℕ} {L : Layers Q} (h : Ok L) (hk : k < L.1.length)
    (h0 : semAt q r L k ≠ 0) :
    Ok (insertMeas q r k L) ∧ sem (insertMeas q r k L) = semAt q r L k ∧ k < (insertMeas q r k L).2.length ∧
      (insertMeas q r k L).1 = L.1 := by
  unfold insertMeas
  simp only []
  have hle := h.le
  have hge := h.ge
  generalize hm : (if L.2.length ≤ k then L.2 ++ [[]] else L.2) = ms
  have hfn : fn ms = fn L.2 := by rw [← hm]; split; exact fn_push _; rfl
  have hlen : k < ms.length := by
    rw [← hm]; split
    · rw [List.length_append, List.length_singleton]; omega
    · omega
  have hlen2 : ms.length ≤ L.1.length := by
    rw [← hm]; split
    · rw [List.length_append, List.length_singleton]; omega
    · exact hle
  have hlen3 : L.2.length ≤ ms.length := by rw [← hm]; split <;> simp
  have hnod : ∀ m ∈ ms, (m.map Prod.fst).Nodup := by
    intro m hmm
    rw [← hm] at hmm
    split at hmm
    · rcases List.mem_append.1 hmm with hmm | hmm
      · exact h.nodup m hmm
      · rw [List.mem_singleton.1 hmm]; simp
    · exact h.nodup m hmm
  have hmk : ms[k]?.getD [] = fn L.2 k := by rw [← hfn]; rfl
  rw [hmk]
  refine ⟨⟨h.pos, by simp only [List.length_set]; exact hlen2, by simp only [List.length_set]; omega, h.wf, ?_⟩, ?_,
    by simp only [List.length_set]; exact hlen, trivial⟩
  · intro m hmm
    rcases List.mem_or_eq_of_mem_set hmm with hmm | rfl
    · exact hnod m hmm
    · unfold Meas.set
      rw [List.map_cons, List.nodup_cons]
      refine ⟨?_, (h.nodup_fn k).sublist (List.Sublist.map _ List.filter_sublist)⟩
      intro hmem
      obtain ⟨e, he, hq⟩ := List.mem_map.1 hmem
      have : e.1 ≠ q := by simpa using (List.mem_filter.1 he).2
      exact this hq
  · unfold sem semAt at *
    simp only []
    obtain ⟨d, hd⟩ : ∃ d, L.1.length = k + (1 + d) := ⟨L.1.length - (k + 1), by omega⟩
    have hM : fn (ms.set k (Meas.set (fn L.2 k) q r)) = fun i => if i = k then Meas.set (fn L.2 k) q r else fn L.2 i := by
      funext i; rw [fn_set, hfn]; by_cases hi : i = k <;> simp [hi, hlen]
    rw [hd, lay_add, lay_add, show k + (1 + d) - (k + 1) = d by omega] at *
    simp only [lay, Nat.zero_add]
    rw [hM]
    simp only [if_true]
    rw [lay_congr (a := 0) (n := k) (C' := fn L.1) (M' := fn L.2) (fun i _ hi => ⟨rfl, if_neg (by omega)⟩)]
    rw [project_set (ne_of_lay h0)]
    exact lay_congr (fun i hi _ => ⟨rfl, if_neg (by omega)⟩) _

end Verif.TN
