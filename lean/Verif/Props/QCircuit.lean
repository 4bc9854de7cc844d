import Verif.Lemmas.QCircuitBound
import Verif.Spec.Gate
import Mathlib.Tactic.NormNum
import Mathlib.Data.Nat.Bitwise

/-!
# C31: building a circuit gate by gate preserves its effect

The calls that `Run` makes on the simulator, for a circuit built by any sequence of appends, have the effect of the appended
gates one after another, up to a phase. What the calls do is stated independently (`opAct`), and tied to the specification used for
the state-vector engine (`ucMtrx_engine`, `uniform_engine`, `swap_engine`).
-/

namespace Verif.QCirc

open Verif.Matrix2 Verif.Spec.Circuit

variable {Q : Type} [LinearOrder Q]

/-- What a call on the simulator does. -/
def opAct : Op Q → St Q → St Q
  | .mtrx m t => onQubit t m
  | .swap p q => swap p q
  | .ucMtrx cs m t perm => multiplex t cs (fun k => if k = perm then some m else none)
  | .uniform cs t payload => multiplex t cs (fun k => payload[k]?)

/-- The calls in order. -/
def opsAct (ops : List (Op Q)) (ψ : St Q) : St Q := ops.foldl (fun φ o => opAct o φ) ψ

/-- The qubits a call names. -/
def Op.qubits : Op Q → List Q
  | .mtrx _ t => [t]
  | .swap p q => [p, q]
  | .ucMtrx cs _ t _ => t :: cs
  | .uniform cs t _ => t :: cs

/-! ### `Run` -/

/-- The call for a gate does what the gate does. -/
theorem op_act {g : Gate Q} (hg : g.Wf) : ∃ o, g.op = some o ∧ opAct o = g.act ∧ ∀ q ∈ o.qubits, q ∈ g.qubits := by
  have hq : ∀ q ∈ g.target :: g.controls, q ∈ g.qubits := by
    intro q h; rw [List.mem_cons] at h; simp [Gate.qubits, h]
  unfold Gate.op
  cases hc : g.controls with
  | nil =>
    cases hp : g.payloads with
    | nil => exact absurd hp hg.nonempty
    | cons e m =>
      have h1 : g.payloads.get e.1 = some e.2 := mem_get hg.ok (by rw [hp]; simp)
      have h2 := (hg.entries _ _ h1).1
      rw [hc] at h2
      have h3 : e.1 = 0 := by simp at h2; exact h2
      rw [h3] at h1
      rw [← hp, h1]
      refine ⟨_, rfl, ?_, ?_⟩
      · funext ψ b
        rw [act_apply, hc]
        show _ = match g.payloads.get 0 with
          | none => ψ b
          | some m => onQubit g.target m ψ b
        rw [h1]; rfl
      · intro q h; exact hq q (by simp [Op.qubits] at h; simp [h])
  | cons c cs =>
    cases hp : g.payloads with
    | nil => exact absurd hp hg.nonempty
    | cons e m =>
      cases m with
      | nil =>
        refine ⟨_, rfl, ?_, ?_⟩
        · funext ψ b
          rw [act_apply, hp, hc, get_cons, get_nil]
          simp only [opAct, multiplex]
          by_cases h : e.1 = key (c :: cs) b
          · simp [h]
          · have : ¬ key (c :: cs) b = e.1 := fun h0 => h h0.symm
            simp [h, this]
        · intro q h; exact hq q (by rw [hc]; exact h)
      | cons e' m =>
        refine ⟨_, rfl, ?_, ?_⟩
        · funext ψ b
          rw [act_apply, ← hc]
          simp only [opAct, multiplex, Gate.uniformPayload]
          rw [List.getElem?_map, List.getElem?_range (key_lt _ _)]
          simp only [Option.map_some]
          cases h : g.payloads.get (key g.controls b) with
          | none => simp only [Option.getD_none]; rw [onQubit_id _ _ rfl rfl rfl rfl]
          | some v => rfl
        · intro q h; exact hq q (by rw [hc]; exact h)

theorem cnot_act {g : Gate Q} (hg : g.Wf) {e : Bool} (h : g.isCnotOn e.toNat = true) :
    ∃ q, g.controls = [q] ∧ q ≠ g.target ∧
      ∀ ψ b, g.act ψ b = ψ (Function.update b g.target (b g.target ^^ (b q == e))) := by
  unfold Gate.isCnotOn at h
  simp only [Bool.and_eq_true, decide_eq_true_eq] at h
  obtain ⟨⟨h1, h2⟩, h3⟩ := h
  obtain ⟨q, hq⟩ := List.length_eq_one_iff.1 h1
  obtain ⟨x, hx⟩ := List.length_eq_one_iff.1 h2
  have hne : q ≠ g.target := by
    intro h0; apply hg.notMem; rw [hq, h0]; simp
  refine ⟨q, hq, hne, ?_⟩
  intro ψ b
  cases hm : g.payloads.get e.toNat with
  | none => rw [hm] at h3; simp at h3
  | some p =>
    rw [hm] at h3
    simp only [decide_eq_true_eq] at h3
    obtain ⟨p0, p3, p1, p2⟩ := h3
    have hx1 : x.1 = e.toNat := by
      rw [hx, get_cons, get_nil] at hm
      by_contra h0
      rw [if_neg h0] at hm; cases hm
    have hkey : key g.controls b = (b q).toNat := by rw [hq]; simp [key]
    by_cases hb : b q = e
    · rw [act_some (by rw [hkey, hb]; exact hm)]
      simp only [onQubit, p0, p3, ← sub_eq_zero.1 p1, ← sub_eq_zero.1 p2, zero_mul, zero_add, add_zero, one_mul]
      have : (b q == e) = true := by simp [hb]
      rw [this]
      cases b g.target <;> simp
    · have hne' : (b q).toNat ≠ e.toNat := by
        cases hbq : b q <;> cases e <;> simp_all
      rw [act_none (by rw [hkey, hx, get_cons, get_nil, if_neg (by rw [hx1]; exact hne'.symm)])]
      have : (b q == e) = false := by simp [hb]
      rw [this, Bool.xor_false, Function.update_eq_self]

/-- Three alternating controlled NOT gates exchange the two qubits. -/
theorem swapTriple_act {a b c : Gate Q} (ha : a.Wf) (hb : b.Wf) (hc : c.Wf) (h : isSwapTriple a b c = true) :
    ∃ q, a.controls = [q] ∧ ∀ ψ, c.act (b.act (a.act ψ)) = swap q a.target ψ := by
  unfold isSwapTriple at h
  simp only [Bool.and_eq_true, decide_eq_true_eq] at h
  obtain ⟨⟨⟨⟨⟨⟨h1, h2⟩, h3⟩, h4⟩, h5⟩, h6⟩, h7⟩ := h
  have hk : ∃ e : Bool, a.isCnotOn e.toNat = true ∧ b.isCnotOn e.toNat = true ∧ c.isCnotOn e.toNat = true := by
    cases hi : a.isCnotOn 0
    · rw [hi] at h1 h2 h5
      simp at h1 h2 h5
      exact ⟨true, h1, h2, h5⟩
    · rw [hi] at h2 h5
      simp at h2 h5
      exact ⟨false, hi, h2, h5⟩
  obtain ⟨e, ka, kb, kc⟩ := hk
  obtain ⟨qa, ca, na, aa⟩ := cnot_act ha ka
  obtain ⟨qb, cb, nb, ab⟩ := cnot_act hb kb
  obtain ⟨qc, cc, nc, ac⟩ := cnot_act hc kc
  rw [ca] at h3 h7
  rw [cb] at h4
  rw [cc] at h7
  simp only [List.head?_cons, Option.some.injEq] at h3 h4 h7
  subst h3 h4 h7
  refine ⟨b.target, ca, fun ψ => ?_⟩
  funext x
  rw [ac, ab, aa, h6]
  unfold swap
  congr 1
  funext r
  by_cases hr : r = a.target
  · subst hr
    simp only [Function.update_self, Function.update_of_ne na, Function.update_of_ne nb, if_neg nb, if_true]
    cases x a.target <;> cases x b.target <;> cases e <;> rfl
  · by_cases hr' : r = b.target
    · subst hr'
      simp only [Function.update_self, Function.update_of_ne na, Function.update_of_ne nb, if_true]
      cases x a.target <;> cases x b.target <;> cases e <;> rfl
    · simp only [Function.update_of_ne hr, Function.update_of_ne hr', if_neg hr, if_neg hr']

/-- What `Run` is meant to do for a gate: without payloads a swap, otherwise the multiplexed gate. -/
def Gate.meaning (g : Gate Q) : St Q → St Q :=
  match g.payloads, g.controls with
  | [], c :: _ => swap c g.target
  | _, _ => g.act

/-- A gate made by any of the constructors: with payloads, or a swap of two different qubits. -/
def Gate.Good (g : Gate Q) : Prop := g.Wf ∨ ∃ p q, p ≠ q ∧ g = swapGate p q

theorem meaning_wf {g : Gate Q} (hg : g.Wf) : g.meaning = g.act := by
  unfold Gate.meaning
  cases hp : g.payloads with
  | nil => exact absurd hp hg.nonempty
  | cons e m => rfl

theorem op_meaning {g : Gate Q} (hg : g.Good) : ∃ o, g.op = some o ∧ opAct o = g.meaning ∧ ∀ q ∈ o.qubits, q ∈ g.qubits := by
  rcases hg with hg | ⟨p, q, hpq, rfl⟩
  · rw [meaning_wf hg]; exact op_act hg
  · refine ⟨.swap q p, rfl, rfl, ?_⟩
    intro x hx
    simp only [Op.qubits, List.mem_cons, List.not_mem_nil, or_false] at hx
    simp [Gate.qubits, swapGate]; tauto

theorem wf_of_cnot {g : Gate Q} (hg : g.Good) {k : ℕ} (h : g.isCnotOn k = true) : g.Wf := by
  rcases hg with hg | ⟨p, q, hpq, rfl⟩
  · exact hg
  · simp [Gate.isCnotOn, swapGate] at h

theorem wf_of_triple {a b c : Gate Q} (ha : a.Good) (hb : b.Good) (hc : c.Good) (h : isSwapTriple a b c = true) :
    a.Wf ∧ b.Wf ∧ c.Wf := by
  unfold isSwapTriple at h
  simp only [Bool.and_eq_true, decide_eq_true_eq, Bool.or_eq_true] at h
  obtain ⟨⟨⟨⟨⟨⟨h1, h2⟩, _⟩, _⟩, h5⟩, _⟩, _⟩ := h
  refine ⟨?_, ?_, ?_⟩
  · rcases h1 with h | h <;> exact wf_of_cnot ha h
  · rcases h2 with h | h <;> exact wf_of_cnot hb h.2
  · rcases h5 with h | h <;> exact wf_of_cnot hc h.2

/-- `Run` makes calls with the effect of the gates, on qubits the gates name. -/
theorem runOps_meaning (gs : List (Gate Q)) (hgs : ∀ g ∈ gs, g.Good) :
    ∃ ops, runOps gs = some ops ∧ (∀ ψ, opsAct ops ψ = gs.foldl (fun φ g => g.meaning φ) ψ) ∧
      ∀ o ∈ ops, ∀ q ∈ o.qubits, ∃ g ∈ gs, q ∈ g.qubits := by
  unfold runOps
  induction gs using recogniseSwaps.induct with
  | case1 a b c rest htr =>
    rename_i hm ih
    obtain ⟨w1, w2, w3⟩ := wf_of_triple (hgs a (by simp)) (hgs b (by simp)) (hgs c (by simp)) htr
    obtain ⟨q, e1, e2⟩ := swapTriple_act w1 w2 w3 htr
    rw [hm] at e1; cases e1
  | case2 a b c rest htr q qs hm ih =>
    obtain ⟨w1, w2, w3⟩ := wf_of_triple (hgs a (by simp)) (hgs b (by simp)) (hgs c (by simp)) htr
    obtain ⟨q', e1, e2⟩ := swapTriple_act w1 w2 w3 htr
    have hqq : q = q' := by rw [hm] at e1; exact (List.cons.inj e1).1
    subst hqq
    obtain ⟨ops, i1, i2, i3⟩ := ih (fun g hg => hgs g (by simp [hg]))
    rw [recogniseSwaps, if_pos htr]
    rw [hm]
    refine ⟨.swap q a.target :: ops, ?_, fun ψ => ?_, ?_⟩
    · simp only
      rw [List.mapM_cons, i1]; rfl
    · show opsAct ops (swap q a.target ψ) = _
      rw [i2, ← e2, List.foldl_cons, List.foldl_cons, List.foldl_cons, meaning_wf w1, meaning_wf w2, meaning_wf w3]
    · intro o' ho' p hp
      rcases List.mem_cons.1 ho' with rfl | ho'
      · refine ⟨a, by simp, ?_⟩
        simp only [Op.qubits, List.mem_cons, List.not_mem_nil, or_false] at hp
        simp [Gate.qubits, e1]; tauto
      · obtain ⟨h, hh, hh'⟩ := i3 o' ho' p hp
        exact ⟨h, by simp [hh], hh'⟩
  | case3 a b c rest htr ih =>
    rw [recogniseSwaps, if_neg htr]
    obtain ⟨ops, e1, e2, e3⟩ := ih (fun g hg => hgs g (List.mem_cons_of_mem _ hg))
    obtain ⟨o, f1, f2, f3⟩ := op_meaning (hgs a (by simp))
    refine ⟨o :: ops, ?_, fun ψ => ?_, ?_⟩
    · rw [List.mapM_cons, f1, e1]; rfl
    · show opsAct ops (opAct o ψ) = _
      rw [e2, f2]; rfl
    · intro o' ho' q hq
      rcases List.mem_cons.1 ho' with rfl | ho'
      · exact ⟨a, by simp, f3 q hq⟩
      · obtain ⟨h, hh, hh'⟩ := e3 o' ho' q hq
        exact ⟨h, List.mem_cons_of_mem _ hh, hh'⟩
  | case4 l hl =>
    have : recogniseSwaps l = l := by
      match l, hl with
      | [], _ => rw [recogniseSwaps]; simp
      | [x], _ => rw [recogniseSwaps]; simp
      | [x, y], _ => rw [recogniseSwaps]; simp
      | x :: y :: z :: r, hl => exact absurd rfl (hl x y z r)
    rw [this]
    clear this hl
    induction l with
    | nil => exact ⟨[], rfl, fun ψ => rfl, by simp⟩
    | cons g l ih =>
      obtain ⟨ops, e1, e2, e3⟩ := ih (fun x hx => hgs x (List.mem_cons_of_mem _ hx))
      obtain ⟨o, f1, f2, f3⟩ := op_meaning (hgs g (by simp))
      refine ⟨o :: ops, ?_, fun ψ => ?_, ?_⟩
      · rw [List.mapM_cons, f1, e1]; rfl
      · show opsAct ops (opAct o ψ) = _
        rw [e2, f2]; rfl
      · intro o' ho' q hq
        rcases List.mem_cons.1 ho' with rfl | ho'
        · exact ⟨g, by simp, f3 q hq⟩
        · obtain ⟨h, hh, hh'⟩ := e3 o' ho' q hq
          exact ⟨h, List.mem_cons_of_mem _ hh, hh'⟩

theorem runOps_act (gs : List (Gate Q)) (hgs : ∀ g ∈ gs, g.Wf) :
    ∃ ops, runOps gs = some ops ∧ (∀ ψ, opsAct ops ψ = run gs ψ) ∧ ∀ o ∈ ops, ∀ q ∈ o.qubits, ∃ g ∈ gs, q ∈ g.qubits := by
  obtain ⟨ops, e1, e2, e3⟩ := runOps_meaning gs (fun g hg => Or.inl (hgs g hg))
  refine ⟨ops, e1, fun ψ => ?_, e3⟩
  rw [e2]
  clear e1 e2 e3
  induction gs generalizing ψ with
  | nil => rfl
  | cons g gs ih =>
    rw [List.foldl_cons, meaning_wf (hgs g (by simp)), run_cons]
    exact ih (fun x hx => hgs x (List.mem_cons_of_mem _ hx)) _

/-! ### Append histories -/

/-- One append to a collapsing circuit. -/
theorem append_step {c : Circuit ℕ} (hcol : c.isCollapsed = true) (hc : ∀ g ∈ c.gates, g.Wf)
    (hq : ∀ g ∈ c.gates, g.In (· < c.qubitCount)) {n : Gate ℕ} (hn : n.Wf) :
    ∃ c', c.append n = some c' ∧ c'.isCollapsed = true ∧ (∀ g ∈ c'.gates, g.Wf) ∧
      (∀ g ∈ c'.gates, g.In (· < c'.qubitCount)) ∧ RayEq c'.gates (c.gates ++ [n]) := by
  unfold Circuit.append
  rw [hcol]
  simp only [Bool.not_true, Bool.false_eq_true, if_false]
  by_cases hi : n.isIdentity = true
  · rw [if_pos hi]
    refine ⟨c, rfl, hcol, hc, hq, ?_⟩
    obtain ⟨gs, r, e1, e2, e3, e4⟩ := appendGate_ok c.isNearClifford (c.gates.length + 1) c.gates n hc hn (by omega)
    rw [appendGate, if_pos hi, Option.some.injEq, Prod.mk.injEq] at e1
    rw [← e1.1] at e4; exact e4
  · rw [if_neg hi]
    obtain ⟨gs, r, e1, e2, e3, e4⟩ := appendGate_ok c.isNearClifford (c.gates.length + 1) c.gates n hc hn (by omega)
    rw [e1]
    refine ⟨_, rfl, rfl, e2, ?_, e4⟩
    have main : ∀ N, c.qubitCount ≤ N → n.In (· < N) → ∀ g ∈ gs, g.In (· < N) := by
      intro N hN hnN
      exact appendGate_in _ _ _ _ _ _ (fun g hg => ⟨lt_of_lt_of_le (hq g hg).1 hN,
        fun x hx => lt_of_lt_of_le ((hq g hg).2 x hx) hN⟩) hnN e1
    dsimp only
    -- the largest control is the last one
    have hlast : ∀ q, n.controls.getLast? = some q → ∀ x ∈ n.controls, x ≤ q := by
      intro q hqq x hx
      obtain ⟨l, hl⟩ := List.getLast?_eq_some_iff.1 hqq
      rw [hl, List.mem_append, List.mem_singleton] at hx
      have hs := hn.sorted
      rw [hl, List.pairwise_append] at hs
      rcases hx with hx | hx
      · exact le_of_lt (hs.2.2 x hx q (by simp))
      · exact le_of_eq hx
    cases hgl : n.controls.getLast? with
    | none =>
      have hnil := List.getLast?_eq_none_iff.1 hgl
      simp only
      by_cases h1 : n.target + 1 > c.qubitCount
      · rw [if_pos h1]
        exact main _ (by omega) ⟨by simp, by rw [hnil]; simp⟩
      · rw [if_neg h1]
        exact main _ le_rfl ⟨by show n.target < _; omega, by rw [hnil]; simp⟩
    | some q =>
      have hl := hlast q hgl
      simp only
      apply main
      · split_ifs <;> omega
      · refine ⟨?_, fun x hx => ?_⟩
        · show n.target < _
          split_ifs <;> omega
        · have := hl x hx
          show x < _
          split_ifs <;> omega

theorem appendAll_step (ns : List (Gate ℕ)) (hns : ∀ n ∈ ns, n.Wf) {c : Circuit ℕ} (hcol : c.isCollapsed = true)
    (hc : ∀ g ∈ c.gates, g.Wf) (hq : ∀ g ∈ c.gates, g.In (· < c.qubitCount)) :
    ∃ c', c.appendAll ns = some c' ∧ (∀ g ∈ c'.gates, g.Wf) ∧ (∀ g ∈ c'.gates, g.In (· < c'.qubitCount)) ∧
      RayEq c'.gates (c.gates ++ ns) := by
  induction ns generalizing c with
  | nil => exact ⟨c, rfl, hc, hq, by rw [List.append_nil]; exact RayEq.refl _⟩
  | cons n ns ih =>
    obtain ⟨c1, e1, e2, e3, e4, e5⟩ := append_step hcol hc hq (hns n (by simp))
    obtain ⟨c2, f1, f2, f3, f4⟩ := ih (fun x hx => hns x (List.mem_cons_of_mem _ hx)) e2 e3 e4
    refine ⟨c2, ?_, f2, f3, f4.trans ?_⟩
    · rw [Circuit.appendAll, e1]; exact f1
    · have := e5.append ns
      rwa [List.append_assoc] at this

/-- **C31.** A collapsing circuit, in either merging mode, built from the empty circuit by any sequence of appends: `Run` makes
calls on qubits below the counted number of qubits, and those calls do what the appended gates do one after another, up to a
phase. Every gate has at least one payload; the gate made by the two-qubit `Swap` constructor has none, see
`swap_constructor_dropped`. -/
theorem append_history_partial (clifford : Bool) (ns : List (Gate ℕ)) (hns : ∀ n ∈ ns, n.Wf) :
    ∃ c ops, (Circuit.mk true clifford 0 []).appendAll ns = some c ∧ runOps c.gates = some ops ∧
      (∀ o ∈ ops, ∀ q ∈ o.qubits, q < c.qubitCount) ∧
      ∀ ψ, SameRay (opsAct ops ψ) (ns.foldl (fun φ n => multiplex n.target n.controls n.payloads.get φ) ψ) := by
  obtain ⟨c, e1, e2, e3, z, hz, e4⟩ := appendAll_step ns hns (c := Circuit.mk true clifford 0 []) rfl (by simp) (by simp)
  obtain ⟨ops, f1, f2, f3⟩ := runOps_act c.gates e2
  refine ⟨c, ops, e1, f1, ?_, fun ψ => ⟨z, hz, fun b => ?_⟩⟩
  · intro o ho q hq
    obtain ⟨g, hg, hgq⟩ := f3 o ho q hq
    have := e3 g hg
    rw [Gate.qubits, Finset.mem_insert, List.mem_toFinset] at hgq
    rcases hgq with rfl | hgq
    · exact this.1
    · exact this.2 q hgq
  · rw [f2, e4]; rfl

/-- The Pauli X matrix. -/
def xM : Mtrx := ⟨0, 1, 1, 0⟩

/-- The Pauli Z matrix. -/
def zM : Mtrx := ⟨1, 0, 0, -1⟩

/-- A gate with one payload. -/
theorem single_wf {t : Q} {cs : List Q} {k : ℕ} {m : Mtrx} (h1 : t ∉ cs) (h2 : cs.Pairwise (· < ·)) (h3 : k < 2 ^ cs.length)
    (h4 : Unitary m) : (Gate.mk t cs [(k, m)]).Wf := by
  refine ⟨h1, h2, by simp [PMap.Ok], by simp, ?_⟩
  intro j v h
  simp only [get_cons, get_nil] at h
  by_cases hj : k = j
  · rw [if_pos hj, Option.some.injEq] at h
    subst h; subst hj; exact ⟨h3, h4⟩
  · rw [if_neg hj] at h; cases h

/-- A history with gates that combine, pass and cancel: X, CNOT, X, CZ, CNOT. -/
example : ∀ n ∈ [Gate.mk 0 [] [(0, xM)], Gate.mk 1 [0] [(1, xM)], Gate.mk 0 [] [(0, xM)], Gate.mk 0 [1] [(1, zM)],
    Gate.mk 1 [0] [(1, xM)]], Gate.Wf n := by
  intro n hn
  simp only [List.mem_cons, List.not_mem_nil, or_false] at hn
  rcases hn with rfl | rfl | rfl | rfl | rfl <;>
    exact single_wf (by simp) (by simp) (by simp) (by simp [Unitary, xM, zM])

/-- A circuit that does not collapse gates keeps them as they are. -/
theorem append_uncollapsed (ns : List (Gate ℕ)) (c : Circuit ℕ) (h : c.isCollapsed = false) :
    c.appendAll ns = some { c with gates := c.gates ++ ns } := by
  induction ns generalizing c with
  | nil => simp [Circuit.appendAll]
  | cons n ns ih =>
    rw [Circuit.appendAll]
    have : c.append n = some { c with gates := c.gates ++ [n] } := by unfold Circuit.append; rw [h]; rfl
    rw [this]
    show Circuit.appendAll _ ns = _
    rw [ih { c with gates := c.gates ++ [n] } h]; simp

/-- `QCircuit::Swap` appends gates that exchange the qubits. -/
theorem swapGates_act {p q : ℕ} (h : p ≠ q) (ψ : St ℕ) :
    (∀ g ∈ swapGates p q, g.Wf) ∧ run (swapGates p q) ψ = swap p q ψ := by
  have hu : Unitary xM := by simp [Unitary, xM]
  have main : ∀ a b : ℕ, a < b →
      (∀ g ∈ [Gate.mk a [b] [(1, xM)], Gate.mk b [a] [(1, xM)], Gate.mk a [b] [(1, xM)]], g.Wf) ∧
      run [Gate.mk a [b] [(1, xM)], Gate.mk b [a] [(1, xM)], Gate.mk a [b] [(1, xM)]] ψ = swap b a ψ := by
    intro a b hab
    have w1 : (Gate.mk a [b] [(1, xM)]).Wf := single_wf (by simp; omega) (by simp) (by simp) hu
    have w2 : (Gate.mk b [a] [(1, xM)]).Wf := single_wf (by simp; omega) (by simp) (by simp) hu
    have hcn : ∀ x y : ℕ, (Gate.mk x [y] [(1, xM)]).isCnotOn 1 = true := by
      intro x y; simp [Gate.isCnotOn, get_cons, xM]
    have hcz : ∀ x y : ℕ, (Gate.mk x [y] [(1, xM)]).isCnotOn 0 = false := by
      intro x y; simp [Gate.isCnotOn, get_cons, get_nil]
    constructor
    · intro g hg
      simp only [List.mem_cons, List.not_mem_nil, or_false] at hg
      rcases hg with rfl | rfl | rfl
      · exact w1
      · exact w2
      · exact w1
    · obtain ⟨q', e1, e2⟩ := swapTriple_act w1 w2 w1 (by simp [isSwapTriple, hcn, hcz])
      simp only [List.cons.injEq, and_true] at e1
      subst e1
      exact e2 ψ
  have hsymm : ∀ a b : ℕ, swap a b ψ = swap b a ψ := by
    intro a b
    funext x
    unfold swap
    congr 1
    funext r
    by_cases h1 : r = a <;> by_cases h2 : r = b
    · rw [← h1, ← h2]
    · simp [h1, h2]; intro h3; rw [h3]
    · simp [h1, h2]; intro h3; rw [h3]
    · simp [h1, h2]
  unfold swapGates
  rw [if_neg h]
  by_cases hpq : p > q
  · rw [if_pos hpq]
    exact main q p hpq
  · rw [if_neg hpq]
    have := main p q (by omega)
    rw [hsymm q p] at this
    exact this

/-! ### Where the property fails -/

/-- The gate of the two-qubit `Swap` constructor is taken for an identity and dropped, although running it would exchange the
qubits. -/
theorem swap_constructor_dropped :
    (Circuit.mk true false 0 []).append (swapGate 0 1) = some (Circuit.mk true false 0 []) ∧
    runOps [swapGate (0 : ℕ) 1] = some [.swap 1 0] ∧
    ∃ ψ : St ℕ, ¬ SameRay (opsAct [.swap 1 0] ψ) (opsAct [] ψ) := by
  refine ⟨?_, ?_, ?_⟩
  · have : (swapGate (0 : ℕ) 1).isIdentity = true := by simp [swapGate, Gate.isIdentity]
    simp [Circuit.append, this]
  · simp [runOps, recogniseSwaps, Gate.op, swapGate]
  · refine ⟨fun b => if b 0 then 1 else 0, ?_⟩
    rintro ⟨z, hz, h⟩
    have := h (fun q => decide (q = 1))
    simp [opsAct, opAct, swap] at this

/-- `Run`'s allocation, `src/qcircuit.cpp:175-177`: the number of qubits of the simulator afterwards. -/
def runAllocate (qubitCount simQubits : ℕ) : ℕ := if simQubits < qubitCount then simQubits + (qubitCount - simQubits) else simQubits

/-- A circuit that does not collapse gates never counts its qubits: `Run` on an empty simulator then names a qubit the simulator
does not have. -/
theorem uncollapsed_count_wrong : ∃ c ops, (Circuit.mk false false 0 []).append (Gate.mk 3 [] [(0, xM)]) = some c ∧
    runOps c.gates = some ops ∧ ∃ o ∈ ops, ∃ q ∈ o.qubits, runAllocate c.qubitCount 0 ≤ q := by
  refine ⟨_, [.mtrx xM 3], rfl, ?_, ?_⟩
  · simp [runOps, recogniseSwaps, Gate.op, get_cons]
  · exact ⟨.mtrx xM 3, by simp, 3, by simp [Op.qubits], by simp [runAllocate]⟩

/-! ### The calls in the terms used for the state-vector engine -/

open Verif.Spec

theorem testBit_flip (i t : ℕ) : (fun q => (flipBit t i).testBit q) = Function.update i.testBit t (!i.testBit t) := by
  funext q
  unfold flipBit
  rw [Nat.testBit_xor, Nat.testBit_two_pow]
  by_cases h : q = t
  · subst h; simp
  · have : ¬ t = q := fun h0 => h h0.symm
    rw [Function.update_of_ne h]; simp [this]

theorem onQubit_engine (t : ℕ) (m : Mtrx) (ψ : St ℕ) (i : ℕ) :
    onQubit t m ψ i.testBit = gate (fun _ => True) t m.m0 m.m1 m.m2 m.m3 (fun j => ψ j.testBit) i := by
  have h1 : (flipBit t i).testBit = Function.update i.testBit t (!i.testBit t) := testBit_flip i t
  simp only [onQubit, gate, if_true]
  rw [h1]
  cases h : i.testBit t
  · have : Function.update i.testBit t false = i.testBit := by rw [← h, Function.update_eq_self]
    simp [this]
  · have : Function.update i.testBit t true = i.testBit := by rw [← h, Function.update_eq_self]
    simp [this]

theorem key_matches (cs : List ℕ) (i perm : ℕ) (hp : perm < 2 ^ cs.length) : key cs i.testBit = perm ↔ Matches perm cs i := by
  constructor
  · rintro rfl k hk
    rw [key_testBit, List.getElem?_eq_getElem hk]; rfl
  · intro h
    apply Nat.eq_of_testBit_eq
    intro k
    rw [key_testBit]
    by_cases hk : k < cs.length
    · rw [List.getElem?_eq_getElem hk]; exact h k hk
    · rw [List.getElem?_eq_none (by omega), Nat.testBit_lt_two_pow (lt_of_lt_of_le hp (Nat.pow_le_pow_right (by omega) (by omega)))]
      rfl

/-- `UCMtrx` as specified here is `UCMtrx` as specified and proved for the engine (`ucMtrx_gate`). -/
theorem ucMtrx_engine (cs : List ℕ) (m : Mtrx) (t perm : ℕ) (hp : perm < 2 ^ cs.length) (ψ : St ℕ) (i : ℕ) :
    opAct (.ucMtrx cs m t perm) ψ i.testBit = gate (Matches perm cs) t m.m0 m.m1 m.m2 m.m3 (fun j => ψ j.testBit) i := by
  simp only [opAct, multiplex]
  by_cases h : key cs i.testBit = perm
  · simp only [h, if_true]
    rw [onQubit_engine]
    unfold gate
    rw [if_pos trivial, if_pos ((key_matches cs i perm hp).1 h)]
  · simp only [h, if_false]
    unfold gate
    rw [if_neg (fun h0 => h ((key_matches cs i perm hp).2 h0))]

/-- `UniformlyControlledSingleBit` likewise: the matrix for the number read off the controls. -/
theorem uniform_engine (cs : List ℕ) (t : ℕ) (payload : List Mtrx) (hl : payload.length = 2 ^ cs.length) (ψ : St ℕ) (i : ℕ) :
    ∃ m, payload[key cs i.testBit]? = some m ∧ opAct (.uniform cs t payload) ψ i.testBit =
      gate (fun _ => True) t m.m0 m.m1 m.m2 m.m3 (fun j => ψ j.testBit) i := by
  have hk : key cs i.testBit < payload.length := by rw [hl]; exact key_lt _ _
  refine ⟨_, List.getElem?_eq_getElem hk, ?_⟩
  simp only [opAct, multiplex]
  rw [List.getElem?_eq_getElem hk]
  exact onQubit_engine _ _ _ _

/-- `Swap` likewise. -/
theorem swap_engine (p q : ℕ) (ψ : St ℕ) (i : ℕ) : opAct (.swap p q) ψ i.testBit = ψ (swapBits p q i).testBit := by
  simp only [opAct, swap]
  congr 1
  funext r
  unfold swapBits
  by_cases h : i.testBit p = i.testBit q
  · rw [if_pos h]
    by_cases h1 : r = p
    · rw [if_pos h1, h1, h]
    · rw [if_neg h1]
      by_cases h2 : r = q
      · rw [if_pos h2, h2, h]
      · rw [if_neg h2]
  · rw [if_neg h, Nat.testBit_xor, Nat.testBit_xor, Nat.testBit_two_pow, Nat.testBit_two_pow]
    have hpq : p ≠ q := fun h0 => h (by rw [h0])
    by_cases h1 : r = p
    · subst h1
      have : ¬ q = r := fun h0 => hpq h0.symm
      simp only [if_true, this, decide_true, decide_false, Bool.xor_false, Bool.xor_true]
      cases hr : i.testBit r <;> cases hq : i.testBit q <;> simp_all
    · rw [if_neg h1]
      have h1' : ¬ p = r := fun h0 => h1 h0.symm
      by_cases h2 : r = q
      · subst h2
        simp only [if_true, h1', decide_true, decide_false, Bool.false_xor, Bool.xor_true]
        cases hr : i.testBit r <;> cases hq : i.testBit p <;> simp_all
      · have h2' : ¬ q = r := fun h0 => h2 h0.symm
        simp [h2, h1', h2']

end Verif.QCirc
