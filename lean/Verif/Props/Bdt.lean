import Verif.Lemmas.BdtCompose

/-!
# Properties of the decision-diagram simulator

* C37: controlled and anti-controlled gates;
* C38: measurement;
* C57: composition.

The amplitudes of a tree are what `GetAmplitude` returns. `State n t` are the trees that `SetPermutation`,
`SetQuantumState` and every operation below produce.
-/

namespace Verif.Bdt

open Verif.Matrix2 Verif.Spec.Circuit Verif.Spec

/-- A normalised tree of `n` qubits: between operations, sibling nodes share a probability of one, nodes without branches
above the lowest level are zero, and the root has modulus one. -/
def State (n : ℕ) (t : Node) : Prop := Good n t ∧ ‖t.scale‖ = 1

/-! ## C37: gates -/

/-- `SetPermutation` gives the basis state. -/
theorem setPermutation_spec (n perm : ℕ) (z : ℂ) (hz : ‖z‖ = 1) : State n (setPermutation n perm z) ∧
    ∀ k, getAmplitude n (setPermutation n perm z) k = if k % 2 ^ n = perm % 2 ^ n then z else 0 := by
  refine ⟨⟨good_perm n perm z ?_, by rw [scale_perm, hz]⟩, fun k => amp_perm n perm z k⟩
  rintro rfl
  simp at hz

/-- `SetQuantumState` followed by `GetAmplitude` returns every state vector. -/
theorem setQuantumState_spec (n : ℕ) (state : ℕ → ℂ) (h : totalProb n state = 1) : ∃ t, setQuantumState n state = some t ∧
    State n t ∧ ∀ k < 2 ^ n, getAmplitude n t k = state k := by
  obtain ⟨t, e, g, a⟩ := setQuantumState_ok n state
  have ha : ∀ k < 2 ^ n, amp n t k = state k := fun k hk => by rw [a, Nat.mod_eq_of_lt hk]
  refine ⟨t, e, ⟨g, ?_⟩, ha⟩
  have e1 := total_semi n t g.semi
  rw [normSq_of_norm] at e1
  have e2 : ∑ k ∈ Finset.range (2 ^ n), Complex.normSq (amp n t k) = 1 := by
    rw [← h, totalProb]
    exact Finset.sum_congr rfl fun k hk => by rw [ha k (Finset.mem_range.1 hk)]
  rw [e2] at e1
  nlinarith [norm_nonneg t.scale]

/-- An uncontrolled gate acts as its matrix, up to a phase only if the global phase is random. -/
theorem mtrx_spec (rgp : Bool) {n target : ℕ} {m : Mtrx} (hm : Unitary m) (ht : target < n) {t : Node} (h : State n t) :
    ∃ t', applySingle rgp n m target t = some t' ∧ State n t' ∧ ∃ z : ℂ, ‖z‖ = 1 ∧ (rgp = false → z = 1) ∧
      ∀ k, gate (fun _ => True) target m.m0 m.m1 m.m2 m.m3 (getAmplitude n t) k = z * getAmplitude n t' k := by
  obtain ⟨t', e, g, s, z, hz, hr, -, a⟩ := applySingle_ok rgp hm ht h.1
  exact ⟨t', e, ⟨g, s.trans h.2⟩, z, hz, hr, a⟩

/-- A controlled gate updates exactly the amplitudes whose controls are all set, for every unitary matrix, every target and
every set of controls, above or below the target. -/
theorem mcMtrx_spec (rgp : Bool) {n target : ℕ} {controls : List ℕ} {m : Mtrx} (hm : Unitary m) (hne : controls ≠ [])
    (hl : Legal n controls target) {t : Node} (h : State n t) : ∃ t', mcMtrx rgp n controls m target t = some t' ∧ State n t' ∧
      ∀ k, getAmplitude n t' k = gate (AllAre true controls) target m.m0 m.m1 m.m2 m.m3 (getAmplitude n t) k := by
  obtain ⟨t', e, g, s, a⟩ := mcMtrx_ok rgp hm hne hl t h.1
  exact ⟨t', e, ⟨g, s.trans h.2⟩, a⟩

/-- Branches whose controls do not match keep their amplitudes. -/
theorem mcMtrx_unmatched (rgp : Bool) {n target : ℕ} {controls : List ℕ} {m : Mtrx} (hm : Unitary m) (hne : controls ≠ [])
    (hl : Legal n controls target) {t t' : Node} (h : State n t) (e : mcMtrx rgp n controls m target t = some t') {k c : ℕ}
    (hc : c ∈ controls) (hk : k.testBit c = false) : getAmplitude n t' k = getAmplitude n t k := by
  obtain ⟨t'', e', -, a⟩ := mcMtrx_spec rgp hm hne hl h
  obtain rfl : t'' = t' := by rw [e] at e'; exact (Option.some.inj e').symm
  rw [a, gate, if_neg]
  intro hall
  rw [hall c hc] at hk
  exact absurd hk (by simp)

/-- Exchanging two qubits. -/
theorem swap_spec (rgp : Bool) {n q1 q2 : ℕ} (h1 : q1 < n) (h2 : q2 < n) {t : Node} (h : State n t) :
    ∃ t', swap rgp n q1 q2 t = some t' ∧ State n t' ∧ ∀ k, getAmplitude n t' k = getAmplitude n t (swapBits q1 q2 k) := by
  obtain ⟨t', e, g, s, a⟩ := swap_ok rgp h1 h2 t h.1
  exact ⟨t', e, ⟨g, s.trans h.2⟩, a⟩

/-- An anti-controlled gate updates exactly the amplitudes whose controls are all clear, if it is a phase gate, an inversion,
or its qubits other than the greatest one are next to each other. Missing: other matrices on other qubits, where the
statement is false (`macMtrx_iff`). -/
theorem macMtrx_partial (rgp : Bool) {n target : ℕ} {controls : List ℕ} {m : Mtrx} (hm : Unitary m) (hne : controls ≠ [])
    (hl : Legal n controls target)
    (hq : (m.m1 = 0 ∧ m.m2 = 0) ∨ (m.m0 = 0 ∧ m.m3 = 0) ∨ LowConsecutive (target :: controls)) {t : Node} (h : State n t) :
    ∃ t', macMtrx rgp n controls m target t = some t' ∧ State n t' ∧
      ∀ k, getAmplitude n t' k = gate (AllAre false controls) target m.m0 m.m1 m.m2 m.m3 (getAmplitude n t) k := by
  obtain ⟨t', e, g, s, a⟩ := macMtrx_ok rgp hm hne hl hq t h.1
  exact ⟨t', e, ⟨g, s.trans h.2⟩, a⟩

/-- A single anti-control always works. -/
theorem macMtrx_single_partial (rgp : Bool) {n target c : ℕ} {m : Mtrx} (hm : Unitary m) (hc : c < n) (ht : target < n)
    (hne : c ≠ target) {t : Node} (h : State n t) : ∃ t', macMtrx rgp n [c] m target t = some t' ∧ State n t' ∧
      ∀ k, getAmplitude n t' k = gate (AllAre false [c]) target m.m0 m.m1 m.m2 m.m3 (getAmplitude n t) k := by
  refine macMtrx_partial rgp hm (by simp) ⟨by simp, by simpa using hc, by simpa using hne.symm, ht⟩ (Or.inr (Or.inr ?_)) h
  rcases lt_or_gt_of_ne hne with hlt | hlt
  · refine ⟨target, by simp, ?_, c, c + 1, fun q => ?_⟩
    · intro q hq
      simp only [List.mem_cons, List.not_mem_nil, or_false] at hq
      omega
    · simp only [List.mem_cons, List.not_mem_nil, or_false]
      omega
  · refine ⟨c, by simp, ?_, target, target + 1, fun q => ?_⟩
    · intro q hq
      simp only [List.mem_cons, List.not_mem_nil, or_false] at hq
      omega
    · simp only [List.mem_cons, List.not_mem_nil, or_false]
      omega

/-- For a matrix that is neither diagonal nor antidiagonal, the anti-controlled gate is right on all states if and only if
its qubits other than the greatest one are next to each other. -/
theorem macMtrx_iff (rgp : Bool) {n target : ℕ} {controls : List ℕ} {m : Mtrx} (hm : Unitary m) (hne : controls ≠ [])
    (hl : Legal n controls target) (h1 : ¬ (m.m1 = 0 ∧ m.m2 = 0)) (h2 : ¬ (m.m0 = 0 ∧ m.m3 = 0)) :
    (∀ t, State n t → ∃ t', macMtrx rgp n controls m target t = some t' ∧ ∀ k < 2 ^ n,
      getAmplitude n t' k = gate (AllAre false controls) target m.m0 m.m1 m.m2 m.m3 (getAmplitude n t) k) ↔
    LowConsecutive (target :: controls) := by
  constructor
  · intro hall
    by_contra hno
    obtain ⟨t, hg, hs, t', e, k, hk, hneq⟩ := macMtrx_bad rgp hm hne hl h1 h2 hno
    obtain ⟨t'', e', a⟩ := hall t ⟨hg, hs⟩
    obtain rfl : t'' = t' := by rw [e] at e'; exact (Option.some.inj e').symm
    exact hneq (a k hk)
  · intro hq t h
    obtain ⟨t', e, -, a⟩ := macMtrx_partial rgp hm hne hl (Or.inr (Or.inr hq)) h
    exact ⟨t', e, fun k _ => a k⟩

/-- The anti-controlled Hadamard gate with target 3 and controls 0 and 2 is wrong for a state of four qubits. -/
theorem macMtrx_gap_wrong (rgp : Bool) : ∃ t, State 4 t ∧ ∃ t', macMtrx rgp 4 [0, 2] hMtrx 3 t = some t' ∧ ∃ k < 2 ^ 4,
    getAmplitude 4 t' k ≠ gate (AllAre false [0, 2]) 3 hMtrx.m0 hMtrx.m1 hMtrx.m2 hMtrx.m3 (getAmplitude 4 t) k := by
  obtain ⟨t, hg, hs, h⟩ := macMtrx_bad rgp unitary_h (controls := [0, 2]) (target := 3) (n := 4) (by simp)
    ⟨by simp, by simp, by simp, by norm_num⟩ (by simp [hMtrx]) (by simp [hMtrx]) (by
      rintro ⟨top, htop, hmax, a, b, hab⟩
      have ht3 : top = 3 := by
        have := hmax 3 (by simp)
        simp only [List.mem_cons, List.not_mem_nil, or_false] at htop
        omega
      subst ht3
      have e0 := (hab 0).1 (by simp)
      have e2 := (hab 2).1 (by simp)
      have e1 := (hab 1).2 (by omega)
      simp at e1)
  exact ⟨t, ⟨hg, hs⟩, h⟩

/-- The calls of the interface. -/
inductive Op
  | mc (controls : List ℕ) (m : Mtrx) (target : ℕ)
  | mac (controls : List ℕ) (m : Mtrx) (target : ℕ)

/-- A call on the tree. -/
noncomputable def Op.run (rgp : Bool) (n : ℕ) : Op → Node → Option Node
  | .mc cs m q => mcMtrx rgp n cs m q
  | .mac cs m q => macMtrx rgp n cs m q

/-- A call on the state vector. -/
noncomputable def Op.spec : Op → (ℕ → ℂ) → ℕ → ℂ
  | .mc cs m q => gate (AllAre true cs) q m.m0 m.m1 m.m2 m.m3
  | .mac cs m q => gate (AllAre false cs) q m.m0 m.m1 m.m2 m.m3

/-- Legal calls; anti-controls as in `macMtrx_partial`. -/
def Op.Ok (n : ℕ) : Op → Prop
  | .mc cs m q => Unitary m ∧ Legal n cs q
  | .mac cs m q => Unitary m ∧ Legal n cs q ∧
      (cs = [] ∨ (m.m1 = 0 ∧ m.m2 = 0) ∨ (m.m0 = 0 ∧ m.m3 = 0) ∨ LowConsecutive (q :: cs))

theorem gate_smul (p : ℕ → Prop) [DecidablePred p] (t : ℕ) (a b c d z : ℂ) (s : ℕ → ℂ) (k : ℕ) :
    gate p t a b c d (fun i => z * s i) k = z * gate p t a b c d s k := by
  unfold gate
  split
  · split <;> ring
  · rfl

theorem Op.ok (rgp : Bool) {n : ℕ} {op : Op} (h : op.Ok n) {t : Node} (ht : State n t) : ∃ t', op.run rgp n t = some t' ∧
    State n t' ∧ ∃ z : ℂ, ‖z‖ = 1 ∧ (rgp = false → z = 1) ∧
      ∀ k, op.spec (getAmplitude n t) k = z * getAmplitude n t' k := by
  have hnil : ∀ (v : Bool) (m : Mtrx) (q k : ℕ) (s : ℕ → ℂ), gate (AllAre v []) q m.m0 m.m1 m.m2 m.m3 s k =
      gate (fun _ => True) q m.m0 m.m1 m.m2 m.m3 s k := fun v m q k s =>
    gate_congr q _ _ _ _ _ _ (by simp [AllAre])
  cases op with
  | mc cs m q =>
    obtain ⟨hm, hl⟩ := h
    by_cases hne : cs = []
    · subst hne
      obtain ⟨t', e, g, z, hz, hr, a⟩ := mtrx_spec rgp hm hl.target ht
      refine ⟨t', ?_, g, z, hz, hr, fun k => (hnil true m q k _).trans (a k)⟩
      rw [Op.run, mcMtrx, if_pos rfl, e]
    · obtain ⟨t', e, g, a⟩ := mcMtrx_spec rgp hm hne hl ht
      exact ⟨t', e, g, 1, by simp, fun _ => rfl, fun k => by rw [one_mul, a]; rfl⟩
  | mac cs m q =>
    obtain ⟨hm, hl, hq⟩ := h
    by_cases hne : cs = []
    · subst hne
      obtain ⟨t', e, g, z, hz, hr, a⟩ := mtrx_spec rgp hm hl.target ht
      refine ⟨t', ?_, g, z, hz, hr, fun k => (hnil false m q k _).trans (a k)⟩
      rw [Op.run, macMtrx, if_pos rfl, e]
    · obtain ⟨t', e, g, a⟩ := macMtrx_partial rgp hm hne hl (hq.resolve_left hne) ht
      exact ⟨t', e, g, 1, by simp, fun _ => rfl, fun k => by rw [one_mul, a]; rfl⟩

theorem Op.spec_smul (op : Op) (z : ℂ) (s : ℕ → ℂ) (k : ℕ) : op.spec (fun i => z * s i) k = z * op.spec s k := by
  cases op <;> exact gate_smul ..

/-- Every sequence of gates from a basis state gives the amplitudes of the state vector, up to a phase only if the global
phase is random. Missing: anti-controlled gates for which the code is wrong. -/
theorem circuit_partial (rgp : Bool) {n : ℕ} (ops : List Op) (hok : ∀ op ∈ ops, op.Ok n) {t : Node} (ht : State n t) :
    ∃ t', ops.foldlM (fun t op => op.run rgp n t) t = some t' ∧ State n t' ∧ ∃ z : ℂ, ‖z‖ = 1 ∧ (rgp = false → z = 1) ∧
      ∀ k, ops.foldl (fun s op => op.spec s) (getAmplitude n t) k = z * getAmplitude n t' k := by
  induction ops generalizing t with
  | nil => exact ⟨t, rfl, ht, 1, by simp, fun _ => rfl, fun k => by simp⟩
  | cons op ops ih =>
    obtain ⟨t1, e1, g1, z1, hz1, hr1, a1⟩ := Op.ok rgp (hok op (by simp)) ht
    obtain ⟨t2, e2, g2, z2, hz2, hr2, a2⟩ := ih (fun o ho => hok o (by simp [ho])) g1
    refine ⟨t2, ?_, g2, z1 * z2, by rw [norm_mul, hz1, hz2, one_mul], fun h => by rw [hr1 h, hr2 h, one_mul], fun k => ?_⟩
    · rw [List.foldlM_cons, e1]
      exact e2
    · have hlin : ∀ (l : List Op) (z : ℂ) (s : ℕ → ℂ), l.foldl (fun s op => op.spec s) (fun i => z * s i) =
          fun i => z * l.foldl (fun s op => op.spec s) s i := by
        intro l z
        induction l with
        | nil => intro s; rfl
        | cons o l ihl =>
          intro s
          rw [List.foldl_cons, List.foldl_cons, show o.spec (fun i => z * s i) = fun i => z * o.spec s i from
            funext (o.spec_smul z s), ihl]
      rw [List.foldl_cons, show op.spec (getAmplitude n t) = fun i => z1 * getAmplitude n t1 i from funext a1, hlin]
      dsimp only
      rw [a2]
      ring

/-- A Toffoli gate and an anti-controlled phase gate with a gap, after a Hadamard gate, from a basis state. -/
example : ∃ t', [Op.mc [] hMtrx 0, Op.mc [0, 2] ⟨0, 1, 1, 0⟩ 1, Op.mac [0, 2] ⟨1, 0, 0, -1⟩ 3].foldlM
    (fun t op => op.run true 4 t) (setPermutation 4 5 1) = some t' ∧ State 4 t' := by
  obtain ⟨t', e, g, -⟩ := circuit_partial true
    [Op.mc [] hMtrx 0, Op.mc [0, 2] ⟨0, 1, 1, 0⟩ 1, Op.mac [0, 2] ⟨1, 0, 0, -1⟩ 3] (n := 4) (by
      intro op hop
      simp only [List.mem_cons, List.not_mem_nil, or_false] at hop
      rcases hop with rfl | rfl | rfl
      · exact ⟨unitary_h, by simp, by simp, by simp, by norm_num⟩
      · exact ⟨unitary_x, by simp, by simp, by simp, by norm_num⟩
      · exact ⟨unitary_diag (by simp), ⟨by simp, by simp, by simp, by norm_num⟩, Or.inr (Or.inl ⟨rfl, rfl⟩)⟩)
    (setPermutation_spec 4 5 1 (by simp)).1
  exact ⟨t', e, g⟩

/-! ## C38: measurement -/

/-- `Prob` is the Born probability. -/
theorem prob_spec {n q : ℕ} {t : Node} (h : State n t) (hq : q < n) :
    prob n t q = some (probIf n (fun i => i.testBit q = true) (getAmplitude n t)) := prob_ok h.1 h.2 hq

theorem total_one {n : ℕ} {t : Node} (h : State n t) : probIf n (fun _ => True) (getAmplitude n t) = 1 := by
  have := probIf_true h.1
  rw [normSq_of_norm, h.2, one_pow] at this
  exact this

theorem total_one' {n : ℕ} {t : Node} (h : State n t) : totalProb n (getAmplitude n t) = 1 := by
  have := total_semi n t h.1.semi
  rw [normSq_of_norm, h.2, one_pow] at this
  exact this

/-- `ProbAll` is the squared magnitude of the amplitude. -/
theorem probAll_spec {n : ℕ} {t : Node} (h : State n t) {k : ℕ} (hk : k < 2 ^ n) :
    probAll n t k = Complex.normSq (getAmplitude n t k) := by
  have h0 := Complex.normSq_nonneg (getAmplitude n t k)
  have h1 : Complex.normSq (getAmplitude n t k) ≤ 1 := by
    rw [← total_one' h, totalProb]
    exact Finset.single_le_sum (f := fun i => Complex.normSq (getAmplitude n t i)) (fun _ _ => Complex.normSq_nonneg _)
      (Finset.mem_range.2 hk)
  unfold probAll clampProb
  dsimp only
  have e : ¬ Complex.normSq (getAmplitude n t k) < 0 := by linarith
  have e1 : ¬ Complex.normSq (getAmplitude n t k) > 1 := by linarith
  simp only [if_neg e, if_neg e1]

/-- The result of `ForceM` has positive probability, and the new tree is normalised. -/
theorem forceM_result {n q : ℕ} {t : Node} (h : State n t) (hq : q < n) (result doForce : Bool) (draw : ℝ) {z : ℂ}
    (hz : ‖z‖ = 1) : ∃ r t', forceM n q result doForce true draw z t = some (r, t') ∧ State n t' ∧
      0 < probIf n (fun i => i.testBit q = r) (getAmplitude n t) := by
  obtain ⟨t', e, g, s, -⟩ := forceM_ok h.1 h.2 hq result doForce draw hz
  refine ⟨_, t', e, ⟨g, s⟩, lt_of_le_of_ne (probIf_nonneg _ _ _) (Ne.symm ?_)⟩
  exact outcome_pos (total_one h) draw result doForce

/-- A forced result of positive probability is the result. -/
theorem forceM_forced {n q : ℕ} {t : Node} (h : State n t) (hq : q < n) (r : Bool) (draw : ℝ) {z : ℂ} (hz : ‖z‖ = 1)
    (hp : probIf n (fun i => i.testBit q = r) (getAmplitude n t) ≠ 0) :
    ∃ t', forceM n q r true true draw z t = some (r, t') := by
  obtain ⟨t', e, -⟩ := forceM_ok h.1 h.2 hq r true draw hz
  refine ⟨t', ?_⟩
  have hadd := probIf_add_compl n q (getAmplitude n t)
  rw [total_one h] at hadd
  have h0 := probIf_nonneg n (fun i => i.testBit q = true) (getAmplitude n t)
  have h0' := probIf_nonneg n (fun i => i.testBit q = false) (getAmplitude n t)
  rw [e]
  congr 2
  show outcome (probIf n (fun i => i.testBit q = true) (getAmplitude n t)) draw r true = r
  unfold outcome
  cases r with
  | true =>
    split
    · rfl
    · rw [if_neg (fun hle => hp (le_antisymm hle h0))]; rfl
  | false =>
    rw [if_neg (fun hge => hp (by linarith))]
    split <;> rfl

/-- Without applying the measurement, the state stays. -/
theorem forceM_peek {n q : ℕ} {t : Node} (h : State n t) (hq : q < n) (result doForce : Bool) (draw : ℝ) (z : ℂ) :
    ∃ r, forceM n q result doForce false draw z t = some (r, t) := by
  rw [forceM, prob_ok h.1 h.2 hq]
  exact ⟨_, rfl⟩

/-- `ForceM` leaves the collapsed state if and only if the measured qubit is independent of the qubits below it. -/
theorem forceM_iff {n q : ℕ} {t t' : Node} {r : Bool} (h : State n t) (hq : q < n) {result doForce : Bool} {draw : ℝ} {z : ℂ}
    (hz : ‖z‖ = 1) (e : forceM n q result doForce true draw z t = some (r, t')) :
    Collapsed n (fun i => i.testBit q = r) (getAmplitude n t) (getAmplitude n t') ↔
      ∀ a < 2 ^ q, probIf n (fun i => i % 2 ^ q = a ∧ i.testBit q = r) (getAmplitude n t) =
        probIf n (fun i => i.testBit q = r) (getAmplitude n t) * probIf n (fun i => i % 2 ^ q = a) (getAmplitude n t) := by
  obtain ⟨t'', e', g, s, a⟩ := forceM_ok h.1 h.2 hq result doForce draw hz
  rw [e] at e'
  obtain ⟨rfl, rfl⟩ := Prod.mk.inj (Option.some.inj e')
  refine collapsed_iff (u := z / t.scale) (by rw [norm_div, hz, h.2, div_one]) (total_one h) (total_one' ⟨g, s⟩) ?_ a
  exact outcome_pos (total_one h) draw result doForce

/-- The state after `ForceM` is the collapsed state if the qubit is independent of the qubits below it. Missing: other
states, where the statement is false (`forceM_iff`, `forceM_bell_wrong`). -/
theorem forceM_partial {n q : ℕ} {t t' : Node} {r : Bool} (h : State n t) (hq : q < n) {result doForce : Bool} {draw : ℝ} {z : ℂ}
    (hz : ‖z‖ = 1) (e : forceM n q result doForce true draw z t = some (r, t'))
    (hind : ∀ a < 2 ^ q, probIf n (fun i => i % 2 ^ q = a ∧ i.testBit q = r) (getAmplitude n t) =
        probIf n (fun i => i.testBit q = r) (getAmplitude n t) * probIf n (fun i => i % 2 ^ q = a) (getAmplitude n t)) :
    Collapsed n (fun i => i.testBit q = r) (getAmplitude n t) (getAmplitude n t') := (forceM_iff h hq hz e).2 hind

/-- Measuring the first qubit always collapses. -/
theorem forceM_first_partial {n : ℕ} {t t' : Node} {r : Bool} (h : State n t) (hn : 0 < n) {result doForce : Bool} {draw : ℝ}
    {z : ℂ} (hz : ‖z‖ = 1) (e : forceM n 0 result doForce true draw z t = some (r, t')) :
    Collapsed n (fun i => i.testBit 0 = r) (getAmplitude n t) (getAmplitude n t') := by
  refine forceM_partial h hn hz e fun a ha => ?_
  obtain rfl : a = 0 := by simpa using ha
  rw [probIf_congr (p' := fun _ => True) (p := fun i => i % 2 ^ 0 = 0) (s' := getAmplitude n t)
    (fun i _ => by simp [Nat.mod_one]) (fun _ _ => rfl), total_one h, mul_one]
  exact probIf_congr (fun i _ => by simp [Nat.mod_one]) (fun _ _ => rfl)

/-- The Bell state. -/
noncomputable def bell (k : ℕ) : ℂ := if k = 0 ∨ k = 3 then (Real.sqrt (1 / 2) : ℂ) else 0

theorem bell_norm : Complex.normSq (Real.sqrt (1 / 2) : ℂ) = 1 / 2 := by
  rw [Complex.normSq_ofReal, Real.mul_self_sqrt (by norm_num)]

theorem bell_total : totalProb 2 bell = 1 := by
  rw [totalProb, show 2 ^ 2 = 4 by norm_num]
  simp only [Finset.sum_range_succ, Finset.sum_range_zero, bell]
  norm_num [bell_norm]

open Classical in
/-- Measuring the second qubit of the Bell state with result one leaves an amplitude on the state 00. -/
theorem forceM_bell_wrong (draw : ℝ) (z : ℂ) (hz : ‖z‖ = 1) : ∃ t t', setQuantumState 2 bell = some t ∧ State 2 t ∧
    forceM 2 1 true true true draw z t = some (true, t') ∧ getAmplitude 2 t' 0 ≠ 0 := by
  obtain ⟨t, e, h, a⟩ := setQuantumState_spec 2 bell bell_total
  have hev : ∀ P : ℕ → Prop, probIf 2 P (getAmplitude 2 t) = (if P 0 then 1 / 2 else 0) + (if P 3 then 1 / 2 else 0) := by
    intro P
    rw [probIf_congr (p' := P) (s' := bell) (fun _ _ => Iff.rfl) (fun i hi => a i hi), probIf, show 2 ^ 2 = 4 by norm_num]
    simp only [Finset.sum_range_succ, Finset.sum_range_zero, bell]
    norm_num [bell_norm]
  have e3 : Nat.testBit 3 1 = true := by decide
  obtain ⟨t', e'⟩ := forceM_forced h (by norm_num : 1 < 2) true draw hz (by rw [hev]; norm_num [e3])
  refine ⟨t, t', e, h, e', ?_⟩
  obtain ⟨t'', e'', -, -, a'⟩ := forceM_ok h.1 h.2 (by norm_num : 1 < 2) true true draw hz
  rw [e'] at e''
  obtain ⟨hr, rfl⟩ := Prod.mk.inj (Option.some.inj e'')
  rw [← hr] at a'
  have h0 := a' 0
  have hw : probIf 2 (fun i => i % 2 ^ 1 = 0 % 2 ^ 1 ∧ i.testBit 1 = true) (getAmplitude 2 t) = 0 := by
    rw [hev]; norm_num
  rw [show factor 2 1 true (amp 2 t) 0 = 1 from if_pos hw] at h0
  show amp 2 t' 0 ≠ 0
  rw [h0, show amp 2 t 0 = bell 0 from a 0 (by norm_num)]
  have hz0 : z ≠ 0 := by intro e; rw [e] at hz; simp at hz
  refine mul_ne_zero (div_ne_zero hz0 (norm_scale_pos (n := 2) h.2)) ?_
  simp [bell]

/-- `MAll` draws qubit after qubit with the Born probability given the qubits below, and leaves the basis state it returns;
without collapse it leaves the state alone. -/
theorem mAll_spec {n : ℕ} {t : Node} (h : State n t) (draws : ℕ → ℝ) :
    ∃ k < 2 ^ n, getAmplitude n t k ≠ 0 ∧
      (∀ j < n, k.testBit j = bornBit (probIf n (fun x => x % 2 ^ j = k % 2 ^ j ∧ x.testBit j = true) (getAmplitude n t) /
        probIf n (fun x => x % 2 ^ j = k % 2 ^ j) (getAmplitude n t)) (draws j)) ∧
      mAll false draws n 0 t = some (k, t) ∧
      ∃ t', mAll true draws n 0 t = some (k, t') ∧ State n t' ∧
        Collapsed n (fun i => i = k) (getAmplitude n t) (getAmplitude n t') := by
  obtain ⟨k, hk, hak, hj, hf, t', ht, hg, hs, ha⟩ := mAll_ok draws n 0 t h.1 (norm_scale_pos (n := n) h.2)
  rw [pow_zero, one_mul] at hf ht
  have hst : State n t' := ⟨hg, by rw [hs, h.2]⟩
  refine ⟨k, hk, hak, fun j hjn => ?_, hf, t', ht, hst, t.scale / getAmplitude n t k, ?_, ?_, total_one' hst⟩
  · have := hj j hjn
    rwa [Nat.zero_add] at this
  · rintro i hi rfl
    rw [div_mul_cancel₀ _ hak]
    exact (ha i).trans (if_pos (Nat.mod_eq_of_lt hi))
  · intro i hi hne
    exact (ha i).trans (if_neg (by rwa [Nat.mod_eq_of_lt hi]))

/-- The hypotheses hold for the Bell state. -/
example (draw : ℝ) : ∃ t r t', setQuantumState 2 bell = some t ∧ State 2 t ∧ forceM 2 0 true true true draw 1 t = some (r, t') ∧
    Collapsed 2 (fun i => i.testBit 0 = r) (getAmplitude 2 t) (getAmplitude 2 t') := by
  obtain ⟨t, e, h, -⟩ := setQuantumState_spec 2 bell bell_total
  obtain ⟨r, t', e', -⟩ := forceM_result h (by norm_num : 0 < 2) true true draw (z := 1) (by simp)
  exact ⟨t, r, t', e, h, e', forceM_first_partial h (by norm_num) (by simp) e'⟩

/-! ## C57: composition -/

/-- Composing at the end gives the tensor product, up to the phase of the root of the added tree. Missing: composing at
another place, where the statement is false (`compose_inside_wrong`). -/
theorem compose_partial {n m : ℕ} {t b : Node} (ht : State n t) (hb : State m b) (hn : n ≠ 0) (hm : m ≠ 0) :
    ∃ t', compose n t m b n = some (n, t') ∧ State (n + m) t' ∧ ∃ z : ℂ, ‖z‖ = 1 ∧ ∀ k,
      getAmplitude (n + m) t' k = z * (getAmplitude n t (k % 2 ^ n) * getAmplitude m b (k / 2 ^ n)) := by
  have hbs := norm_scale_pos (n := m) hb.2
  obtain ⟨t', e, s, g, a⟩ := compose_ok ht.1 hb.1 hbs hm (by omega) le_rfl
  refine ⟨t', e, ⟨g rfl, by rw [s, ht.2]⟩, b.scale⁻¹, by rw [norm_inv, hb.2, inv_one], fun k => ?_⟩
  have h1 : getAmplitude (n + m) t' k = _ := a k
  have h2 : getAmplitude n t (k % 2 ^ n) = getAmplitude n t k := amp_mod n t k
  rw [h1, h2]
  show _ = b.scale⁻¹ * (amp n t k * amp m b (k / 2 ^ n))
  ring

/-- Composing at a place inside drops all qubits from there on: the amplitudes of the result do not depend on them. -/
theorem compose_inside {n m start : ℕ} {t b : Node} (ht : State n t) (hb : State m b) (h1 : 1 ≤ start) (h2 : start < n)
    (hm : m ≠ 0) : ∃ t', compose n t m b start = some (start, t') ∧
      ∀ k, getAmplitude (n + m) t' k = getAmplitude (n + m) t' (k % 2 ^ (start + m)) := by
  obtain ⟨t', e, s, g, a⟩ := compose_ok ht.1 hb.1 (norm_scale_pos (n := m) hb.2) hm h1 h2.le
  refine ⟨t', e, fun k => ?_⟩
  show amp (n + m) t' k = amp (n + m) t' _
  rw [a, a]
  have e1 : k % 2 ^ (start + m) % 2 ^ start = k % 2 ^ start := Nat.mod_mod_of_dvd _ (pow_dvd_pow 2 (by omega))
  have e2 : k % 2 ^ (start + m) / 2 ^ start % 2 ^ m = k / 2 ^ start % 2 ^ m := by
    rw [pow_add, Nat.mod_mul_right_div_self, Nat.mod_mod]
  rw [← amp_mod start t (k % 2 ^ (start + m)), e1, amp_mod start t k, ← amp_mod m b (k % 2 ^ (start + m) / 2 ^ start), e2,
    amp_mod m b (k / 2 ^ start)]

/-- One qubit in the state zero put in front of the second qubit of the basis state 2: the result has the amplitude one on
two basis states. -/
theorem compose_inside_wrong : ∃ t', compose 2 (setPermutation 2 2 1) 1 (setPermutation 1 0 1) 1 = some (1, t') ∧
    getAmplitude 3 t' 0 = 1 ∧ getAmplitude 3 t' 4 = 1 := by
  have hb : Good 1 (setPermutation 1 0 1) := good_perm 1 0 1 one_ne_zero
  obtain ⟨t', e, -, -, a⟩ := compose_ok (good_perm 2 2 1 one_ne_zero) hb (by rw [scale_perm]; exact one_ne_zero)
    (by norm_num) (le_refl 1) (by norm_num)
  refine ⟨t', e, ?_, ?_⟩
  · refine (a 0).trans ?_
    rw [amp_perm, scale_perm]
    simp [setPermutation, amp, getAmplitude, Node.scale]
  · refine (a 4).trans ?_
    rw [amp_perm, scale_perm]
    simp [setPermutation, amp, getAmplitude, Node.scale]

/-- The hypotheses of `compose_partial` hold for two registers of two qubits. -/
example : ∃ t', compose 2 (setPermutation 2 2 1) 2 (setPermutation 2 1 Complex.I) 2 = some (2, t') ∧ State 4 t' := by
  obtain ⟨t', e, g, -⟩ := compose_partial (setPermutation_spec 2 2 1 (by simp)).1
    (setPermutation_spec 2 1 Complex.I (by simp)).1 (by norm_num) (by norm_num)
  exact ⟨t', e, g⟩

end Verif.Bdt
