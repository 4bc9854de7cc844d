import Verif.Lemmas.ExpUnitary

/-!
# C75: expectation values and variances in a basis given per qubit

`ExpectationUnitaryAll` and `VarianceUnitaryAll` are documented as the value of a "single-qubit tensor product observable". For one qubit
both are right. For several qubits the expectation is the sum of the single values, and the "variance" is the expectation of the tensor
product. With three angles the basis has two of the angles exchanged, and the state is not restored.
-/

namespace Verif.Engine

open Verif.Spec Verif.Spec.Rotation Verif.Spec.Observable Verif.Defaults Matrix Classical

/-! ### Common steps -/

theorem mean_phase {n : ℕ} (f : ℕ → ℝ) {u : ℂ} (hu : ‖u‖ = 1) {s s' : ℕ → ℂ} (h : SameOn n s' fun i => u * s i) :
    mean n f s' = mean n f s := by
  unfold mean
  refine Finset.sum_congr rfl fun i hi => ?_
  rw [h i (Finset.mem_range.1 hi), Complex.normSq_mul, Complex.normSq_eq_norm_sq u, hu, one_pow, one_mul]

theorem total_phase {n : ℕ} {u : ℂ} (hu : ‖u‖ = 1) {s s' : ℕ → ℂ} (h : SameOn n s' fun i => u * s i) :
    totalProb n s' = totalProb n s := by
  have := mean_phase (fun _ => 1) hu h
  simpa [mean, totalProb] using this

/-- The list that the loops see, as matrices. -/
noncomputable def mats (bits : List ℕ) (ops : List M2) : List (ℕ × Mat) := (bits.zip ops).map fun p => (p.1, mat p.2)

theorem zip_fst {α : Type} {bits : List ℕ} {ops : List α} (hlen : ops.length = bits.length) : (bits.zip ops).map Prod.fst = bits := by
  rw [List.map_fst_zip]; omega

theorem good_mats {n : ℕ} {bits : List ℕ} {ops : List M2} (hlen : ops.length = bits.length) (hnd : bits.Nodup) (hb : ∀ b ∈ bits, b < n)
    (hu : ∀ m ∈ ops, m.IsUnitary) : Good n (mats bits ops) := by
  refine ⟨?_, ?_, ?_⟩
  · have : (mats bits ops).map Prod.fst = (bits.zip ops).map Prod.fst := by simp [mats]
    rw [this, zip_fst hlen]; exact hnd
  · intro p hp
    obtain ⟨x, hx, rfl⟩ := List.mem_map.1 hp
    exact hb _ (List.of_mem_zip hx).1
  · intro p hp
    obtain ⟨x, hx, rfl⟩ := List.mem_map.1 hp
    exact mat_unitary (hu _ (List.of_mem_zip hx).2)

theorem adjs_mats (bits : List ℕ) (ops : List M2) :
    ((bits.zip ops).map fun p => (p.1, p.2.adj)).map (fun p => (p.1, mat p.2)) = adjs (mats bits ops) := by
  unfold adjs mats
  rw [List.map_map, List.map_map]
  refine List.map_congr_left fun p _ => ?_
  simp [mat_adj]

/-- The basis change before the evaluation. -/
theorem before {P : Par} (hP : P.Ok) {n : ℕ} (hn : n ≤ 64) {r : Bool} {e : Eng} (he : Calm n r e) (ht : totalProb n e.amp = 1) {bits : List ℕ}
    {ops : List M2} (hlen : ops.length = bits.length) (hnd : bits.Nodup) (hb : ∀ b ∈ bits, b < n) (hu : ∀ m ∈ ops, m.IsUnitary) :
    ∃ f u, applyOps P.σ e ((bits.zip ops).map fun p => (p.1, p.2.adj)) = some f ∧ Calm n r f ∧ f.Steady ∧ ‖u‖ = 1 ∧
      SameOn n f.amp (fun i => u * turn (adjs (mats bits ops)) e.amp i) := by
  obtain ⟨f, u, h1, h2, h3, h4⟩ := applyOps_calm hP.1 hn ((bits.zip ops).map fun p => (p.1, p.2.adj)) he (fun p hp => by
    obtain ⟨x, hx, rfl⟩ := List.mem_map.1 hp
    exact ⟨hb _ (List.of_mem_zip hx).1, adj_unitary (hu _ (List.of_mem_zip hx).2)⟩)
  rw [adjs_mats] at h4
  refine ⟨f, u, h1, h2, ⟨?_, fun h => by rw [h2.norm] at h; cases h⟩, h3, h4⟩
  rw [h2.n_eq, total_phase h3 h4, turn_total (good_mats hlen hnd hb hu).adjs, ht]

/-- The basis change after the evaluation. -/
theorem after {P : Par} (hP : P.Ok) {n : ℕ} (hn : n ≤ 64) {r : Bool} {e f : Eng} (hf : Calm n r f) {bits : List ℕ}
    {ops : List M2} (hlen : ops.length = bits.length) (hnd : bits.Nodup) (hb : ∀ b ∈ bits, b < n) (hu : ∀ m ∈ ops, m.IsUnitary) {u : ℂ}
    (h3 : ‖u‖ = 1) (h4 : SameOn n f.amp (fun i => u * turn (adjs (mats bits ops)) e.amp i)) :
    ∃ e', applyOps P.σ f (bits.zip ops) = some e' ∧ e'.n = n ∧ UpToPhase n e.amp e'.amp := by
  obtain ⟨e', v, g1, g2, g3, g4⟩ := applyOps_calm hP.1 hn (bits.zip ops) hf (fun p hp =>
    ⟨hb _ (List.of_mem_zip hp).1, hu _ (List.of_mem_zip hp).2⟩)
  have hg := good_mats hlen hnd hb hu
  refine ⟨e', g1, g2.n_eq, v * u, by rw [norm_mul, g3, h3, mul_one], fun i hi => ?_⟩
  rw [g4 i hi]
  dsimp only
  have := turn_congr (n := n) (mats bits ops) hg.lt h4 i hi
  rw [turn_smul, turn_back hg] at this
  rw [show ((bits.zip ops).map fun p => (p.1, mat p.2)) = mats bits ops from rfl, this]; ring

theorem eigenOr_flat {bits : List ℕ} (hne : bits ≠ []) {ws : List (ℝ × ℝ)} (hlen : ws.length = bits.length) (rest : List ℝ) :
    eigenOr bits (flat ws ++ rest) = flat ws ++ rest := by
  unfold eigenOr
  rw [if_neg]
  match bits, hne, ws, hlen with
  | _ :: _, _, w :: ws, _ => simp [flat]

theorem eigenOr_default (bits : List ℕ) : eigenOr bits [] = flat (bits.map fun _ => ((1 : ℝ), (-1 : ℝ))) ++ [] := by
  unfold eigenOr
  rw [if_pos rfl, List.append_nil]
  induction bits with
  | nil => rfl
  | cons b bs ih => rw [List.flatMap_cons, ih]; rfl

/-- The sum of the expectations of single-qubit observables. -/
noncomputable def expectSum (n : ℕ) (bits : List ℕ) (ops : List M2) (ws : List (ℝ × ℝ)) (s : ℕ → ℂ) : ℝ :=
  ((bits.zip (ops.zip ws)).map fun x => expect n (act (obs (mat x.2.1) x.2.2) x.1) s).sum

theorem mean_turn {n : ℕ} {bits : List ℕ} {ops : List M2} {ws : List (ℝ × ℝ)} (hlen : ops.length = bits.length)
    (hg : Good n (mats bits ops)) (s : ℕ → ℂ) :
    mean n (weightOf bits ws) (turn (adjs (mats bits ops)) s) = expectSum n bits ops ws s := by
  rw [mean_weights]
  unfold expectSum
  have key : ∀ (bs : List ℕ) (os : List M2) (us : List (ℝ × ℝ)), os.length = bs.length → (∀ x ∈ mats bs os, x ∈ mats bits ops) →
      ((bs.zip us).map fun x => (Spec.inner n (turn (adjs (mats bits ops)) s) (act (dg x.2) x.1 (turn (adjs (mats bits ops)) s))).re).sum =
      ((bs.zip (os.zip us)).map fun x => expect n (act (obs (mat x.2.1) x.2.2) x.1) s).sum := by
    intro bs
    induction bs with
    | nil => intro os us _ _; rfl
    | cons b bs ih =>
      intro os us hl hm
      match os, us, hl with
      | o :: os, [], _ => rfl
      | o :: os, w :: us, hl =>
        rw [List.zip_cons_cons, List.zip_cons_cons, List.zip_cons_cons, List.map_cons, List.map_cons, List.sum_cons, List.sum_cons,
          ih os us (by simpa using hl) (fun x hx => hm x (by rw [mats, List.zip_cons_cons, List.map_cons]; exact List.mem_cons_of_mem _ hx))]
        congr 1
        have hmem : (b, mat o) ∈ mats bits ops := hm _ (by rw [mats, List.zip_cons_cons, List.map_cons]; exact List.mem_cons_self ..)
        dsimp only
        rw [turn_one (dg w) hg hmem]
        rfl
  exact key bits ops ws hlen (fun _ h => h)

/-! ### The expectation -/

/-- **C75.** `ExpectationUnitaryAll` with unitary 2x2 operators returns the sum over the qubits of `⟨ψ|U diag(w0, w1) U†|ψ⟩`, and leaves the
state as it was, up to a global phase. -/
theorem expectationUnitary_sum {P : Par} (hP : P.Ok) {e : Eng} (hn : e.n ≤ 64) (he : e.Steady) (hd : e.doNorm = false) {bits : List ℕ}
    (hne : bits ≠ []) (hnd : bits.Nodup) (hb : ∀ b ∈ bits, b < e.n) {ops : List M2} (hlen : ops.length = bits.length)
    (hu : ∀ m ∈ ops, m.IsUnitary) {ws : List (ℝ × ℝ)} (hw : ws.length = bits.length) (rest : List ℝ) :
    ∃ e', expVarUnitary P true e bits ops (flat ws ++ rest) = some (expectSum e.n bits ops ws e.amp, e') ∧ e'.n = e.n ∧
      UpToPhase e.n e.amp e'.amp := by
  obtain ⟨f, u, h1, h2, h3, h4, h5⟩ := before hP hn ⟨rfl, hd, rfl⟩ he.1 hlen hnd hb hu
  obtain ⟨e', g1, g2, g3⟩ := after hP hn (e := e) h2 hlen hnd hb hu h4 h5
  refine ⟨e', ?_, g2, g3⟩
  unfold expVarUnitary
  rw [if_neg hne, if_neg (by omega), applyInv_eq _ _ _ (fun p hp => hu _ (List.of_mem_zip hp).2), h1, Option.bind_some,
    eigenOr_flat hne hw]
  unfold expVarFloats
  rw [if_pos rfl, expectationFloats_spec hP (by rw [h2.n_eq]; exact hn) h3 hne hnd (by rw [h2.n_eq]; exact hb) hw, Option.bind_some]
  dsimp only
  rw [g1, Option.map_some, h2.n_eq, mean_phase _ h4 h5, mean_turn hlen (good_mats hlen hnd hb hu)]

/-- **C75.** Without eigenvalues they are `+1` and `-1`. -/
theorem expectationUnitary_default {P : Par} (hP : P.Ok) {e : Eng} (hn : e.n ≤ 64) (he : e.Steady) (hd : e.doNorm = false) {bits : List ℕ}
    (hne : bits ≠ []) (hnd : bits.Nodup) (hb : ∀ b ∈ bits, b < e.n) {ops : List M2} (hlen : ops.length = bits.length)
    (hu : ∀ m ∈ ops, m.IsUnitary) :
    ∃ e', expVarUnitary P true e bits ops [] = some (expectSum e.n bits ops (bits.map fun _ => (1, -1)) e.amp, e') ∧ e'.n = e.n ∧
      UpToPhase e.n e.amp e'.amp := by
  have := expectationUnitary_sum hP hn he hd hne hnd hb hlen hu (ws := bits.map fun _ => (1, -1)) (by simp) []
  unfold expVarUnitary at this ⊢
  rw [eigenOr_default]
  rwa [eigenOr_flat hne (by simp)] at this

/-- **C75, partial.** For one qubit `ExpectationUnitaryAll` is the expectation of the observable. Full statement: for any list of qubits
it returns `expect e.n (tensor …) e.amp`, the expectation of the tensor product; it is false for two qubits
(`expectationUnitary_product_wrong`). -/
theorem expectationUnitary_one_partial {P : Par} (hP : P.Ok) {e : Eng} (hn : e.n ≤ 64) (he : e.Steady) (hd : e.doNorm = false) {q : ℕ}
    (hq : q < e.n) {m : M2} (hm : m.IsUnitary) (w : ℝ × ℝ) :
    ∃ e', expVarUnitary P true e [q] [m] [w.1, w.2] = some (expect e.n (tensor [(q, obs (mat m) w)]) e.amp, e') ∧ e'.n = e.n ∧
      UpToPhase e.n e.amp e'.amp := by
  obtain ⟨e', h1, h2, h3⟩ := expectationUnitary_sum hP hn he hd (bits := [q]) (by simp) (by simp) (by simpa using hq) (ops := [m]) rfl
    (by simpa using hm) (ws := [w]) rfl []
  refine ⟨e', ?_, h2, h3⟩
  rw [show flat [w] ++ [] = [w.1, w.2] from rfl] at h1
  rw [h1]
  simp [expectSum, expect, tensor]

/-! ### The variance -/

theorem obs_sq {U : Mat} (hU : Uᴴ * U = 1) (w : ℝ × ℝ) : obs U w * obs U w = obs U (w.1 ^ 2, w.2 ^ 2) := by
  unfold obs
  have : U * !![(w.1 : ℂ), 0; 0, (w.2 : ℂ)] * Uᴴ * (U * !![(w.1 : ℂ), 0; 0, (w.2 : ℂ)] * Uᴴ) =
      U * !![(w.1 : ℂ), 0; 0, (w.2 : ℂ)] * (Uᴴ * U) * !![(w.1 : ℂ), 0; 0, (w.2 : ℂ)] * Uᴴ := by
    simp only [Matrix.mul_assoc]
  rw [this, hU, Matrix.mul_one, Matrix.mul_assoc U, Matrix.mul_fin_two]
  simp [sq]

theorem mean_const_mul (n : ℕ) (c : ℝ) (f : ℕ → ℝ) (s : ℕ → ℂ) : mean n (fun i => c * f i) s = c * mean n f s := by
  unfold mean
  rw [Finset.mul_sum]
  exact Finset.sum_congr rfl fun i _ => by ring

theorem variance_eq {n : ℕ} {s : ℕ → ℂ} (h : totalProb n s = 1) (f : ℕ → ℝ) :
    variance n f s = mean n (fun i => f i ^ 2) s - mean n f s ^ 2 := by
  rw [variance_eq_mean]
  have : (fun i => (f i - mean n f s) ^ 2) = fun i => f i ^ 2 + ((-2 * mean n f s) * f i + mean n f s ^ 2 * 1) := by
    funext i; ring
  rw [this, mean_add, mean_add, mean_const_mul, mean_const_mul]
  have h1 : mean n (fun _ => 1) s = 1 := by
    have : mean n (fun _ => 1) s = totalProb n s := by simp [mean, totalProb]
    rw [this, h]
  rw [h1]; ring

/-- **C75, partial.** For one qubit `VarianceUnitaryAll` is `⟨A²⟩ - ⟨A⟩²`, and the state comes back. Full statement: the same for any list
of qubits with `A` the tensor product; it is false for two qubits (`varianceUnitary_wrong`). -/
theorem varianceUnitary_one_partial {P : Par} (hP : P.Ok) {e : Eng} (hn : e.n ≤ 64) (he : e.Steady) (hd : e.doNorm = false) {q : ℕ}
    (hq : q < e.n) {m : M2} (hm : m.IsUnitary) (w : ℝ × ℝ) :
    ∃ e', expVarUnitary P false e [q] [m] [w.1, w.2] = some (expect e.n (fun s => act (obs (mat m) w) q (act (obs (mat m) w) q s)) e.amp -
        expect e.n (act (obs (mat m) w) q) e.amp ^ 2, e') ∧ e'.n = e.n ∧ UpToPhase e.n e.amp e'.amp := by
  have hnd : [q].Nodup := by simp
  have hb : ∀ b ∈ [q], b < e.n := by simpa using hq
  have hu : ∀ x ∈ [m], x.IsUnitary := by simpa using hm
  obtain ⟨f, u, h1, h2, h3, h4, h5⟩ := before hP hn ⟨rfl, hd, rfl⟩ he.1 (bits := [q]) (ops := [m]) rfl hnd hb hu
  obtain ⟨e', g1, g2, g3⟩ := after hP hn (e := e) h2 (bits := [q]) (ops := [m]) rfl hnd hb hu h4 h5
  refine ⟨e', ?_, g2, g3⟩
  have hg := good_mats (bits := [q]) (ops := [m]) rfl hnd hb hu
  unfold expVarUnitary
  rw [if_neg (by simp), if_neg (by simp), applyInv_eq _ _ _ (fun p hp => hu _ (List.of_mem_zip hp).2), h1, Option.bind_some]
  have hw := eigenOr_flat (bits := [q]) (by simp) (ws := [w]) rfl []
  rw [show flat [w] ++ [] = [w.1, w.2] from rfl] at hw
  have hv := varianceFloats_partial hP (e := f) (by rw [h2.n_eq]; exact hn) h3 (b := q) (by rw [h2.n_eq]; exact hq) w []
  rw [show flat [w] ++ [] = [w.1, w.2] from rfl] at hv
  unfold expVarFloats
  rw [hw, if_neg (by simp), hv, Option.bind_some]
  dsimp only
  rw [g1, Option.map_some]
  congr 2
  have hft : totalProb e.n f.amp = 1 := by rw [← h2.n_eq]; exact h3.1
  have hsq : (fun i => weightOf [q] [w] i ^ 2) = weightOf [q] [(w.1 ^ 2, w.2 ^ 2)] := by
    funext i
    rw [weight_single, weight_single]
    split <;> rfl
  rw [h2.n_eq, variance_eq hft, hsq, mean_phase _ h4 h5, mean_phase _ h4 h5, mean_turn rfl hg, mean_turn rfl hg]
  simp only [expectSum, List.zip_cons_cons, List.zip_nil_right, List.map_cons, List.map_nil, List.sum_cons, List.sum_nil, add_zero]
  congr 1
  unfold expect
  dsimp only
  rw [act_act, obs_sq (mat_unitary hm).2]

theorem prod_aux (ws : List (ℝ × ℝ)) (rest : List ℝ) (lcv : ℕ) :
    ∀ (bs : List ℕ) (us : List (ℝ × ℝ)) (j : ℕ) (r : ℝ), us = ws.drop j → us.length = bs.length →
      ((bs.map pow2).zipIdx j).foldl (fun (r : ℝ) (x : ℕ × ℕ) =>
        r * if lcv &&& x.1 = 0 then (flat ws ++ rest).getD (x.2 <<< 1) 0 else
          (flat ws ++ rest).getD ((x.2 <<< 1) ||| 1) 0) r = r * prodOf bs us lcv := by
  intro bs
  induction bs with
  | nil => intro us j r _ _; simp [prodOf]
  | cons b bs ih =>
    intro us j r hus hlen
    cases us with
    | nil => simp at hlen
    | cons u us =>
      have hj : j < ws.length := by
        by_contra hc
        rw [List.drop_eq_nil_of_le (by omega)] at hus
        cases hus
      have hu : ws[j] = u := by
        have := List.drop_eq_getElem_cons hj
        rw [← hus] at this
        exact (List.cons.inj this).1.symm
      have hus' : us = ws.drop (j + 1) := by
        have := List.drop_eq_getElem_cons hj
        rw [← hus] at this
        exact (List.cons.inj this).2
      obtain ⟨h1, h2⟩ := flat_getD 0 ws rest j hj
      rw [hu] at h1 h2
      rw [List.map_cons, List.zipIdx_cons, List.foldl_cons]
      have hbit : (if lcv &&& pow2 b = 0 then (flat ws ++ rest).getD (j <<< 1) 0 else (flat ws ++ rest).getD ((j <<< 1) ||| 1) 0) =
          if lcv.testBit b then u.2 else u.1 := by
        have hne := and_pow_ne_bits lcv b
        rw [(shl_one j).1, two_mul_or_one, h1, h2]
        by_cases hc : lcv.testBit b = true
        · rw [if_pos hc, if_neg (hne.2 hc)]
        · rw [if_neg hc, if_pos (by by_contra h; exact hc (hne.1 h))]
      rw [hbit, prodOf]
      have := ih us (j + 1) (r * if lcv.testBit b = true then u.2 else u.1) hus' (by simpa using hlen)
      rw [this]; ring

/-- The list of qubits, bases and eigenvalues as matrices. -/
noncomputable def triplesOf (bits : List ℕ) (ops : List M2) (ws : List (ℝ × ℝ)) : List (ℕ × Mat × Mat) :=
  (bits.zip (ops.zip ws)).map fun x => (x.1, mat x.2.1, dg x.2.2)

theorem bases_triples : ∀ (bits : List ℕ) (ops : List M2) (ws : List (ℝ × ℝ)), ws.length = ops.length →
    bases (triplesOf bits ops ws) = mats bits ops
  | [], _, _, _ => by simp [bases, triplesOf, mats]
  | _ :: _, [], _, _ => by simp [bases, triplesOf, mats]
  | b :: bs, o :: os, w :: ws, h => by
    have := bases_triples bs os ws (by simpa using h)
    unfold bases triplesOf mats at *
    simp only [List.zip_cons_cons, List.map_cons, this]

theorem diags_triples : ∀ (bits : List ℕ) (ops : List M2) (ws : List (ℝ × ℝ)), ws.length = ops.length →
    diags (triplesOf bits ops ws) = (bits.zip ws).map fun x => (x.1, dg x.2)
  | [], _, _, _ => by simp [diags, triplesOf]
  | _ :: _, [], [], _ => by simp [diags, triplesOf]
  | b :: bs, o :: os, w :: ws, h => by
    have := diags_triples bs os ws (by simpa using h)
    unfold diags triplesOf at *
    simp only [List.zip_cons_cons, List.map_cons, this]

/-- The list of qubits and observables. -/
noncomputable def observables (bits : List ℕ) (ops : List M2) (ws : List (ℝ × ℝ)) : List (ℕ × Mat) :=
  (bits.zip (ops.zip ws)).map fun x => (x.1, obs (mat x.2.1) x.2.2)

/-- **C75.** For two or more qubits, what `VarianceUnitaryAll` returns is the expectation of the tensor product of the observables, which is
what `ExpectationUnitaryAll` is documented to return. The state comes back. -/
theorem varianceUnitary_is_expectation {P : Par} (hP : P.Ok) {e : Eng} (hn : e.n ≤ 64) (he : e.Steady) (hd : e.doNorm = false)
    {bits : List ℕ} (h2 : 2 ≤ bits.length) (hnd : bits.Nodup) (hb : ∀ b ∈ bits, b < e.n) {ops : List M2}
    (hlen : ops.length = bits.length) (hu : ∀ m ∈ ops, m.IsUnitary) {ws : List (ℝ × ℝ)} (hw : ws.length = bits.length) (rest : List ℝ) :
    ∃ e', expVarUnitary P false e bits ops (flat ws ++ rest) = some (expect e.n (tensor (observables bits ops ws)) e.amp, e') ∧
      e'.n = e.n ∧ UpToPhase e.n e.amp e'.amp := by
  have hne : bits ≠ [] := by intro h; rw [h] at h2; simp at h2
  obtain ⟨f, u, h1, h2', h3, h4, h5⟩ := before hP hn ⟨rfl, hd, rfl⟩ he.1 hlen hnd hb hu
  obtain ⟨e', g1, g2, g3⟩ := after hP hn (e := e) h2' hlen hnd hb hu h4 h5
  have hg := good_mats hlen hnd hb hu
  refine ⟨e', ?_, g2, g3⟩
  unfold expVarUnitary
  rw [if_neg hne, if_neg (by omega), applyInv_eq _ _ _ (fun p hp => hu _ (List.of_mem_zip hp).2), h1, Option.bind_some,
    eigenOr_flat hne hw]
  have hval : varianceFloats P f bits (flat ws ++ rest) = some (mean e.n (prodOf bits ws) f.amp, f) := by
    have hbf : ∀ b ∈ bits, b < f.n := by rw [h2'.n_eq]; exact hb
    unfold varianceFloats
    rw [badArgs_false hnd hbf hw]
    simp only [Bool.false_eq_true, if_false]
    have hx := expectationFloats_spec hP (e := f) (by rw [h2'.n_eq]; exact hn) h3 hne hnd hbf hw rest
    match bits, h2, hx, hw with
    | b :: c :: bs, _, hx, hw =>
      simp only
      rw [hx, Option.map_some]
      congr 2
      rw [← h2'.n_eq]
      refine mean_sum h3 _ _ (fun i _ => ?_)
      have := prod_aux ws rest i (b :: c :: bs) ws 0 1 (by simp) hw
      rw [one_mul] at this
      exact this
  unfold expVarFloats
  rw [if_neg (by simp), hval, Option.bind_some]
  dsimp only
  rw [g1, Option.map_some, mean_phase _ h4 h5]
  congr 2
  have hb1 := bases_triples bits ops ws (by omega)
  have key := turn_tensor (L := triplesOf bits ops ws) (n := e.n) (by rw [hb1]; exact hg) e.amp e.amp
  rw [hb1, diags_triples bits ops ws (by omega)] at key
  unfold expect
  have hob : inBasis (triplesOf bits ops ws) = observables bits ops ws := by
    unfold inBasis triplesOf observables
    rw [List.map_map]
    exact List.map_congr_left fun x _ => rfl
  rw [← hob, ← key, ← Complex.ofReal_re (mean e.n _ _), mean_inner]
  congr 2
  funext i
  rw [tensor_dg]

/-! ### Three angles -/

theorem triples_flat3 : ∀ l : List (ℝ × ℝ × ℝ), triples (flat3 l) = l
  | [] => rfl
  | (x, y, z) :: l => by rw [flat3, triples, triples_flat3 l]

/-- The matrices of the listed angles. -/
noncomputable def uMs (as : List (ℝ × ℝ × ℝ)) : List M2 := as.map fun a => uM a.1 a.2.1 a.2.2

/-- The matrices with the second and the third angle exchanged. -/
noncomputable def uMsSwapped (as : List (ℝ × ℝ × ℝ)) : List M2 := as.map fun a => uM a.1 a.2.2 a.2.1

theorem uMs_unitary (as : List (ℝ × ℝ × ℝ)) : ∀ m ∈ uMs as, m.IsUnitary := by
  intro m hm
  obtain ⟨a, _, rfl⟩ := List.mem_map.1 hm
  exact uM_unitary _ _ _

theorem uMsSwapped_unitary (as : List (ℝ × ℝ × ℝ)) : ∀ m ∈ uMsSwapped as, m.IsUnitary := by
  intro m hm
  obtain ⟨a, _, rfl⟩ := List.mem_map.1 hm
  exact uM_unitary _ _ _

/-- **C75.** With three angles the value returned belongs to the basis with the second and the third angle exchanged, and afterwards the
state is the original one turned back in that basis and forward in the requested one. -/
theorem expectationAngles_swapped {P : Par} (hP : P.Ok) {e : Eng} (hn : e.n ≤ 64) (he : e.Steady) (hd : e.doNorm = false) {bits : List ℕ}
    (hne : bits ≠ []) (hnd : bits.Nodup) (hb : ∀ b ∈ bits, b < e.n) {as : List (ℝ × ℝ × ℝ)} (hlen : as.length = bits.length)
    {ws : List (ℝ × ℝ)} (hw : ws.length = bits.length) (rest : List ℝ) :
    ∃ e', expVarAngles P true e bits (flat3 as) (flat ws ++ rest) = some (expectSum e.n bits (uMsSwapped as) ws e.amp, e') ∧ e'.n = e.n ∧
      UpToPhase e.n (turn (mats bits (uMs as)) (turn (adjs (mats bits (uMsSwapped as))) e.amp)) e'.amp := by
  have hl1 : (uMsSwapped as).length = bits.length := by simp [uMsSwapped, hlen]
  have hl2 : (uMs as).length = bits.length := by simp [uMs, hlen]
  obtain ⟨f, u, h1, h2, h3, h4, h5⟩ := before hP hn ⟨rfl, hd, rfl⟩ he.1 hl1 hnd hb (uMsSwapped_unitary as)
  obtain ⟨e', v, g1, g2, g3, g4⟩ := applyOps_calm hP.1 hn (bits.zip (uMs as)) h2 (fun p hp =>
    ⟨hb _ (List.of_mem_zip hp).1, uMs_unitary as _ (List.of_mem_zip hp).2⟩)
  refine ⟨e', ?_, g2.n_eq, v * u, by rw [norm_mul, g3, h4, mul_one], fun i hi => ?_⟩
  · unfold expVarAngles
    rw [if_neg hne, triples_flat3, if_neg (by omega), applyNegU_eq]
    have z1 : ((bits.zip as).map fun p => (p.1, (uM p.2.1 p.2.2.2 p.2.2.1).adj)) = (bits.zip (uMsSwapped as)).map fun p => (p.1, p.2.adj) := by
      unfold uMsSwapped
      rw [List.zip_map_right, List.map_map]
      rfl
    rw [z1, h1, Option.bind_some, eigenOr_flat hne hw]
    unfold expVarFloats
    rw [if_pos rfl, expectationFloats_spec hP (by rw [h2.n_eq]; exact hn) h3 hne hnd (by rw [h2.n_eq]; exact hb) hw, Option.bind_some]
    dsimp only
    have z2 : ((bits.zip as).map fun p => (p.1, uM p.2.1 p.2.2.1 p.2.2.2)) = bits.zip (uMs as) := by
      unfold uMs
      rw [List.zip_map_right]
      rfl
    rw [applyU_eq, z2, g1, Option.map_some, h2.n_eq, mean_phase _ h4 h5, mean_turn hl1 (good_mats hl1 hnd hb (uMsSwapped_unitary as))]
  · rw [g4 i hi]
    dsimp only
    have := turn_congr (n := e.n) (mats bits (uMs as)) (good_mats hl2 hnd hb (uMs_unitary as)).lt h5 i hi
    rw [turn_smul] at this
    rw [show ((bits.zip (uMs as)).map fun p => (p.1, mat p.2)) = mats bits (uMs as) from rfl, this]; ring

/-- **C75, partial.** If the second and the third angle are the same for each qubit, the version with three angles returns the sum of the
expectations and restores the state. Full statement: the same for all angles; it is false (`expectationAngles_value_wrong`,
`expectationAngles_state_wrong`). -/
theorem expectationAngles_partial {P : Par} (hP : P.Ok) {e : Eng} (hn : e.n ≤ 64) (he : e.Steady) (hd : e.doNorm = false) {bits : List ℕ}
    (hne : bits ≠ []) (hnd : bits.Nodup) (hb : ∀ b ∈ bits, b < e.n) {as : List (ℝ × ℝ × ℝ)} (hlen : as.length = bits.length)
    (hs : ∀ a ∈ as, a.2.1 = a.2.2) {ws : List (ℝ × ℝ)} (hw : ws.length = bits.length) (rest : List ℝ) :
    ∃ e', expVarAngles P true e bits (flat3 as) (flat ws ++ rest) = some (expectSum e.n bits (uMs as) ws e.amp, e') ∧ e'.n = e.n ∧
      UpToPhase e.n e.amp e'.amp := by
  obtain ⟨e', h1, h2, h3⟩ := expectationAngles_swapped hP hn he hd hne hnd hb hlen hw rest
  have hsw : uMsSwapped as = uMs as := List.map_congr_left fun a ha => by rw [hs a ha]
  have hl2 : (uMs as).length = bits.length := by simp [uMs, hlen]
  rw [hsw] at h1 h3
  rw [turn_back (good_mats hl2 hnd hb (uMs_unitary as))] at h3
  exact ⟨e', h1, h2, h3⟩

/-! ### Pauli variances -/

theorem prob_engine {P : Par} {f g : Eng} (hd : f.doNorm = false) {q : ℕ} {p : ℝ} (h : prob P f q = some (p, g)) : g = f := by
  have hn : normIf P.σ f = f := by unfold normIf; rw [hd]; rfl
  unfold prob at h
  rw [hn] at h
  dsimp only at h
  split_ifs at h <;> simp only [Option.some.injEq, Prod.mk.injEq] at h <;> exact h.2.symm

theorem variance_of_mean {P : Par} {f : Eng} (hd : f.doNorm = false) (q : ℕ) :
    varianceFloats P f [q] [1, -1] = (expectationFloats P f [q] [1, -1]).map fun x => (1 - x.1 ^ 2, x.2) := by
  unfold varianceFloats expectationFloats
  by_cases h : badArgs f [q] [(1 : ℝ), -1] = true
  · simp [h]
  · rw [if_neg h, if_neg h]
    dsimp only
    rw [if_neg h]
    cases hp : prob P f q with
    | none => rfl
    | some x =>
      obtain ⟨p, g⟩ := x
      obtain rfl := prob_engine hd hp
      simp only [Option.map_some, Option.bind_some, hp, List.getD_cons_zero, List.getD_cons_succ]
      congr 2
      ring

theorem toBasis_norm {σ : List ℕ → List ℕ} (hσ : IsSched σ) {e : Eng} (hn : e.n ≤ 64) (hd : e.doNorm = false) {q : ℕ} (hq : q < e.n)
    (p : PauliName) : ∃ f, toBasis σ e [(q, p)] = some f ∧ f.doNorm = false := by
  have hH : ∀ f : Eng, f.n = e.n → f.doNorm = false → ∃ g, gateH σ f q = some g ∧ g.doNorm = false := by
    intro f hf hfd
    obtain ⟨g, h1, _, h3, _⟩ := mtrx_ok hσ (f := f) (by omega) hfd (q := q) (by omega) (hMat_kept f.rgp)
    exact ⟨g, h1, h3⟩
  cases p with
  | I => exact ⟨e, rfl, hd⟩
  | Z => exact ⟨e, rfl, hd⟩
  | X =>
    obtain ⟨g, h1, h2⟩ := hH e rfl hd
    exact ⟨g, by simp [toBasis, h1], h2⟩
  | Y =>
    have hI : -Complex.I ≠ 1 := by intro h; have := congrArg Complex.re h; simp at this
    obtain ⟨a, a1, a2, a3, _⟩ := phase_ok hσ hn hd hq hI
    obtain ⟨g, h1, h2⟩ := hH a a2 a3
    exact ⟨g, by simp [toBasis, a1, h1], h2⟩

/-- **C75, partial.** `VariancePauliAll` of one Pauli operator other than the identity is `1 - ⟨P⟩²`, its variance, and the state comes back
unchanged. Full statement: the same for any list, with the tensor product of the operators; it is false for two operators
(`variancePauli_wrong`) and for the identity (`variancePauli_identity_wrong`). -/
theorem variancePauli_partial {P : Par} (hP : P.Ok) {e : Eng} (hn : e.n ≤ 64) (he : e.Steady) (hd : e.doNorm = false)
    {q : ℕ} (hq : q < e.n) {p : PauliName} (hp : p ≠ .I) :
    ∃ e', variancePauli P e [q] [p] = some (1 - (Spec.inner e.n e.amp (pauliProduct [q] [p] e.amp)).re ^ 2, e') ∧
      SameOn e.n e'.amp e.amp := by
  obtain ⟨e', h1, h2⟩ := expectationPauli_partial hP hn he hd hq hp
  refine ⟨e', ?_, h2⟩
  have hdrop : dropIdentities 1 0 [q] [p] = ([q], [p]) := by
    unfold dropIdentities
    simp [hp, dropIdentities]
  obtain ⟨f, f1, f2⟩ := toBasis_norm hP.1 hn hd hq p
  unfold expectationPauli at h1
  unfold variancePauli
  rw [show [q].length = 1 from rfl, hdrop] at h1 ⊢
  simp only [List.zip_cons_cons, List.zip_nil_right, List.cons_ne_self, if_false, reduceCtorEq, List.flatMap_cons,
    List.flatMap_nil, f1, Option.bind_some] at h1 ⊢
  rw [show ([(1 : ℝ), -1] ++ [] : List ℝ) = [1, -1] from rfl] at h1 ⊢
  rw [variance_of_mean f2]
  cases hx : expectationFloats P f [q] [1, -1] with
  | none => rw [hx] at h1; simp at h1
  | some x =>
    rw [hx, Option.bind_some] at h1
    rw [Option.map_some, Option.bind_some]
    cases hy : fromBasis P.σ x.2 [(q, p)] with
    | none => rw [hy] at h1; simp at h1
    | some y =>
      rw [hy] at h1
      simp only [Option.map_some, Option.some.injEq, Prod.mk.injEq] at h1
      dsimp only
      rw [Option.map_some, h1.1, h1.2]

/-! ### Where the code fails -/

theorem basis2_total {k : ℕ} (hk : k < 4) : totalProb 2 (basis2 k).amp = 1 := (basis2_steady hk).1

/-- The identity matrix. -/
def idM : M2 := ⟨1, 0, 0, 1⟩

theorem idM_unitary : idM.IsUnitary := ⟨by simp [idM], by simp [idM], by simp [idM]⟩

theorem mat_id : mat idM = 1 := by unfold mat idM; exact Matrix.one_fin_two.symm

/-- The code violates C75: the expectation of `Z ⊗ Z` in `|00⟩` is one, and `ExpectationUnitaryAll` returns two. -/
theorem expectationUnitary_product_wrong : ∃ (P : Par) (e e' : Eng), P.Ok ∧ e.Steady ∧
    expVarUnitary P true e [0, 1] [idM, idM] [] = some (2, e') ∧
    expect e.n (tensor (observables [0, 1] [idM, idM] [(1, -1), (1, -1)])) e.amp = 1 := by
  have hP : Par.Ok ⟨id, 1, fun _ => 0⟩ := ⟨fun l => List.Perm.refl l, fun _ => by norm_num⟩
  have he := basis2_steady (k := 0) (by norm_num)
  obtain ⟨e', h1, _, _⟩ := expectationUnitary_default hP (e := basis2 0) (by norm_num [basis2]) he rfl (bits := [0, 1]) (by simp) (by simp)
    (by simp [basis2]) (ops := [idM, idM]) rfl (by simp [idM_unitary])
  refine ⟨_, basis2 0, e', hP, he, ?_, ?_⟩
  · rw [h1]
    congr 2
    simp [expectSum, expect, mat_id, obs, Spec.inner, Finset.sum_range_succ, basis2, act, gate]
    norm_num
  · simp [observables, expect, tensor, mat_id, obs, Spec.inner, Finset.sum_range_succ, basis2, act, gate]

/-- The code violates C75: the variance of `Z ⊗ Z` in `|00⟩` is zero, and `VarianceUnitaryAll` returns one. -/
theorem varianceUnitary_wrong : ∃ (P : Par) (e e' : Eng), P.Ok ∧ e.Steady ∧
    expVarUnitary P false e [0, 1] [idM, idM] [1, -1, 1, -1] = some (1, e') ∧
    (let A := tensor (observables [0, 1] [idM, idM] [(1, -1), (1, -1)]); expect e.n (fun s => A (A s)) e.amp - expect e.n A e.amp ^ 2 = 0) := by
  have hP : Par.Ok ⟨id, 1, fun _ => 0⟩ := ⟨fun l => List.Perm.refl l, fun _ => by norm_num⟩
  have he := basis2_steady (k := 0) (by norm_num)
  obtain ⟨e', h1, _, _⟩ := varianceUnitary_is_expectation hP (e := basis2 0) (by norm_num [basis2]) he rfl (bits := [0, 1]) (by simp) (by simp)
    (by simp [basis2]) (ops := [idM, idM]) rfl (by simp [idM_unitary]) (ws := [(1, -1), (1, -1)]) rfl []
  have hA : expect (basis2 0).n (tensor (observables [0, 1] [idM, idM] [(1, -1), (1, -1)])) (basis2 0).amp = 1 := by
    simp [observables, expect, tensor, mat_id, obs, Spec.inner, Finset.sum_range_succ, basis2, act, gate]
  refine ⟨_, basis2 0, e', hP, he, ?_, ?_⟩
  · rw [hA] at h1
    exact h1
  · intro A
    rw [show expect (basis2 0).n A (basis2 0).amp = 1 from hA]
    simp [A, observables, expect, tensor, mat_id, obs, Spec.inner, Finset.sum_range_succ, basis2, act, gate]

/-- The code violates C75: the variance of the identity is zero, and `VariancePauliAll` returns one for it, in every state. -/
theorem variancePauli_identity_wrong (P : Par) (e : Eng) (q : ℕ) : variancePauli P e [q] [.I] = some (1, e) := by
  unfold variancePauli
  have : dropIdentities 1 0 [q] [PauliName.I] = ([], []) := by simp [dropIdentities]
  rw [show [q].length = 1 from rfl, this]
  simp

/-- The code violates C75: the variance of `Z ⊗ Z` in `|00⟩` is zero, and `VariancePauliAll` returns one. -/
theorem variancePauli_wrong : ∃ (P : Par) (e : Eng), P.Ok ∧ e.Steady ∧
    variancePauli P e [0, 1] [.Z, .Z] = some (1, e) ∧ Spec.inner e.n e.amp (pauliProduct [0, 1] [.Z, .Z] e.amp) = 1 ∧
    Spec.inner e.n e.amp (pauliProduct [0, 1] [.Z, .Z] (pauliProduct [0, 1] [.Z, .Z] e.amp)) = 1 := by
  have hP : Par.Ok ⟨id, 1, fun _ => 0⟩ := ⟨fun l => List.Perm.refl l, fun _ => by norm_num⟩
  have he := basis2_steady (k := 0) (by norm_num)
  refine ⟨⟨id, 1, fun _ => 0⟩, basis2 0, hP, he, ?_, ?_, ?_⟩
  · have hexp := expectationFloats_spec hP (e := basis2 0) (by norm_num [basis2]) he (bits := [0, 1]) (by simp) (by simp)
      (by simp [basis2]) (ws := [(1, -1), (1, -1)]) rfl []
    have hbad := badArgs_false (e := basis2 0) (bits := [0, 1]) (ws := [((1 : ℝ), (-1 : ℝ)), (1, -1)]) (rest := []) (by simp)
      (by simp [basis2]) rfl
    have hdrop : dropIdentities 2 0 [0, 1] [PauliName.Z, .Z] = ([0, 1], [PauliName.Z, .Z]) := by decide
    have hval : varianceFloats ⟨id, 1, fun _ => 0⟩ (basis2 0) [0, 1] (flat [((1 : ℝ), (-1 : ℝ)), (1, -1)] ++ []) = some (1, basis2 0) := by
      unfold varianceFloats
      rw [hbad]
      simp only [Bool.false_eq_true, if_false]
      rw [hexp]
      simp only [Option.map_some]
      congr 2
      rw [mean_sum he (prodOf [0, 1] [((1 : ℝ), (-1 : ℝ)), (1, -1)]) _ (fun i _ => by
        have := prod_aux [((1 : ℝ), (-1 : ℝ)), (1, -1)] [] i [0, 1] [((1 : ℝ), (-1 : ℝ)), (1, -1)] 0 1 (by simp) rfl
        rw [one_mul] at this
        exact this), show (basis2 0).n = 2 from rfl, mean_basis2 (by norm_num)]
      simp [prodOf]
    unfold variancePauli
    rw [show [0, 1].length = 2 from rfl, hdrop]
    simp only [List.zip_cons_cons, List.zip_nil_right, toBasis, fromBasis]
    simp only [reduceCtorEq, if_false, Option.bind_some, List.flatMap_cons, List.flatMap_nil]
    have : flat [((1 : ℝ), (-1 : ℝ)), (1, -1)] ++ [] = [1, -1] ++ ([1, -1] ++ []) := rfl
    rw [← this, hval]
    rfl
  all_goals
    unfold Spec.inner
    rw [show (basis2 0).n = 2 from rfl, show (2 : ℕ) ^ 2 = 4 by norm_num]
    simp [Finset.sum_range_succ, basis2, pauliProduct, pauliGate, gate]

/-- One qubit with the two given amplitudes. -/
noncomputable def qubit (x y : ℂ) : Eng := ⟨1, fun i => if i = 0 then x else if i = 1 then y else 0, 1, false, false, 0⟩

theorem root_sq : ((Real.sqrt 2 / 2 : ℝ) : ℂ) * ((Real.sqrt 2 / 2 : ℝ) : ℂ) = 1 / 2 := by
  rw [← Complex.ofReal_mul, div_mul_div_comm, Real.mul_self_sqrt (by norm_num)]
  norm_num

theorem uM_hadamard : uM (Real.pi / 2) 0 Real.pi = ⟨((Real.sqrt 2 / 2 : ℝ) : ℂ), ((Real.sqrt 2 / 2 : ℝ) : ℂ), ((Real.sqrt 2 / 2 : ℝ) : ℂ), -((Real.sqrt 2 / 2 : ℝ) : ℂ)⟩ := by
  unfold uM
  rw [show Real.pi / 2 / 2 = Real.pi / 4 by ring, Real.cos_pi_div_four, Real.sin_pi_div_four, zero_add, Real.cos_pi, Real.sin_pi,
    Real.cos_zero, Real.sin_zero, M2.mk.injEq]
  refine ⟨?_, ?_, ?_, ?_⟩ <;> apply Complex.ext <;> simp [-Complex.ofReal_div]

theorem uM_other : uM (Real.pi / 2) Real.pi 0 = ⟨((Real.sqrt 2 / 2 : ℝ) : ℂ), -((Real.sqrt 2 / 2 : ℝ) : ℂ), -((Real.sqrt 2 / 2 : ℝ) : ℂ), -((Real.sqrt 2 / 2 : ℝ) : ℂ)⟩ := by
  unfold uM
  rw [show Real.pi / 2 / 2 = Real.pi / 4 by ring, Real.cos_pi_div_four, Real.sin_pi_div_four, add_zero, Real.cos_pi, Real.sin_pi,
    Real.cos_zero, Real.sin_zero, M2.mk.injEq]
  refine ⟨?_, ?_, ?_, ?_⟩ <;> apply Complex.ext <;> simp [-Complex.ofReal_div]

theorem obs_hadamard : obs (mat (uM (Real.pi / 2) 0 Real.pi)) (1, -1) = !![0, 1; 1, 0] := by
  rw [uM_hadamard]
  unfold obs mat
  generalize hr : ((Real.sqrt 2 / 2 : ℝ) : ℂ) = r
  have h2 : r * r = 1 / 2 := by rw [← hr]; exact root_sq
  have hc : (starRingEnd ℂ) r = r := by rw [← hr]; exact Complex.conj_ofReal _
  ext i j
  fin_cases i <;> fin_cases j <;> simp [Matrix.mul_apply, Fin.sum_univ_two, Matrix.conjTranspose_apply, hc, h2] <;> norm_num

theorem obs_other : obs (mat (uM (Real.pi / 2) Real.pi 0)) (1, -1) = !![0, -1; -1, 0] := by
  rw [uM_other]
  unfold obs mat
  generalize hr : ((Real.sqrt 2 / 2 : ℝ) : ℂ) = r
  have h2 : r * r = 1 / 2 := by rw [← hr]; exact root_sq
  have hc : (starRingEnd ℂ) r = r := by rw [← hr]; exact Complex.conj_ofReal _
  ext i j
  fin_cases i <;> fin_cases j <;> simp [Matrix.mul_apply, Fin.sum_univ_two, Matrix.conjTranspose_apply, hc, h2] <;> norm_num

/-- The code violates C75: the observable of the angles `π/2, π, 0` has the value `-1` in the state `(|0⟩ + |1⟩)/√2`, and the version with
three angles returns `+1`. -/
theorem expectationAngles_value_wrong : ∃ (P : Par) (e e' : Eng), P.Ok ∧ e.Steady ∧
    expVarAngles P true e [0] [Real.pi / 2, Real.pi, 0] [1, -1] = some (1, e') ∧
    expect e.n (act (obs (mat (uM (Real.pi / 2) Real.pi 0)) (1, -1)) 0) e.amp = -1 := by
  have hP : Par.Ok ⟨id, 1, fun _ => 0⟩ := ⟨fun l => List.Perm.refl l, fun _ => by norm_num⟩
  generalize hr : ((Real.sqrt 2 / 2 : ℝ) : ℂ) = r
  have h2 : r * r = 1 / 2 := by rw [← hr]; exact root_sq
  have hc : (starRingEnd ℂ) r = r := by rw [← hr]; exact Complex.conj_ofReal _
  have hns : Complex.normSq r = 1 / 2 := by
    have := Complex.normSq_eq_conj_mul_self (z := r)
    rw [hc, h2] at this
    exact Complex.ofReal_injective (by rw [this]; norm_num)
  have he : (qubit r r).Steady := by
    refine ⟨?_, fun h => by simp [qubit] at h⟩
    simp [totalProb, qubit, Finset.sum_range_succ, hns]
    norm_num
  obtain ⟨e', h1, _, _⟩ := expectationAngles_swapped hP (e := qubit r r) (by norm_num [qubit]) he rfl (bits := [0]) (by simp) (by simp)
    (by simp [qubit]) (as := [(Real.pi / 2, Real.pi, 0)]) rfl (ws := [(1, -1)]) rfl []
  refine ⟨_, qubit r r, e', hP, he, ?_, ?_⟩
  · rw [show flat [((1 : ℝ), (-1 : ℝ))] ++ [] = [1, -1] from rfl, show flat3 [(Real.pi / 2, Real.pi, 0)] = [Real.pi / 2, Real.pi, 0] from rfl] at h1
    rw [h1]
    congr 2
    simp only [expectSum, uMsSwapped, List.map_cons, List.map_nil, List.zip_cons_cons, List.zip_nil_right, List.sum_cons, List.sum_nil, obs_hadamard]
    simp [expect, Spec.inner, Finset.sum_range_succ, qubit, act, gate, flipBit, hc, h2]
    norm_num
  · rw [obs_other]
    simp [expect, Spec.inner, Finset.sum_range_succ, qubit, act, gate, flipBit, hc, h2]
    norm_num

/-- The code violates C75: after the version with three angles, the state `|0⟩` has become `|1⟩`, up to a phase. -/
theorem expectationAngles_state_wrong : ∃ (P : Par) (e e' : Eng) (x : ℝ), P.Ok ∧ e.Steady ∧ e.amp 0 = 1 ∧
    expVarAngles P true e [0] [Real.pi / 2, Real.pi, 0] [1, -1] = some (x, e') ∧ e'.amp 0 = 0 := by
  have hP : Par.Ok ⟨id, 1, fun _ => 0⟩ := ⟨fun l => List.Perm.refl l, fun _ => by norm_num⟩
  have he : (qubit 1 0).Steady := by
    refine ⟨?_, fun h => by simp [qubit] at h⟩
    simp [totalProb, qubit, Finset.sum_range_succ]
  obtain ⟨e', h1, _, u, _, h3⟩ := expectationAngles_swapped hP (e := qubit 1 0) (by norm_num [qubit]) he rfl (bits := [0]) (by simp) (by simp)
    (by simp [qubit]) (as := [(Real.pi / 2, Real.pi, 0)]) rfl (ws := [(1, -1)]) rfl []
  refine ⟨_, qubit 1 0, e', _, hP, he, rfl, h1, ?_⟩
  rw [h3 0 (by norm_num [qubit])]
  have : turn (mats [0] (uMs [(Real.pi / 2, Real.pi, 0)])) (turn (adjs (mats [0] (uMsSwapped [(Real.pi / 2, Real.pi, 0)]))) (qubit 1 0).amp) 0 = 0 := by
    simp only [mats, uMs, uMsSwapped, adjs, turn, List.map_cons, List.map_nil, List.zip_cons_cons, List.zip_nil_right, List.foldl_cons, List.foldl_nil,
      uM_hadamard, uM_other]
    simp [act, gate, mat, flipBit, qubit, Matrix.conjTranspose_apply]
  rw [this, mul_zero]

/-- Two qubits listed out of order, a Hadamard basis and the computational basis, unequal eigenvalues. -/
example : (basis2 2).n ≤ 64 ∧ (basis2 2).Steady ∧ (basis2 2).doNorm = false ∧ [1, 0] ≠ [] ∧ [1, 0].Nodup ∧ (∀ b ∈ [1, 0], b < (basis2 2).n) ∧
    (∀ m ∈ [hM, idM], m.IsUnitary) ∧ [((2 : ℝ), (-3 : ℝ)), (0, 5)].length = [1, 0].length ∧ 2 ≤ [1, 0].length :=
  ⟨by norm_num [basis2], basis2_steady (by norm_num), rfl, by simp, by simp, by simp [basis2], by simp [unitary_hM, idM_unitary], rfl, le_refl _⟩

/-- Angles whose second and third entries agree; the basis is not the computational one. -/
example : (∀ a ∈ [((Real.pi / 2 : ℝ), (1 : ℝ), (1 : ℝ)), (Real.pi, 0, 0)], a.2.1 = a.2.2) ∧ (uM Real.pi 0 0).b ≠ 0 := by
  refine ⟨by simp, ?_⟩
  simp [uM, Complex.ext_iff]

end Verif.Engine
