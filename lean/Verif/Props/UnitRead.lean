import Verif.Lemmas.UnitRead

/-!
# C72: ordering units, and what `QUnitClifford` reads out

`SortUnit` sorts, `OrderContiguous` puts the qubits of a unit in order without changing the state, and `EntangleAll` leaves one unit in
which every qubit is at its own number. `GetAmplitude`, `GetQuantumState` and `ExpectationFloatsFactorized` return what the state says.
`ProbMask` does if the qubits are in one unit: it adds the probabilities of independent units. `ExpectationBitsFactorized` does up to
the offset, which it adds once for every unit.
-/

namespace Verif.Units

open Verif.Stab Verif.Pauli
open Complex (normSq)

variable {n : ℕ}

/-! ### Ordering -/

/-- `SortUnit`, of `QUnitClifford` and of `QUnit`, ends, stays inside the array, and leaves the range sorted; the result comes from the
array by the exchanges made, all of them of two entries of the range. -/
theorem sortUnit_spec {len low high : ℕ} (v : ℕ → ℕ) (h1 : low < high) (h2 : high < len) :
    ∃ v' sw, sortUnit len (high - low) v low high = some (v', sw) ∧ v' = exchs sw v ∧
      (∀ p ∈ sw, low ≤ p.1 ∧ p.1 < p.2 ∧ p.2 ≤ high) ∧ ∀ a b, low ≤ a → a ≤ b → b ≤ high → v' a ≤ v' b :=
  sortUnit_sorts (high - low) v low high h1 h2 le_rfl

/-- `OrderContiguous` leaves the state, and puts the qubits of the unit in order. -/
theorem order_spec {Q : QUC n} {Ψ : State n} (h : Rep Q Ψ) (t : Fin n) : ∃ Q', Q.order (Q.unit t) = some Q' ∧ Rep Q' Ψ ∧ Q'.unit = Q.unit ∧
    ∀ i j, Q.unit i = Q.unit t → Q.unit j = Q.unit t → i < j → Q'.mapped i < Q'.mapped j := order_rep h t

/-- `EntangleAll` leaves the state, in one unit where every qubit is at its own number. -/
theorem entangleAll_spec {Q : QUC (n + 1)} {Ψ : State (n + 1)} (h : Rep Q Ψ) : ∃ Q', Q.entangleAll = some Q' ∧ Rep Q' Ψ ∧
    (∀ i, Q'.unit i = Q'.unit 0) ∧ (∀ i, Q'.mapped i = i.val) ∧ (Q'.heap (Q'.unit 0)).size = n + 1 := by
  obtain ⟨Q', e, h', hu, hm⟩ := entangleAll_rep h
  refine ⟨Q', e, h', hu, hm, ?_⟩
  have h1 := h'.1.lt (Fin.last n)
  rw [hu, hm] at h1
  rw [Fin.val_last] at h1
  by_contra hne
  obtain ⟨j, -, hj⟩ := h'.1.surj 0 (n + 1) (by omega)
  rw [hm] at hj
  omega

/-! ### Amplitudes -/

/-- `GetAmplitude` returns the amplitudes of the state, with one factor for all. -/
theorem getAmplitude_spec {Q : QUC n} {Ψ : State n} (h : Rep Q Ψ) {ph0 : ℂ} (hph0 : normSq ph0 = 1) {ph : ℕ → ℂ} (hph : ∀ u, normSq (ph u) = 1) :
    ∃ c, normSq c * norm2 Ψ = 1 ∧ ∀ p, p < 2 ^ n → Q.getAmplitude ph0 ph p = some (c * Ψ (bitsOf n p)) := by
  obtain ⟨k, ψ, hk, hψ, hΨ, hkn⟩ := rep_normed h
  have hc : ∀ u, ∃ c, u ∈ used Q → normSq c = 1 ∧
      ∀ p, p < 2 ^ (Q.heap u).size → (Stab.getAmplitude (ph u) (Q.heap u).tab p).2 = c * ψ u (bitsOf _ p) := by
    intro u
    by_cases hu : u ∈ used Q
    · obtain ⟨c, h1, h2⟩ := quantumState_spec (hψ u hu).1.1 (hph u) (hψ u hu).1.2.1 (by rw [(hψ u hu).2]; exact one_ne_zero)
      rw [(hψ u hu).2, mul_one] at h1
      exact ⟨c, fun _ => ⟨h1, fun p hp => by rw [amplitude_spec (hψ u hu).1.1 _ hp, h2 p hp]⟩⟩
    · exact ⟨0, fun h => absurd h hu⟩
  choose c hc using hc
  obtain ⟨hn, hus⟩ := units_spec Q
  refine ⟨ph0 * (∏ u ∈ used Q, c u) * k⁻¹, ?_, fun p hp => ?_⟩
  · rw [Complex.normSq_mul, Complex.normSq_mul, normSq_prod, Finset.prod_eq_one fun u hu => (hc u hu).1, hph0, Complex.normSq_inv, hkn,
      one_mul, one_mul, inv_mul_cancel₀]
    rw [← hkn]
    exact fun h0 => hk (Complex.normSq_eq_zero.1 h0)
  · unfold QUC.getAmplitude
    rw [if_neg (by omega), ampLoop_eq, ← List.prod_toFinset _ hn, hus]
    have e : ∀ u ∈ used Q, (Stab.getAmplitude (ph u) (Q.heap u).tab (Q.unitPerm u p)).2 = c u * ψ u (subF Q (bitsOf n p) u _) := by
      intro u hu
      rw [(hc u hu).2 _ (unitPerm_lt h.1 u p hu), unitPerm_bits]
    rw [Finset.prod_congr rfl e, Finset.prod_mul_distrib, hΨ]
    congr 1
    field_simp

/-- Outside the register it throws. -/
theorem getAmplitude_throws (ph0 : ℂ) (ph : ℕ → ℂ) (Q : QUC n) {p : ℕ} (hp : 2 ^ n ≤ p) : Q.getAmplitude ph0 ph p = none := if_pos hp

/-- `GetQuantumState` returns the vector of the state, with one factor for all. -/
theorem getQuantumState_spec {Q : QUC (n + 1)} {Ψ : State (n + 1)} (h : Rep Q Ψ) {ph : ℂ} (hph : normSq ph = 1) :
    ∃ c v, normSq c * norm2 Ψ = 1 ∧ Q.getQuantumState ph = some v ∧ ∀ p, p < 2 ^ (n + 1) → v p = c * Ψ (bitsOf (n + 1) p) := by
  obtain ⟨Q', e, h', hu, hm, hs⟩ := entangleAll_spec h
  obtain ⟨k, ψ, hk, hψ, hΨ, hkn⟩ := rep_normed h'
  have hused : used Q' = {Q'.unit 0} := by
    ext u
    rw [Finset.mem_singleton]
    constructor
    · intro hu'
      obtain ⟨i, hi⟩ := of_used hu'
      rw [← hi, hu i]
    · rintro rfl; exact mem_used 0
  have h0 := hψ (Q'.unit 0) (mem_used 0)
  obtain ⟨c, h1, h2⟩ := quantumState_spec h0.1.1 hph h0.1.2.1 (by rw [h0.2]; exact one_ne_zero)
  rw [h0.2, mul_one] at h1
  have hq : Q.getQuantumState ph = some (Stab.getQuantumState ph (Q'.heap (Q'.unit 0)).tab).2 := by
    unfold QUC.getQuantumState
    rw [e]; rfl
  refine ⟨c * k⁻¹, _, ?_, hq, fun p hp => ?_⟩
  rotate_left
  · rw [h2 p (by rw [hs]; exact hp), hΨ, hused, Finset.prod_singleton]
    have : subF Q' (bitsOf (n + 1) p) (Q'.unit 0) (Q'.heap (Q'.unit 0)).size = bitsOf _ p := by
      funext j
      have hj : j.val < n + 1 := by have := j.isLt; omega
      have := sub_comp h'.1 (u := Q'.unit 0) (p := j.val) ⟨j.val, hj⟩ (hu _) (hm _) (bitsOf (n + 1) p)
      exact this
    rw [this]
    field_simp
  · rw [Complex.normSq_mul, h1, Complex.normSq_inv, hkn, one_mul, inv_mul_cancel₀]
    rw [← hkn]
    exact fun h0 => hk (Complex.normSq_eq_zero.1 h0)

/-! ### Probabilities -/

/-- The probability that the qubits of the mask have the bits of `perm`. -/
noncomputable def maskProb (Ψ : State n) (mask perm : ℕ) : ℝ :=
  ∑ b : Bits n, (if ∀ i : Fin n, mask.testBit i.val = true → b i = perm.testBit i.val then 1 else 0) * normSq (Ψ b)

/-- What `ProbMask` adds for one unit is the probability for the qubits of the mask in that unit. -/
theorem probMask_unit {Q : QUC n} {Ψ : State n} (h : Rep Q Ψ) (hn : norm2 Ψ = 1) {ph : ℂ} (hph : normSq ph = 1) {u : ℕ} (hu : u ∈ used Q)
    (mask perm : ℕ) : (Stab.probMask ph (Q.heap u).tab (Q.unitPerm u mask) (Q.unitPerm u (mask &&& perm))).2 =
      ∑ b : Bits n, (if ∀ i : Fin n, Q.unit i = u → mask.testBit i.val = true → b i = perm.testBit i.val then 1 else 0) * normSq (Ψ b) := by
  obtain ⟨k, ψ, hk, hψ, hΨ, hkn⟩ := rep_normed h
  rw [probMask_spec (hψ u hu).1.1 hph (hψ u hu).1.2.1 (hψ u hu).2]
  classical
  have key := unit_average h.1 (fun u hu => (hψ u hu).2) hΨ hu
    (fun β => if ∀ j, sub Q (bitsOf n mask) u j = true → β j = sub Q (bitsOf n (mask &&& perm)) u j then 1 else 0)
  rw [hkn, hn, one_mul] at key
  have e1 : ∀ b : Bits n, (∀ j, sub Q (bitsOf n mask) u j = true → sub Q b u j = sub Q (bitsOf n (mask &&& perm)) u j) ↔
      ∀ i : Fin n, Q.unit i = u → mask.testBit i.val = true → b i = perm.testBit i.val := by
    intro b
    constructor
    · intro hj i hi hm
      have := hj (Q.mapped i) (by rw [sub_comp h.1 i hi rfl]; exact hm)
      rw [sub_comp h.1 i hi rfl, sub_comp h.1 i hi rfl] at this
      rw [this]
      show (mask &&& perm).testBit i.val = _
      rw [Nat.testBit_and, hm, Bool.true_and]
    · intro hi j hj
      have hj' := hj
      unfold sub at hj'
      rw [decide_eq_true_iff] at hj'
      obtain ⟨i, h1, h2, h3⟩ := hj'
      rw [sub_comp h.1 i h1 h2, sub_comp h.1 i h1 h2, hi i h1 h3]
      show _ = (mask &&& perm).testBit i.val
      rw [Nat.testBit_and, show mask.testBit i.val = true from h3, Bool.true_and]
  simp only [e1] at key
  rw [key, sum_bits]
  unfold born
  refine Finset.sum_congr rfl fun p hp => ?_
  rw [Finset.mem_range] at hp
  congr 1
  refine if_congr ?_ rfl rfl
  have hin : ∀ j (x : Bits n), sub Q x u j = true → j < (Q.heap u).size := by
    intro j x hj
    unfold sub at hj
    rw [decide_eq_true_iff] at hj
    obtain ⟨i, h1, h2, -⟩ := hj
    have := h.1.lt i
    rwa [h1, h2] at this
  constructor
  · intro he j hj
    have := congrArg (fun x : ℕ => x.testBit j) he
    rw [Nat.testBit_and, unitPerm_testBit, unitPerm_testBit, hj, Bool.and_true] at this
    rw [dif_pos (hin j _ hj), ← this]
    rfl
  · intro hall
    refine Nat.eq_of_testBit_eq fun j => ?_
    rw [Nat.testBit_and, unitPerm_testBit, unitPerm_testBit]
    cases hj : sub Q (bitsOf n mask) u j
    · rw [Bool.and_false]
      rw [Eq.comm]
      by_contra hne
      rw [Bool.not_eq_false] at hne
      have h1 := hne
      unfold sub at h1
      rw [decide_eq_true_iff] at h1
      obtain ⟨i, h2, h3, h4⟩ := h1
      have h5 : mask.testBit i.val = true := by
        have : (mask &&& perm).testBit i.val = true := h4
        rw [Nat.testBit_and, Bool.and_eq_true] at this
        exact this.1
      rw [sub_comp h.1 i h2 h3] at hj
      exact absurd (show mask.testBit i.val = false from hj) (by rw [h5]; simp)
    · rw [Bool.and_true]
      have := hall j hj
      rw [dif_pos (hin j _ hj)] at this
      exact this

/-- `ProbMask` for qubits in one unit. Missing: qubits of several units, for which the result is the sum of the units' probabilities
(`probMask_wrong`), not their product. -/
theorem probMask_partial {Q : QUC n} {Ψ : State n} (h : Rep Q Ψ) (hn : norm2 Ψ = 1) {ph : ℕ → ℂ} (hph : ∀ u, normSq (ph u) = 1)
    {mask : ℕ} (perm : ℕ) (hm : mask < 2 ^ n) (t : Fin n) (ht : mask.testBit t.val = true)
    (hone : ∀ i : Fin n, mask.testBit i.val = true → Q.unit i = Q.unit t) :
    Q.probMask ph mask perm = some (maskProb Ψ mask perm) := by
  unfold QUC.probMask
  rw [if_neg (by omega)]
  have hf : (Q.units.filter fun u => Q.unitPerm u mask ≠ 0) = [Q.unit t] := by
    obtain ⟨hnd, hus⟩ := units_spec Q
    have hmem : ∀ u, u ∈ Q.units.filter (fun u => Q.unitPerm u mask ≠ 0) ↔ u = Q.unit t := by
      intro u
      rw [List.mem_filter, ← List.mem_toFinset, hus]
      simp only [decide_eq_true_eq]
      constructor
      · rintro ⟨-, h0⟩
        obtain ⟨j, hj⟩ := Nat.exists_testBit_of_ne_zero h0
        rw [unitPerm_testBit] at hj
        unfold sub at hj
        rw [decide_eq_true_iff] at hj
        obtain ⟨i, h1, -, h3⟩ := hj
        rw [← h1]; exact hone i h3
      · rintro rfl
        refine ⟨mem_used t, fun h0 => ?_⟩
        have := unitPerm_testBit Q (Q.unit t) mask (Q.mapped t)
        rw [h0, Nat.zero_testBit, sub_self h.1] at this
        exact absurd (show mask.testBit t.val = false from this.symm) (by rw [ht]; simp)
    have hnd' := hnd.filter (fun u => decide (Q.unitPerm u mask ≠ 0))
    refine List.perm_singleton.1 ((List.perm_ext_iff_of_nodup hnd' (by simp)).2 fun u => ?_)
    rw [hmem, List.mem_singleton]
  rw [hf, List.map_cons, List.map_nil, List.sum_cons, List.sum_nil, add_zero, probMask_unit h hn (hph _) (mem_used t)]
  refine congrArg some (Finset.sum_congr rfl fun b _ => ?_)
  congr 1
  refine if_congr ⟨fun hb i hi => hb i (hone i hi) hi, fun hb i _ hi => hb i hi⟩ rfl rfl

theorem norm2_ket' (f : Bits n) : norm2 (ket f) = 1 := by
  unfold norm2 ket
  rw [Finset.sum_eq_single f]
  · simp
  · intro g _ hg; rw [if_neg hg]; simp
  · intro h; exact absurd (Finset.mem_univ f) h

theorem maskProb_ket (perm mask : ℕ) : maskProb (ket fun i : Fin n => perm.testBit i.val) mask perm = 1 := by
  unfold maskProb
  rw [Finset.sum_eq_single fun i : Fin n => perm.testBit i.val]
  · unfold ket; simp
  · intro g _ hg; unfold ket; rw [if_neg hg]; simp
  · intro h; exact absurd (Finset.mem_univ _) h

/-- Two qubits set to 1: the probability of both being 1 is 1, and `ProbMask` returns 2. -/
theorem probMask_wrong {ph : ℕ → ℂ} (hph : ∀ u, normSq (ph u) = 1) :
    (setPerm 2 3).probMask ph 3 3 = some 2 ∧ Rep (setPerm 2 3) (ket fun i : Fin 2 => (3 : ℕ).testBit i.val) ∧
      maskProb (ket fun i : Fin 2 => (3 : ℕ).testBit i.val) 3 3 = 1 := by
  refine ⟨?_, setPerm_spec 2 3, maskProb_ket 3 3⟩
  have key : ∀ u ∈ used (setPerm 2 3), (Stab.probMask (ph u) ((setPerm 2 3).heap u).tab ((setPerm 2 3).unitPerm u 3)
      ((setPerm 2 3).unitPerm u (3 &&& 3))).2 = 1 := by
    intro u hu
    rw [probMask_unit (setPerm_spec 2 3) (norm2_ket' _) (hph u) hu 3 3, Finset.sum_eq_single fun i : Fin 2 => (3 : ℕ).testBit i.val]
    · unfold ket; simp
    · intro g _ hg; unfold ket; rw [if_neg hg]; simp
    · intro h; exact absurd (Finset.mem_univ _) h
  unfold QUC.probMask
  rw [if_neg (by norm_num)]
  have hf : (setPerm 2 3).units.filter (fun u => (setPerm 2 3).unitPerm u 3 ≠ 0) = [0, 1] := by decide +kernel
  rw [hf, List.map_cons, List.map_cons, List.map_nil, key 0 (mem_used (Q := setPerm 2 3) 0), key 1 (mem_used (Q := setPerm 2 3) 1)]
  norm_num

/-! ### Expectation values -/

theorem items_nodup {α : Type} {Q : QUC n} (hQ : WF Q) {l : List (Fin n × α × α)} (hl : (l.map Prod.fst).Nodup) (u : ℕ) :
    (itemsOf (Q.items l) u).1.Nodup ∧ ∀ p ∈ (itemsOf (Q.items l) u).1, p < (Q.heap u).size := by
  unfold itemsOf QUC.items
  dsimp only
  rw [List.filter_map, List.map_map]
  constructor
  · refine List.Nodup.map_on ?_ ((List.Nodup.of_map _ hl).filter _)
    intro x hx y hy he
    rw [List.mem_filter] at hx hy
    have hux : Q.unit x.1 = u := by simpa using hx.2
    have huy : Q.unit y.1 = u := by simpa using hy.2
    exact List.inj_on_of_nodup_map hl hx.1 hy.1 (hQ.inj _ _ (hux.trans huy.symm) he)
  · intro p hp
    rw [List.mem_map] at hp
    obtain ⟨x, hx, rfl⟩ := hp
    rw [List.mem_filter] at hx
    have hux : Q.unit x.1 = u := by simpa using hx.2
    have := hQ.lt x.1
    rwa [hux] at this

theorem items_length {α : Type} (l : List (Item α)) (u : ℕ) : (itemsOf l u).2.length = 2 * (itemsOf l u).1.length := by
  unfold itemsOf
  dsimp only
  generalize l.filter _ = l
  induction l with
  | nil => rfl
  | cons x l ih => rw [List.flatMap_cons, List.length_append, ih, List.map_cons, List.length_cons]; simp only [List.length_cons, List.length_nil]; ring

theorem unit_mean {Q : QUC n} {Ψ : State n} (h : Rep Q Ψ) (hn : norm2 Ψ = 1) {k : ℂ} {ψ : (u : ℕ) → State (Q.heap u).size}
    (hψ : ∀ u ∈ used Q, norm2 (ψ u) = 1) (hΨ : ∀ b, Ψ b = k * ∏ u ∈ used Q, ψ u (subF Q b u _)) (hkn : normSq k = norm2 Ψ)
    {u : ℕ} (hu : u ∈ used Q) (l : List (Item ℝ)) (hl : ∀ i ∈ l, i.place < (Q.heap u).size) :
    born (ψ u) (fun p => wsum l p.testBit) = ∑ b : Bits n, wsum l (sub Q b u) * normSq (Ψ b) := by
  rw [unit_average h.1 hψ hΨ hu (wsum l), hkn, hn, one_mul, sum_bits]
  unfold born
  refine Finset.sum_congr rfl fun p _ => ?_
  congr 1
  unfold wsum
  dsimp only
  congr 1
  refine List.map_congr_left fun i hi => if_congr ?_ rfl rfl
  rw [dif_pos (hl i hi)]
  rfl

/-- The mean of the listed qubits' weights. -/
noncomputable def meanOf (Ψ : State n) (l : List (Fin n × ℝ × ℝ)) : ℝ :=
  ∑ b : Bits n, (l.map fun e => if b e.1 then e.2.2 else e.2.1).sum * normSq (Ψ b)

theorem group_mean {Q : QUC n} {Ψ : State n} (hQ : WF Q) (l : List (Fin n × ℝ × ℝ)) :
    ((uniq ((Q.items l).map Item.unit)).map fun u =>
      ∑ b : Bits n, wsum ((Q.items l).filter fun i => i.unit = u) (sub Q b u) * normSq (Ψ b)).sum = meanOf Ψ l := by
  obtain ⟨hnd, hmem, -, -⟩ := uniq_spec ((Q.items l).map Item.unit)
  rw [← List.sum_toFinset _ hnd, Finset.sum_comm]
  unfold meanOf
  refine Finset.sum_congr rfl fun b _ => ?_
  rw [← Finset.sum_mul]
  congr 1
  rw [List.sum_toFinset _ hnd]
  have e : ∀ u, wsum ((Q.items l).filter fun i => i.unit = u) (sub Q b u) =
      (((Q.items l).filter fun i => i.unit = u).map fun i => if sub Q b i.unit i.place then i.w1 else i.w0).sum := by
    intro u
    unfold wsum
    congr 1
    refine List.map_congr_left fun i hi => ?_
    rw [List.mem_filter] at hi
    have : i.unit = u := by simpa using hi.2
    rw [this]
  simp only [e]
  rw [group_sum _ hnd _ fun i hi => (hmem _).2 (List.mem_map_of_mem hi)]
  unfold QUC.items
  rw [List.map_map]
  congr 1
  refine List.map_congr_left fun x _ => ?_
  show (if sub Q b (Q.unit x.1) (Q.mapped x.1) = true then x.2.2 else x.2.1) = _
  rw [sub_self hQ]

theorem items_used {α : Type} (Q : QUC n) (l : List (Fin n × α × α)) {u : ℕ} (hu : u ∈ uniq ((Q.items l).map Item.unit)) : u ∈ used Q := by
  rw [(uniq_spec _).2.1, QUC.items, List.map_map, List.mem_map] at hu
  obtain ⟨x, -, rfl⟩ := hu
  exact mem_used x.1

/-- `ExpectationFloatsFactorized` is the mean of the weights. -/
theorem expFloats_spec {Q : QUC n} {Ψ : State n} (h : Rep Q Ψ) (hn : norm2 Ψ = 1) {ph : ℕ → ℂ} (hph : ∀ u, normSq (ph u) = 1)
    {l : List (Fin n × ℝ × ℝ)} (hl : (l.map Prod.fst).Nodup) : Q.expFloats ph l = some (meanOf Ψ l) := by
  obtain ⟨k, ψ, hk, hψ, hΨ, hkn⟩ := rep_normed h
  unfold QUC.expFloats
  rw [if_pos hl]
  dsimp only
  rw [sumUnits_some (g := fun u => ∑ b : Bits n, wsum ((Q.items l).filter fun i => i.unit = u) (sub Q b u) * normSq (Ψ b)),
    group_mean h.1]
  intro u hu
  have hu' := items_used Q l hu
  obtain ⟨h1, h2⟩ := items_nodup h.1 hl u
  obtain ⟨T', e⟩ := expectationFloats_spec (hψ u hu').1.1 (hph u) (hψ u hu').1.2.1 (hψ u hu').2 h2 h1 (by rw [items_length])
  rw [e, Option.map_some, ← unit_mean h hn (fun u hu => (hψ u hu).2) hΨ hkn hu']
  · refine congrArg some ?_
    dsimp only
    congr 1
    funext p
    exact bitWeight_items _ p
  · intro i hi
    exact h2 _ (List.mem_map_of_mem hi)

/-- The weights as real numbers. -/
def realW (l : List (Fin n × ℕ × ℕ)) : List (Fin n × ℝ × ℝ) := l.map fun e => (e.1, (e.2.1 : ℝ), (e.2.2 : ℝ))

/-- `ExpectationBitsFactorized` without overflow: the mean, and the offset as many times as there are units. Missing: it should be the
offset once. -/
theorem expBits_partial {Q : QUC n} {Ψ : State n} (h : Rep Q Ψ) (hn : norm2 Ψ = 1) {ph : ℕ → ℂ} (hph : ∀ u, normSq (ph u) = 1)
    {l : List (Fin n × ℕ × ℕ)} (hl : (l.map Prod.fst).Nodup) {offset : ℕ}
    (hsmall : offset + (l.map fun e => max e.2.1 e.2.2).sum < 2 ^ 128) :
    Q.expBits ph l offset = some (meanOf Ψ (realW l) + offset * (uniq (l.map fun e => Q.unit e.1)).length) := by
  obtain ⟨k, ψ, hk, hψ, hΨ, hkn⟩ := rep_normed h
  have hitems : Q.items (realW l) = (Q.items l).map fun i => { unit := i.unit, place := i.place, w0 := (i.w0 : ℝ), w1 := (i.w1 : ℝ) } := by
    unfold QUC.items realW
    rw [List.map_map, List.map_map]
    rfl
  have hunits : (Q.items (realW l)).map Item.unit = (Q.items l).map Item.unit := by
    rw [hitems, List.map_map]; rfl
  have hlist : (Q.items l).map Item.unit = l.map fun e => Q.unit e.1 := by
    unfold QUC.items; rw [List.map_map]; rfl
  unfold QUC.expBits
  rw [if_pos hl]
  dsimp only
  rw [sumUnits_some (g := fun u => ∑ b : Bits n, wsum ((Q.items (realW l)).filter fun i => i.unit = u) (sub Q b u) * normSq (Ψ b) + offset)]
  · rw [List.sum_map_add, ← hunits, group_mean h.1, hunits, hlist, List.map_const', List.sum_replicate, nsmul_eq_mul, mul_comm]
  intro u hu
  have hu' := items_used Q l hu
  obtain ⟨h1, h2⟩ := items_nodup h.1 hl u
  obtain ⟨T', e⟩ := expectationBits_spec (hψ u hu').1.1 (hph u) (hψ u hu').1.2.1 (hψ u hu').2 h2 h1 (by rw [items_length]) offset
  have hfilter : (Q.items (realW l)).filter (fun i => i.unit = u) =
      ((Q.items l).filter fun i => i.unit = u).map fun i => { unit := i.unit, place := i.place, w0 := (i.w0 : ℝ), w1 := (i.w1 : ℝ) } := by
    rw [hitems, List.filter_map]; rfl
  rw [e, Option.map_some, ← unit_mean h hn (fun u hu => (hψ u hu).2) hΨ hkn hu']
  · refine congrArg some ?_
    dsimp only
    have hval : ∀ p, ((bitIndex (itemsOf (Q.items l) u).1 (itemsOf (Q.items l) u).2 offset p % 2 ^ 128 : ℕ) : ℝ) =
        offset + wsum ((Q.items (realW l)).filter fun i => i.unit = u) p.testBit := by
      intro p
      have hlt : bitIndex (itemsOf (Q.items l) u).1 (itemsOf (Q.items l) u).2 offset p < 2 ^ 128 := by
        refine lt_of_le_of_lt ?_ hsmall
        have hb := bitIndex_items ((Q.items l).filter fun i => i.unit = u) offset p
        have hle : (((Q.items l).filter fun i => i.unit = u).map fun i => if p.testBit i.place then (i.w1 : ℝ) else i.w0).sum ≤
            ((l.map fun e => max e.2.1 e.2.2).sum : ℕ) := by
          refine le_trans (b := ((((Q.items l).filter fun i => i.unit = u).map fun i => ((max i.w0 i.w1 : ℕ) : ℝ)).sum)) ?_ ?_
          · refine List.sum_le_sum fun i _ => ?_
            push_cast
            split_ifs
            · exact le_max_right _ _
            · exact le_max_left _ _
          · refine le_trans (b := (((Q.items l).map fun i => ((max i.w0 i.w1 : ℕ) : ℝ)).sum)) ?_ ?_
            · refine List.Sublist.sum_le_sum (List.Sublist.map _ List.filter_sublist) fun a ha => ?_
              rw [List.mem_map] at ha
              obtain ⟨i, -, rfl⟩ := ha
              exact Nat.cast_nonneg _
            · unfold QUC.items
              rw [List.map_map, Nat.cast_list_sum, List.map_map]
              rfl
        have : ((bitIndex (itemsOf (Q.items l) u).1 (itemsOf (Q.items l) u).2 offset p : ℕ) : ℝ) ≤
            ((offset + (l.map fun e => max e.2.1 e.2.2).sum : ℕ) : ℝ) := by
          refine le_trans (le_of_eq hb) ?_
          rw [Nat.cast_add]
          exact add_le_add le_rfl hle
        exact_mod_cast this
      rw [Nat.mod_eq_of_lt hlt]
      refine (bitIndex_items ((Q.items l).filter fun i => i.unit = u) offset p).trans ?_
      congr 1
      unfold wsum
      rw [hfilter, List.map_map]
      rfl
    simp only [hval]
    have hone : born (ψ u) (fun _ => (offset : ℝ)) = offset := by
      unfold born
      rw [← Finset.mul_sum, ← sum_bits fun f => normSq (ψ u f)]
      rw [show ∑ f, normSq (ψ u f) = norm2 (ψ u) from rfl, (hψ u hu').2, mul_one]
    have hadd : born (ψ u) (fun p => offset + wsum ((Q.items (realW l)).filter fun i => i.unit = u) p.testBit) =
        born (ψ u) (fun _ => (offset : ℝ)) + born (ψ u) (fun p => wsum ((Q.items (realW l)).filter fun i => i.unit = u) p.testBit) := by
      unfold born
      rw [← Finset.sum_add_distrib]
      exact Finset.sum_congr rfl fun p _ => by ring
    rw [hadd, hone, add_comm]
  · intro i hi
    rw [hfilter, List.mem_map] at hi
    obtain ⟨x, hx, rfl⟩ := hi
    exact h2 _ (List.mem_map_of_mem hx)

/-- Two qubits at 0, in units of their own, of weights zero: the mean with the offset 1 is 1, and `ExpectationBitsFactorized` returns
2. -/
theorem expBits_wrong {ph : ℕ → ℂ} (hph : ∀ u, normSq (ph u) = 1) :
    (setPerm 2 0).expBits ph [(0, 0, 0), (1, 0, 0)] 1 = some 2 ∧ Rep (setPerm 2 0) (ket fun i : Fin 2 => (0 : ℕ).testBit i.val) ∧
      meanOf (ket fun i : Fin 2 => (0 : ℕ).testBit i.val) (realW [(0, 0, 0), (1, 0, 0)]) + 1 = 1 := by
  have hm : meanOf (ket fun i : Fin 2 => (0 : ℕ).testBit i.val) (realW [(0, 0, 0), (1, 0, 0)]) = 0 := by
    unfold meanOf realW; simp
  refine ⟨?_, setPerm_spec 2 0, by rw [hm]; norm_num⟩
  rw [expBits_partial (setPerm_spec 2 0) (norm2_ket' _) hph (by decide) (by simp), hm]
  have : (uniq (([(0, 0, 0), (1, 0, 0)] : List (Fin 2 × ℕ × ℕ)).map fun e => (setPerm 2 0).unit e.1)).length = 2 := by decide +kernel
  rw [this]
  norm_num

/-! ### Examples -/

/-- Seven entries, all out of order. -/
example : ((sortUnit 7 6 (fun k => [6, 5, 4, 3, 2, 1, 0].getD k 0) 0 6).map fun s => ((List.range 7).map s.1, s.2)) =
    some ([0, 1, 2, 3, 4, 5, 6], [(0, 6), (1, 5), (2, 4)]) := by decide +kernel

/-- Units of two qubits: the hypotheses of `order_spec` and `entangleAll_spec` are met by the register of a circuit, here with the second
qubit first. -/
example : (([.h 1, .cnot 1 0].foldlM QUC.run (setPerm 2 0)).map fun Q => [Q.mapped 0, Q.mapped 1]) = some [1, 0] ∧
    (([.h 1, .cnot 1 0].foldlM QUC.run (setPerm 2 0)).bind fun Q => Q.entangleAll.map fun Q => [Q.mapped 0, Q.mapped 1]) =
      some [0, 1] := by constructor <;> decide +kernel

end Verif.Units
