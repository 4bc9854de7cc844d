import Verif.Lemmas.PagerSplit
import Verif.Props.PagerMeas
import Verif.Props.EngineCompare

/-!
# Joining, splitting, comparing and transferring paged registers (C74)
-/

namespace Verif.Pager

open Verif.Engine Verif.ParFor Verif.Bits Verif.Spec Verif.Circ Classical

/-! ### Joining -/

/-- C74. `Compose` (`d = false`) and `ComposeNoClone` (`d = true`) append the other register, whose state can still be read,
and return the position of its first qubit. In particular no page is read after it was released. `_partial`: a register
smaller than the other is rotated, which `Swap` does right only when there are at most 8 qubits beyond a page. -/
theorem compose_tensor_partial {maxQb maxCpu thr : ℕ} {σ : List ℕ → List ℕ} (hσ : IsSched σ) {z : Eng → Bool} (hz : ZeroTest z)
    (fresh : ℕ → ℂ) {p b : Pager} (hp : Shape p) (hb : Shape b) {a v : ℕ → ℂ} (ha : Reads p a) (hv : Reads b v) (d : Bool)
    (ht : 1 ≤ thr) (hm : p.n + b.n ≤ maxQb) (hc : thr ≤ maxCpu) (h64 : p.n + b.n ≤ 64) (h8 : p.n < b.n → p.n + b.n ≤ thr + 8) :
    ∃ p' b', composeEither maxQb maxCpu thr σ z fresh p b d = some (p', b', p.n) ∧ p'.n = p.n + b.n ∧ Shape p' ∧
      Based thr p' ∧ Reads p' (tensorAt p.n b.n a v) ∧ b'.n = b.n ∧ Shape b' ∧ Reads b' v := by
  obtain ⟨q, h⟩ := holds_iff.2 ⟨hp, ha⟩
  obtain ⟨qb, hb⟩ := holds_iff.2 ⟨hb, hv⟩
  obtain ⟨p', b', k1, k2, k3, k4, k5, -, k6⟩ := composeEither_holds hσ hz fresh h hb d ht hm hc h64 h8
  exact ⟨p', b', k1, k2, (holds_iff.1 k4).1, k3, (holds_iff.1 k4).2, k5, holds_iff.1 k6⟩

/-- Rotating, appending and rotating back inserts. -/
theorem rotate_insertTensor {n m start : ℕ} (hs : start < n) {a s1 v s' : ℕ → ℂ}
    (h1 : ∀ i, s1 (act (rol (n - start) 0 n) i) = a i)
    (h2 : ∀ i, s' (act (ror (n - start) 0 (n + m)) i) = tensorAt n m s1 v i) :
    SameOn (n + m) s' (tensorAt start m a v) := by
  intro j hj
  have hl := rol_all (n := n + m) (sh := n - start) (by omega) hj (by omega)
  have hlt := act_lt (rol_ok (shift := n - start) (start := 0) (len := n + m) (n := n + m) (by omega)) hj
  have e := h2 (act (rol (n - start) 0 (n + m)) j)
  rw [(ror_rol_cancel (n - start) 0 (n + m) j).1] at e
  rw [e, tensor_top _ _ hlt, hl]
  rw [show n + m - (n - start) = start + m by omega]
  set H := j / 2 ^ (start + m) with hH
  have hHl : H < 2 ^ (n - start) := Nat.div_lt_of_lt_mul (by rw [← pow_add]; convert hj using 2; omega)
  set L := j % 2 ^ (start + m) with hL
  have e1 : 2 ^ n = 2 ^ (n - start) * 2 ^ start := by rw [← pow_add]; congr 1; omega
  have hLm : L % 2 ^ start = j % 2 ^ start := by
    rw [hL, pow_add, Nat.mod_mul_right_mod]
  have hLd : L / 2 ^ start = field start m j := by
    rw [hL, pow_add, Nat.mod_mul_right_div_self]; rfl
  have hdiv : (H + 2 ^ (n - start) * L) / 2 ^ n = field start m j := by
    rw [e1, ← Nat.div_div_eq_div_mul, Nat.add_mul_div_left _ _ (by positivity), Nat.div_eq_of_lt hHl, Nat.zero_add, hLd]
  have hmod : (H + 2 ^ (n - start) * L) % 2 ^ n = H + 2 ^ (n - start) * (j % 2 ^ start) := by
    rw [e1, Nat.mod_mul, Nat.add_mul_mod_self_left, Nat.mod_eq_of_lt hHl, Nat.add_mul_div_left _ _ (by positivity),
      Nat.div_eq_of_lt hHl, Nat.zero_add, hLm]
  have hr : rest start m j = 2 ^ start * H + j % 2 ^ start := by unfold rest; rw [hH]; ring
  have hml : j % 2 ^ start < 2 ^ start := Nat.mod_lt _ (by positivity)
  have hrl : rest start m j < 2 ^ n := by
    rw [hr, e1]
    calc 2 ^ start * H + j % 2 ^ start < 2 ^ start * (H + 1) := by rw [Nat.mul_succ]; omega
      _ ≤ 2 ^ start * 2 ^ (n - start) := Nat.mul_le_mul_left _ hHl
      _ = _ := Nat.mul_comm _ _
  have hx := rol_all (n := n) (sh := n - start) (by omega) hrl (by omega)
  rw [show n - (n - start) = start by omega, hr, Nat.mul_add_div (by positivity), Nat.div_eq_of_lt hml, Nat.add_zero,
    Nat.mul_add_mod, Nat.mod_mod] at hx
  rw [hdiv, hmod]
  unfold tensorAt
  rw [← h1 (rest start m j), hr, hx]

/-- `Compose(toCopy, start)`. -/
theorem composeAt_holds {maxQb maxCpu thr : ℕ} {σ : List ℕ → List ℕ} (hσ : IsSched σ) {z : Eng → Bool} (hz : ZeroTest z)
    (fresh : ℕ → ℂ) {p b : Pager} {q qb : ℕ} {a v : ℕ → ℂ} (h : Holds p q a) (hb : Holds b qb v) (hbase : Based thr p)
    (ht : 1 ≤ thr) (hm : p.n + b.n ≤ maxQb) (hc : thr ≤ maxCpu) (h64 : p.n + b.n ≤ 64) (h8 : p.n + b.n ≤ thr + 8)
    {start : ℕ} (hs : start ≤ p.n) :
    ∃ p' b', composeAt maxQb maxCpu thr σ z fresh p b start = some (p', b', p.n) ∧ p'.n = p.n + b.n ∧ Based thr p' ∧
      ∃ q', Holds p' q' (tensorAt start b.n a v) := by
  unfold composeAt composeAround
  by_cases hst : start = p.n
  · rw [if_pos hst, hst]
    obtain ⟨p', b', k1, k2, k3, k4, -⟩ := composeEither_holds hσ hz fresh h hb false ht hm hc h64 (fun _ => h8)
    exact ⟨p', b', k1, k2, k3, k4⟩
  · rw [if_neg hst]
    have hpb := sizes hbase
    obtain ⟨p1, q1, s1, k1, k2, k3, k4, k5⟩ := runSwaps_holds hσ (rol (p.n - start) 0 p.n) h (rol_swaps (by omega) (by omega))
    obtain ⟨p2, b2, l1, l2, l3, ⟨q2, l4⟩, -⟩ := composeEither_holds hσ hz fresh k4 hb false ht (maxQb := maxQb)
      (maxCpu := maxCpu) (by omega) hc (by omega) (fun _ => by omega)
    have hb2 := sizes l3
    obtain ⟨p3, q3, s3, m1, m2, m3, m4, m5⟩ := runSwaps_holds hσ (ror (p.n - start) 0 p2.n) l4
      (ror_swaps (by omega) (by omega))
    refine ⟨p3, b2, ?_, by omega, ?_, q3, m4.congr ?_⟩
    · rw [k1, Option.bind_some]
      dsimp only
      rw [l1, Option.bind_some]
      dsimp only
      rw [m1, k2]
      rfl
    · unfold Based; rw [m3, m2]; exact l3
    · have hn2 : p2.n = p.n + b.n := by omega
      rw [m2, hn2]
      refine rotate_insertTensor (s1 := s1) (by omega) k5 fun i => ?_
      have := m5 i
      rw [hn2, k2] at this
      exact this

/-- C74. `Compose(toCopy, start)` inserts the other register at `start`. `_partial`: at most 8 qubits beyond a page; and the
position it returns is wrong, see `composeAt_position_wrong`. -/
theorem composeAt_tensor_partial {maxQb maxCpu thr : ℕ} {σ : List ℕ → List ℕ} (hσ : IsSched σ) {z : Eng → Bool}
    (hz : ZeroTest z) (fresh : ℕ → ℂ) {p b : Pager} (hp : Shape p) (hb : Shape b) (hbase : Based thr p) {a v : ℕ → ℂ}
    (ha : Reads p a) (hv : Reads b v) (ht : 1 ≤ thr) (hm : p.n + b.n ≤ maxQb) (hc : thr ≤ maxCpu) (h64 : p.n + b.n ≤ 64)
    (h8 : p.n + b.n ≤ thr + 8) {start : ℕ} (hs : start ≤ p.n) :
    ∃ p' b' r, composeAt maxQb maxCpu thr σ z fresh p b start = some (p', b', r) ∧ p'.n = p.n + b.n ∧ Shape p' ∧
      Based thr p' ∧ Reads p' (tensorAt start b.n a v) := by
  obtain ⟨q, h⟩ := holds_iff.2 ⟨hp, ha⟩
  obtain ⟨qb, hb⟩ := holds_iff.2 ⟨hb, hv⟩
  obtain ⟨p', b', k1, k2, k3, k4⟩ := composeAt_holds hσ hz fresh h hb hbase ht hm hc h64 h8 hs
  exact ⟨p', b', _, k1, k2, (holds_iff.1 k4).1, k3, (holds_iff.1 k4).2⟩

/-- C74 fails: the position that `Compose(toCopy, start)` returns is never `start`, unless that is the end of the register
(`src/qinterface/qinterface.cpp:398-411` returns the result of the inner `Compose`). -/
theorem composeAt_position_wrong {maxQb maxCpu thr : ℕ} {σ : List ℕ → List ℕ} (hσ : IsSched σ) {z : Eng → Bool}
    (hz : ZeroTest z) (fresh : ℕ → ℂ) {p b : Pager} (hp : Shape p) (hb : Shape b) (hbase : Based thr p) {a v : ℕ → ℂ}
    (ha : Reads p a) (hv : Reads b v) (ht : 1 ≤ thr) (hm : p.n + b.n ≤ maxQb) (hc : thr ≤ maxCpu) (h64 : p.n + b.n ≤ 64)
    (h8 : p.n + b.n ≤ thr + 8) {start : ℕ} (hs : start < p.n) :
    ∃ p' b' r, composeAt maxQb maxCpu thr σ z fresh p b start = some (p', b', r) ∧ r ≠ start := by
  obtain ⟨q, h⟩ := holds_iff.2 ⟨hp, ha⟩
  obtain ⟨qb, hb⟩ := holds_iff.2 ⟨hb, hv⟩
  obtain ⟨p', b', k1, -⟩ := composeAt_holds hσ hz fresh h hb hbase ht hm hc h64 h8 hs.le
  exact ⟨p', b', _, k1, by omega⟩

theorem construct_holds {n base : ℕ} (h1 : 1 ≤ base) (hb : base ≤ n) (hn : n ≤ 64) (initState : ℕ) (f : ℂ) :
    ∃ q, Holds (construct n base initState f) q (fun _ => 0) :=
  holds_iff.2 ⟨⟨hn, h1, base, le_rfl, hb, rfl, fun k _ => by simp only [construct]; split_ifs <;> exact ⟨rfl, rfl, rfl⟩⟩,
    construct_wrong hb initState f⟩

/-- C74 fails: `Allocate` is to add qubits in the state `|0⟩`, but the register it composes with comes from the constructor,
which sets no amplitude. Afterwards every amplitude is zero: the state is lost. -/
theorem allocate_wrong {maxQb maxCpu thr : ℕ} {σ : List ℕ → List ℕ} (hσ : IsSched σ) {z : Eng → Bool}
    (hz : ZeroTest z) (fresh : ℕ → ℂ) {p : Pager} (hp : Shape p) (hbase : Based thr p) {a : ℕ → ℂ}
    (ha : Reads p a) {length : ℕ} (hl : 1 ≤ length) (ht : 1 ≤ thr) (hm : p.n + length ≤ maxQb) (hc : thr ≤ maxCpu)
    (h64 : p.n + length ≤ 64) (h8 : p.n + length ≤ thr + 8) {start : ℕ} (hs : start ≤ p.n) :
    ∃ p' r, allocate maxQb maxCpu thr σ z fresh p start length = some (p', r) ∧ p'.n = p.n + length ∧
      Reads p' (fun _ => 0) := by
  obtain ⟨q, h⟩ := holds_iff.2 ⟨hp, ha⟩
  obtain ⟨qb, hb⟩ := construct_holds (n := length) (base := if length < thr then length else thr)
    (by split_ifs <;> omega) (by split_ifs <;> omega) (by omega) 0 1
  have hbn : (construct length (if length < thr then length else thr) 0 1).n = length := rfl
  obtain ⟨p', b', k1, k2, k3, k4⟩ := composeAt_holds hσ hz fresh h hb hbase ht (maxQb := maxQb) (maxCpu := maxCpu) hm hc h64 h8 hs
  refine ⟨p', p.n, ?_, k2, fun i hi => ?_⟩
  · unfold allocate
    rw [if_neg (by omega), k1]
    rfl
  · rw [(holds_iff.1 k4).2 i hi]
    simp [tensorAt]

/-! ### Splitting -/

/-- C74. `Dispose(start, length, disposedPerm)` keeps the amplitudes in which the qubits have the given value. `_partial`: not
all qubits; and for a range that is not in a page, at most 8 qubits beyond a page. -/
theorem paged_disposePerm_partial {thr : ℕ} {σ : List ℕ → List ℕ} (hσ : IsSched σ) (fresh : ℕ → ℂ) (ht : 1 ≤ thr) {p : Pager}
    (hp : Shape p) (hb : Based thr p) {s : ℕ → ℂ} (hs : Reads p s) {start length perm : ℕ} (hl : length < p.n)
    (hr : start + length ≤ p.n) (hperm : perm < 2 ^ length) (h8 : p.n ≤ thr + 8) :
    ∃ p', disposePerm thr σ fresh 2 p start length perm = some p' ∧ p'.n = p.n - length ∧ Shape p' ∧ Based thr p' ∧
      Reads p' (fun i => s (insertAt start length perm i)) := by
  obtain ⟨q, h⟩ := holds_iff.2 ⟨hp, hs⟩
  obtain ⟨p', q', k1, k2, k3, k4⟩ := disposePerm_holds hσ fresh ht h hb hl hr hperm (fun _ => h8)
  exact ⟨p', k1, k2, (holds_iff.1 ⟨_, k4⟩).1, k3, (holds_iff.1 ⟨_, k4⟩).2⟩

/-- The loop of `Dispose` does not end: with a single page smaller than the range, the recursive call is the same call. -/
theorem dispose_loop {thr : ℕ} {σ : List ℕ → List ℕ} {p : Pager} {s : ℕ → ℂ} (h : Holds p p.n s) {length : ℕ}
    (hl : p.n < length) (f : ℕ → Eng → Option Eng) : ∀ fuel, disposeWith thr σ length f fuel p 0 = none := by
  intro fuel
  induction fuel with
  | zero => rfl
  | succ fuel ih =>
    unfold disposeWith
    have hc : combineEngines p (length + 1) = some p := by
      unfold combineEngines
      simp only []
      rw [if_pos (by rw [h.qpp, if_pos (by omega)])]
    have hr : runSwaps σ (ror 0 0 p.n) p = some p := by
      unfold ror
      simp [runSwaps]
    rw [hc, Option.bind_some, h.qpp, if_pos (by omega), hr, Option.bind_some, ih]
    rfl

/-- C74 fails: asked to dispose more qubits than there are, a page throws an exception, but the paged register calls itself
without end (`src/qpager.cpp:756-761`, `775-780`). -/
theorem dispose_endless {thr : ℕ} {σ : List ℕ → List ℕ} (fresh : ℕ → ℂ) {p : Pager} (hp : Shape p) (h1 : p.count = 1)
    {length : ℕ} (hl : p.n < length) :
    (∀ fuel, dispose thr σ fresh fuel p 0 length = none) ∧ (∀ fuel perm, disposePerm thr σ fresh fuel p 0 length perm = none) := by
  obtain ⟨q, h⟩ := holds_iff.2 ⟨hp, fun i hi => (show getAmplitude p i = some ((fun i => (p.page 0).amp i) i) from by
    unfold getAmplitude Pager.pageMax
    rw [h1, Nat.div_one, Nat.div_eq_of_lt hi, if_pos (by omega), Nat.mod_eq_of_lt hi])⟩
  have hq : q = p.n := by
    have := h.count
    rw [h1] at this
    have := (Nat.pow_right_injective (le_refl 2)) (show 2 ^ 0 = 2 ^ (p.n - q) from this)
    have := h.le
    omega
  subst hq
  exact ⟨dispose_loop h hl _, fun fuel perm => dispose_loop h hl _ fuel⟩

/-- The factor of a page is a part of the factor of the register. -/
theorem tensor_page {q start length : ℕ} (hs : start + length ≤ q) (A B : ℕ → ℂ) {k i j : ℕ} (hj : j < 2 ^ length)
    : tensorAt start length A B (2 ^ q * k + insertAt start length j i) = A (2 ^ (q - length) * k + i) * B j := by
  rw [← insertAt_page hs]
  unfold tensorAt
  rw [rest_insertAt hj, field_insertAt hj]

/-- C74. `Dispose(start, length)` of a factor leaves the other factor, all pages with the same phase. `_partial`: the range
lies in a page that stays as it is, no page has an amplitude floor, and no sum of phases leaves `(-π, π]` (C24). -/
theorem paged_dispose_partial {thr : ℕ} {σ : List ℕ → List ℕ} (hσ : IsSched σ) (fresh : ℕ → ℂ) (ht : 1 ≤ thr) {p : Pager}
    {q : ℕ} {start length : ℕ} {A B : ℕ → ℂ} (h : Holds p q (tensorAt start length A B)) (hfl : ∀ k < p.count, (p.page k).floor = 0)
    (h0 : length ≠ 0) (hl : length < q) (hs : start + length ≤ q) (hB : totalProb length B = 1)
    (hw : NoWrap (p.n - length) length A B) :
    ∃ p', dispose thr σ fresh 2 p start length = some p' ∧ p'.n = p.n - length ∧ Shape p' ∧ Based thr p' ∧
      ∃ u : ℂ, ‖u‖ = 1 ∧ Reads p' (fun i => u * A i) := by
  have hqn := h.le
  obtain ⟨p', k1, k2, k3, k4⟩ := disposeIn (σ := σ) ht h (length := length) (start := start) (fuel := 1) (by omega) (by omega)
    (f := fun start e => Engine.dispose σ fresh e start length)
    (s' := fun i => Complex.exp ((meanPhase length B : ℝ) * Complex.I) * A i) (by
    intro p1 q1 hc _ hq1 _ k hk
    have hp1 : p1 = p := by
      unfold combineEngines at hc
      simp only [] at hc
      rw [if_pos (by rw [h.qpp, if_neg (by omega)]; omega)] at hc
      exact (Option.some.inj hc).symm
    have hq1 : q1 = q := by omega
    subst hp1 hq1
    have hpg := h.pages k hk
    have hf := hfl k (by rw [h.count]; exact hk)
    have hd : (p1.page k).doNorm = true → (p1.page k).rn = 1 := by rw [hpg.doNorm]; simp
    obtain ⟨r, d, l1, l2, l3, -⟩ := decompose_formula hσ fresh (e := p1.page k) (start := start) (length := length)
      (by rw [hpg.n]; exact hs) h0 (by rw [hpg.n]; exact hl) hd
    have hfr : r.doNorm = (p1.page k).doNorm ∧ r.rgp = (p1.page k).rgp := by
      unfold decomposeDispose at l1
      rw [if_neg (by rw [hpg.n]; omega), if_neg h0, if_neg (by rw [hpg.n]; omega)] at l1
      simp only [] at l1
      rw [normIf_ready hd] at l1
      rw [← (Prod.mk.inj (Option.some.inj l1)).1]
      exact ⟨rfl, rfl⟩
    refine ⟨r, ?_, by rw [l2, hpg.n], by rw [hfr.1, hpg.doNorm], by rw [hfr.2, hpg.rgp], fun i hi => ?_⟩
    · unfold Engine.dispose; rw [l1]; rfl
    rw [hpg.n] at l3
    rw [l3 i hi]
    have hx : 2 ^ (q1 - length) * k + i < 2 ^ (p1.n - length) := by
      have := at_lt (n := p1.n - length) (q := q1 - length) (by omega) (by rwa [show p1.n - length - (q1 - length) = p1.n - q1 by omega]) hi
      exact this
    refine polar_factor (B := B) (z := A (2 ^ (q1 - length) * k + i)) (fun j hj => ?_) hB rfl (by rw [hf]) (fun j _ hne => ?_)
      (fun j hj => hw _ hx j hj)
    · rw [hpg.amp _ (insertAt_lt hj hs hi)]
      exact tensor_page hs A B hj
    · rw [hf]; exact Complex.normSq_pos.2 hne)
  exact ⟨p', k1, k2, (holds_iff.1 ⟨_, k4⟩).1, k3, _, Complex.norm_exp_ofReal_mul_I _, (holds_iff.1 ⟨_, k4⟩).2⟩

theorem regroup_empty {thr : ℕ} {p : Pager} (h1 : p.count = 1) (hn : p.n = 0) (hb : p.base = 0) : regroup thr p = some p := by
  have hq : p.qpp = 0 := by
    unfold Pager.qpp Pager.pageMax
    rw [h1, hn]
    decide +kernel
  have hc : combineEngines p thr = some p := by
    unfold combineEngines
    simp only [hq, hn]
    rw [if_pos (by split_ifs <;> omega)]
  unfold regroup
  rw [hc, Option.bind_some]
  unfold separateEngines
  simp only [hq]
  rw [if_pos (by omega)]

/-- C74 fails: `Decompose(start, length)` is to take out `length` qubits, but takes out all, whatever `length` is, and leaves a
register of no qubits (`src/qpager.cpp:715`: the destination is made with `qubitCount`). -/
theorem decomposeNew_wrong {thr : ℕ} {σ : List ℕ → List ℕ} {z : Eng → Bool} (fresh : ℕ → ℂ) (ht : 1 ≤ thr) {p : Pager}
    (hp : Shape p) {s : ℕ → ℂ} (hs : Reads p s) (length : ℕ) :
    ∃ p' d, decomposeNew thr σ z fresh 1 p 0 length = some (p', d) ∧ p'.n = 0 ∧ d.n = p.n := by
  obtain ⟨q, h⟩ := holds_iff.2 ⟨hp, hs⟩
  have hpos := h.pos
  have hle := h.le
  obtain ⟨p1, q1, k1, k2, k3, k4, k5⟩ := combine_holds h (p.n + 1)
  have hq1 : q1 = p.n := by omega
  have hc1 : p1.count = 1 := by rw [k4.count, k2, hq1]; simp
  have hpg := k4.pages 0 (by positivity)
  obtain ⟨qd, hd⟩ := construct_holds (n := p.n) (base := if p.n < thr then p.n else thr)
    (by split_ifs <;> omega) (by split_ifs <;> omega) h.word 0 1
  set dest := construct p.n (if p.n < thr then p.n else thr) 0 1 with hdest
  have hdn : dest.n = p.n := rfl
  obtain ⟨d1, qd1, l1, l2, l3, l4, l5⟩ := combine_holds hd dest.n
  have hqd : qd1 = p.n := by have := hd.le; omega
  have hcd : d1.count = 1 := by rw [l4.count, l2, hqd, hdn]; simp
  have hdpg := l4.pages 0 (by positivity)
  have hdd : decomposeDispose σ fresh (p1.page 0) 0 p.n = some ({ p1.page 0 with n := 0, amp := fun _ => 0 }, (p1.page 0).amp) := by
    unfold decomposeDispose
    rw [if_neg (by rw [hpg.n, hq1]; omega), if_neg (by omega), if_pos (by rw [hpg.n, hq1]; omega)]
  have hstep : ∃ e d b, decomposeStep σ z fresh 0 dest.n (p1, d1.page 0, false) 0 =
      some ({ p1 with page := Function.update p1.page 0 e }, d, b) := by
    unfold decomposeStep
    rw [if_pos (by show 0 < p1.count; omega)]
    by_cases hz : z (p1.page 0) = false
    · rw [if_pos ⟨rfl, hz⟩]
      unfold Engine.decompose
      dsimp only
      rw [hdpg.n, hqd, hdd]
      exact ⟨_, _, _, rfl⟩
    · rw [if_neg (fun hh => hz hh.2)]
      unfold Engine.dispose
      dsimp only
      rw [hdn, hdd]
      exact ⟨_, _, _, rfl⟩
  obtain ⟨e, d, b, hst⟩ := hstep
  refine ⟨setQubitCount thr { p1 with page := Function.update p1.page 0 e } 0, { d1 with page := Function.update d1.page 0 d },
    ?_, rfl, by show d1.n = p.n; omega⟩
  unfold decomposeNew decompose
  rw [← hdest]
  dsimp only
  rw [hdn, k1, Option.bind_some, k4.qpp, if_neg (by omega)]
  rw [hdn] at l1 hst
  rw [l1, Option.bind_some, if_neg (by omega)]
  have hf : (List.range p1.count).foldlM (decomposeStep σ z fresh 0 p.n) (p1, d1.page 0, false) =
      some ({ p1 with page := Function.update p1.page 0 e }, d, b) := by
    rw [hc1]
    show (decomposeStep σ z fresh 0 p.n (p1, d1.page 0, false) 0 >>= _) = _
    rw [hst, ← hc1]; rfl
  rw [hf, Option.bind_some]
  dsimp only
  rw [k2, Nat.sub_self, regroup_empty (by exact hc1) rfl (by show (if 0 < thr then 0 else thr) = 0; rw [if_pos (by omega)])]
  rfl

/-! ### State transfer -/

/-- C74. `SetQuantumState` sets the state. -/
theorem setQuantumState_reads {p : Pager} (hp : Shape p) {s : ℕ → ℂ} (hs : Reads p s) (input : ℕ → ℂ) :
    Shape (setQuantumState p input) ∧ Reads (setQuantumState p input) input := by
  obtain ⟨q, h⟩ := holds_iff.2 ⟨hp, hs⟩
  refine holds_iff.1 ⟨q, h.update rfl rfl rfl fun k hk => ?_⟩
  have := h.pages k hk
  refine ⟨this.n, this.doNorm, this.rgp, fun a _ => ?_⟩
  show input (k * p.pageMax + a) = _
  rw [h.pageMax, Nat.mul_comm]

theorem output_fold {α : Type} (f : ℂ → α) {p : Pager} {q : ℕ} {s : ℕ → ℂ} (h : Holds p q s) (out : ℕ → α) (m : ℕ)
    (hm : m ≤ 2 ^ (p.n - q)) (x : ℕ) : ((List.range m).foldl (fun out i => fun x =>
      if i * p.pageMax ≤ x ∧ x < i * p.pageMax + 2 ^ (p.page i).n then f ((p.page i).amp (x - i * p.pageMax)) else out x) out) x =
      if x < m * 2 ^ q then f (s x) else out x := by
  induction m with
  | zero => simp
  | succ m ih =>
    rw [List.range_succ, List.foldl_append, List.foldl_cons, List.foldl_nil]
    have hpg := h.pages m (by omega)
    rw [h.pageMax, hpg.n]
    rw [h.pageMax] at ih
    by_cases h1 : m * 2 ^ q ≤ x ∧ x < m * 2 ^ q + 2 ^ q
    · rw [if_pos h1, if_pos (by rw [Nat.succ_mul]; exact h1.2), hpg.amp _ (by omega)]
      dsimp only
      rw [Nat.mul_comm (2 ^ q) m, Nat.add_sub_cancel' h1.1]
    · rw [if_neg h1, ih (by omega)]
      have key : ∀ M Q : ℕ, ¬ (M ≤ x ∧ x < M + Q) → (x < M ↔ x < M + Q) := by intro M Q hh; omega
      have : x < m * 2 ^ q ↔ x < (m + 1) * 2 ^ q := by rw [Nat.succ_mul]; exact key _ _ h1
      simp only [this]

/-- C74. `GetQuantumState` (`f` the identity) and `GetProbs` (`f` the squared magnitude) write the amplitudes and the
probabilities of all basis states, and nothing beyond. -/
theorem output_all {α : Type} (f : ℂ → α) {p : Pager} (hp : Shape p) {s : ℕ → ℂ} (hs : Reads p s) (out : ℕ → α) (x : ℕ) :
    output f p out x = if x < 2 ^ p.n then f (s x) else out x := by
  obtain ⟨q, h⟩ := holds_iff.2 ⟨hp, hs⟩
  unfold output
  rw [h.count, output_fold f h out _ le_rfl, ← pow_add, Nat.sub_add_cancel h.le]

/-- C74. `SetAmplitude` sets that amplitude and no other. -/
theorem setAmplitude_reads {p : Pager} (hp : Shape p) {s : ℕ → ℂ} (hs : Reads p s) {perm : ℕ} (hperm : perm < 2 ^ p.n) (amp : ℂ) :
    ∃ p', setAmplitude p perm amp = some p' ∧ p'.n = p.n ∧ Shape p' ∧ Reads p' (Function.update s perm amp) := by
  obtain ⟨q, h⟩ := holds_iff.2 ⟨hp, hs⟩
  have hk : perm / 2 ^ q < 2 ^ (p.n - q) := div_lt' h.le hperm
  let e : Eng := { p.page (perm / 2 ^ q) with amp := Function.update (p.page (perm / 2 ^ q)).amp (perm % 2 ^ q) amp }
  refine ⟨{ p with page := Function.update p.page (perm / 2 ^ q) e }, ?_, rfl, ?_⟩
  · unfold setAmplitude onPage
    rw [h.pageMax, if_pos (by rw [h.count]; exact hk)]
    rfl
  · refine holds_iff.1 ⟨q, h.update rfl rfl rfl fun k hk' => ?_⟩
    have hpg := h.pages k hk'
    dsimp only
    by_cases hkk : k = perm / 2 ^ q
    · subst hkk
      rw [Function.update_self]
      refine ⟨hpg.n, hpg.doNorm, hpg.rgp, fun a ha => ?_⟩
      show Function.update (p.page (perm / 2 ^ q)).amp (perm % 2 ^ q) amp a = Function.update s perm amp (2 ^ q * (perm / 2 ^ q) + a)
      by_cases haa : a = perm % 2 ^ q
      · subst haa
        rw [Function.update_self, Nat.div_add_mod, Function.update_self]
      · rw [Function.update_of_ne haa, Function.update_of_ne (fun hc => haa ?_)]
        · exact hpg.amp a ha
        · rw [← hc, Nat.mul_add_mod, Nat.mod_eq_of_lt ha]
    · rw [Function.update_of_ne hkk]
      refine ⟨hpg.n, hpg.doNorm, hpg.rgp, fun a ha => ?_⟩
      rw [hpg.amp a ha]
      dsimp only
      rw [Function.update_of_ne (fun hc => hkk ?_)]
      rw [← hc, Nat.mul_add_div (by positivity), Nat.div_eq_of_lt ha, Nat.add_zero]

/-- C74. With one page and `offset ≤ length`, `SetAmplitudePage` and `GetAmplitudePage` transfer the range. `_partial`: see
`amplitudePage_skips` and `setAmplitudePage_wrong` for what happens otherwise. -/
theorem amplitudePage_partial {p : Pager} (hp : Shape p) (h1 : p.count = 1) {s : ℕ → ℂ} (hs : Reads p s) {offset length : ℕ}
    (h0 : 0 < length) (hr : offset + length ≤ 2 ^ p.n) (ho : offset ≤ length) (input out : ℕ → ℂ) :
    (∃ p', setAmplitudeArray p input offset length = some p' ∧ p'.n = p.n ∧
      Reads p' (fun x => if offset ≤ x ∧ x < offset + length then input (x - offset) else s x)) ∧
    ∃ o, getAmplitudeArray p out offset length = some o ∧ ∀ x, o x = if x < length then s (offset + x) else out x := by
  obtain ⟨q, h⟩ := holds_iff.2 ⟨hp, hs⟩
  have hq : q = p.n := by
    have := h.count
    rw [h1] at this
    have := (Nat.pow_right_injective (le_refl 2)) (show 2 ^ 0 = 2 ^ (p.n - q) from this)
    have := h.le
    omega
  subst hq
  have hcalls : pageCalls p offset length p.count 0 0 = [(0, offset, length)] := by
    rw [h1]
    unfold pageCalls
    rw [if_neg (by omega), if_neg (by omega)]
    unfold pageCalls partRange
    rw [h.pageMax]
    have e1 : (if 0 < offset then offset - 0 else 0) = offset := by split_ifs <;> omega
    have e2 : (if length < 2 ^ p.n then length else 2 ^ p.n) = length := by split_ifs <;> omega
    rw [e1, e2]
  have hpg := h.pages 0 (by positivity)
  constructor
  · let e : Eng :=
      { p.page 0 with amp := fun x => if offset ≤ x ∧ x < offset + length then input (x - offset) else (p.page 0).amp x }
    refine ⟨{ p with page := Function.update p.page 0 e }, ?_, rfl, ?_⟩
    · unfold setAmplitudeArray
      rw [hcalls]
      show (onPage p 0 _ >>= _) = _
      unfold onPage
      rw [if_pos (by omega)]
      dsimp only
      rw [if_neg (by unfold badPermRange; rw [hpg.n]; omega)]
      rfl
    · refine (holds_iff.1 ⟨p.n, h.update (p' := { p with page := Function.update p.page 0 e }) rfl rfl rfl fun k hk => ?_⟩).2
      have hk0 : k = 0 := by rw [Nat.sub_self, pow_zero] at hk; omega
      subst hk0
      dsimp only
      rw [Function.update_self]
      refine ⟨hpg.n, hpg.doNorm, hpg.rgp, fun a ha => ?_⟩
      show (if offset ≤ a ∧ a < offset + length then input (a - offset) else (p.page 0).amp a) =
        if offset ≤ 2 ^ p.n * 0 + a ∧ 2 ^ p.n * 0 + a < offset + length then input (2 ^ p.n * 0 + a - offset)
        else s (2 ^ p.n * 0 + a)
      rw [Nat.mul_zero, Nat.zero_add]
      split_ifs
      · rfl
      · have := hpg.amp a ha
        rwa [Nat.mul_zero, Nat.zero_add] at this
  · refine ⟨fun x => if x < length then (p.page 0).amp (x + offset) else out x, ?_, fun x => ?_⟩
    · unfold getAmplitudeArray
      rw [hcalls]
      show ((if _ then none else some _) >>= _) = _
      dsimp only
      rw [if_neg (by unfold badPermRange; rw [hpg.n]; omega)]
      rfl
    · dsimp only
      split_ifs with hx
      · rw [hpg.amp _ (by omega)]
        dsimp only
        rw [Nat.mul_zero, Nat.zero_add, Nat.add_comm]
      · rfl

theorem pageCalls_skip (p : Pager) {offset length : ℕ} (h : length < offset) : ∀ k i, pageCalls p offset length k i 0 = [] := by
  intro k
  induction k with
  | zero => intro i; rfl
  | succ k ih => intro i; unfold pageCalls; rw [if_pos (by omega), ih]

/-- C74 fails: with `offset > length` `SetAmplitudePage` and `GetAmplitudePage` do nothing at all, for any register
(`src/qpager.cpp:299-301`: `continue` without advancing `perm`). -/
theorem amplitudePage_skips (p : Pager) (input out : ℕ → ℂ) {offset length : ℕ} (h : length < offset) :
    setAmplitudeArray p input offset length = some p ∧ getAmplitudeArray p out offset length = some out := by
  unfold setAmplitudeArray getAmplitudeArray
  rw [pageCalls_skip p h]
  exact ⟨rfl, rfl⟩

theorem pageCalls_all {p : Pager} {q : ℕ} {s : ℕ → ℂ} (h : Holds p q s) : ∀ k i, i + k = 2 ^ (p.n - q) →
    pageCalls p 0 (2 ^ p.n) k i (2 ^ q * i) = (List.range' i k).map fun i => (i, 0, 2 ^ q) := by
  intro k
  induction k with
  | zero => intro i _; rfl
  | succ k ih =>
    intro i hi
    have hlt : 2 ^ q * i < 2 ^ p.n := by
      have := at_lt (a := 0) h.le (show i < 2 ^ (p.n - q) by omega) (by positivity)
      simpa using this
    unfold pageCalls
    rw [if_neg (by omega), if_neg (by omega), List.range'_succ, List.map_cons]
    unfold partRange
    rw [h.pageMax, if_neg (by omega)]
    have : (if 2 ^ p.n < 2 ^ q then 2 ^ p.n else 2 ^ q) = 2 ^ q := by
      rw [if_neg (not_lt.2 (Nat.pow_le_pow_right (by norm_num) h.le))]
    rw [this, ← ih (i + 1) (by omega), Nat.mul_succ]

/-- C74 fails: `SetAmplitudePage` of the whole state writes the amplitudes of the first page to every page (the pointer is not
advanced, `src/qpager.cpp:308-309`). With more than one page that is not the state asked for. -/
theorem setAmplitudePage_wrong {p : Pager} (hp : Shape p) {s : ℕ → ℂ} (hs : Reads p s) (input : ℕ → ℂ) :
    ∃ p', setAmplitudeArray p input 0 (2 ^ p.n) = some p' ∧ p'.n = p.n ∧
      Reads p' (fun x => input (x % (2 ^ p.n / p.count))) := by
  obtain ⟨q, h⟩ := holds_iff.2 ⟨hp, hs⟩
  have hc := pageCalls_all h (2 ^ (p.n - q)) 0 (by omega)
  rw [Nat.mul_zero, ← List.range_eq_range', ← h.count] at hc
  obtain ⟨p', k1, k2, k3, k4, k5⟩ := allPages (fun _ e => if badPermRange 0 (2 ^ q) (2 ^ e.n) then none
    else some { e with amp := fun x => if 0 ≤ x ∧ x < 0 + 2 ^ q then input (x - 0) else e.amp x })
    (fun _ e => PageIs q e input) p (fun k hk => by
      have hpg := h.pages k (by rw [← h.count]; exact hk)
      refine ⟨_, if_neg (by unfold badPermRange; rw [hpg.n]; omega), hpg.n, hpg.doNorm, hpg.rgp, fun a ha => ?_⟩
      dsimp only
      rw [if_pos ⟨Nat.zero_le _, by omega⟩, Nat.sub_zero])
  refine ⟨p', ?_, k2, (holds_iff.1 ⟨q, h.update k2 k3 k4 fun k hk => ?_⟩).2⟩
  · unfold setAmplitudeArray
    rw [hc, List.foldlM_map]
    exact k1
  · refine (k5 k (by rw [h.count]; exact hk)).congr fun a ha => ?_
    have := h.pageMax
    unfold Pager.pageMax at this
    rw [this, Nat.mul_add_mod, Nat.mod_eq_of_lt ha]

/-! ### Comparison -/

theorem foldlM_sum (g : ℕ → ℝ) {N : ℕ} : ∀ m ≤ N, (List.range m).foldlM (fun (acc : ℝ) i =>
    if i < N then some (acc + g i) else none) 0 = some (∑ i ∈ Finset.range m, g i) := by
  intro m
  induction m with
  | zero => intro _; rfl
  | succ m ih =>
    intro hm
    rw [List.range_succ, List.foldlM_append, ih (by omega), Finset.sum_range_succ]
    show ((if m < N then some _ else none) >>= _) = _
    rw [if_pos (by omega)]
    rfl

theorem pageDiff_inner {P : Par} (hP : P.Ok) {q : ℕ} {a b : Eng} {s t : ℕ → ℂ} (ha : PageIs q a s) (hb : PageIs q b t) :
    pageDiff P (fun _ => false) a b = 1 - clampProb (Complex.normSq (Spec.inner q s t)) := by
  unfold pageDiff
  rw [if_neg (by rw [ha.n, hb.n]; simp)]
  simp only [Bool.false_eq_true, false_and, if_false]
  unfold Engine.sumSqrDiff
  rw [if_neg (by rw [ha.n, hb.n]; simp)]
  simp only []
  rw [normIf_ready (by rw [ha.doNorm]; simp), normIf_ready (by rw [hb.doNorm]; simp), reduceC_range hP, ha.n]
  have : ∑ i ∈ Finset.range (2 ^ q), (starRingEnd ℂ) (a.amp i) * b.amp i = Spec.inner q s t :=
    Finset.sum_congr rfl fun i hi => by rw [ha.amp i (Finset.mem_range.1 hi), hb.amp i (Finset.mem_range.1 hi)]
  rw [this]

theorem sumSqrDiff_pages {P : Par} (hP : P.Ok) {a b : Pager} {q : ℕ} {s t : ℕ → ℂ} (ha : Holds a q s) (hb : Holds b q t)
    (hn : a.n = b.n) : sumSqrDiff P (fun _ => false) a b = some (∑ k ∈ Finset.range (2 ^ (a.n - q)),
      (1 - clampProb (Complex.normSq (Spec.inner q (fun x => s (2 ^ q * k + x)) (fun x => t (2 ^ q * k + x)))))) := by
  have hsep : ∀ {p : Pager} {s : ℕ → ℂ}, Holds p q s → separateEngines p q false = some p := by
    intro p s h
    unfold separateEngines
    simp only [h.qpp]
    rw [if_pos (by split_ifs <;> omega)]
  have hcom : ∀ {p : Pager} {s : ℕ → ℂ}, Holds p q s → combineEngines p q = some p := by
    intro p s h
    unfold combineEngines
    simp only [h.qpp]
    rw [if_pos (by split_ifs <;> omega)]
  unfold sumSqrDiff
  rw [if_neg (by simpa using hn), hb.qpp, hsep ha, Option.bind_some, ha.qpp, hsep hb, Option.bind_some, hb.qpp, hcom ha,
    Option.bind_some, ha.qpp, hcom hb, Option.bind_some, foldlM_sum _ _ (by rw [ha.count, hb.count, hn]), ha.count]
  refine congrArg some (Finset.sum_congr rfl fun k hk => ?_)
  have hk := Finset.mem_range.1 hk
  exact pageDiff_inner hP (ha.pages k hk) (hb.pages k (by rw [← hn]; exact hk))

/-- C74. For registers of a single page `SumSqrDiff` is one minus the squared magnitude of the inner product. `_partial`: wrong
for more pages, see `sumSqrDiff_equal_wrong`. -/
theorem sumSqrDiff_partial {P : Par} (hP : P.Ok) {a b : Pager} (ha : Shape a) (hb : Shape b) (ca : a.count = 1) (cb : b.count = 1)
    (hn : a.n = b.n) {s t : ℕ → ℂ} (hs : Reads a s) (ht : Reads b t) (ns : totalProb a.n s = 1) (nt : totalProb a.n t = 1) :
    sumSqrDiff P (fun _ => false) a b = some (1 - Complex.normSq (Spec.inner a.n s t)) := by
  have one : ∀ {p : Pager} {s : ℕ → ℂ}, Shape p → Reads p s → p.count = 1 → Holds p p.n s := by
    intro p s hp hs h1
    obtain ⟨q, h⟩ := holds_iff.2 ⟨hp, hs⟩
    have hq : q = p.n := by
      have := h.count
      rw [h1] at this
      have := (Nat.pow_right_injective (le_refl 2)) (show 2 ^ 0 = 2 ^ (p.n - q) from this)
      have := h.le
      omega
    rwa [hq] at h
  rw [sumSqrDiff_pages hP (one ha hs ca) (by rw [hn]; exact one hb ht cb) hn, Nat.sub_self, pow_zero, Finset.sum_range_one]
  simp only [Nat.mul_zero, Nat.zero_add]
  rw [clampProb_id (Complex.normSq_nonneg _) (inner_le_one ns nt)]

/-- C74 fails: two registers in the same normalised state, each in `count` pages with arrays, differ by `SumSqrDiff` by at
least `count - 1` instead of 0: the pages are compared one by one as if each were normalised (`src/qpager.cpp:1660-1673`). -/
theorem sumSqrDiff_equal_wrong {P : Par} (hP : P.Ok) {a b : Pager} (ha : Shape a) (hb : Shape b) (hn : a.n = b.n)
    (hc : a.count = b.count) {s : ℕ → ℂ} (hs : Reads a s) (ht : Reads b s) (ns : totalProb a.n s = 1) :
    ∃ d, sumSqrDiff P (fun _ => false) a b = some d ∧ (a.count : ℝ) - 1 ≤ d := by
  obtain ⟨q, h⟩ := holds_iff.2 ⟨ha, hs⟩
  obtain ⟨q', h'⟩ := holds_iff.2 ⟨hb, ht⟩
  have hq : q' = q := by
    have e := h.count
    rw [hc, h'.count] at e
    have := (Nat.pow_right_injective (le_refl 2)) e
    have := h.le
    have := h'.le
    omega
  subst hq
  refine ⟨_, sumSqrDiff_pages hP h h' hn, ?_⟩
  set w : ℕ → ℝ := fun k => totalProb q' (fun x => s (2 ^ q' * k + x)) with hw
  have hw0 : ∀ k, 0 ≤ w k := fun k => Finset.sum_nonneg fun _ _ => Complex.normSq_nonneg _
  have hsum : ∑ k ∈ Finset.range (2 ^ (a.n - q')), w k = 1 := by
    rw [← ns]
    unfold totalProb
    have := sum_pages (2 ^ q') (2 ^ (a.n - q')) (fun i => Complex.normSq (s i))
    rw [← pow_add, Nat.add_sub_cancel' h.le] at this
    exact this.symm
  have hin : ∀ k, Spec.inner q' (fun x => s (2 ^ q' * k + x)) (fun x => s (2 ^ q' * k + x)) = ((w k : ℝ) : ℂ) := by
    intro k
    rw [hw]
    unfold Spec.inner totalProb
    rw [Complex.ofReal_sum]
    exact Finset.sum_congr rfl fun x _ => by rw [← Complex.mul_conj]; ring
  have hle : ∀ k ∈ Finset.range (2 ^ (a.n - q')), 1 - w k ≤ 1 - clampProb (Complex.normSq
      (Spec.inner q' (fun x => s (2 ^ q' * k + x)) (fun x => s (2 ^ q' * k + x)))) := by
    intro k hk
    have h1 : w k ≤ 1 := by rw [← hsum]; exact Finset.single_le_sum (fun i _ => hw0 i) hk
    have h0 := hw0 k
    rw [hin, Complex.normSq_ofReal, clampProb_id (by positivity) (by nlinarith)]
    nlinarith
  refine le_trans (le_of_eq ?_) (Finset.sum_le_sum hle)
  rw [Finset.sum_sub_distrib, hsum, Finset.sum_const, Finset.card_range, h.count]
  simp

/-- So `ApproxCompare` says that a register in two or more pages is not equal to its copy. -/
theorem approxCompare_equal_wrong {P : Par} (hP : P.Ok) {a b : Pager} (ha : Shape a) (hb : Shape b) (hn : a.n = b.n)
    (hc : a.count = b.count) (h2 : 2 ≤ a.count) {s : ℕ → ℂ} (hs : Reads a s) (ht : Reads b s) (ns : totalProb a.n s = 1)
    {tol : ℝ} (htol : tol < 1) : approxCompare P (fun _ => false) a b tol = some false := by
  obtain ⟨d, h1, h3⟩ := sumSqrDiff_equal_wrong hP ha hb hn hc hs ht ns
  unfold approxCompare
  rw [h1]
  have : (2 : ℝ) ≤ a.count := by exact_mod_cast h2
  simp only [Option.map_some, Option.some.injEq, decide_eq_false_iff_not, not_le]
  linarith

/-! ### Examples -/

theorem demo_based : Based 1 demo := by unfold Based; decide +kernel

theorem noZero : ZeroTest (fun _ => false) := fun _ h => by simp at h

theorem idSched : IsSched (id : List ℕ → List ℕ) := fun _ => List.Perm.refl _

/-- `|5⟩` appended to `|5⟩` is `|45⟩`. -/
example : ∃ p' b', composeEither 64 64 1 id (fun _ => false) (fun _ => 7) demo demo true = some (p', b', 3) ∧ p'.n = 6 ∧
    getAmplitude p' 45 = some 1 := by
  obtain ⟨p', b', h1, h2, -, -, h5, -⟩ := compose_tensor_partial (thr := 1) (maxQb := 64) (maxCpu := 64) idSched noZero
    (fun _ => 7) demo_shape demo_shape demo_reads demo_reads true le_rfl (by decide) (by decide) (by decide) (by decide)
  refine ⟨p', b', h1, h2, ?_⟩
  rw [h5 45 (by rw [h2]; decide)]
  simp [tensorAt, rest, field, demo]

/-- `|5⟩` inserted at position 1 of `|5⟩` is `|43⟩`, but 3 is returned. -/
example : (∃ p' b' r, composeAt 64 64 1 id (fun _ => false) (fun _ => 7) demo demo 1 = some (p', b', r) ∧
    getAmplitude p' 43 = some 1) ∧
    ∃ p' b' r, composeAt 64 64 1 id (fun _ => false) (fun _ => 7) demo demo 1 = some (p', b', r) ∧ r ≠ 1 := by
  constructor
  · obtain ⟨p', b', r, h1, h2, -, -, h5⟩ := composeAt_tensor_partial (thr := 1) (maxQb := 64) (maxCpu := 64) idSched noZero
      (fun _ => 7) demo_shape demo_shape demo_based demo_reads demo_reads le_rfl (by decide) (by decide) (by decide) (by decide)
      (start := 1) (by decide)
    refine ⟨p', b', r, h1, ?_⟩
    rw [h5 43 (by rw [h2]; decide)]
    simp [tensorAt, rest, field, demo]
  · exact composeAt_position_wrong (thr := 1) idSched noZero (fun _ => 7) demo_shape demo_shape demo_based demo_reads demo_reads
      le_rfl (by decide) (by decide) (by decide) (by decide) (by decide)

/-- `Allocate` of one qubit destroys `|5⟩`. -/
example : ∃ p' r, allocate 64 64 1 id (fun _ => false) (fun _ => 7) demo 3 1 = some (p', r) ∧ p'.n = 4 ∧
    Reads p' (fun _ => 0) :=
  allocate_wrong idSched noZero _ demo_shape demo_based demo_reads le_rfl le_rfl (by decide) (by decide) (by decide)
    (by decide) (by decide)

/-- Qubit 2 of `|5⟩` is set; `|1⟩` on two qubits remains. -/
example : ∃ p', disposePerm 1 id (fun _ => 7) 2 demo 2 1 1 = some p' ∧ p'.n = 2 ∧ getAmplitude p' 1 = some 1 := by
  obtain ⟨p', h1, h2, -, -, h5⟩ := paged_disposePerm_partial (thr := 1) idSched (fun _ => 7) le_rfl demo_shape demo_based
    demo_reads (start := 2) (length := 1) (perm := 1) (by decide) (by decide) (by decide) (by decide)
  refine ⟨p', h1, h2, ?_⟩
  rw [h5 1 (by rw [h2]; decide)]
  simp [insertAt]

/-- A register of two qubits in one page, in the state `|2⟩`. -/
noncomputable def onePage : Pager := ⟨2, 1, 1, fun _ => ⟨2, fun a => if a = 2 then 1 else 0, 1, false, false, 0⟩⟩

theorem onePage_shape : Shape onePage :=
  ⟨by decide, by decide, 2, by decide, by decide, rfl, fun _ _ => ⟨rfl, rfl, rfl⟩⟩

theorem onePage_reads : Reads onePage (fun i => if i = 2 then 1 else 0) := by
  intro i hi
  have hi' : i < 4 := hi
  have hpm : onePage.pageMax = 4 := rfl
  unfold getAmplitude
  rw [hpm, if_pos (show i / 4 < onePage.count from (show i / 4 < 1 by omega)), Nat.mod_eq_of_lt hi']
  rfl

/-- Disposing qubit 0 of `|2⟩` leaves `|1⟩`. -/
example : ∃ p', dispose 1 id (fun _ => 7) 2 onePage 0 1 = some p' ∧ p'.n = 1 ∧
    ∃ u : ℂ, ‖u‖ = 1 ∧ getAmplitude p' 1 = some u := by
  have hH : Holds onePage 2 (tensorAt 0 1 (fun i => if i = 1 then 1 else 0) (fun i => if i = 0 then 1 else 0)) := by
    obtain ⟨q, h⟩ := holds_iff.2 ⟨onePage_shape, onePage_reads⟩
    have hq : q = 2 := by have := h.qpp; rw [← this]; decide +kernel
    subst hq
    refine h.congr fun i hi => ?_
    have hi : i < 4 := hi
    interval_cases i <;> simp [tensorAt, rest, field]
  obtain ⟨p', h1, h2, -, -, u, h3, h4⟩ := paged_dispose_partial (thr := 1) idSched (fun _ => 7) le_rfl hH (fun _ _ => rfl)
    (by decide) (by decide) (by decide) (by simp [totalProb, Finset.sum_range_succ]) (by
      intro i hi k hk h5 h6
      simp only [ne_eq, ite_eq_right_iff, one_ne_zero, imp_false, not_not] at h5 h6
      subst h5 h6
      simp)
  refine ⟨p', h1, h2, u, h3, ?_⟩
  rw [h4 1 (by rw [h2]; decide)]
  simp

example : (∀ fuel, dispose 1 id (fun _ => 7) fuel onePage 0 3 = none) :=
  (dispose_endless (fun _ => 7) onePage_shape rfl (by decide)).1

/-- Asked for one qubit, `Decompose` takes all three. -/
example : ∃ p' d, decomposeNew 1 id (fun _ => false) (fun _ => 7) 1 demo 0 1 = some (p', d) ∧ p'.n = 0 ∧ d.n = 3 :=
  decomposeNew_wrong _ le_rfl demo_shape demo_reads 1

example : output (fun x => Complex.normSq x) demo (fun _ => 9) 5 = 1 ∧ output (fun x => Complex.normSq x) demo (fun _ => 9) 8 = 9 := by
  rw [output_all _ demo_shape demo_reads, output_all _ demo_shape demo_reads]
  simp [demo]

example : Reads (setQuantumState demo (fun i => i)) (fun i => (i : ℂ)) := (setQuantumState_reads demo_shape demo_reads _).2

example : ∃ p', setAmplitude demo 6 3 = some p' ∧ getAmplitude p' 6 = some 3 ∧ getAmplitude p' 5 = some 1 := by
  obtain ⟨p', h1, h2, -, h4⟩ := setAmplitude_reads demo_shape demo_reads (perm := 6) (by decide) 3
  refine ⟨p', h1, ?_, ?_⟩
  · rw [h4 6 (by rw [h2]; decide)]; simp
  · rw [h4 5 (by rw [h2]; decide)]; simp [Function.update]

example : ∃ o, getAmplitudeArray onePage (fun _ => 9) 2 2 = some o ∧ o 0 = 1 ∧ o 2 = 9 := by
  obtain ⟨-, o, h1, h2⟩ := amplitudePage_partial onePage_shape rfl onePage_reads (offset := 2) (length := 2) (by decide)
    (by decide) (by decide) (fun _ => 0) (fun _ => 9)
  refine ⟨o, h1, ?_, ?_⟩
  · rw [h2]; simp
  · rw [h2]; simp

example : getAmplitudeArray demo (fun _ => 9) 5 1 = some (fun _ => 9) := (amplitudePage_skips demo (fun _ => 0) _ (by decide)).2

/-- Amplitude 5 of the array of `i ↦ i` comes out as 1. -/
example : ∃ p', setAmplitudeArray demo (fun i => i) 0 8 = some p' ∧ getAmplitude p' 5 = some 1 := by
  obtain ⟨p', h1, h2, h3⟩ := setAmplitudePage_wrong demo_shape demo_reads (fun i => i)
  refine ⟨p', h1, ?_⟩
  rw [h3 5 (by rw [h2]; decide)]
  simp [demo]

example {P : Par} (hP : P.Ok) : sumSqrDiff P (fun _ => false) onePage onePage = some 0 := by
  have h1 : totalProb onePage.n (fun i => if i = 2 then 1 else 0) = 1 := by
    simp [totalProb, onePage, Finset.sum_range_succ]
  rw [sumSqrDiff_partial hP onePage_shape onePage_shape rfl rfl rfl onePage_reads onePage_reads h1 h1]
  simp [Spec.inner, onePage, Finset.sum_range_succ]

example {P : Par} (hP : P.Ok) : approxCompare P (fun _ => false) demo demo (1 / 1000) = some false :=
  approxCompare_equal_wrong hP demo_shape demo_shape rfl rfl (by decide) demo_reads demo_reads
    (by simp [totalProb, demo, Finset.sum_range_succ]) (by norm_num)

end Verif.Pager
