import Verif.Lemmas.PagerOps

/-!
# C35, C36: the paged register

A register split in pages does the same to every amplitude as a flat state vector, for every sequence of gates, page size
and order of the parallel loops, as far as no gate inside of a page has a control (or a swap partner) eight or more qubits
above the page size; there, the code is wrong. The constructor ignores the requested permutation and leaves the state
empty.
-/

namespace Verif.Pager

open Verif.Engine Verif.ParFor Verif.Bits Verif.Spec Classical

/-- The shape of a paged register: `2 ^ (n - q)` pages of `q` qubits each, `base ≤ q ≤ n`. -/
structure Shape (p : Pager) : Prop where
  word : p.n ≤ 64
  base1 : 1 ≤ p.base
  pages : ∃ q, p.base ≤ q ∧ q ≤ p.n ∧ p.count = 2 ^ (p.n - q) ∧
    ∀ k < p.count, (p.page k).n = q ∧ (p.page k).doNorm = false ∧ (p.page k).rgp = false

/-- The amplitudes that `GetAmplitude` reads are those of `s`. -/
def Reads (p : Pager) (s : ℕ → ℂ) : Prop := ∀ i < 2 ^ p.n, getAmplitude p i = some (s i)

theorem holds_iff {p : Pager} {s : ℕ → ℂ} : (∃ q, Holds p q s) ↔ Shape p ∧ Reads p s := by
  constructor
  · rintro ⟨q, h⟩
    refine ⟨⟨h.word, h.base1, q, h.base, h.le, h.count, fun k hk => ?_⟩, fun i hi => ?_⟩
    · have := h.pages k (by rw [← h.count]; exact hk)
      exact ⟨this.n, this.doNorm, this.rgp⟩
    · unfold getAmplitude
      have hk : i / 2 ^ q < 2 ^ (p.n - q) := div_lt' h.le hi
      rw [h.pageMax, if_pos (by rw [h.count]; exact hk), (h.pages _ hk).amp _ (Nat.mod_lt _ (by positivity))]
      dsimp only
      rw [Nat.div_add_mod]
  · rintro ⟨⟨hw, hb, q, h1, h2, h3, h4⟩, hr⟩
    have hpm : p.pageMax = 2 ^ q := by
      unfold Pager.pageMax
      rw [h3, Nat.pow_div (Nat.sub_le _ _) (by norm_num)]
      congr 1
      omega
    refine ⟨q, by omega, h2, hw, hb, h1, h3, fun k hk => ?_⟩
    obtain ⟨g1, g2, g3⟩ := h4 k (by rw [h3]; exact hk)
    refine ⟨g1, g2, g3, fun x hx => ?_⟩
    have := hr _ (at_lt h2 hk hx)
    unfold getAmplitude at this
    rw [hpm, Nat.mul_add_div (by positivity), Nat.div_eq_of_lt hx, Nat.add_zero, if_pos (by rw [h3]; exact hk),
      Nat.mul_add_mod, Nat.mod_eq_of_lt hx] at this
    exact Option.some.inj this

/-- The operations of C35. -/
inductive Op
  | mtrx (m : M2) (t : ℕ)
  | controlled (anti : Bool) (cs : List ℕ) (m : M2) (t : ℕ)
  | swap (a b : ℕ)
  | iswap (isInverse : Bool) (a b : ℕ)
  | xMask (mask : ℕ)
  | phaseParity (θ : ℝ) (mask : ℕ)
  | combine (bit : ℕ)
  | separate (threshold : ℕ)

/-- The operation on the paged register. -/
noncomputable def Op.paged (σ : List ℕ → List ℕ) (p : Pager) : Op → Option Pager
  | .mtrx m t => pMtrx σ p m t
  | .controlled anti cs m t => pControlled σ p anti cs m t
  | .swap a b => pSwap σ p a b
  | .iswap inv a b => eitherISwap σ p a b inv
  | .xMask mask => pXMask σ p mask
  | .phaseParity θ mask => pPhaseParity σ p θ mask
  | .combine bit => combineEngines p bit
  | .separate th => separateEngines p th false

/-- The operation on the flat register; regrouping pages means nothing there. -/
noncomputable def Op.flat (σ : List ℕ → List ℕ) (e : Eng) : Op → Option Eng
  | .mtrx m t => Verif.Engine.mtrx σ e m t
  | .controlled anti cs m t => eitherMtrx σ e cs m t anti
  | .swap a b => swapLike σ e pauliX a b
  | .iswap inv a b => swapLike σ e (if inv then iiswapM else iswapM) a b
  | .xMask mask => Verif.Engine.xMask σ e mask
  | .phaseParity θ mask => Verif.Engine.phaseParity σ e θ mask
  | .combine _ => some e
  | .separate _ => some e

/-- The operation is a legal call on `n` qubits, and away from the faults of the code: no control is eight or more above
both the target and the page size, no swap joins a qubit inside of a page to one eight or more above the page size, and
the parity mask is not empty. -/
def Op.Legal (n base : ℕ) : Op → Prop
  | .mtrx _ t => t < n
  | .controlled _ cs _ t => (cs ++ [t]).Nodup ∧ (∀ k ∈ cs ++ [t], k < n) ∧ ∀ c ∈ cs, c < max base (t + 1) + 8
  | .swap a b => a < n ∧ b < n ∧ SwapOk base a b
  | .iswap _ a b => a < n ∧ b < n ∧ SwapOk base a b
  | .xMask mask => mask < 2 ^ n
  | .phaseParity _ mask => mask ≠ 0 ∧ mask < 2 ^ n
  | .combine _ => True
  | .separate _ => True

theorem op_agree {σ : List ℕ → List ℕ} (hσ : IsSched σ) {p : Pager} {q : ℕ} {s : ℕ → ℂ} (h : Holds p q s) {e : Eng}
    (he : PageIs p.n e s) {o : Op} (ho : o.Legal p.n p.base) :
    ∃ p' q' e' s', o.paged σ p = some p' ∧ o.flat σ e = some e' ∧ p'.n = p.n ∧ p'.base = p.base ∧ Holds p' q' s' ∧
      PageIs p.n e' s' := by
  cases o with
  | mtrx m t =>
    obtain ⟨p', k1, k2, k3, k4⟩ := pMtrx_holds hσ h m ho
    obtain ⟨e', l1, l2⟩ := mtrx_acts hσ h.word m ho _ _ he
    exact ⟨p', q, e', _, k1, l1, k2, k3, k4, l2⟩
  | controlled anti cs m t =>
    obtain ⟨h1, h2, h3⟩ := ho
    obtain ⟨p', k1, k2, k3, k4⟩ := pControlled_holds hσ h m h1 h2
      (fun ht c hc => by have := h3 c hc; have := h.base; omega) anti
    obtain ⟨e', l1, l2⟩ := eitherMtrx_acts hσ h.word m h1 h2 anti _ _ he
    exact ⟨p', q, e', _, k1, l1, k2, k3, k4, l2⟩
  | swap a b =>
    obtain ⟨h1, h2, h3⟩ := ho
    obtain ⟨p', q', k1, k2, k3, k4⟩ := pSwap_holds hσ h h1 h2 h3
    obtain ⟨e', l1, l2⟩ := swapLike_acts hσ h.word (m := pauliX) rfl rfl h1 h2 _ _ he
    exact ⟨p', q', e', _, k1, l1, k2, k3, k4, by simpa [pauliX] using l2⟩
  | iswap inv a b =>
    obtain ⟨h1, h2, h3⟩ := ho
    obtain ⟨p', q', k1, k2, k3, k4⟩ := eitherISwap_holds hσ h h1 h2 h3 inv
    obtain ⟨e', l1, l2⟩ := swapLike_acts hσ h.word (m := if inv then iiswapM else iswapM) (by cases inv <;> rfl)
      (by cases inv <;> rfl) h1 h2 _ _ he
    refine ⟨p', q', e', _, k1, l1, k2, k3, k4, ?_⟩
    cases inv
    · simpa [iswapM, iswapFactor] using l2
    · simpa [iiswapM, iswapFactor] using l2
  | xMask mask =>
    obtain ⟨p', k1, k2, k3, k4⟩ := pXMask_holds hσ h ho
    obtain ⟨e', l1, l2⟩ := xMask_acts hσ h.word ho _ _ he
    exact ⟨p', q, e', _, k1, l1, k2, k3, k4, l2⟩
  | phaseParity θ mask =>
    obtain ⟨p', k1, k2, k3, k4⟩ := pPhaseParity_holds hσ h ho.2 θ
    obtain ⟨e', l1, l2⟩ := phaseParity_acts hσ h.word ho.1 ho.2 θ _ _ he
    exact ⟨p', q, e', _, k1, l1, k2, k3, k4, l2⟩
  | combine bit =>
    obtain ⟨p', q', k1, k2, k3, k4, -⟩ := combine_holds h bit
    exact ⟨p', q', e, s, k1, rfl, k2, k3, k4, he⟩
  | separate th =>
    obtain ⟨p', q', k1, k2, k3, k4, -⟩ := separate_holds h (th := th) (nf := false) (by simp)
    exact ⟨p', q', e, s, k1, rfl, k2, k3, k4, he⟩

/-- C35: every sequence of single-qubit gates, controlled and anti-controlled gates, swaps, mask gates, combinations and
separations of pages leaves the same amplitudes in the paged register as the gates leave in a flat one, wherever the page
boundary lies.

Partial: `Legal` excludes controls and swap partners too far above the page size, where the code is wrong
(`control_eight_wrong`), and parities of no qubits, where the paged register gains a phase (`phaseParity_zero_wrong`). -/
theorem paged_eq_flat_partial {σ : List ℕ → List ℕ} (hσ : IsSched σ) {p : Pager} (hp : Shape p) {e : Eng} (hn : e.n = p.n)
    (hd : e.doNorm = false) (hr : e.rgp = false) (hs : Reads p e.amp) (ops : List Op)
    (hl : ∀ o ∈ ops, o.Legal p.n p.base) :
    ∃ p' e', ops.foldlM (Op.paged σ) p = some p' ∧ ops.foldlM (Op.flat σ) e = some e' ∧ Shape p' ∧ p'.n = p.n ∧
      e'.n = p.n ∧ Reads p' e'.amp := by
  obtain ⟨q, h⟩ := holds_iff.2 ⟨hp, hs⟩
  have key : ∀ (ops : List Op) (p : Pager) (q : ℕ) (s : ℕ → ℂ) (e : Eng), (∀ o ∈ ops, o.Legal p.n p.base) → Holds p q s →
      PageIs p.n e s → ∃ p' q' e' s', ops.foldlM (Op.paged σ) p = some p' ∧ ops.foldlM (Op.flat σ) e = some e' ∧
        p'.n = p.n ∧ Holds p' q' s' ∧ PageIs p.n e' s' := by
    intro ops
    induction ops with
    | nil => intro p q s e _ h he; exact ⟨p, q, e, s, rfl, rfl, rfl, h, he⟩
    | cons o ops ih =>
      intro p q s e hl h he
      obtain ⟨p1, q1, e1, s1, k1, k2, k3, k4, k5, k6⟩ := op_agree hσ h he (hl o (by simp))
      obtain ⟨p2, q2, e2, s2, l1, l2, l3, l4, l5⟩ := ih p1 q1 s1 e1
        (fun o ho => by rw [k3, k4]; exact hl o (by simp [ho])) k5 (by rw [k3]; exact k6)
      refine ⟨p2, q2, e2, s2, ?_, ?_, l3.trans k3, l4, by rw [← k3]; exact l5⟩
      · rw [List.foldlM_cons, k1]; exact l1
      · rw [List.foldlM_cons, k2]; exact l2
  obtain ⟨p', q', e', s', k1, k2, k3, k4, k5⟩ := key ops p q e.amp e hl h ⟨hn, hd, hr, fun _ _ => rfl⟩
  refine ⟨p', e', k1, k2, (holds_iff.1 ⟨q', k4⟩).1, k3, k5.n, fun i hi => ?_⟩
  rw [(holds_iff.1 ⟨q', k4⟩).2 i hi, k5.amp i (by rw [← k3]; exact hi)]

/-- C35, the gates against their matrices: `MCMtrx` and `MACMtrx` of the paged register act as the controlled matrix,
whether the target and each control are inside of the pages or tell pages apart. Partial: see `control_eight_wrong`. -/
theorem paged_controlled_partial {σ : List ℕ → List ℕ} (hσ : IsSched σ) {p : Pager} (hp : Shape p) {s : ℕ → ℂ}
    (hs : Reads p s) (m : M2) {cs : List ℕ} {t : ℕ} (hnd : (cs ++ [t]).Nodup) (hb : ∀ k ∈ cs ++ [t], k < p.n)
    (h8 : ∀ c ∈ cs, c < max p.base (t + 1) + 8) (anti : Bool) :
    ∃ p', pControlled σ p anti cs m t = some p' ∧ p'.n = p.n ∧ Shape p' ∧
      Reads p' (gate (AllAre (!anti) cs) t m.a m.b m.c m.d s) := by
  obtain ⟨q, h⟩ := holds_iff.2 ⟨hp, hs⟩
  obtain ⟨p', k1, k2, k3, k4⟩ := pControlled_holds hσ h m hnd hb
    (fun ht c hc => by have := h8 c hc; have := h.base; omega) anti
  exact ⟨p', k1, k2, holds_iff.1 ⟨q, k4⟩⟩

/-- C35: single-qubit gates. -/
theorem paged_mtrx {σ : List ℕ → List ℕ} (hσ : IsSched σ) {p : Pager} (hp : Shape p) {s : ℕ → ℂ} (hs : Reads p s) (m : M2)
    {t : ℕ} (ht : t < p.n) :
    ∃ p', pMtrx σ p m t = some p' ∧ p'.n = p.n ∧ Shape p' ∧ Reads p' (gate (fun _ => True) t m.a m.b m.c m.d s) := by
  obtain ⟨q, h⟩ := holds_iff.2 ⟨hp, hs⟩
  obtain ⟨p', k1, k2, k3, k4⟩ := pMtrx_holds hσ h m ht
  exact ⟨p', k1, k2, holds_iff.1 ⟨q, k4⟩⟩

/-- C35: the X mask, wherever its bits lie. -/
theorem paged_xMask {σ : List ℕ → List ℕ} (hσ : IsSched σ) {p : Pager} (hp : Shape p) {s : ℕ → ℂ} (hs : Reads p s)
    {mask : ℕ} (hm : mask < 2 ^ p.n) :
    ∃ p', pXMask σ p mask = some p' ∧ p'.n = p.n ∧ Shape p' ∧ Reads p' (fun i => s (i ^^^ mask)) := by
  obtain ⟨q, h⟩ := holds_iff.2 ⟨hp, hs⟩
  obtain ⟨p', k1, k2, k3, k4⟩ := pXMask_holds hσ h hm
  exact ⟨p', k1, k2, holds_iff.1 ⟨q, k4⟩⟩

/-- C35: combination and separation of pages keep every amplitude. -/
theorem regroup_keeps {p : Pager} (hp : Shape p) {s : ℕ → ℂ} (hs : Reads p s) (bit : ℕ) :
    (∃ p', combineEngines p bit = some p' ∧ p'.n = p.n ∧ Shape p' ∧ Reads p' s) ∧
    (∃ p', separateEngines p bit false = some p' ∧ p'.n = p.n ∧ Shape p' ∧ Reads p' s) := by
  obtain ⟨q, h⟩ := holds_iff.2 ⟨hp, hs⟩
  obtain ⟨p1, q1, k1, k2, k3, k4, -⟩ := combine_holds h bit
  obtain ⟨p2, q2, l1, l2, l3, l4, -⟩ := separate_holds h (th := bit) (nf := false) (by simp)
  exact ⟨⟨p1, k1, k2, holds_iff.1 ⟨q1, k4⟩⟩, ⟨p2, l1, l2, holds_iff.1 ⟨q2, l4⟩⟩⟩

/-- C35, number of pages after a combination: pages of `max q (min bit n)` qubits. -/
theorem combine_count {p : Pager} {q : ℕ} {s : ℕ → ℂ} (h : Holds p q s) (bit : ℕ) :
    ∃ p', combineEngines p bit = some p' ∧ p'.count = 2 ^ (p.n - max q (min bit p.n)) := by
  obtain ⟨p1, q1, k1, k2, k3, k4, k5⟩ := combine_holds h bit
  exact ⟨p1, k1, by rw [k4.count, k2, k5]⟩

/-! ### Where the code is wrong -/

/-- C35 fails: a gate inside of the pages with a control eight qubits above the page size is done where the control is
*clear*, because the power of the control is kept in an eight-bit integer (`src/qpager.cpp:569-577`). -/
theorem control_eight_wrong {σ : List ℕ → List ℕ} (hσ : IsSched σ) {p : Pager} {q : ℕ} {s : ℕ → ℂ} (h : Holds p q s)
    (hn : q + 8 < p.n) (m : M2) {t : ℕ} (ht : t < q) :
    ∃ p', pControlled σ p false [q + 8] m t = some p' ∧ p'.n = p.n ∧
      Holds p' q (gate (AllAre false [q + 8]) t m.a m.b m.c m.d s) := by
  have hc : p.count ≠ 1 := by
    rw [h.count]
    have : p.n - q ≠ 0 := by omega
    have := Nat.one_lt_two_pow this
    omega
  have hact := ucMtrx_acts hσ h.word' (cs := []) m (t := t) (by simp) (by simpa using ht) 0
  unfold pControlled applyEitherControlled
  rw [if_neg hc]
  simp only [h.qpp]
  have hs : [q + 8].zipIdx.foldl (splitStep q t (pow2 1 - 1)) {} =
      { metaCs := [q + 8], metaPerm := 1 } := by
    simp [splitStep, pow2, show ¬ q ≤ t by omega]
  simp only [Bool.false_eq_true, if_false, List.length_singleton, List.cons_ne_self]
  rw [hs]
  simp only [Bool.false_and, Bool.false_eq_true, if_false, if_pos ht, reduceCtorEq, List.length_nil]
  unfold semiMetaControlled
  have hsm : semiMasks q 1 [q + 8] = ([255], 0) := by simp [semiMasks, pow2]
  simp only [h.qpp, hsm]
  have hexp : ∀ i, expand ([255].mergeSort (· ≤ ·)) i = insAll ([8].mergeSort (· ≤ ·)) i := by
    intro i
    have := expand_eq (ps := [8]) (by simp) i
    simpa using this
  simp only [hexp]
  have hl : p.count >>> ([255].mergeSort (· ≤ ·)).length = 2 ^ (p.n - q - [8].length) := by
    rw [h.count, List.length_mergeSort, List.length_singleton, List.length_singleton, shift_pow (by omega)]
  rw [hl]
  obtain ⟨p', k1, k2, k3, k4⟩ := semi_gate h ht (ds := [8]) (by simp) (by simp; omega) (perm := 0)
    (P := AllAre false [q + 8]) (Q := Matches 0 []) m.a m.b m.c m.d
    (fun k x hx => by
      have e : (2 ^ q * k + x).testBit (q + 8) = k.testBit 8 := by
        rw [testBit_at hx, if_neg (by omega), Nat.add_sub_cancel_left]
      simp [AllAre, Matches, e]) hact (fun i => insAll ([8].mergeSort (· ≤ ·)) i ||| 0)
    (fun i => by simp [permMask])
  exact ⟨p', k1, k2, k4⟩

/-- The same, as a counterexample: in `|0⟩` of ten qubits with pages of one qubit, a controlled NOT from qubit 9 to qubit 0
flips qubit 0. -/
theorem paged_controlled_wrong : ∃ p p', Shape p ∧ p.n = 10 ∧ Reads p (fun i => if i = 0 then 1 else 0) ∧
    pControlled id p false [9] pauliX 0 = some p' ∧ getAmplitude p' 0 = some 0 ∧ getAmplitude p' 1 = some 1 := by
  have h : Holds ⟨10, 1, 512, fun k => ⟨1, fun a => if 2 ^ 1 * k + a = 0 then 1 else 0, 1, false, false, 0⟩⟩ 1
      (fun i => if i = 0 then 1 else 0) :=
    ⟨le_rfl, by norm_num, by norm_num, le_rfl, le_rfl, rfl, fun k _ => ⟨rfl, rfl, rfl, fun _ _ => rfl⟩⟩
  obtain ⟨p', k1, k2, k3⟩ := control_eight_wrong (σ := id) (fun _ => List.Perm.refl _) h (by norm_num) pauliX (t := 0)
    (by norm_num)
  obtain ⟨h1, h2⟩ := holds_iff.1 ⟨1, h⟩
  obtain ⟨-, h3⟩ := holds_iff.1 ⟨1, k3⟩
  refine ⟨_, p', h1, rfl, h2, k1, ?_, ?_⟩
  · rw [h3 0 (by positivity)]
    simp [gate, AllAre, flipBit, pauliX]
  · rw [h3 1 (by rw [k2]; norm_num)]
    have : Nat.testBit 1 9 = false := by decide
    simp [gate, AllAre, flipBit, pauliX, this]

/-- C35 fails: a parity phase of no qubits is a global phase in the paged register, nothing in the flat one. -/
theorem phaseParity_zero_wrong {σ : List ℕ → List ℕ} (hσ : IsSched σ) {p : Pager} (hp : Shape p) {s : ℕ → ℂ}
    (hs : Reads p s) (θ : ℝ) (e : Eng) :
    (∃ p', pPhaseParity σ p θ 0 = some p' ∧ p'.n = p.n ∧
      Reads p' (fun i => Complex.exp (Complex.I * ((-(θ / 2) : ℝ) : ℂ)) * s i)) ∧
    phaseParity σ e θ 0 = some e := by
  obtain ⟨q, h⟩ := holds_iff.2 ⟨hp, hs⟩
  obtain ⟨p', k1, k2, k3, k4⟩ := pPhaseParity_holds hσ h (mask := 0) (by positivity) θ
  refine ⟨⟨p', k1, k2, fun i hi => ?_⟩, ?_⟩
  · rw [(holds_iff.1 ⟨q, k4⟩).2 i hi]
    simp [maskCount, parityFactor]
  · unfold phaseParity
    rw [if_neg (by have : 0 < 2 ^ e.n := by positivity
                   omega)]
    simp

/-! ### C36 -/

/-- C36 for `SetPermutation`: whatever the pages held, the amplitude of `perm` is the phase factor and all others are
zero. -/
theorem setPermutation_state {p : Pager} (hp : Shape p) {perm : ℕ} (hperm : perm < 2 ^ p.n) (phaseFac : ℂ) :
    ∃ p', setPermutation p perm phaseFac = some p' ∧ p'.n = p.n ∧ Shape p' ∧
      Reads p' (fun i => if i = perm then phaseFac else 0) := by
  have hs : Reads p (fun i => (getAmplitude p i).getD 0) := by
    obtain ⟨hw, hb, q, h1, h2, h3, h4⟩ := hp
    intro i hi
    have hpm : p.pageMax = 2 ^ q := by
      unfold Pager.pageMax
      rw [h3, Nat.pow_div (Nat.sub_le _ _) (by norm_num)]
      congr 1
      omega
    have hrun : getAmplitude p i = some ((p.page (i / 2 ^ q)).amp (i % 2 ^ q)) := by
      unfold getAmplitude
      rw [hpm, if_pos (by rw [h3]; exact div_lt' h2 hi)]
    dsimp only
    rw [hrun]
    rfl
  obtain ⟨q, h⟩ := holds_iff.2 ⟨hp, hs⟩
  have h64 : perm < 2 ^ 64 := lt_of_lt_of_le hperm (Nat.pow_le_pow_right (by norm_num) h.word)
  unfold setPermutation
  simp only [h.pageMax]
  rw [Nat.mod_eq_of_lt h64, Nat.and_two_pow_sub_one_eq_mod, Nat.mod_eq_of_lt hperm]
  obtain ⟨p', k1, k2, k3, k4⟩ := pages_any h (s' := fun i => if i = perm then phaseFac else 0)
    (f := fun i e => if i * 2 ^ q ≤ perm ∧ perm < i * 2 ^ q + 2 ^ q then
        some (pageSetPermutation e (perm - i * 2 ^ q) phaseFac) else some (zeroAmplitudes e)) (fun k hk => by
      have P := h.pages k hk
      by_cases hc : k * 2 ^ q ≤ perm ∧ perm < k * 2 ^ q + 2 ^ q
      · refine ⟨_, if_pos hc, P.n, P.doNorm, P.rgp, fun x hx => ?_⟩
        have e : 2 ^ q * k = k * 2 ^ q := Nat.mul_comm _ _
        simp only [pageSetPermutation, e]
        by_cases hx' : x = perm - k * 2 ^ q
        · rw [if_pos hx', if_pos (by omega)]
        · rw [if_neg hx', if_neg (by omega)]
      · refine ⟨_, if_neg hc, P.n, P.doNorm, P.rgp, fun x hx => ?_⟩
        have e : 2 ^ q * k = k * 2 ^ q := Nat.mul_comm _ _
        simp only [zeroAmplitudes, e]
        rw [if_neg]
        rintro rfl
        exact hc ⟨by omega, by omega⟩)
  exact ⟨p', k1, k2, holds_iff.1 ⟨q, k4⟩⟩

/-- C36 fails for the constructor: whatever permutation is asked for, every amplitude of the new register is zero
(`src/qpager.cpp:55`: the parameter is not used, the local `initState` is `maxQPower + 1`, which is in no page). -/
theorem construct_wrong {n base : ℕ} (hb : base ≤ n) (initState : ℕ) (phaseFac : ℂ) :
    ∀ i < 2 ^ n, getAmplitude (construct n base initState phaseFac) i = some 0 := by
  intro i hi
  have hpm : (construct n base initState phaseFac).pageMax = 2 ^ base := by
    unfold Pager.pageMax construct
    simp only
    rw [Nat.pow_div (Nat.sub_le _ _) (by norm_num)]
    congr 1
    omega
  unfold getAmplitude
  have hk : i / 2 ^ base < 2 ^ (n - base) := div_lt' hb hi
  rw [hpm, if_pos (show i / 2 ^ base < (construct n base initState phaseFac).count from hk)]
  have hle : 2 ^ base * (i / 2 ^ base + 1) ≤ 2 ^ n := by
    calc 2 ^ base * (i / 2 ^ base + 1) ≤ 2 ^ base * 2 ^ (n - base) := Nat.mul_le_mul_left _ hk
      _ = 2 ^ n := by rw [← pow_add]; congr 1; omega
  simp only [construct]
  rw [if_neg (by omega)]
  rfl

/-- The new register is well-formed, so that a call of `SetPermutation` repairs it. -/
theorem construct_setPermutation_partial {n base : ℕ} (h1 : 1 ≤ base) (hb : base ≤ n) (hn : n ≤ 64) (initState : ℕ)
    (f phaseFac : ℂ) {perm : ℕ} (hperm : perm < 2 ^ n) :
    ∃ p', setPermutation (construct n base initState f) perm phaseFac = some p' ∧ p'.n = n ∧ Shape p' ∧
      Reads p' (fun i => if i = perm then phaseFac else 0) := by
  refine setPermutation_state (p := construct n base initState f) ⟨hn, h1, base, le_rfl, hb, rfl, fun k hk => ?_⟩ hperm
    phaseFac
  simp only [construct]
  split_ifs <;> exact ⟨rfl, rfl, rfl⟩

/-! ### Examples -/

/-- A register of three qubits in four pages of one qubit, in the state `|5⟩`. -/
noncomputable def demo : Pager :=
  ⟨3, 1, 4, fun k => ⟨1, fun a => if 2 * k + a = 5 then 1 else 0, 1, false, false, 0⟩⟩

theorem demo_shape : Shape demo := ⟨by decide, by decide, 1, by decide, by decide, rfl, fun _ _ => ⟨rfl, rfl, rfl⟩⟩

theorem demo_reads : Reads demo (fun i => if i = 5 then 1 else 0) := by
  intro i hi
  have hpm : demo.pageMax = 2 := rfl
  have hi' : i < 8 := hi
  unfold getAmplitude
  rw [hpm, if_pos (show i / 2 < demo.count from (show i / 2 < 4 by omega))]
  simp only [demo]
  rw [show 2 * (i / 2) + i % 2 = i by omega]

example : Op.Legal 3 1 (.controlled true [0, 1] pauliX 2) ∧ Op.Legal 3 1 (.swap 0 2) ∧ Op.Legal 3 1 (.iswap true 1 2) ∧
    Op.Legal 3 1 (.phaseParity 1 5) :=
  ⟨⟨by decide, by decide, by decide⟩, ⟨by decide, by decide, by unfold SwapOk; omega⟩,
    ⟨by decide, by decide, by unfold SwapOk; omega⟩, by decide, by decide⟩

/-- A controlled NOT whose control and target tell pages apart, on `|5⟩`. -/
example : ∃ p', pControlled id demo false [2] pauliX 1 = some p' ∧ Reads p' (fun i => if i = 7 then 1 else 0) := by
  obtain ⟨p', h1, h2, h3, h4⟩ := paged_controlled_partial (σ := id) (fun _ => List.Perm.refl _) demo_shape demo_reads pauliX
    (cs := [2]) (t := 1) (by decide) (by decide) (by decide) false
  refine ⟨p', h1, fun i hi => ?_⟩
  rw [h4 i hi]
  have : i < 8 := by rw [h2] at hi; exact hi
  interval_cases i <;> simp [gate, AllAre, flipBit, pauliX] <;> decide

example : ∃ p', separateEngines demo 1 false = some p' ∧ Reads p' (fun i => if i = 5 then 1 else 0) := by
  obtain ⟨-, p', h1, -, -, h2⟩ := regroup_keeps demo_shape demo_reads 1
  exact ⟨p', h1, h2⟩

example : ∃ p', setPermutation demo 6 1 = some p' ∧ Reads p' (fun i => if i = 6 then 1 else 0) := by
  obtain ⟨p', h1, -, -, h2⟩ := setPermutation_state demo_shape (perm := 6) (by decide) 1
  exact ⟨p', h1, h2⟩

end Verif.Pager
