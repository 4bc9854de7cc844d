import Verif.Lemmas.EngineSwap
import Verif.Props.EngineGate
import Mathlib.Tactic.LinearCombination
import Mathlib.Tactic.FieldSimp

/-!
C06: the swap family.
-/

namespace Verif.Engine

open Verif.ParFor Verif.Bits Verif.Spec Classical

/-- C06. `Swap`, `ISwap`, `IISwap`, `SqrtSwap`, `ISqrtSwap` with matrix `[[u, v], [v, u]]` act as
that matrix on the odd-parity subspace of the two named qubits and as the identity elsewhere. Equal
qubit arguments are a no-op. -/
theorem swapLike_exchange {σ : List ℕ → List ℕ} (hσ : IsSched σ) {e : Eng} (hn : e.n ≤ 64)
    {m : M2} (h1 : m.d = m.a) (h2 : m.c = m.b) {q1 q2 : ℕ} (hq1 : q1 < e.n) (hq2 : q2 < e.n) :
    ∃ e', swapLike σ e m q1 q2 = some e' ∧ e'.n = e.n ∧ e'.rn = e.rn ∧ e'.doNorm = e.doNorm ∧
      e'.floor = e.floor ∧ e'.rgp = e.rgp ∧
      SameOn e.n e'.amp (exchange (fun _ => True) q1 q2 m.a m.b e.amp) := by
  unfold swapLike
  split_ifs with hq
  · subst hq
    exact ⟨e, rfl, rfl, rfl, rfl, rfl, rfl, fun i _ => by simp [exchange]⟩
  · have hlt : min q1 q2 < max q1 q2 := by omega
    obtain ⟨e', k1, k2, k3, k4, k5, k6, k7⟩ := apply2x2_exchange hσ (cs := []) (a := min q1 q2)
      (b := max q1 q2) (o := 0) hn (by simp; omega)
      (by intro k hk; simp at hk; rcases hk with rfl | rfl <;> omega)
      (by intro k hk; simp at hk) (fun _ => True) (by simp [Pat]) h1 h2
    have hs : sortPows ([].map pow2 ++ [pow2 (min q1 q2), pow2 (max q1 q2)]) =
        [pow2 (min q1 q2), pow2 (max q1 q2)] := by
      have := Nat.pow_lt_pow_right (a := 2) (by norm_num) hlt
      unfold sortPows pow2
      simp only [List.map_nil, List.nil_append]
      apply List.mergeSort_of_pairwise
      simp; omega
    rw [hs] at k1
    simp only [Nat.zero_or] at k1
    refine ⟨e', k1, k2, k3, k4, k5, k6, fun i hi => ?_⟩
    rw [k7 i hi, exchange_minmax]

/-- C06, controlled forms: the exchange happens only where every control is set. -/
theorem cswapLike_exchange {σ : List ℕ → List ℕ} (hσ : IsSched σ) {e : Eng} (hn : e.n ≤ 64)
    {m : M2} (h1 : m.d = m.a) (h2 : m.c = m.b) {cs : List ℕ} {q1 q2 : ℕ}
    (hnd : (cs ++ [q1, q2]).Nodup) (hb : ∀ k ∈ cs ++ [q1, q2], k < e.n) :
    ∃ e', cswapLike σ e m cs q1 q2 = some e' ∧ e'.n = e.n ∧
      SameOn e.n e'.amp (exchange (AllAre true cs) q1 q2 m.a m.b e.amp) := by
  have hab : q1 ≠ q2 := by
    have := (List.nodup_append.1 hnd).2.1
    simpa using this
  unfold cswapLike
  rw [if_neg hab]
  split_ifs with hc
  · subst hc
    obtain ⟨e', k1, k2, -, -, -, -, k3⟩ := swapLike_exchange hσ hn h1 h2
      (hb q1 (by simp)) (hb q2 (by simp))
    refine ⟨e', k1, k2, fun i hi => ?_⟩
    rw [k3 i hi]
    simp [exchange, AllAre]
  · have hperm : (cs ++ [min q1 q2, max q1 q2]).Perm (cs ++ [q1, q2]) := by
      apply List.Perm.append_left
      rcases le_total q1 q2 with h | h
      · rw [min_eq_left h, max_eq_right h]
      · rw [min_eq_right h, max_eq_left h]; exact List.Perm.swap _ _ _
    obtain ⟨e', k1, k2, -, -, -, -, k3⟩ := apply2x2_exchange hσ (cs := cs) (a := min q1 q2)
      (b := max q1 q2) (o := (cs.map pow2).foldl (· ||| ·) 0) hn (hperm.nodup_iff.2 hnd)
      (fun k hk => hb k (hperm.mem_iff.1 hk))
      (by intro k hk; rw [testBit_foldl_or] at hk; simpa using hk) (AllAre true cs) (fun i => by
        simp only [AllAre, Pat, testBit_foldl_or, Nat.zero_testBit, Bool.false_or]
        exact forall₂_congr fun c hc => by simp [hc]) h1 h2
    refine ⟨e', k1, k2, fun i hi => ?_⟩
    rw [k3 i hi, exchange_minmax]

/-- C06, anti-controlled forms: the exchange happens only where every control is clear. -/
theorem antiCswapLike_exchange {σ : List ℕ → List ℕ} (hσ : IsSched σ) {e : Eng} (hn : e.n ≤ 64)
    {m : M2} (h1 : m.d = m.a) (h2 : m.c = m.b) {cs : List ℕ} {q1 q2 : ℕ}
    (hnd : (cs ++ [q1, q2]).Nodup) (hb : ∀ k ∈ cs ++ [q1, q2], k < e.n) :
    ∃ e', antiCswapLike σ e m cs q1 q2 = some e' ∧ e'.n = e.n ∧
      SameOn e.n e'.amp (exchange (AllAre false cs) q1 q2 m.a m.b e.amp) := by
  have hab : q1 ≠ q2 := by
    have := (List.nodup_append.1 hnd).2.1
    simpa using this
  unfold antiCswapLike
  rw [if_neg hab]
  split_ifs with hc
  · subst hc
    obtain ⟨e', k1, k2, -, -, -, -, k3⟩ := swapLike_exchange hσ hn h1 h2
      (hb q1 (by simp)) (hb q2 (by simp))
    refine ⟨e', k1, k2, fun i hi => ?_⟩
    rw [k3 i hi]
    simp [exchange, AllAre]
  · have hperm : (cs ++ [min q1 q2, max q1 q2]).Perm (cs ++ [q1, q2]) := by
      apply List.Perm.append_left
      rcases le_total q1 q2 with h | h
      · rw [min_eq_left h, max_eq_right h]
      · rw [min_eq_right h, max_eq_left h]; exact List.Perm.swap _ _ _
    obtain ⟨e', k1, k2, -, -, -, -, k3⟩ := apply2x2_exchange hσ (cs := cs) (a := min q1 q2)
      (b := max q1 q2) (o := 0) hn (hperm.nodup_iff.2 hnd)
      (fun k hk => hb k (hperm.mem_iff.1 hk))
      (by intro k hk; simp at hk) (AllAre false cs) (fun i => by simp [AllAre, Pat]) h1 h2
    simp only [Nat.zero_or] at k1
    refine ⟨e', k1, k2, fun i hi => ?_⟩
    rw [k3 i hi, exchange_minmax]

/-- C06, `Swap` exchanges the values of the two qubits on every basis state. -/
theorem swap_swaps {σ : List ℕ → List ℕ} (hσ : IsSched σ) {e : Eng} (hn : e.n ≤ 64)
    {q1 q2 : ℕ} (hq1 : q1 < e.n) (hq2 : q2 < e.n) :
    ∃ e', swapLike σ e pauliX q1 q2 = some e' ∧
      ∀ i < 2 ^ e.n, e'.amp i = e.amp (swapBits q1 q2 i) := by
  obtain ⟨e', k1, -, -, -, -, -, k2⟩ := swapLike_exchange hσ hn (m := pauliX) rfl rfl hq1 hq2
  refine ⟨e', k1, fun i hi => ?_⟩
  rw [k2 i hi]
  unfold exchange
  by_cases h : i.testBit q1 = i.testBit q2
  · simp [h, swapBits]
  · simp [h, pauliX]

/-- C06, `ISwap` exchanges and multiplies the odd-parity subspace by `i`. -/
theorem iswap_phase {σ : List ℕ → List ℕ} (hσ : IsSched σ) {e : Eng} (hn : e.n ≤ 64)
    {q1 q2 : ℕ} (hq1 : q1 < e.n) (hq2 : q2 < e.n) :
    ∃ e', swapLike σ e iswapM q1 q2 = some e' ∧
      ∀ i < 2 ^ e.n, e'.amp i = (if i.testBit q1 = i.testBit q2 then 1 else Complex.I) *
        e.amp (swapBits q1 q2 i) := by
  obtain ⟨e', k1, -, -, -, -, -, k2⟩ := swapLike_exchange hσ hn (m := iswapM) rfl rfl hq1 hq2
  refine ⟨e', k1, fun i hi => ?_⟩
  rw [k2 i hi]
  unfold exchange
  by_cases h : i.testBit q1 = i.testBit q2
  · simp [h, swapBits]
  · simp [h, iswapM]

theorem half_sq : (⟨1/2, 1/2⟩ : ℂ) * ⟨1/2, 1/2⟩ + ⟨1/2, -(1/2)⟩ * ⟨1/2, -(1/2)⟩ = 0 := by
  apply Complex.ext <;> simp <;> norm_num

theorem half_cross : (⟨1/2, 1/2⟩ : ℂ) * ⟨1/2, -(1/2)⟩ + ⟨1/2, -(1/2)⟩ * ⟨1/2, 1/2⟩ = 1 := by
  apply Complex.ext <;> simp <;> norm_num

theorem two_swaps {σ σ' : List ℕ → List ℕ} (hσ : IsSched σ) (hσ' : IsSched σ') {e : Eng}
    (hn : e.n ≤ 64) {m m' : M2} (h1 : m.d = m.a) (h2 : m.c = m.b) (h1' : m'.d = m'.a)
    (h2' : m'.c = m'.b) {q1 q2 : ℕ} (hq1 : q1 < e.n) (hq2 : q2 < e.n) :
    ∃ e' e'', swapLike σ e m q1 q2 = some e' ∧ swapLike σ' e' m' q1 q2 = some e'' ∧
      SameOn e.n e''.amp (exchange (fun _ => True) q1 q2 (m'.a * m.a + m'.b * m.b)
        (m'.a * m.b + m'.b * m.a) e.amp) := by
  obtain ⟨e', k1, k2, -, -, -, -, k3⟩ := swapLike_exchange hσ hn h1 h2 hq1 hq2
  obtain ⟨e'', j1, -, -, -, -, -, j3⟩ := swapLike_exchange hσ' (e := e') (by omega) h1' h2'
    (by rwa [k2] : q1 < e'.n) (by rwa [k2] : q2 < e'.n)
  refine ⟨e', e'', k1, j1, fun i hi => ?_⟩
  rw [j3 i (by rwa [k2]), exchange_congr hq1 hq2 _ _ _ k3 i hi]
  exact exchange_exchange (p := fun _ => True) (fun _ => Iff.rfl) _ _ _ _ _ _

/-- C06. `SqrtSwap` twice is `Swap`. -/
theorem sqrtSwap_twice {σ σ' σ'' : List ℕ → List ℕ} (hσ : IsSched σ) (hσ' : IsSched σ')
    (hσ'' : IsSched σ'') {e : Eng} (hn : e.n ≤ 64) {q1 q2 : ℕ} (hq1 : q1 < e.n) (hq2 : q2 < e.n) :
    ∃ e' e'' f, swapLike σ e sqrtX q1 q2 = some e' ∧ swapLike σ' e' sqrtX q1 q2 = some e'' ∧
      swapLike σ'' e pauliX q1 q2 = some f ∧ SameOn e.n e''.amp f.amp := by
  obtain ⟨e', e'', h1, h2, h3⟩ := two_swaps hσ hσ' hn (m := sqrtX) (m' := sqrtX) rfl rfl rfl rfl
    hq1 hq2
  obtain ⟨f, k1, -, -, -, -, -, k2⟩ := swapLike_exchange hσ'' hn (m := pauliX) rfl rfl hq1 hq2
  refine ⟨e', e'', f, h1, h2, k1, fun i hi => ?_⟩
  rw [h3 i hi, k2 i hi]
  have e1 : sqrtX.a * sqrtX.a + sqrtX.b * sqrtX.b = pauliX.a := half_sq
  have e2 : sqrtX.a * sqrtX.b + sqrtX.b * sqrtX.a = pauliX.b := half_cross
  rw [e1, e2]

/-- The matrices of a gate and its inverse-named gate. -/
inductive InversePair : M2 → M2 → Prop
  | swap : InversePair pauliX pauliX
  | iswap : InversePair iswapM iiswapM
  | iiswap : InversePair iiswapM iswapM
  | sqrt : InversePair sqrtX isqrtX
  | isqrt : InversePair isqrtX sqrtX

/-- C06. `Swap` undoes itself, `IISwap` undoes `ISwap`, `ISqrtSwap` undoes `SqrtSwap`, and
conversely. -/
theorem swapLike_inverse {σ σ' : List ℕ → List ℕ} (hσ : IsSched σ) (hσ' : IsSched σ') {e : Eng}
    (hn : e.n ≤ 64) {m m' : M2} (hm : InversePair m m') {q1 q2 : ℕ} (hq1 : q1 < e.n)
    (hq2 : q2 < e.n) :
    ∃ e' e'', swapLike σ e m q1 q2 = some e' ∧ swapLike σ' e' m' q1 q2 = some e'' ∧
      SameOn e.n e''.amp e.amp := by
  have hs : m.d = m.a ∧ m.c = m.b ∧ m'.d = m'.a ∧ m'.c = m'.b := by
    cases hm <;> exact ⟨rfl, rfl, rfl, rfl⟩
  obtain ⟨e', e'', h1, h2, h3⟩ := two_swaps hσ hσ' hn hs.1 hs.2.1 hs.2.2.1 hs.2.2.2 hq1 hq2
  refine ⟨e', e'', h1, h2, fun i hi => ?_⟩
  rw [h3 i hi]
  have ha : m'.a * m.a + m'.b * m.b = 1 := by
    cases hm <;> simp only [pauliX, iswapM, iiswapM, sqrtX, isqrtX] <;>
      apply Complex.ext <;> simp <;> norm_num
  have hb : m'.a * m.b + m'.b * m.a = 0 := by
    cases hm <;> simp only [pauliX, iswapM, iiswapM, sqrtX, isqrtX] <;>
      apply Complex.ext <;> simp <;> norm_num
  rw [ha, hb]
  unfold exchange
  split_ifs <;> simp

/-- C06. `FSim(θ, φ)`: identity on `|00⟩`, `[[cos θ, -i sin θ], [-i sin θ, cos θ]]` on the
odd-parity subspace, and `e^{-iφ}` on `|11⟩`. Partial: the code skips the exchange when `sin θ = 0`,
so `θ` must not be an odd multiple of `π` (see `fsim_pi_wrong`). -/
theorem fsim_matrix_partial {σ : List ℕ → List ℕ} (hσ : IsSched σ) {e : Eng} (hn : e.n ≤ 64)
    (hfl : e.doNorm = false ∨ e.floor ≤ 0) (theta phi : ℝ) (hth : Real.cos theta ≠ -1)
    {q1 q2 : ℕ} (hq : q1 ≠ q2) (hq1 : q1 < e.n) (hq2 : q2 < e.n) :
    ∃ e', fsim σ e theta phi q1 q2 = some e' ∧ ∀ i < 2 ^ e.n, e'.amp i =
      if i.testBit q1 ≠ i.testBit q2 then
        Real.cos theta * e.amp i + (-Complex.I * Real.sin theta) * e.amp (swapBits q1 q2 i)
      else if i.testBit q1 then Complex.exp (-Complex.I * phi) * e.amp i
      else e.amp i := by
  unfold fsim
  dsimp only
  have hlt : min q1 q2 < max q1 q2 := by omega
  -- the exchange part
  have h1 : ∃ e1, (if 0 < Real.sin theta * Real.sin theta
      then apply2x2 σ e (pow2 (min q1 q2)) (pow2 (max q1 q2)) (fsimM theta)
        [pow2 (min q1 q2), pow2 (max q1 q2)] false else some e) = some e1 ∧ e1.n = e.n ∧
      e1.doNorm = e.doNorm ∧ e1.floor = e.floor ∧
      ∀ i < 2 ^ e.n, e1.amp i = if i.testBit q1 ≠ i.testBit q2 then
        Real.cos theta * e.amp i + (-Complex.I * Real.sin theta) * e.amp (swapBits q1 q2 i)
        else e.amp i := by
    split_ifs with hs
    · have hsw : apply2x2 σ e (pow2 (min q1 q2)) (pow2 (max q1 q2)) (fsimM theta)
          [pow2 (min q1 q2), pow2 (max q1 q2)] false = swapLike σ e (fsimM theta) q1 q2 := by
        unfold swapLike; rw [if_neg hq]
      rw [hsw]
      obtain ⟨e1, k1, k2, -, k4, k5, -, k7⟩ := swapLike_exchange hσ hn (m := fsimM theta) rfl rfl
        hq1 hq2
      refine ⟨e1, k1, k2, k4, k5, fun i hi => ?_⟩
      rw [k7 i hi]
      have c1 : (fsimM theta).a = Real.cos theta := by
        apply Complex.ext
        · exact (Complex.ofReal_re _).symm
        · exact (Complex.ofReal_im _).symm
      have c2 : (fsimM theta).b = -Complex.I * Real.sin theta := by
        apply Complex.ext
        · simp only [fsimM, Complex.mul_re, Complex.neg_re, Complex.I_re, Complex.neg_im,
            Complex.I_im, Complex.ofReal_re, Complex.ofReal_im]; ring
        · simp only [fsimM, Complex.mul_im, Complex.neg_re, Complex.I_re, Complex.neg_im,
            Complex.I_im, Complex.ofReal_re, Complex.ofReal_im]; ring
      rw [c1, c2]
      simp [exchange]
    · refine ⟨e, rfl, rfl, rfl, rfl, fun i hi => ?_⟩
      have hs0 : Real.sin theta = 0 := by
        by_contra hne
        exact hs (mul_self_pos.2 hne)
      have hc1 : Real.cos theta = 1 := by
        have := Real.sin_sq_add_cos_sq theta
        rw [hs0] at this
        have h : (Real.cos theta - 1) * (Real.cos theta + 1) = 0 := by linarith
        rcases mul_eq_zero.1 h with h | h
        · linarith
        · exact absurd (by linarith) hth
      rw [hs0, hc1]
      split_ifs <;> simp
  obtain ⟨e1, h1, hn1, hd1, hf1, ha1⟩ := h1
  rw [h1, Option.bind_some]
  have hexp : Complex.exp ⟨0, -phi⟩ = Complex.exp (-Complex.I * phi) := by
    congr 1
    apply Complex.ext <;> simp
  unfold mcPhase
  rw [hexp]
  split_ifs with hz
  · refine ⟨e1, rfl, fun i hi => ?_⟩
    rw [ha1 i hi]
    have : Complex.exp (-Complex.I * phi) = 1 := (sub_eq_zero.1 hz.2).symm
    rw [this]
    split_ifs <;> simp
  · obtain ⟨e2, k1, -, k3⟩ := eitherMtrx_gate hσ (e := e1) (by omega) (by rwa [hd1, hf1])
      (cs := [min q1 q2]) (by simp) ⟨1, 0, 0, Complex.exp (-Complex.I * phi)⟩ (t := max q1 q2)
      (by simp; omega) (by intro k hk; simp at hk; rcases hk with rfl | rfl <;> omega) false
    refine ⟨e2, k1, fun i hi => ?_⟩
    rw [k3 i (by rwa [hn1])]
    have hg : gate (AllAre (!false) [min q1 q2]) (max q1 q2) 1 0 0
        (Complex.exp (-Complex.I * phi)) e1.amp i =
        if i.testBit q1 = true ∧ i.testBit q2 = true then
          Complex.exp (-Complex.I * phi) * e1.amp i else e1.amp i := by
      unfold gate AllAre
      rcases le_total q1 q2 with h | h
      · simp only [min_eq_left h, max_eq_right h, List.mem_singleton, forall_eq]
        cases i.testBit q1 <;> cases i.testBit q2 <;> simp
      · simp only [min_eq_right h, max_eq_left h, List.mem_singleton, forall_eq]
        cases i.testBit q1 <;> cases i.testBit q2 <;> simp
    dsimp only at hg ⊢
    rw [hg, ha1 i hi]
    cases i.testBit q1 <;> cases i.testBit q2 <;> simp

/-- `FSim(π, 0)` should multiply the odd-parity subspace by `cos π = -1`, but the code does
nothing (`src/qengine/qengine.cpp:451` tests only `sin θ`). -/
theorem fsim_pi_wrong (e : Eng) (q1 q2 : ℕ) : fsim id e Real.pi 0 q1 q2 = some e := by
  unfold fsim mcPhase
  have h : Complex.exp ⟨0, 0⟩ = 1 := Complex.exp_zero
  simp [Real.sin_pi, h]

/-- The claimed matrix does differ from the identity there: amplitude of `|01⟩`. -/
example : (Real.cos Real.pi : ℂ) * 1 + (-Complex.I * Real.sin Real.pi) * 0 ≠ 1 := by
  simp; norm_num

/-- Non-vacuity: swapping qubits 0 and 2 of `0b001` gives `0b100`; a controlled swap with control 1
needs bit 1. -/
example : swapBits 0 2 0b001 = 0b100 ∧ ([1] ++ [0, 2]).Nodup ∧ AllAre true [1] 0b011 ∧
    ¬ AllAre true [1] 0b001 := by decide

end Verif.Engine
