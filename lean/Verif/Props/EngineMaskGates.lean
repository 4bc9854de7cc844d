import Verif.Lemmas.PagerOps
import Verif.Lemmas.EngineArith
import Verif.Lemmas.Circ

/-!
# Mask gates built from gate sequences, and the controlled parity rotation (C07)
-/

namespace Verif.Engine

open Verif.ParFor Verif.Bits Verif.Spec Verif.Pager Verif.PairFold Classical

theorem acts_then {n : ℕ} {f g : Eng → Option Eng} {F G : (ℕ → ℂ) → ℕ → ℂ} (hf : Acts n f F) (hg : Acts n g G) :
    Acts n (fun e => (f e).bind g) (fun s => G (F s)) := by
  intro e s h
  obtain ⟨e1, h1, h2⟩ := hf e s h
  obtain ⟨e2, h3, h4⟩ := hg e1 _ h2
  exact ⟨e2, by simp only [h1, Option.bind_some, h3], h4⟩

theorem acts_loop {n : ℕ} {ι : Type*} {f : Eng → ι → Option Eng} {F : ι → (ℕ → ℂ) → ℕ → ℂ} (l : List ι)
    (h : ∀ x ∈ l, Acts n (fun e => f e x) (F x)) :
    Acts n (fun e => l.foldlM f e) (fun s => l.foldl (fun s x => F x s) s) := by
  induction l with
  | nil => intro e s h; exact ⟨e, rfl, h⟩
  | cons x l ih =>
    intro e s hs
    obtain ⟨e1, h1, h2⟩ := h x (by simp) e s hs
    obtain ⟨e2, h3, h4⟩ := ih (fun y hy => h y (by simp [hy])) e1 _ h2
    refine ⟨e2, ?_, h4⟩
    show List.foldlM f e (x :: l) = some e2
    rw [List.foldlM_cons, show f e x = some e1 from h1]
    exact h3

/-- The basis state reached by a CNOT. -/
def cnotIdx (c t i : ℕ) : ℕ := flipIf (i.testBit c) t i

theorem cnot_acts {σ : List ℕ → List ℕ} (hσ : IsSched σ) {n : ℕ} (hn : n ≤ 64) {c t : ℕ} (hc : c < n) (ht : t < n) (hct : c ≠ t) :
    Acts n (fun e => cnot σ e c t) (fun s i => s (cnotIdx c t i)) := by
  intro e s h
  obtain ⟨e', h1, h2⟩ := eitherMtrx_acts hσ hn (cs := [c]) ⟨0, 1, 1, 0⟩ (t := t) (by simpa using hct)
    (by intro k hk; simp at hk; rcases hk with rfl | rfl <;> assumption) false e s h
  refine ⟨e', h1, h2.congr fun i _ => ?_⟩
  unfold gate cnotIdx flipIf AllAre
  cases hb : i.testBit c <;> cases hb' : i.testBit t <;> simp [hb, hb']

theorem cnotIdx_cnotIdx {c t : ℕ} (hct : c ≠ t) (i : ℕ) : cnotIdx c t (cnotIdx c t i) = i := by
  unfold cnotIdx flipIf
  cases h : i.testBit c
  · simp [h]
  · simp only [if_true]
    rw [testBit_flip, h]
    simp only [hct, decide_false, Bool.xor_false, if_true]
    exact flip_flip t i

/-- The index after the CNOTs from each listed qubit to the next. -/
def upIdx : List ℕ → ℕ → ℕ
  | [], i => i
  | [_], i => i
  | a :: b :: l, i => upIdx (b :: l) (cnotIdx a b i)

/-- The CNOTs in the opposite order. -/
def downIdx : List ℕ → ℕ → ℕ
  | [], i => i
  | [_], i => i
  | a :: b :: l, i => cnotIdx a b (downIdx (b :: l) i)

theorem down_up : ∀ (l : List ℕ), l.Nodup → ∀ i, downIdx l (upIdx l i) = i
  | [], _, i => rfl
  | [_], _, i => rfl
  | a :: b :: l, h, i => by
    rw [upIdx, downIdx, down_up (b :: l) (List.nodup_cons.1 h).2]
    apply cnotIdx_cnotIdx
    intro hab
    simp [hab] at h

theorem testBit_cnotIdx (c t i k : ℕ) : (cnotIdx c t i).testBit k = (i.testBit k ^^ (i.testBit c && decide (t = k))) := by
  unfold cnotIdx flipIf
  cases h : i.testBit c
  · simp
  · simp only [if_true, testBit_flip, Bool.true_and]
    by_cases hk : k = t
    · subst hk; simp
    · simp [hk, Ne.symm hk]

/-- The ladder leaves the parity of all qubits in the last. -/
theorem up_last : ∀ (l : List ℕ) (q : ℕ), (q :: l).Nodup → ∀ i,
    (upIdx (q :: l) i).testBit ((q :: l).getLast (by simp)) = (((q :: l).countP fun k => i.testBit k) % 2 == 1)
  | [], q, _, i => by
    cases h : i.testBit q <;> simp [upIdx, List.countP_cons, h]
  | b :: l, q, hnd, i => by
    rw [upIdx, List.getLast_cons (by simp), up_last l b (List.nodup_cons.1 hnd).2]
    have hqb : q ≠ b := by intro h; simp [h] at hnd
    have hb : b ∉ l := by
      have := (List.nodup_cons.1 hnd).2
      exact (List.nodup_cons.1 this).1
    have hc : (l.countP fun k => (cnotIdx q b i).testBit k) = l.countP fun k => i.testBit k := by
      apply List.countP_congr
      intro k hk
      rw [testBit_cnotIdx]
      have : b ≠ k := fun h => hb (h ▸ hk)
      simp [this]
    simp only [List.countP_cons, hc]
    rw [testBit_cnotIdx]
    cases hq : i.testBit q <;> cases hbb : i.testBit b <;> simp <;>
      (generalize (l.countP fun k => i.testBit k) = m; try omega)

theorem fold_up (l : List ℕ) (s : ℕ → ℂ) : (List.range (l.length - 1)).foldl
    (fun (s : ℕ → ℂ) k i => s (cnotIdx (l.getD k 0) (l.getD (k + 1) 0) i)) s = fun i => s (downIdx l i) := by
  induction l generalizing s with
  | nil => rfl
  | cons a l ih =>
    cases l with
    | nil => rfl
    | cons b l =>
      rw [show (a :: b :: l).length - 1 = l.length + 1 by simp, List.range_succ_eq_map, List.foldl_cons, List.foldl_map]
      have := ih (fun i => s (cnotIdx a b i))
      rw [show (b :: l).length - 1 = l.length by simp] at this
      simp only [List.getD_cons_succ, List.getD_cons_zero] at this ⊢
      rw [this]
      rfl

theorem fold_down (l : List ℕ) (s : ℕ → ℂ) : (List.range (l.length - 1)).foldl
    (fun (s : ℕ → ℂ) k i => s (cnotIdx (l.getD (l.length - 1 - (k + 1)) 0) (l.getD (l.length - 1 - k) 0) i)) s = fun i => s (upIdx l i) := by
  induction l generalizing s with
  | nil => rfl
  | cons a l ih =>
    cases l with
    | nil => rfl
    | cons b l =>
      have := ih s
      rw [show (a :: b :: l).length - 1 = l.length + 1 by simp, List.range_succ, List.foldl_append]
      rw [show (b :: l).length - 1 = l.length by simp] at this
      have hstep : (List.range l.length).foldl (fun (s : ℕ → ℂ) k i => s (cnotIdx ((a :: b :: l).getD (l.length + 1 - (k + 1)) 0)
          ((a :: b :: l).getD (l.length + 1 - k) 0) i)) s =
          (List.range l.length).foldl (fun (s : ℕ → ℂ) k i => s (cnotIdx ((b :: l).getD (l.length - (k + 1)) 0)
          ((b :: l).getD (l.length - k) 0) i)) s := by
        apply List.foldl_ext
        intro s k hk
        have hk' := List.mem_range.1 hk
        rw [show l.length + 1 - (k + 1) = l.length - (k + 1) + 1 by omega, show l.length + 1 - k = l.length - k + 1 by omega,
          List.getD_cons_succ, List.getD_cons_succ]
      rw [hstep, this]
      simp only [List.foldl_cons, List.foldl_nil]
      funext i
      rw [show l.length + 1 - (l.length + 1) = 0 by omega, show l.length + 1 - l.length = 1 by omega]
      rfl

/-- The gate-level `PhaseParity` (CNOT ladder, one phase gate, ladder undone) is the same parity rotation as the engine's own:
`e^{iθ/2}` when an odd number of the masked qubits is set, `e^{-iθ/2}` otherwise. -/
theorem phaseParityDefault_acts {σ : List ℕ → List ℕ} (hσ : IsSched σ) {n : ℕ} (hn : n ≤ 64) {mask : ℕ} (h0 : mask ≠ 0) (hm : mask < 2 ^ n)
    (θ : ℝ) :
    Acts n (fun e => phaseParityDefault σ e θ mask) (fun s i => parityFactor (θ / 2) (maskCount n mask i) * s i) := by
  obtain ⟨hnd, hmem⟩ := maskQubits_spec mask
  have hb : ∀ q ∈ maskQubits mask, q < n := by
    intro q hq
    by_contra hq'
    have := Nat.testBit_lt_two_pow (lt_of_lt_of_le hm (Nat.pow_le_pow_right (by norm_num) (not_lt.1 hq')))
    rw [(hmem q).1 hq] at this
    cases this
  have hcount : ∀ i, maskCount n mask i = _ := fun i => maskCount_eq_countP (n := n) (mask := mask) (i := i) hm
  obtain ⟨q, l, hql⟩ : ∃ q l, maskQubits mask = q :: l := by
    cases h : maskQubits mask with
    | nil =>
      exfalso
      apply h0
      apply Nat.eq_of_testBit_eq
      intro k
      rw [Nat.zero_testBit]
      by_contra hk
      have := (hmem k).2 (by simpa using hk)
      rw [h] at this
      simp at this
    | cons q l => exact ⟨q, l, rfl⟩
  have hget : ∀ k < (maskQubits mask).length, (maskQubits mask).getD k 0 < n := fun k hk => by
    rw [List.getD_eq_getElem _ _ hk]; exact hb _ (List.getElem_mem hk)
  have hne : ∀ j k, j < (maskQubits mask).length → k < (maskQubits mask).length → j ≠ k →
      (maskQubits mask).getD j 0 ≠ (maskQubits mask).getD k 0 := by
    intro j k hj hk hjk he
    rw [List.getD_eq_getElem _ _ hj, List.getD_eq_getElem _ _ hk] at he
    exact hjk ((List.Nodup.getElem_inj_iff hnd).1 he)
  have hlen : 0 < (maskQubits mask).length := by rw [hql]; simp
  have hfn : (fun e => phaseParityDefault σ e θ mask) = fun e =>
      (((List.range ((maskQubits mask).length - 1)).foldlM (fun e i => cnot σ e ((maskQubits mask).getD i 0) ((maskQubits mask).getD (i + 1) 0)) e).bind
        fun e => phase σ e ((Real.cos (θ / 2) : ℂ) - Complex.I * (Real.sin (θ / 2) : ℂ))
          ((Real.cos (θ / 2) : ℂ) + Complex.I * (Real.sin (θ / 2) : ℂ)) ((maskQubits mask).getD ((maskQubits mask).length - 1) 0)).bind fun e =>
      (List.range ((maskQubits mask).length - 1)).foldlM (fun e i => cnot σ e ((maskQubits mask).getD ((maskQubits mask).length - 1 - (i + 1)) 0)
        ((maskQubits mask).getD ((maskQubits mask).length - 1 - i) 0)) e := by
    funext e
    unfold phaseParityDefault
    rw [if_neg h0]
  rw [hfn]
  have key := acts_then (acts_then
    (acts_loop (F := fun k (s : ℕ → ℂ) i => s (cnotIdx ((maskQubits mask).getD k 0) ((maskQubits mask).getD (k + 1) 0) i))
      (List.range ((maskQubits mask).length - 1)) fun k hk => by
        have := List.mem_range.1 hk
        exact cnot_acts hσ hn (hget _ (by omega)) (hget _ (by omega)) (hne _ _ (by omega) (by omega) (by omega)))
    (phase_acts hσ hn ((Real.cos (θ / 2) : ℂ) - Complex.I * (Real.sin (θ / 2) : ℂ))
      ((Real.cos (θ / 2) : ℂ) + Complex.I * (Real.sin (θ / 2) : ℂ)) (hget _ (Nat.sub_lt hlen one_pos))))
    (acts_loop (F := fun k (s : ℕ → ℂ) i => s (cnotIdx ((maskQubits mask).getD ((maskQubits mask).length - 1 - (k + 1)) 0)
        ((maskQubits mask).getD ((maskQubits mask).length - 1 - k) 0) i))
      (List.range ((maskQubits mask).length - 1)) fun k hk => by
        have := List.mem_range.1 hk
        exact cnot_acts hσ hn (hget _ (by omega)) (hget _ (by omega)) (hne _ _ (by omega) (by omega) (by omega)))
  intro e s h
  obtain ⟨e', h1, h2⟩ := key e s h
  refine ⟨e', h1, h2.congr fun i _ => ?_⟩
  dsimp only
  rw [fold_up, fold_down]
  dsimp only
  have hlast : (maskQubits mask).getD ((maskQubits mask).length - 1) 0 = (q :: l).getLast (by simp) := by
    rw [hql, List.getD_eq_getElem _ _ (by simp), List.getLast_eq_getElem]
  unfold gate
  rw [if_pos trivial, hlast, hql]
  have hup := up_last l q (hql ▸ hnd) i
  rw [hup]
  dsimp only
  rw [down_up _ (hql ▸ hnd), parityFactor_cos, hcount, hql]
  by_cases hp : ((q :: l).countP fun k => i.testBit k) % 2 = 1
  · rw [if_pos hp, if_pos (by simpa using hp), zero_mul, zero_add]
    congr 1
    apply Complex.ext <;> simp [← Complex.ofReal_cos, ← Complex.ofReal_sin]
  · rw [if_neg hp, if_neg (by simpa using hp), zero_mul, add_zero]
    congr 1
    apply Complex.ext <;> simp [← Complex.ofReal_cos, ← Complex.ofReal_sin]

/-- `CUniformParityRZ` where all controls are set: the parity rotation over the masked qubits that are not controls; elsewhere nothing.
Missing: a mask that contains controls counts them as clear, see `cUniformParityRZ_wrong`; and the popcount of masks above qubit 31. -/
theorem cUniformParityRZ_partial {cpp20 : Bool} {σ : List ℕ → List ℕ} (hσ : IsSched σ) {e : Eng} (hn : e.n ≤ 64) {cs : List ℕ} {mask : ℕ}
    (hm : mask < 2 ^ e.n) (h32 : cpp20 = true ∨ mask < 2 ^ 32) (hnd : cs.Nodup) (hb : ∀ c ∈ cs, c < e.n)
    (hdis : ∀ c ∈ cs, mask.testBit c = false) (θ : ℝ) :
    ∃ e', cUniformParityRZ cpp20 σ e cs mask θ = some e' ∧
      Applies e e' (fun s i => if AllAre true cs i then parityFactor θ (maskCount e.n mask i) * s i else s i) := by
  unfold cUniformParityRZ
  by_cases hc0 : cs = []
  · rw [if_pos hc0]
    obtain ⟨e', h1, h2⟩ := uniformParityRZ_partial hσ hn hm h32 θ
    refine ⟨e', h1, h2.n, h2.rgp, h2.doNorm, h2.floor, fun i hi => ?_⟩
    rw [if_pos (by subst hc0; simp [AllAre])]
    exact h2.amp i hi
  rw [if_neg hc0, if_neg (by omega), if_neg (by simpa using ⟨hb, hnd⟩)]
  refine ⟨_, rfl, rfl, rfl, rfl, rfl, fun i hi => ?_⟩
  dsimp only
  have hperm := List.mergeSort_perm cs (· ≤ ·)
  have hcm : ∀ k, (((cs.mergeSort (· ≤ ·)).map pow2).foldl (· ||| ·) 0).testBit k = decide (k ∈ cs) := by
    intro k
    have := Circ.testBit_ctrlMask (cs.mergeSort (· ≤ ·)) k
    rw [Circ.ctrlMask] at this
    rw [this]
    exact decide_eq_decide.2 hperm.mem_iff
  obtain ⟨hn1, hn2⟩ := mem_maskPlan hσ hnd hb hn
  have hplan : (cs.mergeSort (· ≤ ·)).map pow2 = sortPows (cs.map pow2) := (sortPows_map cs).symm
  generalize hC : ((cs.mergeSort (· ≤ ·)).map pow2).foldl (· ||| ·) 0 = C at hcm ⊢
  rw [hplan]
  have hfold : (fun (s : ℕ → ℂ) lcv => Function.update s (C ||| lcv) (s (C ||| lcv) *
        if popCountOcl cpp20 (lcv &&& mask) &&& 1 ≠ 0 then (⟨Real.cos θ, Real.sin θ⟩ : ℂ) else ⟨Real.cos θ, -Real.sin θ⟩)) =
      cstep (fun x => C ||| x) (fun x z => z * if popCountOcl cpp20 (x &&& mask) &&& 1 ≠ 0 then
        (⟨Real.cos θ, Real.sin θ⟩ : ℂ) else ⟨Real.cos θ, -Real.sin θ⟩) := rfl
  rw [hfold]
  have hinj : ∀ x ∈ σ (parForMaskPlan 64 0 (2 ^ e.n) (sortPows (cs.map pow2))), ∀ y ∈ σ (parForMaskPlan 64 0 (2 ^ e.n) (sortPows (cs.map pow2))),
      (C ||| x) = (C ||| y) → x = y := by
    intro x hx y hy hxy
    apply Nat.eq_of_testBit_eq
    intro k
    by_cases hk : k ∈ cs
    · rw [((hn2 x).1 hx).2 k hk, ((hn2 y).1 hy).2 k hk]
    · have := congrArg (fun z => z.testBit k) hxy
      simpa [Nat.testBit_or, hcm, hk] using this
  obtain ⟨hf1, hf2⟩ := cfold_spec (fun x => C ||| x) (fun x (z : ℂ) => z * if popCountOcl cpp20 (x &&& mask) &&& 1 ≠ 0 then
        (⟨Real.cos θ, Real.sin θ⟩ : ℂ) else ⟨Real.cos θ, -Real.sin θ⟩) _ hn1 hinj e.amp
  by_cases hA : AllAre true cs i
  · rw [if_pos hA]
    -- the visited state that differs from `i` in the controls
    have hx : ∃ x, x ∈ σ (parForMaskPlan 64 0 (2 ^ e.n) (sortPows (cs.map pow2))) ∧ (C ||| x) = i ∧ x &&& mask = i &&& mask := by
      refine ⟨i &&& (C ^^^ (2 ^ e.n - 1)), (hn2 _).2 ⟨lt_of_le_of_lt Nat.and_le_left hi, fun p hp => ?_⟩, ?_, ?_⟩
      · rw [Nat.testBit_and, Nat.testBit_xor, hcm, Nat.testBit_two_pow_sub_one]
        simp [hp, hb p hp]
      · apply Nat.eq_of_testBit_eq
        intro k
        rw [Nat.testBit_or, Nat.testBit_and, Nat.testBit_xor, hcm, Nat.testBit_two_pow_sub_one]
        by_cases hk : k ∈ cs
        · simp [hk, hA k hk]
        · by_cases hkn : k < e.n
          · simp [hk, hkn]
          · have := Nat.testBit_lt_two_pow (lt_of_lt_of_le hi (Nat.pow_le_pow_right (by norm_num) (not_lt.1 hkn)))
            simp [hk, hkn, this]
      · apply Nat.eq_of_testBit_eq
        intro k
        rw [Nat.testBit_and, Nat.testBit_and, Nat.testBit_and, Nat.testBit_xor, hcm, Nat.testBit_two_pow_sub_one]
        by_cases hk : k ∈ cs
        · simp [hk, hdis k hk]
        · by_cases hkn : k < e.n
          · simp [hk, hkn]
          · have := Nat.testBit_lt_two_pow (lt_of_lt_of_le hi (Nat.pow_le_pow_right (by norm_num) (not_lt.1 hkn)))
            simp [this]
    obtain ⟨x, hx1, hx2, hx3⟩ := hx
    have := hf1 x hx1
    rw [hx2] at this
    rw [this, hx3, parityFactor_cos, popCountOcl_maskCount hn hm h32, mul_comm]
    simp only [and_one_ne]
  · rw [if_neg hA]
    refine hf2 i fun x hx he => hA fun c hc => ?_
    rw [he, Nat.testBit_or, hcm]
    simp [hc]

/-- With a control inside the mask, the control's own bit does not count: on `|1⟩` with control 0 and mask 1 the rotation is
`e^{-iθ}`, although the one masked qubit is set. -/
theorem cUniformParityRZ_wrong : ∃ (e : Eng) (cs : List ℕ) (mask : ℕ) (θ : ℝ) (e' : Eng), mask < 2 ^ e.n ∧ cs.Nodup ∧ (∀ c ∈ cs, c < e.n) ∧
    cUniformParityRZ true id e cs mask θ = some e' ∧
    ¬ Applies e e' (fun s i => if AllAre true cs i then parityFactor θ (maskCount e.n mask i) * s i else s i) := by
  have hrun : ∃ e', cUniformParityRZ true id ⟨1, fun _ => 1, 1, false, false, 0⟩ [0] 1 (Real.pi / 2) = some e' ∧
      e'.amp 1 = ⟨Real.cos (Real.pi / 2), -Real.sin (Real.pi / 2)⟩ := by
    unfold cUniformParityRZ
    rw [if_neg (by simp), if_neg (by norm_num), if_neg (by simp)]
    refine ⟨_, rfl, ?_⟩
    dsimp only
    rw [List.mergeSort_singleton]
    have hplan : parForMaskPlan 64 0 (2 ^ 1) ([0].map pow2) = [0] := by decide
    rw [id, hplan]
    have hpc : popCountOcl true (0 &&& 1) &&& 1 = 0 := by decide
    simp only [List.foldl_cons, List.foldl_nil, hpc, ne_eq, not_true_eq_false, if_false]
    have hC : ([0].map pow2).foldl (fun x1 x2 => x1 ||| x2) 0 ||| 0 = 1 := by decide
    rw [hC, Function.update_self, one_mul]
  obtain ⟨e', h1, h2⟩ := hrun
  refine ⟨⟨1, fun _ => 1, 1, false, false, 0⟩, [0], 1, Real.pi / 2, e', by norm_num, by simp, by simp, h1, fun h => ?_⟩
  have h3 := h.amp 1 (by norm_num)
  dsimp only at h3
  have hmc : maskCount 1 1 1 % 2 = 1 := by decide
  rw [if_pos (by decide), parityFactor_cos, if_pos hmc, h2] at h3
  have := congrArg Complex.im h3
  norm_num at this

example : ∀ c ∈ ([0, 3] : List ℕ), (0b0110 : ℕ).testBit c = false := by decide
example : (0b1101 : ℕ) ≠ 0 ∧ (0b1101 : ℕ) < 2 ^ 4 := by decide

end Verif.Engine
