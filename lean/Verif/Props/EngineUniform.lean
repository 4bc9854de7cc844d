import Verif.Model.EngineUniform
import Verif.Props.EngineMask
import Verif.Props.Utils

/-!
# C50: uniformly controlled gates apply the matrix selected by the control value
-/

namespace Verif.Engine

open Verif.ParFor Verif.Bits Verif.PairFold Verif.Spec Verif.Utils Classical

/-- The value of the control register in the basis state `i`: the number whose bit `j` is qubit
`controls[j]` of `i`. -/
def IsCtrlValue (controls : List ℕ) (i v : ℕ) : Prop :=
  v < 2 ^ controls.length ∧ ∀ j (h : j < controls.length), v.testBit j = i.testBit controls[j]

/-- `idx` is the control value `v` spread over the positions not in `ps`, together with the fixed bits
`val`: the index of a matrix when the controls at positions `ps` are skipped. -/
def IsMatrixIndex (ps : List ℕ) (val v idx : ℕ) : Prop :=
  ∀ k, idx.testBit k = ((if k ∈ ps then false else v.testBit (k - below ps k)) || val.testBit k)

theorem IsCtrlValue.unique {controls : List ℕ} {i v v' : ℕ} (h : IsCtrlValue controls i v)
    (h' : IsCtrlValue controls i v') : v = v' := by
  apply Nat.eq_of_testBit_eq
  intro k
  by_cases hk : k < controls.length
  · rw [h.2 k hk, h'.2 k hk]
  · rw [lt_two_pow_iff_testBit.1 h.1 k (by omega), lt_two_pow_iff_testBit.1 h'.1 k (by omega)]

theorem IsMatrixIndex.unique {ps : List ℕ} {val v idx idx' : ℕ} (h : IsMatrixIndex ps val v idx)
    (h' : IsMatrixIndex ps val v idx') : idx = idx' :=
  Nat.eq_of_testBit_eq fun k => by rw [h k, h' k]

theorem and_pow2_ne (x q : ℕ) : (x &&& pow2 q ≠ 0) ↔ x.testBit q = true := by
  unfold pow2
  rw [Nat.and_two_pow]
  cases h : x.testBit q
  · simp
  · simp

theorem ctrlOffset_bits (controls : List ℕ) (i : ℕ) : ∀ m ≤ controls.length, ∀ k,
    ((List.range m).foldl
      (fun off j => if i &&& pow2 (controls.getD j 0) ≠ 0 then off ||| pow2 j else off) 0).testBit k =
      (decide (k < m) && i.testBit (controls.getD k 0)) := by
  intro m
  induction m with
  | zero => intro _ k; simp
  | succ m ih =>
    intro hm k
    rw [List.range_succ, List.foldl_append, List.foldl_cons, List.foldl_nil]
    have h := ih (by omega) k
    split_ifs with hc
    · rw [Nat.testBit_or, h, pow2, Nat.testBit_two_pow]
      rw [and_pow2_ne] at hc
      by_cases hk : m = k
      · subst hk; simp [hc]
        simpa using hc
      · have : (k < m + 1) ↔ k < m := by omega
        simp [hk, this]
    · rw [h]
      rw [and_pow2_ne] at hc
      by_cases hk : m = k
      · subst hk
        have hc' : i.testBit (controls.getD m 0) = false := by simpa using hc
        rw [hc']; simp
      · have : (k < m + 1) ↔ k < m := by omega
        simp [this]

theorem ctrlOffset_isCtrlValue (controls : List ℕ) (i : ℕ) :
    IsCtrlValue controls i (ctrlOffset controls i) := by
  constructor
  · rw [lt_two_pow_iff_testBit]
    intro k hk
    rw [ctrlOffset, ctrlOffset_bits controls i _ le_rfl]
    have : ¬ k < controls.length := by omega
    simp [this]
  · intro j h
    rw [ctrlOffset, ctrlOffset_bits controls i _ le_rfl]
    simp [h]

theorem ucIndex_isMatrixIndex {ps : List ℕ} (hs : ps.Pairwise (· < ·)) {v d val : ℕ} (hv : v < 2 ^ d)
    (hw : d + ps.length ≤ 64) : IsMatrixIndex ps val v (ucIndex (ps.map pow2) val v) := by
  intro k
  unfold ucIndex
  have := pushApartAux_bits (w := 64) ps 0 v d hs hw hv (by simp) k
  rw [Nat.testBit_or]
  congr 1
  have h2 : ps.map pow2 = ps.map (2 ^ ·) := rfl
  rw [h2, this]
  by_cases hk : k ∈ ps <;> simp [hk]

theorem plan_skip {n t : ℕ} (hn : n < 64) (ht : t < n) {σ : List ℕ → List ℕ} (hσ : IsSched σ) :
    (σ (parForSkipPlan 64 0 (2 ^ n) (pow2 t) 1)).Nodup ∧
    ∀ i, i ∈ σ (parForSkipPlan 64 0 (2 ^ n) (pow2 t) 1) ↔ (i < 2 ^ n ∧ i.testBit t = false) := by
  have hv := parForSkip_visits (w := 64) (n := n) (s := t) (d := 1) (by omega) hn
  have hp := hσ (parForSkipPlan 64 0 (2 ^ n) (2 ^ t) 1)
  refine ⟨hp.nodup_iff.2 hv.1, fun i => hp.mem_iff.trans ((hv.2 i).trans ?_)⟩
  constructor
  · rintro ⟨h1, h2⟩; exact ⟨h1, h2 t le_rfl (by omega)⟩
  · rintro ⟨h1, h2⟩
    refine ⟨h1, fun k hk hk' => ?_⟩
    have : k = t := by omega
    rw [this]; exact h2

theorem or_flip {t i : ℕ} (h : i.testBit t = false) : i ||| 2 ^ t = flipBit t i := by
  apply Nat.eq_of_testBit_eq
  intro k
  rw [flipBit, Nat.testBit_or, Nat.testBit_xor, Nat.testBit_two_pow]
  by_cases hk : t = k
  · subst hk; simp [h]
  · simp [hk]

/-- A loop over the states with a clear target qubit, in any order. -/
theorem ucFold_list {n t : ℕ} (ht : t < n) {l : List ℕ} (hnd : l.Nodup)
    (hmem : ∀ i, i ∈ l ↔ (i < 2 ^ n ∧ i.testBit t = false))
    {controls : List ℕ} (htc : t ∉ controls) (ms : ℕ → M2) (sp : List ℕ) (val : ℕ) (f : ℂ)
    (s : ℕ → ℂ) (i : ℕ) (hi : i < 2 ^ n) :
    l.foldl (ucStep controls t ms sp val f) s i =
      f * gate (fun _ => True) t (ms (ucIndex sp val (ctrlOffset controls i))).a
        (ms (ucIndex sp val (ctrlOffset controls i))).b (ms (ucIndex sp val (ctrlOffset controls i))).c
        (ms (ucIndex sp val (ctrlOffset controls i))).d s i := by
  let K : ℕ → ℂ → ℂ → ℂ × ℂ := fun x y0 y1 =>
    let m := ms (ucIndex sp val (ctrlOffset controls x))
    (f * (m.a * y0 + m.b * y1), f * (m.c * y0 + m.d * y1))
  have hdisj : Disj (fun x => x) (fun x => x ||| pow2 t) l := by
    have hb : ∀ x, (x ||| pow2 t).testBit t = true := by
      intro x; simp [pow2]
    have h01 : ∀ x ∈ l, ∀ y, x ≠ y ||| pow2 t := by
      intro x hx y h
      have := ((hmem x).1 hx).2
      rw [h, hb] at this; cases this
    refine ⟨fun x hx => h01 x hx x, fun x _ y _ h => h, ?_, fun x hx y _ => h01 x hx y⟩
    intro x hx y hy h
    have h1 := or_flip ((hmem x).1 hx).2
    have h2 := or_flip ((hmem y).1 hy).2
    change x ||| 2 ^ t = y ||| 2 ^ t at h
    rw [h1, h2] at h
    have := congrArg (flipBit t) h
    rwa [flip_flip, flip_flip] at this
  obtain ⟨h1, h2, -⟩ := fold_spec (fun x => x) (fun x => x ||| pow2 t) K (fun _ _ => 0) l hnd hdisj s 0
  have heq : ∀ (l : List ℕ) (s : ℕ → ℂ), (l.foldl (pstep (fun x => x) (fun x => x ||| pow2 t) K
      (fun _ _ => 0)) (s, 0)).1 = l.foldl (ucStep controls t ms sp val f) s := by
    intro l
    induction l with
    | nil => intro s; rfl
    | cons x l ih =>
      intro s
      rw [List.foldl_cons, List.foldl_cons, ← ih]
      unfold pstep
      simp only [add_zero]
      rfl
  rw [heq] at h1 h2
  unfold gate
  rw [if_pos trivial]
  cases hb : i.testBit t with
  | false =>
    have := (h1 i ((hmem i).2 ⟨hi, hb⟩)).1
    rw [this]
    simp only [K]
    rw [show i ||| pow2 t = flipBit t i from or_flip hb]
    simp
  | true =>
    set x := flipBit t i with hx
    have hxb : x.testBit t = false := by rw [hx, testBit_flip, hb]; simp
    have hxl : x < 2 ^ n := flip_lt ht hi
    have hxi : x ||| pow2 t = i := by
      rw [show x ||| pow2 t = flipBit t x from or_flip hxb, hx, flip_flip]
    have := (h1 x ((hmem x).2 ⟨hxl, hxb⟩)).2
    rw [hxi] at this
    rw [this]
    simp only [K]
    have hoff : ctrlOffset controls x = ctrlOffset controls i := by
      refine (ctrlOffset_isCtrlValue controls x).unique ?_
      refine ⟨(ctrlOffset_isCtrlValue controls i).1, fun j h => ?_⟩
      rw [(ctrlOffset_isCtrlValue controls i).2 j h, hx, testBit_flip]
      have : controls[j] ≠ t := fun h' => htc (h' ▸ List.getElem_mem h)
      simp [this]
    rw [hoff]
    simp

/-- The loop of `UniformlyControlledSingleBit`. -/
theorem ucFold {n t : ℕ} (hn : n < 64) (ht : t < n) {σ : List ℕ → List ℕ} (hσ : IsSched σ)
    {controls : List ℕ} (htc : t ∉ controls) (ms : ℕ → M2) (sp : List ℕ) (val : ℕ) (f : ℂ)
    (s : ℕ → ℂ) (i : ℕ) (hi : i < 2 ^ n) :
    (σ (parForSkipPlan 64 0 (2 ^ n) (pow2 t) 1)).foldl (ucStep controls t ms sp val f) s i =
      f * gate (fun _ => True) t (ms (ucIndex sp val (ctrlOffset controls i))).a
        (ms (ucIndex sp val (ctrlOffset controls i))).b (ms (ucIndex sp val (ctrlOffset controls i))).c
        (ms (ucIndex sp val (ctrlOffset controls i))).d s i :=
  ucFold_list ht (plan_skip hn ht hσ).1 (plan_skip hn ht hσ).2 htc ms sp val f s i hi

/-- On each value of the control register, `UniformlyControlledSingleBit` applies the matrix listed for
that value; with skipped controls, the matrix at the index that has the fixed bits `val` at the skipped
positions `ps`. (Without normalisation, or with a running norm of 1.) -/
theorem uniformlyControlled_gate {σ : List ℕ → List ℕ} (hσ : IsSched σ) {e : Eng} (hn : e.n < 64)
    {controls : List ℕ} (hne : controls ≠ []) {t : ℕ} (hnd : (controls ++ [t]).Nodup)
    (hb : ∀ k ∈ controls ++ [t], k < e.n) (hrn : e.doNorm = false ∨ e.rn = 1) (ms : ℕ → M2)
    {ps : List ℕ} (hps : ps.Pairwise (· < ·)) (hw : controls.length + ps.length ≤ 64) (val : ℕ) :
    ∃ e', uniformlyControlled σ e controls t ms (ps.map pow2) val = some e' ∧ e'.n = e.n ∧ e'.rn = e.rn ∧
      ∀ i < 2 ^ e.n, ∀ v idx, IsCtrlValue controls i v → IsMatrixIndex ps val v idx →
        e'.amp i = gate (fun _ => True) t (ms idx).a (ms idx).b (ms idx).c (ms idx).d e.amp i := by
  have ht : t < e.n := hb t (by simp)
  have htc : t ∉ controls := by
    intro h
    have := List.nodup_append.1 hnd
    exact this.2.2 t h t (by simp) rfl
  have hbad : throwIfBad controls e.n = false := by
    rw [throwIfBad_correct]
    exact ⟨fun c hc => hb c (by simp [hc]), (List.nodup_append.1 hnd).1⟩
  unfold uniformlyControlled
  rw [if_neg hne, if_neg (by omega), hbad, if_neg (by simp)]
  have hf : (if e.doNorm = true ∧ 1 - (if 0 < e.rn then 1 / Real.sqrt e.rn else 1) > 0 then
      (if 0 < e.rn then 1 / Real.sqrt e.rn else 1) else (1 : ℝ)) = 1 := by
    rcases hrn with h | h
    · simp [h]
    · simp [h]
  dsimp only
  rw [hf]
  refine ⟨_, rfl, rfl, ?_, fun i hi v idx hv hidx => ?_⟩
  · rcases hrn with h | h <;> simp [h]
  · dsimp only
    rw [ucFold hn ht hσ htc]
    have h1 := (ctrlOffset_isCtrlValue controls i).unique hv
    have h2 := (ucIndex_isMatrixIndex hps (val := val) (ctrlOffset_isCtrlValue controls i).1 hw)
    rw [h1] at h2
    rw [h1, h2.unique hidx]
    · simp
    · exact hi

/-- Bad arguments are rejected. -/
theorem uniformlyControlled_invalid {σ : List ℕ → List ℕ} {e : Eng} {controls : List ℕ}
    (hne : controls ≠ []) {t : ℕ} (ms : ℕ → M2) (sp : List ℕ) (val : ℕ)
    (h : e.n ≤ t ∨ (∃ c ∈ controls, e.n ≤ c) ∨ ¬ controls.Nodup) :
    uniformlyControlled σ e controls t ms sp val = none := by
  unfold uniformlyControlled
  rw [if_neg hne]
  split_ifs with h1 h2
  · rfl
  · rfl
  · exfalso
    have h3 : throwIfBad controls e.n = false := by simpa using h2
    rw [throwIfBad_correct] at h3
    rcases h with h | ⟨c, hc, h⟩ | h
    · exact h1 h
    · have := h3.1 c hc; omega
    · exact h h3.2

/-- With `doNormalize`, a running norm below 1 is not compensated (the factor would exceed 1 and the
test `1 - nrm > eps` fails), yet the running norm is reset to 1: afterwards it is not the total
probability although it was before. -/
theorem uniformlyControlled_norm_wrong : ∃ (e e' : Eng), e.rn = totalProb e.n e.amp ∧ 0 < e.rn ∧
    uniformlyControlled id e [0] 1 (fun _ => ⟨1, 0, 0, 1⟩) [] 0 = some e' ∧
    e'.rn ≠ totalProb e.n e'.amp := by
  let e : Eng := ⟨2, fun i => if i = 0 then 1 / 2 else 0, 1 / 4, true, true, 0⟩
  have hbad : throwIfBad [0] e.n = false := by decide
  have hf : (if e.doNorm = true ∧ 1 - (if 0 < e.rn then 1 / Real.sqrt e.rn else 1) > 0 then
      (if 0 < e.rn then 1 / Real.sqrt e.rn else 1) else (1 : ℝ)) = 1 := by
    rw [if_neg]
    rintro ⟨-, h⟩
    have : Real.sqrt (1 / 4) = 1 / 2 := by
      rw [show (1 / 4 : ℝ) = (1 / 2) ^ 2 by norm_num]; exact Real.sqrt_sq (by norm_num)
    norm_num [e, this] at h
  obtain ⟨e', hu, hr, ha⟩ : ∃ e', uniformlyControlled id e [0] 1 (fun _ => ⟨1, 0, 0, 1⟩) [] 0 = some e' ∧
      e'.rn = 1 ∧ SameOn e.n e'.amp e.amp := by
    unfold uniformlyControlled
    rw [if_neg (by simp), if_neg (by simp [e]), hbad, if_neg (by simp)]
    dsimp only
    rw [hf]
    refine ⟨_, rfl, by simp [e], fun i hi => ?_⟩
    dsimp only
    have := ucFold (n := e.n) (t := 1) (controls := [0]) (by simp [e]) (by simp [e])
      (σ := id) (fun l => List.Perm.refl l) (by simp) (fun _ => ⟨1, 0, 0, 1⟩) [] 0 ((1 : ℝ) : ℂ) e.amp i hi
    rw [this, gate_id]; simp
  refine ⟨e, e', ?_, by simp [e], hu, ?_⟩
  · simp [e, totalProb, Finset.sum_range_succ]; norm_num
  · rw [totalProb_congr ha, hr]
    simp [e, totalProb, Finset.sum_range_succ]
    norm_num

/-! ### The gate sequence of `QInterface::UniformlyControlledSingleBit` -/

theorem apply2x2_meta {σ : List ℕ → List ℕ} {e e' : Eng} {o1 o2 : ℕ} {m : M2} {pows : List ℕ} {dc : Bool}
    (h : apply2x2 σ e o1 o2 m pows dc = some e') :
    e'.n = e.n ∧ e'.rgp = e.rgp ∧ e'.doNorm = e.doNorm ∧ e'.floor = e.floor := by
  unfold apply2x2 at h
  dsimp only at h
  split_ifs at h <;> simp only [Option.some.injEq, reduceCtorEq] at h <;> subst h <;>
    exact ⟨rfl, rfl, rfl, rfl⟩

theorem mtrx_meta {σ : List ℕ → List ℕ} {e e' : Eng} {m : M2} {q : ℕ} (h : mtrx σ e m q = some e') :
    e'.n = e.n ∧ e'.rgp = e.rgp ∧ e'.doNorm = e.doNorm ∧ e'.floor = e.floor := by
  unfold mtrx at h
  split_ifs at h
  · cases h; exact ⟨rfl, rfl, rfl, rfl⟩
  · exact apply2x2_meta h

theorem updateRunningNorm_meta (e : Eng) : (updateRunningNorm e).n = e.n ∧
    (updateRunningNorm e).rgp = e.rgp ∧ (updateRunningNorm e).doNorm = e.doNorm ∧
    (updateRunningNorm e).floor = e.floor := by
  unfold updateRunningNorm; dsimp only; split_ifs <;> exact ⟨rfl, rfl, rfl, rfl⟩

theorem eitherMtrx_meta {σ : List ℕ → List ℕ} {e e' : Eng} {cs : List ℕ} {m : M2} {t : ℕ} {anti : Bool}
    (h : eitherMtrx σ e cs m t anti = some e') :
    e'.n = e.n ∧ e'.rgp = e.rgp ∧ e'.doNorm = e.doNorm ∧ e'.floor = e.floor := by
  have key : ∀ r : Option Eng, (∀ x, r = some x →
      x.n = e.n ∧ x.rgp = e.rgp ∧ x.doNorm = e.doNorm ∧ x.floor = e.floor) →
      ∀ c : Bool, (if c = true then r.map updateRunningNorm else r) = some e' →
      e'.n = e.n ∧ e'.rgp = e.rgp ∧ e'.doNorm = e.doNorm ∧ e'.floor = e.floor := by
    intro r hr c hc
    split_ifs at hc
    · cases r with
      | none => cases hc
      | some x =>
        simp only [Option.map_some, Option.some.injEq] at hc
        obtain ⟨h1, h2, h3, h4⟩ := updateRunningNorm_meta x
        obtain ⟨k1, k2, k3, k4⟩ := hr x rfl
        rw [← hc]
        exact ⟨h1.trans k1, h2.trans k2, h3.trans k3, h4.trans k4⟩
    · exact hr e' hc
  unfold eitherMtrx at h
  by_cases c1 : cs = []
  · rw [if_pos c1] at h; exact mtrx_meta h
  rw [if_neg c1] at h
  by_cases c2 : isIdentity e.rgp m true = true
  · rw [if_pos c2] at h; cases h; exact ⟨rfl, rfl, rfl, rfl⟩
  rw [if_neg c2] at h
  refine key _ ?_ _ h
  intro x hx
  split_ifs at hx
  · unfold applyAntiControlled2x2 at hx; exact apply2x2_meta hx
  · unfold applyControlled2x2 at hx; exact apply2x2_meta hx

/-- The basis state in which control `j` is set for each set bit `j` of `v`. -/
def cmask (controls : List ℕ) (m v : ℕ) : ℕ :=
  (List.range m).foldl (fun a j => if v.testBit j then a ^^^ 2 ^ controls.getD j 0 else a) 0

theorem cmask_succ (controls : List ℕ) (m v : ℕ) : cmask controls (m + 1) v =
    cmask controls m v ^^^ (if v.testBit m then 2 ^ controls.getD m 0 else 0) := by
  unfold cmask
  rw [List.range_succ, List.foldl_append, List.foldl_cons, List.foldl_nil]
  split_ifs <;> simp

theorem cmask_xor (controls : List ℕ) (m v v' : ℕ) :
    cmask controls m (v ^^^ v') = cmask controls m v ^^^ cmask controls m v' := by
  induction m with
  | zero => simp [cmask]
  | succ m ih =>
    rw [cmask_succ, cmask_succ, cmask_succ, ih, Nat.testBit_xor]
    have h : (if (v.testBit m ^^ v'.testBit m) = true then 2 ^ controls.getD m 0 else 0) =
        (if v.testBit m then 2 ^ controls.getD m 0 else 0) ^^^
        (if v'.testBit m then 2 ^ controls.getD m 0 else 0) := by
      cases v.testBit m <;> cases v'.testBit m <;> simp
    rw [h]
    ac_rfl

theorem cmask_testBit {controls : List ℕ} (hnd : controls.Nodup) (v : ℕ) : ∀ m ≤ controls.length,
    ∀ j (hj : j < controls.length),
      (cmask controls m v).testBit controls[j] = (decide (j < m) && v.testBit j) := by
  intro m
  induction m with
  | zero => intro _ j _; simp [cmask]
  | succ m ih =>
    intro hm j hj
    rw [cmask_succ, Nat.testBit_xor, ih (by omega) j hj]
    have hg : controls.getD m 0 = controls[m] := by simp [show m < controls.length by omega]
    by_cases hjm : j = m
    · subst hjm
      rw [hg]
      cases v.testBit j <;> simp
    · have h1 : controls[m] ≠ controls[j] := fun h =>
        hjm ((List.Nodup.getElem_inj_iff hnd).1 h).symm
      have h2 : (j < m + 1) ↔ j < m := by omega
      have h3 : (if v.testBit m = true then 2 ^ controls.getD m 0 else 0).testBit controls[j] = false := by
        rw [hg]
        split_ifs
        · rw [Nat.testBit_two_pow]; simp [h1]
        · simp
      rw [h3]
      simp [h2]

theorem cmask_testBit_notMem {controls : List ℕ} (v q : ℕ) (hq : q ∉ controls) : ∀ m ≤ controls.length,
    (cmask controls m v).testBit q = false := by
  intro m
  induction m with
  | zero => intro _; simp [cmask]
  | succ m ih =>
    intro hm
    rw [cmask_succ, Nat.testBit_xor, ih (by omega)]
    have hg : controls.getD m 0 = controls[m] := by simp [show m < controls.length by omega]
    split_ifs
    · rw [Nat.testBit_two_pow, hg]
      have : controls[m] ≠ q := fun h => hq (h ▸ List.getElem_mem _)
      simp [this]
    · simp

theorem isCtrlValue_xor {controls : List ℕ} (hnd : controls.Nodup) {i v u : ℕ}
    (h : IsCtrlValue controls i v) (hu : u < 2 ^ controls.length) :
    IsCtrlValue controls (i ^^^ cmask controls controls.length u) (v ^^^ u) := by
  refine ⟨Nat.xor_lt_two_pow h.1 hu, fun j hj => ?_⟩
  rw [Nat.testBit_xor, Nat.testBit_xor, h.2 j hj, cmask_testBit hnd u _ le_rfl j hj]
  simp [hj]

theorem controls_length_le {controls : List ℕ} {n : ℕ} (hnd : controls.Nodup) (hb : ∀ c ∈ controls, c < n) :
    controls.length ≤ n := by
  rw [← List.toFinset_card_of_nodup hnd, ← Finset.card_range n]
  apply Finset.card_le_card
  intro c hc
  simpa using hb c (by simpa using hc)

theorem cmask_lt {controls : List ℕ} {n : ℕ} (hb : ∀ c ∈ controls, c < n) (u : ℕ) :
    cmask controls controls.length u < 2 ^ n := by
  rw [lt_two_pow_iff_testBit]
  intro k hk
  exact cmask_testBit_notMem u k (fun h => by have := hb k h; omega) _ le_rfl

theorem toggle_applies {σ : List ℕ → List ℕ} (hσ : IsSched σ) {e : Eng} (hn : e.n ≤ 64)
    {controls : List ℕ} (hnd : controls.Nodup) (hb : ∀ c ∈ controls, c < e.n) (d : ℕ) :
    ∃ e', toggle σ controls d e = some e' ∧
      Applies e e' (fun s i => s (i ^^^ cmask controls controls.length d)) := by
  have hlen := controls_length_le hnd hb
  have hc : ∀ j < controls.length, controls.getD j 0 < e.n := by
    intro j hj
    have : controls.getD j 0 = controls[j] := by simp [hj]
    rw [this]; exact hb _ (List.getElem_mem _)
  have key : ∀ m ≤ controls.length, ∃ e', (List.range m).foldlM
      (fun e j => if d.testBit j then gateX σ e (controls.getD j 0) else some e) e = some e' ∧
      Applies e e' (fun s i => s (i ^^^ cmask controls m d)) := by
    intro m
    induction m with
    | zero => intro _; exact ⟨e, rfl, rfl, rfl, rfl, rfl, fun i _ => by simp [cmask]⟩
    | succ m ih =>
      intro hm
      obtain ⟨e1, h1, h2⟩ := ih (by omega)
      rw [List.range_succ, List.foldlM_append, h1]
      simp only [List.foldlM_cons, List.foldlM_nil, Option.bind_eq_bind, Option.bind_some, Option.pure_def]
      rw [cmask_succ]
      have hcm : cmask controls m d < 2 ^ e.n := by
        rw [lt_two_pow_iff_testBit]
        intro k hk
        exact cmask_testBit_notMem d k (fun h => by have := hb k h; omega) _ (by omega)
      split_ifs with ht
      · obtain ⟨e2, h3, h4⟩ := gateX_applies hσ (e := e1) (by rw [h2.n]; exact hn)
          (q := controls.getD m 0) (by rw [h2.n]; exact hc m (by omega))
        refine ⟨e2, by rw [h3]; rfl, h4.n.trans h2.n, h4.rgp.trans h2.rgp, h4.doNorm.trans h2.doNorm,
          h4.floor.trans h2.floor, fun i hi => ?_⟩
        rw [h4.amp i (by rw [h2.n]; exact hi), h2.amp _ (flip_lt (hc m (by omega)) hi), flipBit]
        congr 1
        rw [Nat.xor_assoc, Nat.xor_comm (2 ^ _)]
      · exact ⟨e1, rfl, h2.n, h2.rgp, h2.doNorm, h2.floor, fun i hi => by rw [h2.amp i hi]; simp⟩
  exact key _ le_rfl

theorem xAll_applies {σ : List ℕ → List ℕ} (hσ : IsSched σ) {e : Eng} (hn : e.n ≤ 64)
    {controls : List ℕ} (hnd : controls.Nodup) (hb : ∀ c ∈ controls, c < e.n) :
    ∃ e', controls.foldlM (fun e c => gateX σ e c) e = some e' ∧
      Applies e e' (fun s i => s (i ^^^ cmask controls controls.length (2 ^ controls.length - 1))) := by
  obtain ⟨e', h1, h2⟩ := foldlM_applies (G := fun e q => gateX σ e q)
    (f := fun q s i => s (flipBit q i)) e.n e.rgp
    (fun e1 q h1 _ h3 => gateX_applies hσ (by omega) (by omega))
    (fun q hq s s' h i hi => h _ (flip_lt hq hi)) controls hb e rfl rfl
  refine ⟨e', h1, h2.n, h2.rgp, h2.doNorm, h2.floor, fun i hi => ?_⟩
  rw [h2.amp i hi, foldl_flip]
  congr 1
  have h : ∀ l : List ℕ, l.Nodup → ∀ k,
      (l.foldr (fun q i => flipBit q i) i).testBit k = (i.testBit k ^^ decide (k ∈ l)) := by
    intro l
    induction l with
    | nil => intro _ k; simp
    | cons q l ih =>
      intro hl k
      obtain ⟨h1, h2⟩ := List.nodup_cons.1 hl
      rw [List.foldr_cons, flipBit, Nat.testBit_xor, ih h2, Nat.testBit_two_pow]
      by_cases hk : q = k
      · subst hk; simp [h1]
      · have : k ≠ q := fun h => hk h.symm
        simp [hk, this]
  apply Nat.eq_of_testBit_eq
  intro k
  rw [h _ hnd, Nat.testBit_xor]
  congr 1
  by_cases hk : k ∈ controls
  · obtain ⟨j, hj, rfl⟩ := List.getElem_of_mem hk
    rw [cmask_testBit hnd _ _ le_rfl j hj, Nat.testBit_two_pow_sub_one]
    simp [hj]
  · rw [cmask_testBit_notMem _ k hk _ le_rfl]; simp [hk]

theorem pushApart_isMatrixIndex {ps : List ℕ} (hs : ps.Pairwise (· < ·)) {v d val : ℕ} (hv : v < 2 ^ d)
    (hw : d + ps.length ≤ 128) : IsMatrixIndex ps val v (pushApart 128 v (ps.map pow2) ||| val) := by
  intro k
  rw [Nat.testBit_or]
  congr 1
  exact pushApart_bits (w := 128) hs hv hw k

/-- The generic gate sequence (toggle the controls with X, one multiply-controlled gate per control
value) implements the same operator as the engine's loop. -/
theorem uniformlyControlledDefault_gate {σ : List ℕ → List ℕ} (hσ : IsSched σ) {e : Eng} (hn : e.n ≤ 64)
    {controls : List ℕ} (hne : controls ≠ []) {t : ℕ} (hnd : (controls ++ [t]).Nodup)
    (hb : ∀ k ∈ controls ++ [t], k < e.n) (hfl : e.doNorm = false ∨ e.floor ≤ 0) (ms : ℕ → M2)
    {ps : List ℕ} (hps : ps.Pairwise (· < ·)) (hw : controls.length + ps.length ≤ 128) (val : ℕ) :
    ∃ e', uniformlyControlledDefault σ e controls t ms (ps.map pow2) val = some e' ∧ e'.n = e.n ∧
      ∀ i < 2 ^ e.n, ∀ v idx, IsCtrlValue controls i v → IsMatrixIndex ps val v idx →
        e'.amp i = gate (fun _ => True) t (ms idx).a (ms idx).b (ms idx).c (ms idx).d e.amp i := by
  have htn : t < e.n := hb t (by simp)
  have hcn := (List.nodup_append.1 hnd).1
  have hcb : ∀ c ∈ controls, c < e.n := fun c hc => hb c (by simp [hc])
  have htc : t ∉ controls := fun h => (List.nodup_append.1 hnd).2.2 t h t (by simp) rfl
  set k := controls.length with hk
  set full := 2 ^ k - 1 with hfull
  have hpk : 0 < 2 ^ k := by positivity
  let idx : ℕ → ℕ := fun v => pushApart 128 v (ps.map pow2) ||| val
  let cv : ℕ → ℕ := ctrlOffset controls
  have hcv : ∀ i, IsCtrlValue controls i (cv i) := ctrlOffset_isCtrlValue controls
  let G : ℕ → ℂ := fun j => gate (fun _ => True) t (ms (idx (cv j))).a (ms (idx (cv j))).b
    (ms (idx (cv j))).c (ms (idx (cv j))).d e.amp j
  let S : ℕ → ℕ → ℂ := fun L j => if cv j < L then G j else e.amp j
  let M : ℕ → ℕ := fun L => cmask controls k (L ^^^ full)
  have hfl2 : full < 2 ^ k := by omega
  have hMlt : ∀ L, M L < 2 ^ e.n := fun L => cmask_lt hcb _
  have hMt : ∀ L, (M L).testBit t = false := fun L => cmask_testBit_notMem _ t htc _ le_rfl
  have hcvx : ∀ L i, L < 2 ^ k → cv (i ^^^ M L) = cv i ^^^ (L ^^^ full) := by
    intro L i hL
    exact (hcv _).unique (isCtrlValue_xor hcn (hcv i) (Nat.xor_lt_two_pow hL hfl2))
  have hcvf : ∀ i, cv (flipBit t i) = cv i := by
    intro i
    refine (hcv _).unique ⟨(hcv i).1, fun j hj => ?_⟩
    rw [(hcv i).2 j hj, testBit_flip]
    have : controls[j] ≠ t := fun h' => htc (h' ▸ List.getElem_mem hj)
    simp [this]
  -- one multiply-controlled gate
  have hgate : ∀ (L : ℕ) (f : Eng), L < 2 ^ k → f.n = e.n → f.doNorm = e.doNorm → f.floor = e.floor →
      (∀ i < 2 ^ e.n, f.amp i = S L (i ^^^ M L)) →
      ∃ f', eitherMtrx σ f controls (ms (idx L)) t false = some f' ∧ f'.n = e.n ∧
        f'.doNorm = e.doNorm ∧ f'.floor = e.floor ∧
        ∀ i < 2 ^ e.n, f'.amp i = S (L + 1) (i ^^^ M L) := by
    intro L f hL h1 h2 h3 h4
    obtain ⟨f', h5, h6, h7⟩ := eitherMtrx_gate hσ (e := f) (by rw [h1]; exact hn)
      (by rw [h2, h3]; exact hfl) hne (ms (idx L)) hnd (by rw [h1]; exact hb) false
    obtain ⟨-, -, m3, m4⟩ := eitherMtrx_meta h5
    refine ⟨f', h5, h6.trans h1, m3.trans h2, m4.trans h3, fun i hi => ?_⟩
    rw [h7 i (by rw [h1]; exact hi)]
    set j := i ^^^ M L with hj
    have hall : AllAre (!false) controls i ↔ cv j = L := by
      rw [hj, hcvx L i hL]
      have e1 : cv i = full ↔ AllAre (!false) controls i := by
        constructor
        · intro h c hc
          obtain ⟨q, hq, rfl⟩ := List.getElem_of_mem hc
          rw [← (hcv i).2 q hq, h, hfull, Nat.testBit_two_pow_sub_one]
          simpa using hq
        · intro h
          refine (hcv i).unique ⟨hfl2, fun q hq => ?_⟩
          rw [h _ (List.getElem_mem hq), hfull, Nat.testBit_two_pow_sub_one]
          simpa using hq
      rw [← e1]
      constructor
      · intro h; rw [h]
        rw [Nat.xor_comm L, ← Nat.xor_assoc]; simp
      · intro h
        have := congrArg (· ^^^ (L ^^^ full)) h
        simp only [Nat.xor_assoc, Nat.xor_self, Nat.xor_zero] at this
        rw [this, ← Nat.xor_assoc]; simp
    have hfj : flipBit t i ^^^ M L = flipBit t j := by
      rw [hj]; unfold flipBit; ac_rfl
    have hjt : j.testBit t = i.testBit t := by
      rw [hj, Nat.testBit_xor, hMt]; simp
    unfold gate
    rw [h4 i hi, h4 _ (flip_lt htn hi), hfj, ← hj]
    by_cases hc : cv j = L
    · rw [if_pos (hall.2 hc)]
      have s1 : S L j = e.amp j := by simp [S, hc]
      have s2 : S L (flipBit t j) = e.amp (flipBit t j) := by simp [S, hcvf, hc]
      have s3 : S (L + 1) j = G j := by simp [S, hc]
      rw [s1, s2, s3]
      simp only [G, gate, if_true, hc, hjt]
    · rw [if_neg (fun h => hc (hall.1 h))]
      simp only [S]
      have : (cv j < L + 1) ↔ cv j < L := by omega
      simp only [this]
  -- the loop
  have hloop : ∀ L ≤ full, ∀ f : Eng, f.n = e.n → f.doNorm = e.doNorm → f.floor = e.floor →
      (∀ i < 2 ^ e.n, f.amp i = S 0 (i ^^^ M 0)) →
      ∃ f', (List.range L).foldlM (fun e lcv =>
        (eitherMtrx σ e controls (ms (idx lcv)) t false).bind (toggle σ controls (lcv ^^^ (lcv + 1)))) f =
          some f' ∧ f'.n = e.n ∧ f'.doNorm = e.doNorm ∧ f'.floor = e.floor ∧
        ∀ i < 2 ^ e.n, f'.amp i = S L (i ^^^ M L) := by
    intro L
    induction L with
    | zero => intro _ f h1 h2 h3 h4; exact ⟨f, rfl, h1, h2, h3, h4⟩
    | succ L ih =>
      intro hL f h1 h2 h3 h4
      obtain ⟨f1, g1, g2, g3, g4, g5⟩ := ih (by omega) f h1 h2 h3 h4
      obtain ⟨f2, k1, k2, k3, k4, k5⟩ := hgate L f1 (by omega) g2 g3 g4 g5
      obtain ⟨f3, l1, l2⟩ := toggle_applies hσ (e := f2) (by rw [k2]; exact hn) hcn
        (by rw [k2]; exact hcb) (L ^^^ (L + 1))
      rw [List.range_succ, List.foldlM_append, g1]
      simp only [List.foldlM_cons, List.foldlM_nil, Option.bind_eq_bind, Option.bind_some, Option.pure_def]
      refine ⟨f3, ?_, l2.n.trans k2, l2.doNorm.trans k3, l2.floor.trans k4, fun i hi => ?_⟩
      · rw [k1, Option.bind_some, l1]; rfl
      · rw [l2.amp i (by rw [k2]; exact hi), k5 _ (Nat.xor_lt_two_pow hi (cmask_lt hcb _))]
        congr 1
        rw [Nat.xor_assoc]
        congr 1
        simp only [M]
        rw [← cmask_xor]
        congr 1
        rw [Nat.xor_comm L (L + 1), Nat.xor_assoc, ← Nat.xor_assoc L L]; simp
  obtain ⟨f0, a1, a2⟩ := xAll_applies hσ hn hcn hcb
  obtain ⟨f1, b1, b2, b3, b4, b5⟩ := hloop full le_rfl f0 a2.n a2.doNorm a2.floor (by
    intro i hi
    rw [a2.amp i hi]
    simp only [S, M, Nat.zero_xor, Nat.not_lt_zero, if_false]
    rfl)
  obtain ⟨f2, c1, c2, c3, c4, c5⟩ := hgate full f1 hfl2 b2 b3 b4 b5
  refine ⟨f2, ?_, c2, fun i hi v ix hv hix => ?_⟩
  · unfold uniformlyControlledDefault
    dsimp only
    rw [a1, Option.bind_some]
    have := b1
    simp only [idx] at this
    rw [this, Option.bind_some]
    exact c1
  · rw [c5 i hi]
    have hM : M full = 0 := by
      simp only [M, Nat.xor_self]
      apply Nat.eq_of_testBit_eq
      intro q
      by_cases hq : q ∈ controls
      · obtain ⟨j, hj, rfl⟩ := List.getElem_of_mem hq
        rw [cmask_testBit hcn _ _ le_rfl j hj]; simp
      · rw [cmask_testBit_notMem _ q hq _ le_rfl]; simp
    rw [hM, Nat.xor_zero]
    have h1 : cv i < full + 1 := by have := (hcv i).1; rw [← hk] at this; omega
    simp only [S, h1, if_true, G]
    have h2 := (hcv i).unique hv
    have h3 : idx v = ix := (pushApart_isMatrixIndex hps hv.1 (val := val) hw).unique hix
    rw [h2, h3]

/-- Non-vacuity: two controls, one skipped position. -/
example : IsCtrlValue [2, 0] 0b001 0b10 ∧ IsMatrixIndex [1] 0b010 0b10 0b110 ∧
    ([2, 0] ++ [1]).Nodup := by
  refine ⟨⟨by decide, by decide⟩, ?_, by decide⟩
  intro k
  match k with
  | 0 => decide
  | 1 => decide
  | 2 => decide
  | k + 3 =>
    have h1 : (0b110 : ℕ).testBit (k + 3) = false := by
      apply (lt_two_pow_iff_testBit (n := 3)).1 (by norm_num); omega
    have h2 : (0b010 : ℕ).testBit (k + 3) = false := by
      apply (lt_two_pow_iff_testBit (n := 3)).1 (by norm_num); omega
    have h3 : below [1] (k + 3) = 1 := by simp [below]
    have h4 : (0b10 : ℕ).testBit (k + 3 - 1) = false := by
      apply (lt_two_pow_iff_testBit (n := 2)).1 (by norm_num); omega
    rw [h1, h2, h3, h4]
    simp

end Verif.Engine
