import Verif.Model.PagerJoin
import Verif.Props.Pager
import Verif.Props.Rotate
import Verif.Props.EngineCompose

/-!
Helper lemmas for joining and splitting paged registers.
-/

namespace Verif.Pager

open Verif.Engine Verif.ParFor Verif.Bits Verif.Spec Verif.Circ Classical

/-- The page size that `SetQubitCount` asks for. -/
def Based (thr : ℕ) (p : Pager) : Prop := p.base = if p.n < thr then p.n else thr

/-- A page that passes the test has only zeros. -/
def ZeroTest (z : Eng → Bool) : Prop := ∀ e, z e = true → ∀ i < 2 ^ e.n, e.amp i = 0

/-! ### Runs of swaps -/

/-- The swaps of a program are between qubits that `Swap` handles right. -/
def SwapsOk (n base : ℕ) (ops : List Circ.Op) : Prop := ∀ o ∈ ops, ∃ a b, o = .swap a b ∧ a < n ∧ b < n ∧ SwapOk base a b

theorem runSwaps_holds {σ : List ℕ → List ℕ} (hσ : IsSched σ) : ∀ (ops : List Circ.Op) {p : Pager} {q : ℕ} {s : ℕ → ℂ},
    Holds p q s → SwapsOk p.n p.base ops → ∃ p' q' s', runSwaps σ ops p = some p' ∧ p'.n = p.n ∧ p'.base = p.base ∧
      Holds p' q' s' ∧ ∀ i, s' (act ops i) = s i := by
  intro ops
  induction ops with
  | nil => intro p q s h _; exact ⟨p, q, s, rfl, rfl, rfl, h, fun i => rfl⟩
  | cons o ops ih =>
    intro p q s h hok
    obtain ⟨a, b, rfl, ha, hb, hab⟩ := hok o (by simp)
    obtain ⟨p1, q1, k1, k2, k3, k4⟩ := pSwap_holds hσ h ha hb hab
    obtain ⟨p2, q2, s2, l1, l2, l3, l4, l5⟩ := ih k4 (by
      intro o ho
      rw [k2, k3]
      exact hok o (by simp [ho]))
    refine ⟨p2, q2, s2, ?_, by omega, by omega, l4, fun i => ?_⟩
    · unfold runSwaps at l1 ⊢
      rw [List.foldlM_cons]
      show (pSwap σ p a b >>= _) = _
      rw [k1]
      exact l1
    · rw [act_cons, l5, exchange_swap]
      show s (swapBits a b (swapBits a b i)) = s i
      rw [swapBits_invol]

theorem reverse_swaps {n base : ℕ} (h8 : n ≤ base + 8) : ∀ (k first last : ℕ), last - first ≤ k → last ≤ n →
    SwapsOk n base (Circ.reverse first last) := by
  intro k
  induction k with
  | zero =>
    intro first last hk hl o ho
    rw [Circ.reverse, if_neg (by omega)] at ho
    simp at ho
  | succ k ih =>
    intro first last hk hl o ho
    rw [Circ.reverse] at ho
    split_ifs at ho with hc
    · rcases List.mem_cons.1 ho with rfl | ho
      · exact ⟨first, last - 1, rfl, by omega, by omega, by unfold SwapOk; omega⟩
      · exact ih _ _ (by omega) (by omega) o ho
    · simp at ho

theorem rol_swaps {n base shift start len : ℕ} (h8 : n ≤ base + 8) (h : start + len ≤ n) :
    SwapsOk n base (rol shift start len) := by
  intro o ho
  unfold rol at ho
  split_ifs at ho with h1 h2
  · simp at ho
  · simp at ho
  · have hd := Nat.mod_lt shift (show 0 < len by omega)
    simp only [List.mem_append] at ho
    rcases ho with (ho | ho) | ho
    · exact reverse_swaps h8 _ _ _ le_rfl h o ho
    · exact reverse_swaps h8 _ _ _ le_rfl (by omega) o ho
    · exact reverse_swaps h8 _ _ _ le_rfl h o ho

theorem ror_swaps {n base shift start len : ℕ} (h8 : n ≤ base + 8) (h : start + len ≤ n) :
    SwapsOk n base (ror shift start len) := by
  intro o ho
  unfold ror at ho
  split_ifs at ho with h1 h2
  · simp at ho
  · simp at ho
  · have hd := Nat.mod_lt shift (show 0 < len by omega)
    simp only [List.mem_append] at ho
    rcases ho with (ho | ho) | ho
    · exact reverse_swaps h8 _ _ _ le_rfl h o ho
    · exact reverse_swaps h8 _ _ _ le_rfl (by omega) o ho
    · exact reverse_swaps h8 _ _ _ le_rfl h o ho

/-- Rotation of the whole register to the left: the state at `j` is what was at the `i` that rotates to `j`. -/
theorem rol_all {n sh i : ℕ} (hs : sh ≤ n) (hi : i < 2 ^ n) (hn : 0 < n) :
    act (rol sh 0 n) i = i / 2 ^ (n - sh) + 2 ^ sh * (i % 2 ^ (n - sh)) := by
  refine isRol_unique (act_rol sh 0 n i) ⟨fun j hj => ?_, fun k hk => ?_⟩
  · have hd : i / 2 ^ (n - sh) < 2 ^ sh := by
      have := div_lt' (q := n - sh) (n := n) (by omega) hi
      rwa [show n - (n - sh) = sh by omega] at this
    rw [Nat.zero_add, Nat.zero_add, Nat.add_comm (i / 2 ^ (n - sh)), testBit_at hd]
    by_cases hlt : j + sh < n
    · rw [Nat.mod_eq_of_lt hlt, if_neg (by omega), Nat.testBit_mod_two_pow, Nat.add_sub_cancel]
      simp [show j < n - sh by omega]
    · by_cases hsn : sh = n
      · subst hsn
        rw [Nat.add_mod_right, Nat.mod_eq_of_lt hj, if_pos hj, Nat.sub_self, pow_zero, Nat.div_one]
      · rw [Nat.mod_eq_sub_mod (by omega), Nat.mod_eq_of_lt (by omega), if_pos (by omega), Nat.testBit_div_two_pow]
        congr 1
        omega
  · have hk : n ≤ k := by omega
    have hlt : i / 2 ^ (n - sh) + 2 ^ sh * (i % 2 ^ (n - sh)) < 2 ^ n := by
      have hd : i / 2 ^ (n - sh) < 2 ^ sh := by
        have := div_lt' (q := n - sh) (n := n) (by omega) hi
        rwa [show n - (n - sh) = sh by omega] at this
      rw [Nat.add_comm]
      exact at_lt hs (Nat.mod_lt _ (by positivity)) hd
    rw [Nat.testBit_lt_two_pow (lt_of_lt_of_le hlt (Nat.pow_le_pow_right (by norm_num) hk)),
      Nat.testBit_lt_two_pow (lt_of_lt_of_le hi (Nat.pow_le_pow_right (by norm_num) hk))]

theorem ror_all {n sh i : ℕ} (hs : sh ≤ n) (hi : i < 2 ^ n) (hn : 0 < n) :
    act (ror sh 0 n) i = i / 2 ^ sh + 2 ^ (n - sh) * (i % 2 ^ sh) := by
  have hd : i / 2 ^ sh < 2 ^ (n - sh) := div_lt' hs hi
  have hm : i % 2 ^ sh < 2 ^ sh := Nat.mod_lt _ (by positivity)
  have hlt : i / 2 ^ sh + 2 ^ (n - sh) * (i % 2 ^ sh) < 2 ^ n := by
    rw [Nat.add_comm]
    exact at_lt (by omega) (by rw [show n - (n - sh) = sh by omega]; exact hm) hd
  have h := rol_all hs hlt hn
  have e1 : (i / 2 ^ sh + 2 ^ (n - sh) * (i % 2 ^ sh)) / 2 ^ (n - sh) = i % 2 ^ sh := by
    rw [Nat.add_mul_div_left _ _ (by positivity), Nat.div_eq_of_lt hd, Nat.zero_add]
  have e2 : (i / 2 ^ sh + 2 ^ (n - sh) * (i % 2 ^ sh)) % 2 ^ (n - sh) = i / 2 ^ sh := by
    rw [Nat.add_mul_mod_self_left, Nat.mod_eq_of_lt hd]
  rw [e1, e2, Nat.mod_add_div] at h
  rw [← (ror_rol_cancel sh 0 n (i / 2 ^ sh + 2 ^ (n - sh) * (i % 2 ^ sh))).1, h]

/-! ### Regrouping -/

theorem combine_rebase (p : Pager) (bit b : ℕ) :
    combineEngines { p with base := b } bit = (combineEngines p bit).map fun p' => { p' with base := b } := by
  unfold combineEngines
  dsimp only
  have e1 : Pager.pageMax { p with base := b } = p.pageMax := rfl
  have e2 : Pager.qpp { p with base := b } = p.qpp := rfl
  rw [e1, e2]
  generalize (if p.n < bit then p.n else bit) = bt
  by_cases hc : bt ≤ p.qpp
  · rw [if_pos hc, if_pos hc]; rfl
  · rw [if_neg hc, if_neg hc, Option.map_map]; rfl

/-- `regroup` from any page size gives the page size that `SetQubitCount` asked for. -/
theorem regroup_holds {thr n : ℕ} {p : Pager} {q : ℕ} {s : ℕ → ℂ} (ht : 1 ≤ thr) (h : Holds { p with n := n, base := 1 } q s) :
    ∃ p', regroup thr (setQubitCount thr p n) = some p' ∧ p'.n = n ∧ Based thr p' ∧ Holds p' p'.base s := by
  have hpos := h.pos
  have hqn : q ≤ n := h.le
  obtain ⟨p1, q1, k1, k2, k3, k4, k5⟩ := combine_holds h thr
  have k2 : p1.n = n := k2
  have k3 : p1.base = 1 := k3
  have k5 : q1 = max q (min thr n) := k5
  have hc : combineEngines (setQubitCount thr p n) thr =
      some { p1 with base := if n < thr then n else thr } := by
    have := combine_rebase { p with n := n, base := 1 } thr (if n < thr then n else thr)
    rw [k1] at this
    exact this
  have hb : (if n < thr then n else thr) = min thr n := by
    by_cases hc : n < thr
    · rw [if_pos hc]; omega
    · rw [if_neg hc]; omega
  have H : Holds { p1 with base := if n < thr then n else thr } q1 s :=
    ⟨k4.pos, k4.le, k4.word, by show 1 ≤ (if n < thr then n else thr); rw [hb]; omega,
      by show (if n < thr then n else thr) ≤ q1; rw [hb, k5]; omega, k4.count, k4.pages⟩
  obtain ⟨p2, l1, l2, l3, l4⟩ := toBase H
  have l2 : p2.n = p1.n := l2
  refine ⟨p2, ?_, by omega, ?_, by rw [l3]; exact l4⟩
  · unfold regroup
    rw [hc]
    exact l1
  · unfold Based
    rw [l3, l2, k2]

/-! ### Composing page by page -/

/-- No page of `toCopy` is released before the last of its amplitudes is read. -/
theorem released_safe (t maxI i : ℕ) : i / 2 ^ t ∉ released (2 ^ t) t maxI i := by
  have hp : 0 < 2 ^ t := by positivity
  have inv : ∀ K, ∃ c, ((List.range K).foldl (releaseStep (2 ^ t) t) (2 ^ t, [])).1 = 2 ^ t * (c + 1) ∧
      K ≤ 2 ^ t * (c + 1) ∧ 2 ^ t * c ≤ K - 1 ∧
      ∀ r ∈ ((List.range K).foldl (releaseStep (2 ^ t) t) (2 ^ t, [])).2, r < c := by
    intro K
    induction K with
    | zero => exact ⟨0, by simp, by simp, by simp, by simp⟩
    | succ K ih =>
      obtain ⟨c, h1, h2, h3, h4⟩ := ih
      rw [List.range_succ, List.foldl_append]
      generalize (List.range K).foldl (releaseStep (2 ^ t) t) (2 ^ t, []) = st at h1 h4 ⊢
      obtain ⟨o, rel⟩ := st
      simp only at h1 h4
      subst h1
      show ∃ c', (releaseStep (2 ^ t) t (2 ^ t * (c + 1), rel) K).1 = _ ∧ _ ∧ _ ∧
        ∀ r ∈ (releaseStep (2 ^ t) t (2 ^ t * (c + 1), rel) K).2, r < c'
      unfold releaseStep
      by_cases hK : K = 2 ^ t * (c + 1)
      · rw [if_pos hK]
        have e : 2 ^ t * (c + 1) - 2 ^ t = 2 ^ t * c := by rw [Nat.mul_succ]; omega
        refine ⟨c + 1, ?_, ?_, by omega, ?_⟩
        · simp only [e, Nat.shiftLeft_eq]; ring
        · rw [Nat.mul_succ]; omega
        · intro r hr
          simp only [e, Nat.shiftRight_eq_div_pow, Nat.mul_div_cancel_left _ hp] at hr
          rcases List.mem_cons.1 hr with rfl | hr
          · omega
          · have := h4 r hr; omega
      · rw [if_neg hK]
        exact ⟨c, rfl, by omega, by omega, h4⟩
  unfold released
  obtain ⟨c, -, -, h3, h4⟩ := inv (min (i + 1) maxI)
  intro hm
  have h5 := h4 _ hm
  have h6 : c ≤ i / 2 ^ t := (Nat.le_div_iff_mul_le hp).2 (by rw [Nat.mul_comm]; omega)
  omega

theorem readCopy_eq {b : Pager} {q : ℕ} {v : ℕ → ℂ} (h : Holds b q v) (d : Bool) {i : ℕ} (hi : i < 2 ^ b.n) :
    readCopy b d i = some (v i) := by
  unfold readCopy
  rw [h.pageMax, h.qpp, if_neg (fun hc => released_safe _ _ _ hc.2)]
  exact (holds_iff.1 ⟨q, h⟩).2 i hi

theorem newPage_is {σ : List ℕ → List ℕ} (hσ : IsSched σ) {z : Eng → Bool} (hz : ZeroTest z) {p b : Pager} {q qb : ℕ}
    {a v : ℕ → ℂ} (h : Holds p q a) (hb : Holds b qb v) (d : Bool) {x : ℕ} (hx : x < 2 ^ b.n * 2 ^ (p.n - q)) :
    ∃ e, newPage σ z p b d x = some e ∧
      PageIs q e (fun y => a (2 ^ q * (x % 2 ^ (p.n - q)) + y) * v (x / 2 ^ (p.n - q))) := by
  have hi : x / 2 ^ (p.n - q) < 2 ^ b.n := Nat.div_lt_of_lt_mul (by rw [Nat.mul_comm]; exact hx)
  have hj : x % 2 ^ (p.n - q) < 2 ^ (p.n - q) := Nat.mod_lt _ (by positivity)
  unfold newPage
  simp only [h.count, h.qpp]
  rw [readCopy_eq hb d hi, Option.bind_some]
  by_cases hv : v (x / 2 ^ (p.n - q)) = 0
  · rw [if_pos hv]
    exact ⟨_, rfl, (makeEngine_is q).congr fun y _ => by simp [hv]⟩
  rw [if_neg hv]
  have P := h.pages _ hj
  by_cases hzz : z (p.page (x % 2 ^ (p.n - q))) = true
  · rw [if_pos hzz]
    refine ⟨_, rfl, (makeEngine_is q).congr fun y hy => ?_⟩
    have e1 := hz _ hzz y (by rw [P.n]; exact hy)
    have e2 := P.amp y hy
    simp only at e2 ⊢
    rw [← e2, e1, zero_mul]
  · rw [if_neg hzz]
    obtain ⟨e, k1, k2⟩ := setPage_is (makeEngine_is q) P (so := 0) (d := 0) (len := 2 ^ q) (by omega) (by omega)
    rw [k1, Option.bind_some]
    obtain ⟨e', l1, l2⟩ := scale_acts hσ h.pos h.word' (v (x / 2 ^ (p.n - q))) e _ k2
    refine ⟨e', l1, l2.congr fun y hy => ?_⟩
    simp only
    rw [if_pos ⟨Nat.zero_le _, by omega⟩, mul_comm]
    rfl

/-- The tensor product at the top of a register. -/
theorem tensor_top {n m i : ℕ} (A B : ℕ → ℂ) (hi : i < 2 ^ (n + m)) : tensorAt n m A B i = A (i % 2 ^ n) * B (i / 2 ^ n) := by
  unfold tensorAt
  rw [rest_top hi]
  unfold field
  rw [Nat.mod_eq_of_lt (a := i / 2 ^ n)]
  exact Nat.div_lt_of_lt_mul (by rw [← pow_add]; exact hi)

/-- The branch of `ComposeEither` that makes the pages. -/
theorem composeBig_holds {σ : List ℕ → List ℕ} (hσ : IsSched σ) {z : Eng → Bool} (hz : ZeroTest z) {p b : Pager} {q qb : ℕ}
    {a v : ℕ → ℂ} (h : Holds p q a) (hb : Holds b qb v) (d : Bool) {thr : ℕ} (ht : 1 ≤ thr) (h64 : p.n + b.n ≤ 64) :
    ∃ p', ((List.range (2 ^ b.n * p.count)).mapM (newPage σ z p b d)).bind (fun l =>
        (regroup thr (setQubitCount thr { p with count := l.length, page := fun i => l.getD i (makeEngine p.qpp) }
          (p.n + b.n))).map fun p' => (p', b, p.n)) = some (p', b, p.n) ∧ p'.n = p.n + b.n ∧ Based thr p' ∧
      Holds p' p'.base (tensorAt p.n b.n a v) := by
  have hqn := h.le
  obtain ⟨ys, g1, g2, g3⟩ := mapM_range (m := 2 ^ b.n * p.count) (makeEngine p.qpp) (f := newPage σ z p b d)
    (fun x e => PageIs q e (fun y => a (2 ^ q * (x % 2 ^ (p.n - q)) + y) * v (x / 2 ^ (p.n - q))))
    (fun x hx => newPage_is hσ hz h hb d (by rw [← h.count]; exact hx))
  have hcount : 2 ^ b.n * p.count = 2 ^ (p.n + b.n - q) := by
    rw [h.count, ← pow_add]; congr 1; omega
  have H : Holds { ({ p with count := ys.length, page := fun i => ys.getD i (makeEngine p.qpp) } : Pager) with
      n := p.n + b.n, base := 1 } q (tensorAt p.n b.n a v) := by
    refine ⟨h.pos, by show q ≤ p.n + b.n; omega, h64, le_rfl, h.pos, by show ys.length = _; rw [g2, hcount], fun k hk => ?_⟩
    have hk' : k < 2 ^ (p.n + b.n - q) := hk
    refine (g3 k (by rw [hcount]; exact hk')).congr fun y hy => ?_
    have hlt : 2 ^ q * k + y < 2 ^ (p.n + b.n) := at_lt (by omega) hk' hy
    rw [tensor_top _ _ hlt]
    have hpn : 2 ^ p.n = 2 ^ q * 2 ^ (p.n - q) := by rw [← pow_add]; congr 1; omega
    have e1 : (2 ^ q * k + y) / 2 ^ p.n = k / 2 ^ (p.n - q) := by
      rw [hpn, ← Nat.div_div_eq_div_mul, Nat.mul_add_div (by positivity), Nat.div_eq_of_lt hy, Nat.add_zero]
    have e2 : (2 ^ q * k + y) % 2 ^ p.n = 2 ^ q * (k % 2 ^ (p.n - q)) + y := by
      rw [hpn, Nat.mod_mul, Nat.mul_add_mod, Nat.mod_eq_of_lt hy, Nat.mul_add_div (by positivity), Nat.div_eq_of_lt hy,
        Nat.add_zero, Nat.add_comm]
    rw [e1, e2]
  obtain ⟨p', k1, k2, k3, k4⟩ := regroup_holds ht H
  refine ⟨p', ?_, k2, k3, k4⟩
  rw [g1, Option.bind_some, k1]
  rfl

theorem sizes {thr : ℕ} {p : Pager} (hb : Based thr p) : p.base = min thr p.n := by
  rw [hb]
  by_cases hc : p.n < thr
  · rw [if_pos hc]; omega
  · rw [if_neg hc]; omega

/-- All of `ComposeEither` but the exchange of the registers. -/
theorem composeCore_holds {maxQb maxCpu thr : ℕ} {σ : List ℕ → List ℕ} (hσ : IsSched σ) {z : Eng → Bool} (hz : ZeroTest z)
    (fresh : ℕ → ℂ) {p b : Pager} {q qb : ℕ} {a v : ℕ → ℂ} (h : Holds p q a) (hb : Holds b qb v) (d : Bool) (ht : 1 ≤ thr)
    (hm : p.n + b.n ≤ maxQb) (hc : thr ≤ maxCpu) (h64 : p.n + b.n ≤ 64) :
    ∃ p' b', composeCore maxQb maxCpu thr σ z fresh p b d = some (p', b', p.n) ∧ p'.n = p.n + b.n ∧ Based thr p' ∧
      Holds p' p'.base (tensorAt p.n b.n a v) ∧ b'.n = b.n ∧ b'.base = b.base ∧ ∃ qb', Holds b' qb' v := by
  have hb0 : b.n ≠ 0 := by have := hb.pos; have := hb.le; omega
  have hp0 : p.n ≠ 0 := by have := h.pos; have := h.le; omega
  unfold composeCore
  rw [if_neg hb0, if_neg (by omega)]
  by_cases hs : p.n + b.n ≤ thr
  · rw [if_pos hs]
    obtain ⟨p1, q1, k1, k2, k3, k4, k5⟩ := combine_holds h p.n
    obtain ⟨b1, r1, l1, l2, l3, l4, l5⟩ := combine_holds hb b.n
    have hq1 : q1 = p1.n := by have := h.le; omega
    have hr1 : r1 = b1.n := by have := hb.le; omega
    subst hq1 hr1
    have c1 : p1.count = 1 := by have := k4.count; simpa using this
    have c2 : b1.count = 1 := by have := l4.count; simpa using this
    rw [k1, Option.bind_some, l1, Option.bind_some, if_neg (by rw [c1, c2]; simp)]
    have P := k4.pages 0 (by simp)
    have B := l4.pages 0 (by simp)
    simp only [Nat.mul_zero, Nat.zero_add] at P B
    obtain ⟨r, m1, m2, m3⟩ := compose_tensor (maxQb := maxCpu) hσ fresh (a := p1.page 0) (b := b1.page 0)
      (by rw [P.n]; omega) (by rw [B.n]; omega) (by rw [P.n, B.n]; omega) (by rw [P.doNorm]; simp) (by rw [B.doNorm]; simp)
    have hfr : r.doNorm = false ∧ r.rgp = false := by
      unfold Engine.compose at m1
      rw [if_neg (by rw [B.n]; omega), if_neg (by rw [P.n, B.n]; omega), if_neg (by rw [P.n]; omega)] at m1
      simp only [] at m1
      rw [normIf_ready (by rw [P.doNorm]; simp)] at m1
      have := (Prod.mk.inj (Option.some.inj m1)).1
      rw [← this]
      exact ⟨P.doNorm, P.rgp⟩
    rw [m1]
    have hpn : (p1.page 0).n = p.n := by rw [P.n, k2]
    refine ⟨setQubitCount thr { p1 with page := Function.update p1.page 0 r } (p.n + b.n),
      { b1 with page := Function.update b1.page 0 (b1.page 0) }, ?_, rfl, rfl, ?_, l2, l3, b1.n, ?_⟩
    · rw [hpn]; rfl
    · have hbase : (setQubitCount thr { p1 with page := Function.update p1.page 0 r } (p.n + b.n)).base = p.n + b.n := by
        unfold setQubitCount
        dsimp only
        by_cases hc' : p.n + b.n < thr
        · rw [if_pos hc']
        · rw [if_neg hc']; omega
      rw [hbase]
      refine ⟨by omega, le_rfl, h64, by rw [hbase]; omega, by rw [hbase], ?_, ?_⟩
      · show p1.count = 2 ^ (p.n + b.n - (p.n + b.n))
        rw [c1, Nat.sub_self, pow_zero]
      · intro k hk
        have hk : k < 2 ^ (p.n + b.n - (p.n + b.n)) := hk
        rw [Nat.sub_self, pow_zero] at hk
        have hk0 : k = 0 := by omega
        subst hk0
        have hup : (setQubitCount thr { p1 with page := Function.update p1.page 0 r } (p.n + b.n)).page 0 = r := by
          show Function.update p1.page 0 r 0 = r
          rw [Function.update_self]
        rw [hup]
        refine ⟨by rw [m2, P.n, B.n, k2, l2], hfr.1, hfr.2, fun i hi => ?_⟩
        rw [m3 i (by rw [m2, P.n, B.n, k2, l2]; exact hi), P.n, B.n, k2, l2]
        simp only [Nat.mul_zero, Nat.zero_add]
        rw [tensor_top _ _ hi, tensor_top _ _ hi, P.amp _ (by rw [k2]; exact Nat.mod_lt _ (by positivity)),
          B.amp _ (by rw [l2]; exact Nat.div_lt_of_lt_mul (by rw [← pow_add]; exact hi))]
    · refine l4.update rfl rfl rfl fun k hk => ?_
      rw [Nat.sub_self, pow_zero] at hk
      have hk0 : k = 0 := by omega
      subst hk0
      show PageIs _ (Function.update b1.page 0 (b1.page 0) 0) _
      rw [Function.update_self]
      exact l4.pages 0 (by simp)
  · rw [if_neg hs]
    obtain ⟨p', k1, k2, k3, k4⟩ := composeBig_holds hσ hz h hb d ht h64
    exact ⟨p', b, k1, k2, k3, k4, rfl, rfl, qb, hb⟩

theorem field_lt' (s l i : ℕ) : field s l i < 2 ^ l := Nat.mod_lt _ (by positivity)

/-- The exchange of the two halves of the register by a rotation. -/
theorem rotate_tensor {n m : ℕ} (hn : 0 < n) {A B s' : ℕ → ℂ} (h : ∀ i, s' (act (ror m 0 (m + n)) i) = tensorAt m n B A i) :
    SameOn (n + m) s' (tensorAt n m A B) := by
  intro j hj
  rw [Nat.add_comm] at hj
  have hl := rol_all (n := m + n) (sh := m) (by omega) hj (by omega)
  have hlt := act_lt (rol_ok (shift := m) (start := 0) (len := m + n) (n := m + n) (by omega)) hj
  have e := h (act (rol m 0 (m + n)) j)
  rw [(ror_rol_cancel m 0 (m + n) j).1] at e
  rw [e, tensor_top _ _ hlt, tensor_top _ _ (by rw [Nat.add_comm]; exact hj), hl]
  have hnn : m + n - m = n := by omega
  rw [hnn]
  have hd : j / 2 ^ n < 2 ^ m := Nat.div_lt_of_lt_mul (by rw [← pow_add, Nat.add_comm]; exact hj)
  rw [Nat.add_mul_mod_self_left, Nat.mod_eq_of_lt hd, Nat.add_mul_div_left _ _ (by positivity), Nat.div_eq_of_lt hd,
    Nat.zero_add, mul_comm]

/-- `Compose` and `ComposeNoClone`. -/
theorem composeEither_holds {maxQb maxCpu thr : ℕ} {σ : List ℕ → List ℕ} (hσ : IsSched σ) {z : Eng → Bool} (hz : ZeroTest z)
    (fresh : ℕ → ℂ) {p b : Pager} {q qb : ℕ} {a v : ℕ → ℂ} (h : Holds p q a) (hb : Holds b qb v) (d : Bool) (ht : 1 ≤ thr)
    (hm : p.n + b.n ≤ maxQb) (hc : thr ≤ maxCpu) (h64 : p.n + b.n ≤ 64) (h8 : p.n < b.n → p.n + b.n ≤ thr + 8) :
    ∃ p' b', composeEither maxQb maxCpu thr σ z fresh p b d = some (p', b', p.n) ∧ p'.n = p.n + b.n ∧ Based thr p' ∧
      (∃ q', Holds p' q' (tensorAt p.n b.n a v)) ∧ b'.n = b.n ∧ b'.base = b.base ∧ ∃ qb', Holds b' qb' v := by
  have hb0 : b.n ≠ 0 := by have := hb.pos; have := hb.le; omega
  have hp0 : p.n ≠ 0 := by have := h.pos; have := h.le; omega
  unfold composeEither
  by_cases hf : b.n ≠ 0 ∧ p.n + b.n ≤ maxQb ∧ thr < p.n + b.n ∧ p.n < b.n
  · rw [if_pos hf]
    have hclone : ∃ b', (if d = true then some b else separateEngines b b.base false) = some b' ∧ b'.n = b.n ∧
        b'.base = b.base ∧ ∃ qb', Holds b' qb' v := by
      by_cases hd : d = true
      · rw [if_pos hd]; exact ⟨b, rfl, rfl, rfl, qb, hb⟩
      · rw [if_neg hd]
        obtain ⟨b', k1, k2, k3, k4⟩ := toBase hb
        exact ⟨b', k1, k2, k3, _, k4⟩
    obtain ⟨b', k1, k2, k3, qb', k4⟩ := hclone
    rw [k1, Option.bind_some]
    obtain ⟨c, p1, l1, l2, l3, l4, -⟩ := composeCore_holds hσ hz fresh (maxQb := maxQb) (maxCpu := maxCpu) (thr := thr)
      k4 h false ht (by omega) hc (by omega)
    have hbase : c.base = thr := by rw [sizes l3, l2, k2]; omega
    have hrol : rol (b'.n - 0) 0 b'.n = [] := by
      unfold rol
      rw [Nat.sub_zero, Nat.mod_self]
      simp
    obtain ⟨c', q', s', m1, m2, m3, m4, m5⟩ := runSwaps_holds hσ (ror (b'.n - 0) 0 c.n) l4
      (ror_swaps (by rw [hbase, l2, k2]; omega) (by omega))
    have hcn : c'.n = p.n + b.n := by omega
    have S : SameOn (p.n + b.n) s' (tensorAt p.n b.n a v) := by
      refine rotate_tensor (by omega) fun i => ?_
      have := m5 i
      rw [Nat.sub_zero, l2, k2] at this
      exact this
    have hq : thr ≤ q' := by have := m4.base; omega
    have H : Holds (setQubitCount thr { p with count := c'.count, page := c'.page } (p.n + b.n)) q' (tensorAt p.n b.n a v) := by
      have hb' : (setQubitCount thr { p with count := c'.count, page := c'.page } (p.n + b.n)).base = thr := by
        unfold setQubitCount
        rw [if_neg (by omega)]
      refine ⟨m4.pos, ?_, h64, by rw [hb']; exact ht, by rw [hb']; exact hq, ?_, ?_⟩
      · have := m4.le; rw [hcn] at this; exact this
      · have := m4.count; rw [hcn] at this; exact this
      · have := (m4.congr (by rw [hcn]; exact S)).pages; rw [hcn] at this; exact this
    refine ⟨setQubitCount thr { p with count := c'.count, page := c'.page } (p.n + b.n), b', ?_, rfl, rfl, ?_, k2, k3, qb', k4⟩
    · unfold composeAround
      rw [if_neg (by omega), hrol]
      show Option.map _ (((some b').bind _)) = _
      rw [Option.bind_some]
      dsimp only
      rw [l1, Option.bind_some]
      dsimp only
      rw [m1]
      rfl
    · exact ⟨q', H⟩
  · rw [if_neg hf]
    obtain ⟨p', b', k1, k2, k3, k4, k5⟩ := composeCore_holds (maxQb := maxQb) hσ hz fresh h hb d ht hm hc h64
    exact ⟨p', b', k1, k2, k3, ⟨_, k4⟩, k5⟩

end Verif.Pager
