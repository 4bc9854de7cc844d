import Verif.Model.Circ
import Verif.Props.EngineUniform

/-!
Reversible-gate programs act as permutations of the basis states.
-/

namespace Verif.Circ

open Verif.Engine Verif.Spec Verif.Bits

/-- The permutation of basis states of one call. -/
def Op.act : Op → ℕ → ℕ
  | .x t, i => flipBit t i
  | .mcx cs t, i => if AllAre true cs i then flipBit t i else i
  | .macx cs t, i => if AllAre false cs i then flipBit t i else i
  | .swap a b, i => swapBits a b i
  | .cswap cs a b, i => if AllAre true cs i then swapBits a b i else i

/-- Basis state reached from `i` by a program. -/
def act (p : List Op) (i : ℕ) : ℕ := p.foldl (fun i o => o.act i) i

theorem act_nil (i : ℕ) : act [] i = i := rfl
theorem act_cons (o : Op) (p : List Op) (i : ℕ) : act (o :: p) i = act p (o.act i) := rfl
theorem act_append (p q : List Op) (i : ℕ) : act (p ++ q) i = act q (act p i) := by
  simp [act, List.foldl_append]

/-- Arguments accepted by the engine. -/
def Op.Ok (n : ℕ) : Op → Prop
  | .x t => t < n
  | .mcx cs t => (cs ++ [t]).Nodup ∧ ∀ k ∈ cs ++ [t], k < n
  | .macx cs t => (cs ++ [t]).Nodup ∧ ∀ k ∈ cs ++ [t], k < n
  | .swap a b => a < n ∧ b < n
  | .cswap cs a b => (cs ++ [a, b]).Nodup ∧ ∀ k ∈ cs ++ [a, b], k < n

theorem swapBits_lt {n a b i : ℕ} (ha : a < n) (hb : b < n) (hi : i < 2 ^ n) : swapBits a b i < 2 ^ n := by
  unfold swapBits
  split_ifs
  · exact hi
  · exact Nat.xor_lt_two_pow hi (Nat.xor_lt_two_pow (Nat.pow_lt_pow_right (by norm_num) ha)
      (Nat.pow_lt_pow_right (by norm_num) hb))

theorem swapBits_invol (a b i : ℕ) : swapBits a b (swapBits a b i) = i := by
  by_cases hab : a = b
  · subst hab; simp [swapBits]
  apply Nat.eq_of_testBit_eq
  intro k
  rw [testBit_swapBits, testBit_swapBits, testBit_swapBits, testBit_swapBits]
  split_ifs <;> first | rfl | (subst_vars; first | rfl | contradiction | simp_all)

theorem allAre_flip {v : Bool} {cs : List ℕ} {t i : ℕ} (h : t ∉ cs) :
    AllAre v cs (flipBit t i) ↔ AllAre v cs i := ignores_allAre h i

theorem allAre_swapBits {v : Bool} {cs : List ℕ} {a b i : ℕ} (ha : a ∉ cs) (hb : b ∉ cs) :
    AllAre v cs (swapBits a b i) ↔ AllAre v cs i := by
  unfold AllAre
  refine forall₂_congr fun c hc => ?_
  rw [testBit_swapBits]
  have h1 : c ≠ a := fun h => ha (h ▸ hc)
  have h2 : c ≠ b := fun h => hb (h ▸ hc)
  simp [h1, h2]

theorem Op.Ok.act_lt {n : ℕ} {o : Op} (h : o.Ok n) {i : ℕ} (hi : i < 2 ^ n) : o.act i < 2 ^ n := by
  cases o with
  | x t => exact flip_lt h hi
  | mcx cs t =>
    simp only [Op.act]; split_ifs
    · exact flip_lt (h.2 t (by simp)) hi
    · exact hi
  | macx cs t =>
    simp only [Op.act]; split_ifs
    · exact flip_lt (h.2 t (by simp)) hi
    · exact hi
  | swap a b => exact swapBits_lt h.1 h.2 hi
  | cswap cs a b =>
    simp only [Op.act]; split_ifs
    · exact swapBits_lt (h.2 a (by simp)) (h.2 b (by simp)) hi
    · exact hi

theorem notMem_of_nodup {cs : List ℕ} {t : ℕ} (h : (cs ++ [t]).Nodup) : t ∉ cs :=
  fun hc => (List.nodup_append.1 h).2.2 t hc t (by simp) rfl

theorem Op.Ok.act_invol {n : ℕ} {o : Op} (h : o.Ok n) (i : ℕ) : o.act (o.act i) = i := by
  cases o with
  | x t => exact flip_flip t i
  | mcx cs t =>
    have hn := notMem_of_nodup h.1
    by_cases hc : AllAre true cs i
    · have h1 : (Op.mcx cs t).act i = flipBit t i := if_pos hc
      rw [h1]; exact (if_pos ((allAre_flip hn).2 hc)).trans (flip_flip t i)
    · have h1 : (Op.mcx cs t).act i = i := if_neg hc
      rw [h1, h1]
  | macx cs t =>
    have hn := notMem_of_nodup h.1
    by_cases hc : AllAre false cs i
    · have h1 : (Op.macx cs t).act i = flipBit t i := if_pos hc
      rw [h1]; exact (if_pos ((allAre_flip hn).2 hc)).trans (flip_flip t i)
    · have h1 : (Op.macx cs t).act i = i := if_neg hc
      rw [h1, h1]
  | swap a b => exact swapBits_invol a b i
  | cswap cs a b =>
    have ha : a ∉ cs := fun hc => (List.nodup_append.1 h.1).2.2 a hc a (by simp) rfl
    have hb : b ∉ cs := fun hc => (List.nodup_append.1 h.1).2.2 b hc b (by simp) rfl
    by_cases hc : AllAre true cs i
    · have h1 : (Op.cswap cs a b).act i = swapBits a b i := if_pos hc
      rw [h1]; exact (if_pos ((allAre_swapBits ha hb).2 hc)).trans (swapBits_invol a b i)
    · have h1 : (Op.cswap cs a b).act i = i := if_neg hc
      rw [h1, h1]

theorem act_lt {n : ℕ} {p : List Op} (h : ∀ o ∈ p, o.Ok n) : ∀ {i : ℕ}, i < 2 ^ n → act p i < 2 ^ n := by
  induction p with
  | nil => intro i hi; exact hi
  | cons o p ih =>
    intro i hi
    rw [act_cons]
    exact ih (fun o' ho' => h o' (by simp [ho'])) ((h o (by simp)).act_lt hi)

/-- Running a program backwards undoes it (all these gates are their own inverse). -/
theorem act_reverse {n : ℕ} {p : List Op} (h : ∀ o ∈ p, o.Ok n) (i : ℕ) : act p.reverse (act p i) = i := by
  induction p generalizing i with
  | nil => rfl
  | cons o p ih =>
    rw [act_cons, List.reverse_cons, act_append, ih (fun o' ho' => h o' (by simp [ho']))]
    exact (h o (by simp)).act_invol i

theorem reverse_ok {n : ℕ} {p : List Op} (h : ∀ o ∈ p, o.Ok n) : ∀ o ∈ p.reverse, o.Ok n :=
  fun o ho => h o (List.mem_reverse.1 ho)

theorem act_reverse' {n : ℕ} {p : List Op} (h : ∀ o ∈ p, o.Ok n) (i : ℕ) : act p (act p.reverse i) = i := by
  have := act_reverse (reverse_ok h) i
  rwa [List.reverse_reverse] at this

/-- Engines on which gates are exact: normalisation off, or no amplitude floor. -/
def Exact (e : Eng) : Prop := e.n ≤ 64 ∧ (e.doNorm = false ∨ e.floor ≤ 0)

theorem gate_x (p : ℕ → Prop) [DecidablePred p] (t : ℕ) (s : ℕ → ℂ) (i : ℕ) :
    gate p t 0 1 1 0 s i = if p i then s (flipBit t i) else s i := by
  unfold gate; split_ifs <;> simp

theorem ctrlMask_lt {n : ℕ} {cs : List ℕ} (h : ∀ c ∈ cs, c < n) : ctrlMask cs < 2 ^ n := by
  rw [lt_two_pow_iff_testBit]
  intro k hk
  rw [ctrlMask, testBit_foldl_or]
  simp only [Nat.zero_testBit, Bool.false_or, decide_eq_false_iff_not]
  intro hm; have := h k hm; omega

theorem testBit_ctrlMask (cs : List ℕ) (k : ℕ) : (ctrlMask cs).testBit k = decide (k ∈ cs) := by
  rw [ctrlMask, testBit_foldl_or]; simp

theorem allAre_xor_ctrlMask (cs : List ℕ) (i : ℕ) : AllAre true cs (i ^^^ ctrlMask cs) ↔ AllAre false cs i := by
  unfold AllAre
  refine forall₂_congr fun c hc => ?_
  rw [Nat.testBit_xor, testBit_ctrlMask]
  simp [hc]

theorem mcx_amp {σ : List ℕ → List ℕ} (hσ : IsSched σ) {e : Eng} (he : Exact e) {cs : List ℕ} {t : ℕ}
    (h : (Op.mcx cs t).Ok e.n) : ∃ e', eitherMtrx σ e cs ⟨0, 1, 1, 0⟩ t false = some e' ∧ e'.n = e.n ∧ Exact e' ∧
      ∀ i < 2 ^ e.n, e'.amp i = if AllAre true cs i then e.amp (flipBit t i) else e.amp i := by
  by_cases hc : cs = []
  · subst hc
    have heq : eitherMtrx σ e [] ⟨0, 1, 1, 0⟩ t false = gateX σ e t := by simp [eitherMtrx, gateX]
    obtain ⟨e', h1, h2⟩ := gateX_applies hσ he.1 (h.2 t (by simp))
    refine ⟨e', heq.trans h1, h2.n, ⟨by rw [h2.n]; exact he.1, by rw [h2.doNorm, h2.floor]; exact he.2⟩, ?_⟩
    intro i hi
    rw [h2.amp i hi]; simp [AllAre]
  · obtain ⟨e', h1, h2, h3⟩ := eitherMtrx_gate hσ he.1 he.2 hc ⟨0, 1, 1, 0⟩ h.1 h.2 false
    obtain ⟨-, -, m3, m4⟩ := eitherMtrx_meta h1
    refine ⟨e', h1, h2, ⟨by rw [h2]; exact he.1, by rw [m3, m4]; exact he.2⟩, fun i hi => ?_⟩
    rw [h3 i hi, gate_x]; rfl

theorem Op.run_act {σ : List ℕ → List ℕ} (hσ : IsSched σ) {e : Eng} (he : Exact e) {o : Op} (h : o.Ok e.n) :
    ∃ e', o.run σ e = some e' ∧ e'.n = e.n ∧ Exact e' ∧ ∀ i < 2 ^ e.n, e'.amp i = e.amp (o.act i) := by
  cases o with
  | x t =>
    obtain ⟨e', h1, h2⟩ := gateX_applies hσ he.1 h
    exact ⟨e', h1, h2.n, ⟨by rw [h2.n]; exact he.1, by rw [h2.doNorm, h2.floor]; exact he.2⟩, h2.amp⟩
  | mcx cs t =>
    obtain ⟨e', h1, h2, h3, h4⟩ := mcx_amp hσ he h
    refine ⟨e', h1, h2, h3, fun i hi => ?_⟩
    rw [h4 i hi]; simp only [Op.act]; split_ifs <;> rfl
  | macx cs t =>
    have hlt := ctrlMask_lt (n := e.n) (fun c hc => h.2 c (List.mem_append_left _ hc))
    obtain ⟨e1, a1, a2⟩ := xMask_flips hσ he.1 hlt
    have he1 : Exact e1 := ⟨by rw [a2.n]; exact he.1, by rw [a2.doNorm, a2.floor]; exact he.2⟩
    obtain ⟨e2, b1, b2, b3, b4⟩ := mcx_amp hσ he1 (cs := cs) (t := t) (by rw [a2.n]; exact h)
    obtain ⟨e3, c1, c2⟩ := xMask_flips hσ b3.1 (mask := ctrlMask cs) (by rw [b2, a2.n]; exact hlt)
    refine ⟨e3, ?_, by rw [c2.n, b2, a2.n], ⟨by rw [c2.n]; exact b3.1, by rw [c2.doNorm, c2.floor]; exact b3.2⟩,
      fun i hi => ?_⟩
    · simp only [Op.run, a1, b1, c1, Option.bind_some]
    · have hx : i ^^^ ctrlMask cs < 2 ^ e.n := Nat.xor_lt_two_pow hi hlt
      rw [c2.amp i (by rw [b2, a2.n]; exact hi), b4 _ (by rw [a2.n]; exact hx)]
      have ht : t < e.n := h.2 t (by simp)
      rw [a2.amp _ hx, a2.amp _ (flip_lt ht hx)]
      simp only [Op.act, allAre_xor_ctrlMask]
      have h1 : i ^^^ ctrlMask cs ^^^ ctrlMask cs = i := by rw [Nat.xor_assoc]; simp
      have h2 : flipBit t (i ^^^ ctrlMask cs) ^^^ ctrlMask cs = flipBit t i := by
        unfold flipBit
        rw [Nat.xor_assoc, Nat.xor_comm (2 ^ t), ← Nat.xor_assoc, h1]
      rw [h1, h2]
      split_ifs <;> rfl
  | swap a b =>
    obtain ⟨e', k1, k2, -, k4, k5, -, -⟩ := swapLike_exchange hσ he.1 (m := pauliX) rfl rfl h.1 h.2
    obtain ⟨e'', l1, l2⟩ := swap_swaps hσ he.1 h.1 h.2
    have : e'' = e' := by rw [k1] at l1; exact (Option.some.inj l1).symm
    subst this
    exact ⟨e'', k1, k2, ⟨by rw [k2]; exact he.1, by rw [k4, k5]; exact he.2⟩, l2⟩
  | cswap cs a b =>
    obtain ⟨e', k1, k2, k3⟩ := cswapLike_exchange hσ he.1 (m := pauliX) rfl rfl h.1 h.2
    have hm : e'.doNorm = e.doNorm ∧ e'.floor = e.floor := by
      have hs : ∀ x, swapLike σ e pauliX a b = some x → x.doNorm = e.doNorm ∧ x.floor = e.floor := by
        intro x hx
        unfold swapLike at hx
        split_ifs at hx
        · cases hx; exact ⟨rfl, rfl⟩
        · obtain ⟨-, -, m3, m4⟩ := apply2x2_meta hx; exact ⟨m3, m4⟩
      unfold cswapLike at k1
      split_ifs at k1
      · exact hs _ k1
      · cases k1; exact ⟨rfl, rfl⟩
      · obtain ⟨-, -, m3, m4⟩ := apply2x2_meta k1; exact ⟨m3, m4⟩
    refine ⟨e', k1, k2, ⟨by rw [k2]; exact he.1, by rw [hm.1, hm.2]; exact he.2⟩, fun i hi => ?_⟩
    rw [k3 i hi]
    simp only [Op.act, exchange]
    by_cases hc : AllAre true cs i
    · by_cases hb : i.testBit a = i.testBit b
      · simp [hc, hb, swapBits]
      · simp [hc, hb, pauliX]
    · simp [hc]

/-- Running a program moves the amplitude of `i` to `act p i`, and nothing else happens. -/
theorem run_act {σ : List ℕ → List ℕ} (hσ : IsSched σ) {p : List Op} : ∀ {e : Eng}, Exact e →
    (∀ o ∈ p, o.Ok e.n) → ∃ e', run σ p e = some e' ∧ e'.n = e.n ∧ Exact e' ∧
      ∀ i < 2 ^ e.n, e'.amp (act p i) = e.amp i := by
  induction p with
  | nil => intro e he _; exact ⟨e, rfl, rfl, he, fun i _ => rfl⟩
  | cons o p ih =>
    intro e he h
    obtain ⟨e1, h1, h2, h3, h4⟩ := Op.run_act hσ he (h o (by simp))
    obtain ⟨e2, k1, k2, k3, k4⟩ := ih h3 (fun o' ho' => by rw [h2]; exact h o' (by simp [ho']))
    refine ⟨e2, ?_, k2.trans h2, k3, fun i hi => ?_⟩
    · unfold run at k1 ⊢
      rw [List.foldlM_cons, h1]; exact k1
    · have ho := h o (by simp)
      rw [act_cons, k4 _ (by rw [h2]; exact ho.act_lt hi), h4 _ (ho.act_lt hi), ho.act_invol]

end Verif.Circ
