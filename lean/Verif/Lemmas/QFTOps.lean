import Verif.Lemmas.QFT

/-! Helper lemmas: the engine's gates act as operators, and so do loops of them. -/

namespace Verif.Engine

open Verif.ParFor Verif.Bits Verif.Spec Classical

/-- An engine of `n` qubits, without automatic normalisation, that holds the state `s`. -/
structure HoldsState (n : ℕ) (e : Eng) (s : ℕ → ℂ) : Prop where
  size : e.n = n
  doNorm : e.doNorm = false
  amp : SameOn n e.amp s

theorem HoldsState.congr {n : ℕ} {e : Eng} {s s' : ℕ → ℂ} (h : HoldsState n e s) (hs : SameOn n s s') : HoldsState n e s' :=
  ⟨h.size, h.doNorm, fun i hi => (h.amp i hi).trans (hs i hi)⟩

/-- `fn` succeeds on every engine of `n` qubits and acts as the operator `F`. -/
def Does (n : ℕ) (fn : Eng → Option Eng) (F : (ℕ → ℂ) → ℕ → ℂ) : Prop :=
  ∀ e s, HoldsState n e s → ∃ e', fn e = some e' ∧ HoldsState n e' (F s)

theorem Does.then {n : ℕ} {f g : Eng → Option Eng} {F G : (ℕ → ℂ) → ℕ → ℂ} (hf : Does n f F) (hg : Does n g G) :
    Does n (fun e => (f e).bind g) (fun s => G (F s)) := by
  intro e s h
  obtain ⟨e1, h1, h2⟩ := hf e s h
  obtain ⟨e2, h3, h4⟩ := hg e1 _ h2
  exact ⟨e2, by simp only [h1, Option.bind_some, h3], h4⟩

theorem Does.loop {n : ℕ} {ι : Type*} {f : Eng → ι → Option Eng} {F : ι → (ℕ → ℂ) → ℕ → ℂ} (l : List ι)
    (h : ∀ x ∈ l, Does n (fun e => f e x) (F x)) :
    Does n (fun e => l.foldlM f e) (fun s => l.foldl (fun s x => F x s) s) := by
  induction l with
  | nil => intro e s h; exact ⟨e, rfl, h⟩
  | cons x l ih =>
    intro e s hs
    obtain ⟨e1, h1, h2⟩ := h x (by simp) e s hs
    obtain ⟨e2, h3, h4⟩ := ih (fun y hy => h y (by simp [hy])) e1 _ h2
    refine ⟨e2, ?_, h4⟩
    show List.foldlM f e (x :: l) = some e2
    rw [List.foldlM_cons, show f e x = some e1 from h1]
    exact h3

theorem gate_same' {q : ℕ} {P : ℕ → Prop} [DecidablePred P] {t : ℕ} (ht : t < q) {a b c d : ℂ} {s s' : ℕ → ℂ}
    (h : SameOn q s s') : SameOn q (gate P t a b c d s) (gate P t a b c d s') := by
  intro i hi
  unfold gate
  rw [h i hi, h _ (Verif.Pager.flip_lt' ht hi)]

theorem gateH_does {σ : List ℕ → List ℕ} (hσ : IsSched σ) {n : ℕ} (hn : n ≤ 64) {q : ℕ} (hq : q < n) :
    Does n (fun e => gateH σ e q) (hOp q) := by
  rintro e s ⟨h1, h2, h3⟩
  subst h1
  obtain ⟨f, h4, h5, h6, _, h8⟩ := mtrx_ok hσ hn h2 hq (hMat_kept e.rgp)
  refine ⟨f, h4, h5, h6, fun i hi => (h8 i hi).trans ((gate_same' hq h3 i hi).trans ?_)⟩
  unfold gate hOp hMat setBit
  simp only [if_true]
  cases h : i.testBit q <;> simp [h] <;> ring

theorem cp_does {σ : List ℕ → List ℕ} (hσ : IsSched σ) {n : ℕ} (hn : n ≤ 64) {c t : ℕ} (hc : c < n) (ht : t < n) (hct : c ≠ t) (w : ℂ) :
    Does n (fun e => mcPhase σ e [c] 1 w t) (cpOp c t w) := by
  rintro e s ⟨h1, h2, h3⟩
  subst h1
  have hgate : ∀ i, gate (AllAre true [c]) t 1 0 0 w s i = cpOp c t w s i := by
    intro i
    unfold gate cpOp AllAre
    cases hc : i.testBit c <;> cases ht : i.testBit t <;> simp [hc, ht]
  by_cases hz : (1 : ℂ) - 1 = 0 ∧ 1 - w = 0
  · refine ⟨e, by simp only [mcPhase]; rw [if_pos hz], rfl, h2, fun i hi => (h3 i hi).trans ?_⟩
    have : w = 1 := (sub_eq_zero.1 hz.2).symm
    unfold cpOp
    rw [this]
    simp
  · obtain ⟨f, h4, h5, h6⟩ := eitherMtrx_gate hσ hn (Or.inl h2) (cs := [c]) (by simp) ⟨1, 0, 0, w⟩ (t := t)
      (by simpa using hct) (by intro k hk; simp at hk; rcases hk with rfl | rfl <;> assumption) false
    obtain ⟨h7, _⟩ := Verif.Pager.eitherMtrx_frame (by simp) h2 h4
    refine ⟨f, by simp only [mcPhase]; rw [if_neg hz]; exact h4, h5, by rw [h7, h2], fun i hi => (h6 i hi).trans ?_⟩
    rw [← hgate]
    exact gate_same' ht h3 i hi

theorem cPhaseRootN_does {σ : List ℕ → List ℕ} (hσ : IsSched σ) {n : ℕ} (hn : n ≤ 64) {c t : ℕ} (hc : c < n) (ht : t < n) (hct : c ≠ t)
    (s : ℤ) (j : ℕ) : Does n (fun e => cPhaseRootN σ s e (j + 2) c t) (cpOp c t (turn s (1 / 2 ^ (j + 2)))) := by
  simp only [cPhaseRootN, Nat.add_eq_zero_iff, OfNat.ofNat_ne_zero, and_false, if_false, rootN_turn]
  exact cp_does hσ hn hc ht hct _

theorem ciPhaseRootN_does {σ : List ℕ → List ℕ} (hσ : IsSched σ) {n : ℕ} (hn : n ≤ 64) {c t : ℕ} (hc : c < n) (ht : t < n) (hct : c ≠ t)
    (s : ℤ) (j : ℕ) : Does n (fun e => ciPhaseRootN σ s e (j + 2) c t) (cpOp c t (turn (-s) (1 / 2 ^ (j + 2)))) := by
  simp only [ciPhaseRootN, Nat.add_eq_zero_iff, OfNat.ofNat_ne_zero, and_false, if_false, irootN_turn]
  exact cp_does hσ hn hc ht hct _

theorem getD_mem {qs : List ℕ} {k : ℕ} (hk : k < qs.length) : qs.getD k 0 ∈ qs := by
  rw [List.getD_eq_getElem _ _ hk]; exact List.getElem_mem hk

theorem getD_ne {qs : List ℕ} (hnd : qs.Nodup) {k l : ℕ} (hk : k < qs.length) (hl : l < qs.length) (h : k ≠ l) :
    qs.getD k 0 ≠ qs.getD l 0 := by
  rw [List.getD_eq_getElem _ _ hk, List.getD_eq_getElem _ _ hl]
  intro he
  exact h ((List.Nodup.getElem_inj_iff hnd).1 he)

/-! ## The loops as operators -/

/-- The operator of `IQFTR`'s loop. -/
noncomputable def iqftrOp (s : ℤ) (qs : List ℕ) (L : ℕ) (ψ : ℕ → ℂ) : ℕ → ℂ :=
  (List.range L).foldl (fun ψ i => hOp (qs.getD i 0)
    ((List.range i).foldl (fun ψ j => cpOp (qs.getD (i - (j + 1)) 0) (qs.getD i 0) (turn s (1 / 2 ^ (j + 2))) ψ) ψ)) ψ

theorem iqftrOp_congr (s : ℤ) {qs rs : List ℕ} {L : ℕ} (h : ∀ i < L, qs.getD i 0 = rs.getD i 0) (ψ : ℕ → ℂ) :
    iqftrOp s qs L ψ = iqftrOp s rs L ψ := by
  induction L with
  | zero => rfl
  | succ L ih =>
    unfold iqftrOp at ih ⊢
    rw [List.range_succ, List.foldl_append, List.foldl_append, ih fun i hi => h i (by omega)]
    simp only [List.foldl_cons, List.foldl_nil]
    rw [h L (by omega), run_turn, run_turn]
    congr 1
    funext i
    congr 2
    refine Finset.sum_congr rfl fun j hj => ?_
    have := Finset.mem_range.1 hj
    rw [h (L - (j + 1)) (by omega)]

theorem iqftrOp_dft {s : ℤ} (hs : s = 1 ∨ s = -1) (qs : List ℕ) (hnd : qs.Nodup) (ψ : ℕ → ℂ) :
    iqftrOp s qs qs.length ψ = dft s qs.reverse qs ψ := by
  induction qs using List.reverseRecOn with
  | nil =>
    funext i
    simp [iqftrOp, dft, turn_zero, writeBits]
  | append_singleton qs q ih =>
    have hns := (List.nodup_append.1 hnd).1
    have hq : q ∉ qs := fun h => (List.nodup_append.1 hnd).2.2 q h q (by simp) rfl
    funext i
    rw [List.reverse_append, List.reverse_singleton, List.singleton_append,
      dft_low hs (by simp) hq, ← ih hns, List.length_append, List.length_singleton,
      iqftrOp_congr s (qs := qs) (rs := qs ++ [q]) (L := qs.length) (fun i hi => (List.getD_append _ _ _ _ hi).symm)]
    conv_lhs => unfold iqftrOp
    rw [List.range_succ, List.foldl_append]
    simp only [List.foldl_cons, List.foldl_nil]
    rw [run_turn, show (qs ++ [q]).getD qs.length 0 = q by simp]
    congr 1
    funext j
    congr 2
    rw [List.length_reverse, mul_div_assoc, ← sum_down, Finset.mul_sum]
    refine Finset.sum_congr rfl fun k hk => ?_
    have := Finset.mem_range.1 hk
    rw [List.getD_append _ _ _ _ (by omega), show qs.length - (k + 1) = qs.length - 1 - k by omega]
    ring

/-- The operator of `QFTR`'s loop. -/
noncomputable def qftrOp (s : ℤ) (qs : List ℕ) (ψ : ℕ → ℂ) : ℕ → ℂ :=
  (List.range qs.length).foldl (fun ψ i =>
    (List.range (qs.length - 1 - i)).foldl (fun ψ j => cpOp (qs.getD (qs.length - 1 - i - (j + 1)) 0) (qs.getD (qs.length - 1 - i) 0)
      (turn s (1 / 2 ^ (j + 2))) ψ) (hOp (qs.getD (qs.length - 1 - i) 0) ψ)) ψ

theorem qftrOp_dft {s : ℤ} (hs : s = 1 ∨ s = -1) (qs : List ℕ) (hnd : qs.Nodup) (ψ : ℕ → ℂ) :
    qftrOp s qs ψ = dft s qs qs.reverse ψ := by
  induction qs using List.reverseRecOn generalizing ψ with
  | nil =>
    funext i
    simp [qftrOp, dft, turn_zero, writeBits]
  | append_singleton qs q ih =>
    have hns := (List.nodup_append.1 hnd).1
    funext i
    rw [List.reverse_append, List.reverse_singleton, List.singleton_append, dft_high hs hnd, ← ih hns]
    unfold qftrOp
    rw [List.length_append, List.length_singleton, List.range_succ_eq_map, List.foldl_cons, List.foldl_map]
    congr 1
    have hinit : (List.range (qs.length + 1 - 1 - 0)).foldl (fun ψ j => cpOp ((qs ++ [q]).getD (qs.length + 1 - 1 - 0 - (j + 1)) 0)
        ((qs ++ [q]).getD (qs.length + 1 - 1 - 0) 0) (turn s (1 / 2 ^ (j + 2))) ψ) (hOp ((qs ++ [q]).getD (qs.length + 1 - 1 - 0) 0) ψ)
        = fun j => turn s (((j.testBit q).toNat : ℝ) * (readBits qs j : ℝ) / 2 ^ (qs.length + 1)) * hOp q ψ j := by
      rw [run_turn, show qs.length + 1 - 1 - 0 = qs.length by omega, show (qs ++ [q]).getD qs.length 0 = q by simp]
      funext j
      congr 2
      rw [mul_div_assoc, ← sum_down, Finset.mul_sum]
      refine Finset.sum_congr rfl fun k hk => ?_
      have := Finset.mem_range.1 hk
      rw [List.getD_append _ _ _ _ (by omega), show qs.length - (k + 1) = qs.length - 1 - k by omega]
      ring
    rw [hinit]
    generalize (fun j : ℕ => turn s (((j.testBit q).toNat : ℝ) * (readBits qs j : ℝ) / 2 ^ (qs.length + 1)) * hOp q ψ j) = φ
    have step : ∀ k ∈ List.range qs.length, ∀ φ : ℕ → ℂ,
        (List.range (qs.length + 1 - 1 - (k + 1))).foldl (fun ψ j => cpOp ((qs ++ [q]).getD (qs.length + 1 - 1 - (k + 1) - (j + 1)) 0)
          ((qs ++ [q]).getD (qs.length + 1 - 1 - (k + 1)) 0) (turn s (1 / 2 ^ (j + 2))) ψ) (hOp ((qs ++ [q]).getD (qs.length + 1 - 1 - (k + 1)) 0) φ) =
        (List.range (qs.length - 1 - k)).foldl (fun ψ j => cpOp (qs.getD (qs.length - 1 - k - (j + 1)) 0) (qs.getD (qs.length - 1 - k) 0)
          (turn s (1 / 2 ^ (j + 2))) ψ) (hOp (qs.getD (qs.length - 1 - k) 0) φ) := by
      intro k hk φ
      have hk' := List.mem_range.1 hk
      rw [show qs.length + 1 - 1 - (k + 1) = qs.length - 1 - k by omega, List.getD_append _ _ _ _ (by omega), run_turn, run_turn]
      funext i
      congr 2
      refine Finset.sum_congr rfl fun j hj => ?_
      rw [List.getD_append _ _ _ _ (by omega)]
    generalize List.range qs.length = l at step ⊢
    induction l generalizing φ with
    | nil => rfl
    | cons x l ih' =>
      rw [List.foldl_cons, List.foldl_cons, ← step x (by simp)]
      exact ih' _ fun k hk => step k (by simp [hk])

/-- The operator of `QFT`'s loop; `last` is the highest qubit. -/
noncomputable def qftOp (s : ℤ) (last L : ℕ) (ψ : ℕ → ℂ) : ℕ → ℂ :=
  (List.range L).foldl (fun ψ i => hOp (last - i)
    ((List.range i).foldl (fun ψ j => cpOp (last - i) (last - i + 1 + j) (turn s (1 / 2 ^ (j + 2))) ψ) ψ)) ψ

theorem qftOp_dft {s : ℤ} (hs : s = 1 ∨ s = -1) (start L : ℕ) (ψ : ℕ → ℂ) :
    qftOp s (start + L - 1) L ψ = dft s (List.range' start L) (List.range' start L).reverse ψ := by
  induction L generalizing start with
  | zero =>
    funext i
    simp [qftOp, dft, turn_zero, writeBits]
  | succ L ih =>
    funext i
    have hq : start ∉ (List.range' (start + 1) L).reverse := by simp
    rw [List.range'_succ, List.reverse_cons, dft_low hs (by simp) hq, ← ih]
    conv_lhs => unfold qftOp
    rw [List.range_succ, List.foldl_append]
    simp only [List.foldl_cons, List.foldl_nil]
    rw [run_turn, show start + (L + 1) - 1 - L = start by omega, show start + (L + 1) - 1 = start + 1 + L - 1 by omega]
    congr 1
    funext j
    congr 2
    rw [show (List.range' (start + 1) L).length = (List.range' (start + 1) L).reverse.length by simp, mul_div_assoc, ← sum_down, Finset.mul_sum,
      List.length_reverse, List.length_range']
    refine Finset.sum_congr rfl fun k hk => ?_
    have := Finset.mem_range.1 hk
    have e : (List.range' (start + 1) L).reverse.getD (L - 1 - k) 0 = start + 1 + k := by
      rw [List.getD_eq_getElem _ _ (by simp; omega), List.getElem_reverse, List.getElem_range']
      simp
      omega
    rw [e]
    ring

end Verif.Engine
