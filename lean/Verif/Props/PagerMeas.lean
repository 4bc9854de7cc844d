import Verif.Model.PagerMeas
import Verif.Props.Pager
import Verif.Props.EngineMeas
import Verif.Props.EngineProb

/-!
# C35: probabilities and measurement of the paged register
-/

namespace Verif.Pager

open Verif.Engine Verif.ParFor Verif.Bits Verif.Spec Classical

/-- The sum over the register is the sum over the pages. -/
theorem sum_pages (A B : ℕ) (f : ℕ → ℝ) :
    ∑ i ∈ Finset.range (A * B), f i = ∑ k ∈ Finset.range B, ∑ a ∈ Finset.range A, f (A * k + a) := by
  induction B with
  | zero => simp
  | succ B ih => rw [Nat.mul_succ, Finset.sum_range_add, ih, Finset.sum_range_succ]

theorem probIf_pages {n q : ℕ} (hq : q ≤ n) (p : ℕ → Prop) (s : ℕ → ℂ) :
    probIf n p s = ∑ k ∈ Finset.range (2 ^ (n - q)), probIf q (fun a => p (2 ^ q * k + a)) (fun a => s (2 ^ q * k + a)) := by
  unfold probIf
  have := sum_pages (2 ^ q) (2 ^ (n - q)) (fun i => if p i then Complex.normSq (s i) else 0)
  rw [← pow_add, Nat.add_sub_cancel' hq] at this
  exact this

theorem probIf_page_le {n q : ℕ} (hq : q ≤ n) (p : ℕ → Prop) (s : ℕ → ℂ) (ht : totalProb n s = 1) {k : ℕ}
    (hk : k < 2 ^ (n - q)) : probIf q (fun a => p (2 ^ q * k + a)) (fun a => s (2 ^ q * k + a)) ≤ 1 := by
  rw [← ht]
  refine le_trans ?_ (probIf_le n p s)
  rw [probIf_pages hq]
  exact Finset.single_le_sum (f := fun k => probIf q (fun a => p (2 ^ q * k + a)) (fun a => s (2 ^ q * k + a)))
    (fun i _ => probIf_nonneg _ _ _) (Finset.mem_range.2 hk)

theorem page_prob {P : Par} (hP : P.Ok) {q : ℕ} (hq : q ≤ 64) {e : Eng} {s : ℕ → ℂ} (h : PageIs q e s) {t : ℕ} (ht : t < q)
    (h1 : probIf q (fun a => a.testBit t = true) s ≤ 1) :
    prob P e t = some (probIf q (fun a => a.testBit t = true) s, e) := by
  have hn := h.n
  have hs : probIf e.n (fun a => a.testBit t = true) e.amp = probIf q (fun a => a.testBit t = true) s := by
    rw [hn]; exact probIf_congr (fun _ _ => Iff.rfl) h.amp
  unfold prob
  have hni : normIf P.σ e = e := by unfold normIf; rw [h.doNorm]; rfl
  rw [if_neg (by omega), hni]
  by_cases he : e.n = 1
  · have ht0 : t = 0 := by omega
    subst ht0
    simp only [he, if_true]
    rw [← hs, he]
    simp [probIf, Finset.sum_range_succ]
  · simp only [he, if_false]
    rw [prob_sum hP (by omega) he (by omega), hs, clampProb_id (probIf_nonneg _ _ _) h1]

theorem foldlM_add {f : ℕ → Option ℝ} {g : ℕ → ℝ} : ∀ (l : List ℕ) (acc : ℝ), (∀ i ∈ l, f i = some (g i)) →
    l.foldlM (fun (acc : ℝ) i => (f i).map fun r => acc + r) acc = some (acc + (l.map g).sum) := by
  intro l
  induction l with
  | nil => intro acc _; simp
  | cons x xs ih =>
    intro acc h
    rw [List.foldlM_cons, h x (by simp)]
    show List.foldlM _ (acc + g x) xs = _
    rw [ih _ fun i hi => h i (by simp [hi])]
    rw [List.map_cons, List.sum_cons, add_assoc]

/-- The pages are kept in full: no amplitude counts as zero unless it is. -/
def NoFloor (p : Pager) : Prop := ∀ k < p.count, (p.page k).floor ≤ 0

theorem norm_page {q : ℕ} {e : Eng} {s : ℕ → ℂ} (h : PageIs q e s) (hf : e.floor ≤ 0) :
    (updateRunningNorm e).rn = totalProb q s ∧ PageIs q (updateRunningNorm e) s := by
  have hsum : (∑ i ∈ Finset.range (2 ^ e.n), (if Complex.normSq (e.amp i) < e.floor then 0 else Complex.normSq (e.amp i))) =
      totalProb q s := by
    unfold totalProb
    rw [h.n]
    refine Finset.sum_congr rfl fun i hi => ?_
    rw [if_neg (by have := Complex.normSq_nonneg (e.amp i); linarith), h.amp i (Finset.mem_range.1 hi)]
  unfold updateRunningNorm
  dsimp only
  rw [hsum]
  by_cases h0 : totalProb q s ≤ 0
  · rw [if_pos h0]
    have hz : ∀ i < 2 ^ q, s i = 0 := by
      intro i hi
      have hp : probIf q (fun _ => True) s = 0 := by
        have : probIf q (fun _ => True) s = totalProb q s := by unfold probIf totalProb; simp
        rw [this]
        refine le_antisymm h0 ?_
        rw [← this]; exact probIf_nonneg _ _ _
      exact probIf_eq_zero hp hi trivial
    refine ⟨?_, h.n, h.doNorm, h.rgp, fun i hi => (hz i hi).symm⟩
    refine le_antisymm ?_ h0
    have : probIf q (fun _ => True) s = totalProb q s := by unfold probIf totalProb; simp
    show 0 ≤ _
    rw [← this]; exact probIf_nonneg _ _ _
  · rw [if_neg h0]
    exact ⟨rfl, h.n, h.doNorm, h.rgp, h.amp⟩

theorem testBit_at_hi {q t a k : ℕ} (ha : a < 2 ^ q) (ht : q ≤ t) : (2 ^ q * k + a).testBit t = k.testBit (t - q) := by
  rw [testBit_at ha, if_neg (by omega)]

/-- The loop over the pages with bit `t` set. -/
theorem sum_half {r t : ℕ} (ht : t < r) (g : ℕ → ℝ) :
    ((List.range (2 ^ r >>> 1)).map fun i => g (spread (pow2 t - 1) i ||| pow2 t)).sum =
      ∑ k ∈ Finset.range (2 ^ r), if k.testBit t = true then g k else 0 := by
  have hsh : 2 ^ r >>> 1 = 2 ^ (r - 1) := half (by omega)
  have hor : ∀ i, (spread (pow2 t - 1) i ||| pow2 t) = insZero t i ^^^ 2 ^ t := by
    intro i
    unfold pow2
    rw [spread_eq]
    apply Nat.eq_of_testBit_eq
    intro k
    rw [Nat.testBit_or, Nat.testBit_xor, testBit_insZero, Nat.testBit_two_pow]
    by_cases hk : k = t
    · subst hk; simp
    · simp [Ne.symm hk]
  have hb : ∀ i, (insZero t i ^^^ 2 ^ t).testBit t = true := by
    intro i; rw [Nat.testBit_xor, testBit_insZero]; simp
  have hx : ∀ i, (insZero t i ^^^ 2 ^ t) ^^^ 2 ^ t = insZero t i := by
    intro i; rw [Nat.xor_assoc, Nat.xor_self, Nat.xor_zero]
  refine (sum_visited_map (p := fun k => k.testBit t = true) (N := 2 ^ r) (fun i => spread (pow2 t - 1) i ||| pow2 t)
    (fun k => delBit t (k ^^^ 2 ^ t)) List.nodup_range ?_ ?_ g).trans
    (Finset.sum_congr rfl fun k _ => ite_any)
  · intro l hl
    rw [List.mem_range, hsh] at hl
    rw [hor]
    refine ⟨Nat.xor_lt_two_pow ?_ (Nat.pow_lt_pow_right (by norm_num) ht), hb l, ?_⟩
    · have := insAll_lt [t] hl
      rwa [List.length_singleton, Nat.sub_add_cancel (by omega)] at this
    · rw [hx, delBit_insZero]
  · intro k hk hkt
    have hcl : (k ^^^ 2 ^ t).testBit t = false := by rw [Nat.testBit_xor, hkt]; simp
    have hlt : k ^^^ 2 ^ t < 2 ^ r := Nat.xor_lt_two_pow hk (Nat.pow_lt_pow_right (by norm_num) ht)
    refine ⟨?_, ?_⟩
    · obtain ⟨j, hj, hj2⟩ := exists_insAll [t] r _ (by simp) (by simpa using ht) hlt (by simpa using hcl)
      rw [List.mem_range, hsh]
      have : insZero t j = k ^^^ 2 ^ t := hj2
      rw [← this, delBit_insZero]
      simpa using hj
    · rw [hor, insZero_delBit hcl, Nat.xor_assoc, Nat.xor_self, Nat.xor_zero]

theorem pProb_holds {P : Par} (hP : P.Ok) {p : Pager} {q : ℕ} {s : ℕ → ℂ} (h : Holds p q s) (hf : NoFloor p)
    (hs : totalProb p.n s = 1) {t : ℕ} (ht : t < p.n) : pProb P p t = some (probIf p.n (fun i => i.testBit t = true) s) := by
  have hle := h.le
  unfold pProb
  rw [h.qpp]
  have hpage : ∀ k < 2 ^ (p.n - q), t < q → prob P (p.page k) t =
      some (probIf q (fun a => (2 ^ q * k + a).testBit t = true) (fun a => s (2 ^ q * k + a)), p.page k) := by
    intro k hk htq
    have hc := probIf_congr (n := q) (p := fun a => a.testBit t = true) (q := fun a => (2 ^ q * k + a).testBit t = true)
      (s := fun a => s (2 ^ q * k + a)) (s' := fun a => s (2 ^ q * k + a))
      (fun a ha => by rw [testBit_at ha, if_pos htq]) (fun _ _ => rfl)
    have := page_prob hP h.word' (h.pages k hk) htq (by
      rw [hc]; exact probIf_page_le hle (fun i => i.testBit t = true) s hs hk)
    rw [this, hc]
  by_cases h1 : p.count = 1
  · have hnq : p.n - q = 0 := by
      have := h.count
      rw [h1] at this
      by_contra hc
      have := Nat.one_lt_two_pow hc
      omega
    rw [if_pos h1, hpage 0 (by positivity) (by omega), probIf_pages hle, hnq]
    simp
  rw [if_neg h1]
  by_cases htq : t < q
  · dsimp only
    rw [if_pos htq]
    have := foldlM_add (f := fun i => (prob P (p.page i) t).map fun r => r.1)
      (g := fun k => probIf q (fun a => (2 ^ q * k + a).testBit t = true) (fun a => s (2 ^ q * k + a)))
      (List.range p.count) 0 (fun k hk => by
        rw [hpage k (by rw [← h.count]; simpa using hk) htq]; rfl)
    simp only [Option.map_map] at this
    erw [this]
    rw [Option.map_some, zero_add, sum_listRange, h.count, ← probIf_pages hle (fun i => i.testBit t = true) s, clamp_probIf hs]
  · dsimp only
    rw [if_neg htq, h.count, sum_half (by omega) (fun k => (updateRunningNorm (p.page k)).rn)]
    rw [← clamp_probIf hs, probIf_pages hle]
    congr 2
    refine Finset.sum_congr rfl fun k hk => ?_
    have hk' := Finset.mem_range.1 hk
    rw [(norm_page (h.pages k hk') (hf k (by rw [h.count]; exact hk'))).1]
    unfold totalProb probIf
    by_cases hb : k.testBit (t - q) = true
    · rw [if_pos hb]
      refine Finset.sum_congr rfl fun a ha => ?_
      dsimp only
      rw [if_pos (by rw [testBit_at_hi (Finset.mem_range.1 ha) (by omega)]; exact hb)]
    · rw [if_neg hb]
      refine (Finset.sum_eq_zero fun a ha => ?_).symm
      dsimp only
      rw [if_neg (by rw [testBit_at_hi (Finset.mem_range.1 ha) (by omega)]; exact hb)]

/-- **C35.** `QPager::Prob` is the probability of reading one, for qubits inside of the pages and above them, and every
grouping of the pages. -/
theorem paged_prob {P : Par} (hP : P.Ok) {p : Pager} (hp : Shape p) (hf : NoFloor p) {s : ℕ → ℂ} (hr : Reads p s)
    (hs : totalProb p.n s = 1) {t : ℕ} (ht : t < p.n) : pProb P p t = some (probIf p.n (fun i => i.testBit t = true) s) := by
  obtain ⟨q, h⟩ := holds_iff.2 ⟨hp, hr⟩
  exact pProb_holds hP h hf hs ht

theorem mtrx_floor {σ : List ℕ → List ℕ} {e e' : Eng} {m : M2} {t : ℕ} (h : mtrx σ e m t = some e') :
    e'.floor = e.floor := by
  unfold mtrx apply2x2 at h
  simp only at h
  split_ifs at h <;> cases h <;> rfl

theorem phase_floor {σ : List ℕ → List ℕ} {e e' : Eng} {a b : ℂ} {t : ℕ} (h : phase σ e a b t = some e') :
    e'.floor = e.floor := by
  unfold phase at h
  split_ifs at h
  · cases h; rfl
  · exact mtrx_floor h

theorem and_pow2_zero (i t : ℕ) : i &&& pow2 t = 0 ↔ i.testBit t = false := by
  have := and_pow2_iff i t false
  simpa using this

/-- The projection of the pages: all of them are multiplied and masked. -/
theorem pProject {P : Par} (hP : P.Ok) {p : Pager} {q : ℕ} {s : ℕ → ℂ} (h : Holds p q s) (hf : NoFloor p) {t : ℕ}
    (b : Bool) (k : ℂ) :
    ∃ p', ((List.range p.count).foldlM (fun p i => onPage p i fun e =>
        if t < q then some (applyM P.σ e (pow2 t) (if b then pow2 t else 0) k)
        else
          let qPower := pow2 (t - q)
          if (i &&& qPower = 0) = (b = false) then (phase P.σ e k k 0).map updateRunningNorm
          else some (zeroAmplitudes e)) p) = some p' ∧ p'.n = p.n ∧ NoFloor p' ∧
      Holds p' q (fun i => if i.testBit t = b then k * s i else 0) := by
  have hall : ∀ j < p.count, ∃ e', (if t < q then some (applyM P.σ (p.page j) (pow2 t) (if b then pow2 t else 0) k)
        else
          let qPower := pow2 (t - q)
          if (j &&& qPower = 0) = (b = false) then (phase P.σ (p.page j) k k 0).map updateRunningNorm
          else some (zeroAmplitudes (p.page j))) = some e' ∧
      (PageIs q e' (fun a => (fun i => if i.testBit t = b then k * s i else 0) (2 ^ q * j + a)) ∧ e'.floor ≤ 0) := by
    intro j hj
    have hfj := hf j hj
    have hpg := h.pages j (by rw [← h.count]; exact hj)
    dsimp only
    by_cases htq : t < q
    · rw [if_pos htq]
      refine ⟨_, rfl, ?_, hfj⟩
      obtain ⟨h1, h2, h3, h4⟩ := hpg
      refine ⟨h1, h2, h3, fun a ha => ?_⟩
      rw [applyM_amp hP.1 _ _ _ _ (by rw [h1]; exact ha), h4 a ha]
      dsimp only
      rw [testBit_at ha, if_pos htq]
      by_cases hb : a.testBit t = b
      · rw [if_pos hb, if_pos ((and_pow2_iff a t b).2 hb)]
      · rw [if_neg hb, if_neg (fun hc => hb ((and_pow2_iff a t b).1 hc))]
    · rw [if_neg htq]
      have hiff : ((j &&& pow2 (t - q) = 0) = (b = false)) ↔ j.testBit (t - q) = b := by
        rw [eq_iff_iff, and_pow2_zero]
        cases j.testBit (t - q) <;> cases b <;> simp
      by_cases hb : j.testBit (t - q) = b
      · rw [if_pos (hiff.2 hb)]
        obtain ⟨e', h1, h2⟩ := scale_acts hP.1 h.pos h.word' k _ _ hpg
        dsimp only at h1
        have hf' : e'.floor ≤ 0 := by rw [phase_floor h1]; exact hfj
        refine ⟨_, by rw [h1]; rfl, ((norm_page h2 hf').2).congr fun a ha => ?_, ?_⟩
        · dsimp only
          rw [testBit_at_hi ha (by omega), if_pos hb]
        · unfold updateRunningNorm
          dsimp only
          split_ifs <;> exact hf'
      · rw [if_neg (fun hc => hb (hiff.1 hc))]
        refine ⟨_, rfl, ⟨hpg.n, hpg.doNorm, hpg.rgp, fun a ha => ?_⟩, hfj⟩
        dsimp only [zeroAmplitudes]
        rw [testBit_at_hi ha (by omega), if_neg hb]
  obtain ⟨p', h1, h2, h3, h4, h5⟩ := allPages (fun i e =>
        if t < q then some (applyM P.σ e (pow2 t) (if b then pow2 t else 0) k)
        else
          let qPower := pow2 (t - q)
          if (i &&& qPower = 0) = (b = false) then (phase P.σ e k k 0).map updateRunningNorm
          else some (zeroAmplitudes e))
    (fun j e => PageIs q e (fun a => (fun i => if i.testBit t = b then k * s i else 0) (2 ^ q * j + a)) ∧ e.floor ≤ 0) p hall
  exact ⟨p', h1, h2, fun j hj => (h5 j (by rw [← h4]; exact hj)).2,
      h.update h2 h3 h4 fun j hj => (h5 j (by rw [h.count]; exact hj)).1⟩

/-- **C35, C20.** `QPager::ForceM` does what the flat engine's `ForceM` does with the same draw: both throw, or both return
the same bit and leave the same state. -/
theorem paged_forceM_flat {P : Par} (hP : P.Ok) {p : Pager} (hp : Shape p) (hf : NoFloor p) {e : Eng} (hr : Reads p e.amp)
    (hn : e.n = p.n) (he : e.Steady) (hg : e.rgp = false) {t : ℕ} (ht : t < p.n) (result doForce doApply : Bool) (r u : ℝ) :
    (pForceM P p t result doForce doApply r = none ∧ forceM P e t result doForce doApply r u = none) ∨
    ∃ b p' e', pForceM P p t result doForce doApply r = some (b, p') ∧
      forceM P e t result doForce doApply r u = some (b, e') ∧ p'.n = p.n ∧ e'.n = e.n ∧ Shape p' ∧ NoFloor p' ∧
      Reads p' e'.amp := by
  obtain ⟨q, h⟩ := holds_iff.2 ⟨hp, hr⟩
  have hs : totalProb p.n e.amp = 1 := by rw [← hn]; exact he.1
  have hnf : ∀ x : ℝ, normFactor e u x = 1 / (Real.sqrt x : ℂ) := by
    intro x; unfold normFactor nonunitaryPhase; rw [hg]; rfl
  rw [forceM_eq hP (by rw [hn]; exact h.word) he (by omega)]
  set b := outcome e t result doForce r with hb
  have hq1 : qProb e t true = probIf p.n (fun i => i.testBit t = true) e.amp := by unfold qProb; rw [hn]
  have hmul : ∀ k : ℂ, SameOn p.n (applyM P.σ e (pow2 t) (if b then pow2 t else 0) k).amp
      (fun i => if i.testBit t = b then k * e.amp i else 0) := by
    intro k i hi
    rw [applyM_amp hP.1 _ _ _ _ (by rw [hn]; exact hi)]
    dsimp only
    by_cases hbit : i.testBit t = b
    · rw [if_pos ((and_pow2_iff i t b).2 hbit), if_pos hbit]
    · rw [if_neg (fun hc => hbit ((and_pow2_iff i t b).1 hc)), if_neg hbit]
  by_cases hc1 : p.count = 1
  · -- one page: `qPages[0]->ForceM`
    have hnq : p.n = q := by
      have := h.count
      rw [hc1] at this
      have hle := h.le
      by_contra hc
      have := Nat.one_lt_two_pow (n := p.n - q) (by omega)
      omega
    have hpg := h.pages 0 (by positivity)
    simp only [Nat.mul_zero, Nat.zero_add] at hpg
    have hst : (p.page 0).Steady := by
      refine ⟨?_, fun hd => by rw [hpg.doNorm] at hd; cases hd⟩
      rw [← hs, hpg.n, hnq]
      unfold totalProb
      exact Finset.sum_congr rfl fun i hi => by rw [hpg.amp i (Finset.mem_range.1 hi)]
    have hqp : ∀ x, qProb (p.page 0) t x = qProb e t x := by
      intro x
      unfold qProb
      rw [hpg.n, hn, hnq]
      exact probIf_congr (fun _ _ => Iff.rfl) hpg.amp
    have hout : outcome (p.page 0) t result doForce r = b := by
      rw [hb]; unfold outcome; rw [hqp]
    have hnf0 : ∀ x : ℝ, normFactor (p.page 0) 0 x = 1 / (Real.sqrt x : ℂ) := by
      intro x; unfold normFactor nonunitaryPhase; rw [hpg.rgp]; rfl
    unfold pForceM
    rw [if_pos hc1, forceM_eq hP (by rw [hpg.n]; exact h.word') hst (by rw [hpg.n]; omega), hout, hqp]
    by_cases h0 : qProb e t b ≤ 0
    · left; rw [if_pos h0, if_pos h0]; exact ⟨rfl, rfl⟩
    · right
      rw [if_neg h0, if_neg h0]
      have hfl0 : (p.page 0).floor ≤ 0 := hf 0 (by omega)
      have key : ∀ e1 s1, PageIs q e1 s1 → e1.floor ≤ 0 →
          Shape { p with page := Function.update p.page 0 e1 } ∧ NoFloor { p with page := Function.update p.page 0 e1 } ∧
          Reads { p with page := Function.update p.page 0 e1 } s1 := by
        intro e1 s1 g1 g2
        have hh : Holds { p with page := Function.update p.page 0 e1 } q s1 := by
          refine ⟨h.pos, h.le, h.word, h.base1, h.base, h.count, fun k hk => ?_⟩
          have hk0 : k = 0 := by
            rw [show p.n - q = 0 by omega, pow_zero] at hk; omega
          subst hk0
          simpa using g1
        obtain ⟨k1, k2⟩ := holds_iff.1 ⟨q, hh⟩
        refine ⟨k1, fun k hk => ?_, k2⟩
        have hk0 : k = 0 := by
          have : k < p.count := hk
          omega
        subst hk0
        simpa using g2
      by_cases h1 : doApply = true ∧ 1 - qProb e t b > 0
      · rw [if_pos h1, if_pos h1]
        refine ⟨b, _, _, rfl, rfl, rfl, rfl, key _ _ ⟨hpg.n, hpg.doNorm, hpg.rgp, fun i hi => ?_⟩ hfl0⟩
        rw [applyM_amp hP.1 _ _ _ _ (by rw [hpg.n]; exact hi), applyM_amp hP.1 _ _ _ _ (by rw [hn, hnq]; exact hi),
          hpg.amp i hi, hnf0, hnf]
      · rw [if_neg h1, if_neg h1]
        exact ⟨b, _, _, rfl, rfl, rfl, rfl, key _ _ hpg hfl0⟩
  · have heq : pForceM P p t result doForce doApply r =
      (if (if b = true then qProb e t true else 1 - qProb e t true) ≤ 0 then none
       else if !doApply ∨ 1 - (if b = true then qProb e t true else 1 - qProb e t true) ≤ 0 then some (b, p)
       else ((List.range p.count).foldlM (fun p i => onPage p i fun e' =>
        if t < q then some (applyM P.σ e' (pow2 t) (if b then pow2 t else 0)
          (1 / (Real.sqrt (if b = true then qProb e t true else 1 - qProb e t true) : ℂ)))
        else
          let qPower := pow2 (t - q)
          if (i &&& qPower = 0) = (b = false) then
            (phase P.σ e' (1 / (Real.sqrt (if b = true then qProb e t true else 1 - qProb e t true) : ℂ))
              (1 / (Real.sqrt (if b = true then qProb e t true else 1 - qProb e t true) : ℂ)) 0).map updateRunningNorm
          else some (zeroAmplitudes e')) p).map fun p => (b, p)) := by
      unfold pForceM
      rw [if_neg hc1, pProb_holds hP h hf hs ht, Option.bind_some, h.qpp, ← hq1]
      rfl
    have hflip : (if b = true then qProb e t true else 1 - qProb e t true) = qProb e t b := by
      cases b
      · simp only [Bool.false_eq_true, if_false]; exact qProb_false he t
      · rfl
    rw [hflip] at heq
    rw [heq]
    by_cases h0 : qProb e t b ≤ 0
    · left; rw [if_pos h0, if_pos h0]; exact ⟨rfl, rfl⟩
    · right
      rw [if_neg h0, if_neg h0]
      by_cases h1 : doApply = true ∧ 1 - qProb e t b > 0
      · rw [if_neg (by rw [h1.1]; simpa using h1.2), if_pos h1]
        obtain ⟨p', g1, g2, g3, g4⟩ := pProject hP h hf (t := t) b (1 / (Real.sqrt (qProb e t b) : ℂ))
        rw [g1]
        obtain ⟨k1, k2⟩ := holds_iff.1 ⟨q, g4⟩
        refine ⟨b, p', _, rfl, rfl, g2, rfl, k1, g3, fun i hi => ?_⟩
        rw [k2 i hi, hnf, hmul _ i (by rw [← g2]; exact hi)]
      · rw [if_pos (by
          by_contra hc
          apply h1
          rw [not_or] at hc
          exact ⟨by simpa using hc.1, by simpa using hc.2⟩), if_neg h1]
        exact ⟨b, p, e, rfl, rfl, rfl, rfl, hp, hf, hr⟩

/-- The flat engine that holds `s`. -/
noncomputable def flatOf (n : ℕ) (s : ℕ → ℂ) : Eng := ⟨n, s, 1, false, false, 0⟩

/-- **C35, C20.** The projection rule for the paged register: forcing an impossible outcome throws; otherwise the state
collapses onto the outcome, whose probability was positive. -/
theorem paged_forceM_projects {P : Par} (hP : P.Ok) {p : Pager} (hp : Shape p) (hf : NoFloor p) {s : ℕ → ℂ}
    (hr : Reads p s) (hs : totalProb p.n s = 1) {t : ℕ} (ht : t < p.n) (result doForce : Bool) (r : ℝ) :
    (doForce = true ∧ probIf p.n (fun i => i.testBit t = result) s = 0 ∧ pForceM P p t result doForce true r = none) ∨
    ∃ b p' s', pForceM P p t result doForce true r = some (b, p') ∧ (doForce = true → b = result) ∧
      0 < probIf p.n (fun i => i.testBit t = b) s ∧ Shape p' ∧ NoFloor p' ∧ Reads p' s' ∧
      Collapsed p.n (fun i => i.testBit t = b) s s' := by
  have he : (flatOf p.n s).Steady := ⟨hs, fun h => by cases h⟩
  rcases paged_forceM_flat hP hp hf (e := flatOf p.n s) hr rfl he rfl ht result doForce true r 0 with
    ⟨h1, h2⟩ | ⟨b, p', e', h1, h2, h3, h4, h5, h6, h7⟩
  · rcases forceM_projects hP (e := flatOf p.n s) hp.word he ht result doForce r 0 with ⟨g1, g2, -⟩ | ⟨b, e', g, -⟩
    · exact Or.inl ⟨g1, g2, h1⟩
    · rw [h2] at g; cases g
  · rcases forceM_projects hP (e := flatOf p.n s) hp.word he ht result doForce r 0 with ⟨-, -, g⟩ | ⟨b', e'', g, g2, g3, g4, g5, g6⟩
    · rw [h2] at g; cases g
    · rw [h2] at g; cases g
      exact Or.inr ⟨b, p', _, h1, g2, g3, h5, h6, h7, g6⟩

open MeasureTheory in
/-- **C35, C20.** Born's rule for the paged register. -/
theorem paged_forceM_born {P : Par} (hP : P.Ok) {p : Pager} (hp : Shape p) (hf : NoFloor p) {s : ℕ → ℂ}
    (hr : Reads p s) (hs : totalProb p.n s = 1) {t : ℕ} (ht : t < p.n) (result doApply b : Bool) :
    volume {r : ℝ | 0 ≤ r ∧ r < 1 ∧ ∃ p', pForceM P p t result false doApply r = some (b, p')} =
      ENNReal.ofReal (probIf p.n (fun i => i.testBit t = b) s) := by
  have he : (flatOf p.n s).Steady := ⟨hs, fun h => by cases h⟩
  rw [show probIf p.n (fun i => i.testBit t = b) s = qProb (flatOf p.n s) t b from rfl,
    ← forceM_born hP (e := flatOf p.n s) hp.word he ht result doApply b 0]
  congr 1
  ext r
  simp only [Set.mem_setOf_eq]
  refine and_congr_right fun _ => and_congr_right fun _ => ?_
  rcases paged_forceM_flat hP hp hf (e := flatOf p.n s) hr rfl he rfl ht result false doApply r 0 with
    ⟨h1, h2⟩ | ⟨b', p', e', h1, h2, -⟩
  · rw [h1, h2]; simp
  · rw [h1, h2]; simp

/-- **C35, C22.** `QPager::ProbMask` is the marginal probability of the masked bits; the state is unchanged. -/
theorem paged_probMask {P : Par} (hP : P.Ok) {p : Pager} (hp : Shape p) {s : ℕ → ℂ} (hr : Reads p s)
    (hs : totalProb p.n s = 1) {mask perm : ℕ} (h0 : mask ≠ 0) (hm : mask < 2 ^ p.n) (hpm : perm &&& mask = perm) :
    ∃ p', pProbMask P p mask perm = some (probIf p.n (fun i => i &&& mask = perm) s, p') ∧ Shape p' ∧ Reads p' s := by
  obtain ⟨q, h⟩ := holds_iff.2 ⟨hp, hr⟩
  unfold pProbMask
  rw [if_neg h0]
  obtain ⟨p', q', g1, g2, g3, g4, g5⟩ := combine_holds h (Utils.log2Ocl mask + 1)
  rw [g1, Option.bind_some]
  obtain ⟨k1, k2⟩ := holds_iff.1 ⟨q', g4⟩
  have hlog := Utils.log2Ocl_floor (n := mask) (by omega)
  have hmn : Utils.log2Ocl mask < p.n := by
    have := lt_of_le_of_lt hlog.1 hm
    exact (Nat.pow_lt_pow_iff_right (a := 2) (by norm_num)).1 this
  have hmq : mask < 2 ^ q' := by
    refine lt_of_lt_of_le hlog.2 (Nat.pow_le_pow_right (by norm_num) ?_)
    rw [g5]; omega
  have hbits : ∀ k a, a < 2 ^ q' → (2 ^ q' * k + a) &&& mask = a &&& mask := by
    intro k a ha
    apply Nat.eq_of_testBit_eq
    intro j
    rw [Nat.testBit_and, Nat.testBit_and, testBit_at ha]
    by_cases hj : j < q'
    · rw [if_pos hj]
    · rw [lt_two_pow_iff_testBit.1 hmq j (by omega), Bool.and_false, Bool.and_false]
  have hpage : ∀ k < 2 ^ (p'.n - q'), (probMask P (p'.page k) mask perm).map (fun r => r.1) =
      some (probIf q' (fun a => (2 ^ q' * k + a) &&& mask = perm) (fun a => s (2 ^ q' * k + a))) := by
    intro k hk
    have hpg := g4.pages k hk
    have hc : probIf (p'.page k).n (fun i => i &&& mask = perm) (p'.page k).amp =
        probIf q' (fun a => (2 ^ q' * k + a) &&& mask = perm) (fun a => s (2 ^ q' * k + a)) := by
      rw [hpg.n]
      exact probIf_congr (fun a ha => by rw [hbits k a ha]) hpg.amp
    unfold probMask
    have hni : normIf P.σ (p'.page k) = p'.page k := by unfold normIf; rw [hpg.doNorm]; rfl
    rw [if_neg (by rw [hpg.n]; omega), hni]
    dsimp only
    rw [probMask_sum hP (by rw [hpg.n]; exact g4.word') (by rw [hpg.n]; exact hmq) hpm, hc, Option.map_some,
      clampProb_id (probIf_nonneg _ _ _) (probIf_page_le g4.le (fun i => i &&& mask = perm) s (by rw [g2]; exact hs) hk)]
  have := foldlM_add (f := fun i => (probMask P (p'.page i) mask perm).map fun r => r.1)
      (g := fun k => probIf q' (fun a => (2 ^ q' * k + a) &&& mask = perm) (fun a => s (2 ^ q' * k + a)))
      (List.range p'.count) 0 (fun k hk => hpage k (by rw [← g4.count]; simpa using hk))
  simp only [Option.map_map] at this
  refine ⟨p', ?_, k1, k2⟩
  erw [this]
  rw [Option.map_some, zero_add, sum_listRange, g4.count, ← probIf_pages g4.le (fun i => i &&& mask = perm) s,
    g2, clamp_probIf hs]

/-- C23, C35 fail: on a register of two or more pages `ExpectationBitsAll` and `VarianceBitsAll` of all qubits throw,
because every page is asked for qubits that it does not have. -/
theorem paged_expVar_wrong {P : Par} {p : Pager} (hp : Shape p) (h2 : 2 ≤ p.count) (isExp : Bool) (offset : ℕ) :
    pExpVarAll P p isExp offset = none := by
  obtain ⟨-, -, q, hbq, hqn, hc, hpg⟩ := hp
  have hlt : q < p.n := by
    by_contra hcon
    rw [show p.n - q = 0 by omega, pow_zero] at hc
    omega
  have hbad : Utils.throwIfBad (List.range p.n) (p.page 0).n = true := by
    by_contra hcon
    rw [Bool.not_eq_true, Utils.throwIfBad_correct] at hcon
    have := hcon.1 q (by simpa using hlt)
    rw [(hpg 0 (by omega)).1] at this
    omega
  have hnone : ∀ o, expVarBitsAll P (p.page 0) isExp (List.range p.n) o = none := by
    intro o
    unfold expVarBitsAll expectationBits varianceBits badArgs
    rw [hbad]
    simp
  unfold pExpVarAll
  obtain ⟨c, hc'⟩ : ∃ c, p.count = c + 1 := ⟨p.count - 1, by omega⟩
  dsimp only
  rw [hc', List.range_succ_eq_map, List.foldlM_cons, hnone]
  rfl

/-- Non-vacuity: four pages of one qubit in the state `|5⟩`; qubit 2 tells pages apart and reads one for sure. -/
example : NoFloor demo ∧ demo.count ≠ 1 ∧ 2 ≤ demo.count ∧ totalProb demo.n (fun i => if i = 5 then 1 else 0) = 1 ∧
    pProb ⟨id, 1, fun _ => 0⟩ demo 2 = some 1 := by
  have ht : totalProb demo.n (fun i => if i = 5 then 1 else 0) = 1 := by
    show totalProb 3 _ = 1
    simp [totalProb, Finset.sum_range_succ]
  refine ⟨fun k _ => le_refl _, by decide, by decide, ht, ?_⟩
  rw [paged_prob ⟨fun _ => List.Perm.refl _, fun _ => Nat.one_pos⟩ demo_shape (fun k _ => le_refl _) demo_reads ht
    (show 2 < 3 by norm_num)]
  show some (probIf 3 _ _) = _
  simp [probIf, Finset.sum_range_succ, Nat.testBit]

end Verif.Pager
