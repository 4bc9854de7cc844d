import Verif.Lemmas.PagerSwap
import Verif.Props.EngineSwap

/-!
Helper lemmas for the paged register: the public operations.
-/

namespace Verif.Pager

open Verif.Engine Verif.ParFor Verif.Bits Verif.Spec Classical

theorem pMtrx_holds {σ : List ℕ → List ℕ} (hσ : IsSched σ) {p : Pager} {q : ℕ} {s : ℕ → ℂ} (h : Holds p q s) (m : M2)
    {t : ℕ} (ht : t < p.n) :
    ∃ p', pMtrx σ p m t = some p' ∧ p'.n = p.n ∧ p'.base = p.base ∧
      Holds p' q (gate (fun _ => True) t m.a m.b m.c m.d s) := by
  unfold pMtrx
  by_cases h1 : m.b = 0 ∧ m.c = 0
  · rw [if_pos h1]
    have := applySingleEither_gate hσ h false m.a m.d ht
    simpa only [Bool.false_eq_true, if_false, h1.1, h1.2] using this
  · rw [if_neg h1]
    by_cases h2 : m.a = 0 ∧ m.d = 0
    · rw [if_pos h2]
      have := applySingleEither_gate hσ h true m.b m.c ht
      simpa only [if_true, h2.1, h2.2] using this
    · rw [if_neg h2]
      exact singleBitGate_gate hσ h (fn := fun e t => mtrx σ e m t) ht (P := fun _ => True) (Q := fun _ => True)
        m.a m.b m.c m.d false false
        (fun hlt => mtrx_acts hσ h.word' m hlt)
        (fun hge => ⟨mtrx_acts hσ h.word' m (by have := h.pos; omega), fun _ => Iff.rfl⟩)
        (fun _ _ _ _ => Iff.rfl) (fun _ _ _ _ => by simp)

theorem matches_flip {perm t i : ℕ} {cs : List ℕ} (ht : t ∉ cs) : Matches perm cs (flipBit t i) ↔ Matches perm cs i := by
  unfold Matches
  refine forall₂_congr fun k hk => ?_
  have : cs[k] ≠ t := fun hc => ht (hc ▸ List.getElem_mem hk)
  rw [testBit_flip']
  simp [this]

theorem matches_withTop {perm i : ℕ} {cs : List ℕ} (b : Bool) :
    Matches (if b then perm ||| pow2 cs.length else perm) cs i ↔ Matches perm cs i := by
  cases b
  · simp
  · have := matches_or (perm := perm) (x := 1) (cs := cs) (i := i)
    rw [Nat.shiftLeft_eq, one_mul] at this
    simpa [pow2] using this

theorem anti_iff (cp i : ℕ) : ((cp >>> i &&& 1) == 0) = !cp.testBit i := by
  have := and_one_ne_zero cp i
  cases h : cp.testBit i
  · rw [h] at this
    simpa using this
  · rw [h] at this
    simpa using this

theorem applyEither_holds {σ : List ℕ → List ℕ} (hσ : IsSched σ) {p : Pager} {q : ℕ} {s : ℕ → ℂ} (h : Holds p q s) (m : M2)
    {cp t : ℕ} {cs : List ℕ} (hnd : (cs ++ [t]).Nodup) (hb : ∀ k ∈ cs ++ [t], k < p.n)
    (h8 : t < q → ∀ c ∈ cs, c < q + 8) :
    ∃ p', applyEitherControlled σ p cp cs t m = some p' ∧ p'.n = p.n ∧ p'.base = p.base ∧
      Holds p' q (gate (Matches cp cs) t m.a m.b m.c m.d s) := by
  have htn : t < p.n := hb t (by simp)
  have hcs : cs.Nodup := (List.nodup_append.1 hnd).1
  have htc : t ∉ cs := fun hm => (List.nodup_append.1 hnd).2.2 t hm t (by simp) rfl
  unfold applyEitherControlled
  by_cases hnil : cs = []
  · subst hnil
    rw [if_pos rfl]
    obtain ⟨p', k1, k2, k3, k4⟩ := pMtrx_holds hσ h m htn
    exact ⟨p', k1, k2, k3, k4.congr fun i _ => gate_iff (by simp [matches_nil])⟩
  rw [if_neg hnil]
  simp only [h.qpp]
  have inv := split_inv (t := t) (cp := cp) h.pos cs hcs
  set S := cs.zipIdx.foldl (splitStep q t cp) {} with hS
  simp only [anti_iff, Bool.not_not]
  set b := cp.testBit S.sqiIndex with hbdef
  set ip := if (S.isSqi && b) = true then S.intraPerm ||| pow2 S.intraCs.length else S.intraPerm with hip
  set mp := if (S.isSqi && b) = true then S.metaPerm ||| pow2 S.metaCs.length else S.metaPerm with hmp
  have hmi : ∀ i, Matches ip S.intraCs i ↔ Matches S.intraPerm S.intraCs i := fun i => matches_withTop _
  have hmm : ∀ i, Matches mp S.metaCs i ↔ Matches S.metaPerm S.metaCs i := fun i => matches_withTop _
  have hq1 := h.pos
  have iq : ∀ c ∈ S.intraCs, c < q ∧ c ∈ cs ∧ ¬ (q ≤ t ∧ c = q - 1) := by
    intro c hc
    rw [inv.intra, List.mem_filter] at hc
    have := hc.2
    rw [decide_eq_true_eq] at this
    exact ⟨this.1, hc.1, this.2⟩
  have mq : ∀ c ∈ S.metaCs, q ≤ c ∧ c ∈ cs := by
    intro c hc
    rw [inv.mt, List.mem_filter] at hc
    exact ⟨by simpa using hc.2, hc.1⟩
  have ind : S.intraCs.Nodup := by rw [inv.intra]; exact hcs.filter _
  have mnd : S.metaCs.Nodup := by rw [inv.mt]; exact hcs.filter _
  have actLo : t < q → Acts q (fun e => ucMtrx σ e S.intraCs m t ip) (gate (Matches ip S.intraCs) t m.a m.b m.c m.d) := by
    intro ht
    refine ucMtrx_acts hσ h.word' m ?_ ?_ ip
    · refine List.nodup_append.2 ⟨ind, by simp, ?_⟩
      intro c hc d hd hcd
      have : d = t := by simpa using hd
      exact htc (by rw [← this, ← hcd]; exact (iq c hc).2.1)
    · intro k hk
      rcases List.mem_append.1 hk with hk | hk
      · exact (iq k hk).1
      · have : k = t := by simpa using hk
        omega
  have notTop : q ≤ t → q - 1 ∉ S.intraCs := fun ht hc => (iq _ hc).2.2 ⟨ht, rfl⟩
  have actHi : q ≤ t → Acts q (fun e => ucMtrx σ e S.intraCs m (q - 1) ip)
      (gate (Matches ip S.intraCs) (q - 1) m.a m.b m.c m.d) := by
    intro ht
    refine ucMtrx_acts hσ h.word' m ?_ ?_ ip
    · refine List.nodup_append.2 ⟨ind, by simp, ?_⟩
      intro c hc d hd hcd
      have : d = q - 1 := by simpa using hd
      exact notTop ht (by rw [← this, ← hcd]; exact hc)
    · intro k hk
      rcases List.mem_append.1 hk with hk | hk
      · exact (iq k hk).1
      · have : k = q - 1 := by simpa using hk
        omega
  have noSqi : t < q → ¬ S.isSqi = true := fun ht hc => by have := (inv.sqi.1 hc).1; omega
  by_cases hm : S.metaCs = []
  · rw [if_pos hm]
    have base : ∀ k x, x < 2 ^ q → (Matches cp cs (2 ^ q * k + x) ↔ Matches ip S.intraCs x ∧
        (S.isSqi = true → x.testBit (q - 1) = b)) := by
      intro k x hx
      rw [inv.iff, hm, matches_lo hx (fun c hc => (iq c hc).1), ← hmi, testBit_at hx, if_pos (show q - 1 < q by omega)]
      simp [matches_nil, hbdef]
    refine singleBitGate_gate hσ h (fn := fun e t => ucMtrx σ e S.intraCs m t ip) htn (P := Matches cp cs)
      (Q := Matches ip S.intraCs) m.a m.b m.c m.d S.isSqi (!b) actLo
      (fun ht => ⟨actHi ht, fun i => matches_flip (notTop ht)⟩) (fun ht k x hx => ?_) (fun ht k x hx => ?_)
    · rw [base k x hx]
      simp [noSqi ht]
    · rw [base k x hx, Bool.not_not]
  · rw [if_neg hm]
    have low : ∀ i, Matches S.intraPerm S.intraCs i ↔ Matches ip S.intraCs (i % 2 ^ q) := by
      intro i
      rw [hmi]
      have hx : i % 2 ^ q < 2 ^ q := Nat.mod_lt _ (by positivity)
      rw [← matches_lo (k := i / 2 ^ q) hx (fun c hc => (iq c hc).1), Nat.div_add_mod]
    by_cases ht : t < q
    · rw [if_pos ht]
      refine semiMetaControlled_gate h (fn := fun e t => ucMtrx σ e S.intraCs m t ip) ht mnd
        (fun c hc => ⟨(mq c hc).1, hb c (by simp [(mq c hc).2])⟩)
        (fun c hc => by have := h8 ht c (mq c hc).2; have := (mq c hc).1; omega) (P := Matches cp cs)
        (Q := Matches ip S.intraCs) m.a m.b m.c m.d (actLo ht) (fun i => ?_)
      rw [inv.iff, low, hmm]
      simp [noSqi ht]
    · rw [if_neg ht]
      have ht' : q ≤ t := not_lt.1 ht
      refine metaControlled_gate hσ h (fn := fun e t => ucMtrx σ e S.intraCs m t ip) ht' htn ?_
        (fun c hc => ⟨(mq c hc).1, hb c (by simp [(mq c hc).2])⟩) (P := Matches cp cs)
        (Q := Matches ip S.intraCs) m S.isSqi _ (actHi ht') (fun i => matches_flip (notTop ht')) ?_ (fun i => ?_)
      · refine List.nodup_append.2 ⟨mnd, by simp, ?_⟩
        intro c hc d hd hcd
        have : d = t := by simpa using hd
        exact htc (by rw [← this, ← hcd]; exact (mq c hc).2)
      · intro hl i
        have : S.intraCs = [] := by
          have : S.intraCs.length = 0 := by simpa using hl
          exact List.length_eq_zero_iff.1 this
        rw [this]
        exact matches_nil _ _
      · rw [inv.iff, low, hmm]
        refine and_congr_right fun _ => and_congr_right fun _ => imp_congr_right fun hsq => ?_
        have : mp.testBit S.metaCs.length = b := by
          rw [hmp, hsq, Bool.true_and]
          cases b
          · simp [Nat.testBit_lt_two_pow inv.ml]
          · simp [Nat.testBit_or, pow2]
        rw [this]

theorem matches_allAre {anti : Bool} {cs : List ℕ} {i : ℕ} :
    Matches (if anti then 0 else pow2 cs.length - 1) cs i ↔ AllAre (!anti) cs i := by
  unfold Matches AllAre
  constructor
  · intro h c hc
    obtain ⟨k, hk, rfl⟩ := List.mem_iff_getElem.1 hc
    rw [h k hk]
    cases anti <;> simp [pow2, Nat.testBit_two_pow_sub_one, hk]
  · intro h k hk
    rw [h _ (List.getElem_mem hk)]
    cases anti <;> simp [pow2, Nat.testBit_two_pow_sub_one, hk]

theorem pControlled_holds {σ : List ℕ → List ℕ} (hσ : IsSched σ) {p : Pager} {q : ℕ} {s : ℕ → ℂ} (h : Holds p q s) (m : M2)
    {t : ℕ} {cs : List ℕ} (hnd : (cs ++ [t]).Nodup) (hb : ∀ k ∈ cs ++ [t], k < p.n)
    (h8 : t < q → ∀ c ∈ cs, c < q + 8) (anti : Bool) :
    ∃ p', pControlled σ p anti cs m t = some p' ∧ p'.n = p.n ∧ p'.base = p.base ∧
      Holds p' q (gate (AllAre (!anti) cs) t m.a m.b m.c m.d s) := by
  unfold pControlled
  by_cases h1 : p.count = 1
  · rw [if_pos h1]
    have hqn : q = p.n := by
      have := h.count
      rw [h1] at this
      have h0 : p.n - q = 0 := by
        by_contra hc
        have := Nat.one_lt_two_pow hc
        omega
      have := h.le
      omega
    have P0 := h.pages 0 (by positivity)
    obtain ⟨e, k1, k2⟩ := eitherMtrx_acts hσ h.word' m hnd (by rw [hqn]; exact hb) anti _ _ P0
    have hrun : onPage p 0 (fun e => eitherMtrx σ e cs m t anti) =
        some { p with page := Function.update p.page 0 e } := by
      unfold onPage
      dsimp only at k1 ⊢
      rw [if_pos (by omega), k1]
      rfl
    refine ⟨_, hrun, rfl, rfl, ?_⟩
    refine h.update rfl rfl rfl fun k hk => ?_
    have hk0 : k = 0 := by rw [hqn] at hk; simpa using hk
    subst hk0
    show PageIs q (Function.update p.page 0 e 0) _
    rw [Function.update_self]
    exact k2.congr fun x hx => by
      have e : ∀ y, 2 ^ q * 0 + y = y := fun y => by omega
      simp only [e]
  · rw [if_neg h1]
    obtain ⟨p', k1, k2, k3, k4⟩ := applyEither_holds hσ h m (cp := if anti then 0 else pow2 cs.length - 1) hnd hb h8
    exact ⟨p', k1, k2, k3, k4.congr fun i _ => gate_iff matches_allAre⟩

/-! ### Swaps -/

/-- The controlled NOT on basis states. -/
def cnotBits (c t i : ℕ) : ℕ := if i.testBit c then flipBit t i else i

theorem gate_cnot (c t : ℕ) (s : ℕ → ℂ) : gate (AllAre true [c]) t 0 1 1 0 s = fun i => s (cnotBits c t i) := by
  funext i
  unfold gate cnotBits
  by_cases hc : i.testBit c = true
  · by_cases ht : i.testBit t = true <;> simp [AllAre, hc, ht]
  · simp [AllAre, hc]

theorem cnot_cnot_cnot {a b : ℕ} (hab : a ≠ b) (i : ℕ) :
    cnotBits a b (cnotBits b a (cnotBits a b i)) = swapBits a b i := by
  have hba : b ≠ a := hab.symm
  have hc : ∀ x : ℕ, x ^^^ 2 ^ b ^^^ 2 ^ a ^^^ 2 ^ b = x ^^^ 2 ^ a := fun x => by
    rw [Nat.xor_assoc x, Nat.xor_comm (2 ^ b), ← Nat.xor_assoc, Nat.xor_assoc (x ^^^ 2 ^ a), Nat.xor_self, Nat.xor_zero]
  unfold cnotBits swapBits
  by_cases ha : i.testBit a = true <;> by_cases hb : i.testBit b = true <;>
    simp [ha, hb, testBit_flip', hab, hba, flipBit, Nat.testBit_xor, Nat.testBit_two_pow, Nat.xor_assoc,
      Nat.xor_comm (2 ^ b) (2 ^ a)]

theorem exchange_swap {a b : ℕ} (s : ℕ → ℂ) :
    exchange (fun _ => True) a b 0 1 s = fun i => s (swapBits a b i) := by
  funext i
  unfold exchange swapBits
  by_cases h : i.testBit a = i.testBit b <;> simp [h]

theorem swapDefault_holds {σ : List ℕ → List ℕ} (hσ : IsSched σ) {p : Pager} {q : ℕ} {s : ℕ → ℂ} (h : Holds p q s)
    {a b : ℕ} (hab : a ≠ b) (ha : a < p.n) (hb : b < p.n) (h8a : b < q → a < q + 8) (h8b : a < q → b < q + 8) :
    ∃ p', pSwapDefault σ p a b = some p' ∧ p'.n = p.n ∧ p'.base = p.base ∧
      Holds p' q (exchange (fun _ => True) a b 0 1 s) := by
  unfold pSwapDefault pCNOT
  rw [if_neg hab]
  have step : ∀ {p' : Pager} {s' : ℕ → ℂ} (c t : ℕ), p'.n = p.n → Holds p' q s' → c ≠ t → c < p.n → t < p.n →
      (t < q → c < q + 8) → ∃ p'', pControlled σ p' false [c] ⟨0, 1, 1, 0⟩ t = some p'' ∧ p''.n = p'.n ∧
        p''.base = p'.base ∧ Holds p'' q (fun i => s' (cnotBits c t i)) := by
    intro p' s' c t hn h' hct hc ht h8
    have := pControlled_holds hσ h' ⟨0, 1, 1, 0⟩ (t := t) (cs := [c]) (by simpa using hct)
      (by intro k hk; simp at hk; rcases hk with rfl | rfl <;> omega)
      (by intro hlt k hk; simp at hk; subst hk; exact h8 hlt) false
    obtain ⟨p'', k1, k2, k3, k4⟩ := this
    exact ⟨p'', k1, k2, k3, k4.congr fun i _ => congrFun (gate_cnot c t s') i⟩
  obtain ⟨p1, k1, k2, k3, k4⟩ := step a b rfl h hab ha hb h8a
  obtain ⟨p2, l1, l2, l3, l4⟩ := step b a k2 k4 hab.symm hb ha h8b
  obtain ⟨p3, m1, m2, m3, m4⟩ := step a b (l2.trans k2) l4 hab ha hb h8a
  refine ⟨p3, by rw [k1, Option.bind_some, l1, Option.bind_some, m1], by omega, m3.trans (l3.trans k3), ?_⟩
  refine m4.congr fun i _ => ?_
  rw [exchange_swap]
  exact congrArg s (cnot_cnot_cnot hab i)

theorem swapLike_acts {σ : List ℕ → List ℕ} (hσ : IsSched σ) {q : ℕ} (hq : q ≤ 64) {m : M2} (h1 : m.d = m.a)
    (h2 : m.c = m.b) {a b : ℕ} (ha : a < q) (hb : b < q) :
    Acts q (fun e => swapLike σ e m a b) (exchange (fun _ => True) a b m.a m.b) := by
  intro e s h
  have hn := h.n
  obtain ⟨e', k1, k2, -, k3, -, k4, k5⟩ := swapLike_exchange hσ (e := e) (by omega) h1 h2 (q1 := a) (q2 := b) (by omega)
    (by omega)
  refine ⟨e', k1, by omega, by rw [k3, h.doNorm], by rw [k4, h.rgp], fun i hi => ?_⟩
  rw [k5 i (by rw [hn]; exact hi)]
  have hsw : swapBits a b i < 2 ^ q := by
    unfold swapBits
    by_cases hc : i.testBit a = i.testBit b
    · rw [if_pos hc]; exact hi
    · rw [if_neg hc]
      exact Nat.xor_lt_two_pow hi (Nat.xor_lt_two_pow (Nat.pow_lt_pow_right (by norm_num) ha)
        (Nat.pow_lt_pow_right (by norm_num) hb))
  unfold exchange
  rw [h.amp i hi, h.amp _ hsw]

theorem exchange_at_lo {q a b : ℕ} (ha : a < q) (hb : b < q) (u v : ℂ) (s : ℕ → ℂ) (k : ℕ) {x : ℕ} (hx : x < 2 ^ q) :
    exchange (fun _ => True) a b u v s (2 ^ q * k + x) =
      exchange (fun _ => True) a b u v (fun y => s (2 ^ q * k + y)) x := by
  unfold exchange swapBits
  have e1 : (2 ^ q * k + x).testBit a = x.testBit a := by rw [testBit_at hx, if_pos ha]
  have e2 : (2 ^ q * k + x).testBit b = x.testBit b := by rw [testBit_at hx, if_pos hb]
  have e3 : (2 ^ q * k + x) ^^^ (2 ^ a ^^^ 2 ^ b) = 2 ^ q * k + (x ^^^ (2 ^ a ^^^ 2 ^ b)) := by
    have h1 := flip_at_lo hx ha k
    have h2 := flip_at_lo (flip_lt' ha hx) hb k
    unfold flipBit at h1 h2
    rw [← Nat.xor_assoc, h1, h2, Nat.xor_assoc]
  rw [e1, e2, e3]
  by_cases h : x.testBit a = x.testBit b <;> simp [h]

theorem inPage_holds {σ : List ℕ → List ℕ} (hσ : IsSched σ) {p : Pager} {q : ℕ} {s : ℕ → ℂ} (h : Holds p q s) {m : M2}
    (h1 : m.d = m.a) (h2 : m.c = m.b) {a b : ℕ} (ha : a < q) (hb : b < q) :
    ∃ p', (List.range p.count).foldlM (fun p i => onPage p i fun e => swapLike σ e m a b) p = some p' ∧ p'.n = p.n ∧
      p'.base = p.base ∧ Holds p' q (exchange (fun _ => True) a b m.a m.b s) := by
  refine pages_any h (f := fun _ e => swapLike σ e m a b) fun k hk => ?_
  obtain ⟨e, k1, k2⟩ := swapLike_acts hσ h.word' h1 h2 ha hb _ _ (h.pages k hk)
  exact ⟨e, k1, k2.congr fun x hx => (exchange_at_lo ha hb _ _ _ _ hx).symm⟩

theorem toBase {p : Pager} {q : ℕ} {s : ℕ → ℂ} (h : Holds p q s) :
    ∃ p', separateEngines p p.base false = some p' ∧ p'.n = p.n ∧ p'.base = p.base ∧ Holds p' p.base s := by
  obtain ⟨p', q', k1, k2, k3, k4, -, k5⟩ := separate_holds h (th := p.base) (nf := false) (by simp)
  have : q' = p.base := by have := h.base; omega
  rw [this] at k4
  exact ⟨p', k1, k2, k3, k4⟩

/-- Where a swap of two qubits is right: not between a qubit inside of a page and one more than seven above the page. -/
def SwapOk (base a b : ℕ) : Prop := (a < base → b < base + 8) ∧ (b < base → a < base + 8)

theorem pSwap_holds {σ : List ℕ → List ℕ} (hσ : IsSched σ) {p : Pager} {q : ℕ} {s : ℕ → ℂ} (h : Holds p q s)
    {a b : ℕ} (ha : a < p.n) (hb : b < p.n) (hok : SwapOk p.base a b) :
    ∃ p' q', pSwap σ p a b = some p' ∧ p'.n = p.n ∧ p'.base = p.base ∧
      Holds p' q' (exchange (fun _ => True) a b 0 1 s) := by
  unfold pSwap
  by_cases hab : a = b
  · subst hab
    rw [if_pos rfl]
    exact ⟨p, q, rfl, rfl, rfl, h.congr fun i _ => by simp [exchange]⟩
  rw [if_neg hab]
  by_cases h1 : p.base ≤ a ∧ p.base ≤ b
  · rw [if_pos h1]
    obtain ⟨p1, k1, k2, k3, k4⟩ := toBase h
    obtain ⟨p2, l1, l2, l3, l4⟩ := metaSwap_gate hσ k4 h1.1 h1.2 (by omega) (by omega) hab false false
    exact ⟨p2, p.base, by rw [k1, Option.bind_some, l1], by omega, l3.trans k3, by simpa using l4⟩
  rw [if_neg h1]
  by_cases h2 : p.base ≤ a ∨ p.base ≤ b
  · rw [if_pos h2]
    obtain ⟨p1, k1, k2, k3, k4⟩ := toBase h
    obtain ⟨p2, l1, l2, l3, l4⟩ := swapDefault_holds hσ k4 hab (by omega) (by omega) hok.2 hok.1
    exact ⟨p2, p.base, by rw [k1, Option.bind_some, l1], by omega, l3.trans k3, l4⟩
  · rw [if_neg h2]
    push Not at h2
    have := h.base
    obtain ⟨p', k1, k2, k3, k4⟩ := inPage_holds hσ h (m := pauliX) rfl rfl (a := a) (b := b) (by omega) (by omega)
    exact ⟨p', q, k1, k2, k3, by simpa [pauliX] using k4⟩

theorem exchange_phase {hi lo : ℕ} (hne : hi ≠ lo) (w : ℂ) (s : ℕ → ℂ) (i : ℕ) :
    exchange (fun _ => True) hi lo 0 w s i =
      (if i.testBit hi = i.testBit lo then 1 else w) * exchange (fun _ => True) hi lo 0 1 s i := by
  unfold exchange
  by_cases h : i.testBit hi = i.testBit lo <;> simp [h]

theorem iswapPhases_holds {σ : List ℕ → List ℕ} (hσ : IsSched σ) {p : Pager} {s : ℕ → ℂ} (h : Holds p p.base s)
    {hi lo : ℕ} (hhi : p.base ≤ hi) (hlo : lo < p.base) (w : ℂ) :
    ∃ p', iswapPhases σ p hi lo w = some p' ∧ p'.n = p.n ∧ p'.base = p.base ∧
      Holds p' p.base (fun i => (if i.testBit hi = i.testBit lo then 1 else w) * s i) := by
  unfold iswapPhases
  have hb : ∀ (l : List ℕ) (p0 : Pager), p0.base = p.base →
      l.foldlM (fun (p0 : Pager) i => onPage p0 i fun e =>
        if (i >>> (hi - p0.base)) &&& 1 ≠ 0 then phase σ e w 1 lo else phase σ e 1 w lo) p0 =
      l.foldlM (fun (p0 : Pager) i => onPage p0 i fun e =>
        if (i >>> (hi - p.base)) &&& 1 ≠ 0 then phase σ e w 1 lo else phase σ e 1 w lo) p0 := by
    intro l
    induction l with
    | nil => intro p0 _; rfl
    | cons i l ih =>
      intro p0 h0
      rw [List.foldlM_cons, List.foldlM_cons, h0]
      simp only [Option.bind_eq_bind]
      by_cases hc : ∃ p1, onPage p0 i (fun e =>
        if (i >>> (hi - p.base)) &&& 1 ≠ 0 then phase σ e w 1 lo else phase σ e 1 w lo) = some p1
      · obtain ⟨p1, h1⟩ := hc
        rw [h1, Option.bind_some, Option.bind_some]
        refine ih p1 ?_
        unfold onPage at h1
        by_cases hlt : i < p0.count
        · rw [if_pos hlt] at h1
          obtain ⟨e, -, rfl⟩ := Option.map_eq_some_iff.1 h1
          exact h0
        · rw [if_neg hlt] at h1; cases h1
      · have : onPage p0 i (fun e =>
          if (i >>> (hi - p.base)) &&& 1 ≠ 0 then phase σ e w 1 lo else phase σ e 1 w lo) = none := by
          by_contra hn
          exact hc (Option.ne_none_iff_exists'.1 hn)
        rw [this]; rfl
  rw [hb _ p rfl]
  refine pages_any h (f := fun i e => if (i >>> (hi - p.base)) &&& 1 ≠ 0 then phase σ e w 1 lo else phase σ e 1 w lo)
    fun k hk => ?_
  have key : ∀ x, x < 2 ^ p.base → (2 ^ p.base * k + x).testBit hi = k.testBit (hi - p.base) ∧
      (2 ^ p.base * k + x).testBit lo = x.testBit lo := fun x hx =>
    ⟨by rw [testBit_at hx, if_neg (not_lt.2 hhi)], by rw [testBit_at hx, if_pos hlo]⟩
  by_cases hk1 : k.testBit (hi - p.base) = true
  · obtain ⟨e, k1, k2⟩ := phase_acts hσ h.word' w 1 hlo _ _ (h.pages k hk)
    refine ⟨e, by rw [if_pos ((and_one_ne_zero _ _).2 hk1)]; exact k1, k2.congr fun x hx => ?_⟩
    rw [(key x hx).1, (key x hx).2, hk1]
    unfold gate
    by_cases hxb : x.testBit lo = true <;> simp [hxb]
  · obtain ⟨e, k1, k2⟩ := phase_acts hσ h.word' 1 w hlo _ _ (h.pages k hk)
    refine ⟨e, by rw [if_neg (fun hc => hk1 ((and_one_ne_zero _ _).1 hc))]; exact k1, k2.congr fun x hx => ?_⟩
    have hk0 : k.testBit (hi - p.base) = false := by simpa using hk1
    rw [(key x hx).1, (key x hx).2, hk0]
    unfold gate
    by_cases hxb : x.testBit lo = true <;> simp [hxb]

/-- The factor of an `ISwap` (or its inverse). -/
noncomputable def iswapFactor (isInverse : Bool) : ℂ := if isInverse then -Complex.I else Complex.I

theorem eitherISwap_holds {σ : List ℕ → List ℕ} (hσ : IsSched σ) {p : Pager} {q : ℕ} {s : ℕ → ℂ} (h : Holds p q s)
    {a b : ℕ} (ha : a < p.n) (hb : b < p.n) (hok : SwapOk p.base a b) (inv : Bool) :
    ∃ p' q', eitherISwap σ p a b inv = some p' ∧ p'.n = p.n ∧ p'.base = p.base ∧
      Holds p' q' (exchange (fun _ => True) a b 0 (iswapFactor inv) s) := by
  unfold eitherISwap
  simp only []
  by_cases hab : a = b
  · subst hab
    rw [if_pos rfl]
    exact ⟨p, q, rfl, rfl, rfl, h.congr fun i _ => by simp [exchange]⟩
  rw [if_neg hab]
  by_cases h1 : p.base ≤ a ∧ p.base ≤ b
  · rw [if_pos h1]
    obtain ⟨p1, k1, k2, k3, k4⟩ := toBase h
    obtain ⟨p2, l1, l2, l3, l4⟩ := metaSwap_gate hσ k4 h1.1 h1.2 (by omega) (by omega) hab true inv
    exact ⟨p2, p.base, by rw [k1, Option.bind_some, l1], by omega, l3.trans k3, by simpa [iswapFactor] using l4⟩
  rw [if_neg h1]
  by_cases h2 : p.base ≤ a
  · rw [if_pos h2]
    obtain ⟨p1, k1, k2, k3, k4⟩ := toBase h
    obtain ⟨p2, l1, l2, l3, l4⟩ := swapDefault_holds hσ k4 hab (by omega) (by omega) hok.2 hok.1
    have hb2 : p2.base = p.base := l3.trans k3
    rw [← hb2] at l4
    obtain ⟨p3, m1, m2, m3, m4⟩ := iswapPhases_holds hσ l4 (hi := a) (lo := b) (by omega) (by omega) (iswapFactor inv)
    refine ⟨p3, p2.base, by rw [k1, Option.bind_some, l1, Option.bind_some]; exact m1, by omega, m3.trans hb2, ?_⟩
    exact m4.congr fun i _ => (exchange_phase hab _ _ _).symm
  rw [if_neg h2]
  by_cases h3 : p.base ≤ b
  · rw [if_pos h3]
    obtain ⟨p1, k1, k2, k3, k4⟩ := toBase h
    obtain ⟨p2, l1, l2, l3, l4⟩ := swapDefault_holds hσ k4 hab (by omega) (by omega) hok.2 hok.1
    have hb2 : p2.base = p.base := l3.trans k3
    rw [← hb2] at l4
    obtain ⟨p3, m1, m2, m3, m4⟩ := iswapPhases_holds hσ l4 (hi := b) (lo := a) (by omega) (by omega) (iswapFactor inv)
    refine ⟨p3, p2.base, by rw [k1, Option.bind_some, l1, Option.bind_some]; exact m1, by omega, m3.trans hb2, ?_⟩
    refine m4.congr fun i _ => ?_
    rw [exchange_comm a b 0 (iswapFactor inv), exchange_phase (Ne.symm hab), exchange_comm a b]
  · rw [if_neg h3]
    have := h.base
    cases inv
    · obtain ⟨p', k1, k2, k3, k4⟩ := inPage_holds hσ h (m := iswapM) rfl rfl (a := a) (b := b) (by omega) (by omega)
      exact ⟨p', q, k1, k2, k3, by simpa [iswapM, iswapFactor] using k4⟩
    · obtain ⟨p', k1, k2, k3, k4⟩ := inPage_holds hσ h (m := iiswapM) rfl rfl (a := a) (b := b) (by omega) (by omega)
      exact ⟨p', q, k1, k2, k3, by simpa [iiswapM, iswapFactor] using k4⟩

/-! ### Masks -/

theorem pX_holds {σ : List ℕ → List ℕ} (hσ : IsSched σ) {p : Pager} {q : ℕ} {s : ℕ → ℂ} (h : Holds p q s) {t : ℕ}
    (ht : t < p.n) : ∃ p', pX σ p t = some p' ∧ p'.n = p.n ∧ p'.base = p.base ∧ Holds p' q (fun i => s (flipBit t i)) := by
  unfold pX
  obtain ⟨p', k1, k2, k3, k4⟩ := applySingleEither_gate hσ h true 1 1 ht
  refine ⟨p', k1, k2, k3, k4.congr fun i _ => ?_⟩
  unfold gate
  by_cases hb : i.testBit t = true <;> simp [hb]

theorem xMaskLoop_holds {σ : List ℕ → List ℕ} (hσ : IsSched σ) {q : ℕ} : ∀ (fuel : ℕ) {p : Pager} {s : ℕ → ℂ} {mask : ℕ},
    Holds p q s → mask < 2 ^ p.n → (∀ j, mask.testBit j = true → 64 ≤ j + fuel) →
    ∃ p', xMaskLoop σ fuel p mask = some p' ∧ p'.n = p.n ∧ p'.base = p.base ∧ Holds p' q (fun i => s (i ^^^ mask)) := by
  intro fuel
  induction fuel with
  | zero =>
    intro p s mask h hm hj
    have h0 : mask = 0 := by
      by_contra hne
      obtain ⟨l, hl, -⟩ := and_pred hne
      have h1 := hj l hl
      have h2 : mask < 2 ^ l := lt_of_lt_of_le hm (Nat.pow_le_pow_right (by norm_num) (by have := h.word; omega))
      rw [Nat.testBit_lt_two_pow h2] at hl
      cases hl
    subst h0
    exact ⟨p, rfl, rfl, rfl, by simpa using h⟩
  | succ fuel ih =>
    intro p s mask h hm hj
    unfold xMaskLoop
    by_cases h0 : mask = 0
    · subst h0
      rw [if_pos rfl]
      exact ⟨p, rfl, rfl, rfl, by simpa using h⟩
    · rw [if_neg h0]
      obtain ⟨l, h1, h2, h3, h4⟩ := and_pred h0
      simp only [h4, log2Ocl_pow]
      have hl : l < p.n := by
        by_contra hc
        rw [Nat.testBit_lt_two_pow (lt_of_lt_of_le hm (Nat.pow_le_pow_right (by norm_num) (not_lt.1 hc)))] at h1
        cases h1
      obtain ⟨p1, k1, k2, k3, k4⟩ := pX_holds hσ h hl
      obtain ⟨p2, l1, l2, l3, l4⟩ := ih k4 (mask := mask &&& (mask - 1))
        (by rw [k2]; exact lt_of_le_of_lt Nat.and_le_left hm) (by
          intro j hj'
          rw [h3] at hj'
          have ha : mask.testBit j = true := by
            by_contra hc; simp [hc] at hj'
          have hb : j ≠ l := by rintro rfl; simp at hj'
          have hlj : l < j := by
            by_contra hc
            have := h2 j (by omega)
            rw [this] at ha; cases ha
          have := hj l h1
          omega)
      refine ⟨p2, by rw [k1, Option.bind_some, l1], by omega, l3.trans k3, ?_⟩
      refine l4.congr fun i _ => ?_
      dsimp only
      congr 1
      unfold flipBit
      rw [← h4, Nat.xor_assoc, Nat.xor_comm mask, ← Nat.xor_assoc (mask &&& (mask - 1)), Nat.xor_self, Nat.zero_xor]

theorem mask_split {q mask : ℕ} : mask ^^^ (mask &&& (2 ^ q - 1)) = 2 ^ q * (mask / 2 ^ q) := by
  rw [Nat.and_two_pow_sub_one_eq_mod]
  apply Nat.eq_of_testBit_eq
  intro j
  rw [Nat.testBit_xor, Nat.testBit_mod_two_pow]
  have := testBit_at (q := q) (a := 0) (by positivity) (mask / 2 ^ q) j
  rw [Nat.add_zero] at this
  rw [this]
  by_cases hj : j < q
  · simp [hj]
  · simp [hj, Nat.testBit_div_two_pow, Nat.sub_add_cancel (not_lt.1 hj)]

theorem pXMask_holds {σ : List ℕ → List ℕ} (hσ : IsSched σ) {p : Pager} {q : ℕ} {s : ℕ → ℂ} (h : Holds p q s) {mask : ℕ}
    (hm : mask < 2 ^ p.n) : ∃ p', pXMask σ p mask = some p' ∧ p'.n = p.n ∧ p'.base = p.base ∧
      Holds p' q (fun i => s (i ^^^ mask)) := by
  unfold pXMask
  simp only [h.pageMax]
  have hin : mask ^^^ (mask &&& (2 ^ q - 1)) < 2 ^ p.n :=
    Nat.xor_lt_two_pow hm (lt_of_le_of_lt Nat.and_le_left hm)
  obtain ⟨p1, k1, k2, k3, k4⟩ := xMaskLoop_holds hσ 64 h hin (fun j _ => by omega)
  have hlt : mask &&& (2 ^ q - 1) < 2 ^ q := by
    rw [Nat.and_two_pow_sub_one_eq_mod]; exact Nat.mod_lt _ (by positivity)
  obtain ⟨p2, l1, l2, l3, l4⟩ := pages_any k4 (s' := fun i => s (i ^^^ mask))
    (f := fun _ e => xMask σ e (mask &&& (2 ^ q - 1))) (fun k hk => by
      obtain ⟨e, m1, m2⟩ := xMask_acts hσ k4.word' hlt _ _ (k4.pages k hk)
      refine ⟨e, m1, m2.congr fun x hx => ?_⟩
      dsimp only
      congr 1
      have e1 : 2 ^ q * k + (x ^^^ (mask &&& (2 ^ q - 1))) = (2 ^ q * k + x) ^^^ (mask &&& (2 ^ q - 1)) := by
        apply Nat.eq_of_testBit_eq
        intro j
        rw [Nat.testBit_xor, testBit_at (Nat.xor_lt_two_pow hx hlt), testBit_at hx]
        by_cases hj : j < q
        · simp [hj]
        · rw [if_neg hj, if_neg hj, Nat.testBit_lt_two_pow (lt_of_lt_of_le hlt (Nat.pow_le_pow_right (by norm_num) (not_lt.1 hj)))]
          simp
      rw [e1, Nat.xor_assoc, Nat.xor_comm mask, ← Nat.xor_assoc (mask &&& (2 ^ q - 1)), Nat.xor_self, Nat.zero_xor])
  exact ⟨p2, by rw [k1, Option.bind_some, l1], by omega, l3.trans k3, l4⟩

theorem pPhaseParity_holds {σ : List ℕ → List ℕ} (hσ : IsSched σ) {p : Pager} {q : ℕ} {s : ℕ → ℂ} (h : Holds p q s)
    {mask : ℕ} (hm : mask < 2 ^ p.n) (θ : ℝ) : ∃ p', pPhaseParity σ p θ mask = some p' ∧ p'.n = p.n ∧ p'.base = p.base ∧
      Holds p' q (fun i => parityFactor (θ / 2) (maskCount p.n mask i) * s i) := by
  unfold pPhaseParity
  simp only [h.pageMax, h.qpp]
  rw [mask_split, Nat.and_two_pow_sub_one_eq_mod, Nat.shiftRight_eq_div_pow, Nat.mul_div_cancel_left _ (by positivity)]
  refine pages_any h (f := fun i e =>
      if mask % 2 ^ q ≠ 0 then phaseParity σ e (if parityBit (mask / 2 ^ q &&& i) ≠ 0 then -θ else θ) (mask % 2 ^ q)
      else if parityBit (mask / 2 ^ q &&& i) ≠ 0 then
        phase σ e (Complex.exp (((θ / 2 : ℝ) : ℂ) * Complex.I)) (Complex.exp (((θ / 2 : ℝ) : ℂ) * Complex.I)) 0
      else phase σ e (1 / Complex.exp (((θ / 2 : ℝ) : ℂ) * Complex.I)) (1 / Complex.exp (((θ / 2 : ℝ) : ℂ) * Complex.I)) 0)
    fun k hk => ?_
  have hmh : mask / 2 ^ q < 2 ^ (p.n - q) := div_lt' h.le hm
  have hml : mask % 2 ^ q < 2 ^ q := Nat.mod_lt _ (by positivity)
  have hpar : parityBit (mask / 2 ^ q &&& k) ≠ 0 ↔ maskCount (p.n - q) (mask / 2 ^ q) k % 2 = 1 := by
    rw [Nat.and_comm]
    exact par_maskCount (by have := h.word; omega) hmh
  have hcount : ∀ x, x < 2 ^ q → maskCount p.n mask (2 ^ q * k + x) =
      maskCount (p.n - q) (mask / 2 ^ q) k + maskCount q (mask % 2 ^ q) x := fun x hx => maskCount_at h.le hx
  generalize parityBit (mask / 2 ^ q &&& k) = v at hpar ⊢
  generalize maskCount (p.n - q) (mask / 2 ^ q) k = c at hpar hcount
  by_cases h0 : mask % 2 ^ q ≠ 0
  · simp only [if_pos h0]
    obtain ⟨e, k1, k2⟩ := phaseParity_acts hσ h.word' h0 hml (if v ≠ 0 then -θ else θ) _ _ (h.pages k hk)
    refine ⟨e, k1, k2.congr fun x hx => ?_⟩
    dsimp only
    rw [hcount x hx]
    congr 1
    by_cases hv : v ≠ 0
    · rw [if_pos hv, neg_div, parity_neg]
      have := hpar.1 hv
      exact parity_mod (by omega)
    · rw [if_neg hv]
      have : ¬ c % 2 = 1 := fun hc => hv (hpar.2 hc)
      exact parity_mod (by omega)
  · simp only [if_neg h0]
    have hz : ∀ x, maskCount q (mask % 2 ^ q) x = 0 := by
      intro x
      push Not at h0
      rw [h0]
      simp [maskCount]
    by_cases hv : v ≠ 0
    · obtain ⟨e, k1, k2⟩ := scale_acts hσ h.pos h.word' (Complex.exp (((θ / 2 : ℝ) : ℂ) * Complex.I)) _ _ (h.pages k hk)
      refine ⟨e, by rw [if_pos hv]; exact k1, k2.congr fun x hx => ?_⟩
      rw [hcount x hx, hz, Nat.add_zero]
      unfold parityFactor
      rw [if_pos (hpar.1 hv), mul_comm (Complex.I)]
    · obtain ⟨e, k1, k2⟩ := scale_acts hσ h.pos h.word' (1 / Complex.exp (((θ / 2 : ℝ) : ℂ) * Complex.I)) _ _ (h.pages k hk)
      refine ⟨e, by rw [if_neg hv]; exact k1, k2.congr fun x hx => ?_⟩
      rw [hcount x hx, hz, Nat.add_zero]
      unfold parityFactor
      rw [if_neg (fun hc => hv (hpar.2 hc)), one_div, ← Complex.exp_neg]
      push_cast
      ring_nf

end Verif.Pager
