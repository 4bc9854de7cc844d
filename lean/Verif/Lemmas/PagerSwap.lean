import Verif.Lemmas.PagerCtrl

/-!
Helper lemmas for the paged register: swaps, masks, combination and separation of pages.
-/

namespace Verif.Pager

open Verif.Engine Verif.ParFor Verif.Bits Verif.Spec Classical

/-! ### Swaps of page qubits -/

theorem expand_two (a b i : ℕ) :
    (i &&& (pow2 a - 1)) ||| ((((i ^^^ (i &&& (pow2 a - 1))) <<< 1) &&& (pow2 b - 1)) |||
      ((((i ^^^ (i &&& (pow2 a - 1))) <<< 1) ^^^ (((i ^^^ (i &&& (pow2 a - 1))) <<< 1) &&& (pow2 b - 1))) <<< 1)) =
      expand ([a, b].map (fun p => 2 ^ p - 1)) i := by
  unfold expand
  simp [pow2, Nat.or_assoc]

theorem xor_pow_swap {a b k : ℕ} : swapBits a b k = if k.testBit a = k.testBit b then k else k ^^^ (2 ^ a ^^^ 2 ^ b) := rfl

theorem exchange_at_hi {q q1 q2 : ℕ} (h1 : q ≤ q1) (h2 : q ≤ q2) (u v : ℂ) (s : ℕ → ℂ) (k : ℕ) {x : ℕ} (hx : x < 2 ^ q) :
    exchange (fun _ => True) q1 q2 u v s (2 ^ q * k + x) =
      if k.testBit (q1 - q) ≠ k.testBit (q2 - q) then
        u * s (2 ^ q * k + x) + v * s (2 ^ q * (k ^^^ (2 ^ (q1 - q) ^^^ 2 ^ (q2 - q))) + x)
      else s (2 ^ q * k + x) := by
  unfold exchange swapBits
  have e1 : (2 ^ q * k + x).testBit q1 = k.testBit (q1 - q) := by rw [testBit_at hx, if_neg (not_lt.2 h1)]
  have e2 : (2 ^ q * k + x).testBit q2 = k.testBit (q2 - q) := by rw [testBit_at hx, if_neg (not_lt.2 h2)]
  have e3 : (2 ^ q * k + x) ^^^ (2 ^ q1 ^^^ 2 ^ q2) = 2 ^ q * (k ^^^ (2 ^ (q1 - q) ^^^ 2 ^ (q2 - q))) + x := by
    have := flip_at_hi hx h1 k
    unfold flipBit at this
    rw [← Nat.xor_assoc, this]
    have := flip_at_hi hx h2 (k ^^^ 2 ^ (q1 - q))
    unfold flipBit at this
    rw [this, Nat.xor_assoc]
  rw [e1, e2, e3]
  by_cases h : k.testBit (q1 - q) = k.testBit (q2 - q) <;> simp [h]

theorem swapPair_bits {a b k : ℕ} (hab : a ≠ b) : (k ^^^ (2 ^ a ^^^ 2 ^ b)).testBit a = !k.testBit a := by
  rw [Nat.testBit_xor, Nat.testBit_xor, Nat.testBit_two_pow, Nat.testBit_two_pow]
  simp [hab.symm]

theorem exchange_comm (q1 q2 : ℕ) (u v : ℂ) (s : ℕ → ℂ) :
    exchange (fun _ => True) q1 q2 u v s = exchange (fun _ => True) q2 q1 u v s := by
  funext i
  unfold exchange swapBits
  rw [Nat.xor_comm (2 ^ q1)]
  by_cases h : i.testBit q1 = i.testBit q2
  · simp [h]
  · have h' : ¬ i.testBit q2 = i.testBit q1 := fun hc => h hc.symm
    simp [h, h']

theorem metaSwap_gate {σ : List ℕ → List ℕ} (hσ : IsSched σ) {p : Pager} {q : ℕ} {s : ℕ → ℂ} (h : Holds p q s)
    {q1 q2 : ℕ} (h1 : q ≤ q1) (h2 : q ≤ q2) (hn1 : q1 < p.n) (hn2 : q2 < p.n) (hne : q1 ≠ q2) (ip inv : Bool) :
    ∃ p', metaSwap σ p q1 q2 ip inv = some p' ∧ p'.n = p.n ∧ p'.base = p.base ∧
      Holds p' q (exchange (fun _ => True) q1 q2 0 (if ip then (if inv then -Complex.I else Complex.I) else 1) s) := by
  set w : ℂ := if ip then (if inv then -Complex.I else Complex.I) else 1 with hw
  have key : ∀ q1 q2, q ≤ q1 → q ≤ q2 → q1 < p.n → q2 < p.n → q1 < q2 →
      ∃ p', metaSwap σ p q1 q2 ip inv = some p' ∧ p'.n = p.n ∧ p'.base = p.base ∧
        Holds p' q (exchange (fun _ => True) q1 q2 0 w s) := by
    clear h1 h2 hn1 hn2 hne q1 q2
    intro q1 q2 h1 h2 hn1 hn2 hlt
    unfold metaSwap
    simp only [h.qpp]
    have hmin : min (q1 - q) (q2 - q) = q1 - q := by omega
    have hmax : max (q1 - q) (q2 - q) = q2 - q := by omega
    rw [hmin, hmax]
    simp only [expand_two]
    set a := q1 - q with ha
    set b := q2 - q with hb
    have hab : a < b := by omega
    have hsort : [a, b].Pairwise (· < ·) := by simp [hab]
    have hexp : ∀ i, expand ([a, b].map (fun p => 2 ^ p - 1)) i = insAll [a, b] i := expand_eq hsort
    simp only [hexp]
    have hsub : ∀ c ∈ [a, b], Sub [a, b] (2 ^ c) := by
      intro c hc k hk
      rw [Nat.testBit_two_pow] at hk
      have : c = k := by simpa using hk
      exact this ▸ hc
    have pat1 : ∀ k, Pat [a, b] (2 ^ a) k ↔ k.testBit a = true ∧ k.testBit b = false := by
      intro k
      simp [Pat, Nat.testBit_two_pow, hab.ne]
    have pat2 : ∀ k, Pat [a, b] (2 ^ b) k ↔ k.testBit a = false ∧ k.testBit b = true := by
      intro k
      simp [Pat, Nat.testBit_two_pow, hab.ne']
    have hlt' : 2 ^ a ^^^ 2 ^ b < 2 ^ (p.n - q) :=
      Nat.xor_lt_two_pow (Nat.pow_lt_pow_right (by norm_num) (by omega)) (Nat.pow_lt_pow_right (by norm_num) (by omega))
    obtain ⟨p', g1, g2, g3, g4, g5⟩ := pairLoop (r := p.n - q) (ps := [a, b]) (o1 := 2 ^ a) (o2 := 2 ^ b) hsort
      (by intro x hx; simp at hx; omega) (hsub a (by simp)) (hsub b (by simp))
      (fun hc => hab.ne (Nat.pow_right_injective le_rfl hc)) (l := List.range (p.count >>> 2))
      (by rw [h.count, shift_pow (by omega)]; simp) (fun i => insAll [a, b] i ||| pow2 a)
      (fun i => insAll [a, b] i ||| pow2 b) (fun i => rfl) (fun i => rfl)
      (fun e1 e2 =>
        let (e1, e2) := (e2, e1)
        if !ip then some (e1, e2)
        else
          let f := if inv then -Complex.I else Complex.I
          (phase σ e1 f f 0).bind fun e1 => (phase σ e2 f f 0).map fun e2 => (e1, e2)) (p := p) h.count
      (fun k e => PageIs q e (fun x => exchange (fun _ => True) q1 q2 0 w s (2 ^ q * k + x)))
      (by
        intro k hk hpat
        obtain ⟨ka, kb⟩ := (pat1 k).1 hpat
        set k' := k ^^^ (2 ^ a ^^^ 2 ^ b) with hk'
        have k'a : k'.testBit a = false := by rw [hk', swapPair_bits hab.ne, ka]; rfl
        have k'b : k'.testBit b = true := by
          rw [hk', Nat.xor_comm (2 ^ a), swapPair_bits hab.ne', kb]; rfl
        have hkk : k' ^^^ (2 ^ a ^^^ 2 ^ b) = k := by rw [hk', Nat.xor_assoc, Nat.xor_self, Nat.xor_zero]
        have P1 := h.pages k hk
        have P2 := h.pages k' (Nat.xor_lt_two_pow hk hlt')
        have r1 : ∀ x, x < 2 ^ q → exchange (fun _ => True) q1 q2 0 w s (2 ^ q * k + x) = w * s (2 ^ q * k' + x) := by
          intro x hx
          rw [exchange_at_hi h1 h2 _ _ _ _ hx, ← ha, ← hb, ka, kb]
          simp [hk']
        have r2 : ∀ x, x < 2 ^ q → exchange (fun _ => True) q1 q2 0 w s (2 ^ q * k' + x) = w * s (2 ^ q * k + x) := by
          intro x hx
          rw [exchange_at_hi h1 h2 _ _ _ _ hx, ← ha, ← hb, k'a, k'b, hkk]
          simp
        cases ip with
        | false =>
          refine ⟨(p.page k', p.page k), rfl, P2.congr fun x hx => ?_, P1.congr fun x hx => ?_⟩
          · rw [r1 x hx]; simp [hw]
          · rw [r2 x hx]; simp [hw]
        | true =>
          have hw' : w = if inv then -Complex.I else Complex.I := by simp [hw]
          obtain ⟨f2, m1, m2⟩ := scale_acts hσ h.pos h.word' w _ _ P2
          obtain ⟨f1, l1, l2⟩ := scale_acts hσ h.pos h.word' w _ _ P1
          refine ⟨(f2, f1), ?_, m2.congr fun x hx => (r1 x hx).symm, l2.congr fun x hx => (r2 x hx).symm⟩
          simp only [Bool.not_true, Bool.false_eq_true, if_false, ← hw']
          dsimp only at m1 l1
          rw [m1, Option.bind_some, l1, Option.map_some])
      (by
        intro k hk n1 n2
        refine (h.pages k hk).congr fun x hx => ?_
        rw [exchange_at_hi h1 h2 _ _ _ _ hx, ← ha, ← hb, if_neg]
        rw [pat1] at n1
        rw [pat2] at n2
        revert n1 n2
        cases k.testBit a <;> cases k.testBit b <;> simp)
    exact ⟨p', g1, g2, g3, h.update g2 g3 g4 g5⟩
  rcases Nat.lt_or_gt_of_ne hne with hlt | hlt
  · exact key q1 q2 h1 h2 hn1 hn2 hlt
  · have := key q2 q1 h2 h1 hn2 hn1 hlt
    rw [exchange_comm] at this
    unfold metaSwap at this ⊢
    simpa only [min_comm (q1 - p.qpp), max_comm (q1 - p.qpp)] using this

/-! ### Loops that multiply or permute inside of the pages -/

theorem pages_any {p : Pager} {q : ℕ} {s s' : ℕ → ℂ} (h : Holds p q s) {f : ℕ → Eng → Option Eng}
    (hf : ∀ k < 2 ^ (p.n - q), ∃ r, f k (p.page k) = some r ∧ PageIs q r (fun a => s' (2 ^ q * k + a))) :
    ∃ p', (List.range p.count).foldlM (fun p i => onPage p i (f i)) p = some p' ∧ p'.n = p.n ∧ p'.base = p.base ∧
      Holds p' q s' := by
  obtain ⟨p', h1, h2, h3, h4, h5⟩ := allPages f (fun k e => PageIs q e (fun a => s' (2 ^ q * k + a))) p
    (fun k hk => hf k (by rw [← h.count]; exact hk))
  exact ⟨p', h1, h2, h3, h.update h2 h3 h4 (fun k hk => h5 k (by rw [h.count]; exact hk))⟩

theorem acts_of_applies {q : ℕ} {e e' : Eng} {s : ℕ → ℂ} {F : (ℕ → ℂ) → ℕ → ℂ} (h : PageIs q e s)
    (ha : Applies e e' F) (hF : ∀ i < 2 ^ q, F e.amp i = F s i) : PageIs q e' (F s) := by
  obtain ⟨h1, h2, h3, h4⟩ := h
  subst h1
  exact ⟨ha.n, by rw [ha.doNorm, h2], by rw [ha.rgp, h3], fun i hi => (ha.amp i hi).trans (hF i hi)⟩

theorem xMask_acts {σ : List ℕ → List ℕ} (hσ : IsSched σ) {q : ℕ} (hq : q ≤ 64) {mask : ℕ} (hm : mask < 2 ^ q) :
    Acts q (fun e => xMask σ e mask) (fun s i => s (i ^^^ mask)) := by
  intro e s h
  have hn := h.n
  obtain ⟨e', h1, h2⟩ := xMask_flips hσ (e := e) (by omega) (mask := mask) (by rw [hn]; exact hm)
  exact ⟨e', h1, acts_of_applies h h2 fun i hi => h.amp _ (Nat.xor_lt_two_pow hi hm)⟩

theorem phaseParity_acts {σ : List ℕ → List ℕ} (hσ : IsSched σ) {q : ℕ} (hq : q ≤ 64) {mask : ℕ} (h0 : mask ≠ 0)
    (hm : mask < 2 ^ q) (θ : ℝ) :
    Acts q (fun e => phaseParity σ e θ mask) (fun s i => parityFactor (θ / 2) (maskCount q mask i) * s i) := by
  intro e s h
  have hn := h.n
  obtain ⟨e', h1, h2⟩ := phaseParity_factor hσ (e := e) (by omega) (mask := mask) h0 (by rw [hn]; exact hm) θ (Or.inl h.rgp)
  rw [hn] at h2
  exact ⟨e', h1, acts_of_applies (F := fun s i => parityFactor (θ / 2) (maskCount q mask i) * s i) h h2
    fun i hi => by simp only [h.amp i hi]⟩

theorem maskCount_at {q n mask k a : ℕ} (hq : q ≤ n) (ha : a < 2 ^ q) :
    maskCount n mask (2 ^ q * k + a) = maskCount (n - q) (mask / 2 ^ q) k + maskCount q (mask % 2 ^ q) a := by
  unfold maskCount
  rw [Finset.card_filter, Finset.card_filter, Finset.card_filter]
  obtain ⟨r, rfl⟩ : ∃ r, n = q + r := ⟨n - q, by omega⟩
  rw [Nat.add_sub_cancel_left, Finset.sum_range_add, Nat.add_comm]
  congr 1
  · refine Finset.sum_congr rfl fun x hx => ?_
    rw [testBit_at ha, if_neg (show ¬ q + x < q by omega), Nat.testBit_div_two_pow, Nat.add_sub_cancel_left, Nat.add_comm q]
  · refine Finset.sum_congr rfl fun x hx => ?_
    have hx : x < q := by simpa using hx
    rw [testBit_at ha, if_pos hx, Nat.testBit_mod_two_pow]
    simp [hx]

theorem parity_neg (θ : ℝ) (c : ℕ) : parityFactor (-θ) c = parityFactor θ (c + 1) := by
  rw [parityFactor_cos, parityFactor_cos]
  rcases Nat.mod_two_eq_zero_or_one c with h | h
  · rw [if_neg (by omega), if_pos (by omega)]; simp
  · rw [if_pos h, if_neg (by omega)]; simp

theorem parity_mod {θ : ℝ} {c c' : ℕ} (h : c % 2 = c' % 2) : parityFactor θ c = parityFactor θ c' := by
  rw [parityFactor_cos, parityFactor_cos, h]

/-! ### Combination and separation -/

theorem mapM_some {α β : Type} {f : α → Option β} : ∀ (l : List α), (∀ x ∈ l, ∃ y, f x = some y) →
    ∃ ys, l.mapM f = some ys ∧ ys.length = l.length ∧ ∀ i (h : i < l.length), f l[i] = ys[i]? := by
  intro l
  induction l with
  | nil => intro _; exact ⟨[], rfl, rfl, fun i h => by simp at h⟩
  | cons x l ih =>
    intro h
    obtain ⟨y, hy⟩ := h x (by simp)
    obtain ⟨ys, h1, h2, h3⟩ := ih (fun z hz => h z (by simp [hz]))
    refine ⟨y :: ys, ?_, by simp [h2], ?_⟩
    · rw [List.mapM_cons, hy, Option.bind_eq_bind, Option.bind_some, h1]; rfl
    · intro i hi
      cases i with
      | zero => simpa using hy
      | succ i => simpa using h3 i (by simpa using hi)

theorem mapM_range {β : Type} {f : ℕ → Option β} {m : ℕ} (d : β) (R : ℕ → β → Prop)
    (h : ∀ x < m, ∃ y, f x = some y ∧ R x y) :
    ∃ ys, (List.range m).mapM f = some ys ∧ ys.length = m ∧ ∀ i < m, R i (ys.getD i d) := by
  obtain ⟨ys, h1, h2, h3⟩ := mapM_some (f := f) (List.range m) (fun x hx => by
    obtain ⟨y, hy, -⟩ := h x (by simpa using hx); exact ⟨y, hy⟩)
  refine ⟨ys, h1, by simpa using h2, fun i hi => ?_⟩
  have e := h3 i (by simpa using hi)
  obtain ⟨y, hy, hR⟩ := h i hi
  rw [List.getElem_range, hy] at e
  rw [List.getD_eq_getElem?_getD, ← e]
  exact hR

theorem makeEngine_is (q : ℕ) : PageIs q (makeEngine q) (fun _ => 0) := ⟨rfl, rfl, rfl, fun _ _ => rfl⟩

theorem setPage_is {q q' : ℕ} {dst src : Eng} {s s' : ℕ → ℂ} (h : PageIs q dst s) (h' : PageIs q' src s') {so d len : ℕ}
    (h1 : d + len ≤ 2 ^ q) (h2 : so + len ≤ 2 ^ q') :
    ∃ e, setAmplitudePage dst src so d len = some e ∧
      PageIs q e (fun i => if d ≤ i ∧ i < d + len then s' (i - d + so) else s i) := by
  unfold setAmplitudePage badPermRange
  rw [if_neg (by rw [h.n, h'.n]; omega)]
  refine ⟨_, rfl, h.n, h.doNorm, h.rgp, fun i hi => ?_⟩
  dsimp only
  by_cases hc : d ≤ i ∧ i < d + len
  · rw [if_pos hc, if_pos hc, h'.amp _ (by omega)]
  · rw [if_neg hc, if_neg hc, h.amp i hi]

theorem separate_holds {p : Pager} {q : ℕ} {s : ℕ → ℂ} (h : Holds p q s) {th : ℕ} {nf : Bool}
    (hnf : nf = true → p.base ≤ th) :
    ∃ p' q', separateEngines p th nf = some p' ∧ p'.n = p.n ∧ p'.base = p.base ∧ Holds p' q' s ∧ q' ≤ q ∧
      q' = min q (max th p.base) := by
  unfold separateEngines
  set th' := if nf = false ∧ th < p.base then p.base else th with hth'
  have hval : th' = max th p.base := by
    rw [hth']
    by_cases hc : nf = false ∧ th < p.base
    · rw [if_pos hc]; omega
    · rw [if_neg hc]
      cases nf with
      | true => have := hnf rfl; omega
      | false => simp at hc; omega
  simp only [h.qpp]
  by_cases hle : q ≤ th'
  · rw [if_pos hle]
    exact ⟨p, q, rfl, rfl, rfl, h, le_rfl, by omega⟩
  · rw [if_neg hle]
    have hlt : th' < q := not_le.1 hle
    have hqn := h.le
    have hb : p.base ≤ th' := by omega
    have hper : pow2 (p.n - th') / p.count = 2 ^ (q - th') := by
      rw [h.count, pow2, Nat.pow_div (by omega) (by norm_num)]; congr 1; omega
    have hcount : p.count * (pow2 (p.n - th') / p.count) = 2 ^ (p.n - th') := by
      rw [hper, h.count, ← pow_add]; congr 1; omega
    rw [hcount, hper]
    obtain ⟨ys, g1, g2, g3⟩ := mapM_range (m := 2 ^ (p.n - th')) (makeEngine th')
      (f := fun x => setAmplitudePage (makeEngine th') (p.page (x / 2 ^ (q - th'))) (x % 2 ^ (q - th') * pow2 th') 0 (pow2 th'))
      (fun x e => PageIs th' e (fun a => s (2 ^ th' * x + a)))
      (fun x hx => by
        have hk : x / 2 ^ (q - th') < 2 ^ (p.n - q) := by
          have := div_lt' (q := q - th') (n := p.n - th') (by omega) hx
          rwa [show p.n - th' - (q - th') = p.n - q by omega] at this
        have hm : x % 2 ^ (q - th') < 2 ^ (q - th') := Nat.mod_lt _ (by positivity)
        have hpq : 2 ^ q = 2 ^ (q - th') * 2 ^ th' := by rw [← pow_add]; congr 1; omega
        obtain ⟨e, k1, k2⟩ := setPage_is (makeEngine_is th') (h.pages _ hk) (so := x % 2 ^ (q - th') * pow2 th') (d := 0)
          (len := pow2 th') (by simp [pow2]) (by
            rw [hpq, pow2, ← Nat.succ_mul]
            exact Nat.mul_le_mul_right _ hm)
        refine ⟨e, k1, k2.congr fun i hi => ?_⟩
        dsimp only
        rw [if_pos ⟨Nat.zero_le _, by simpa [pow2] using hi⟩]
        congr 1
        have hx' := Nat.div_add_mod x (2 ^ (q - th'))
        rw [pow2, hpq]
        clear k1 k2 hk hm
        generalize x / 2 ^ (q - th') = y at hx' ⊢
        generalize x % 2 ^ (q - th') = z at hx' ⊢
        subst hx'
        rw [Nat.sub_zero]
        ring)
    refine ⟨{ p with count := ys.length, page := fun i => ys.getD i (makeEngine th') }, th', by rw [g1]; rfl, rfl, rfl, ?_, hlt.le, by omega⟩
    exact ⟨by have := h.base1; omega, by simp only; omega, h.word, h.base1, hb, g2, g3⟩

theorem combine_holds {p : Pager} {q : ℕ} {s : ℕ → ℂ} (h : Holds p q s) (bit : ℕ) :
    ∃ p' q', combineEngines p bit = some p' ∧ p'.n = p.n ∧ p'.base = p.base ∧ Holds p' q' s ∧
      q' = max q (min bit p.n) := by
  unfold combineEngines
  have hbit : (if p.n < bit then p.n else bit) = min bit p.n := by
    by_cases hc : p.n < bit
    · rw [if_pos hc]; omega
    · rw [if_neg hc]; omega
  simp only [hbit, h.qpp]
  set b := min bit p.n with hb
  have hqn := h.le
  by_cases hle : b ≤ q
  · rw [if_pos hle]
    exact ⟨p, q, rfl, rfl, rfl, h, by omega⟩
  · rw [if_neg hle]
    have hlt : q < b := not_le.1 hle
    have hbn : b ≤ p.n := by omega
    have hgs : p.count / pow2 (p.n - b) = 2 ^ (b - q) := by
      rw [h.count, pow2, Nat.pow_div (by omega) (by norm_num)]; congr 1; omega
    rw [hgs, h.pageMax]
    have hpb : 2 ^ b = 2 ^ (b - q) * 2 ^ q := by rw [← pow_add]; congr 1; omega
    obtain ⟨ys, g1, g2, g3⟩ := mapM_range (m := pow2 (p.n - b)) (makeEngine b)
      (f := fun i => (List.range (2 ^ (b - q))).foldlM (fun (engine : Eng) j =>
        if j + i * 2 ^ (b - q) < p.count then
          setAmplitudePage engine (p.page (j + i * 2 ^ (b - q))) 0 (j * 2 ^ q) (2 ^ q) else none) (makeEngine b))
      (fun x e => PageIs b e (fun a => s (2 ^ b * x + a)))
      (fun x hx => by
        have key : ∀ m, m ≤ 2 ^ (b - q) → ∃ e, (List.range m).foldlM (fun (engine : Eng) j =>
            if j + x * 2 ^ (b - q) < p.count then
              setAmplitudePage engine (p.page (j + x * 2 ^ (b - q))) 0 (j * 2 ^ q) (2 ^ q) else none) (makeEngine b) = some e ∧
            PageIs b e (fun a => if a < m * 2 ^ q then s (2 ^ b * x + a) else 0) := by
          intro m
          induction m with
          | zero => intro _; exact ⟨makeEngine b, rfl, (makeEngine_is b).congr fun i _ => by simp⟩
          | succ m ih =>
            intro hm
            obtain ⟨e, k1, k2⟩ := ih (by omega)
            have hpage : m + x * 2 ^ (b - q) < 2 ^ (p.n - q) := by
              have : 2 ^ (p.n - q) = 2 ^ (p.n - b) * 2 ^ (b - q) := by rw [← pow_add]; congr 1; omega
              rw [this]
              calc m + x * 2 ^ (b - q) < 2 ^ (b - q) + x * 2 ^ (b - q) := by omega
                _ = (x + 1) * 2 ^ (b - q) := by ring
                _ ≤ _ := Nat.mul_le_mul_right _ hx
            have hend : m * 2 ^ q + 2 ^ q ≤ 2 ^ b := by
              rw [hpb, ← Nat.succ_mul]; exact Nat.mul_le_mul_right _ hm
            obtain ⟨e', l1, l2⟩ := setPage_is k2 (h.pages _ hpage) (so := 0) (d := m * 2 ^ q) (len := 2 ^ q) hend (by omega)
            refine ⟨e', ?_, l2.congr fun i hi => ?_⟩
            · rw [List.range_succ, List.foldlM_append, k1]
              simp only [Option.bind_eq_bind, Option.bind_some, List.foldlM_cons, List.foldlM_nil]
              rw [if_pos (by rw [h.count]; exact hpage), l1]
              rfl
            · dsimp only
              by_cases c1 : m * 2 ^ q ≤ i ∧ i < m * 2 ^ q + 2 ^ q
              · rw [if_pos c1, if_pos (by rw [Nat.succ_mul]; exact c1.2)]
                congr 1
                rw [hpb]
                have : i - m * 2 ^ q + 0 + m * 2 ^ q = i := by omega
                generalize i - m * 2 ^ q + 0 = y at this
                subst this
                ring
              · rw [if_neg c1]
                by_cases c2 : i < m * 2 ^ q
                · rw [if_pos c2, if_pos (by rw [Nat.succ_mul]; exact lt_of_lt_of_le c2 (Nat.le_add_right _ _))]
                · rw [if_neg c2, if_neg (by rw [Nat.succ_mul]; exact fun hc => c1 ⟨not_lt.1 c2, hc⟩)]
        obtain ⟨e, k1, k2⟩ := key _ le_rfl
        refine ⟨e, k1, k2.congr fun i hi => ?_⟩
        dsimp only
        rw [if_pos (by rw [← hpb]; exact hi)])
    refine ⟨{ p with count := ys.length, page := fun i => ys.getD i (makeEngine b) }, b, by rw [g1]; rfl, rfl, rfl, ?_, by omega⟩
    exact ⟨by have := h.pos; omega, hbn, h.word, h.base1, by have := h.base; show p.base ≤ b; omega, g2, g3⟩

end Verif.Pager
