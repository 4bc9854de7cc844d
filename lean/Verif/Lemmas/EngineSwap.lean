import Verif.Lemmas.EngineGate

/-! The pair loop with offsets `o | 2^a`, `o | 2^b` is a controlled exchange. -/

namespace Verif.Engine

open Verif.ParFor Verif.Bits Verif.Spec Classical

theorem testBit_or_pow (o q k : ℕ) : (o ||| 2 ^ q).testBit k = (o.testBit k || decide (q = k)) := by
  rw [Nat.testBit_or, Nat.testBit_two_pow]

theorem pairSpec_exchange {n a b o : ℕ} {cs ps : List ℕ}
    (hmem : ∀ k, k ∈ ps ↔ k ∈ cs ∨ k = a ∨ k = b) (hab : a ≠ b) (hac : a ∉ cs) (hbc : b ∉ cs)
    (ho : Sub cs o) (p : ℕ → Prop) [DecidablePred p] (hp : ∀ i, p i ↔ Pat cs o i) {m : M2}
    (h1 : m.d = m.a) (h2 : m.c = m.b) (s : ℕ → ℂ) {i : ℕ} (hi : i < 2 ^ n) :
    pairSpec n ps (o ||| 2 ^ a) (o ||| 2 ^ b) (mul2 m 1) s i = exchange p a b m.a m.b s i := by
  have hoa : o.testBit a = false := by
    by_contra hc; exact hac (ho a (by simpa using hc))
  have hob : o.testBit b = false := by
    by_contra hc; exact hbc (ho b (by simpa using hc))
  have key : ∀ x y, x ≠ y → x ∉ cs → y ∉ cs → o.testBit y = false →
      (∀ k, k ∈ ps ↔ k ∈ cs ∨ k = x ∨ k = y) →
      (Pat ps (o ||| 2 ^ x) i ↔ p i ∧ i.testBit x = true ∧ i.testBit y = false) := by
    intro x y hxy hx hy hoy hm
    rw [hp]
    constructor
    · intro h
      refine ⟨fun c hc => ?_, ?_, ?_⟩
      · rw [h c ((hm c).2 (Or.inl hc)), testBit_or_pow]
        have : x ≠ c := fun h => hx (h ▸ hc)
        simp [this]
      · rw [h x ((hm x).2 (by simp)), testBit_or_pow]; simp
      · rw [h y ((hm y).2 (by simp)), testBit_or_pow, hoy]; simp [hxy]
    · rintro ⟨h, hx1, hy1⟩ k hk
      rw [testBit_or_pow]
      rcases (hm k).1 hk with hk | rfl | rfl
      · have : x ≠ k := fun h => hx (h ▸ hk)
        simp [this, h k hk]
      · simp [hx1]
      · simp [hy1, hoy, hxy]
  have k1 := key a b hab hac hbc hob hmem
  have k2 := key b a hab.symm hbc hac hoa (fun k => by rw [hmem]; tauto)
  have hx : (o ||| 2 ^ a) ^^^ (o ||| 2 ^ b) = 2 ^ a ^^^ 2 ^ b := by
    apply Nat.eq_of_testBit_eq
    intro k
    rw [Nat.testBit_xor, testBit_or_pow, testBit_or_pow, Nat.testBit_xor, Nat.testBit_two_pow,
      Nat.testBit_two_pow]
    by_cases ha : a = k
    · subst ha; simp [hoa]
    · by_cases hb : b = k
      · subst hb; simp [hob, ha]
      · simp [ha, hb]
  unfold pairSpec exchange swapBits
  simp only [hi, true_and, k1, k2, mul2_fst, mul2_snd, hx, one_mul, h1, h2]
  by_cases hpi : p i
  · cases ha : i.testBit a <;> cases hb : i.testBit b <;> simp [hpi, add_comm]
  · simp [hpi]

theorem valid_swap {n a b o : ℕ} {cs : List ℕ} (hn : n ≤ 64) (hnd : (cs ++ [a, b]).Nodup)
    (hb : ∀ k ∈ cs ++ [a, b], k < n) (ho : Sub cs o) :
    Valid n ((cs ++ [a, b]).mergeSort (· ≤ ·)) (o ||| 2 ^ a) (o ||| 2 ^ b) := by
  have hac : a ∉ cs := fun h => (List.nodup_append.1 hnd).2.2 a h a (by simp) rfl
  have hab : a ≠ b := by
    have := (List.nodup_append.1 hnd).2.1
    simpa using this
  have hsub : ∀ x ∈ cs ++ [a, b], Sub ((cs ++ [a, b]).mergeSort (· ≤ ·)) (o ||| 2 ^ x) := by
    intro x hx k hk
    rw [testBit_or_pow, Bool.or_eq_true] at hk
    rcases hk with hk | hk
    · exact mem_sort.2 (by simp [ho k hk])
    · have : x = k := by simpa using hk
      subst this
      exact mem_sort.2 hx
  refine ⟨sorted_lt_of_nodup hnd, fun p hp => hb p (mem_sort.1 hp), hn, hsub a (by simp),
    hsub b (by simp), ?_⟩
  intro h
  have := congrArg (fun x => x.testBit a) h
  simp only [testBit_or_pow, decide_true, Bool.or_true, hab.symm, decide_false, Bool.or_false]
    at this
  exact hac (ho a this.symm)

theorem exchange_comm {p : ℕ → Prop} [DecidablePred p] (a b : ℕ) (u v : ℂ) (s : ℕ → ℂ) (i : ℕ) :
    exchange p a b u v s i = exchange p b a u v s i := by
  unfold exchange swapBits
  rw [Nat.xor_comm (2 ^ a)]
  simp only [ne_comm (a := i.testBit a), eq_comm (a := i.testBit a)]

theorem exchange_minmax {p : ℕ → Prop} [DecidablePred p] (a b : ℕ) (u v : ℂ) (s : ℕ → ℂ) (i : ℕ) :
    exchange p (min a b) (max a b) u v s i = exchange p a b u v s i := by
  rcases le_total a b with h | h
  · rw [min_eq_left h, max_eq_right h]
  · rw [min_eq_right h, max_eq_left h, exchange_comm]

theorem apply2x2_exchange {σ : List ℕ → List ℕ} (hσ : IsSched σ) {e : Eng} {a b o : ℕ}
    {cs : List ℕ} (hn : e.n ≤ 64) (hnd : (cs ++ [a, b]).Nodup) (hb : ∀ k ∈ cs ++ [a, b], k < e.n)
    (ho : Sub cs o) (p : ℕ → Prop) [DecidablePred p] (hp : ∀ i, p i ↔ Pat cs o i) {m : M2}
    (h1 : m.d = m.a) (h2 : m.c = m.b) :
    ∃ e', apply2x2 σ e (o ||| 2 ^ a) (o ||| 2 ^ b) m (sortPows (cs.map pow2 ++ [pow2 a, pow2 b]))
        false = some e' ∧
      e'.n = e.n ∧ e'.rn = e.rn ∧ e'.doNorm = e.doNorm ∧ e'.floor = e.floor ∧ e'.rgp = e.rgp ∧
      (∀ i < 2 ^ e.n, e'.amp i = exchange p a b m.a m.b e.amp i) := by
  have hac : a ∉ cs := fun h => (List.nodup_append.1 hnd).2.2 a h a (by simp) rfl
  have hbc : b ∉ cs := fun h => (List.nodup_append.1 hnd).2.2 b h b (by simp) rfl
  have hab : a ≠ b := by
    have := (List.nodup_append.1 hnd).2.1
    simpa using this
  have hs : sortPows (cs.map pow2 ++ [pow2 a, pow2 b]) =
      ((cs ++ [a, b]).mergeSort (· ≤ ·)).map (2 ^ ·) := by
    rw [← sortPows_map]; simp
  have v := valid_swap hn hnd hb ho
  rw [hs, apply2x2_plain hσ v m]
  have hlen : (((cs ++ [a, b]).mergeSort (· ≤ ·)).length == 1) = false := by
    rw [List.length_mergeSort, List.length_append]
    simp
  refine ⟨_, rfl, rfl, ?_, rfl, rfl, rfl, ?_⟩
  · simp only [hlen, Bool.and_false, Bool.false_and, Bool.false_eq_true, if_false]
  · intro i hi
    exact pairSpec_exchange (fun k => by rw [mem_sort]; simp) hab hac hbc ho p hp h1 h2 e.amp hi

theorem swapBits_lt {n a b i : ℕ} (ha : a < n) (hb : b < n) (hi : i < 2 ^ n) :
    swapBits a b i < 2 ^ n := by
  unfold swapBits
  split_ifs
  · exact hi
  · exact Nat.xor_lt_two_pow hi (Nat.xor_lt_two_pow (Nat.pow_lt_pow_right (by norm_num) ha)
      (Nat.pow_lt_pow_right (by norm_num) hb))

/-- `swapBits` does exchange the two bits and nothing else. -/
theorem testBit_swapBits (a b i k : ℕ) : (swapBits a b i).testBit k =
    if k = a then i.testBit b else if k = b then i.testBit a else i.testBit k := by
  unfold swapBits
  by_cases h : i.testBit a = i.testBit b
  · rw [if_pos h]
    split_ifs with h1 h2
    · rw [h1, h]
    · rw [h2, h]
    · rfl
  · rw [if_neg h, Nat.testBit_xor, Nat.testBit_xor, Nat.testBit_two_pow, Nat.testBit_two_pow]
    have hab : a ≠ b := fun e => h (by rw [e])
    by_cases h1 : k = a
    · subst h1
      simp only [decide_true, hab.symm, decide_false, Bool.xor_false, Bool.xor_true, if_true]
      revert h; cases i.testBit k <;> cases i.testBit b <;> simp
    · by_cases h2 : k = b
      · subst h2
        simp only [decide_true, hab, decide_false, Bool.false_xor, Bool.xor_true, if_true, h1,
          if_false]
        revert h; cases i.testBit a <;> cases i.testBit k <;> simp
      · simp [h1, h2, Ne.symm h1, Ne.symm h2]

theorem swapBits_swapBits (a b i : ℕ) : swapBits a b (swapBits a b i) = i := by
  apply Nat.eq_of_testBit_eq
  intro k
  rw [testBit_swapBits, testBit_swapBits, testBit_swapBits, testBit_swapBits]
  split_ifs <;> simp_all

theorem exchange_congr {n a b : ℕ} (ha : a < n) (hb : b < n) (p : ℕ → Prop) [DecidablePred p]
    (u v : ℂ) {s s' : ℕ → ℂ} (h : SameOn n s s') :
    SameOn n (exchange p a b u v s) (exchange p a b u v s') := by
  intro i hi
  unfold exchange
  rw [h i hi, h _ (swapBits_lt ha hb hi)]

theorem exchange_exchange {p : ℕ → Prop} [DecidablePred p] {a b : ℕ}
    (hp : ∀ i, p (swapBits a b i) ↔ p i) (u v u' v' : ℂ) (s : ℕ → ℂ) (i : ℕ) :
    exchange p a b u' v' (exchange p a b u v s) i =
      exchange p a b (u' * u + v' * v) (u' * v + v' * u) s i := by
  unfold exchange
  have e1 : (swapBits a b i).testBit a = i.testBit b := by rw [testBit_swapBits]; simp
  have e2 : (swapBits a b i).testBit b = i.testBit a := by
    rw [testBit_swapBits, if_pos rfl]; split_ifs with h
    · rw [h]
    · rfl
  by_cases hc : p i ∧ i.testBit a ≠ i.testBit b
  · have hc' : p (swapBits a b i) ∧ (swapBits a b i).testBit a ≠ (swapBits a b i).testBit b := by
      rw [e1, e2]; exact ⟨(hp i).2 hc.1, hc.2.symm⟩
    rw [if_pos hc, if_pos hc, if_pos hc', if_pos hc, swapBits_swapBits]
    ring
  · rw [if_neg hc, if_neg hc, if_neg hc]

end Verif.Engine
