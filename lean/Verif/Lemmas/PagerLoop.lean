import Verif.Model.Pager
import Verif.Lemmas.Engine
import Verif.Props.Utils

/-!
Helper lemmas for the paged register: page numbers visited by the loops, and loops over pages.
-/

namespace Verif.Pager

open Verif.Engine Verif.ParFor Verif.Bits Verif.Spec Classical

/-! ### Indices -/

theorem testBit_at {q a : ℕ} (ha : a < 2 ^ q) (k t : ℕ) :
    (2 ^ q * k + a).testBit t = if t < q then a.testBit t else k.testBit (t - q) :=
  Nat.testBit_two_pow_mul_add k ha t

theorem flip_lt' {q t a : ℕ} (ht : t < q) (ha : a < 2 ^ q) : flipBit t a < 2 ^ q :=
  Nat.xor_lt_two_pow ha (Nat.pow_lt_pow_right (by norm_num) ht)

theorem testBit_flip' (t i k : ℕ) : (flipBit t i).testBit k = (i.testBit k ^^ decide (k = t)) := by
  unfold flipBit
  rw [Nat.testBit_xor, Nat.testBit_two_pow]
  by_cases h : t = k
  · simp [h]
  · simp [h, Ne.symm h]

theorem flip_at_lo {q a t : ℕ} (ha : a < 2 ^ q) (ht : t < q) (k : ℕ) :
    flipBit t (2 ^ q * k + a) = 2 ^ q * k + flipBit t a := by
  apply Nat.eq_of_testBit_eq
  intro j
  rw [testBit_flip', testBit_at ha, testBit_at (flip_lt' ht ha), testBit_flip']
  by_cases hj : j < q
  · simp [hj]
  · simp [hj, show j ≠ t by omega]

theorem flip_at_hi {q a t : ℕ} (ha : a < 2 ^ q) (ht : q ≤ t) (k : ℕ) :
    flipBit t (2 ^ q * k + a) = 2 ^ q * flipBit (t - q) k + a := by
  apply Nat.eq_of_testBit_eq
  intro j
  rw [testBit_flip', testBit_at ha, testBit_at ha, testBit_flip']
  by_cases hj : j < q
  · simp [hj, show j ≠ t by omega]
  · rw [if_neg hj, if_neg hj]
    congr 1
    rw [decide_eq_decide]
    omega

theorem xor_at {q a m : ℕ} (ha : a < 2 ^ q) (k : ℕ) :
    (2 ^ q * k + a) ^^^ m = 2 ^ q * (k ^^^ (m / 2 ^ q)) + (a ^^^ (m % 2 ^ q)) := by
  have hb : a ^^^ (m % 2 ^ q) < 2 ^ q := Nat.xor_lt_two_pow ha (Nat.mod_lt _ (by positivity))
  apply Nat.eq_of_testBit_eq
  intro j
  rw [Nat.testBit_xor, testBit_at ha, testBit_at hb, Nat.testBit_xor, Nat.testBit_xor, Nat.testBit_mod_two_pow,
    Nat.testBit_div_two_pow]
  by_cases hj : j < q
  · simp [hj]
  · simp [hj, Nat.sub_add_cancel (not_lt.1 hj)]

theorem at_lt {q n k a : ℕ} (hq : q ≤ n) (hk : k < 2 ^ (n - q)) (ha : a < 2 ^ q) : 2 ^ q * k + a < 2 ^ n := by
  have h : 2 ^ n = 2 ^ q * 2 ^ (n - q) := by rw [← pow_add]; congr 1; omega
  rw [h]
  calc 2 ^ q * k + a < 2 ^ q * k + 2 ^ q := by omega
    _ = 2 ^ q * (k + 1) := by ring
    _ ≤ _ := Nat.mul_le_mul_left _ hk

theorem div_lt' {q n i : ℕ} (hq : q ≤ n) (hi : i < 2 ^ n) : i / 2 ^ q < 2 ^ (n - q) := by
  rw [Nat.div_lt_iff_lt_mul (by positivity), ← pow_add]
  rwa [Nat.sub_add_cancel hq]

/-! ### The page numbers of the loops -/

theorem spread_eq (t i : ℕ) : spread (2 ^ t - 1) i = insZero t i := by
  apply Nat.eq_of_testBit_eq
  intro k
  unfold spread
  simp only [Nat.testBit_or, Nat.testBit_and, Nat.testBit_shiftLeft, Nat.testBit_xor, Nat.testBit_two_pow_sub_one,
    testBit_insZero]
  by_cases h1 : k < t
  · simp [h1, show k - 1 < t by omega]
  · by_cases h2 : k = t
    · subst h2
      by_cases h3 : 1 ≤ k
      · simp [h3, show k - 1 < k by omega]
      · simp [h3]
    · simp [h1, h2, show ¬ k - 1 < t by omega, show 1 ≤ k by omega]

theorem spread_insAll (t i : ℕ) : spread (2 ^ t - 1) i = insAll [t] i := by
  rw [spread_eq]; rfl

theorem insZero_or {p x lo : ℕ} (h : lo < 2 ^ p) : insZero p (x ||| lo) = insZero p x ||| lo := by
  apply Nat.eq_of_testBit_eq
  intro k
  rw [lt_two_pow_iff_testBit] at h
  rw [testBit_insZero, Nat.testBit_or, Nat.testBit_or, Nat.testBit_or, testBit_insZero]
  by_cases h1 : k < p
  · simp [h1]
  · by_cases h2 : k = p
    · simp [h2, h p le_rfl]
    · simp [h1, h2, h k (by omega), h (k - 1) (by omega)]

theorem insAll_or (ps : List ℕ) : ∀ (x lo : ℕ), (∀ p ∈ ps, lo < 2 ^ p) → insAll ps (x ||| lo) = insAll ps x ||| lo := by
  induction ps with
  | nil => intro x lo _; rfl
  | cons p ps ih =>
    intro x lo h
    change insAll ps (insZero p (x ||| lo)) = insAll ps (insZero p x) ||| lo
    rw [insZero_or (h p (by simp)), ih _ _ (fun q hq => h q (by simp [hq]))]

theorem expand_fold (ps : List ℕ) : ps.Pairwise (· < ·) → ∀ (h j : ℕ),
    let r := (ps.map (fun p => 2 ^ p - 1)).foldl (fun (r : ℕ × ℕ) m =>
      let jLo := r.1 &&& m
      ((r.1 ^^^ jLo) <<< 1, r.2 ||| jLo)) (h, j)
    r.2 ||| r.1 = insAll ps h ||| j := by
  induction ps with
  | nil => intro _ h j; simp [insAll, Nat.or_comm]
  | cons p ps ih =>
    intro hs h j
    rw [List.pairwise_cons] at hs
    simp only [List.map_cons, List.foldl_cons]
    rw [ih hs.2]
    have e : insZero p h = ((h ^^^ (h &&& (2 ^ p - 1))) <<< 1) ||| (h &&& (2 ^ p - 1)) := by
      rw [← spread_eq, spread, Nat.or_comm]
    change _ = insAll ps (insZero p h) ||| j
    rw [e, insAll_or ps _ _ (fun q hq => ?_), Nat.or_comm j, Nat.or_assoc]
    refine lt_of_le_of_lt Nat.and_le_right ?_
    have := Nat.pow_lt_pow_right (a := 2) (by norm_num) (hs.1 q hq)
    have : 0 < 2 ^ p := by positivity
    omega

theorem expand_eq {ps : List ℕ} (hs : ps.Pairwise (· < ·)) (i : ℕ) :
    expand (ps.map (fun p => 2 ^ p - 1)) i = insAll ps i := by
  have := expand_fold ps hs i 0
  simp only [Nat.or_zero] at this
  exact this

theorem sortMasks_map (l : List ℕ) :
    (l.map (fun p => 2 ^ p - 1)).mergeSort (· ≤ ·) = (l.mergeSort (· ≤ ·)).map (fun p => 2 ^ p - 1) := by
  have h1 : ((l.map (fun p => 2 ^ p - 1)).mergeSort (· ≤ ·)).Pairwise (· ≤ ·) := by
    have := List.pairwise_mergeSort (le := fun a b : ℕ => decide (a ≤ b))
      (by intro a b c; simp; omega) (by intro a b; simp; omega) (l.map (fun p => 2 ^ p - 1))
    simpa using this
  have h2 : ((l.mergeSort (· ≤ ·)).map (fun p => 2 ^ p - 1)).Pairwise (· ≤ ·) := by
    rw [List.pairwise_map]
    have := List.pairwise_mergeSort (le := fun a b : ℕ => decide (a ≤ b))
      (by intro a b c; simp; omega) (by intro a b; simp; omega) l
    refine List.Pairwise.imp ?_ this
    intro a b h
    have : (2 : ℕ) ^ a ≤ 2 ^ b := Nat.pow_le_pow_right (by norm_num) (by simpa using h)
    omega
  refine List.Perm.eq_of_pairwise (le := (· ≤ ·)) (fun a b _ _ h h' => le_antisymm h h') h1 h2 ?_
  refine (List.mergeSort_perm _ _).trans ?_
  exact ((List.mergeSort_perm l (· ≤ ·)).map (fun p => 2 ^ p - 1)).symm

/-! ### Loops over pages -/

theorem pairFold {ι : Type*} (A B : ι → ℕ) (f : Eng → Eng → Option (Eng × Eng)) (R : ℕ → Eng → Prop) :
    ∀ (l : List ι) (p : Pager),
    l.Pairwise (fun x y => A x ≠ A y ∧ A x ≠ B y ∧ B x ≠ A y ∧ B x ≠ B y) →
    (∀ x ∈ l, A x < p.count ∧ B x < p.count ∧ A x ≠ B x) →
    (∀ x ∈ l, ∃ r, f (p.page (A x)) (p.page (B x)) = some r ∧ R (A x) r.1 ∧ R (B x) r.2) →
    ∃ p', l.foldlM (fun p x => onPair p (A x) (B x) f) p = some p' ∧ p'.n = p.n ∧ p'.base = p.base ∧
      p'.count = p.count ∧ (∀ x ∈ l, R (A x) (p'.page (A x)) ∧ R (B x) (p'.page (B x))) ∧
      ∀ k, (∀ x ∈ l, k ≠ A x ∧ k ≠ B x) → p'.page k = p.page k := by
  intro l
  induction l with
  | nil => intro p _ _ _; exact ⟨p, rfl, rfl, rfl, rfl, by simp, fun _ _ => rfl⟩
  | cons y l ih =>
    intro p hp hc hf
    rw [List.pairwise_cons] at hp
    obtain ⟨r, hr, hr1, hr2⟩ := hf y (by simp)
    obtain ⟨c1, c2, c3⟩ := hc y (by simp)
    have hone : onPair p (A y) (B y) f =
        some { p with page := Function.update (Function.update p.page (A y) r.1) (B y) r.2 } := by
      unfold onPair
      rw [if_pos ⟨c1, c2⟩, hr]; rfl
    obtain ⟨p', h1, h2, h3, h4, h5, h6⟩ := ih
      { p with page := Function.update (Function.update p.page (A y) r.1) (B y) r.2 } hp.2
      (fun x hx => hc x (by simp [hx]))
      (fun x hx => by
        obtain ⟨d1, d2, d3, d4⟩ := hp.1 x hx
        obtain ⟨r', k1, k2⟩ := hf x (by simp [hx])
        refine ⟨r', ?_, k2⟩
        simp only [Function.update_of_ne d1.symm, Function.update_of_ne d2.symm, Function.update_of_ne d3.symm,
          Function.update_of_ne d4.symm]
        exact k1)
    refine ⟨p', ?_, h2, h3, h4, ?_, ?_⟩
    · rw [List.foldlM_cons, hone]; exact h1
    · intro x hx
      rcases List.mem_cons.1 hx with rfl | hx
      · have ha := h6 (A x) (fun z hz => ⟨(hp.1 z hz).1, (hp.1 z hz).2.1⟩)
        have hb := h6 (B x) (fun z hz => ⟨(hp.1 z hz).2.2.1, (hp.1 z hz).2.2.2⟩)
        rw [ha, hb]
        simp only [Function.update_of_ne c3, Function.update_self]
        exact ⟨hr1, hr2⟩
      · exact h5 x hx
    · intro k hk
      rw [h6 k (fun x hx => hk x (by simp [hx]))]
      have := hk y (by simp)
      simp only [Function.update_of_ne this.1, Function.update_of_ne this.2]

theorem pageFold {ι : Type*} (A : ι → ℕ) (f : ι → Eng → Option Eng) (R : ℕ → Eng → Prop) :
    ∀ (l : List ι) (p : Pager), l.Pairwise (fun x y => A x ≠ A y) → (∀ x ∈ l, A x < p.count) →
    (∀ x ∈ l, ∃ r, f x (p.page (A x)) = some r ∧ R (A x) r) →
    ∃ p', l.foldlM (fun p x => onPage p (A x) (f x)) p = some p' ∧ p'.n = p.n ∧ p'.base = p.base ∧
      p'.count = p.count ∧ (∀ x ∈ l, R (A x) (p'.page (A x))) ∧
      ∀ k, (∀ x ∈ l, k ≠ A x) → p'.page k = p.page k := by
  intro l
  induction l with
  | nil => intro p _ _ _; exact ⟨p, rfl, rfl, rfl, rfl, by simp, fun _ _ => rfl⟩
  | cons y l ih =>
    intro p hp hc hf
    rw [List.pairwise_cons] at hp
    obtain ⟨r, hr, hr1⟩ := hf y (by simp)
    have c1 := hc y (by simp)
    have hone : onPage p (A y) (f y) = some { p with page := Function.update p.page (A y) r } := by
      unfold onPage
      rw [if_pos c1, hr]; rfl
    obtain ⟨p', h1, h2, h3, h4, h5, h6⟩ := ih { p with page := Function.update p.page (A y) r } hp.2
      (fun x hx => hc x (by simp [hx]))
      (fun x hx => by
        have d1 := hp.1 x hx
        obtain ⟨r', k1, k2⟩ := hf x (by simp [hx])
        refine ⟨r', ?_, k2⟩
        simp only [Function.update_of_ne d1.symm]
        exact k1)
    refine ⟨p', ?_, h2, h3, h4, ?_, ?_⟩
    · rw [List.foldlM_cons, hone]; exact h1
    · intro x hx
      rcases List.mem_cons.1 hx with rfl | hx
      · rw [h6 (A x) (fun z hz => hp.1 z hz)]
        simpa using hr1
      · exact h5 x hx
    · intro k hk
      rw [h6 k (fun x hx => hk x (by simp [hx]))]
      simp only [Function.update_of_ne (hk y (by simp))]

/-- The loop over all pages. -/
theorem allPages (f : ℕ → Eng → Option Eng) (R : ℕ → Eng → Prop) (p : Pager)
    (hf : ∀ k < p.count, ∃ r, f k (p.page k) = some r ∧ R k r) :
    ∃ p', (List.range p.count).foldlM (fun p k => onPage p k (f k)) p = some p' ∧ p'.n = p.n ∧ p'.base = p.base ∧
      p'.count = p.count ∧ ∀ k < p.count, R k (p'.page k) := by
  obtain ⟨p', h1, h2, h3, h4, h5, -⟩ := pageFold id f R (List.range p.count) p
    (List.nodup_range (n := p.count)) (fun x hx => by simpa using hx) (fun x hx => hf x (by simpa using hx))
  exact ⟨p', h1, h2, h3, h4, fun k hk => h5 k (by simpa using hk)⟩

theorem or_eq_xor_clear {n : ℕ} {ps : List ℕ} {l o : ℕ} (hl : MaskClear n ps l) (ho : Sub ps o) : l ||| o = l ^^^ o := by
  apply Nat.eq_of_testBit_eq
  intro k
  rw [Nat.testBit_or, Nat.testBit_xor]
  by_cases h : o.testBit k = true
  · simp [h, hl.2 k (ho k h)]
  · simp [h]

/-- A loop over the pages whose numbers have the bits `o1` (and partner `o2`) at the positions `ps`. -/
theorem pairLoop {r : ℕ} {ps : List ℕ} {o1 o2 : ℕ} (hs : ps.Pairwise (· < ·)) (hb : ∀ x ∈ ps, x < r) (s1 : Sub ps o1)
    (s2 : Sub ps o2) (hne : o1 ≠ o2) {l : List ℕ} (hl : l.Perm (List.range (2 ^ (r - ps.length)))) (A B : ℕ → ℕ)
    (hA : ∀ i, A i = insAll ps i ||| o1) (hB : ∀ i, B i = insAll ps i ||| o2)
    (f : Eng → Eng → Option (Eng × Eng)) {p : Pager} (hc : p.count = 2 ^ r) (R : ℕ → Eng → Prop)
    (hf : ∀ k < 2 ^ r, Pat ps o1 k → ∃ x, f (p.page k) (p.page (k ^^^ (o1 ^^^ o2))) = some x ∧ R k x.1 ∧
      R (k ^^^ (o1 ^^^ o2)) x.2)
    (hR : ∀ k < 2 ^ r, ¬ Pat ps o1 k → ¬ Pat ps o2 k → R k (p.page k)) :
    ∃ p', l.foldlM (fun p i => onPair p (A i) (B i) f) p = some p' ∧ p'.n = p.n ∧ p'.base = p.base ∧
      p'.count = p.count ∧ ∀ k < 2 ^ r, R k (p'.page k) := by
  have hclear : ∀ i ∈ l, MaskClear r ps (insAll ps i) := fun i hi =>
    (mem_insAll_range hs hb _).1 ⟨i, by simpa using hl.mem_iff.1 hi, rfl⟩
  have eA : ∀ i ∈ l, A i = insAll ps i ^^^ o1 := fun i hi => by rw [hA, or_eq_xor_clear (hclear i hi) s1]
  have eB : ∀ i ∈ l, B i = insAll ps i ^^^ o2 := fun i hi => by rw [hB, or_eq_xor_clear (hclear i hi) s2]
  have patA : ∀ i ∈ l, Pat ps o1 (A i) := fun i hi => by rw [eA i hi]; exact pat_of_clear (hclear i hi)
  have patB : ∀ i ∈ l, Pat ps o2 (B i) := fun i hi => by rw [eB i hi]; exact pat_of_clear (hclear i hi)
  have ltA : ∀ i ∈ l, A i < 2 ^ r := fun i hi => by
    rw [eA i hi]; exact Nat.xor_lt_two_pow (hclear i hi).1 (s1.lt hb)
  have ltB : ∀ i ∈ l, B i < 2 ^ r := fun i hi => by
    rw [eB i hi]; exact Nat.xor_lt_two_pow (hclear i hi).1 (s2.lt hb)
  have hAB : ∀ i ∈ l, B i = A i ^^^ (o1 ^^^ o2) := fun i hi => by
    rw [eA i hi, eB i hi, Nat.xor_assoc, ← Nat.xor_assoc o1, Nat.xor_self, Nat.zero_xor]
  have cross : ∀ i ∈ l, ∀ j ∈ l, A i ≠ B j := fun i hi j hj h => by
    have h1 := patA i hi
    rw [h] at h1
    exact hne (pat_unique s1 s2 h1 (patB j hj))
  have injA : ∀ i ∈ l, ∀ j ∈ l, A i = A j → i = j := fun i hi j hj h => by
    rw [eA i hi, eA j hj, Nat.xor_left_inj] at h
    exact insAll_injective ps h
  have injB : ∀ i ∈ l, ∀ j ∈ l, B i = B j → i = j := fun i hi j hj h => by
    rw [eB i hi, eB j hj, Nat.xor_left_inj] at h
    exact insAll_injective ps h
  have hnd : l.Nodup := hl.nodup_iff.2 List.nodup_range
  obtain ⟨p', h1, h2, h3, h4, h5, h6⟩ := pairFold A B f R l p
    (by
      refine List.Pairwise.imp_of_mem ?_ hnd
      intro x y hx hy hxy
      exact ⟨fun h => hxy (injA x hx y hy h), cross x hx y hy, (cross y hy x hx).symm, fun h => hxy (injB x hx y hy h)⟩)
    (fun x hx => ⟨by rw [hc]; exact ltA x hx, by rw [hc]; exact ltB x hx, cross x hx x hx⟩)
    (fun x hx => by
      obtain ⟨r, k1, k2, k3⟩ := hf (A x) (ltA x hx) (patA x hx)
      rw [← hAB x hx] at k1 k3
      exact ⟨r, k1, k2, k3⟩)
  refine ⟨p', h1, h2, h3, h4, fun k hk => ?_⟩
  by_cases c1 : Pat ps o1 k
  · obtain ⟨j, hj, hjk⟩ := (mem_insAll_range hs hb _).2 (xor_clear hk hb s1 c1)
    have hjl : j ∈ l := hl.mem_iff.2 (by simpa using hj)
    have : A j = k := by rw [eA j hjl, hjk, Nat.xor_assoc, Nat.xor_self, Nat.xor_zero]
    rw [← this]; exact (h5 j hjl).1
  · by_cases c2 : Pat ps o2 k
    · obtain ⟨j, hj, hjk⟩ := (mem_insAll_range hs hb _).2 (xor_clear hk hb s2 c2)
      have hjl : j ∈ l := hl.mem_iff.2 (by simpa using hj)
      have : B j = k := by rw [eB j hjl, hjk, Nat.xor_assoc, Nat.xor_self, Nat.xor_zero]
      rw [← this]; exact (h5 j hjl).2
    · rw [h6 k (fun x hx => ⟨fun h => c1 (h ▸ patA x hx), fun h => c2 (h ▸ patB x hx)⟩)]
      exact hR k hk c1 c2

/-- A loop over the pages whose numbers have the bits `o` at the positions `ps`. -/
theorem pageLoop {r : ℕ} {ps : List ℕ} {o : ℕ} (hs : ps.Pairwise (· < ·)) (hb : ∀ x ∈ ps, x < r) (s1 : Sub ps o)
    (A : ℕ → ℕ) (hA : ∀ i, A i = insAll ps i ||| o) (f : Eng → Option Eng) {p : Pager} (hc : p.count = 2 ^ r)
    (R : ℕ → Eng → Prop) (hf : ∀ k < 2 ^ r, Pat ps o k → ∃ x, f (p.page k) = some x ∧ R k x)
    (hR : ∀ k < 2 ^ r, ¬ Pat ps o k → R k (p.page k)) :
    ∃ p', (List.range (2 ^ (r - ps.length))).foldlM (fun p i => onPage p (A i) f) p = some p' ∧ p'.n = p.n ∧
      p'.base = p.base ∧ p'.count = p.count ∧ ∀ k < 2 ^ r, R k (p'.page k) := by
  set l := List.range (2 ^ (r - ps.length)) with hl
  have hclear : ∀ i ∈ l, MaskClear r ps (insAll ps i) := fun i hi =>
    (mem_insAll_range hs hb _).1 ⟨i, by simpa [hl] using hi, rfl⟩
  have eA : ∀ i ∈ l, A i = insAll ps i ^^^ o := fun i hi => by rw [hA, or_eq_xor_clear (hclear i hi) s1]
  have patA : ∀ i ∈ l, Pat ps o (A i) := fun i hi => by rw [eA i hi]; exact pat_of_clear (hclear i hi)
  have ltA : ∀ i ∈ l, A i < 2 ^ r := fun i hi => by
    rw [eA i hi]; exact Nat.xor_lt_two_pow (hclear i hi).1 (s1.lt hb)
  have injA : ∀ i ∈ l, ∀ j ∈ l, A i = A j → i = j := fun i hi j hj h => by
    rw [eA i hi, eA j hj, Nat.xor_left_inj] at h
    exact insAll_injective ps h
  have hnd : l.Nodup := List.nodup_range
  obtain ⟨p', h1, h2, h3, h4, h5, h6⟩ := pageFold A (fun _ => f) R l p
    (List.Pairwise.imp_of_mem (fun {x y} hx hy hxy h => hxy (injA x hx y hy h)) hnd)
    (fun x hx => by rw [hc]; exact ltA x hx) (fun x hx => hf (A x) (ltA x hx) (patA x hx))
  refine ⟨p', h1, h2, h3, h4, fun k hk => ?_⟩
  by_cases c1 : Pat ps o k
  · obtain ⟨j, hj, hjk⟩ := (mem_insAll_range hs hb _).2 (xor_clear hk hb s1 c1)
    have hjl : j ∈ l := by simpa [hl] using hj
    have : A j = k := by rw [eA j hjl, hjk, Nat.xor_assoc, Nat.xor_self, Nat.xor_zero]
    rw [← this]; exact h5 j hjl
  · rw [h6 k (fun x hx h => c1 (h ▸ patA x hx))]
    exact hR k hk c1

end Verif.Pager
