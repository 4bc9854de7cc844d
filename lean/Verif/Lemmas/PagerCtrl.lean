import Verif.Lemmas.PagerGate

/-!
Helper lemmas for the paged register: each kind of gate loop, for given arguments.
-/

namespace Verif.Pager

open Verif.Engine Verif.ParFor Verif.Bits Verif.Spec Classical

theorem ite_any {α : Type*} {P : Prop} {i1 i2 : Decidable P} {x y : α} : @ite α P i1 x y = @ite α P i2 x y := by
  rw [Subsingleton.elim i1 i2]

theorem maybePhase_acts {σ : List ℕ → List ℕ} (hσ : IsSched σ) {q : ℕ} (hq0 : 1 ≤ q) (hq : q ≤ 64) (w : ℂ) :
    Acts q (fun e => if 1 - w ≠ 0 then phase σ e w w 0 else some e) (fun s i => w * s i) := by
  intro e s h
  by_cases hw : 1 - w ≠ 0
  · obtain ⟨f, h1, h2⟩ := scale_acts hσ hq0 hq w e s h
    exact ⟨f, by simp only [if_pos hw]; exact h1, h2⟩
  · refine ⟨e, by simp only [if_neg hw], h.congr fun i _ => ?_⟩
    have : w = 1 := by
      push Not at hw
      exact (sub_eq_zero.1 hw).symm
    simp [this]

/-- The pair operation for diagonal and antidiagonal matrices. -/
noncomputable def specialPair (σ : List ℕ → List ℕ) (isInvert : Bool) (top bottom : ℂ) (e1 e2 : Eng) :
    Option (Eng × Eng) :=
  let (e1, e2) := if isInvert then (e2, e1) else (e1, e2)
  (if 1 - top ≠ 0 then phase σ e1 top top 0 else some e1).bind fun e1 =>
  (if 1 - bottom ≠ 0 then phase σ e2 bottom bottom 0 else some e2).map fun e2 => (e1, e2)

theorem special_acts {σ : List ℕ → List ℕ} (hσ : IsSched σ) {q : ℕ} (hq0 : 1 ≤ q) (hq : q ≤ 64) (isInvert : Bool)
    (top bottom : ℂ) : PairActs q (specialPair σ isInvert top bottom) (fun _ => True)
      (if isInvert then 0 else top) (if isInvert then top else 0) (if isInvert then bottom else 0)
      (if isInvert then 0 else bottom) := by
  intro e1 e2 s1 s2 h1 h2
  cases isInvert
  · obtain ⟨f1, k1, k2⟩ := maybePhase_acts hσ hq0 hq top e1 s1 h1
    obtain ⟨f2, l1, l2⟩ := maybePhase_acts hσ hq0 hq bottom e2 s2 h2
    refine ⟨(f1, f2), ?_, k2.congr fun i _ => by simp, l2.congr fun i _ => by simp⟩
    simp only [specialPair, Bool.false_eq_true, if_false]
    dsimp only at k1 l1
    rw [k1, Option.bind_some, l1, Option.map_some]
  · obtain ⟨f1, k1, k2⟩ := maybePhase_acts hσ hq0 hq top e2 s2 h2
    obtain ⟨f2, l1, l2⟩ := maybePhase_acts hσ hq0 hq bottom e1 s1 h1
    refine ⟨(f1, f2), ?_, k2.congr fun i _ => by simp, l2.congr fun i _ => by simp⟩
    simp only [specialPair, if_true]
    dsimp only at k1 l1
    rw [k1, Option.bind_some, l1, Option.map_some]

theorem half_range {p : Pager} {q : ℕ} {s : ℕ → ℂ} (h : Holds p q s) {t : ℕ} (ht : q ≤ t) (htn : t < p.n) :
    p.count >>> 1 = 2 ^ (p.n - q - ([] : List ℕ).length - 1) := by
  rw [h.count, shift_pow (by omega)]
  simp

theorem applySingleEither_gate {σ : List ℕ → List ℕ} (hσ : IsSched σ) {p : Pager} {q : ℕ} {s : ℕ → ℂ} (h : Holds p q s)
    (isInvert : Bool) (top bottom : ℂ) {t : ℕ} (htn : t < p.n) :
    ∃ p', applySingleEither σ p isInvert top bottom t = some p' ∧ p'.n = p.n ∧ p'.base = p.base ∧
      Holds p' q (gate (fun _ => True) t (if isInvert then 0 else top) (if isInvert then top else 0)
        (if isInvert then bottom else 0) (if isInvert then 0 else bottom) s) := by
  unfold applySingleEither
  simp only [h.qpp]
  by_cases ht : t < q
  · rw [if_pos ht]
    cases isInvert
    · simp only [Bool.false_eq_true, if_false]
      unfold singleBitGate
      simp only [h.qpp]
      rw [if_pos ht]
      exact pages_gate h ht (P := fun _ => True) (Q := fun _ => True) top 0 0 bottom (by simp)
        (phase_acts hσ h.word' top bottom ht)
    · simp only [if_true]
      unfold singleBitGate
      simp only [h.qpp]
      rw [if_pos ht]
      exact pages_gate h ht (P := fun _ => True) (Q := fun _ => True) 0 top bottom 0 (by simp)
        (invert_acts hσ h.word' top bottom ht)
  · rw [if_neg ht]
    have ht' : q ≤ t := not_lt.1 ht
    exact pairs_gate h ht' htn (ds := []) (by simp) (by simp) (perm := 0) (P := fun _ => True) (Q := fun _ => True)
      _ _ _ _ (by simp [matches_nil]) (special_acts hσ h.pos h.word' isInvert top bottom)
      (l := List.range (p.count >>> 1))
      (by rw [h.count, shift_pow (by omega)]; simp)
      (fun i => spread (pow2 (t - q) - 1) i) (fun i => spread (pow2 (t - q) - 1) i ||| pow2 (t - q))
      (fun i => by simp [pow2, spread_insAll, permMask]) (fun i => rfl)

theorem singleBitGate_gate {σ : List ℕ → List ℕ} (hσ : IsSched σ) {p : Pager} {q : ℕ} {s : ℕ → ℂ} (h : Holds p q s)
    {fn : Eng → ℕ → Option Eng} {t : ℕ} (htn : t < p.n) {P Q : ℕ → Prop} [DecidablePred P] [DecidablePred Q]
    (a b c d : ℂ) (isSqi isAnti : Bool)
    (hlo : t < q → Acts q (fun e => fn e t) (gate Q t a b c d))
    (hhi : q ≤ t → Acts q (fun e => fn e (q - 1)) (gate Q (q - 1) a b c d) ∧ ∀ i, Q (flipBit (q - 1) i) ↔ Q i)
    (hPlo : t < q → ∀ k x, x < 2 ^ q → (P (2 ^ q * k + x) ↔ Q x))
    (hPhi : q ≤ t → ∀ k x, x < 2 ^ q →
      (P (2 ^ q * k + x) ↔ Q x ∧ (isSqi = true → x.testBit (q - 1) = !isAnti))) :
    ∃ p', singleBitGate σ p t fn isSqi isAnti = some p' ∧ p'.n = p.n ∧ p'.base = p.base ∧
      Holds p' q (gate P t a b c d s) := by
  unfold singleBitGate
  simp only [h.qpp]
  by_cases ht : t < q
  · rw [if_pos ht]
    exact pages_gate h ht a b c d (hPlo ht) (hlo ht)
  · rw [if_neg ht]
    have ht' : q ≤ t := not_lt.1 ht
    obtain ⟨k1, k2⟩ := hhi ht'
    exact pairs_gate h ht' htn (ds := []) (by simp) (by simp) (perm := 0)
      (Q := fun x => Q x ∧ (isSqi = true → x.testBit (q - 1) = !isAnti)) a b c d
      (fun k x hx => by rw [hPhi ht' k x hx]; simp [matches_nil])
      (fun e1 e2 s1 s2 g1 g2 => by
        obtain ⟨r, m1, m2, m3⟩ := shuffled_is h.pos k1 k2 isSqi isAnti g1 g2
        exact ⟨r, m1, m2.congr fun i _ => ite_any, m3.congr fun i _ => ite_any⟩)
      (l := σ (List.range (p.count >>> 1)))
      ((hσ _).trans (by rw [h.count, shift_pow (by omega)]; simp))
      (fun i => spread (pow2 (t - q) - 1) i) (fun i => spread (pow2 (t - q) - 1) i ||| pow2 (t - q))
      (fun i => by simp [pow2, spread_insAll, permMask]) (fun i => rfl)

theorem length_page {r : ℕ} {ds : List ℕ} (hnd : ds.Nodup) (hb : ∀ x ∈ ds, x < r) : ds.length ≤ r := by
  have := length_le_of_pairwise_lt (ds.mergeSort (· ≤ ·)) r (sorted_lt_of_nodup hnd) (fun x hx => hb x (mem_sort.1 hx))
  rwa [List.length_mergeSort] at this

theorem metaControlled_gate {σ : List ℕ → List ℕ} (hσ : IsSched σ) {p : Pager} {q : ℕ} {s : ℕ → ℂ} (h : Holds p q s)
    {fn : Eng → ℕ → Option Eng} {cs : List ℕ} {t : ℕ} (ht : q ≤ t) (htn : t < p.n) (hnd : (cs ++ [t]).Nodup)
    (hb : ∀ c ∈ cs, q ≤ c ∧ c < p.n) {perm : ℕ} {P Q : ℕ → Prop} [DecidablePred P] [DecidablePred Q] (m : M2)
    (isSqi isIntra : Bool)
    (hhi : Acts q (fun e => fn e (q - 1)) (gate Q (q - 1) m.a m.b m.c m.d)) (hQ : ∀ i, Q (flipBit (q - 1) i) ↔ Q i)
    (hintra : isIntra = false → ∀ i, Q i)
    (hP : ∀ i, P i ↔ Matches perm cs i ∧ Q (i % 2 ^ q) ∧
      (isSqi = true → i.testBit (q - 1) = perm.testBit cs.length)) :
    ∃ p', metaControlled σ p perm cs t fn m isSqi isIntra = some p' ∧ p'.n = p.n ∧ p'.base = p.base ∧
      Holds p' q (gate P t m.a m.b m.c m.d s) := by
  have hcs : cs.Nodup := (List.nodup_append.1 hnd).1
  have hq : ∀ c ∈ cs ++ [t], q ≤ c := by
    intro c hc
    rcases List.mem_append.1 hc with hc | hc
    · exact (hb c hc).1
    · simp at hc; omega
  have hds : (cs.map (· - q) ++ [t - q]).Nodup := by
    have := map_sub_nodup hnd hq
    simpa using this
  have hlt : ∀ x ∈ cs.map (· - q), x < p.n - q := by
    intro x hx
    obtain ⟨c, hc, rfl⟩ := List.mem_map.1 hx
    have := hb c hc
    omega
  have hlen := length_page hds (r := p.n - q) (by
    intro x hx
    rcases List.mem_append.1 hx with hx | hx
    · exact hlt x hx
    · simp at hx; omega)
  have hmasks : cs.map (fun c => pow2 (c - q) - 1) ++ [pow2 (t - q) - 1] =
      (cs.map (· - q) ++ [t - q]).map (fun p => 2 ^ p - 1) := by
    simp [pow2, Function.comp_def]
  have hPk : ∀ (Z : ℕ → Prop), (∀ k x : ℕ, x < 2 ^ q → (Z x ↔ Q x ∧ (isSqi = true → x.testBit (q - 1) = perm.testBit cs.length))) →
      ∀ k x, x < 2 ^ q → (P (2 ^ q * k + x) ↔ Matches perm (cs.map (· - q)) k ∧ Z x) := by
    intro Z hZ k x hx
    rw [hP, matches_hi hx (fun c hc => (hb c hc).1), hZ k x hx, testBit_at hx, if_pos (by have := h.pos; omega)]
    rw [Nat.mul_add_mod, Nat.mod_eq_of_lt hx]
  unfold metaControlled
  simp only [h.qpp, pageMask_eq]
  rw [hmasks, sortMasks_map]
  have hl2 : (((cs.map (· - q) ++ [t - q]).mergeSort (· ≤ ·)).map (fun p => 2 ^ p - 1)).length =
      (cs.map (· - q)).length + 1 := by
    rw [List.length_map, List.length_mergeSort]; simp
  have hl : (σ (List.range (p.count >>>
      (((cs.map (· - q) ++ [t - q]).mergeSort (· ≤ ·)).map (fun p => 2 ^ p - 1)).length))).Perm
      (List.range (2 ^ (p.n - q - ((cs.map (· - q)).length + 1)))) := by
    refine (hσ _).trans ?_
    rw [hl2, h.count, shift_pow (by simpa using hlen)]
  have hexp : ∀ i, expand (((cs.map (· - q) ++ [t - q]).mergeSort (· ≤ ·)).map (fun p => 2 ^ p - 1)) i =
      insAll ((cs.map (· - q) ++ [t - q]).mergeSort (· ≤ ·)) i := expand_eq (sorted_lt_of_nodup hds)
  simp only [hexp]
  by_cases hdiag : isSqi = false ∧ isIntra = false ∧ m.b = 0 ∧ m.c = 0
  · obtain ⟨z1, z2, z3, z4⟩ := hdiag
    have := pairs_gate h ht htn hds hlt m.a m.b m.c m.d (f := specialPair σ false m.a m.d) (Q := fun _ => True)
      (hPk _ (fun k x _ => by simp [z1, hintra z2 x]))
      (by have := special_acts hσ h.pos h.word' false m.a m.d; simpa [z3, z4] using this) hl _ _ (fun i => rfl) (fun i => rfl)
    have d1 : (!isSqi && !isIntra && decide (m.b = 0 ∧ m.c = 0)) = true := by simp [z1, z2, z3, z4]
    simp only [d1, Bool.not_true, Bool.false_and, Bool.true_or, Bool.false_eq_true, if_true, if_false]
    exact this
  · by_cases hinv : isSqi = false ∧ isIntra = false ∧ m.a = 0 ∧ m.d = 0
    · obtain ⟨z1, z2, z3, z4⟩ := hinv
      have zd : ¬ (m.b = 0 ∧ m.c = 0) := fun hc => hdiag ⟨z1, z2, hc.1, hc.2⟩
      have := pairs_gate h ht htn hds hlt m.a m.b m.c m.d (f := specialPair σ true m.b m.c) (Q := fun _ => True)
        (hPk _ (fun k x _ => by simp [z1, hintra z2 x]))
        (by have := special_acts hσ h.pos h.word' true m.b m.c; simpa [z3, z4] using this) hl _ _ (fun i => rfl) (fun i => rfl)
      have d1 : (!isSqi && !isIntra && decide (m.b = 0 ∧ m.c = 0)) = false := by simp [zd]
      have d2 : (!isSqi && !isIntra && decide (m.a = 0 ∧ m.d = 0)) = true := by simp [z1, z2, z3, z4]
      simp only [d1, Bool.not_false, Bool.true_and, d2, Bool.or_true, Bool.false_eq_true, if_true, if_false]
      exact this
    · have d1 : (!isSqi && !isIntra && decide (m.b = 0 ∧ m.c = 0)) = false := by
        by_contra hc
        simp only [Bool.not_eq_false, Bool.and_eq_true, Bool.not_eq_true', decide_eq_true_eq] at hc
        exact hdiag ⟨hc.1.1, hc.1.2, hc.2.1, hc.2.2⟩
      have d2 : (!isSqi && !isIntra && decide (m.a = 0 ∧ m.d = 0)) = false := by
        by_contra hc
        simp only [Bool.not_eq_false, Bool.and_eq_true, Bool.not_eq_true', decide_eq_true_eq] at hc
        exact hinv ⟨hc.1.1, hc.1.2, hc.2.1, hc.2.2⟩
      simp only [d1, Bool.not_false, Bool.true_and, d2, Bool.or_self, Bool.false_eq_true, if_false]
      refine pairs_gate h ht htn hds hlt m.a m.b m.c m.d
        (Q := fun x => Q x ∧ (isSqi = true → x.testBit (q - 1) = perm.testBit cs.length))
        (hPk _ (fun k x _ => Iff.rfl)) (f := shuffled fn (q - 1) isSqi (((perm >>> cs.length) &&& 1) == 0)) ?_ hl _ _
        (fun i => rfl) (fun i => rfl)
      intro e1 e2 s1 s2 g1 g2
      obtain ⟨r, m1, m2, m3⟩ := shuffled_is h.pos hhi hQ isSqi (((perm >>> cs.length) &&& 1) == 0) g1 g2
      have hbit : (!(((perm >>> cs.length) &&& 1) == 0)) = perm.testBit cs.length := by
        have := and_one_ne_zero perm cs.length
        by_cases hb : perm.testBit cs.length = true
        · rw [hb]; simpa using this.2 hb
        · have h' : (perm >>> cs.length) &&& 1 = 0 := by
            by_contra hc; exact hb (this.1 hc)
          simp [hb, h']
      rw [hbit] at m2 m3
      exact ⟨r, m1, m2.congr fun i _ => ite_any, m3.congr fun i _ => ite_any⟩

theorem semiMasks_eq {q perm : ℕ} {cs : List ℕ} (h8 : ∀ c ∈ cs, c - q < 8) :
    semiMasks q perm cs = ((cs.map (· - q)).map (fun p => 2 ^ p - 1), permMask perm 0 (cs.map (· - q))) := by
  have hp : ∀ x : ℕ, x < 8 → 2 ^ x % 256 = 2 ^ x ∧ (2 ^ x % 256 + 255) % 256 = 2 ^ x - 1 := by decide
  unfold semiMasks
  refine Prod.ext ?_ ?_
  · simp only [List.map_map]
    refine List.map_congr_left fun c hc => ?_
    exact (hp _ (h8 c hc)).2
  · rw [← pageMask_eq]
    unfold pageMask
    have : ∀ (j m : ℕ), (cs.zipIdx j).foldl (fun m (x : ℕ × ℕ) => match x with
          | (c, i) => if (perm >>> i) &&& 1 ≠ 0 then m ||| (pow2 (c - q) % 256) else m) m =
        (cs.zipIdx j).foldl (fun m (x : ℕ × ℕ) => match x with
          | (c, i) => if (perm >>> i) &&& 1 ≠ 0 then m ||| pow2 (c - q) else m) m := by
      clear hp
      induction cs with
      | nil => intro j m; rfl
      | cons c cs ih =>
        intro j m
        simp only [List.zipIdx_cons, List.foldl_cons]
        have e : pow2 (c - q) % 256 = pow2 (c - q) := by
          have : ∀ x : ℕ, x < 8 → 2 ^ x % 256 = 2 ^ x := by decide
          exact this _ (h8 c (by simp))
        rw [e]
        exact ih (fun c hc => h8 c (by simp [hc])) _ _
    exact this 0 0

theorem semiMetaControlled_gate {p : Pager} {q : ℕ} {s : ℕ → ℂ} (h : Holds p q s)
    {fn : Eng → ℕ → Option Eng} {cs : List ℕ} {t : ℕ} (ht : t < q) (hnd : cs.Nodup)
    (hb : ∀ c ∈ cs, q ≤ c ∧ c < p.n) (h8 : ∀ c ∈ cs, c - q < 8) {perm : ℕ} {P Q : ℕ → Prop} [DecidablePred P] [DecidablePred Q]
    (a b c d : ℂ) (hlo : Acts q (fun e => fn e t) (gate Q t a b c d))
    (hP : ∀ i, P i ↔ Matches perm cs i ∧ Q (i % 2 ^ q)) :
    ∃ p', semiMetaControlled p perm cs t fn = some p' ∧ p'.n = p.n ∧ p'.base = p.base ∧
      Holds p' q (gate P t a b c d s) := by
  have hds : (cs.map (· - q)).Nodup := map_sub_nodup hnd (fun c hc => (hb c hc).1)
  have hlt : ∀ x ∈ cs.map (· - q), x < p.n - q := by
    intro x hx
    obtain ⟨c, hc, rfl⟩ := List.mem_map.1 hx
    have := hb c hc
    omega
  have hlen := length_page hds hlt
  unfold semiMetaControlled
  simp only [h.qpp, semiMasks_eq h8]
  rw [sortMasks_map]
  have hl : p.count >>> (((cs.map (· - q)).mergeSort (· ≤ ·)).map (fun p => 2 ^ p - 1)).length =
      2 ^ (p.n - q - (cs.map (· - q)).length) := by
    rw [List.length_map, List.length_mergeSort, h.count, shift_pow hlen]
  rw [hl]
  have hexp : ∀ i, expand (((cs.map (· - q)).mergeSort (· ≤ ·)).map (fun p => 2 ^ p - 1)) i =
      insAll ((cs.map (· - q)).mergeSort (· ≤ ·)) i := expand_eq (sorted_lt_of_nodup hds)
  simp only [hexp]
  exact semi_gate h ht hds hlt a b c d (perm := perm) (P := P) (Q := Q)
    (fun k x hx => by
      rw [hP, matches_hi hx (fun c hc => (hb c hc).1), Nat.mul_add_mod, Nat.mod_eq_of_lt hx])
    hlo _ (fun i => rfl)

end Verif.Pager
