import Verif.Lemmas.Sample
import Verif.Props.EngineProb
import Verif.Props.EngineMask

/-!
C21: measuring a set of qubits or a register.
-/

namespace Verif.Engine

open Verif.ParFor Verif.Bits Verif.Spec Classical

/-- The basis state `i` has the bits of `v` at the listed qubits. -/
def Agrees (bits : List ℕ) (v i : ℕ) : Prop := ∀ b ∈ bits, i.testBit b = v.testBit b

/-- What a measurement that returned `v` for the listed qubits must have done. -/
def Measured (e : Eng) (bits : List ℕ) (v : ℕ) (e' : Eng) : Prop :=
  (∀ q, v.testBit q = true → q ∈ bits) ∧ 0 < probIf e.n (Agrees bits v) e.amp ∧ e'.n = e.n ∧ e'.Steady ∧
    Collapsed e.n (Agrees bits v) e.amp e'.amp

theorem collapsed_congr {n : ℕ} {p q : ℕ → Prop} {s s' : ℕ → ℂ} (h : ∀ i < 2 ^ n, (p i ↔ q i)) (hc : Collapsed n p s s') :
    Collapsed n q s s' := by
  obtain ⟨k, h1, h2, h3⟩ := hc
  exact ⟨k, fun i hi hq => h1 i hi ((h i hi).2 hq), fun i hi hq => h2 i hi (fun hp => hq ((h i hi).1 hp)), h3⟩

theorem collapsed_trans {n : ℕ} {p q : ℕ → Prop} {s s' s'' : ℕ → ℂ} (h : Collapsed n p s s') (h' : Collapsed n q s' s'') :
    Collapsed n (fun i => p i ∧ q i) s s'' := by
  obtain ⟨k, h1, h2, h3⟩ := h
  obtain ⟨k', h1', h2', h3'⟩ := h'
  refine ⟨k' * k, fun i hi hpq => ?_, fun i hi hpq => ?_, h3'⟩
  · rw [h1' i hi hpq.2, h1 i hi hpq.1, mul_assoc]
  · by_cases hq : q i
    · rw [h1' i hi hq, h2 i hi (fun hp => hpq ⟨hp, hq⟩), mul_zero]
    · exact h2' i hi hq

/-- The common end of all measurements: project if the outcome is not certain. -/
theorem project_collapsed {σ : List ℕ → List ℕ} (hσ : IsSched σ) {e : Eng} (he : e.Steady) (m r : ℕ) (u : ℝ) {p : ℕ → Prop}
    (hp : ∀ i < 2 ^ e.n, (i &&& m = r ↔ p i)) (hpos : 0 < probIf e.n p e.amp) :
    let e' := if 1 - probIf e.n p e.amp > 0 then applyM σ e m r (normFactor e u (probIf e.n p e.amp)) else e
    e'.n = e.n ∧ e'.Steady ∧ Collapsed e.n p e.amp e'.amp := by
  intro e'
  by_cases h : 1 - probIf e.n p e.amp > 0
  · have he' : e' = applyM σ e m r (normFactor e u (probIf e.n p e.amp)) := if_pos h
    have hc := applyM_collapsed hσ e m r u hp hpos
    rw [he']
    refine ⟨rfl, applyM_steady _ _ _ _ _ ?_, hc⟩
    obtain ⟨_, _, _, h3⟩ := hc
    exact h3
  · have he' : e' = e := if_neg h
    rw [he']
    have hle : probIf e.n p e.amp ≤ 1 := by rw [← he.1]; exact probIf_le _ _ _
    exact ⟨rfl, he, collapsed_of_certain he.1 (by linarith)⟩

/-! ### Lists of qubits -/

theorem forceMBits_many {P : Par} {e : Eng} {bits : List ℕ} (hl : bits.length ≠ 1) {values : List Bool}
    (hv : values = [] ∨ bits.length = values.length) (hb : ∀ b ∈ bits, b < e.n) (doApply : Bool) (r u : ℝ) :
    forceMBits P e bits values doApply r u =
      (let powers := sortPows (bits.map pow2)
       let regMask := maskOf bits
       if values ≠ [] then
        let result := (bits.zip values).foldl (fun r (b, v) => if v then r ||| pow2 b else r) 0
        (probMask P e regMask result).bind fun (nrmlzr, e) =>
          if nrmlzr = 0 then none
          else some (result, if 1 - nrmlzr > 0 then applyM P.σ e regMask result (normFactor e u nrmlzr) else e)
       else
        let e := normIf P.σ e
        (sampleBits (probMaskAll e regMask) (2 ^ bits.length) r).bind fun (res, nrmlzr) =>
          if nrmlzr = 0 then none
          else
            let result := spreadBits powers res
            some (result, if doApply ∧ 1 - nrmlzr > 0
              then applyM P.σ e regMask result (normFactor e u nrmlzr) else e)) := by
  unfold forceMBits
  rw [if_neg (by rintro ⟨h1, h2⟩; rcases hv with h | h
                 · exact h1 h
                 · exact h2 h), if_neg (by rintro ⟨b, h1, h2⟩; have := hb b h1; omega)]
  match bits, hl with
  | [], _ => rfl
  | _ :: _ :: _, _ => rfl

theorem maskOf_lt {n : ℕ} {bits : List ℕ} (hb : ∀ b ∈ bits, b < n) : maskOf bits < 2 ^ n := by
  rw [lt_two_pow_iff_testBit]
  intro k hk
  rw [testBit_maskOf]
  simp only [decide_eq_false_iff_not]
  intro h
  have := hb k h
  omega

theorem and_maskOf_iff {bits : List ℕ} {v : ℕ} (hv : ∀ q, v.testBit q = true → q ∈ bits) (i : ℕ) :
    i &&& maskOf bits = v ↔ Agrees bits v i := by
  constructor
  · intro h b hb
    rw [← h, Nat.testBit_and, testBit_maskOf]
    simp [hb]
  · intro h
    apply Nat.eq_of_testBit_eq
    intro k
    rw [Nat.testBit_and, testBit_maskOf]
    by_cases hk : k ∈ bits
    · simp [hk, h k hk]
    · simp only [hk, decide_false, Bool.and_false]
      cases hvk : v.testBit k
      · rfl
      · exact absurd (hv k hvk) hk

theorem values_bits (bits : List ℕ) (values : List Bool) : ∀ (a q : ℕ),
    ((bits.zip values).foldl (fun r (b, v) => if v then r ||| pow2 b else r) a).testBit q =
      (a.testBit q || decide ((q, true) ∈ bits.zip values)) := by
  induction bits generalizing values with
  | nil => simp
  | cons b bs ih =>
    intro a q
    cases values with
    | nil => simp
    | cons v vs =>
      rw [List.zip_cons_cons, List.foldl_cons, ih]
      by_cases hm : (q, true) ∈ bs.zip vs
      · simp [hm]
      · cases v
        · simp [hm]
        · simp only [if_true, Nat.testBit_or, pow2, Nat.testBit_two_pow, List.mem_cons, Prod.mk.injEq, hm, and_true,
            or_false, decide_false, Bool.or_false]
          by_cases h : b = q <;> simp [h, eq_comm]

/-- Position by position: the `k`-th listed qubit has the `k`-th value. -/
def HasValues (bits : List ℕ) (values : List Bool) (i : ℕ) : Prop := List.Forall₂ (fun b v => i.testBit b = v) bits values

theorem agrees_values {bits : List ℕ} (hnd : bits.Nodup) {values : List Bool} (hlen : bits.length = values.length) {v : ℕ}
    (hv : ∀ q, v.testBit q = decide ((q, true) ∈ bits.zip values)) (i : ℕ) :
    Agrees bits v i ↔ HasValues bits values i := by
  have hself : HasValues bits values v := by
    unfold HasValues
    rw [List.forall₂_iff_get]
    refine ⟨hlen, fun k h1 h2 => ?_⟩
    rw [hv]
    have hmem : (bits.get ⟨k, h1⟩, values.get ⟨k, h2⟩) ∈ bits.zip values := by
      rw [List.mem_iff_getElem]
      exact ⟨k, by rw [List.length_zip]; omega, by simp⟩
    cases hval : values.get ⟨k, h2⟩
    · rw [decide_eq_false_iff_not]
      intro hc
      rw [List.mem_iff_getElem] at hc
      obtain ⟨j, hj, he⟩ := hc
      rw [List.getElem_zip, Prod.mk.injEq] at he
      have hjl : j < bits.length := by rw [List.length_zip] at hj; omega
      have : j = k := (List.nodup_iff_injective_get.1 hnd) (a₁ := ⟨j, hjl⟩) (a₂ := ⟨k, h1⟩) he.1 |> Fin.mk.inj_iff.1
      subst this
      have h3 : values[j] = false := hval
      rw [h3] at he
      exact Bool.noConfusion he.2
    · rw [hval] at hmem
      exact decide_eq_true hmem
  unfold HasValues at *
  rw [List.forall₂_iff_get] at *
  constructor
  · intro h
    refine ⟨hlen, fun k h1 h2 => ?_⟩
    rw [h _ (List.get_mem bits _)]
    exact hself.2 k h1 h2
  · rintro ⟨_, h⟩ b hb
    obtain ⟨k, hk⟩ := List.get_of_mem hb
    rw [← hk]
    have hk2 : k.1 < values.length := by rw [← hlen]; exact k.2
    rw [h k.1 k.2 hk2, hself.2 k.1 k.2 hk2]

/-- **C21.** Forcing values on two or more (or no) distinct qubits: refused when they have probability zero, and
otherwise exactly those values are projected on, and the returned integer is the mask of the set ones. -/
theorem forceMBits_forced_partial {P : Par} (hP : P.Ok) {e : Eng} (hn : e.n ≤ 64) (he : e.Steady) {bits : List ℕ}
    (hnd : bits.Nodup) (hb : ∀ b ∈ bits, b < e.n) {values : List Bool} (hl : bits.length ≠ 1) (hlen : bits.length = values.length)
    (hv : values ≠ []) (doApply : Bool) (r u : ℝ) :
    (probIf e.n (HasValues bits values) e.amp = 0 ∧ forceMBits P e bits values doApply r u = none) ∨
    ∃ v e', forceMBits P e bits values doApply r u = some (v, e') ∧ HasValues bits values v ∧ Measured e bits v e' := by
  rw [forceMBits_many hl (Or.inr hlen) hb]
  simp only [hv, ne_eq, not_false_eq_true, if_true]
  set v := (bits.zip values).foldl (fun r (x : ℕ × Bool) => if x.2 then r ||| pow2 x.1 else r) 0 with hvdef
  have hvb : ∀ q, v.testBit q = decide ((q, true) ∈ bits.zip values) := by
    intro q
    have := values_bits bits values 0 q
    rw [Nat.zero_testBit, Bool.false_or] at this
    exact this
  have hvm : ∀ q, v.testBit q = true → q ∈ bits := by
    intro q hq
    rw [hvb, decide_eq_true_eq] at hq
    exact (List.of_mem_zip hq).1
  have hand : v &&& maskOf bits = v := by
    rw [and_maskOf_iff hvm]
    intro b _; rfl
  have hpm := probMask_spec hP hn he (maskOf_lt hb) hand
  have hag := fun i => and_maskOf_iff hvm i
  have hcong : probIf e.n (fun i => i &&& maskOf bits = v) e.amp = probIf e.n (Agrees bits v) e.amp :=
    probIf_congr (fun i _ => hag i) (fun _ _ => rfl)
  have hcong2 : probIf e.n (HasValues bits values) e.amp = probIf e.n (Agrees bits v) e.amp :=
    probIf_congr (fun i _ => (agrees_values hnd hlen hvb i).symm) (fun _ _ => rfl)
  rw [hcong] at hpm
  have hpm' : probMask P e (maskOf bits)
      ((bits.zip values).foldl (fun r (x : ℕ × Bool) => match x with | (b, v) => if v then r ||| pow2 b else r) 0) =
      some (probIf e.n (Agrees bits v) e.amp, e) := hpm
  rw [hpm', hcong2]
  simp only [Option.bind_some]
  by_cases h0 : probIf e.n (Agrees bits v) e.amp = 0
  · left
    exact ⟨h0, if_pos h0⟩
  · right
    rw [if_neg h0]
    have hpos : 0 < probIf e.n (Agrees bits v) e.amp := lt_of_le_of_ne (probIf_nonneg _ _ _) (Ne.symm h0)
    have hself : HasValues bits values v := (agrees_values hnd hlen hvb v).1 (fun _ _ => rfl)
    exact ⟨v, _, rfl, hself, hvm, hpos, project_collapsed hP.1 he (maskOf bits) v u (fun i _ => hag i) hpos⟩

theorem maskOf_sorted (bits : List ℕ) : maskOf (bits.mergeSort (· ≤ ·)) = maskOf bits := by
  apply Nat.eq_of_testBit_eq
  intro k
  rw [testBit_maskOf, testBit_maskOf]
  congr 1
  rw [eq_iff_iff]
  exact (List.mergeSort_perm bits (· ≤ ·)).mem_iff

/-- The distribution that a list of qubits is sampled from: the value of the qubits in increasing order. -/
noncomputable def bitsDist (e : Eng) (bits : List ℕ) (x : ℕ) : ℝ :=
  probIf e.n (fun i => valueOf (bits.mergeSort (· ≤ ·)) i = x) e.amp

theorem bitsDist_nonneg (e : Eng) (bits : List ℕ) (x : ℕ) : 0 ≤ bitsDist e bits x := probIf_nonneg _ _ _

theorem bitsDist_total {e : Eng} (he : e.Steady) (bits : List ℕ) : cum (bitsDist e bits) (2 ^ bits.length) = 1 := by
  rw [← he.1]
  refine sum_probIf e.n e.amp (valueOf (bits.mergeSort (· ≤ ·))) (fun i _ => ?_)
  have := valueOf_lt (bits.mergeSort (· ≤ ·)) i
  rwa [List.length_mergeSort] at this

theorem forceMBits_sampled_eq {P : Par} (hP : P.Ok) {e : Eng} (he : e.Steady) {bits : List ℕ}
    (hnd : bits.Nodup) (hb : ∀ b ∈ bits, b < e.n) (hl : bits.length ≠ 1) (doApply : Bool) {r : ℝ} (h0 : 0 < r) (h1 : r < 1)
    (u : ℝ) :
    ∃ x < 2 ^ bits.length, ∃ e', Picks (bitsDist e bits) r x ∧
      forceMBits P e bits [] doApply r u = some (place (bits.mergeSort (· ≤ ·)) x, e') ∧
      (doApply = true → e'.n = e.n ∧ e'.Steady ∧
        Collapsed e.n (Agrees bits (place (bits.mergeSort (· ≤ ·)) x)) e.amp e'.amp) ∧
      (doApply = false → e' = e) := by
  rw [forceMBits_many hl (Or.inl rfl) hb]
  simp only [ne_eq, not_true_eq_false, if_false]
  rw [normIf_steady he]
  have ha : probMaskAll e (maskOf bits) = bitsDist e bits := by
    funext x
    rw [probMaskAll_spec he, maskQubits_maskOf hnd]; rfl
  rw [ha]
  obtain ⟨x, hx, hs, hp⟩ := sampleBits_spec (bitsDist_total he bits) h0 h1
  have hpos := picks_pos hp
  rw [hs]
  simp only [Option.bind_some]
  rw [if_neg hpos.ne', sortPows_map]
  have hsp : spreadBits ((bits.mergeSort (· ≤ ·)).map (2 ^ ·)) x = place (bits.mergeSort (· ≤ ·)) x := spread_eq _ _
  rw [hsp]
  have hnd' : (bits.mergeSort (· ≤ ·)).Nodup := (List.mergeSort_perm bits (· ≤ ·)).nodup_iff.2 hnd
  have hx' : x < 2 ^ (bits.mergeSort (· ≤ ·)).length := by rwa [List.length_mergeSort]
  have hvm : ∀ q, (place (bits.mergeSort (· ≤ ·)) x).testBit q = true → q ∈ bits := by
    intro q hq
    by_contra hc
    rw [testBit_place_not_mem (fun h => hc ((List.mergeSort_perm bits (· ≤ ·)).mem_iff.1 h))] at hq
    cases hq
  have hag : ∀ i, valueOf (bits.mergeSort (· ≤ ·)) i = x ↔ Agrees bits (place (bits.mergeSort (· ≤ ·)) x) i := by
    intro i
    rw [← and_maskOf_iff hvm, ← maskOf_sorted bits, masked_iff hnd' hx']
  refine ⟨x, hx, _, hp, rfl, ?_, ?_⟩
  · intro hd
    have := project_collapsed hP.1 he (maskOf bits) (place (bits.mergeSort (· ≤ ·)) x) u
      (p := fun i => valueOf (bits.mergeSort (· ≤ ·)) i = x) (fun i _ => by rw [hag]; exact and_maskOf_iff hvm i) hpos
    simp only [hd, true_and]
    exact ⟨this.1, this.2.1, collapsed_congr (fun i _ => hag i) this.2.2⟩
  · intro hd
    simp [hd]

theorem agrees_single (b : ℕ) (v : Bool) (i : ℕ) : Agrees [b] (if v then pow2 b else 0) i ↔ i.testBit b = v := by
  unfold Agrees
  cases v <;> simp [pow2]

/-- **C21.** Measuring any list of distinct qubits (`M(bits)`): for every draw strictly between zero and one the result
has positive probability, contains measured qubits only, and the state is projected on it. -/
theorem forceMBits_measures {P : Par} (hP : P.Ok) {e : Eng} (hn : e.n ≤ 64) (he : e.Steady) {bits : List ℕ}
    (hnd : bits.Nodup) (hb : ∀ b ∈ bits, b < e.n) {r : ℝ} (h0 : 0 < r) (h1 : r < 1) (u : ℝ) :
    ∃ v e', forceMBits P e bits [] true r u = some (v, e') ∧ Measured e bits v e' := by
  by_cases hl : bits.length = 1
  · obtain ⟨b, rfl⟩ := List.length_eq_one_iff.1 hl
    have hbn := hb b (by simp)
    have heq : forceMBits P e [b] [] true r u =
        (forceM P e b false false true r u).map fun (res, e) => (if res then pow2 b else 0, e) := by
      unfold forceMBits
      rw [if_neg (by simp), if_neg (by simp; omega)]
      rfl
    rw [heq]
    rcases forceM_projects hP hn he hbn false false r u with ⟨h, _⟩ | ⟨c, e', h, _, hpos, h2, h3, h4⟩
    · cases h
    · rw [h]
      refine ⟨if c then pow2 b else 0, e', rfl, ?_, ?_, h2, h3, collapsed_congr (fun i _ => (agrees_single b c i).symm) h4⟩
      · intro q hq
        cases c
        · simp at hq
        · simp only [if_true, pow2, Nat.testBit_two_pow, decide_eq_true_eq] at hq
          simp [hq]
      · rw [probIf_congr (fun i _ => agrees_single b c i) (fun _ _ => rfl)]
        exact hpos
  · obtain ⟨x, hx, e', hp, heq, ha, _⟩ := forceMBits_sampled_eq hP he hnd hb hl true h0 h1 u
    obtain ⟨h2, h3, h4⟩ := ha rfl
    refine ⟨_, e', heq, ?_, ?_, h2, h3, h4⟩
    · intro q hq
      by_contra hc
      rw [testBit_place_not_mem (fun h => hc ((List.mergeSort_perm bits (· ≤ ·)).mem_iff.1 h))] at hq
      cases hq
    · have hpos := picks_pos hp
      have hnd' : (bits.mergeSort (· ≤ ·)).Nodup := (List.mergeSort_perm bits (· ≤ ·)).nodup_iff.2 hnd
      have hx' : x < 2 ^ (bits.mergeSort (· ≤ ·)).length := by rwa [List.length_mergeSort]
      rw [← probIf_congr (p := fun i => valueOf (bits.mergeSort (· ≤ ·)) i = x) (s := e.amp) _ (fun _ _ => rfl)]
      · exact hpos
      · intro i _
        have hvm : ∀ q, (place (bits.mergeSort (· ≤ ·)) x).testBit q = true → q ∈ bits := by
          intro q hq
          by_contra hc
          rw [testBit_place_not_mem (fun h => hc ((List.mergeSort_perm bits (· ≤ ·)).mem_iff.1 h))] at hq
          cases hq
        rw [← and_maskOf_iff hvm, ← maskOf_sorted bits, masked_iff hnd' hx']

open MeasureTheory in
/-- **C21.** Born's rule for a list of qubits: with a uniform draw, the result is `v` with the probability of the basis
states that have the bits of `v` at the listed qubits. -/
theorem forceMBits_born {P : Par} (hP : P.Ok) {e : Eng} (he : e.Steady) {bits : List ℕ}
    (hnd : bits.Nodup) (hb : ∀ b ∈ bits, b < e.n) (hl : bits.length ≠ 1) (doApply : Bool) (u : ℝ) {v : ℕ}
    (hv : ∀ q, v.testBit q = true → q ∈ bits) :
    volume {r : ℝ | 0 < r ∧ r < 1 ∧ ∃ e', forceMBits P e bits [] doApply r u = some (v, e')} =
      ENNReal.ofReal (probIf e.n (Agrees bits v) e.amp) := by
  set sb := bits.mergeSort (· ≤ ·) with hsb
  have hmem : ∀ q, q ∈ sb ↔ q ∈ bits := fun q => (List.mergeSort_perm bits (· ≤ ·)).mem_iff
  have hnd' : sb.Nodup := (List.mergeSort_perm bits (· ≤ ·)).nodup_iff.2 hnd
  have hlen : sb.length = bits.length := List.length_mergeSort _
  have hplace : ∀ w, (∀ q, w.testBit q = true → q ∈ bits) → place sb (valueOf sb w) = w := by
    intro w hw
    apply Nat.eq_of_testBit_eq
    intro q
    rw [testBit_place_valueOf]
    by_cases hq : q ∈ bits
    · simp [(hmem q).2 hq]
    · rw [show decide (q ∈ sb) = false by simp [hmem, hq], Bool.false_and]
      cases hwq : w.testBit q
      · rfl
      · exact absurd (hw q hwq) hq
  have hxv : valueOf sb v < 2 ^ bits.length := by rw [← hlen]; exact valueOf_lt _ _
  have hset : {r : ℝ | 0 < r ∧ r < 1 ∧ ∃ e', forceMBits P e bits [] doApply r u = some (v, e')} =
      {r : ℝ | 0 < r ∧ r < 1 ∧ Picks (bitsDist e bits) r (valueOf sb v)} := by
    ext r
    simp only [Set.mem_setOf_eq]
    refine and_congr_right fun h0 => and_congr_right fun h1 => ?_
    obtain ⟨x, hx, e', hp, heq, _⟩ := forceMBits_sampled_eq hP he hnd hb hl doApply h0 h1 u
    rw [heq]
    constructor
    · rintro ⟨e'', h⟩
      have hpl := (Prod.mk.inj (Option.some.inj h)).1
      rw [← hpl, valueOf_place hnd' (by rw [hlen]; exact hx)]
      exact hp
    · intro hp'
      have : x = valueOf sb v := picks_unique (bitsDist_nonneg e bits) hp hp'
      rw [this, hplace v hv]
      exact ⟨e', rfl⟩
  rw [hset, picks_volume (bitsDist_nonneg e bits) (bitsDist_total he bits) hxv]
  congr 1
  unfold bitsDist
  apply probIf_congr _ (fun _ _ => rfl)
  intro i _
  rw [← hsb]
  constructor
  · intro h b hb; exact valueOf_inj h b ((hmem b).2 hb)
  · intro h; exact valueOf_congr (fun b hb => h b ((hmem b).1 hb))

/-! ### Registers -/

/-- What a register measurement that returned `v` must have done. -/
def MeasuredReg (e : Eng) (start length v : ℕ) (e' : Eng) : Prop :=
  v < 2 ^ length ∧ 0 < regProb e start length v ∧ e'.n = e.n ∧ e'.Steady ∧
    Collapsed e.n (fun i => field start length i = v) e.amp e'.amp

theorem regMask_iff {start length v : ℕ} (hv : v < 2 ^ length) (i : ℕ) :
    i &&& ((2 ^ length - 1) <<< start) = v <<< start ↔ field start length i = v := by
  constructor
  · intro h
    apply Nat.eq_of_testBit_eq
    intro k
    rw [testBit_field]
    have hk := congrArg (fun z => Nat.testBit z (start + k)) h
    simp only [Nat.testBit_and, Nat.testBit_shiftLeft, Nat.testBit_two_pow_sub_one] at hk
    simp only [ge_iff_le, Nat.le_add_right, decide_true, Bool.true_and, Nat.add_sub_cancel_left] at hk
    rw [← hk, Bool.and_comm]
  · intro h
    apply Nat.eq_of_testBit_eq
    intro k
    rw [Nat.testBit_and, Nat.testBit_shiftLeft, Nat.testBit_shiftLeft, Nat.testBit_two_pow_sub_one, ← h, testBit_field]
    by_cases hk : start ≤ k
    · simp only [ge_iff_le, hk, decide_true, Bool.true_and, show start + (k - start) = k by omega]
      rw [Bool.and_comm]
    · simp [hk]

theorem field_one (start i : ℕ) (b : Bool) : i.testBit start = b ↔ field start 1 i = if b then 1 else 0 := by
  have h := Nat.testBit_eq_decide_div_mod_eq (x := i) (i := start)
  unfold field
  rw [h, pow_one]
  have := Nat.mod_two_eq_zero_or_one (i / 2 ^ start)
  rcases this with h' | h' <;> cases b <;> simp [h']

theorem cum_regProb {e : Eng} (he : e.Steady) (start length : ℕ) : cum (regProb e start length) (2 ^ length) = 1 :=
  regProb_total he start length

/-- **C21.** Measuring a register (`MReg`): for every draw strictly between zero and one the result has positive
probability and the register is projected on it. -/
theorem forceMReg_measures {P : Par} (hP : P.Ok) {e : Eng} (hn : e.n < 64) (he : e.Steady) {start length : ℕ}
    (hr : start + length ≤ e.n) (result : ℕ) {r : ℝ} (h0 : 0 < r) (h1 : r < 1) (u : ℝ) :
    ∃ v e', forceMReg P e start length result false true r u = some (v, e') ∧ MeasuredReg e start length v e' := by
  unfold forceMReg
  rw [rangeOk hr hn]
  simp only [Bool.false_eq_true, if_false, if_true]
  by_cases hl : length = 1
  · subst hl
    rw [if_pos rfl]
    rcases forceM_projects hP (by omega) he (show start < e.n by omega) (result.testBit 0) false r u with
      ⟨h, _⟩ | ⟨b, e', h, _, hpos, h2, h3, h4⟩
    · cases h
    · rw [h]
      refine ⟨if b then 1 else 0, e', rfl, by cases b <;> norm_num, ?_, h2, h3,
        collapsed_congr (fun i _ => field_one start i b) h4⟩
      unfold regProb
      rw [← probIf_congr (fun i _ => field_one start i b) (fun _ _ => rfl)]
      exact hpos
  · rw [if_neg hl, normIf_steady he]
    have ha : probRegAll e start length = regProb e start length := funext fun x => probRegAll_spec he start length x
    rw [ha]
    obtain ⟨x, hx, hs, hp⟩ := sampleReg_spec (cum_regProb he start length) h0 h1
    have hpos := picks_pos hp
    rw [hs]
    simp only [Option.bind_some]
    rw [if_neg hpos.ne']
    have hc := applyM_collapsed hP.1 e ((2 ^ length - 1) <<< start) (x <<< start) u
      (p := fun i => field start length i = x) (fun i _ => regMask_iff hx i) hpos
    refine ⟨x, _, rfl, hx, hpos, rfl, applyM_steady _ _ _ _ _ ?_, hc⟩
    obtain ⟨_, _, _, h3⟩ := hc
    exact h3

/-- **C21.** Forcing a register value: refused if its probability is zero, projected on otherwise. -/
theorem forceMReg_forced {P : Par} (hP : P.Ok) {e : Eng} (hn : e.n < 64) (he : e.Steady) {start length v : ℕ}
    (hr : start + length ≤ e.n) (hv : v < 2 ^ length) (r u : ℝ) :
    (regProb e start length v = 0 ∧ forceMReg P e start length v true true r u = none) ∨
    ∃ e', forceMReg P e start length v true true r u = some (v, e') ∧ MeasuredReg e start length v e' := by
  unfold forceMReg
  rw [rangeOk hr hn]
  simp only [Bool.false_eq_true, if_false, if_true]
  by_cases hl : length = 1
  · subst hl
    rw [if_pos rfl]
    have hv01 : v = if v.testBit 0 then 1 else 0 := by
      have : v = 0 ∨ v = 1 := by omega
      rcases this with rfl | rfl <;> rfl
    have hq : qProb e start (v.testBit 0) = regProb e start 1 v := by
      unfold qProb regProb
      apply probIf_congr _ (fun _ _ => rfl)
      intro i _
      rw [field_one, ← hv01]
    rcases forceM_projects hP (by omega) he (show start < e.n by omega) (v.testBit 0) true r u with
      ⟨_, h0, h⟩ | ⟨b, e', h, hb, hpos, h2, h3, h4⟩
    · left
      rw [h, ← hq]; exact ⟨h0, rfl⟩
    · right
      have hb := hb rfl
      subst hb
      rw [h]
      refine ⟨e', ?_, hv, by rw [← hq]; exact hpos, h2, h3,
        collapsed_congr (fun i _ => by rw [field_one, ← hv01]) h4⟩
      simp only [Option.map_some]
      rw [← hv01]
  · rw [if_neg hl]
    have hand : v <<< start &&& ((2 ^ length - 1) <<< start) = v <<< start := by
      rw [← Nat.shiftLeft_and_distrib, mask_eq_mod, Nat.mod_eq_of_lt hv]
    have hlt : (2 ^ length - 1) <<< start < 2 ^ e.n := by
      rw [Nat.shiftLeft_eq]
      calc (2 ^ length - 1) * 2 ^ start < 2 ^ length * 2 ^ start :=
            Nat.mul_lt_mul_of_pos_right (Nat.sub_lt (by positivity) (by norm_num)) (by positivity)
        _ = 2 ^ (start + length) := by rw [← pow_add, add_comm]
        _ ≤ 2 ^ e.n := Nat.pow_le_pow_right (by norm_num) hr
    rw [probMask_spec hP (by omega) he hlt hand]
    have hcong : probIf e.n (fun i => i &&& (2 ^ length - 1) <<< start = v <<< start) e.amp = regProb e start length v :=
      probIf_congr (fun i _ => regMask_iff hv i) (fun _ _ => rfl)
    rw [hcong]
    simp only [Option.map_some, Option.bind_some]
    by_cases h0 : regProb e start length v = 0
    · left; exact ⟨h0, if_pos h0⟩
    · right
      rw [if_neg h0]
      have hpos : 0 < regProb e start length v := lt_of_le_of_ne (probIf_nonneg _ _ _) (Ne.symm h0)
      have hc := applyM_collapsed hP.1 e ((2 ^ length - 1) <<< start) (v <<< start) u
        (p := fun i => field start length i = v) (fun i _ => regMask_iff hv i) hpos
      refine ⟨_, rfl, hv, hpos, rfl, applyM_steady _ _ _ _ _ ?_, hc⟩
      obtain ⟨_, _, _, h3⟩ := hc
      exact h3

open MeasureTheory in
/-- **C21.** Born's rule for a register. -/
theorem forceMReg_born {P : Par} (hP : P.Ok) {e : Eng} (hn : e.n < 64) (he : e.Steady) {start length v : ℕ}
    (hr : start + length ≤ e.n) (hl : length ≠ 1) (hv : v < 2 ^ length) (result : ℕ) (u : ℝ) :
    volume {r : ℝ | 0 < r ∧ r < 1 ∧ ∃ e', forceMReg P e start length result false true r u = some (v, e')} =
      ENNReal.ofReal (regProb e start length v) := by
  rw [← picks_volume (a := regProb e start length) (fun _ => probIf_nonneg _ _ _) (cum_regProb he start length) hv]
  congr 1
  ext r
  simp only [Set.mem_setOf_eq]
  refine and_congr_right fun h0 => and_congr_right fun h1 => ?_
  unfold forceMReg
  rw [rangeOk hr hn]
  simp only [Bool.false_eq_true, if_false, if_true]
  rw [if_neg hl, normIf_steady he,
    show probRegAll e start length = regProb e start length from funext fun x => probRegAll_spec he start length x]
  obtain ⟨x, hx, hs, hp⟩ := sampleReg_spec (cum_regProb he start length) h0 h1
  have hpos := picks_pos hp
  rw [hs]
  simp only [Option.bind_some]
  rw [if_neg hpos.ne']
  constructor
  · rintro ⟨e', h⟩
    have := (Prod.mk.inj (Option.some.inj h)).1
    rw [← this]; exact hp
  · intro hp'
    have := picks_unique (a := regProb e start length) (fun _ => probIf_nonneg _ _ _) hp hp'
    subst this
    exact ⟨_, rfl⟩

/-! ### All qubits -/

theorem cum_probAll {e : Eng} (he : e.Steady) : cum (probAll e) (2 ^ e.n) = 1 := by
  rw [← he.1]
  unfold cum totalProb
  apply Finset.sum_congr rfl
  intro i hi
  exact probAll_eq he.1 (Finset.mem_range.1 hi)

/-- **C21.** `MAll`: for every draw in `[0, 1)` the result is a basis state of positive probability, and the state becomes
that basis state up to phase. -/
theorem mAll_measures {P : Par} {e : Eng} (he : e.Steady) {r : ℝ} (h0 : 0 ≤ r) (h1 : r < 1) (u : ℝ) :
    (mAll P e r u).1 < 2 ^ e.n ∧ 0 < Complex.normSq (e.amp (mAll P e r u).1) ∧ (mAll P e r u).2.n = e.n ∧
      (mAll P e r u).2.Steady ∧ Collapsed e.n (fun i => i = (mAll P e r u).1) e.amp (mAll P e r u).2.amp := by
  unfold mAll
  rw [normIf_steady he]
  obtain ⟨x, hx, hs, hp⟩ := mAllLoop_spec (cum_probAll he) h1 (2 ^ e.n) 0 (2 ^ e.n - 1) (by omega)
    (by rw [cum_zero]; exact h0)
  rw [cum_zero] at hs
  simp only
  rw [hs]
  have hpos := picksR_pos hp
  rw [probAll_eq he.1 hx] at hpos
  have htot : totalProb e.n (setPerm e x u).amp = 1 := by
    unfold totalProb setPerm
    rw [Finset.sum_eq_single x]
    · simp [nonunitaryPhase_norm]
    · intro i _ hne; simp [hne]
    · intro h; exact absurd (Finset.mem_range.2 hx) h
  refine ⟨hx, hpos, rfl, ⟨htot, fun _ => rfl⟩, nonunitaryPhase e u / e.amp x, ?_, ?_, htot⟩
  · rintro i _ rfl
    have : e.amp i ≠ 0 := by
      intro h; rw [h] at hpos; simp at hpos
    unfold setPerm
    simp [this]
  · intro i _ hne
    unfold setPerm
    simp [hne]

open MeasureTheory in
/-- **C21.** Born's rule for `MAll`. -/
theorem mAll_born {P : Par} {e : Eng} (he : e.Steady) (u : ℝ) {x : ℕ} (hx : x < 2 ^ e.n) :
    volume {r : ℝ | 0 ≤ r ∧ r < 1 ∧ (mAll P e r u).1 = x} = ENNReal.ofReal (Complex.normSq (e.amp x)) := by
  have hnn : ∀ i, 0 ≤ probAll e i := by
    intro i
    unfold probAll clampProb
    simp only
    split_ifs <;> linarith
  rw [← probAll_eq he.1 hx, ← picksR_volume hnn (cum_probAll he) hx]
  congr 1
  ext r
  simp only [Set.mem_setOf_eq]
  refine and_congr_right fun h0 => and_congr_right fun h1 => ?_
  unfold mAll
  rw [normIf_steady he]
  obtain ⟨y, hy, hs, hp⟩ := mAllLoop_spec (cum_probAll he) h1 (2 ^ e.n) 0 (2 ^ e.n - 1) (by omega)
    (by rw [cum_zero]; exact h0)
  rw [cum_zero] at hs
  simp only
  rw [hs]
  constructor
  · rintro rfl; exact hp
  · intro hp'; exact picksR_unique hnn hp hp'

/-! ### The default register measurement, bit by bit -/

/-- **C21.** The default `ForceMReg` measures bit after bit; the outcome has the documented order and the state is
projected on it, for every sequence of draws. -/
theorem forceMRegDefault_measures {P : Par} (hP : P.Ok) {e : Eng} (hn : e.n ≤ 64) (he : e.Steady) {start length : ℕ}
    (hr : start + length ≤ e.n) (result : ℕ) (r u : ℕ → ℝ) :
    ∃ v e', forceMRegDefault P e start length result false true r u = some (v, e') ∧ v < 2 ^ length ∧ e'.n = e.n ∧
      e'.Steady ∧ Collapsed e.n (fun i => field start length i = v) e.amp e'.amp := by
  unfold forceMRegDefault
  induction length with
  | zero =>
    refine ⟨0, e, rfl, by norm_num, rfl, he, 1, fun i _ _ => (one_mul _).symm, fun i _ h => ?_, he.1⟩
    exact absurd (field_zero_len start i) h
  | succ k ih =>
    obtain ⟨v, e', h1, hv, h2, h3, h4⟩ := ih (by omega)
    rw [List.range_succ, List.foldlM_append, h1]
    simp only [Option.bind_eq_bind, Option.bind_some, List.foldlM_cons, List.foldlM_nil]
    rcases forceM_projects hP (by omega) h3 (show start + k < e'.n by omega) (pow2 k &&& result != 0) false (r k) (u k) with
      ⟨h, _⟩ | ⟨b, e'', h, _, hpos, h5, h6, h7⟩
    · cases h
    · rw [h]
      refine ⟨if b then v ||| pow2 k else v, e'', rfl, ?_, by omega, h6, ?_⟩
      · have hv' : v < 2 ^ (k + 1) := by rw [pow_succ]; omega
        cases b
        · simpa using hv'
        · simp only [if_true]
          exact Nat.or_lt_two_pow hv' (Nat.pow_lt_pow_right (by norm_num) (by omega))
      · rw [h2] at h7
        refine collapsed_congr (fun i _ => ?_) (collapsed_trans h4 h7)
        have hvk : v.testBit k = false := lt_two_pow_iff_testBit.1 hv k (le_refl k)
        have hbits : ∀ j, (if b then v ||| pow2 k else v).testBit j = (v.testBit j || (b && decide (k = j))) := by
          intro j
          cases b <;> simp [pow2, Nat.testBit_or, Nat.testBit_two_pow]
        constructor
        · rintro ⟨h8, h9⟩
          apply Nat.eq_of_testBit_eq
          intro j
          rw [hbits, testBit_field]
          rcases Nat.lt_trichotomy j k with hj | hj | hj
          · rw [← h8, testBit_field]
            simp [hj, show j < k + 1 by omega, show k ≠ j by omega]
          · subst hj; simp [hvk, h9]
          · rw [lt_two_pow_iff_testBit.1 hv j (by omega)]
            simp [show ¬ j < k + 1 by omega, show k ≠ j by omega]
        · intro h8
          have hj : ∀ j, (decide (j < k + 1) && i.testBit (start + j)) = (v.testBit j || (b && decide (k = j))) := by
            intro j; rw [← hbits, ← h8, testBit_field]
          constructor
          · apply Nat.eq_of_testBit_eq
            intro j
            rw [testBit_field]
            have := hj j
            by_cases hjk : j < k
            · simp only [show j < k + 1 by omega, decide_true, Bool.true_and, show k ≠ j by omega, decide_false,
                Bool.and_false, Bool.or_false] at this
              simp [hjk, this]
            · rw [lt_two_pow_iff_testBit.1 hv j (by omega)]
              simp [hjk]
          · have := hj k
            simpa [hvk] using this

/-! ### Where the code fails -/

/-- The code violates C21: forcing a value on a one-element list of qubits is ignored. The qubit is `|1⟩`, the value
asked for is `0`, and the call succeeds with the other outcome. -/
theorem forceMBits_single_wrong : ∃ (P : Par) (e : Eng), P.Ok ∧ e.Steady ∧ e.n = 1 ∧
    ∀ r u : ℝ, forceMBits P e [0] [false] true r u = some (1, e) := by
  refine ⟨⟨id, 1, fun _ => 0⟩, ⟨1, fun i => if i = 1 then 1 else 0, 1, false, true, 0⟩,
    ⟨fun l => List.Perm.refl l, fun _ => by norm_num⟩, ⟨?_, fun _ => rfl⟩, rfl, fun r u => ?_⟩
  · unfold totalProb; simp [Finset.sum_range_succ]
  · set P : Par := ⟨id, 1, fun _ => 0⟩
    set e : Eng := ⟨1, fun i => if i = 1 then 1 else 0, 1, false, true, 0⟩
    have hP : P.Ok := ⟨fun l => List.Perm.refl l, fun _ => by norm_num [P]⟩
    have he : e.Steady := ⟨by unfold totalProb; simp [e, Finset.sum_range_succ], fun _ => rfl⟩
    have hq : qProb e 0 true = 1 := by
      unfold qProb probIf; simp [e, Finset.sum_range_succ]
    have ho : outcome e 0 false false r = true := by unfold outcome; simp [hq]
    have hf : forceM P e 0 false false true r u = some (true, e) := by
      rw [forceM_eq hP (by norm_num [e]) he (by norm_num [e]), ho, hq]
      norm_num
    unfold forceMBits
    rw [if_neg (by simp), if_neg (by simp [e])]
    simp only [List.headD_cons]
    rw [hf]
    rfl

/-- The code violates the contract of `doApply`: forcing values on two qubits changes the state although it was asked
not to. -/
theorem forceMBits_apply_wrong : ∃ (P : Par) (e e' : Eng), P.Ok ∧ e.Steady ∧
    (∀ r : ℝ, forceMBits P e [0, 1] [false, false] false r 0 = some (0, e')) ∧ e'.amp 3 ≠ e.amp 3 := by
  set P : Par := ⟨id, 1, fun _ => 0⟩ with hPd
  set e : Eng := ⟨2, fun i => if i = 0 then 3 / 5 else if i = 3 then 4 / 5 else 0, 1, false, true, 0⟩ with hed
  have hP : P.Ok := ⟨fun l => List.Perm.refl l, fun _ => by norm_num [P]⟩
  have he : e.Steady := by
    refine ⟨?_, fun _ => rfl⟩
    unfold totalProb
    simp only [hed, show (2 : ℕ) ^ 2 = 4 by norm_num, Finset.sum_range_succ, Finset.sum_range_zero]
    norm_num [Complex.normSq_div, Complex.normSq_ofNat]
  have hm : maskOf [0, 1] = 3 := rfl
  have hprob : probMask P e 3 0 = some (9 / 25, e) := by
    rw [probMask_spec hP (by norm_num [hed]) he (by norm_num [hed]) (by norm_num)]
    congr 2
    unfold probIf
    simp only [hed, show (2 : ℕ) ^ 2 = 4 by norm_num, Finset.sum_range_succ, Finset.sum_range_zero]
    simp [Complex.normSq_div, Complex.normSq_ofNat]
    norm_num
  refine ⟨P, e, applyM P.σ e 3 0 (normFactor e 0 (9 / 25)), hP, he, fun r => ?_, ?_⟩
  · rw [forceMBits_many (by simp) (Or.inr rfl) (by simp [hed]), hm]
    simp only [ne_eq, reduceCtorEq, not_false_eq_true, if_true, List.zip_cons_cons, List.zip_nil_right, List.foldl_cons,
      List.foldl_nil, Bool.false_eq_true, if_false]
    rw [hprob]
    simp only [Option.bind_some]
    rw [if_neg (by norm_num), if_pos (by norm_num)]
  · rw [applyM_amp hP.1 e _ _ _ (by norm_num [hed])]
    simp only [hed]
    norm_num

/-- The code violates C21 for the draw zero, which the generator can return: `ForceMReg` then reports all ones. Here the
two qubits are `|00⟩`, the result is `3`, and the state is destroyed. -/
theorem forceMReg_zero_draw_wrong : ∃ (P : Par) (e e' : Eng), P.Ok ∧ e.Steady ∧ regProb e 0 2 3 = 0 ∧
    forceMReg P e 0 2 0 false true 0 0 = some (3, e') ∧ totalProb e'.n e'.amp = 0 := by
  set P : Par := ⟨id, 1, fun _ => 0⟩ with hPd
  set e : Eng := ⟨2, fun i => if i = 0 then 1 else 0, 1, false, true, 0⟩ with hed
  have hP : P.Ok := ⟨fun l => List.Perm.refl l, fun _ => by norm_num [P]⟩
  have he : e.Steady := by
    refine ⟨?_, fun _ => rfl⟩
    unfold totalProb
    simp [hed, show (2 : ℕ) ^ 2 = 4 by norm_num, Finset.sum_range_succ]
  refine ⟨P, e, applyM P.σ e 3 3 (normFactor e 0 1), hP, he, ?_, ?_, ?_⟩
  · unfold regProb probIf
    simp [hed, show (2 : ℕ) ^ 2 = 4 by norm_num, Finset.sum_range_succ, field]
  · unfold forceMReg
    rw [rangeOk (by norm_num [hed]) (by norm_num [hed])]
    simp [normIf_steady he, sampleReg, regLoop]
  · unfold totalProb
    apply Finset.sum_eq_zero
    intro i hi
    have hi : i < 2 ^ e.n := Finset.mem_range.1 hi
    rw [applyM_amp hP.1 e _ _ _ hi]
    by_cases h : i &&& 3 = 3
    · have : i ≠ 0 := by rintro rfl; simp at h
      simp [hed, this]
    · simp [h]

/-! ### Parity -/

/-- The parity of the masked qubits is `b`. -/
def HasParity (n mask : ℕ) (b : Bool) (i : ℕ) : Prop := (decide (maskCount n mask i % 2 = 1)) = b

/-- **C22.** `ProbParity` is the probability of odd parity. -/
theorem probParity_spec {P : Par} (hP : P.Ok) {cpp20 : Bool} {e : Eng} (hn : e.n ≤ 64) (he : e.Steady) {mask : ℕ}
    (hm : mask < 2 ^ e.n) (h32 : cpp20 = true ∨ mask < 2 ^ 32) :
    probParity P cpp20 e mask = some (probIf e.n (HasParity e.n mask true) e.amp, e) := by
  unfold probParity
  rw [if_neg (by omega), normIf_steady he]
  by_cases h0 : mask = 0
  · subst h0
    rw [if_pos rfl]
    congr 2
    symm
    unfold probIf
    apply Finset.sum_eq_zero
    intro i _
    rw [if_neg]
    unfold HasParity maskCount
    simp
  · rw [if_neg h0, ← clamp_probIf he.1, reduce_eq hP]
    congr 3
    rw [sum_visited (N := 2 ^ e.n) (calls := parForPlan 0 (2 ^ e.n)) (p := fun _ => True) (List.nodup_range')
      (fun i => by rw [mem_parForPlan]; simp)]
    unfold probIf
    apply Finset.sum_congr rfl
    intro i _
    simp only [if_true, popCountOcl_maskCount hn hm h32, and_one_ne]
    unfold HasParity
    by_cases h : maskCount e.n mask i % 2 = 1 <;> simp [h]

/-- **C21.** Measuring the parity of a mask: for every positive draw the state is projected on the reported parity (by
`NormalizeState`, which the call itself or, with `doNormalize`, the next reader runs). -/
theorem forceMParity_measures {P : Par} (hP : P.Ok) {cpp20 : Bool} {e : Eng} (hn : e.n ≤ 64) (he : e.Steady)
    (hfl : e.floor = 0) {mask : ℕ} (hm : mask < 2 ^ e.n) (hm0 : mask ≠ 0) (h32 : cpp20 = true ∨ mask < 2 ^ 32) (result : Bool)
    {r : ℝ} (h0 : 0 < r) (h1 : r < 1) :
    ∃ b e', forceMParity P cpp20 e mask result false r = some (b, e') ∧ 0 < probIf e.n (HasParity e.n mask b) e.amp ∧
      (normIf P.σ e').n = e.n ∧ (normIf P.σ e').Steady ∧
      Collapsed e.n (HasParity e.n mask b) e.amp (normIf P.σ e').amp := by
  unfold forceMParity
  rw [if_neg (by omega), if_neg hm0]
  simp only [Bool.false_eq_true, if_false]
  rw [probParity_spec hP hn he hm h32]
  simp only [Option.map_some]
  set p1 := probIf e.n (HasParity e.n mask true) e.amp with hp1
  set b := decide (r ≤ p1) with hb
  refine ⟨b, _, rfl, ?_⟩
  have hfalse : probIf e.n (HasParity e.n mask false) e.amp = 1 - p1 := by
    have := probIf_add_not e.n (HasParity e.n mask true) e.amp
    rw [he.1] at this
    rw [probIf_congr (p := HasParity e.n mask false) (q := fun i => ¬ HasParity e.n mask true i)
      (fun i _ => by unfold HasParity; cases decide (maskCount e.n mask i % 2 = 1) <;> simp) (fun _ _ => rfl)]
    linarith
  have hpos : 0 < probIf e.n (HasParity e.n mask b) e.amp := by
    by_cases hc : r ≤ p1
    · have : b = true := by simp [hb, hc]
      rw [this]; linarith
    · have : b = false := by simp [hb, hc]
      rw [this, hfalse]; linarith [not_le.1 hc]
  refine ⟨hpos, ?_⟩
  have hkeep : ∀ i, (popCountOcl cpp20 (i &&& mask) &&& 1 = if b = true then 1 else 0) ↔ HasParity e.n mask b i := by
    intro i
    rw [popCountOcl_maskCount hn hm h32, Nat.and_one_is_mod]
    unfold HasParity
    have := Nat.mod_two_eq_zero_or_one (maskCount e.n mask i)
    rcases this with h | h <;> cases b <;> simp [h]
  set pr := probIf e.n (HasParity e.n mask b) e.amp with hpr
  have hch : reduce P (parForPlan 0 (2 ^ e.n)) (fun lcv =>
      if popCountOcl cpp20 (lcv &&& mask) &&& 1 = if b = true then 1 else 0 then Complex.normSq (e.amp lcv) else 0) = pr := by
    rw [reduce_eq hP, sum_visited (N := 2 ^ e.n) (calls := parForPlan 0 (2 ^ e.n)) (p := fun _ => True)
      (List.nodup_range') (fun i => by rw [mem_parForPlan]; simp)]
    rw [hpr]; unfold probIf
    apply Finset.sum_congr rfl
    intro i _
    rw [if_pos trivial]
    simp only [hkeep]
  have hamp : ∀ i < 2 ^ e.n, (P.σ (parForPlan 0 (2 ^ e.n))).foldl (fun (s : ℕ → ℂ) lcv =>
      if popCountOcl cpp20 (lcv &&& mask) &&& 1 = if b = true then 1 else 0 then s else Function.update s lcv 0) e.amp i =
      if HasParity e.n mask b i then e.amp i else 0 := by
    intro i hi
    have : (fun (s : ℕ → ℂ) lcv =>
        if popCountOcl cpp20 (lcv &&& mask) &&& 1 = if b = true then 1 else 0 then s else Function.update s lcv 0) =
        fun s lcv => Function.update s lcv (if HasParity e.n mask b lcv then s lcv else 0) := by
      funext s lcv
      simp only [hkeep]
      by_cases h : HasParity e.n mask b lcv
      · rw [if_pos h, if_pos h, Function.update_eq_self]
      · rw [if_neg h, if_neg h]
    rw [this, fold_map hP.1 e.n (fun l z => if HasParity e.n mask b l then z else 0), if_pos hi]
  set A := (P.σ (parForPlan 0 (2 ^ e.n))).foldl (fun (s : ℕ → ℂ) lcv =>
      if popCountOcl cpp20 (lcv &&& mask) &&& 1 = if b = true then 1 else 0 then s else Function.update s lcv 0) e.amp with hA
  rw [hch]
  set f : Eng := { e with amp := A, rn := pr } with hf
  have hfin : normIf P.σ (if (!e.doNorm) = true then normalizeState P.σ f else f) = normalizeState P.σ f := by
    cases hd : e.doNorm
    · simp only [Bool.not_false, if_true]
      have hnd : (normalizeState P.σ f).doNorm = false := by
        unfold normalizeState updateRunningNorm
        simp only
        split_ifs <;> simp [hf, hd]
      unfold normIf
      rw [hnd]; rfl
    · simp only [Bool.not_true, Bool.false_eq_true, if_false]
      unfold normIf
      rw [show f.doNorm = true from hd]; rfl
  rw [hfin]
  have hle : pr ≤ 1 := by rw [← he.1]; exact probIf_le _ _ _
  have hne : ¬ f.rn = defaultArg := by
    show ¬ pr = defaultArg
    unfold defaultArg; intro h; linarith
  have hcases : (normalizeState P.σ f).n = e.n ∧ (normalizeState P.σ f).rn = 1 ∧
      ∀ i < 2 ^ e.n, (normalizeState P.σ f).amp i = ((1 / Real.sqrt pr : ℝ) : ℂ) * A i := by
    unfold normalizeState
    simp only [hne, if_false]
    rw [if_neg (show ¬ f.rn ≤ 0 by exact not_le.2 hpos)]
    by_cases hone : |1 - f.rn| ≤ 0
    · rw [if_pos hone]
      have h2 : pr = 1 := by
        have := abs_nonpos_iff.1 hone
        have h3 : f.rn = pr := rfl
        linarith
      refine ⟨rfl, h2, fun i _ => ?_⟩
      rw [h2]; simp [hf]
    · rw [if_neg hone]
      refine ⟨rfl, rfl, fun i hi => ?_⟩
      simp only [show f.floor ≤ 0 from hfl.le, if_true]
      rw [fold_map hP.1 f.n (fun l z => ((1 / Real.sqrt f.rn : ℝ) : ℂ) * z), if_pos hi]
  obtain ⟨hn', hrn, ha⟩ := hcases
  have htot : totalProb e.n (normalizeState P.σ f).amp = 1 := by
    unfold totalProb
    have : ∀ i ∈ Finset.range (2 ^ e.n), Complex.normSq ((normalizeState P.σ f).amp i) =
        (1 / pr) * if HasParity e.n mask b i then Complex.normSq (e.amp i) else 0 := by
      intro i hi
      have hi := Finset.mem_range.1 hi
      rw [ha i hi, hamp i hi, Complex.normSq_mul, Complex.normSq_ofReal, div_mul_div_comm, one_mul, Real.mul_self_sqrt hpos.le]
      by_cases h : HasParity e.n mask b i <;> simp [h]
    rw [Finset.sum_congr rfl this, ← Finset.mul_sum]
    have : ∑ i ∈ Finset.range (2 ^ e.n), (if HasParity e.n mask b i then Complex.normSq (e.amp i) else 0) = pr := rfl
    rw [this, one_div, inv_mul_cancel₀ hpos.ne']
  refine ⟨hn', ⟨by rw [hn']; exact htot, fun _ => hrn⟩, ((1 / Real.sqrt pr : ℝ) : ℂ), ?_, ?_, htot⟩
  · intro i hi h
    rw [ha i hi, hamp i hi, if_pos h]
  · intro i hi h
    rw [ha i hi, hamp i hi, if_neg h, mul_zero]

/-- Two qubits in a superposition of all four basis states; the listed qubits out of order, two workers. -/
example : Par.Ok ⟨List.reverse, 2, fun l => l % 2⟩ ∧ [1, 0].Nodup ∧ (∀ b ∈ [1, 0], b < 2) ∧
    Eng.Steady ⟨2, fun _ => 1 / 2, 1, true, false, 0⟩ := by
  refine ⟨⟨fun l => List.reverse_perm l, fun l => Nat.mod_lt _ (by norm_num)⟩, by simp, by simp, ?_, fun _ => rfl⟩
  unfold totalProb
  simp only [show (2 : ℕ) ^ 2 = 4 by norm_num, Finset.sum_range_succ, Finset.sum_range_zero]
  norm_num [Complex.normSq_div, Complex.normSq_ofNat]

end Verif.Engine
