import Verif.Model.OclArith
import Verif.Lemmas.OclMeas
import Verif.Lemmas.EngineArith
import Verif.Props.ParFor
import Verif.Props.Utils
import Verif.Lib.Insert
import Verif.Props.Rotate

/-!
Helper lemmas for the arithmetic of the OpenCL engine: a launch of one of its kernels is a parallel loop over one of the plans of
the CPU engine, in some order.
-/

namespace Verif.Ocl

open Verif.Engine Verif.Utils Verif.ParFor Verif.BlockFold Verif.Spec Verif.Bits Classical

theorem isSched_id : IsSched (id : List ℕ → List ℕ) := fun l => List.Perm.refl l

theorem argBuf_get {R : Rt} {args : List ℕ} {k : ℕ} (hk : k < 10) : argBuf R args k = args.getD k 0 := by
  simp [argBuf, writeBuf, arr, hk]

/-- A launch is a loop over a plan, in some order: `f` gives the index of the plan that a work item handles. -/
theorem launch_sched {R : Rt} (hR : R.Ok) (a b : ℕ) {plan : List ℕ} (hnd : plan.Nodup) {f : ℕ → ℕ}
    (hf : ∀ x < 2 ^ a, ∀ y < 2 ^ a, f x = f y → x = y) (hmem : ∀ i, i ∈ plan ↔ ∃ x < 2 ^ a, f x = i) :
    ∃ σ : List ℕ → List ℕ, IsSched σ ∧ ∀ (step step' : (ℕ → ℂ) → ℕ → ℕ → ℂ) (s : ℕ → ℂ),
      (∀ s x, x < 2 ^ a → step s x = step' s (f x)) → launch R (2 ^ b) (2 ^ a) step s = some ((σ plan).foldl step' s) := by
  set l := (R.σ (loopPlan (ngc R.d (2 ^ b)) (2 ^ a))).map Prod.snd with hl
  have hp : l.Perm (List.range (2 ^ a)) := ((hR.σ _).map _).trans (loopPlan_perm (ngc_pos hR.d b))
  have hlm : ∀ x, x ∈ l ↔ x < 2 ^ a := fun x => by rw [hp.mem_iff, List.mem_range]
  have hln : l.Nodup := hp.nodup_iff.2 List.nodup_range
  have hfn : (l.map f).Nodup := by
    rw [List.nodup_map_iff_inj_on hln]
    exact fun x hx y hy h => hf x ((hlm x).1 hx) y ((hlm y).1 hy) h
  have hperm : (l.map f).Perm plan := by
    rw [List.perm_ext_iff_of_nodup hfn hnd]
    intro i
    rw [hmem, List.mem_map]
    exact ⟨fun ⟨x, hx, h⟩ => ⟨x, (hlm x).1 hx, h⟩, fun ⟨x, hx, h⟩ => ⟨x, (hlm x).2 hx, h⟩⟩
  refine ⟨fun x => if x = plan then l.map f else x, fun x => ?_, fun step step' s h => ?_⟩
  · by_cases hx : x = plan
    · simp only [if_pos hx, hx]; exact hperm
    · simp only [if_neg hx]; exact List.Perm.refl x
  · show _ = some (List.foldl step' s (if plan = plan then l.map f else plan))
    rw [launch, if_pos (sizes_ok hR.d b), if_pos rfl, List.foldl_map, hl, List.foldl_map]
    congr 1
    apply List.foldl_ext
    intro s p hp'
    exact h s p.2 ((hlm _).1 (List.mem_map.2 ⟨p, hp', rfl⟩))

theorem arithCall_sched {R : Rt} (hR : R.Ok) (a b : ℕ) {plan : List ℕ} (hnd : plan.Nodup) {f : ℕ → ℕ}
    (hf : ∀ x < 2 ^ a, ∀ y < 2 ^ a, f x = f y → x = y) (hmem : ∀ i, i ∈ plan ↔ ∃ x < 2 ^ a, f x = i) :
    ∃ σ : List ℕ → List ℕ, IsSched σ ∧ ∀ (e : Eng) (args : List ℕ) (init : ℕ → ℂ) (bound : (ℕ → ℕ) → ℕ)
      (step : (ℕ → ℕ) → (ℕ → ℂ) → (ℕ → ℂ) → ℕ → ℕ → ℂ) (step' : (ℕ → ℂ) → ℕ → ℕ → ℂ),
      args.getD 0 0 = 2 ^ b → bound (argBuf R args) = 2 ^ a →
      (∀ s x, x < 2 ^ a → step (argBuf R args) e.amp s x = step' s (f x)) →
      arithCall R e args init bound step = some (e.reset ((σ plan).foldl step' init)) := by
  obtain ⟨σ, h1, h2⟩ := launch_sched hR a b hnd hf hmem
  refine ⟨σ, h1, fun e args init bound step step' ha hb hs => ?_⟩
  simp only [arithCall]
  rw [ha, hb, h2 _ step' _ hs]
  rfl

theorem inPlace_sched {R : Rt} (hR : R.Ok) (a : ℕ) {plan : List ℕ} (hnd : plan.Nodup) {f : ℕ → ℕ}
    (hf : ∀ x < 2 ^ a, ∀ y < 2 ^ a, f x = f y → x = y) (hmem : ∀ i, i ∈ plan ↔ ∃ x < 2 ^ a, f x = i) :
    ∃ σ : List ℕ → List ℕ, IsSched σ ∧ ∀ (e : Eng) (args : List ℕ) (step : (ℕ → ℕ) → (ℕ → ℂ) → ℕ → ℕ → ℂ)
      (step' : (ℕ → ℂ) → ℕ → ℕ → ℂ), args.getD 0 0 = 2 ^ a →
      (∀ s x, x < 2 ^ a → step (writeBuf 5 (arr args) R.old.ul) s x = step' s (f x)) →
      inPlaceCall R e args step = some (e.reset ((σ plan).foldl step' e.amp)) := by
  obtain ⟨σ, h1, h2⟩ := launch_sched hR a a hnd hf hmem
  refine ⟨σ, h1, fun e args step step' ha hs => ?_⟩
  simp only [inPlaceCall]
  have h0 : writeBuf 5 (arr args) R.old.ul 0 = args.getD 0 0 := by simp [writeBuf, arr]
  rw [h0, ha, h2 _ step' _ hs]
  rfl

/-! ## The three kinds of plans -/

theorem parForPlan_range (n : ℕ) : (parForPlan 0 (2 ^ n)).Nodup ∧ ∀ i, i ∈ parForPlan 0 (2 ^ n) ↔ ∃ x < 2 ^ n, id x = i := by
  refine ⟨by unfold parForPlan; exact List.nodup_range', fun i => ?_⟩
  rw [mem_parForPlan]
  simp

theorem skipReg_eq {s d x : ℕ} (h : insertAt s d 0 x < 2 ^ 64) : skipReg (2 ^ s - 1) d x = insertAt s d 0 x := by
  have := regIdx_or (s := s) (l := d) (k := 0) (i := x) (by positivity) h
  simpa [regIdx, skipReg] using this

theorem parForSkip_range {n s d : ℕ} (hsd : s + d ≤ n) (hn : n < 64) : (parForSkipPlan 64 0 (2 ^ n) (2 ^ s) d).Nodup ∧
    (∀ x < 2 ^ (n - d), ∀ y < 2 ^ (n - d), insertAt s d 0 x = insertAt s d 0 y → x = y) ∧
    ∀ i, i ∈ parForSkipPlan 64 0 (2 ^ n) (2 ^ s) d ↔ ∃ x < 2 ^ (n - d), insertAt s d 0 x = i := by
  refine ⟨(parForSkip_visits hsd hn).1, fun x _ y _ h => ?_, fun i => ?_⟩
  · rw [← rest_insertAt (s := s) (l := d) (v := 0) (by positivity) x, h, rest_insertAt (by positivity)]
  · rw [(parForSkip_visits hsd hn).2, ← field_eq_zero]
    constructor
    · rintro ⟨h1, h2⟩
      exact ⟨rest s d i, rest_lt hsd h1, by rw [← h2, insertAt_field_rest]⟩
    · rintro ⟨x, hx, rfl⟩
      exact ⟨insertAt_lt (by positivity) hsd hx, field_insertAt (by positivity) x⟩

theorem skipReg_insertAt {n s d x : ℕ} (hsd : s + d ≤ n) (hn : n < 64) (hx : x < 2 ^ (n - d)) :
    skipReg (2 ^ s - 1) d x = insertAt s d 0 x :=
  skipReg_eq (lt_of_lt_of_le (insertAt_lt (by positivity) hsd hx) (Nat.pow_le_pow_right (by norm_num) hn.le))

theorem pushApart1_insertAt {n s x : ℕ} (hs : s < n) (hn : n < 64) (hx : x < 2 ^ (n - 1)) :
    pushApart1 (2 ^ s - 1) x = insertAt s 1 0 x := by
  rw [← skipReg_insertAt (by omega : s + 1 ≤ n) hn hx]
  simp [pushApart1, skipReg, Nat.shiftLeft_eq]

theorem parForMask_range {n : ℕ} {ps : List ℕ} (hs : ps.Pairwise (· < ·)) (hb : ∀ p ∈ ps, p < n) (hn : n < 64) :
    (parForMaskPlan 64 0 (2 ^ n) (ps.map (2 ^ ·))).Nodup ∧
    (∀ x < 2 ^ (n - ps.length), ∀ y < 2 ^ (n - ps.length), insAll ps x = insAll ps y → x = y) ∧
    ∀ i, i ∈ parForMaskPlan 64 0 (2 ^ n) (ps.map (2 ^ ·)) ↔ ∃ x < 2 ^ (n - ps.length), insAll ps x = i := by
  have h := parForMask_visits (w := 64) hs hb hn.le
  refine ⟨h.1, fun x _ y _ h => insAll_injective ps h, fun i => ?_⟩
  rw [h.2, ← mem_insAll_range hs hb]

theorem two_pow_shiftRight {n k : ℕ} (h : k ≤ n) : 2 ^ n >>> k = 2 ^ (n - k) := by
  rw [Nat.shiftRight_eq_div_pow, Nat.pow_div h (by norm_num)]

theorem otherMask_bnot {n m : ℕ} (hm : m < 2 ^ n) (hn : n < 64) : (2 ^ n - 1) &&& bnot 64 m = otherMask n m := by
  apply Nat.eq_of_testBit_eq
  intro k
  rw [lt_two_pow_iff_testBit] at hm
  have := hm k
  simp only [bnot, Nat.testBit_and, Nat.testBit_xor, Nat.testBit_two_pow_sub_one, testBit_otherMask]
  by_cases hk : k < n
  · simp [hk, show k < 64 by omega]
  · simp [hk, this (by omega)]

theorem regMask_lt {n s l : ℕ} (h : s + l ≤ n) : (2 ^ l - 1) <<< s < 2 ^ n := by
  rw [lt_two_pow_iff_testBit]
  intro k hk
  rw [testBit_regMask]
  simp; omega

theorem range_of {s l n : ℕ} (h : ¬ isBadBitRange s l n = true) : s + l ≤ n := by
  by_contra hc
  exact h (by simp [isBadBitRange]; left; omega)

/-- The arguments of a kernel, read from the buffer. -/
syntax "read_args" : tactic
macro_rules
  | `(tactic| read_args) => `(tactic| simp only [argBuf_get (by norm_num : 0 < 10), argBuf_get (by norm_num : 1 < 10), argBuf_get (by norm_num : 2 < 10),
    argBuf_get (by norm_num : 3 < 10), argBuf_get (by norm_num : 4 < 10), argBuf_get (by norm_num : 5 < 10),
    argBuf_get (by norm_num : 6 < 10), argBuf_get (by norm_num : 7 < 10), argBuf_get (by norm_num : 8 < 10),
    argBuf_get (by norm_num : 9 < 10), List.getD_cons_succ, List.getD_cons_zero, List.getD_nil])

/-! ## Sorted powers -/

theorem sortedPows_range {n : ℕ} {ps : List ℕ} (hnd : ps.Nodup) (hb : ∀ p ∈ ps, p < n) (hn : n < 64) :
    (parForMaskPlan 64 0 (2 ^ n) (sortPows (ps.map Engine.pow2))).Nodup ∧
    (∀ x < 2 ^ (n - ps.length), ∀ y < 2 ^ (n - ps.length),
      insAll (ps.mergeSort (· ≤ ·)) x = insAll (ps.mergeSort (· ≤ ·)) y → x = y) ∧
    (∀ i, i ∈ parForMaskPlan 64 0 (2 ^ n) (sortPows (ps.map Engine.pow2)) ↔
      ∃ x < 2 ^ (n - ps.length), insAll (ps.mergeSort (· ≤ ·)) x = i) ∧
    ps.length ≤ n ∧
    ∀ q : ℕ → ℕ, (∀ i < ps.length, q i = arr (sortPows (ps.map Engine.pow2)) i) → ∀ x < 2 ^ (n - ps.length),
      pushApart q ps.length x = insAll (ps.mergeSort (· ≤ ·)) x := by
  have hs := sorted_lt_of_nodup hnd
  have hb' : ∀ p ∈ ps.mergeSort (· ≤ ·), p < n := fun p hp => hb p (mem_sort.1 hp)
  have hl : (ps.mergeSort (· ≤ ·)).length = ps.length := (List.mergeSort_perm ps (· ≤ ·)).length_eq
  have h := parForMask_range hs hb' hn
  have hlen := length_le_of_pairwise_lt _ n hs hb'
  rw [hl] at h hlen
  rw [sortPows_map]
  refine ⟨h.1, h.2.1, h.2.2, hlen, fun q hq x hx => ?_⟩
  rw [← hl]
  refine pushApart_eq hs (fun i hi => ?_) hx (by rw [hl]; omega)
  rw [hq i (by omega), arr, List.getD_eq_getElem _ _ (by simpa using hi), List.getElem_map]

theorem controls_of {cs : List ℕ} {n : ℕ} (h : ¬ throwIfBad cs n = true) : (∀ c ∈ cs, c < n) ∧ cs.Nodup :=
  (throwIfBad_correct cs n).1 (by simpa using h)

theorem sum_word {l a b : ℕ} (hl : l < 64) (ha : a < 2 ^ l) (hb : b < 2 ^ l) : (a + b) % 2 ^ 64 = a + b := by
  apply Nat.mod_eq_of_lt
  have : 2 ^ l ≤ 2 ^ 63 := Nat.pow_le_pow_right (by norm_num) (by omega)
  omega

theorem masked_lt (x l : ℕ) : x &&& (2 ^ l - 1) < 2 ^ l := by
  rw [mask_eq_mod]; exact Nat.mod_lt _ (by positivity)

theorem overflow_same (lp sm a b : ℕ) : devOverflow lp sm a b = isOverflowAdd a b sm lp := rfl

theorem sign_shift {l : ℕ} (hl : l ≠ 0) : 2 ^ l >>> 1 = 2 ^ (l - 1) := two_pow_shiftRight (by omega)

/-- The carry of the kernel `incdecc` is that of the CPU engine. -/
theorem incdecc_index {n m start length carry i : ℕ} (hl : start + length ≤ n) (hn : n < 64) (hm : m < 2 ^ length) :
    (if (((i &&& (2 ^ length - 1) <<< start) >>> start) + m) % 2 ^ 64 > 2 ^ length - 1 then
        2 ^ carry ||| (((((i &&& (2 ^ length - 1) <<< start) >>> start) + m) % 2 ^ 64 &&& (2 ^ length - 1)) <<< start)
      else ((((i &&& (2 ^ length - 1) <<< start) >>> start) + m) % 2 ^ 64) <<< start) |||
      (i &&& otherMask n ((2 ^ length - 1) <<< start ||| 2 ^ carry)) = carryOut n m start length carry i := by
  unfold carryOut
  simp only []
  rw [read_field, sum_word (by omega) (field_lt start length i) hm]
  have hf := field_lt start length i
  have hp : 0 < 2 ^ length := by positivity
  by_cases h : field start length i + m < 2 ^ length
  · rw [if_neg (by omega), if_pos h]
  · rw [if_pos (by omega), if_neg h, mask_eq_mod, Nat.mod_eq_sub_mod (by omega), Nat.mod_eq_of_lt (by omega)]
    rw [Nat.or_comm (2 ^ carry), Nat.or_assoc, Nat.or_comm (2 ^ carry), ← Nat.or_assoc]

theorem devCarryRes_same {n m start length carry i : ℕ} (hl : start + length ≤ n) (hn : n < 64) (hm : m < 2 ^ length) :
    devCarryRes ((2 ^ length - 1) <<< start) (otherMask n ((2 ^ length - 1) <<< start ||| 2 ^ carry)) (2 ^ length) (2 ^ carry)
      start m i = carryOut n m start length carry i := by
  unfold carryOut devCarryRes
  simp only []
  rw [read_field, sum_word (by omega) (field_lt start length i) hm]

theorem sort_pair {c o : ℕ} (h : c < o) : [c, o].mergeSort (· ≤ ·) = [c, o] ∧ [o, c].mergeSort (· ≤ ·) = [c, o] := by
  have h2 : [c, o].Pairwise (· < ·) := by simp [h]
  have key : ∀ l : List ℕ, l.Nodup → l.Perm [c, o] → l.mergeSort (· ≤ ·) = [c, o] := by
    intro l hl hp
    exact List.Perm.eq_of_pairwise (le := (· < ·)) (fun a b _ _ h h' => absurd h (by omega)) (sorted_lt_of_nodup hl) h2
      ((List.mergeSort_perm l (· ≤ ·)).trans hp)
  refine ⟨key _ (by simp; omega) (List.Perm.refl _), key _ (by simp; omega) (List.Perm.swap _ _ _)⟩

theorem fullAddBase_eq {n c o x a b : ℕ} (hco : c ≠ o) (hn : n < 64) (hc : c < n) (ho : o < n) (hx : x < 2 ^ (n - 2)) (m : ℕ)
    (old : ℕ → ℕ) : fullAddBase (writeBuf 5 (arr [m, a, b, 2 ^ c, 2 ^ o]) old) x = insAll ([c, o].mergeSort (· ≤ ·)) x := by
  have h3 : writeBuf 5 (arr [m, a, b, 2 ^ c, 2 ^ o]) old 3 = 2 ^ c := by simp [writeBuf, arr]
  have h4 : writeBuf 5 (arr [m, a, b, 2 ^ c, 2 ^ o]) old 4 = 2 ^ o := by simp [writeBuf, arr]
  rw [fullAddBase, h3, h4]
  rcases lt_or_gt_of_ne hco with h | h
  · rw [if_pos (Nat.pow_lt_pow_right (by norm_num) h), pushApart2_eq h hx (by omega), (sort_pair h).1]
    rfl
  · rw [if_neg (by have := Nat.pow_lt_pow_right (a := 2) (by norm_num) h; omega), pushApart2_eq h hx (by omega),
      (sort_pair h).2]
    rfl

/-- A rotation and the rotation by the rest. -/
theorem isRol_back {s l sh i r : ℕ} (hl : 0 < l) (h : Circ.IsRol s l (l - sh % l) r i) : Circ.IsRol s l sh i r := by
  refine ⟨fun j hj => ?_, fun k hk => (h.2 k hk).symm⟩
  have h1 := h.1 ((j + sh) % l) (Nat.mod_lt _ hl)
  have hm := Nat.mod_lt sh hl
  have h2 : ((j + sh) % l + (l - sh % l)) % l = j := by
    rw [Circ.add_mod_cases hj]
    split_ifs with hc
    · rw [show j + sh % l + (l - sh % l) = j + l by omega, Nat.add_mod_right, Nat.mod_eq_of_lt hj]
    · rw [show j + sh % l - l + (l - sh % l) = j by omega, Nat.mod_eq_of_lt hj]
  rw [h2] at h1
  exact h1.symm

end Verif.Ocl
