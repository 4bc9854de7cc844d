import Verif.Model.MultiShot
import Verif.Props.EngineMeasReg
import Verif.Props.Utils

/-!
# C53: multi-shot sampling
-/

namespace Verif.Engine

open Verif.ParFor Verif.Bits Verif.Spec Verif.Utils Classical MeasureTheory

/-- The value `v` is a possible outcome of the listed qubits: the value of a basis state of positive probability. -/
def Possible (e : Eng) (bits : List ℕ) (v : ℕ) : Prop := ∃ i < 2 ^ e.n, 0 < Complex.normSq (e.amp i) ∧ v = valueOf bits i

/-- The counts of `shots` samples. -/
def CountsOf (shots : ℕ) (sample : ℕ → ℕ) (res : ℕ → ℕ) : Prop :=
  ∀ v, res v = ((Finset.range shots).filter fun s => sample s = v).card

/-! ### The library distribution -/

theorem discrete_picks {w : ℕ → ℝ} {len : ℕ} (h1 : cum w len = 1) {r : ℝ} (h0 : 0 ≤ r) (hr : r < 1) :
    discrete w len r < len ∧ PicksR w r (discrete w len r) := by
  have hlen : len ≠ 0 := by rintro rfl; rw [cum_zero] at h1; norm_num at h1
  unfold discrete
  have ht : ∑ k ∈ Finset.range len, w k = 1 := h1
  rw [ht, mul_one]
  cases hf : (List.range len).find? (fun i => decide (r < ∑ k ∈ Finset.range (i + 1), w k)) with
  | none =>
    exfalso
    have := List.find?_eq_none.1 hf (len - 1) (List.mem_range.2 (by omega))
    rw [Nat.sub_add_cancel (by omega), ht] at this
    simp [hr] at this
  | some x =>
    rw [Option.getD_some]
    obtain ⟨hx1, as, bs, hx2, hx3⟩ := List.find?_eq_some_iff_append.1 hf
    have hxl : x < len := List.mem_range.1 (by rw [hx2]; simp)
    refine ⟨hxl, ?_, by simpa [cum] using hx1⟩
    have has : as.length = x := by
      have h := congrArg (fun l : List ℕ => l[as.length]?) hx2
      simp only [List.getElem?_append_right (le_refl _), Nat.sub_self, List.getElem?_cons_zero] at h
      have hl : as.length < len := by
        have := congrArg List.length hx2
        simp at this; omega
      rw [List.getElem?_range hl] at h
      exact Option.some.inj h
    rcases Nat.eq_zero_or_pos x with rfl | hpos
    · rw [cum_zero]; exact h0
    · have hmem : x - 1 ∈ as := by
        have h := congrArg (fun l : List ℕ => l[x - 1]?) hx2
        simp only [List.getElem?_append_left (show x - 1 < as.length by omega)] at h
        rw [List.getElem?_range (by omega)] at h
        exact List.mem_of_getElem? h.symm
      have := hx3 _ hmem
      rw [Nat.sub_add_cancel hpos] at this
      simp only [Bool.not_eq_true', decide_eq_false_iff_not, not_lt] at this
      exact this

theorem probBitsAll_nonneg (e : Eng) (bits : List ℕ) (v : ℕ) : 0 ≤ probBitsAll e bits v := by
  have hp : ∀ i, 0 ≤ probAll e i := by
    intro i
    unfold probAll clampProb
    simp only
    split_ifs <;> linarith
  have h : ∀ (l : List ℕ) (a : ℕ → ℝ), (∀ v, 0 ≤ a v) → ∀ v, 0 ≤ l.foldl (fun (a : ℕ → ℝ) i =>
      let r := gather (bits.map pow2) i
      Function.update a r (a r + probAll e i)) a v := by
    intro l
    induction l with
    | nil => intro a ha v; exact ha v
    | cons i l ih =>
      intro a ha v
      rw [List.foldl_cons]
      apply ih
      intro v
      simp only [Function.update_apply]
      split_ifs
      · exact add_nonneg (ha _) (hp i)
      · exact ha v
  unfold probBitsAll
  split_ifs
  · exact Complex.normSq_nonneg _
  · exact h _ _ (fun _ => le_refl _) v

theorem probIf_pos {n : ℕ} {p : ℕ → Prop} {s : ℕ → ℂ} (h : 0 < probIf n p s) : ∃ i < 2 ^ n, p i ∧ 0 < Complex.normSq (s i) := by
  unfold probIf at h
  obtain ⟨i, hi, hpos⟩ := Finset.exists_lt_of_sum_lt (s := Finset.range (2 ^ n)) (f := fun _ => (0 : ℝ))
    (g := fun i => if p i then Complex.normSq (s i) else 0) (by simpa using h)
  by_cases hp : p i
  · rw [if_pos hp] at hpos
    exact ⟨i, Finset.mem_range.1 hi, hp, hpos⟩
  · rw [if_neg hp] at hpos
    exact absurd hpos (lt_irrefl _)

theorem engineShot_possible {e : Eng} (he : e.Steady) (bits : List ℕ) {r : ℝ} (h0 : 0 ≤ r) (hr : r < 1) :
    Possible e bits (engineShot e bits r) := by
  obtain ⟨h1, h2⟩ := discrete_picks (w := probBitsAll e bits) (probBitsAll_total he bits) h0 hr
  have hpos := picksR_pos h2
  rw [probBitsAll_spec he bits h1] at hpos
  obtain ⟨i, hi, hv, hp⟩ := probIf_pos hpos
  exact ⟨i, hi, hp, hv.symm⟩

/-! ### Counting -/

theorem foldl_count : ∀ (l : List ℕ) (m : ℕ → ℕ → ℕ) (cpu sample : ℕ → ℕ) (c v : ℕ),
    (l.foldl (fun (m : ℕ → ℕ → ℕ) s => Function.update m (cpu s)
      (Function.update (m (cpu s)) (sample s) (m (cpu s) (sample s) + 1))) m) c v =
      m c v + (l.countP fun s => cpu s = c ∧ sample s = v) := by
  intro l
  induction l with
  | nil => intros; rfl
  | cons s l ih =>
    intro m cpu sample c v
    rw [List.foldl_cons, ih, List.countP_cons]
    by_cases hc : c = cpu s
    · subst hc
      rw [Function.update_self]
      by_cases hv : v = sample s
      · subst hv
        rw [Function.update_self]
        simp; omega
      · rw [Function.update_of_ne hv]
        simp [Ne.symm hv]
    · rw [Function.update_of_ne hc]
      simp [Ne.symm hc]

theorem mergeMaps_eq {cores : ℕ} (hc : 0 < cores) (m : ℕ → ℕ → ℕ) (v : ℕ) :
    mergeMaps cores m v = ∑ c ∈ Finset.range cores, m c v := by
  have h : ∀ (l : List ℕ) (r : ℕ → ℕ), (l.foldl (fun (res : ℕ → ℕ) i => fun v => res v + m i v) r) v =
      r v + (l.map fun i => m i v).sum := by
    intro l
    induction l with
    | nil => intro r; rfl
    | cons i l ih => intro r; rw [List.foldl_cons, ih, List.map_cons, List.sum_cons]; omega
  unfold mergeMaps
  rw [h, ← Nat.sub_add_cancel hc, Finset.sum_range_succ']
  rw [Nat.add_sub_cancel, add_comm, Finset.sum_range]
  congr 1
  rw [← List.sum_ofFn]
  congr 1
  apply List.ext_getElem
  · simp
  · intro k h1 h2
    simp [add_comm]

theorem card_of_sched {σ : List ℕ → List ℕ} (hσ : IsSched σ) (shots : ℕ) (p : ℕ → Prop) [DecidablePred p] :
    ((σ (parForPlan 0 shots)).countP fun s => p s) = ((Finset.range shots).filter p).card := by
  rw [(hσ _).countP_eq, List.countP_eq_length_filter]
  unfold parForPlan
  rw [Nat.sub_zero, ← List.range_eq_range', ← List.toFinset_card_of_nodup (List.nodup_range.filter _)]
  congr 1
  ext x
  simp

theorem counts {P : Par} (hP : P.Ok) (shots : ℕ) (sample : ℕ → ℕ) :
    CountsOf shots sample (mergeMaps P.cores (threadMaps P shots sample)) := by
  intro v
  have hc : 0 < P.cores := lt_of_le_of_lt (Nat.zero_le _) (hP.2 0)
  rw [mergeMaps_eq hc]
  unfold threadMaps
  rw [Finset.sum_congr rfl (fun c _ => foldl_count _ _ P.cpu sample c v)]
  simp only [zero_add]
  rw [← card_of_sched hP.1 shots (fun s => sample s = v)]
  generalize P.σ (parForPlan 0 shots) = l
  induction l with
  | nil => simp
  | cons s l ih =>
    simp only [List.countP_cons]
    rw [Finset.sum_add_distrib, ih]
    congr 1
    by_cases hv : sample s = v
    · rw [Finset.sum_eq_single (P.cpu s)]
      · simp [hv]
      · intro c _ hne; simp [Ne.symm hne]
      · intro h; exact absurd (Finset.mem_range.2 (hP.2 s)) h
    · simp [hv]

/-! ### The properties -/

theorem map_log2_pow {bits : List ℕ} (hb : ∀ b ∈ bits, b < 64) : (bits.map pow2).map log2 = bits := by
  rw [List.map_map]
  conv_rhs => rw [← List.map_id bits]
  apply List.map_congr_left
  intro b hbm
  have h := log2_partial (n := 2 ^ b) (by positivity) (Nat.pow_lt_pow_right (by norm_num) (hb b hbm))
  have h1 := (Nat.pow_le_pow_iff_right (by norm_num : 1 < 2)).1 h.1
  have h2 := (Nat.pow_lt_pow_iff_right (by norm_num : 1 < 2)).1 h.2
  show log2 (2 ^ b) = b
  omega

theorem shotBits_pow {n : ℕ} (hn : n ≤ 64) {bits : List ℕ} (hb : ∀ b ∈ bits, b < n) (hnd : bits.Nodup) :
    shotBits n (bits.map pow2) = some bits := by
  have hm := map_log2_pow (bits := bits) (fun b h => by have := hb b h; omega)
  unfold shotBits
  simp only [hm]
  rw [(throwIfBad_correct bits n).2 ⟨hb, hnd⟩]
  rfl

/-- **C53.** The map version: the counts of `shots` samples, every sample the value of the listed qubits in a basis state
of positive probability, whatever the draws; the state is not changed. -/
theorem multiShot_samples {P : Par} (hP : P.Ok) {e : Eng} (hn : e.n ≤ 64) (he : e.Steady) {bits : List ℕ}
    (hb : ∀ b ∈ bits, b < e.n) (hnd : bits.Nodup) (shots : ℕ) {r : ℕ → ℝ} (hr : ∀ s, 0 ≤ r s ∧ r s < 1) :
    ∃ res sample, multiShot P e (bits.map pow2) shots r = some (res, e) ∧ CountsOf shots sample res ∧
      ∀ s < shots, Possible e bits (sample s) := by
  unfold multiShot
  by_cases h0 : shots = 0
  · subst h0
    exact ⟨_, fun _ => 0, rfl, fun v => by simp, fun s hs => absurd hs (by omega)⟩
  · rw [if_neg h0, shotBits_pow hn hb hnd, Option.map_some]
    simp only [normIf_steady he]
    exact ⟨_, _, rfl, counts hP _ _, fun s _ => engineShot_possible he bits (hr s).1 (hr s).2⟩

/-- Each sample has the distribution of a measurement of the listed qubits. -/
theorem engineShot_born {e : Eng} (he : e.Steady) (bits : List ℕ) {v : ℕ} (hv : v < 2 ^ bits.length) :
    volume {r : ℝ | 0 ≤ r ∧ r < 1 ∧ engineShot e bits r = v} =
      ENNReal.ofReal (probIf e.n (fun i => valueOf bits i = v) e.amp) := by
  rw [← probBitsAll_spec he bits hv, ← picksR_volume (probBitsAll_nonneg e bits) (probBitsAll_total he bits) hv]
  congr 1
  ext r
  simp only [Set.mem_setOf_eq]
  refine and_congr_right fun h0 => and_congr_right fun h1 => ?_
  have h := discrete_picks (w := probBitsAll e bits) (probBitsAll_total he bits) h0 h1
  constructor
  · rintro rfl; exact h.2
  · intro hp; exact picksR_unique (probBitsAll_nonneg e bits) h.2 hp

theorem foldl_store (f : ℕ → ℕ) : ∀ (l : List ℕ) (a : ℕ → ℕ) (s : ℕ),
    (l.foldl (fun (a : ℕ → ℕ) s => Function.update a s (f s)) a) s = if s ∈ l then f s else a s := by
  intro l
  induction l with
  | nil => intros; simp
  | cons x l ih =>
    intro a s
    rw [List.foldl_cons, ih]
    by_cases hx : s = x
    · subst hx; simp
    · by_cases hm : s ∈ l <;> simp [hm, hx]

theorem sched_mem {σ : List ℕ → List ℕ} (hσ : IsSched σ) (shots s : ℕ) : s ∈ σ (parForPlan 0 shots) ↔ s < shots := by
  rw [(hσ _).mem_iff]; simp [parForPlan]

theorem multiShotArray_eq {P : Par} {e : Eng} (hn : e.n ≤ 64) (he : e.Steady) {bits : List ℕ}
    (hb : ∀ b ∈ bits, b < e.n) (hnd : bits.Nodup) {shots : ℕ} (h0 : shots ≠ 0) (r : ℕ → ℝ) (old : ℕ → ℕ) :
    multiShotArray P e (bits.map pow2) shots r old = some (fun s => if s ∈ P.σ (parForPlan 0 shots) then
      engineShot e bits (r s) % 2 ^ 32 else old s, e) := by
  unfold multiShotArray
  rw [if_neg h0, shotBits_pow hn hb hnd, Option.map_some]
  simp only [normIf_steady he]
  congr 2
  funext s
  rw [foldl_store (fun s => engineShot e bits (r s) % 2 ^ 32)]


/-- **C53, partial.** The array version stores the samples of the map version, one per shot, and nothing else, for at most
32 listed qubits. Full statement: without the bound; it is false from 33 qubits on (`multiShotArray_wrong`). -/
theorem multiShotArray_partial {P : Par} (hP : P.Ok) {e : Eng} (hn : e.n ≤ 64) (he : e.Steady) {bits : List ℕ}
    (hb : ∀ b ∈ bits, b < e.n) (hnd : bits.Nodup) (hlen : bits.length ≤ 32) (shots : ℕ) {r : ℕ → ℝ}
    (hr : ∀ s, 0 ≤ r s ∧ r s < 1) (old : ℕ → ℕ) :
    ∃ res, multiShotArray P e (bits.map pow2) shots r old = some (res, e) ∧ (∀ s < shots, Possible e bits (res s)) ∧
      ∀ s, shots ≤ s → res s = old s := by
  by_cases h0 : shots = 0
  · subst h0
    exact ⟨old, by unfold multiShotArray; rw [if_pos rfl], fun s hs => absurd hs (by omega), fun _ _ => rfl⟩
  · refine ⟨_, multiShotArray_eq hn he hb hnd h0 r old, fun s hs => ?_, fun s hs => ?_⟩
    · rw [if_pos ((sched_mem hP.1 _ _).2 hs)]
      have h := engineShot_possible he bits (hr s).1 (hr s).2
      have hlt : engineShot e bits (r s) < 2 ^ 32 := by
        obtain ⟨i, _, _, hv⟩ := h
        rw [hv]
        exact lt_of_lt_of_le (valueOf_lt bits i) (Nat.pow_le_pow_right (by norm_num) hlen)
      rw [Nat.mod_eq_of_lt hlt]
      exact h
    · rw [if_neg (by rw [sched_mem hP.1]; omega)]

/-- A list with a qubit outside of the register or with a repeated qubit is refused. -/
theorem multiShot_refuses (P : Par) {e : Eng} {bits : List ℕ} (hsmall : ∀ b ∈ bits, b < 64)
    (hbad : (∃ b ∈ bits, e.n ≤ b) ∨ ¬ bits.Nodup) {shots : ℕ} (h0 : shots ≠ 0) (r : ℕ → ℝ) (old : ℕ → ℕ) :
    multiShot P e (bits.map pow2) shots r = none ∧ multiShotArray P e (bits.map pow2) shots r old = none := by
  have : shotBits e.n (bits.map pow2) = none := by
    unfold shotBits
    simp only [map_log2_pow hsmall]
    rw [if_pos]
    by_contra hc
    have := (throwIfBad_correct bits e.n).1 (by simpa using hc)
    rcases hbad with ⟨b, hb, hle⟩ | h
    · exact absurd (this.1 b hb) (by omega)
    · exact h this.2
  unfold multiShot multiShotArray
  rw [if_neg h0, if_neg h0, this]
  exact ⟨rfl, rfl⟩

/-! ### One clone per shot -/

theorem foldl_count_one : ∀ (l : List ℕ) (m : ℕ → ℕ) (sample : ℕ → ℕ) (v : ℕ),
    (l.foldl (fun (m : ℕ → ℕ) s => Function.update m (sample s) (m (sample s) + 1)) m) v =
      m v + (l.countP fun s => sample s = v) := by
  intro l
  induction l with
  | nil => intros; rfl
  | cons s l ih =>
    intro m sample v
    rw [List.foldl_cons, ih, List.countP_cons]
    by_cases hv : v = sample s
    · subst hv
      rw [Function.update_self]
      simp; omega
    · rw [Function.update_of_ne hv]
      simp [Ne.symm hv]

theorem sampleClone_possible {P : Par} {e : Eng} (he : e.Steady) (bits : List ℕ) {r : ℝ} (h0 : 0 ≤ r) (h1 : r < 1)
    (u : ℝ) : Possible e bits (sampleClone P e (bits.map pow2) r u) := by
  obtain ⟨hx, hp, _⟩ := mAll_measures (P := P) he h0 h1 u
  exact ⟨_, hx, hp, gather_eq bits _⟩

/-- **C53.** The default map version (one clone per shot), for any list of qubits. -/
theorem multiShotDefault_samples {P : Par} (hP : P.Ok) {e : Eng} (he : e.Steady) (bits : List ℕ) (shots : ℕ)
    {r : ℕ → ℝ} (hr : ∀ s, 0 ≤ r s ∧ r s < 1) (u : ℕ → ℝ) :
    ∃ sample, CountsOf shots sample (multiShotDefault P e (bits.map pow2) shots r u) ∧
      ∀ s < shots, Possible e bits (sample s) := by
  refine ⟨fun s => sampleClone P e (bits.map pow2) (r s) (u s), ?_, fun s _ =>
    sampleClone_possible he bits (hr s).1 (hr s).2 (u s)⟩
  intro v
  unfold multiShotDefault
  by_cases h0 : shots = 0
  · subst h0; simp
  · rw [if_neg h0]
    have := foldl_count_one (P.σ (parForPlan 0 shots)) (fun _ => 0)
      (fun s => sampleClone P e (bits.map pow2) (r s) (u s)) v
    rw [zero_add, card_of_sched hP.1 shots (fun s => sampleClone P e (bits.map pow2) (r s) (u s) = v)] at this
    exact this

/-- **C53, partial.** The default array version, for at most 32 listed qubits. Full statement: without the bound; it is
false from 33 qubits on (`multiShotDefaultArray_wrong`). -/
theorem multiShotDefaultArray_partial {P : Par} (hP : P.Ok) {e : Eng} (he : e.Steady) {bits : List ℕ}
    (hlen : bits.length ≤ 32) (shots : ℕ) {r : ℕ → ℝ} (hr : ∀ s, 0 ≤ r s ∧ r s < 1) (u : ℕ → ℝ) (old : ℕ → ℕ) (s : ℕ) :
    (s < shots → Possible e bits (multiShotDefaultArray P e (bits.map pow2) shots r u old s)) ∧
      (shots ≤ s → multiShotDefaultArray P e (bits.map pow2) shots r u old s = old s) := by
  unfold multiShotDefaultArray
  by_cases h0 : shots = 0
  · subst h0; exact ⟨fun h => absurd h (by omega), fun _ => rfl⟩
  · rw [if_neg h0, foldl_store (fun s => sampleClone P e (bits.map pow2) (r s) (u s) % 2 ^ 64 % 2 ^ 32)]
    simp only [sched_mem hP.1]
    refine ⟨fun hs => ?_, fun hs => if_neg (by omega)⟩
    rw [if_pos hs]
    have h := sampleClone_possible (P := P) he bits (hr s).1 (hr s).2 (u s)
    have hlt : sampleClone P e (bits.map pow2) (r s) (u s) < 2 ^ 32 := by
      obtain ⟨i, _, _, hv⟩ := h
      rw [hv]
      exact lt_of_lt_of_le (valueOf_lt bits i) (Nat.pow_le_pow_right (by norm_num) hlen)
    rw [Nat.mod_eq_of_lt (lt_trans hlt (by norm_num)), Nat.mod_eq_of_lt hlt]
    exact h

/-! ### More than 32 qubits -/

/-- `k + 1` qubits in the basis state `2 ^ k`. -/
noncomputable def wide (k : ℕ) : Eng := ⟨k + 1, fun i => if i = 2 ^ k then 1 else 0, 1, false, false, 0⟩

theorem wide_steady (k : ℕ) : (wide k).Steady := by
  refine ⟨?_, fun h => by cases h⟩
  unfold totalProb wide
  rw [Finset.sum_eq_single (2 ^ k)]
  · simp
  · intro i _ hi; simp only [if_neg hi, map_zero]
  · intro h; exact absurd (Finset.mem_range.2 (Nat.pow_lt_pow_right (by norm_num) (Nat.lt_succ_self k))) h

theorem wide_possible {k v : ℕ} : Possible (wide k) (List.range (k + 1)) v ↔ v = 2 ^ k := by
  constructor
  · rintro ⟨i, hi, hp, rfl⟩
    have : i = 2 ^ k := by
      by_contra h
      simp [wide, h] at hp
    rw [valueOf_range_eq (k + 1) i hi, this]
  · rintro rfl
    have hlt : 2 ^ k < 2 ^ (k + 1) := Nat.pow_lt_pow_right (by norm_num) (Nat.lt_succ_self k)
    refine ⟨2 ^ k, hlt, ?_, ?_⟩
    · simp [wide]
    · rw [valueOf_range_eq (k + 1) _ hlt]

theorem pow_mod_32 {k : ℕ} (hk : 32 ≤ k) : 2 ^ k % 2 ^ 32 = 0 := Nat.mod_eq_zero_of_dvd (pow_dvd_pow 2 hk)

/-- From 33 qubits on, the array version of the engine stores `0` for the basis state in which only the last qubit is set,
whatever the draw; `0` is not a possible outcome. -/
theorem multiShotArray_wrong {P : Par} (hP : P.Ok) {k : ℕ} (hk : 32 ≤ k) (hk' : k < 64) {r : ℕ → ℝ}
    (hr : ∀ s, 0 ≤ r s ∧ r s < 1) (old : ℕ → ℕ) :
    ∃ res, multiShotArray P (wide k) ((List.range (k + 1)).map pow2) 1 r old = some (res, wide k) ∧ res 0 = 0 ∧
      ¬ Possible (wide k) (List.range (k + 1)) (res 0) := by
  have heq := multiShotArray_eq (P := P) (e := wide k) (bits := List.range (k + 1)) (by show k + 1 ≤ 64; omega) (wide_steady k)
    (fun b hb => List.mem_range.1 hb) List.nodup_range one_ne_zero r old
  refine ⟨_, heq, ?_⟩
  have h0 : (0 : ℕ) ∈ P.σ (parForPlan 0 1) := (sched_mem hP.1 1 0).2 (by norm_num)
  simp only [if_pos h0]
  rw [wide_possible.1 (engineShot_possible (wide_steady k) (List.range (k + 1)) (hr 0).1 (hr 0).2), wide_possible,
    pow_mod_32 hk]
  exact ⟨rfl, (by positivity : (2 : ℕ) ^ k ≠ 0).symm⟩

/-- The same for the default array version. -/
theorem multiShotDefaultArray_wrong {P : Par} (hP : P.Ok) {k : ℕ} (hk : 32 ≤ k) {r : ℕ → ℝ}
    (hr : ∀ s, 0 ≤ r s ∧ r s < 1) (u : ℕ → ℝ) (old : ℕ → ℕ) :
    multiShotDefaultArray P (wide k) ((List.range (k + 1)).map pow2) 1 r u old 0 = 0 ∧
      ¬ Possible (wide k) (List.range (k + 1)) 0 := by
  unfold multiShotDefaultArray
  rw [if_neg one_ne_zero,
    foldl_store (fun s => sampleClone P (wide k) ((List.range (k + 1)).map pow2) (r s) (u s) % 2 ^ 64 % 2 ^ 32),
    if_pos ((sched_mem hP.1 1 0).2 (by norm_num)),
    wide_possible.1 (sampleClone_possible (wide_steady k) (List.range (k + 1)) (hr 0).1 (hr 0).2 (u 0)), wide_possible,
    Nat.mod_mod_of_dvd _ (by norm_num), pow_mod_32 hk]
  exact ⟨rfl, (by positivity : (2 : ℕ) ^ k ≠ 0).symm⟩

/-- Three shots of the qubits 1 and 0 in this order, on four threads. -/
example : Par.Ok ⟨List.reverse, 4, fun l => l % 4⟩ ∧ [1, 0].Nodup ∧ (∀ b ∈ [1, 0], b < 3) ∧ valueOf [1, 0] 6 = 1 ∧
    (∀ s : ℕ, (0 : ℝ) ≤ 1 / (s + 2) ∧ (1 : ℝ) / (s + 2) < 1) := by
  refine ⟨⟨fun l => List.reverse_perm l, fun l => Nat.mod_lt _ (by norm_num)⟩, by decide, by decide, by decide, fun s => ?_⟩
  have : (0 : ℝ) ≤ s := Nat.cast_nonneg s
  constructor
  · positivity
  · rw [div_lt_one (by linarith)]; linarith

end Verif.Engine
