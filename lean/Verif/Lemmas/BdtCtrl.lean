import Verif.Lemmas.BdtGate

/-!
Helper lemmas: controlled gates for every order of the qubits, `Swap`, and anti-controlled gates.
-/

namespace Verif.Bdt

open Verif.Matrix2 Verif.Spec.Circuit Verif.Spec

/-- `f` succeeds on every tree that satisfies the invariant and acts on its amplitudes as `U`. -/
def Does (n : ℕ) (f : Node → Option Node) (U : (ℕ → ℂ) → ℕ → ℂ) : Prop :=
  ∀ t, Good n t → ∃ t', f t = some t' ∧ Good n t' ∧ ‖t'.scale‖ = ‖t.scale‖ ∧ ∀ k, amp n t' k = U (amp n t) k

theorem Does.bind {n : ℕ} {f g : Node → Option Node} {U V : (ℕ → ℂ) → ℕ → ℂ} (hf : Does n f U) (hg : Does n g V) :
    Does n (fun t => f t >>= g) (fun s => V (U s)) := by
  intro t h
  obtain ⟨t1, e1, g1, s1, a1⟩ := hf t h
  obtain ⟨t2, e2, g2, s2, a2⟩ := hg t1 g1
  have : amp n t1 = U (amp n t) := funext a1
  exact ⟨t2, by simp [e1, e2], g2, s2.trans s1, fun k => by rw [a2, this]⟩

theorem Does.congr {n : ℕ} {f g : Node → Option Node} {U V : (ℕ → ℂ) → ℕ → ℂ} (hf : Does n f U)
    (h1 : ∀ t, g t = f t) (h2 : ∀ s k, U s k = V s k) : Does n g V := by
  intro t h
  obtain ⟨t', e, g, s, a⟩ := hf t h
  exact ⟨t', by rw [h1, e], g, s, fun k => by rw [a, h2]⟩

theorem does_id (n : ℕ) : Does n some (fun s => s) := fun t h => ⟨t, rfl, h, rfl, fun _ => rfl⟩

theorem gate_id (p : ℕ → Prop) [DecidablePred p] (t : ℕ) (s : ℕ → ℂ) (k : ℕ) : gate p t 1 0 0 1 s k = s k := by
  unfold gate
  by_cases h : p k
  · rw [if_pos h]; split <;> ring
  · rw [if_neg h]

theorem allAre_congr {v : Bool} {l l' : List ℕ} (h : ∀ c, c ∈ l ↔ c ∈ l') (k : ℕ) : AllAre v l k ↔ AllAre v l' k :=
  ⟨fun H c hc => H c ((h c).2 hc), fun H c hc => H c ((h c).1 hc)⟩

theorem testBit_flip (t i k : ℕ) : (flipBit t i).testBit k = (i.testBit k ^^ decide (t = k)) := by
  rw [flipBit, Nat.testBit_xor, Nat.testBit_two_pow]

theorem flip_flip (t i : ℕ) : flipBit t (flipBit t i) = i := by
  rw [flipBit, flipBit, Nat.xor_assoc, Nat.xor_self, Nat.xor_zero]

theorem allAre_flip {v : Bool} {l : List ℕ} {t : ℕ} (ht : t ∉ l) (k : ℕ) : AllAre v l (flipBit t k) ↔ AllAre v l k := by
  constructor <;> intro H c hc <;> have hne : t ≠ c := (fun e => ht (e ▸ hc)) <;> have := H c hc
  · rw [testBit_flip] at this; simpa [hne] using this
  · rw [testBit_flip]; simpa [hne] using this

/-- A sorted list without repetitions: its last element is the greatest. -/
theorem top_split {l : List ℕ} (hne : l ≠ []) (hnd : l.Nodup) :
    ∃ b, (l.insertionSort (· ≤ ·)).getLast? = some b ∧ b ∈ l ∧ (∀ c ∈ l, c ≤ b) ∧
      (∀ c, c ∈ (l.insertionSort (· ≤ ·)).dropLast ↔ c ∈ l ∧ c ≠ b) ∧
      (l.insertionSort (· ≤ ·)).dropLast.Nodup := by
  set L := l.insertionSort (· ≤ ·) with hL
  have hperm : L.Perm l := List.perm_insertionSort _ l
  have hsort : L.Pairwise (· ≤ ·) := List.pairwise_insertionSort _ l
  have hLne : L ≠ [] := fun e => hne (List.Perm.eq_nil (e ▸ hperm.symm))
  have hLnd : L.Nodup := hperm.nodup_iff.2 hnd
  have e := List.dropLast_append_getLast hLne
  refine ⟨L.getLast hLne, List.getLast?_eq_some_getLast hLne, hperm.mem_iff.1 (List.getLast_mem hLne), ?_, ?_, ?_⟩
  · intro c hc
    have hc' := hperm.mem_iff.2 hc
    rw [← e] at hsort hc'
    rw [List.pairwise_append] at hsort
    rcases List.mem_append.1 hc' with h | h
    · exact hsort.2.2 c h _ (by simp)
    · rw [List.mem_singleton] at h
      exact h.le
  · intro c
    rw [← e] at hLnd
    have hdis := List.disjoint_of_nodup_append hLnd
    constructor
    · intro hc
      refine ⟨hperm.mem_iff.1 (List.dropLast_subset _ hc), fun h => hdis hc (by simp [h])⟩
    · rintro ⟨hc, hcb⟩
      have hc' := hperm.mem_iff.2 hc
      rw [← e] at hc'
      rcases List.mem_append.1 hc' with h | h
      · exact h
      · exact absurd (List.mem_singleton.1 h) hcb
  · rw [← e] at hLnd
    exact hLnd.of_append_left

/-- `ApplyControlledSingle` for a target above the controls. -/
def AcEasy (n : ℕ) (ac : Controlled) : Prop :=
  ∀ (m : Mtrx) (controls : List ℕ) (target : ℕ) (isAnti : Bool), Unitary m → controls ≠ [] → controls.Nodup →
    (∀ c ∈ controls, c < target) → target < n → (isAnti = true → Consecutive controls) →
    Does n (ac m controls target isAnti) (gate (AllAre (!isAnti) controls) target m.m0 m.m1 m.m2 m.m3)

theorem gate_one {p : ℕ → Prop} [DecidablePred p] {m : Mtrx} (h1 : m.m1 = 0) (h2 : m.m2 = 0) (h0 : 1 - m.m0 = 0)
    (h3 : 1 - m.m3 = 0) (t : ℕ) (s : ℕ → ℂ) (k : ℕ) : gate p t m.m0 m.m1 m.m2 m.m3 s k = s k := by
  have e0 : m.m0 = 1 := by linear_combination -h0
  have e3 : m.m3 = 1 := by linear_combination -h3
  rw [h1, h2, e0, e3, gate_id]

theorem consecutive_congr {l l' : List ℕ} (h : ∀ c, c ∈ l ↔ c ∈ l') (hl : Consecutive l) : Consecutive l' := by
  obtain ⟨a, b, hab⟩ := hl
  exact ⟨a, b, fun c => (h c).symm.trans (hab c)⟩

theorem acWith_easy (sw : ℕ → ℕ → Node → Option Node) (fuel n : ℕ) :
    AcEasy n (fun m cs q a => applyControlledWith sw n m (fuel + 1) cs q a) := by
  intro m controls target isAnti hm hne hnd hc ht ha t hg
  obtain ⟨b, hb, hbm, hbmax, -, -⟩ := top_split hne hnd
  have hperm := List.perm_insertionSort (· ≤ ·) controls
  have hbad : ¬ badIds controls n := by
    rintro (⟨c, hcm, h⟩ | h)
    · have := hc c hcm; omega
    · exact h hnd
  simp only [applyControlledWith]
  rw [if_neg (by omega), if_neg hbad]
  by_cases hid : (m.m1 = 0 ∧ m.m2 = 0 ∧ (if isAnti = true then 1 - m.m3 = 0 else 1 - m.m0 = 0)) ∧ 1 - m.m0 = 0 ∧ 1 - m.m3 = 0
  · rw [if_pos hid]
    exact ⟨t, rfl, hg, rfl, fun k => (gate_one hid.1.1 hid.1.2.1 hid.2.1 hid.2.2 ..).symm⟩
  · rw [if_neg hid, hb]
    have := hc b hbm
    dsimp only
    rw [if_neg (by omega)]
    obtain ⟨t', e, g, s, a⟩ := controlledLoop_ok hm (controls := controls.insertionSort (· ≤ ·)) (isAnti := isAnti) ht hg
      (fun c h => hc c (hperm.mem_iff.1 h)) (fun h => consecutive_congr (fun c => hperm.mem_iff.symm) (ha h))
    refine ⟨t', e, g, s, fun k => (a k).trans ?_⟩
    exact gate_congr target _ _ _ _ _ _ (allAre_congr (fun c => hperm.mem_iff) k)

theorem unitary_diag {z : ℂ} (hz : (starRingEnd ℂ) z * z = 1) : Unitary ⟨1, 0, 0, z⟩ := by
  simp [Unitary, hz, mul_comm z]

theorem unitary_diag_iff {x z : ℂ} (h : Unitary ⟨x, 0, 0, z⟩) : (starRingEnd ℂ) x * x = 1 ∧ (starRingEnd ℂ) z * z = 1 := by
  simpa [Unitary] using And.intro h.1 h.2.1

theorem unitary_x : Unitary ⟨0, 1, 1, 0⟩ := by simp [Unitary]

theorem sqrt_half_sq : (Real.sqrt (1 / 2) : ℂ) * Real.sqrt (1 / 2) = 1 / 2 := by
  rw [← Complex.ofReal_mul, Real.mul_self_sqrt (by norm_num)]; norm_num

theorem unitary_h : Unitary hMtrx := by
  simp only [Unitary, hMtrx, Complex.conj_ofReal, map_neg]
  refine ⟨?_, ?_, ?_, ?_, ?_, ?_⟩ <;> first | linear_combination 2 * sqrt_half_sq | ring

/-- A phase on the states where the target and all controls have the value of the controls. -/
theorem phase_sym {v : Bool} {m : Mtrx} (h1 : m.m1 = 0) (h2 : m.m2 = 0) (h : if v then m.m0 = 1 else m.m3 = 1) (t : ℕ)
    (cs : List ℕ) (s : ℕ → ℂ) (k : ℕ) : gate (AllAre v cs) t m.m0 m.m1 m.m2 m.m3 s k =
      if AllAre v (t :: cs) k then (if v then m.m3 else m.m0) * s k else s k := by
  have hcons : AllAre v (t :: cs) k ↔ k.testBit t = v ∧ AllAre v cs k := by simp [AllAre]
  simp only [gate, h1, h2, hcons, zero_mul, zero_add, add_zero]
  by_cases hp : AllAre v cs k
  · cases v with
    | true =>
      simp only [if_true] at h
      cases hk : k.testBit t <;> simp [hp, h]
    | false =>
      simp only [Bool.false_eq_true, if_false] at h
      cases hk : k.testBit t <;> simp [hp, h]
  · simp [hp]

theorem applySingle_exact (rgp : Bool) {m : Mtrx} (hm : Unitary m) {n target : ℕ} (ht : target < n)
    (hns : ¬ (m.m1 = 0 ∧ m.m2 = 0 ∧ m.m0 - m.m3 = 0)) :
    Does n (applySingle rgp n m target) (gate (fun _ => True) target m.m0 m.m1 m.m2 m.m3) := by
  intro t hg
  obtain ⟨t', e, g, s, z, -, -, hz, a⟩ := applySingle_ok rgp hm ht hg
  refine ⟨t', e, g, s, fun k => ?_⟩
  rcases hz with ⟨-, h⟩ | rfl
  · exact absurd h hns
  · rw [a, one_mul]

theorem does_h (rgp : Bool) {n target : ℕ} (ht : target < n) : Does n (applySingle rgp n hMtrx target)
    (gate (fun _ => True) target hMtrx.m0 hMtrx.m1 hMtrx.m2 hMtrx.m3) := by
  refine applySingle_exact rgp unitary_h ht ?_
  rintro ⟨h, -⟩
  simp [hMtrx] at h

/-- `MCPhase` with `topLeft = 1`: the qubits may be reordered. -/
theorem mcPhaseWith_one {n : ℕ} {ac : Controlled} (hac : AcEasy n ac) (rgp : Bool) {controls : List ℕ} {target : ℕ} {br : ℂ}
    (hbr : (starRingEnd ℂ) br * br = 1) (hne : controls ≠ []) (hnd : controls.Nodup) (hc : ∀ c ∈ controls, c < n)
    (hnc : target ∉ controls) (ht : target < n) :
    Does n (mcPhaseWith ac rgp n controls 1 br target) (gate (AllAre true controls) target 1 0 0 br) := by
  intro t hg
  rw [mcPhaseWith, if_neg hne, if_neg (by simp)]
  by_cases hb : 1 - br = 0
  · rw [if_pos hb]
    exact ⟨t, rfl, hg, rfl, fun k => (gate_one (m := ⟨1, 0, 0, br⟩) rfl rfl (by simp) hb ..).symm⟩
  · rw [if_neg hb]
    have hl : (controls ++ [target]).Nodup := by
      rw [List.nodup_append]
      refine ⟨hnd, by simp, ?_⟩
      intro a ha b hb
      rw [List.mem_singleton] at hb
      rintro rfl
      exact hnc (hb ▸ ha)
    obtain ⟨b, hb, hbm, hbmax, hbd, hbn⟩ := top_split (l := controls ++ [target]) (by simp) hl
    dsimp only
    rw [hb, Option.getD_some]
    have hbn' : b < n := by
      rcases List.mem_append.1 hbm with h | h
      · exact hc b h
      · rw [List.mem_singleton] at h; omega
    have hlt : ∀ c ∈ ((controls ++ [target]).insertionSort (· ≤ ·)).dropLast, c < b := by
      intro c hcm
      obtain ⟨h1, h2⟩ := (hbd c).1 hcm
      have := hbmax c h1
      omega
    have hne' : ((controls ++ [target]).insertionSort (· ≤ ·)).dropLast ≠ [] := by
      intro e
      obtain ⟨c, hcm⟩ := List.exists_mem_of_ne_nil _ hne
      rw [e] at hbd
      have h1 : c = b := by
        by_contra h
        have := (hbd c).2 ⟨by simp [hcm], h⟩
        simp at this
      have h2 : target = b := by
        by_contra h
        have := (hbd target).2 ⟨by simp, h⟩
        simp at this
      exact hnc (h2 ▸ h1 ▸ hcm)
    obtain ⟨t', e, g, s, a⟩ := hac ⟨1, 0, 0, br⟩ _ b false (unitary_diag hbr) hne' hbn hlt hbn' (by simp) t hg
    refine ⟨t', e, g, s, fun k => ?_⟩
    have e1 := phase_sym (v := true) (m := ⟨1, 0, 0, br⟩) rfl rfl rfl b
      ((controls ++ [target]).insertionSort (· ≤ ·)).dropLast (amp n t) k
    have e2 := phase_sym (v := true) (m := ⟨1, 0, 0, br⟩) rfl rfl rfl target controls (amp n t) k
    rw [a, Bool.not_false, e1]
    refine Eq.trans ?_ e2.symm
    refine if_congr (allAre_congr (fun c => ?_) k) rfl rfl
    rw [List.mem_cons, List.mem_cons, hbd, List.mem_append, List.mem_singleton]
    constructor
    · rintro (rfl | ⟨h, -⟩)
      · rcases List.mem_append.1 hbm with h | h
        · exact Or.inr h
        · exact Or.inl (List.mem_singleton.1 h)
      · rcases h with h | h
        · exact Or.inr h
        · exact Or.inl h
    · intro h
      by_cases hcb : c = b
      · exact Or.inl hcb
      · refine Or.inr ⟨?_, hcb⟩
        rcases h with h | h
        · exact Or.inr h
        · exact Or.inl h

/-- `H` on both sides turns a controlled `Z` into a controlled `X`. -/
theorem h_cz_h {p : ℕ → Prop} [DecidablePred p] {t : ℕ} (hp : ∀ k, p (flipBit t k) ↔ p k) (s : ℕ → ℂ) (k : ℕ) :
    gate (fun _ => True) t hMtrx.m0 hMtrx.m1 hMtrx.m2 hMtrx.m3
      (gate p t 1 0 0 (-1) (gate (fun _ => True) t hMtrx.m0 hMtrx.m1 hMtrx.m2 hMtrx.m3 s)) k = gate p t 0 1 1 0 s k := by
  have hb : (flipBit t k).testBit t = !k.testBit t := by rw [testBit_flip]; simp
  simp only [gate, if_true, hb, flip_flip, hMtrx, hp]
  have e := sqrt_half_sq
  by_cases h : p k
  · simp only [h, if_true]
    cases k.testBit t <;> simp only [Bool.not_false, Bool.not_true, Bool.false_eq_true, if_true, if_false] <;>
      linear_combination (2 * s (flipBit t k)) * e
  · simp only [h, if_false]
    cases k.testBit t <;> simp only [Bool.not_false, Bool.not_true, Bool.false_eq_true, if_true, if_false] <;>
      linear_combination (2 * s k) * e

/-- `MCInvert` with both entries 1. -/
theorem mcInvertWith_one {n : ℕ} {ac : Controlled} (hac : AcEasy n ac) (rgp : Bool) {controls : List ℕ} {target : ℕ}
    (hne : controls ≠ []) (hnd : controls.Nodup) (hc : ∀ c ∈ controls, c < n) (hnc : target ∉ controls) (ht : target < n) :
    Does n (mcInvertWith ac rgp n controls 1 1 target) (gate (AllAre true controls) target 0 1 1 0) := by
  obtain ⟨b, hb, hbm, hbmax, -, -⟩ := top_split hne hnd
  have hperm := List.perm_insertionSort (· ≤ ·) controls
  have hpm : ∀ c, c ∈ controls.insertionSort (· ≤ ·) ↔ c ∈ controls := fun c => hperm.mem_iff
  have hne' : controls.insertionSort (· ≤ ·) ≠ [] := by
    intro h
    exact hne (List.Perm.eq_nil (h ▸ hperm.symm))
  by_cases hlt : b < target
  · refine Does.congr (hac ⟨0, 1, 1, 0⟩ _ target false unitary_x hne' (hperm.nodup_iff.2 hnd)
      (fun c h => lt_of_le_of_lt (hbmax c ((hpm c).1 h)) hlt) ht (by simp)) (fun t => ?_) (fun s k => ?_)
    · simp only [mcInvertWith]
      rw [if_neg hne, if_neg (by simp), hb, Option.getD_some, if_pos hlt]
    · exact gate_congr target _ _ _ _ _ _ (allAre_congr hpm k)
  · have h1 := does_h rgp (n := n) ht
    have h2 := mcPhaseWith_one hac rgp (controls := controls.insertionSort (· ≤ ·)) (br := -1) (by simp) hne'
      (hperm.nodup_iff.2 hnd) (fun c h => hc c ((hpm c).1 h)) (fun h => hnc ((hpm _).1 h)) ht
    refine Does.congr ((h1.bind h2).bind h1) (fun t => ?_) (fun s k => ?_)
    · simp only [mcInvertWith]
      rw [if_neg hne, if_neg (by simp), hb, Option.getD_some, if_neg hlt]
      simp [Option.bind_assoc]
    · rw [h_cz_h (fun k => allAre_flip (fun h => hnc ((hpm _).1 h)) k)]
      exact gate_congr target _ _ _ _ _ _ (allAre_congr hpm k)

theorem cnotInner_ok (rgp : Bool) {n c t : ℕ} (hc : c < n) (ht : t < n) (hne : c ≠ t) :
    Does n (cnotInner rgp n c t) (fun s k => s (flipIf (k.testBit c) t k)) := by
  refine Does.congr (mcInvertWith_one (acWith_easy (fun _ _ _ => none) 0 n) rgp (controls := [c]) (by simp) (by simp)
    (by simpa using hc) (by simpa using hne.symm) ht) (fun _ => rfl) (fun s k => ?_)
  have hA : AllAre true [c] k ↔ k.testBit c = true := by simp [AllAre]
  rw [gate, flipIf]
  cases h : k.testBit c with
  | true =>
    rw [if_pos (hA.2 h), if_pos rfl]
    split <;> ring
  | false =>
    rw [if_neg (fun h' => by simp [hA.1 h'] at h), if_neg (by simp)]

theorem testBit_swap (a b i k : ℕ) : (swapBits a b i).testBit k =
    if k = a then i.testBit b else if k = b then i.testBit a else i.testBit k := by
  unfold swapBits
  by_cases h : i.testBit a = i.testBit b
  · rw [if_pos h]
    by_cases h1 : k = a
    · subst h1; simp [h]
    · by_cases h2 : k = b
      · subst h2; simp [h]
      · simp [h1, h2]
  · rw [if_neg h, Nat.testBit_xor, Nat.testBit_xor, Nat.testBit_two_pow, Nat.testBit_two_pow]
    have hab : a ≠ b := fun e => h (by rw [e])
    by_cases h1 : k = a
    · subst h1
      rw [if_pos rfl]
      cases h3 : i.testBit k <;> cases h4 : i.testBit b <;> rw [h3, h4] at h <;> simp [hab.symm] at h ⊢
    · by_cases h2 : k = b
      · subst h2
        rw [if_neg h1, if_pos rfl]
        cases h3 : i.testBit k <;> cases h4 : i.testBit a <;> rw [h3, h4] at h <;> simp [hab] at h ⊢
      · simp [h1, h2, Ne.symm h1, Ne.symm h2]

theorem swap_swap (a b i : ℕ) : swapBits a b (swapBits a b i) = i := by
  apply Nat.eq_of_testBit_eq
  intro k
  rw [testBit_swap, testBit_swap, testBit_swap, testBit_swap]
  by_cases h1 : k = a
  · subst h1
    by_cases h2 : b = k <;> simp [h2]
  · by_cases h2 : k = b
    · subst h2; simp [h1]
    · simp [h1, h2]

theorem swapBits_comm (a b i : ℕ) : swapBits a b i = swapBits b a i := by
  apply Nat.eq_of_testBit_eq
  intro k
  rw [testBit_swap, testBit_swap]
  by_cases h1 : k = a
  · by_cases h2 : k = b
    · rw [if_pos h1, if_pos h2, ← h1, ← h2]
    · rw [if_pos h1, if_neg h2, if_pos h1]
  · by_cases h2 : k = b
    · rw [if_neg h1, if_pos h2, if_pos h2]
    · rw [if_neg h1, if_neg h2, if_neg h2, if_neg h1]

theorem three_flips {a b : ℕ} (hne : a ≠ b) (k : ℕ) :
    flipIf ((flipIf ((flipIf (k.testBit a) b k).testBit b) a (flipIf (k.testBit a) b k)).testBit a) b
      (flipIf ((flipIf (k.testBit a) b k).testBit b) a (flipIf (k.testBit a) b k)) = swapBits a b k := by
  have key : ∀ (c : Bool) (q i j : ℕ), (flipIf c q i).testBit j = (i.testBit j ^^ (c && decide (q = j))) := by
    intro c q i j
    cases c <;> simp [flipIf, testBit_flip]
  apply Nat.eq_of_testBit_eq
  intro j
  simp only [key, testBit_swap]
  by_cases h1 : j = a
  · subst h1
    cases k.testBit j <;> cases k.testBit b <;> simp [hne, hne.symm]
  · by_cases h2 : j = b
    · subst h2
      cases k.testBit j <;> cases k.testBit a <;> simp [hne, hne.symm]
    · simp [h1, h2, Ne.symm h1, Ne.symm h2]

theorem swap_ok (rgp : Bool) {n q1 q2 : ℕ} (h1 : q1 < n) (h2 : q2 < n) :
    Does n (swap rgp n q1 q2) (fun s k => s (swapBits q1 q2 k)) := by
  have key : ∀ a b, a < n → b < n → a ≠ b → Does n (fun t => (cnotInner rgp n a b t).bind fun t =>
      (cnotInner rgp n b a t).bind fun t => cnotInner rgp n a b t) (fun s k => s (swapBits a b k)) := by
    intro a b ha hb hne
    refine Does.congr (((cnotInner_ok rgp ha hb hne).bind (cnotInner_ok rgp hb ha hne.symm)).bind
      (cnotInner_ok rgp ha hb hne)) (fun t => by simp [Option.bind_assoc]) (fun s k => ?_)
    show s _ = _
    rw [three_flips hne]
  by_cases hlt : q2 < q1
  · refine Does.congr (key q2 q1 h2 h1 (by omega)) (fun t => ?_) (fun s k => by rw [swapBits_comm])
    simp only [swap, if_pos hlt]
    rw [if_neg (by omega)]
    rfl
  · by_cases he : q1 = q2
    · refine Does.congr (does_id n) (fun t => ?_) (fun s k => ?_)
      · simp only [swap, if_neg hlt]
        rw [if_pos he]
      · rw [swapBits, if_pos (by rw [he])]
    · refine Does.congr (key q1 q2 h1 h2 he) (fun t => ?_) (fun s k => rfl)
      simp only [swap, if_neg hlt]
      rw [if_neg he]
      rfl

/-- Exchanging the target with one control. -/
theorem gate_swap {v : Bool} {controls controls' : List ℕ} {a b : ℕ} (hb : b ∈ controls) (ha : a ∉ controls)
    (h : ∀ c, c ∈ controls' ↔ (c ∈ controls ∧ c ≠ b) ∨ c = a) (m0 m1 m2 m3 : ℂ) (s : ℕ → ℂ) (k : ℕ) :
    gate (AllAre v controls') b m0 m1 m2 m3 (fun k => s (swapBits b a k)) (swapBits b a k) =
      gate (AllAre v controls) a m0 m1 m2 m3 s k := by
  have hab : a ≠ b := fun e => ha (e ▸ hb)
  have hA : AllAre v controls' (swapBits b a k) ↔ AllAre v controls k := by
    constructor
    · intro H c hc
      by_cases hcb : c = b
      · have := H a ((h a).2 (Or.inr rfl))
        rw [testBit_swap, if_neg hab, if_pos rfl] at this
        rw [hcb]; exact this
      · have := H c ((h c).2 (Or.inl ⟨hc, hcb⟩))
        rw [testBit_swap, if_neg hcb, if_neg (fun e : c = a => ha (e ▸ hc))] at this
        exact this
    · intro H c hc
      rw [testBit_swap]
      rcases (h c).1 hc with ⟨h1, h2⟩ | rfl
      · rw [if_neg h2, if_neg (fun e : c = a => ha (e ▸ h1))]; exact H c h1
      · rw [if_neg hab, if_pos rfl]; exact H b hb
  have hT : (swapBits b a k).testBit b = k.testBit a := by rw [testBit_swap, if_pos rfl]
  have hF : swapBits b a (flipBit b (swapBits b a k)) = flipBit a k := by
    apply Nat.eq_of_testBit_eq
    intro j
    rw [testBit_swap, testBit_flip, testBit_flip, testBit_flip, testBit_flip, testBit_swap, testBit_swap, testBit_swap]
    by_cases h1 : j = b
    · subst h1; simp [hab, hab.symm]
    · by_cases h2 : j = a
      · subst h2; simp [hab, hab.symm]
      · simp [h1, h2, Ne.symm h1, Ne.symm h2]
  simp only [gate, hT, hF, swap_swap]
  exact if_congr hA rfl rfl

/-- The qubits of the gate other than the greatest one are next to each other. -/
def LowConsecutive (qs : List ℕ) : Prop :=
  ∃ top ∈ qs, (∀ q ∈ qs, q ≤ top) ∧ ∃ a b, ∀ q, (q ∈ qs ∧ q ≠ top) ↔ a ≤ q ∧ q < b

/-- `ApplyControlledSingle` for every order of the qubits. -/
theorem applyControlled_ok (rgp : Bool) {n : ℕ} {m : Mtrx} (hm : Unitary m) {controls : List ℕ} {target : ℕ} {isAnti : Bool}
    (hne : controls ≠ []) (hnd : controls.Nodup) (hc : ∀ c ∈ controls, c < n) (hnc : target ∉ controls) (ht : target < n)
    (ha : isAnti = true → LowConsecutive (target :: controls)) :
    Does n (applyControlled rgp n m controls target isAnti)
      (gate (AllAre (!isAnti) controls) target m.m0 m.m1 m.m2 m.m3) := by
  obtain ⟨b, hb, hbm, hbmax, hbd, hbn⟩ := top_split hne hnd
  have htb : target ≠ b := fun e => hnc (e ▸ hbm)
  by_cases hlt : target < b
  swap
  · refine acWith_easy (swap rgp n) 1 n m controls target isAnti hm hne hnd
      (fun c h => by have := hbmax c h; omega) ht fun hA => ?_
    obtain ⟨top, htop, hmax, x, y, hxy⟩ := ha hA
    have : top = target := by
      have h1 := hmax target (by simp)
      rcases List.mem_cons.1 htop with h | h
      · exact h
      · have := hbmax top h; omega
    subst this
    refine ⟨x, y, fun c => ?_⟩
    rw [← hxy, List.mem_cons]
    constructor
    · intro h; exact ⟨Or.inr h, fun e => hnc (e ▸ h)⟩
    · rintro ⟨h | h, h'⟩
      · exact absurd h h'
      · exact h
  · set controls' := (controls.insertionSort (· ≤ ·)).dropLast ++ [target] with hcs
    have hmem : ∀ c, c ∈ controls' ↔ (c ∈ controls ∧ c ≠ b) ∨ c = target := by
      intro c
      rw [hcs, List.mem_append, hbd, List.mem_singleton]
    have hnd' : controls'.Nodup := by
      rw [hcs, List.nodup_append]
      refine ⟨hbn, by simp, ?_⟩
      intro x hx y hy
      rw [List.mem_singleton] at hy
      rintro rfl
      exact hnc (hy ▸ ((hbd _).1 hx).1)
    have hlt' : ∀ c ∈ controls', c < b := by
      intro c h
      rcases (hmem c).1 h with ⟨h1, h2⟩ | rfl
      · have := hbmax c h1; omega
      · exact hlt
    have hne' : controls' ≠ [] := by simp [hcs]
    have ha' : isAnti = true → Consecutive controls' := by
      intro hA
      obtain ⟨top, htop, hmax, x, y, hxy⟩ := ha hA
      have : top = b := by
        have h1 := hmax b (by simp [hbm])
        rcases List.mem_cons.1 htop with h | h
        · omega
        · have := hbmax top h; omega
      subst this
      refine ⟨x, y, fun c => ?_⟩
      rw [← hxy, hmem, List.mem_cons]
      constructor
      · rintro (⟨h1, h2⟩ | rfl)
        · exact ⟨Or.inr h1, h2⟩
        · exact ⟨Or.inl rfl, htb⟩
      · rintro ⟨h1 | h1, h2⟩
        · exact Or.inr h1
        · exact Or.inl ⟨h1, h2⟩
    have hbad : ¬ badIds controls n := by
      rintro (⟨c, hcm, h⟩ | h)
      · have := hc c hcm; omega
      · exact h hnd
    have hbn' : b < n := hc b hbm
    by_cases hid : (m.m1 = 0 ∧ m.m2 = 0 ∧ (if isAnti = true then 1 - m.m3 = 0 else 1 - m.m0 = 0)) ∧ 1 - m.m0 = 0 ∧ 1 - m.m3 = 0
    · refine Does.congr (does_id n) (fun t => ?_) (fun s k => (gate_one hid.1.1 hid.1.2.1 hid.2.1 hid.2.2 ..).symm)
      simp only [applyControlled, applyControlledWith]
      rw [if_neg (by omega), if_neg hbad, if_pos hid]
    by_cases hph : m.m1 = 0 ∧ m.m2 = 0 ∧ (if isAnti = true then 1 - m.m3 = 0 else 1 - m.m0 = 0)
    · intro t hg
      simp only [applyControlled, applyControlledWith]
      rw [if_neg (by omega), if_neg hbad, if_neg hid, hb]
      dsimp only
      rw [if_pos hlt, if_pos hph]
      obtain ⟨t', e, g, s, a⟩ := controlledLoop_ok hm (controls := controls') (isAnti := isAnti) hbn' hg hlt' ha'
      refine ⟨t', e, g, s, fun k => ?_⟩
      have hv : if (!isAnti) = true then m.m0 = 1 else m.m3 = 1 := by
        cases isAnti with
        | false => simp only [Bool.false_eq_true, if_false] at hph; simp only [Bool.not_false, if_true]; linear_combination -hph.2.2
        | true => simp only [if_true] at hph; simp only [Bool.not_true, Bool.false_eq_true, if_false]; linear_combination -hph.2.2
      rw [a, phase_sym hph.1 hph.2.1 hv, phase_sym hph.1 hph.2.1 hv]
      refine if_congr (allAre_congr (fun c => ?_) k) rfl rfl
      rw [List.mem_cons, List.mem_cons, hmem]
      constructor
      · rintro (rfl | ⟨h1, -⟩ | h1)
        · exact Or.inr hbm
        · exact Or.inr h1
        · exact Or.inl h1
      · intro h
        by_cases hcb : c = b
        · exact Or.inl hcb
        · rcases h with h | h
          · exact Or.inr (Or.inr h)
          · exact Or.inr (Or.inl ⟨h, hcb⟩)
    · have e1 := swap_ok rgp hbn' ht
      have e2 := acWith_easy (swap rgp n) 0 n m controls' b isAnti hm hne' hnd' hlt' hbn' ha'
      refine Does.congr ((e1.bind e2).bind e1) (fun t => ?_) (fun s k => ?_)
      · rw [applyControlled]
        conv_lhs => rw [applyControlledWith]
        rw [if_neg (by omega), if_neg hbad]
        dsimp only
        rw [if_neg hid, hb]
        dsimp only
        rw [if_pos hlt, if_neg hph]
        simp [Option.bind_assoc, hcs]
      · exact gate_swap hbm hnc hmem m.m0 m.m1 m.m2 m.m3 s k

end Verif.Bdt
