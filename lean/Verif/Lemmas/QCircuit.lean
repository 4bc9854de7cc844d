import Verif.Lemmas.QCircuitMap
import Mathlib.Data.Finset.Card
import Mathlib.Data.List.Dedup
import Mathlib.Tactic.LinearCombination

/-! Lemmas about the gates of a circuit: what each editing step does to the effect of a gate. -/

namespace Verif.QCirc

open Verif.Matrix2 Verif.Spec.Circuit

variable {Q : Type} [LinearOrder Q]

/-- What a gate does to a state. -/
def Gate.act (g : Gate Q) : St Q → St Q := multiplex g.target g.controls g.payloads.get

/-- What a list of gates does, the first gate first. -/
def run (gs : List (Gate Q)) (ψ : St Q) : St Q := gs.foldl (fun φ g => g.act φ) ψ

/-- A gate as its constructors make it: ascending controls that do not contain the target, at least one payload, keys within
the controls, unitary payloads. -/
structure Gate.Wf (g : Gate Q) : Prop where
  notMem : g.target ∉ g.controls
  sorted : g.controls.Pairwise (· < ·)
  ok : g.payloads.Ok
  nonempty : g.payloads ≠ []
  entries : ∀ k v, g.payloads.get k = some v → k < 2 ^ g.controls.length ∧ Unitary v

theorem run_append (l m : List (Gate Q)) (ψ : St Q) : run (l ++ m) ψ = run m (run l ψ) := by
  simp [run, List.foldl_append]

theorem run_cons (g : Gate Q) (m : List (Gate Q)) (ψ : St Q) : run (g :: m) ψ = run m (g.act ψ) := rfl

theorem run_nil (ψ : St Q) : run ([] : List (Gate Q)) ψ = ψ := rfl

theorem nodup_of_lt {l : List Q} (h : l.Pairwise (· < ·)) : l.Nodup := h.imp (fun h => ne_of_lt h)

theorem eq_of_sorted {l m : List Q} (hl : l.Pairwise (· < ·)) (hm : m.Pairwise (· < ·)) (h : ∀ x, x ∈ l ↔ x ∈ m) : l = m := by
  induction l generalizing m with
  | nil =>
    cases m with
    | nil => rfl
    | cons a m => exact absurd ((h a).2 (by simp)) (by simp)
  | cons a l ih =>
    cases m with
    | nil => exact absurd ((h a).1 (by simp)) (by simp)
    | cons c m =>
      rw [List.pairwise_cons] at hl hm
      have hac : a = c := by
        rcases List.mem_cons.1 ((h a).1 (by simp)) with h1 | h1
        · exact h1
        · rcases List.mem_cons.1 ((h c).2 (by simp)) with h2 | h2
          · exact h2.symm
          · exact absurd (hl.1 c h2) (not_lt_of_gt (hm.1 a h1))
      subst hac
      congr 1
      apply ih hl.2 hm.2
      intro x
      constructor
      · intro hx
        rcases List.mem_cons.1 ((h x).1 (List.mem_cons_of_mem _ hx)) with h1 | h1
        · subst h1; exact absurd (hl.1 x hx) (lt_irrefl x)
        · exact h1
      · intro hx
        rcases List.mem_cons.1 ((h x).2 (List.mem_cons_of_mem _ hx)) with h1 | h1
        · subst h1; exact absurd (hm.1 x hx) (lt_irrefl x)
        · exact h1

theorem sorted_insert {cs : List Q} {c : Q} (h : cs.Pairwise (· < ·)) (hc : c ∉ cs) :
    (cs.orderedInsert (· ≤ ·) c).Pairwise (· < ·) := by
  induction cs with
  | nil => simp
  | cons a l ih =>
    rw [List.orderedInsert_cons]
    rw [List.pairwise_cons] at h
    have hca : c ≠ a := fun h0 => hc (by simp [h0])
    have hcl : c ∉ l := fun h0 => hc (List.mem_cons_of_mem _ h0)
    by_cases hle : c ≤ a
    · rw [if_pos hle, List.pairwise_cons, List.pairwise_cons]
      have hlt := lt_of_le_of_ne hle hca
      refine ⟨?_, h⟩
      intro x hx
      rcases List.mem_cons.1 hx with rfl | hx
      · exact hlt
      · exact lt_trans hlt (h.1 x hx)
    · rw [if_neg hle, List.pairwise_cons]
      refine ⟨?_, ih h.2 hcl⟩
      intro x hx
      rw [List.mem_orderedInsert] at hx
      rcases hx with rfl | hx
      · exact not_le.1 hle
      · exact h.1 x hx

theorem insert_split (cs : List Q) (c : Q) : ∃ l1 l2, cs = l1 ++ l2 ∧ cs.orderedInsert (· ≤ ·) c = l1 ++ c :: l2 := by
  induction cs with
  | nil => exact ⟨[], [], rfl, rfl⟩
  | cons a l ih =>
    rw [List.orderedInsert_cons]
    by_cases hle : c ≤ a
    · exact ⟨[], a :: l, rfl, by rw [if_pos hle]; rfl⟩
    · obtain ⟨l1, l2, h1, h2⟩ := ih
      exact ⟨a :: l1, l2, by rw [h1]; rfl, by rw [if_neg hle, h2]; rfl⟩

theorem idxOf_split {l1 l2 : List Q} {c : Q} (h : c ∉ l1) : (l1 ++ c :: l2).idxOf c = l1.length := by
  rw [List.idxOf_append_of_notMem h, List.idxOf_cons_self]; omega

/-! ### The effect of a gate -/

theorem act_apply (g : Gate Q) (ψ : St Q) (b : Q → Bool) :
    g.act ψ b = match g.payloads.get (key g.controls b) with
      | none => ψ b
      | some m => onQubit g.target m ψ b := rfl

/-- Two gates with the same target that hold the same matrix for every basis state have the same effect. -/
theorem act_congr {g h : Gate Q} (ht : g.target = h.target)
    (hk : ∀ b, g.payloads.get (key g.controls b) = h.payloads.get (key h.controls b)) : g.act = h.act := by
  funext ψ b
  rw [act_apply, act_apply, hk b, ht]

theorem act_smul (g : Gate Q) (z : ℂ) (ψ : St Q) : g.act (fun b => z * ψ b) = fun b => z * g.act ψ b := by
  funext b
  rw [act_apply, act_apply]
  cases g.payloads.get (key g.controls b) with
  | none => rfl
  | some m => simp only [onQubit]; by_cases h : b g.target <;> simp only [h, if_true, Bool.false_eq_true, if_false] <;> ring

theorem run_smul (gs : List (Gate Q)) (z : ℂ) (ψ : St Q) : run gs (fun b => z * ψ b) = fun b => z * run gs ψ b := by
  induction gs generalizing ψ with
  | nil => rfl
  | cons g gs ih => rw [run_cons, act_smul, ih, run_cons]

/-! ### Adding and removing controls -/

theorem get_spread (m : PMap) (p k : ℕ) :
    PMap.get (m.flatMap (fun e => [(spread p e.1, e.2), (spread p e.1 ||| 2 ^ p, e.2)])) k = m.get (squeeze p k) := by
  induction m with
  | nil => rfl
  | cons e m ih =>
    rw [List.flatMap_cons, get_append, ih, get_cons, get_cons, get_cons, get_nil]
    dsimp only
    rw [spread_or, spread_eq]
    have h0 := insKey_eq_iff p false e.1 k
    have h1 := insKey_eq_iff p true e.1 k
    by_cases hs : squeeze p k = e.1
    · cases hb : k.testBit p
      · have : insKey p false e.1 = k := h0.2 ⟨hs, hb⟩
        simp [this, hs]
      · have ht : insKey p true e.1 = k := h1.2 ⟨hs, hb⟩
        simp [ht, hs]
    · have hf : ¬ insKey p false e.1 = k := fun h => hs (h0.1 h).1
      have ht : ¬ insKey p true e.1 = k := fun h => hs (h1.1 h).1
      have : ¬ e.1 = squeeze p k := fun h => hs h.symm
      simp [hf, ht, this]

theorem addControl_controls (g : Gate Q) (c : Q) (x : Q) : x ∈ (g.addControl c).controls ↔ x = c ∨ x ∈ g.controls := by
  unfold Gate.addControl
  by_cases h : c ∈ g.controls
  · rw [if_pos h]
    constructor
    · exact Or.inr
    · rintro (rfl | hx)
      · exact h
      · exact hx
  · rw [if_neg h]; exact List.mem_orderedInsert _

theorem addControl_target (g : Gate Q) (c : Q) : (g.addControl c).target = g.target := by
  unfold Gate.addControl
  by_cases h : c ∈ g.controls
  · rw [if_pos h]
  · rw [if_neg h]

theorem addControl_payloads {g : Gate Q} {c : Q} (h : c ∉ g.controls) :
    (g.addControl c).payloads = List.foldl PMap.emplace []
      (g.payloads.flatMap (fun e => [(spread ((g.controls.orderedInsert (· ≤ ·) c).idxOf c) e.1, e.2),
        (spread ((g.controls.orderedInsert (· ≤ ·) c).idxOf c) e.1 ||| 2 ^ ((g.controls.orderedInsert (· ≤ ·) c).idxOf c), e.2)])) := by
  unfold Gate.addControl
  rw [if_neg h]
  simp only [List.foldl_flatMap, List.foldl_cons, List.foldl_nil]

theorem addControl_get {g : Gate Q} {c : Q} (h : c ∉ g.controls) (k : ℕ) :
    (g.addControl c).payloads.get k =
      g.payloads.get (squeeze ((g.controls.orderedInsert (· ≤ ·) c).idxOf c) k) := by
  rw [addControl_payloads h, get_foldl_emplace, get_nil, Option.none_or, get_spread]

theorem addControl_wf {g : Gate Q} (hg : g.Wf) {c : Q} (hc : c ≠ g.target) : (g.addControl c).Wf := by
  by_cases h : c ∈ g.controls
  · unfold Gate.addControl; rw [if_pos h]; exact hg
  · refine ⟨?_, ?_, ?_, ?_, ?_⟩
    · rw [addControl_target, addControl_controls]
      rintro (h0 | h0)
      · exact hc h0.symm
      · exact hg.notMem h0
    · have : (g.addControl c).controls = g.controls.orderedInsert (· ≤ ·) c := by
        unfold Gate.addControl; rw [if_neg h]
      rw [this]; exact sorted_insert hg.sorted h
    · rw [addControl_payloads h]
      apply ok_foldl_emplace; simp [PMap.Ok]
    · rw [addControl_payloads h]
      apply foldl_emplace_ne_nil
      right
      cases hp : g.payloads with
      | nil => exact absurd hp hg.nonempty
      | cons e m => simp
    · intro k v hkv
      rw [addControl_get h] at hkv
      obtain ⟨h1, h2⟩ := hg.entries _ _ hkv
      refine ⟨?_, h2⟩
      obtain ⟨l1, l2, e1, e2⟩ := insert_split g.controls c
      have hl : (g.addControl c).controls = l1 ++ c :: l2 := by
        rw [← e2]; unfold Gate.addControl; rw [if_neg h]
      have hcl : c ∉ l1 := fun h0 => h (by rw [e1]; simp [h0])
      rw [e2, idxOf_split hcl] at h1
      rw [hl]
      have := insKey_lt (p := l1.length) (n := g.controls.length) (k.testBit l1.length) (by rw [e1]; simp) h1
      rw [insKey_squeeze] at this
      refine lt_of_lt_of_le this ?_
      rw [e1]
      apply Nat.pow_le_pow_right (by omega)
      simp

/-- Adding a control changes nothing. -/
theorem addControl_act (g : Gate Q) (c : Q) : (g.addControl c).act = g.act := by
  by_cases h : c ∈ g.controls
  · unfold Gate.addControl; rw [if_pos h]
  · apply act_congr (addControl_target g c)
    intro b
    rw [addControl_get h]
    obtain ⟨l1, l2, e1, e2⟩ := insert_split g.controls c
    have hl : (g.addControl c).controls = l1 ++ c :: l2 := by
      rw [← e2]; unfold Gate.addControl; rw [if_neg h]
    have hcl : c ∉ l1 := fun h0 => h (by rw [e1]; simp [h0])
    rw [hl, e2, idxOf_split hcl, key_append_cons, squeeze_insKey, ← e1]

theorem addControls_spec (cs : List Q) {g : Gate Q} (hg : g.Wf) (hc : g.target ∉ cs) :
    (cs.foldl Gate.addControl g).Wf ∧ (cs.foldl Gate.addControl g).act = g.act ∧
      (cs.foldl Gate.addControl g).target = g.target ∧
      ∀ x, x ∈ (cs.foldl Gate.addControl g).controls ↔ x ∈ cs ∨ x ∈ g.controls := by
  induction cs generalizing g with
  | nil => exact ⟨hg, rfl, rfl, fun x => by simp⟩
  | cons c cs ih =>
    rw [List.foldl_cons]
    have h1 : c ≠ g.target := fun h0 => hc (by simp [h0])
    have h2 : (g.addControl c).target ∉ cs := by
      rw [addControl_target]; exact fun h0 => hc (List.mem_cons_of_mem _ h0)
    obtain ⟨i1, i2, i3, i4⟩ := ih (addControl_wf hg h1) h2
    refine ⟨i1, i2.trans (addControl_act g c), i3.trans (addControl_target g c), ?_⟩
    intro x
    rw [i4, addControl_controls, List.mem_cons]
    tauto

theorem split_of_mem {g : Gate Q} (hg : g.Wf) {c : Q} (hc : c ∈ g.controls) :
    ∃ l1 l2, g.controls = l1 ++ c :: l2 ∧ g.controls.erase c = l1 ++ l2 ∧ g.controls.idxOf c = l1.length := by
  obtain ⟨l1, l2, h⟩ := List.append_of_mem hc
  have hn : c ∉ l1 := by
    intro h0
    have := nodup_of_lt hg.sorted
    rw [h, List.nodup_append] at this
    exact this.2.2 c h0 c (by simp) rfl
  refine ⟨l1, l2, h, ?_, ?_⟩
  · rw [h, List.erase_append_right _ hn, List.erase_cons_head]
  · rw [h, idxOf_split hn]

theorem andNot_eq (p k : ℕ) : andNot k (2 ^ p) = insKey p false (squeeze p k) := by
  apply Nat.eq_of_testBit_eq
  intro i
  rw [testBit_andNot, Nat.testBit_two_pow, testBit_insKey, testBit_squeeze, testBit_squeeze]
  rcases lt_trichotomy i p with h | h | h
  · have : ¬ p = i := by omega
    simp [h, this]
  · subst h; simp
  · have h1 : ¬ i < p := by omega
    have h2 : ¬ i = p := by omega
    have h3 : ¬ i - 1 < p := by omega
    have h4 : i - 1 + 1 = i := by omega
    have h5 : ¬ p = i := by omega
    simp [h1, h2, h3, h4, h5]

theorem andNot_or (p k : ℕ) : andNot k (2 ^ p) ||| 2 ^ p = insKey p true (squeeze p k) := by
  rw [andNot_eq, insKey, insKey]; simp

theorem mtrx_ext {l h : Mtrx} (h0 : l.m0 - h.m0 = 0) (h1 : l.m1 - h.m1 = 0) (h2 : l.m2 - h.m2 = 0) (h3 : l.m3 - h.m3 = 0) :
    l = h := by
  obtain ⟨a, b, c, d⟩ := l
  obtain ⟨a', b', c', d'⟩ := h
  simp only [sub_eq_zero] at *
  rw [h0, h1, h2, h3]

theorem canRemoveControl_spec {g : Gate Q} (hg : g.payloads.Ok) {c : Q} (h : g.canRemoveControl c = true) {k : ℕ} {v : Mtrx}
    (hk : g.payloads.get k = some v) (e : Bool) :
    g.payloads.get (insKey (g.controls.idxOf c) e (squeeze (g.controls.idxOf c) k)) = some v := by
  unfold Gate.canRemoveControl at h
  simp only [List.all_eq_true] at h
  have := h (k, v) (get_mem hk)
  dsimp only at this
  rw [andNot_or, andNot_eq] at this
  generalize hp : g.controls.idxOf c = p at *
  cases hl : g.payloads.get (insKey p false (squeeze p k)) with
  | none => rw [hl] at this; simp at this
  | some l =>
    cases hh : g.payloads.get (insKey p true (squeeze p k)) with
    | none => rw [hl, hh] at this; simp at this
    | some h' =>
      rw [hl, hh] at this
      simp only [Bool.and_eq_true, decide_eq_true_eq] at this
      obtain ⟨⟨⟨t0, t1⟩, t2⟩, t3⟩ := this
      have hlh := mtrx_ext t0 t1 t2 t3
      subst hlh
      have hb := insKey_squeeze p k
      have : l = v := by
        cases hb' : k.testBit p
        · rw [hb'] at hb; rw [hb, hk] at hl; exact (Option.some.inj hl).symm
        · rw [hb'] at hb; rw [hb, hk] at hh; exact (Option.some.inj hh).symm
      subst this
      cases e
      · exact hl
      · exact hh

theorem foldl_map_emplace (m : PMap) (f : ℕ × Mtrx → ℕ × Mtrx) (acc : PMap) :
    m.foldl (fun acc e => PMap.emplace acc (f e)) acc = (m.map f).foldl PMap.emplace acc := by
  rw [List.foldl_map]

theorem removeControl_get {g : Gate Q} (hg : g.payloads.Ok) {c : Q} (h : g.canRemoveControl c = true) (k : ℕ) (e : Bool) :
    (g.removeControl c).payloads.get k = g.payloads.get (insKey (g.controls.idxOf c) e k) := by
  unfold Gate.removeControl
  dsimp only
  rw [foldl_map_emplace g.payloads (fun e => (squeeze (g.controls.idxOf c) e.1, e.2)), get_foldl_emplace, get_nil,
    Option.none_or]
  generalize hp : g.controls.idxOf c = p at *
  cases hL : PMap.get (g.payloads.map (fun e => (squeeze p e.1, e.2))) k with
  | some v =>
    have := get_mem hL
    rw [List.mem_map] at this
    obtain ⟨x, hx, hxe⟩ := this
    have hx' := mem_get hg hx
    have h1 := canRemoveControl_spec hg h hx' e
    rw [hp] at h1
    simp only [Prod.mk.injEq] at hxe
    rw [hxe.1, hxe.2] at h1
    exact h1.symm
  | none =>
    rw [get_eq_none] at hL
    symm
    rw [get_eq_none]
    intro hm
    apply hL
    rw [List.mem_map] at hm ⊢
    obtain ⟨x, hx, hxe⟩ := hm
    refine ⟨(squeeze p x.1, x.2), List.mem_map_of_mem hx, ?_⟩
    dsimp only
    rw [hxe, squeeze_insKey]

theorem removeControl_spec {g : Gate Q} (hg : g.Wf) {c : Q} (hc : c ∈ g.controls) (h : g.canRemoveControl c = true) :
    (g.removeControl c).Wf ∧ (g.removeControl c).act = g.act := by
  obtain ⟨l1, l2, e1, e2, e3⟩ := split_of_mem hg hc
  have hcon : (g.removeControl c).controls = l1 ++ l2 := e2
  constructor
  · refine ⟨?_, ?_, ?_, ?_, ?_⟩
    · rw [hcon]
      intro h0
      apply hg.notMem
      rw [e1]
      have : g.target ∈ l1 ++ l2 := h0
      rw [List.mem_append] at this ⊢
      rw [List.mem_cons]; tauto
    · rw [hcon]
      have := hg.sorted
      rw [e1] at this
      exact this.sublist (List.Sublist.append_left (List.sublist_cons_self c l2) l1)
    · unfold Gate.removeControl
      dsimp only
      rw [foldl_map_emplace g.payloads (fun e => (squeeze (g.controls.idxOf c) e.1, e.2))]
      apply ok_foldl_emplace; simp [PMap.Ok]
    · unfold Gate.removeControl
      dsimp only
      rw [foldl_map_emplace g.payloads (fun e => (squeeze (g.controls.idxOf c) e.1, e.2))]
      apply foldl_emplace_ne_nil
      right
      intro h0
      exact hg.nonempty (List.map_eq_nil_iff.1 h0)
    · intro k v hkv
      rw [removeControl_get hg.ok h k false] at hkv
      obtain ⟨h1, h2⟩ := hg.entries _ _ hkv
      refine ⟨?_, h2⟩
      rw [e3] at h1
      have h3 : squeeze l1.length (insKey l1.length false k) < 2 ^ (l1 ++ l2).length := by
        apply squeeze_lt (by simp)
        rw [e1] at h1
        simpa [Nat.add_assoc] using h1
      rw [squeeze_insKey] at h3
      rw [hcon]; exact h3
  · refine act_congr (g := g.removeControl c) (h := g) rfl ?_
    intro b
    rw [removeControl_get hg.ok h _ (b c), hcon, e3, ← key_append_cons, ← e1]

theorem tryRemoveControl_spec {g : Gate Q} (hg : g.Wf) {c : Q} (hc : c ∈ g.controls) :
    (g.tryRemoveControl c).Wf ∧ (g.tryRemoveControl c).act = g.act ∧
      (∀ x ∈ g.controls, x ≠ c → x ∈ (g.tryRemoveControl c).controls) := by
  unfold Gate.tryRemoveControl
  by_cases h : g.canRemoveControl c = true
  · rw [if_pos h]
    obtain ⟨h1, h2⟩ := removeControl_spec hg hc h
    refine ⟨h1, h2, ?_⟩
    intro x hx hxc
    exact (List.mem_erase_of_ne hxc).2 hx
  · rw [if_neg h]
    exact ⟨hg, rfl, fun x hx _ => hx⟩

theorem tryRemoveControls_spec (cs : List Q) (hcs : cs.Nodup) {g : Gate Q} (hg : g.Wf) (hc : ∀ c ∈ cs, c ∈ g.controls) :
    (cs.foldl Gate.tryRemoveControl g).Wf ∧ (cs.foldl Gate.tryRemoveControl g).act = g.act := by
  induction cs generalizing g with
  | nil => exact ⟨hg, rfl⟩
  | cons c cs ih =>
    rw [List.nodup_cons] at hcs
    obtain ⟨h1, h2, h3⟩ := tryRemoveControl_spec hg (hc c (by simp))
    obtain ⟨i1, i2⟩ := ih hcs.2 h1 (fun x hx => h3 x (hc x (List.mem_cons_of_mem _ hx)) (by rintro rfl; exact hcs.1 hx))
    exact ⟨i1, i2.trans h2⟩

/-! ### Combining -/

theorem mul_m0 (l r : Mtrx) : (mul2x2 l r).m0 = l.m0 * r.m0 + l.m1 * r.m2 := by
  obtain ⟨a, b, c, d⟩ := l; obtain ⟨a', b', c', d'⟩ := r
  simp [mul2x2, matrixMul, lane, pack, colShuff, shuffle, flipSign, addL, mulL]
  apply Complex.ext <;> simp <;> ring

theorem mul_m1 (l r : Mtrx) : (mul2x2 l r).m1 = l.m0 * r.m1 + l.m1 * r.m3 := by
  obtain ⟨a, b, c, d⟩ := l; obtain ⟨a', b', c', d'⟩ := r
  simp [mul2x2, matrixMul, lane, pack, colShuff, shuffle, flipSign, addL, mulL]
  apply Complex.ext <;> simp <;> ring

theorem mul_m2 (l r : Mtrx) : (mul2x2 l r).m2 = l.m2 * r.m0 + l.m3 * r.m2 := by
  obtain ⟨a, b, c, d⟩ := l; obtain ⟨a', b', c', d'⟩ := r
  simp [mul2x2, matrixMul, lane, pack, colShuff, shuffle, flipSign, addL, mulL]
  apply Complex.ext <;> simp <;> ring

theorem mul_m3 (l r : Mtrx) : (mul2x2 l r).m3 = l.m2 * r.m1 + l.m3 * r.m3 := by
  obtain ⟨a, b, c, d⟩ := l; obtain ⟨a', b', c', d'⟩ := r
  simp [mul2x2, matrixMul, lane, pack, colShuff, shuffle, flipSign, addL, mulL]
  apply Complex.ext <;> simp <;> ring

theorem unitary_mul {l r : Mtrx} (hl : Unitary l) (hr : Unitary r) : Unitary (mul2x2 l r) := by
  obtain ⟨l1, l2, l3, l4, l5, l6⟩ := hl
  obtain ⟨r1, r2, r3, r4, r5, r6⟩ := hr
  have l3' : (starRingEnd ℂ) l.m1 * l.m0 + (starRingEnd ℂ) l.m3 * l.m2 = 0 := by
    have := congrArg (starRingEnd ℂ) l3
    simp only [map_add, map_mul, Complex.conj_conj, map_zero] at this
    rw [← this]; ring
  have r6' : r.m2 * (starRingEnd ℂ) r.m0 + r.m3 * (starRingEnd ℂ) r.m1 = 0 := by
    have := congrArg (starRingEnd ℂ) r6
    simp only [map_add, map_mul, Complex.conj_conj, map_zero] at this
    rw [← this]; ring
  refine ⟨?_, ?_, ?_, ?_, ?_, ?_⟩ <;> simp only [mul_m0, mul_m1, mul_m2, mul_m3, map_add, map_mul]
  · linear_combination (starRingEnd ℂ) r.m0 * r.m0 * l1 + (starRingEnd ℂ) r.m2 * r.m2 * l2 +
      (starRingEnd ℂ) r.m0 * r.m2 * l3 + (starRingEnd ℂ) r.m2 * r.m0 * l3' + r1
  · linear_combination (starRingEnd ℂ) r.m1 * r.m1 * l1 + (starRingEnd ℂ) r.m3 * r.m3 * l2 +
      (starRingEnd ℂ) r.m1 * r.m3 * l3 + (starRingEnd ℂ) r.m3 * r.m1 * l3' + r2
  · linear_combination (starRingEnd ℂ) r.m0 * r.m1 * l1 + (starRingEnd ℂ) r.m2 * r.m3 * l2 +
      (starRingEnd ℂ) r.m0 * r.m3 * l3 + (starRingEnd ℂ) r.m2 * r.m1 * l3' + r3
  · linear_combination l.m0 * (starRingEnd ℂ) l.m0 * r4 + l.m1 * (starRingEnd ℂ) l.m1 * r5 +
      l.m0 * (starRingEnd ℂ) l.m1 * r6 + l.m1 * (starRingEnd ℂ) l.m0 * r6' + l4
  · linear_combination l.m2 * (starRingEnd ℂ) l.m2 * r4 + l.m3 * (starRingEnd ℂ) l.m3 * r5 +
      l.m2 * (starRingEnd ℂ) l.m3 * r6 + l.m3 * (starRingEnd ℂ) l.m2 * r6' + l5
  · linear_combination l.m0 * (starRingEnd ℂ) l.m2 * r4 + l.m1 * (starRingEnd ℂ) l.m3 * r5 +
      l.m0 * (starRingEnd ℂ) l.m3 * r6 + l.m1 * (starRingEnd ℂ) l.m2 * r6' + l6

theorem onQubit_mul (t : Q) (q p : Mtrx) (ψ : St Q) : onQubit t q (onQubit t p ψ) = onQubit t (mul2x2 q p) ψ := by
  funext b
  simp only [onQubit, mul_m0, mul_m1, mul_m2, mul_m3, Function.update_self, Function.update_idem, Bool.false_eq_true, if_false,
    if_true]
  by_cases h : b t <;> simp only [h, if_true, if_false, Bool.false_eq_true] <;> ring

theorem onQubit_id (t : Q) (m : Mtrx) (h0 : m.m0 = 1) (h1 : m.m1 = 0) (h2 : m.m2 = 0) (h3 : m.m3 = 1) (ψ : St Q) :
    onQubit t m ψ = ψ := by
  funext b
  simp only [onQubit, h0, h1, h2, h3, zero_mul, one_mul, zero_add, add_zero]
  cases h : b t
  · simp only [Bool.false_eq_true, if_false]; rw [← h, Function.update_eq_self]
  · simp only [if_true]; rw [← h, Function.update_eq_self]

open Classical in
/-- The entry of the combined gate. -/
noncomputable def merge : Option Mtrx → Option Mtrx → Option Mtrx
  | none, y => y
  | some p, none => some p
  | some p, some q =>
    if (mul2x2 q p).m1 = 0 ∧ (mul2x2 q p).m2 = 0 ∧ 1 - (mul2x2 q p).m0 = 0 ∧ 1 - (mul2x2 q p).m3 = 0 then none
    else some (mul2x2 q p)

theorem get_combineStep (acc : PMap) (e : ℕ × Mtrx) (k : ℕ) :
    (combineStep acc e).get k = if e.1 = k then merge (acc.get k) (some e.2) else acc.get k := by
  unfold combineStep
  by_cases hk : e.1 = k
  · subst hk
    rw [if_pos rfl]
    cases h : acc.get e.1 with
    | none => simp only [merge]; rw [get_set]; simp
    | some p =>
      simp only [merge]
      by_cases hc : (mul2x2 e.2 p).m1 = 0 ∧ (mul2x2 e.2 p).m2 = 0 ∧ 1 - (mul2x2 e.2 p).m0 = 0 ∧ 1 - (mul2x2 e.2 p).m3 = 0
      · rw [if_pos hc, if_pos hc, get_erase]; simp
      · rw [if_neg hc, if_neg hc, get_set]; simp
  · rw [if_neg hk]
    cases h : acc.get e.1 with
    | none => simp only; rw [get_set, if_neg hk]
    | some p =>
      simp only
      by_cases hc : (mul2x2 e.2 p).m1 = 0 ∧ (mul2x2 e.2 p).m2 = 0 ∧ 1 - (mul2x2 e.2 p).m0 = 0 ∧ 1 - (mul2x2 e.2 p).m3 = 0
      · rw [if_pos hc, get_erase, if_neg hk]
      · rw [if_neg hc, get_set, if_neg hk]

theorem ok_combineStep {acc : PMap} (h : acc.Ok) (e : ℕ × Mtrx) : (combineStep acc e).Ok := by
  unfold combineStep
  cases acc.get e.1 with
  | none => exact ok_set h e
  | some p =>
    simp only
    by_cases hc : (mul2x2 e.2 p).m1 = 0 ∧ (mul2x2 e.2 p).m2 = 0 ∧ 1 - (mul2x2 e.2 p).m0 = 0 ∧ 1 - (mul2x2 e.2 p).m3 = 0
    · rw [if_pos hc]; exact ok_erase h _
    · rw [if_neg hc]; exact ok_set h _

theorem get_foldl_combineStep (l : PMap) (hl : l.Ok) (acc : PMap) (k : ℕ) :
    (l.foldl combineStep acc).get k = merge (acc.get k) (l.get k) := by
  induction l generalizing acc with
  | nil => simp only [List.foldl_nil, get_nil]; cases acc.get k <;> rfl
  | cons e l ih =>
    unfold PMap.Ok at hl
    rw [List.map_cons, List.nodup_cons] at hl
    rw [List.foldl_cons, ih hl.2, get_combineStep, get_cons]
    by_cases hk : e.1 = k
    · subst hk
      have : PMap.get l e.1 = none := (get_eq_none _ _).2 hl.1
      rw [if_pos rfl, if_pos rfl, this]
      generalize merge (acc.get e.1) (some e.2) = x
      cases x <;> rfl
    · rw [if_neg hk, if_neg hk]

theorem ok_foldl_combineStep (l : PMap) {acc : PMap} (h : acc.Ok) : (l.foldl combineStep acc).Ok := by
  induction l generalizing acc with
  | nil => exact h
  | cons e l ih => exact ih (ok_combineStep h e)

theorem merge_unitary {x y : Option Mtrx} {v : Mtrx} (hx : ∀ v, x = some v → Unitary v) (hy : ∀ v, y = some v → Unitary v)
    (h : merge x y = some v) : Unitary v := by
  cases x with
  | none => exact hy v h
  | some p =>
    cases y with
    | none => exact hx v h
    | some q =>
      simp only [merge] at h
      by_cases hc : (mul2x2 q p).m1 = 0 ∧ (mul2x2 q p).m2 = 0 ∧ 1 - (mul2x2 q p).m0 = 0 ∧ 1 - (mul2x2 q p).m3 = 0
      · rw [if_pos hc] at h; cases h
      · rw [if_neg hc, Option.some.injEq] at h
        rw [← h]; exact unitary_mul (hy q rfl) (hx p rfl)

theorem act_update_same (g : Gate Q) (hg : g.target ∉ g.controls) (ψ : St Q) (b : Q → Bool) (v : Bool) :
    g.act ψ (Function.update b g.target v) =
      match g.payloads.get (key g.controls b) with
      | none => ψ (Function.update b g.target v)
      | some m => onQubit g.target m ψ (Function.update b g.target v) := by
  rw [act_apply, key_update hg]

/-- Merging the tables of two gates on the same target with the same controls gives the second after the first. -/
theorem merge_act {g o : Gate Q} (ht : g.target = o.target) (hc : g.controls = o.controls) (hg : g.target ∉ g.controls)
    (ps : PMap) (hps : ∀ k, ps.get k = merge (g.payloads.get k) (o.payloads.get k)) (ψ : St Q) :
    (Gate.mk g.target g.controls ps).act ψ = o.act (g.act ψ) := by
  funext b
  rw [act_apply, act_apply o]
  dsimp only
  rw [hps, ← hc, ← ht]
  cases hx : g.payloads.get (key g.controls b) with
  | none =>
    cases hy : o.payloads.get (key g.controls b) with
    | none => simp only [merge]; rw [act_apply, hx]
    | some q =>
      simp only [merge, onQubit]
      rw [act_update_same g hg, act_update_same g hg, hx]
  | some p =>
    cases hy : o.payloads.get (key g.controls b) with
    | none => simp only [merge]; rw [act_apply, hx]
    | some q =>
      have h1 : onQubit g.target q (g.act ψ) b = onQubit g.target (mul2x2 q p) ψ b := by
        rw [← onQubit_mul]
        show (if _ then _ else _) = (if _ then _ else _)
        rw [act_update_same g hg, act_update_same g hg, hx]
      simp only [merge]
      rw [h1]
      by_cases hcond : (mul2x2 q p).m1 = 0 ∧ (mul2x2 q p).m2 = 0 ∧ 1 - (mul2x2 q p).m0 = 0 ∧ 1 - (mul2x2 q p).m3 = 0
      · rw [if_pos hcond, onQubit_id]
        · exact (sub_eq_zero.1 hcond.2.2.1).symm
        · exact hcond.1
        · exact hcond.2.1
        · exact (sub_eq_zero.1 hcond.2.2.2).symm
      · rw [if_neg hcond]

theorem clear_wf (g : Gate Q) : g.clear.Wf := by
  refine ⟨by simp [Gate.clear], by simp [Gate.clear], by simp [Gate.clear, PMap.Ok], by simp [Gate.clear], ?_⟩
  intro k v h
  simp only [Gate.clear, get_cons, get_nil] at h
  by_cases hk : 0 = k
  · rw [if_pos hk, Option.some.injEq] at h
    subst h; subst hk
    exact ⟨by simp [Gate.clear], by simp [Unitary, idM]⟩
  · rw [if_neg hk] at h; cases h

theorem clear_act (g : Gate Q) (ψ : St Q) : g.clear.act ψ = ψ := by
  funext b
  rw [act_apply]
  simp only [Gate.clear, key, get_cons, if_true]
  rw [onQubit_id _ _ rfl rfl rfl rfl]

theorem canCombine_spec {g o : Gate Q} (hg : g.Wf) (ho : o.Wf) {cl : Bool} (h : g.canCombine o cl = true) :
    g.target = o.target ∧ (g.controls ⊆ o.controls ∨ o.controls ⊆ g.controls) := by
  have empties : ∀ {l : List Q}, l.isEmpty = true → l = [] := fun h => List.isEmpty_iff.1 h
  unfold Gate.canCombine at h
  by_cases ht : g.target ≠ o.target
  · rw [if_pos ht] at h; cases h
  · rw [if_neg ht] at h
    push Not at ht
    refine ⟨ht, ?_⟩
    have gen : (g.controls.isEmpty || o.controls.isEmpty || decide (g.controls ⊆ o.controls) ||
        decide (o.controls ⊆ g.controls)) = true → (g.controls ⊆ o.controls ∨ o.controls ⊆ g.controls) := by
      intro h
      simp only [Bool.or_eq_true, decide_eq_true_eq] at h
      rcases h with ((h | h) | h) | h
      · left; rw [empties h]; simp
      · right; rw [empties h]; simp
      · exact Or.inl h
      · exact Or.inr h
    dsimp only at h
    cases cl with
    | false => exact gen h
    | true =>
      simp only [if_true] at h
      by_cases h1 : (g.controls.isEmpty && o.controls.isEmpty) = true
      · rw [Bool.and_eq_true] at h1
        left; rw [empties h1.1]; simp
      · rw [if_neg h1] at h
        by_cases h2 : g.isClifford ≠ o.isClifford
        · rw [if_pos h2] at h; cases h
        · rw [if_neg h2] at h
          push Not at h2
          by_cases h3 : g.isClifford = true
          · rw [if_pos h3] at h
            simp only [Bool.or_eq_true, decide_eq_true_eq] at h
            rcases h with (h | h) | h
            · left; rw [empties h]; simp
            · right; rw [empties h]; simp
            · have len : ∀ x : Gate Q, x.Wf → x.isClifford = true → x.controls.length ≤ 1 := by
                intro x hx hcl
                unfold Gate.isClifford at hcl
                have : x.payloads.isEmpty = false := by
                  cases hp : x.payloads with
                  | nil => exact absurd hp hx.nonempty
                  | cons e m => rfl
                rw [this] at hcl
                by_contra hlen
                simp only [Bool.false_eq_true, if_false] at hcl
                rw [if_pos (by omega)] at hcl
                cases hcl
              have lg := len g hg h3
              have lo := len o ho (h2 ▸ h3)
              left
              match hgc : g.controls, hoc : o.controls with
              | [], _ => simp
              | [a], [] => rw [hgc, hoc] at h; simp at h
              | [a], [c] => rw [hgc, hoc] at h; simp at h; simp [h]
              | a :: b :: l, _ => rw [hgc] at lg; simp at lg
              | _, a :: b :: l => rw [hoc] at lo; simp at lo
          · rw [if_neg h3] at h; exact gen h

/-- Combining two gates gives the second after the first. -/
theorem combine_spec {g o : Gate Q} (hg : g.Wf) (ho : o.Wf) {cl : Bool} (h : g.canCombine o cl = true) :
    (g.combine o).Wf ∧ ∀ ψ, (g.combine o).act ψ = o.act (g.act ψ) := by
  obtain ⟨ht, hsub⟩ := canCombine_spec hg ho h
  have hgo : g.target ∉ o.controls := ht ▸ ho.notMem
  have hog : o.target ∉ g.controls := ht ▸ hg.notMem
  set g1 := if g.controls.length < o.controls.length then o.controls.foldl Gate.addControl g else g with hg1
  set o1 := if o.controls.length < g.controls.length then g.controls.foldl Gate.addControl o else o with ho1
  have ng := nodup_of_lt hg.sorted
  have no := nodup_of_lt ho.sorted
  have key1 : g1.Wf ∧ g1.act = g.act ∧ g1.target = g.target ∧ o1.Wf ∧ o1.act = o.act ∧ o1.target = o.target ∧
      g1.controls = o1.controls ∧ ∀ x ∈ g.controls, x ∈ g1.controls := by
    obtain ⟨a1, a2, a3, a4⟩ := addControls_spec o.controls hg hgo
    obtain ⟨b1, b2, b3, b4⟩ := addControls_spec g.controls ho hog
    rcases lt_trichotomy g.controls.length o.controls.length with hl | hl | hl
    · have hn : ¬ o.controls.length < g.controls.length := by omega
      rw [if_pos hl] at hg1
      rw [if_neg hn] at ho1
      rw [hg1, ho1]
      have hs : g.controls ⊆ o.controls := by
        rcases hsub with h | h
        · exact h
        · exact absurd ((no.subperm h).length_le) (by omega)
      refine ⟨a1, a2, a3, ho, rfl, rfl, ?_, fun x hx => (a4 x).2 (Or.inr hx)⟩
      apply eq_of_sorted a1.sorted ho.sorted
      intro x
      rw [a4]
      exact ⟨fun h => h.elim id (fun h => hs h), Or.inl⟩
    · have hn : ¬ o.controls.length < g.controls.length := by omega
      have hn' : ¬ g.controls.length < o.controls.length := by omega
      rw [if_neg hn'] at hg1
      rw [if_neg hn] at ho1
      rw [hg1, ho1]
      refine ⟨hg, rfl, rfl, ho, rfl, rfl, ?_, fun x hx => hx⟩
      apply eq_of_sorted hg.sorted ho.sorted
      intro x
      rcases hsub with h | h
      · exact (((ng.subperm h).perm_of_length_le (by omega)).mem_iff)
      · exact (((no.subperm h).perm_of_length_le (by omega)).mem_iff).symm
    · have hn' : ¬ g.controls.length < o.controls.length := by omega
      rw [if_neg hn'] at hg1
      rw [if_pos hl] at ho1
      rw [hg1, ho1]
      have hs : o.controls ⊆ g.controls := by
        rcases hsub with h | h
        · exact absurd ((ng.subperm h).length_le) (by omega)
        · exact h
      refine ⟨hg, rfl, rfl, b1, b2, b3, ?_, fun x hx => hx⟩
      apply eq_of_sorted hg.sorted b1.sorted
      intro x
      rw [b4]
      exact ⟨Or.inl, fun h => h.elim id (fun h => hs h)⟩
  obtain ⟨w1, e1, t1, w2, e2, t2, hcc, hin⟩ := key1
  have hget := get_foldl_combineStep o1.payloads w2.ok g1.payloads
  have hact := merge_act (g := g1) (o := o1) (by rw [t1, t2, ht]) hcc w1.notMem _ hget
  have hcomb : g.combine o = if (o1.payloads.foldl combineStep g1.payloads).isEmpty then g1.clear
      else (g.controls.filter (· ∈ o.controls)).foldl Gate.tryRemoveControl
        ⟨g1.target, g1.controls, o1.payloads.foldl combineStep g1.payloads⟩ := rfl
  rw [hcomb]
  by_cases hemp : (o1.payloads.foldl combineStep g1.payloads).isEmpty = true
  · rw [if_pos hemp]
    refine ⟨clear_wf _, fun ψ => ?_⟩
    rw [clear_act, ← e2, ← e1, ← hact]
    rw [List.isEmpty_iff.1 hemp]
    funext b; rfl
  · rw [if_neg hemp]
    have wf : (Gate.mk g1.target g1.controls (o1.payloads.foldl combineStep g1.payloads)).Wf := by
      refine ⟨w1.notMem, w1.sorted, ok_foldl_combineStep _ w1.ok, ?_, ?_⟩
      · intro h0; exact hemp (by rw [show o1.payloads.foldl combineStep g1.payloads = [] from h0]; rfl)
      · intro k v hkv
        dsimp only at hkv ⊢
        rw [hget] at hkv
        refine ⟨?_, merge_unitary (fun v hv => (w1.entries k v hv).2) (fun v hv => (w2.entries k v hv).2) hkv⟩
        cases hx : g1.payloads.get k with
        | some p => exact (w1.entries k p hx).1
        | none =>
          rw [hx] at hkv
          rw [hcc]; exact (w2.entries k v hkv).1
    obtain ⟨r1, r2⟩ := tryRemoveControls_spec (g.controls.filter (· ∈ o.controls)) (ng.sublist List.filter_sublist) wf
      (fun c hc => hin c (List.mem_filter.1 hc).1)
    refine ⟨r1, fun ψ => ?_⟩
    rw [r2, hact, e1, e2]

/-! ### Identity -/

/-- A gate that is recognised as an identity multiplies the state by a number of modulus one. -/
theorem isIdentity_spec {g : Gate Q} (hg : g.Wf) (h : g.isIdentity = true) :
    ∃ z : ℂ, z * (starRingEnd ℂ) z = 1 ∧ ∀ ψ, g.act ψ = fun b => z * ψ b := by
  unfold Gate.isIdentity at h
  by_cases hl : g.payloads.length = 2 ^ g.controls.length
  · rw [if_pos hl] at h
    cases hp : g.payloads with
    | nil => exact absurd hp hg.nonempty
    | cons r m =>
      rw [hp] at h
      simp only [Bool.and_eq_true, decide_eq_true_eq, List.all_eq_true] at h
      obtain ⟨h0, hall⟩ := h
      have hr := hall r (by simp)
      have hru : Unitary r.2 := (hg.entries r.1 r.2 (mem_get hg.ok (by rw [hp]; simp))).2
      refine ⟨r.2.m0, ?_, ?_⟩
      · obtain ⟨_, _, _, h4, _, _⟩ := hru
        rw [hr.1, map_zero, mul_zero, add_zero] at h4
        exact h4
      · intro ψ
        funext b
        have hkey : ∃ v, g.payloads.get (key g.controls b) = some v := by
          rw [← Option.isSome_iff_exists, get_isSome]
          have hsub : (g.payloads.map Prod.fst).toFinset ⊆ Finset.range (2 ^ g.controls.length) := by
            intro k hk
            rw [List.mem_toFinset, ← get_isSome, Option.isSome_iff_exists] at hk
            obtain ⟨v, hv⟩ := hk
            exact Finset.mem_range.2 (hg.entries k v hv).1
          have hcard : (Finset.range (2 ^ g.controls.length)).card ≤ (g.payloads.map Prod.fst).toFinset.card := by
            rw [List.toFinset_card_of_nodup hg.ok, List.length_map, hl, Finset.card_range]
          have := Finset.eq_of_subset_of_card_le hsub hcard
          rw [← List.mem_toFinset, this]
          exact Finset.mem_range.2 (key_lt _ _)
        obtain ⟨v, hv⟩ := hkey
        have hm := hall (key g.controls b, v) (by rw [← hp]; exact get_mem hv)
        rw [act_apply, hv]
        simp only [onQubit]
        obtain ⟨v1, v2, v3, v4⟩ := hm
        dsimp only at v1 v2 v3 v4
        rw [v1, v2, ← sub_eq_zero.1 v3, ← sub_eq_zero.1 v4]
        cases hb : b g.target
        · simp only [Bool.false_eq_true, if_false, zero_mul, add_zero]; rw [← hb, Function.update_eq_self]
        · simp only [if_true, zero_mul, zero_add]; rw [← hb, Function.update_eq_self]
  · rw [if_neg hl] at h
    simp only [decide_eq_true_eq, List.all_eq_true] at h
    refine ⟨1, by simp, fun ψ => ?_⟩
    funext b
    rw [act_apply, one_mul]
    cases hv : g.payloads.get (key g.controls b) with
    | none => rfl
    | some v =>
      obtain ⟨h1, h2, h3, h4⟩ := h _ (get_mem hv)
      simp only
      rw [onQubit_id _ _ (sub_eq_zero.1 h3).symm h1 h2 (sub_eq_zero.1 h4).symm]

end Verif.QCirc
