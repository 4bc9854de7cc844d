import Verif.Lemmas.TensorNetStep
import Verif.Lemmas.QCircuitBound

/-!
# The second loop of `ForceM`
-/

namespace Verif.TN

open Verif.Matrix2 Verif.Spec.Circuit Verif.QCirc

variable {Q : Type} [LinearOrder Q]

/-- The qubits in `K` have the values `v`. -/
def Fix (K : Q → Prop) (v : Q → Bool) (ψ : St Q) : Prop := ∀ b, ψ b ≠ 0 → ∀ q, K q → b q = v q

theorem act_fix {K : Q → Prop} {v : Q → Bool} {g : Gate Q} (hg : K g.target → g.isPhase = true) {ψ : St Q} (h : Fix K v ψ) :
    Fix K v (g.act ψ) := by
  intro b hb q hq
  by_cases ht : K g.target
  · rw [phase_act (hg ht)] at hb
    exact h b (right_ne_zero_of_mul hb) q hq
  · have hqt : q ≠ g.target := fun e => ht (e ▸ hq)
    by_contra hn
    have hz : ∀ x, ψ (Function.update b g.target x) = 0 := by
      intro x
      by_contra hx
      have := h _ hx q hq
      rw [Function.update_of_ne hqt] at this
      exact hn this
    have hb0 : ψ b = 0 := by
      have := hz (b g.target)
      rwa [Function.update_eq_self] at this
    refine hb ?_
    rw [act_apply]
    split
    · exact hb0
    · unfold onQubit
      rw [hz, hz]; simp

theorem run_fix {K : Q → Prop} {v : Q → Bool} (c : List (Gate Q)) (hc : ∀ g ∈ c, K g.target → g.isPhase = true) {ψ : St Q}
    (h : Fix K v ψ) : Fix K v (run c ψ) := by
  induction c generalizing ψ with
  | nil => exact h
  | cons g c ih =>
    rw [run_cons]
    exact ih (fun x hx => hc x (List.mem_cons_of_mem _ hx)) (act_fix (hc g (by simp)) h)

/-- The value of a measured qubit. -/
def val (m : Meas Q) (q : Q) : Bool := ((m.find? fun e => e.1 = q).map Prod.snd).getD false

theorem val_eq {m : Meas Q} (hm : (m.map Prod.fst).Nodup) {e : Q × Bool} (he : e ∈ m) : val m e.1 = e.2 := by
  induction m with
  | nil => cases he
  | cons a m ih =>
    rw [List.map_cons, List.nodup_cons] at hm
    unfold val
    rw [List.find?_cons]
    rcases List.mem_cons.1 he with rfl | he
    · simp
    · have hne : a.1 ≠ e.1 := fun h => hm.1 (h ▸ List.mem_map_of_mem he)
      simp only [hne, decide_false]
      exact ih hm.2 he

theorem has_iff {m : Meas Q} {q : Q} : m.has q = true ↔ ∃ v, (q, v) ∈ m := by
  simp [Meas.has]

theorem has_val {m : Meas Q} (hm : (m.map Prod.fst).Nodup) {q : Q} (h : m.has q = true) : (q, val m q) ∈ m := by
  obtain ⟨v, hv⟩ := has_iff.1 h
  have := val_eq hm hv
  simp only at this
  rwa [this]

theorem val_not {m : Meas Q} {q : Q} (h : m.has q = false) : val m q = false := by
  unfold val
  rw [List.find?_eq_none.2]
  · rfl
  · intro e he
    simpa using Meas.has_false.1 h e he

/-- Agreement with the measurements, qubit by qubit. -/
theorem agree_iff {m : Meas Q} (hm : (m.map Prod.fst).Nodup) (b : Q → Bool) :
    (∀ e ∈ m, b e.1 = e.2) ↔ ∀ q, m.has q = true → b q = val m q := by
  constructor
  · intro h q hq
    exact h _ (has_val hm hq)
  · intro h e he
    rw [h e.1 (has_iff.2 ⟨e.2, he⟩), val_eq hm he]

section
variable [Fintype Q]

theorem collapsed_phase {c : List (Gate Q)} {m : Meas Q} (h : isCollapsed c m = true) :
    ∀ g ∈ c, m.has g.target = false → g.isPhase = true := by
  unfold isCollapsed at h
  rw [decide_eq_true_eq] at h
  intro g hg hm
  have := h _ hm
  unfold isNonPhaseTarget at this
  rw [List.any_eq_false] at this
  have := this g hg
  simpa using this

/-- The first layer, when it leaves nothing to chance. -/
theorem collapse_zero_par {L : Layers Q} (h : Ok L) (h0 : sem L ≠ 0) :
    ∃ L', collapse 0 L = some L' ∧ Ok L' ∧ Par (sem L') (sem L) := by
  rw [collapse]
  have hf : L.1[0]?.getD [] = fn L.1 0 := rfl
  have hfm : L.2[0]?.getD [] = fn L.2 0 := rfl
  rw [hf, hfm]
  by_cases hc : isCollapsed (fn L.1 0) (fn L.2 0) = true
  · rw [if_pos hc]
    set m := fn L.2 0 with hm
    have hnd : (m.map Prod.fst).Nodup := h.nodup_fn 0
    set xs := (m.filter (·.2)).map Prod.fst with hxs
    have hxs' : (m.filter (·.2)).map (fun e => xGate e.1) = xs.map xGate := by rw [hxs, List.map_map]; rfl
    rw [hxs']
    have hnx : xs.Nodup := hnd.sublist (List.Sublist.map _ List.filter_sublist)
    obtain ⟨c', e1, e2, e3⟩ := appendAllTo_spec false (c := []) (xs.map xGate) (by simp)
      (by intro g hg; obtain ⟨q, _, rfl⟩ := List.mem_map.1 hg; exact xGate_wf q)
    rw [e1]
    have hmem : ∀ q, q ∈ xs ↔ Meas.has m q = true ∧ val m q = true := by
      intro q
      rw [hxs, List.mem_map]
      constructor
      · rintro ⟨e, he, rfl⟩
        have h1 := List.mem_filter.1 he
        exact ⟨has_iff.2 ⟨e.2, h1.1⟩, by rw [val_eq hnd h1.1]; exact h1.2⟩
      · rintro ⟨h1, h2⟩
        exact ⟨_, List.mem_filter.2 ⟨has_val hnd h1, h2⟩, rfl⟩
    obtain ⟨n, hn⟩ : ∃ n, L.1.length = n + 1 := ⟨L.1.length - 1, by have := h.pos; omega⟩
    refine ⟨_, rfl, ⟨by simp only [List.length_set]; exact h.pos, by simp only [List.length_set]; exact h.le,
      by simp only [List.length_set]; exact h.ge, ?_, h.nodup⟩, ?_⟩
    · intro c hcc
      rcases List.mem_or_eq_of_mem_set hcc with hcc | rfl
      · exact h.wf c hcc
      · exact e2
    · unfold sem at h0 ⊢
      simp only [List.length_set]
      rw [hn] at h0 ⊢
      simp only [lay] at h0 ⊢
      have hpos := h.pos
      rw [fn_set, if_pos ⟨rfl, hpos⟩]
      rw [lay_congr (a := 0 + 1) (n := n) (C' := fn L.1) (M' := fn L.2)
        (fun i hi _ => ⟨by rw [fn_set, if_neg (by omega)], rfl⟩)]
      refine lay_par _ _ _ _ ?_
      rw [← hm] at h0 ⊢
      have hne := ne_of_lay h0
      refine (project_par m ((rayEq_par e3 zeroState).trans (Par.of_eq (by rw [List.nil_append])))).trans ?_
      -- both are multiples of one basis state
      have hfix : Fix (fun q => Meas.has m q = false) (fun _ => false) (run (fn L.1 0) zeroState) := by
        refine run_fix _ (collapsed_phase hc) ?_
        intro b hb q _
        unfold zeroState at hb
        by_contra hq
        exact hb (if_neg fun hall => hq (hall q))
      have hsup : ∀ b, project m (run (fn L.1 0) zeroState) b ≠ 0 → b = val m := by
        intro b hb
        rw [project_apply] at hb
        by_cases ha : ∀ e ∈ m, b e.1 = e.2
        · rw [if_pos ha] at hb
          rw [agree_iff hnd] at ha
          funext q
          by_cases hq : Meas.has m q = true
          · exact ha q hq
          · have hq : Meas.has m q = false := by simpa using hq
            rw [hfix b hb q hq, val_not hq]
        · rw [if_neg ha] at hb; exact absurd rfl hb
      have hnew : project m (run (xs.map xGate) zeroState) = fun b => if b = val m then 1 else 0 := by
        funext b
        rw [project_apply, run_xGates _ hnx]
        unfold zeroState
        by_cases hb : b = val m
        · rw [if_pos hb, if_pos, if_pos]
          · intro q
            rw [hb]
            by_cases hq : Meas.has m q = true
            · cases hv : val m q <;> simp [hmem, hq, hv]
            · simp [hmem, hq, val_not (by simpa using hq)]
          · rw [hb]
            exact fun e he => val_eq hnd he
        · rw [if_neg hb]
          split
          · rename_i ha
            rw [if_neg]
            intro hall
            refine hb (funext fun q => ?_)
            have := hall q
            by_cases hq : q ∈ xs
            · simp [hq] at this
              rw [this, ((hmem q).1 hq).2]
            · simp [hq] at this
              rw [this]
              by_cases hh : Meas.has m q = true
              · cases hv : val m q
                · rfl
                · exact absurd ((hmem q).2 ⟨hh, hv⟩) hq
              · rw [val_not (by simpa using hh)]
          · rfl
      rw [hnew]
      obtain ⟨b0, hb0⟩ := Function.ne_iff.1 hne
      have hb1 := hsup b0 hb0
      subst hb1
      refine Par.symm ⟨project m (run (fn L.1 0) zeroState) (val m), hb0, ?_⟩
      funext b
      by_cases hb : b = val m
      · simp only [hb, if_true, mul_one]
      · simp only [if_neg hb, mul_zero]
        by_contra hn
        exact hb (hsup b hn)
  · rw [if_neg hc]
    exact ⟨L, rfl, h, Par.refl _⟩

end

/-! ### Gates within the measured qubits -/

/-- `A` only looks at the qubits in `D`. -/
def Within (D : Q → Prop) (A : St Q) : Prop := ∀ b b', (∀ q, D q → b q = b' q) → A b = A b'

theorem key_within {D : Q → Prop} {cs : List Q} (h : ∀ c ∈ cs, D c) {b b' : Q → Bool} (hb : ∀ q, D q → b q = b' q) :
    key cs b = key cs b' := by
  induction cs with
  | nil => rfl
  | cons c cs ih =>
    rw [key, key, hb c (h c (by simp)), ih fun x hx => h x (List.mem_cons_of_mem _ hx)]

theorem act_within {D : Q → Prop} {g : Gate Q} (hg : g.In D) {A : St Q} (h : Within D A) : Within D (g.act A) := by
  intro b b' hb
  rw [act_apply, act_apply, key_within hg.2 hb]
  have hu : ∀ x, A (Function.update b g.target x) = A (Function.update b' g.target x) := by
    intro x
    refine h _ _ fun q hq => ?_
    by_cases e : q = g.target
    · rw [e, Function.update_self, Function.update_self]
    · rw [Function.update_of_ne e, Function.update_of_ne e, hb q hq]
  split
  · exact h _ _ hb
  · unfold onQubit
    rw [hb _ hg.1, hu, hu]

/-- The other qubits keep their state, in product form. -/
theorem act_product {D : Q → Prop} {g : Gate Q} (hg : g.In D) (A : St Q) (φ : St Q)
    (hφ : ∀ b q x, D q → φ (Function.update b q x) = φ b) :
    g.act (fun b => A b * φ b) = fun b => g.act A b * φ b := by
  funext b
  rw [act_apply, act_apply]
  split
  · rfl
  · unfold onQubit
    simp only [hφ _ _ _ hg.1]
    split <;> ring

theorem run_product {D : Q → Prop} (c : List (Gate Q)) (hc : ∀ g ∈ c, g.In D) (A : St Q) (hA : Within D A) (φ : St Q)
    (hφ : ∀ b q x, D q → φ (Function.update b q x) = φ b) :
    run c (fun b => A b * φ b) = (fun b => run c A b * φ b) ∧ Within D (run c A) := by
  induction c generalizing A with
  | nil => exact ⟨rfl, hA⟩
  | cons g c ih =>
    rw [run_cons, run_cons, act_product (hc g (by simp)) A φ hφ]
    exact ih (fun x hx => hc x (List.mem_cons_of_mem _ hx)) _ (act_within (hc g (by simp)) hA)

open Classical in
/-- A circuit between two measurement layers is replaced by flips. -/
theorem flips_par {c : List (Gate Q)} {m m1 : Meas Q} (hm : (m.map Prod.fst).Nodup) (hm1 : (m1.map Prod.fst).Nodup)
    (hph : ∀ g ∈ c, m.has g.target = false → g.isPhase = true) (hin : ∀ g ∈ c, g.In fun q => m1.has q = true)
    (φ : St Q) (hne : project m (run c (project m1 φ)) ≠ 0) :
    Par (project (m.insertAll m1) (run (((m.filter fun e => m1.has e.1 && !(m1.contains e)).map Prod.fst).map xGate) φ))
      (project m (run c (project m1 φ))) := by
  set D : Q → Prop := fun q => m1.has q = true with hD
  set ov : (Q → Bool) → (Q → Bool) := fun b q => if m1.has q = true then val m1 q else b q with hov
  set A0 : St Q := fun b => if ∀ q, D q → b q = val m1 q then 1 else 0 with hA0
  have h1 : project m1 φ = fun b => A0 b * φ (ov b) := by
    funext b
    rw [project_apply]
    by_cases hb : ∀ e ∈ m1, b e.1 = e.2
    · rw [if_pos hb]
      rw [agree_iff hm1] at hb
      have : ov b = b := by
        funext q; rw [hov]; simp only []
        by_cases hq : m1.has q = true
        · rw [if_pos hq, hb q hq]
        · rw [if_neg hq]
      rw [this, hA0]; simp only []
      rw [if_pos hb, one_mul]
    · rw [if_neg hb, hA0]; simp only []
      rw [agree_iff hm1] at hb
      rw [if_neg hb, zero_mul]
  have hA0w : Within D A0 := by
    intro b b' hb
    rw [hA0]; simp only []
    refine if_congr ⟨fun h q hq => by rw [← hb q hq, h q hq], fun h q hq => by rw [hb q hq, h q hq]⟩ rfl rfl
  have hφ : ∀ b q x, D q → φ (ov (Function.update b q x)) = φ (ov b) := by
    intro b q x hq
    congr 1
    funext p
    rw [hov]; simp only []
    by_cases hp : m1.has p = true
    · rw [if_pos hp, if_pos hp]
    · rw [if_neg hp, if_neg hp, Function.update_of_ne]
      rintro rfl; exact hp hq
  obtain ⟨hrun, hw⟩ := run_product c hin A0 hA0w (fun b => φ (ov b)) hφ
  rw [h1, hrun] at hne ⊢
  have hfix : Fix (fun q => D q ∧ m.has q = false) (val m1) (run c A0) := by
    refine run_fix c (fun g hg hk => hph g hg hk.2) ?_
    intro b hb q hq
    by_contra hn
    exact hb (by rw [hA0]; exact if_neg fun h => hn (h q hq.1))
  -- the values after the second measurement
  set w : Q → Bool := fun q => if m.has q = true then val m q else val m1 q with hw'
  have hval : ∀ b, project m (fun b => run c A0 b * φ (ov b)) b =
      if ∀ q, (m.has q = true ∨ D q) → b q = w q then run c A0 w * φ (ov b) else 0 := by
    intro b
    rw [project_apply]
    by_cases hb : ∀ e ∈ m, b e.1 = e.2
    · rw [if_pos hb]
      rw [agree_iff hm] at hb
      by_cases hb2 : ∀ q, D q → m.has q = false → b q = val m1 q
      · have hall : ∀ q, (m.has q = true ∨ D q) → b q = w q := by
          intro q hq
          rw [hw']; simp only []
          by_cases h2 : m.has q = true
          · rw [if_pos h2, hb q h2]
          · rw [if_neg h2, hb2 q (hq.resolve_left h2) (by simpa using h2)]
        rw [if_pos hall, hw b w fun q hq => hall q (Or.inr hq)]
      · rw [if_neg]
        · by_contra hn
          exact hb2 fun q h2 h3 => hfix b (left_ne_zero_of_mul hn) q ⟨h2, h3⟩
        · intro hall
          refine hb2 fun q h2 h3 => ?_
          rw [hall q (Or.inr h2), hw']; simp only []
          rw [if_neg (by simp [h3])]
    · rw [if_neg hb, if_neg]
      rw [agree_iff hm] at hb
      intro hall
      refine hb fun q hq => ?_
      rw [hall q (Or.inl hq), hw']; simp only []
      rw [if_pos hq]
  have hκ : run c A0 w ≠ 0 := by
    intro e
    refine hne (funext fun b => ?_)
    rw [hval, e]; simp
  refine ⟨(run c A0 w)⁻¹, inv_ne_zero hκ, ?_⟩
  funext b
  rw [hval]
  set fl := (m.filter fun e => m1.has e.1 && !(m1.contains e)).map Prod.fst with hfl
  have hfn : fl.Nodup := hm.sublist (List.Sublist.map _ List.filter_sublist)
  have hmem : ∀ q, q ∈ fl ↔ m.has q = true ∧ m1.has q = true ∧ val m q ≠ val m1 q := by
    intro q
    rw [hfl, List.mem_map]
    constructor
    · rintro ⟨e, he, rfl⟩
      obtain ⟨h2, h3⟩ := List.mem_filter.1 he
      simp only [Bool.and_eq_true, Bool.not_eq_true', List.contains_eq_mem, decide_eq_false_iff_not] at h3
      refine ⟨has_iff.2 ⟨e.2, h2⟩, h3.1, fun h4 => h3.2 ?_⟩
      rw [val_eq hm h2] at h4
      have := has_val hm1 h3.1
      rw [← h4] at this
      exact this
    · rintro ⟨h2, h3, h4⟩
      refine ⟨_, List.mem_filter.2 ⟨has_val hm h2, ?_⟩, rfl⟩
      simp only [Bool.and_eq_true, Bool.not_eq_true', List.contains_eq_mem, decide_eq_false_iff_not]
      exact ⟨h3, fun h5 => h4 (val_eq hm1 h5).symm⟩
  rw [project_apply, run_xGates _ hfn]
  have hag : (∀ e ∈ m.insertAll m1, b e.1 = e.2) ↔ ∀ q, (m.has q = true ∨ D q) → b q = w q := by
    unfold Meas.insertAll
    constructor
    · intro h q hq
      rw [hw']; simp only []
      by_cases h2 : m.has q = true
      · rw [if_pos h2]
        exact h (q, val m q) (List.mem_append_left _ (has_val hm h2))
      · rw [if_neg h2]
        exact h (q, val m1 q) (List.mem_append_right _ (List.mem_filter.2 ⟨has_val hm1 (hq.resolve_left h2), by simpa using h2⟩))
    · intro h e he
      rcases List.mem_append.1 he with he | he
      · have h2 : m.has e.1 = true := has_iff.2 ⟨e.2, he⟩
        rw [h e.1 (Or.inl h2), hw']; simp only []
        rw [if_pos h2, val_eq hm he]
      · obtain ⟨h3, h4⟩ := List.mem_filter.1 he
        have h2 : ¬ m.has e.1 = true := by simpa using h4
        rw [h e.1 (Or.inr (has_iff.2 ⟨e.2, h3⟩)), hw']; simp only []
        rw [if_neg h2, val_eq hm1 h3]
  by_cases hb : ∀ q, (m.has q = true ∨ D q) → b q = w q
  · rw [if_pos hb, if_pos (hag.2 hb), ← mul_assoc, inv_mul_cancel₀ hκ, one_mul]
    congr 1
    funext q
    rw [hov]; simp only []
    by_cases hq : m1.has q = true
    · rw [if_pos hq, hb q (Or.inr hq), hw']; simp only []
      by_cases h2 : m.has q = true
      · rw [if_pos h2]
        by_cases h3 : val m q = val m1 q
        · have : ¬ q ∈ fl := fun h => ((hmem q).1 h).2.2 h3
          simp [this, h3]
        · have : q ∈ fl := (hmem q).2 ⟨h2, hq, h3⟩
          simp only [this, decide_true]
          revert h3; cases val m q <;> cases val m1 q <;> simp
      · rw [if_neg h2]
        have : ¬ q ∈ fl := fun h => h2 ((hmem q).1 h).1
        simp [this]
    · rw [if_neg hq]
      have : ¬ q ∈ fl := fun h => hq ((hmem q).1 h).2.1
      simp [this]
  · rw [if_neg hb, if_neg (fun h => hb (hag.1 h)), mul_zero]

theorem insertAll_nodup {m m1 : Meas Q} (hm : (m.map Prod.fst).Nodup) (hm1 : (m1.map Prod.fst).Nodup) :
    ((m.insertAll m1).map Prod.fst).Nodup := by
  unfold Meas.insertAll
  rw [List.map_append, List.nodup_append]
  refine ⟨hm, hm1.sublist (List.Sublist.map _ List.filter_sublist), ?_⟩
  rintro q hq p hp rfl
  obtain ⟨e, he, rfl⟩ := List.mem_map.1 hq
  obtain ⟨f, hf, hfe⟩ := List.mem_map.1 hp
  have h1 := (List.mem_filter.1 hf).2
  have h2 : m.has f.1 = true := has_iff.2 ⟨e.2, by rw [hfe]; exact he⟩
  simp [h2] at h1

variable [Fintype Q]

/-- Every circuit that is erased acts only on qubits measured in the layer before. -/
def CollapseOk : ℕ → Layers Q → Prop
  | 0, _ => True
  | k + 1, L =>
    isCollapsed (fn L.1 (k + 1)) (fn L.2 (k + 1)) = true →
      (∀ g ∈ fn L.1 (k + 1), g.In fun q => Meas.has (fn L.2 k) q = true) ∧
      ∀ c, appendAllTo false (fn L.1 k) (((fn L.2 (k + 1)).filter fun e =>
          Meas.has (fn L.2 k) e.1 && !((fn L.2 k).contains e)).map fun e => xGate e.1) = some c →
        CollapseOk k ((L.1.eraseIdx (k + 1)).set k c,
          (L.2.set (k + 1) (Meas.insertAll (fn L.2 (k + 1)) (fn L.2 k))).eraseIdx k)

theorem collapse_par (k : ℕ) {L : Layers Q} (h : Ok L) (hk : k < L.2.length) (hok : CollapseOk k L) (h0 : sem L ≠ 0) :
    ∃ L', collapse k L = some L' ∧ Ok L' ∧ Par (sem L') (sem L) := by
  induction k generalizing L with
  | zero => exact collapse_zero_par h h0
  | succ k ih =>
    rw [collapse]
    have hf : L.1[k + 1]?.getD [] = fn L.1 (k + 1) := rfl
    have hfm : L.2[k + 1]?.getD [] = fn L.2 (k + 1) := rfl
    have hfm1 : L.2[k]?.getD [] = fn L.2 k := rfl
    simp only []
    rw [hf, hfm, hfm1]
    by_cases hc : isCollapsed (fn L.1 (k + 1)) (fn L.2 (k + 1)) = true
    · rw [if_pos hc]
      rw [CollapseOk] at hok
      obtain ⟨hin, hnext⟩ := hok hc
      have hle := h.le
      have hlast : (L.1.eraseIdx (k + 1))[k]?.getD [] = fn L.1 k := by
        have : (L.1.eraseIdx (k + 1))[k]?.getD [] = fn (L.1.eraseIdx (k + 1)) k := rfl
        rw [this, fn_eraseIdx, if_pos (by omega)]
      rw [hlast]
      set m := fn L.2 (k + 1) with hm
      set m1 := fn L.2 k with hm1
      have hfl : ((m.filter fun e => Meas.has m1 e.1 && !(m1.contains e)).map fun e => xGate e.1) =
          ((m.filter fun e => Meas.has m1 e.1 && !(m1.contains e)).map Prod.fst).map xGate := by rw [List.map_map]; rfl
      obtain ⟨c', e1, e2, e3⟩ := appendAllTo_spec false (c := fn L.1 k)
        ((m.filter fun e => Meas.has m1 e.1 && !(m1.contains e)).map fun e => xGate e.1) (h.wf_fn k)
        (by intro g hg; obtain ⟨q, _, rfl⟩ := List.mem_map.1 hg; exact xGate_wf _)
      rw [e1]
      have hnm := h.nodup_fn (k + 1)
      have hnm1 := h.nodup_fn k
      rw [← hm] at hnm
      rw [← hm1] at hnm1
      have hl1 : ((L.1.eraseIdx (k + 1)).set k c').length = L.1.length - 1 := by
        rw [List.length_set, List.length_eraseIdx, if_pos (by omega)]
      have hl2 : ((L.2.set (k + 1) (Meas.insertAll m m1)).eraseIdx k).length = L.2.length - 1 := by
        rw [List.length_eraseIdx, List.length_set, if_pos (by omega)]
      have hC : fn ((L.1.eraseIdx (k + 1)).set k c') =
          fun i => if i < k then fn L.1 i else if i = k then c' else fn L.1 (i + 1) := by
        funext i
        rw [fn_set, fn_eraseIdx, List.length_eraseIdx, if_pos (show k + 1 < L.1.length by omega)]
        by_cases h1 : i < k
        · rw [if_neg (by omega), if_pos (by omega), if_pos h1]
        · rw [if_neg h1]
          by_cases h2 : i = k
          · rw [if_pos ⟨h2, by omega⟩, if_pos h2]
          · rw [if_neg (by omega), if_neg (by omega), if_neg h2]
      have hM : fn ((L.2.set (k + 1) (Meas.insertAll m m1)).eraseIdx k) =
          fun i => if i < k then fn L.2 i else if i = k then Meas.insertAll m m1 else fn L.2 (i + 1) := by
        funext i
        rw [fn_eraseIdx, fn_set, fn_set]
        by_cases h1 : i < k
        · rw [if_pos h1, if_neg (by omega), if_pos h1]
        · rw [if_neg h1, if_neg h1]
          by_cases h2 : i = k
          · rw [if_pos (by omega), if_pos h2]
          · rw [if_neg (by omega), if_neg h2]
      have hok' : Ok ((L.1.eraseIdx (k + 1)).set k c', (L.2.set (k + 1) (Meas.insertAll m m1)).eraseIdx k) := by
        have hge := h.ge
        refine ⟨by simp only [hl1]; omega, by simp only [hl1, hl2]; omega, by simp only [hl1, hl2]; omega, ?_, ?_⟩
        · intro c hcc
          rcases List.mem_or_eq_of_mem_set hcc with hcc | rfl
          · exact h.wf c (List.mem_of_mem_eraseIdx hcc)
          · exact e2
        · intro x hx
          rcases List.mem_or_eq_of_mem_set (List.mem_of_mem_eraseIdx hx) with hx | rfl
          · exact h.nodup x hx
          · exact insertAll_nodup hnm hnm1
      have hpar : Par (sem ((L.1.eraseIdx (k + 1)).set k c', (L.2.set (k + 1) (Meas.insertAll m m1)).eraseIdx k)) (sem L) := by
        unfold sem at h0 ⊢
        simp only [hl1]
        obtain ⟨d, hd⟩ : ∃ d, L.1.length = k + (2 + d) := ⟨L.1.length - (k + 2), by omega⟩
        rw [hd, show k + (2 + d) - 1 = k + (1 + d) by omega]
        rw [hd] at h0
        rw [lay_add _ _ 0 k (2 + d), Nat.zero_add, lay_add _ _ k 2 d] at h0 ⊢
        rw [lay_add _ _ 0 k (1 + d), Nat.zero_add, lay_add _ _ k 1 d]
        simp only [lay] at h0 ⊢
        rw [hC, hM]
        simp only [lt_irrefl, if_false, if_true]
        rw [lay_congr (a := 0) (n := k) (C' := fn L.1) (M' := fn L.2)
          (fun i _ hi => ⟨if_pos (by omega), if_pos (by omega)⟩)]
        generalize lay (fn L.1) (fn L.2) 0 k zeroState = χ at h0 ⊢
        have hpost : ∀ ψ, lay (fun i => if i < k then fn L.1 i else if i = k then c' else fn L.1 (i + 1))
            (fun i => if i < k then fn L.2 i else if i = k then Meas.insertAll m m1 else fn L.2 (i + 1)) (k + 1) d ψ =
            lay (fn L.1) (fn L.2) (k + 2) d ψ := by
          intro ψ
          rw [← lay_shift (fn L.1) (fn L.2) 1 (k + 1) d]
          exact lay_congr (fun i hi _ => ⟨by rw [if_neg (by omega), if_neg (by omega)],
            by rw [if_neg (by omega), if_neg (by omega)]⟩) _
        rw [hpost]
        refine lay_par _ _ _ _ ?_
        rw [← hm, ← hm1] at h0 ⊢
        have hne := ne_of_lay h0
        refine (project_par _ (rayEq_par e3 χ)).trans ?_
        rw [run_append, hfl]
        exact flips_par hnm hnm1 (collapsed_phase hc) hin _ hne
      obtain ⟨L', f1, f2, f3⟩ := ih hok' (by simp only [hl2]; omega) (hnext c' e1) (hpar.symm.ne_zero h0)
      exact ⟨L', f1, f2, f3.trans hpar⟩
    · rw [if_neg hc]
      exact ⟨L, rfl, h, Par.refl _⟩

end Verif.TN
