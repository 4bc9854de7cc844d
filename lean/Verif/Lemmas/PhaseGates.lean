import Verif.Lemmas.PhasePost

/-!
Each gate of `QUnit` takes the state that the unit stands for to the state after the gate.
-/

namespace Verif.Phase

open Verif.Matrix2 Verif.Spec.Circuit

variable {Q : Type} [DecidableEq Q] {ord : List Q}

/-! ### Conjugation -/

theorem conj_target {p : (Q → Bool) → Bool} {t : Q} (hp : Indep p t) {a a' g : Mtrx} (h : mmul a' g = mmul g a)
    (ψ : St Q) : onWhen p t a' (onQubit t g ψ) = onQubit t g (onWhen p t a ψ) := by
  have hi : Indep (fun _ : Q → Bool => true) t := fun _ _ => rfl
  funext s
  by_cases hs : p s = true
  · have e1 : onWhen p t a' (onQubit t g ψ) s = onWhen (fun _ => true) t a' (onWhen (fun _ => true) t g ψ) s := by
      rw [onWhen_true, onWhen_true]; unfold onWhen; rw [if_pos hs]
    have e2 : onQubit t g (onWhen p t a ψ) s = onWhen (fun _ => true) t g (onWhen (fun _ => true) t a ψ) s := by
      rw [onWhen_true, onWhen_true]
      unfold onWhen
      conv_lhs => unfold onQubit
      conv_rhs => unfold onQubit
      simp only [hp s, hs, if_true]
    rw [e1, e2, onWhen_mul hi, onWhen_mul hi, h]
  · unfold onWhen
    rw [if_neg hs]
    conv_lhs => unfold onQubit
    conv_rhs => unfold onQubit
    simp only [hp s, hs, if_false, Bool.false_eq_true]

theorem onQubit_anti (t : Q) (x y : ℂ) (ψ : St Q) (s : Q → Bool) :
    onQubit t ⟨0, x, y, 0⟩ ψ s = (if s t then y else x) * ψ (Function.update s t (!(s t))) := by
  rcases Bool.eq_false_or_eq_true (s t) with h | h
  · rw [onQubit_true h]; simp [h]
  · rw [onQubit_false h]; simp [h]

theorem bufMtrx_swapped (a : Bool) (b : PhaseShard) : bufMtrx (!a) b.swapped = bufMtrx a b := by
  rcases b with ⟨d, s, i⟩
  cases a <;> cases i <;> rfl

theorem conj_control {k : Key Q} (hk : k.ctrl ≠ k.tgt) (b : PhaseShard) (x y : ℂ) (ψ : St Q) :
    op { k with anti := !k.anti } b.swapped (onQubit k.ctrl ⟨0, x, y, 0⟩ ψ) =
      onQubit k.ctrl ⟨0, x, y, 0⟩ (op k b ψ) := by
  funext s
  rw [onQubit_anti]
  unfold op onWhen
  simp only [bufMtrx_swapped, Function.update_self]
  generalize bufMtrx k.anti b = g
  by_cases hc : s k.ctrl = k.anti
  · simp only [hc, Bool.not_not, beq_self_eq_true, if_true]
    unfold onQubit
    simp only [Function.update_of_ne hk, Function.update_of_ne hk.symm, hc, Function.update_self,
      Function.update_comm hk]
    cases k.anti <;> simp only [Bool.false_eq_true, if_false, if_true, Bool.not_true, Bool.not_false] <;> split <;> ring
  · have hc' : s k.ctrl = !k.anti := by
      revert hc; cases s k.ctrl <;> cases k.anti <;> simp
    simp only [hc', Bool.not_not]
    have e1 : ((!k.anti) == k.anti) = false := by cases k.anti <;> rfl
    have e2 : (k.anti == !k.anti) = false := by cases k.anti <;> rfl
    rw [e1, e2]
    simp only [Bool.false_eq_true, if_false]
    rw [onQubit_anti, hc', Bool.not_not]

theorem onQubit_op {k : Key Q} {b : PhaseShard} {t : Q} (h1 : k.ctrl ≠ t) (h2 : k.tgt ≠ t) (g : Mtrx) (ψ : St Q) :
    onQubit t g (op k b ψ) = op k b (onQubit t g ψ) := by
  rw [← onWhen_true, ← onWhen_true]
  exact onWhen_op h1 h2 (fun _ _ _ => rfl) g ψ

/-! ### The invariant under a change of entries -/

theorem Inv.of {m m' : Bufs Q} (h : Inv m) (σ : Key Q → Key Q) (hσ : Function.Injective σ)
    (hc : ∀ k, (σ k).ctrl = k.ctrl) (ht : ∀ k, (σ k).tgt = k.tgt)
    (hm : ∀ k b', m' k = some b' → ∃ b, m (σ k) = some b ∧ (b'.inv = true → b.inv = true) ∧ ‖b'.diff‖ = 1 ∧ ‖b'.same‖ = 1) :
    Inv m' := by
  refine ⟨?_, ?_, ?_⟩
  · intro k b' e
    obtain ⟨b, e', _⟩ := hm k b' e
    have := h.ne _ _ e'
    rwa [hc, ht] at this
  · intro k b' e
    obtain ⟨b, _, _, h⟩ := hm k b' e
    exact h
  · intro k b e hi k' b' e' hne
    obtain ⟨c, f, fi, _⟩ := hm k b e
    obtain ⟨c', f', _, _⟩ := hm k' b' e'
    have := h.alone _ _ f (fi hi) _ _ f' (fun hh => hne (hσ hh))
    rwa [hc, ht, ht] at this

theorem Inv.of_id {m m' : Bufs Q} (h : Inv m)
    (hm : ∀ k b', m' k = some b' → ∃ b, m k = some b ∧ (b'.inv = true → b.inv = true) ∧ ‖b'.diff‖ = 1 ∧ ‖b'.same‖ = 1) :
    Inv m' :=
  h.of id Function.injective_id (fun _ => rfl) (fun _ => rfl) hm

/-! ### `Phase` -/

theorem phaseConj_inv (a : Bool) (x y : ℂ) (b : PhaseShard) : (phaseConj a x y b).inv = b.inv := by
  unfold phaseConj
  split
  · split <;> rfl
  · rfl

theorem phaseConj_unit {a : Bool} {x y : ℂ} (hx : ‖x‖ = 1) (hy : ‖y‖ = 1) {b : PhaseShard}
    (h : ‖b.diff‖ = 1 ∧ ‖b.same‖ = 1) : ‖(phaseConj a x y b).diff‖ = 1 ∧ ‖(phaseConj a x y b).same‖ = 1 := by
  unfold phaseConj
  split
  · split <;> simp [h.1, h.2, hx, hy]
  · exact h

theorem inv_commutePhase (ho : Order ord) {m : Bufs Q} (h : Inv m) {x y : ℂ} (hx : ‖x‖ = 1) (hy : ‖y‖ = 1) (t : Q) :
    Inv (commutePhase ord t x y m) := by
  refine h.of_id fun k b' e => ?_
  rw [commutePhase_at ho (h.uniform t)] at e
  split at e
  · cases e0 : m k with
    | none => rw [e0] at e; cases e
    | some b =>
      rw [e0] at e
      obtain rfl := Option.some.inj e
      exact ⟨b, rfl, fun hi => by rwa [phaseConj_inv] at hi, phaseConj_unit hx hy (h.unit k b e0)⟩
  · exact ⟨b', e, id, h.unit k b' e⟩

theorem ne_zero_of_norm {x : ℂ} (h : ‖x‖ = 1) : x ≠ 0 := by
  rintro rfl; simp at h

theorem phase_conj {k : Key Q} (hk : k.ctrl ≠ k.tgt) {b : PhaseShard} {x y : ℂ} (hx : x ≠ 0) (hy : y ≠ 0) (ψ : St Q) :
    op k (phaseConj k.anti x y b) (onQubit k.tgt ⟨x, 0, 0, y⟩ ψ) = onQubit k.tgt ⟨x, 0, 0, y⟩ (op k b ψ) := by
  refine conj_target (indep_ctrl hk) ?_ ψ
  rcases b with ⟨d, s, i⟩
  cases i <;> cases k.anti <;> simp [phaseConj, bufMtrx, mmul] <;> constructor <;> field_simp

theorem pending_commutePhase (ho : Order ord) {m : Bufs Q} (h : Inv m) {x y : ℂ} (hx : ‖x‖ = 1) (hy : ‖y‖ = 1) (t : Q)
    (ψ : St Q) : pending ord (commutePhase ord t x y m) (onQubit t ⟨x, 0, 0, y⟩ ψ) =
      onQubit t ⟨x, 0, 0, y⟩ (pending ord m ψ) := by
  refine pending_conj ho (inv_commutePhase ho h hx hy t) id Function.injective_id Function.surjective_id
    (onQubit t ⟨x, 0, 0, y⟩) (fun k ψ => ?_) ψ
  rw [id, commutePhase_at ho (h.uniform t)]
  cases e : m k with
  | none => split <;> rfl
  | some b =>
    have hk := h.ne k b e
    split
    · rename_i ht
      subst ht
      exact phase_conj hk (ne_zero_of_norm hx) (ne_zero_of_norm hy) ψ
    · rename_i ht
      show op k b _ = onQubit t _ (op k b ψ)
      rw [← onWhen_true, ← onWhen_true]
      exact (onWhen_diagonal_op (fun _ => ⟨fun _ _ => rfl, ht⟩) ψ).symm

/-- The unit's state and its invariant after a gate. -/
def Does (ord : List Q) (G : St Q → St Q) (u u' : QUnit Q) : Prop := Inv u'.bufs ∧ state ord u' = G (state ord u)

theorem GoodU.does {u u' u'' : QUnit Q} {G : St Q → St Q} (h : GoodU ord u u') (h' : Does ord G u' u'') :
    Does ord G u u'' := ⟨h'.1, by rw [h'.2, h.2]⟩

theorem Does.good {u u' u'' : QUnit Q} {G : St Q → St Q} (h : Does ord G u u') (h' : GoodU ord u' u'') :
    Does ord G u u'' := ⟨h'.1, by rw [h'.2, h.2]⟩

theorem goodU_revertAll (ho : Order ord) {u : QUnit Q} (h : Inv u.bufs) (i : Q) : GoodU ord u (revertAll ord i u) :=
  goodU_revert ho h i _ _ _ _ _ _

theorem goodU_revertInvertTargets (ho : Order ord) {u : QUnit Q} (h : Inv u.bufs) (i : Q) :
    GoodU ord u (revertInvertTargets ord i u) :=
  goodU_revert ho h i _ _ _ _ _ _

/-- A gate on a qubit that no buffer involves. -/
theorem does_free (ho : Order ord) {u : QUnit Q} (h : Inv u.bufs) {t : Q}
    (hf : ∀ k, k.ctrl = t ∨ k.tgt = t → u.bufs k = none) (p : (Q → Bool) → Bool)
    (hp : ∀ k b, u.bufs k = some b → b.inv = true → Indep p k.tgt) (g : Mtrx) :
    Does ord (onWhen p t g) u { u with base := onWhen p t g u.base } := by
  refine ⟨h, ?_⟩
  refine pending_through ho h (onWhen p t g) (fun k b e ψ => ?_) u.base
  have h1 : k.ctrl ≠ t := fun hh => by rw [hf k (Or.inl hh)] at e; cases e
  have h2 : k.tgt ≠ t := fun hh => by rw [hf k (Or.inr hh)] at e; cases e
  exact (onWhen_op h1 h2 (hp k b e) g ψ).symm

/-- A diagonal gate on a qubit that no buffer inverts. -/
theorem does_diag (ho : Order ord) {u : QUnit Q} (h : Inv u.bufs) {t : Q} (p : (Q → Bool) → Bool)
    (hp : ∀ k b, u.bufs k = some b → b.inv = true → Indep p k.tgt ∧ k.tgt ≠ t) (x y : ℂ) :
    Does ord (onWhen p t ⟨x, 0, 0, y⟩) u { u with base := onWhen p t ⟨x, 0, 0, y⟩ u.base } :=
  ⟨h, pending_through ho h (onWhen p t ⟨x, 0, 0, y⟩) (fun k b e ψ => (onWhen_diagonal_op (hp k b e) ψ).symm) u.base⟩

theorem does_revertAll_gate (ho : Order ord) {u : QUnit Q} (h : Inv u.bufs) (t : Q) (g : Mtrx) :
    Does ord (onQubit t g) u { revertAll ord t u with base := onQubit t g (revertAll ord t u).base } := by
  have h1 := goodU_revertAll ho h t
  refine h1.does ?_
  have := does_free ho h1.1 (revertAll_post ho u t) (fun _ => true) (fun _ _ _ _ _ _ => rfl) g
  have e : onWhen (fun _ => true) t g = onQubit t g := by funext ψ; exact onWhen_true t g ψ
  rwa [e] at this

theorem does_phase (ho : Order ord) {u : QUnit Q} (h : Inv u.bufs) (clifford : Bool) {x y : ℂ} (hx : ‖x‖ = 1)
    (hy : ‖y‖ = 1) (t : Q) : Does ord (onQubit t ⟨x, 0, 0, y⟩) u (gatePhase ord clifford x y t u) := by
  unfold gatePhase
  cases clifford
  · exact ⟨inv_commutePhase ho h hx hy t, pending_commutePhase ho h hx hy t u.base⟩
  · exact does_revertAll_gate ho h t _

theorem does_mtrx (ho : Order ord) {u : QUnit Q} (h : Inv u.bufs) (g : Mtrx) (t : Q) :
    Does ord (onQubit t g) u (gateMtrx ord g t u) := does_revertAll_gate ho h t g

/-! ### `Invert` -/

/-- Exchange control and anti-control on the buffers that `t` controls. -/
def flipKey (t : Q) (k : Key Q) : Key Q := if k.ctrl = t then { k with anti := !k.anti } else k

theorem flipKey_flipKey (t : Q) (k : Key Q) : flipKey t (flipKey t k) = k := by
  rcases k with ⟨a, c, t'⟩
  unfold flipKey
  by_cases h : c = t <;> simp [h]

theorem flipKey_inj (t : Q) : Function.Injective (flipKey t) := fun a b h => by
  rw [← flipKey_flipKey t a, h, flipKey_flipKey]

theorem flipKey_ctrl (t : Q) (k : Key Q) : (flipKey t k).ctrl = k.ctrl := by unfold flipKey; split <;> rfl

theorem flipKey_tgt (t : Q) (k : Key Q) : (flipKey t k).tgt = k.tgt := by unfold flipKey; split <;> rfl

/-- The entry of `flipPhaseAnti`. -/
theorem flipPhaseAnti_flipKey (ho : Order ord) {m : Bufs Q} (h : Inv m) (t : Q) (k : Key Q) :
    flipPhaseAnti ord t m (flipKey t k) =
      if k.ctrl = t ∨ k.tgt = t then (m k).map PhaseShard.swapped else m k := by
  rw [flipPhaseAnti_at ho h, flipKey_ctrl, flipKey_tgt]
  by_cases hc : k.ctrl = t
  · rw [if_pos hc, if_pos (Or.inl hc)]
    unfold flipKey
    rw [if_pos hc, Bool.not_not]
  · rw [if_neg hc]
    unfold flipKey
    rw [if_neg hc]
    by_cases ht : k.tgt = t
    · rw [if_pos ht, if_pos (Or.inr ht)]
    · rw [if_neg ht, if_neg (by tauto)]

theorem inv_flipPhaseAnti (ho : Order ord) {m : Bufs Q} (h : Inv m) (t : Q) : Inv (flipPhaseAnti ord t m) := by
  refine h.of (flipKey t) (flipKey_inj t) (flipKey_ctrl t) (flipKey_tgt t) fun k b' e => ?_
  rw [← flipKey_flipKey t k, flipPhaseAnti_flipKey ho h] at e
  split at e
  · cases e0 : m (flipKey t k) with
    | none => rw [e0] at e; cases e
    | some b =>
      rw [e0] at e
      obtain rfl := Option.some.inj e
      exact ⟨b, rfl, id, (h.unit _ b e0).symm⟩
  · exact ⟨b', e, id, h.unit _ b' e⟩

theorem invert_conj {k : Key Q} (hk : k.ctrl ≠ k.tgt) {b : PhaseShard} {x y : ℂ} (hx : x ≠ 0) (hy : y ≠ 0) (ψ : St Q) :
    op k (phaseConj k.anti x y b.swapped) (onQubit k.tgt ⟨0, x, y, 0⟩ ψ) =
      onQubit k.tgt ⟨0, x, y, 0⟩ (op k b ψ) := by
  refine conj_target (indep_ctrl hk) ?_ ψ
  rcases b with ⟨d, s, i⟩
  cases i <;> cases k.anti <;> simp [phaseConj, bufMtrx, mmul, PhaseShard.swapped, mul_comm] <;> constructor <;> field_simp

theorem does_invert (ho : Order ord) {u : QUnit Q} (h : Inv u.bufs) (clifford : Bool) {x y : ℂ} (hx : ‖x‖ = 1)
    (hy : ‖y‖ = 1) (t : Q) : Does ord (onQubit t ⟨0, x, y, 0⟩) u (gateInvert ord clifford x y t u) := by
  unfold gateInvert
  cases clifford
  · have h1 := inv_flipPhaseAnti ho h t
    have h2 := inv_commutePhase ho h1 hx hy t
    refine ⟨h2, ?_⟩
    refine pending_conj ho h2 (flipKey t) (flipKey_inj t) (fun k => ⟨flipKey t k, flipKey_flipKey t k⟩)
      (onQubit t ⟨0, x, y, 0⟩) (fun k ψ => ?_) u.base
    rw [commutePhase_at ho (h1.uniform t), flipPhaseAnti_flipKey ho h, flipKey_tgt]
    cases e : u.bufs k with
    | none => split <;> split <;> rfl
    | some b =>
      have hk := h.ne k b e
      by_cases hc : k.ctrl = t
      · have ht : k.tgt ≠ t := fun hh => hk (hc.trans hh.symm)
        rw [if_neg ht, if_pos (Or.inl hc)]
        subst hc
        have : flipKey k.ctrl k = { k with anti := !k.anti } := by simp [flipKey]
        rw [this]
        exact conj_control hk b x y ψ
      · by_cases ht : k.tgt = t
        · rw [if_pos ht, if_pos (Or.inr ht)]
          subst ht
          have : flipKey k.tgt k = k := by simp [flipKey, hc]
          rw [this]
          exact invert_conj hk (ne_zero_of_norm hx) (ne_zero_of_norm hy) ψ
        · rw [if_neg ht, if_neg (by tauto)]
          have : flipKey t k = k := by simp [flipKey, hc]
          rw [this]
          exact (onQubit_op hc ht _ ψ).symm
  · exact does_revertAll_gate ho h t _

/-! ### `H` -/

theorem good_commuteHMove (ho : Order ord) {m : Bufs Q} (h : Inv m) (i : Q) : Good ord m (commuteHMove ord i m) := by
  have one : ‖(1 : ℂ)‖ = 1 := by simp
  have neg : ‖(-1 : ℂ)‖ = 1 := by simp
  unfold commuteHMove
  simp only []
  have h1 := good_fold (ord := ord) (l := ord) (f := fun m p =>
    match m ⟨false, i, p⟩ with
    | none => m
    | some b =>
      if b.inv = true then m
      else if b.diff = 1 ∧ b.same = -1 then addAngles (remove m ⟨false, i, p⟩) ⟨false, p, i⟩ 1 (-1)
      else if b.diff = -1 ∧ b.same = 1 then addAngles (remove m ⟨false, i, p⟩) ⟨true, p, i⟩ (-1) 1
      else m) h (fun m p h => by
    cases e : m ⟨false, i, p⟩ with
    | none => exact Good.refl h
    | some b =>
      simp only []
      split
      · exact Good.refl h
      · rename_i hc
        have hi : b.inv = false := by simpa using hc
        split
        · rename_i hd
          refine h.move ho e hi ⟨rfl, rfl⟩ one neg fun ψ => ?_
          rw [← phaseOp_flip hi hd.1, hd.2]
        · split
          · rename_i hd
            refine h.move ho e hi ⟨rfl, rfl⟩ neg one fun ψ => ?_
            rw [← phaseOp_flip_anti hi hd.2, hd.1]; rfl
          · exact Good.refl h)
  refine h1.trans (good_fold h1.1 fun m p h => ?_)
  cases e : m ⟨true, i, p⟩ with
  | none => exact Good.refl h
  | some b =>
    simp only []
    split
    · exact Good.refl h
    · rename_i hc
      have hi : b.inv = false := by simpa using hc
      split
      · rename_i hd
        refine h.move ho e hi ⟨rfl, rfl⟩ one neg fun ψ => ?_
        rw [← phaseOp_flip hi hd.1, hd.2]
      · split
        · rename_i hd
          refine h.move ho e hi ⟨rfl, rfl⟩ neg one fun ψ => ?_
          rw [← phaseOp_flip_anti hi hd.2, hd.1]; rfl
        · exact Good.refl h

/-- The buffers that commute with `H` on their target. -/
def CommutesH (b : PhaseShard) : Prop := b.diff = b.same ∨ (b.inv = true ∧ b.diff = -b.same)

theorem goodU_commuteHFlush (ho : Order ord) {u : QUnit Q} (h : Inv u.bufs) (a : Bool) (i : Q) :
    GoodU ord u (commuteHFlush ord a i u) := by
  refine goodU_fold h fun u p h => ?_
  cases e : u.bufs ⟨a, p, i⟩ with
  | none => exact GoodU.refl h
  | some b =>
    simp only []
    split
    · exact GoodU.refl h
    · split
      · exact GoodU.refl h
      · exact goodU_flush ho h e

theorem sub_commuteHFlush (l : List Q) (a : Bool) (i : Q) (u : QUnit Q) : Sub (commuteHFlush l a i u).bufs u.bufs := by
  refine foldl_inv (P := fun u' : QUnit Q => Sub u'.bufs u.bufs) (fun u' p _ h => Sub.trans ?_ h) (Sub.refl _)
  cases u'.bufs ⟨a, p, i⟩ with
  | none => exact Sub.refl _
  | some b =>
    simp only []
    split
    · exact Sub.refl _
    · split
      · exact Sub.refl _
      · exact Sub.remove _ _

theorem post_commuteHFlush (a : Bool) (i : Q) : ∀ (l : List Q) (u : QUnit Q) (p : Q),
    p ∈ l → ∀ b, (commuteHFlush l a i u).bufs ⟨a, p, i⟩ = some b → CommutesH b := by
  intro l
  induction l with
  | nil => intro u p hp; simp at hp
  | cons y l ih =>
    intro u p hp b hb
    by_cases hl : p ∈ l
    · exact ih _ p hl b hb
    · have hy : p = y := by simpa [hl] using hp
      subst hy
      have hb' := (sub_commuteHFlush l a i _).some hb
      cases e : u.bufs ⟨a, p, i⟩ with
      | none => simp only [e] at hb'; cases hb'
      | some b0 =>
        simp only [e] at hb'
        split at hb'
        · rename_i hs
          rw [e] at hb'
          left; rw [← Option.some.inj hb']; exact hs
        · split at hb'
          · rename_i hs
            rw [e] at hb'
            right; rw [← Option.some.inj hb']; exact hs
          · simp [applyBuffer, remove] at hb'

theorem fold_sift (ho : Order ord) (a : Bool) (s : Q) (m : Bufs Q) (k : Key Q) :
    removeIdentityBuffers ord a s m k = if k.anti = a ∧ k.tgt = s then (m k).bind keep else m k := by
  unfold removeIdentityBuffers
  obtain ⟨h1, h2⟩ := BlockFold.block_fold (fun (m : Bufs Q) p =>
    match m ⟨a, p, s⟩ with
    | none => m
    | some b => open Classical in if b.IsId then remove m ⟨a, p, s⟩ else m) (fun p k => k = ⟨a, p, s⟩) ord ho.nodup
    (fun p _ m k h => by
      beta_reduce
      cases e : m ⟨a, p, s⟩ with
      | none => rfl
      | some b =>
        simp only []
        split
        · rw [remove, Function.update_of_ne h]
        · rfl)
    (fun p _ m m' h k hk => by
      beta_reduce
      subst hk
      have := h _ rfl
      rw [← this]
      cases e : m ⟨a, p, s⟩ with
      | none => simp only []; rw [← this]
      | some b =>
        simp only []
        split
        · rw [remove, remove, Function.update_self, Function.update_self]
        · exact this)
    (fun p _ q _ k h h' => inj_tgt a s (h.symm.trans h')) m
  split
  · rename_i h
    rcases k with ⟨a', c, t⟩
    obtain ⟨rfl, rfl⟩ : a' = a ∧ t = s := h
    refine (h1 c (ho.all c) _ rfl).trans ?_
    cases e : m ⟨a', c, t⟩ with
    | none => simp only [e]; rfl
    | some b =>
      simp only []
      show _ = keep b
      unfold keep
      split
      · rw [remove, Function.update_self]
      · exact e
  · rename_i h
    refine h2 k fun p _ e => h ?_
    rw [e]; exact ⟨rfl, rfl⟩

theorem shardCommuteH_at (ho : Order ord) (m : Bufs Q) (s : Q) (k : Key Q) :
    shardCommuteH ord s m k = if k.tgt = s then ((m k).map (commuteHBuffer k.anti)).bind keep else m k := by
  unfold shardCommuteH
  simp only [fold_sift ho, fold_targets ho]
  by_cases ht : k.tgt = s
  · cases ha : k.anti <;> simp [ht]
  · simp [ht]

theorem norm_double {d : ℂ} (h : ‖d‖ = 1) : ¬ ‖d - -d‖ < 1 := by
  rw [show d - -d = 2 * d by ring, norm_mul, h]
  norm_num

theorem commuteH_conj {k : Key Q} (hk : k.ctrl ≠ k.tgt) {b : PhaseShard} (hu : ‖b.same‖ = 1) (hb : CommutesH b) (ψ : St Q) :
    op k (commuteHBuffer k.anti b) (onQubit k.tgt hadamard ψ) = onQubit k.tgt hadamard (op k b ψ) := by
  refine conj_target (indep_ctrl hk) ?_ ψ
  rcases b with ⟨d, s, i⟩
  rcases hb with hb | ⟨hi, hb⟩
  · have hb : d = s := hb
    subst hb
    cases i <;> cases k.anti <;> simp [commuteHBuffer, bufMtrx, mmul, hadamard] <;> ring_nf <;> simp
  · have hb : d = -s := hb
    have hi : i = true := hi
    subst hb hi
    have hn : ¬ ‖-s - s‖ < 1 := by
      have := norm_double (d := -s) (by simpa using hu)
      simpa using this
    unfold commuteHBuffer
    rw [if_neg hn]
    cases k.anti <;> simp [bufMtrx, mmul, hadamard, PhaseShard.swapped, mul_comm]

theorem commuteHBuffer_inv {a : Bool} {b : PhaseShard} (hb : CommutesH b)
    (h : (commuteHBuffer a b).inv = true) : b.inv = true := by
  rcases b with ⟨d, s, i⟩
  rcases hb with hb | ⟨hi, hb⟩
  · have hb : d = s := hb
    subst hb
    cases i
    · simp [commuteHBuffer] at h
    · rfl
  · exact hi

theorem commuteHBuffer_unit {a : Bool} {b : PhaseShard} (h : ‖b.diff‖ = 1 ∧ ‖b.same‖ = 1) :
    ‖(commuteHBuffer a b).diff‖ = 1 ∧ ‖(commuteHBuffer a b).same‖ = 1 := by
  unfold commuteHBuffer
  cases a <;> simp only [Bool.false_eq_true, if_false, if_true] <;> split <;> split <;>
    simp [h.1, h.2, PhaseShard.swapped]

theorem does_h (ho : Order ord) {u : QUnit Q} (h : Inv u.bufs) (clifford : Bool) (t : Q) :
    Does ord (onQubit t hadamard) u (gateH ord clifford t u) := by
  unfold gateH
  cases clifford
  · simp only [Bool.false_eq_true, if_false]
    unfold commuteH
    simp only []
    have g1 := (good_commuteHMove ho h t).toU (u := u)
    refine g1.does ?_
    generalize ({ u with bufs := commuteHMove ord t u.bufs } : QUnit Q) = u1 at g1
    have g2 := goodU_revert ho g1.1 t .both .onlyControls .both noOne noOne true
    have p2 : ∀ a p, (revertBasis2Qb ord t .both .onlyControls .both noOne noOne true u1).bufs ⟨a, t, p⟩ = none := by
      intro a p
      obtain ⟨_, q1, _⟩ := revert_post ho u1 t .both .onlyControls .both noOne noOne true
      cases e : (revertBasis2Qb ord t .both .onlyControls .both noOne noOne true u1).bufs ⟨a, t, p⟩ with
      | none => rfl
      | some b =>
        rcases q1 a p b (by simp) (by cases a <;> simp [Kind.has]) e with hh | hh <;> simp [Skips, noOne] at hh
    refine g2.does ?_
    generalize revertBasis2Qb ord t .both .onlyControls .both noOne noOne true u1 = u2 at g2 p2
    have g3 := goodU_commuteHFlush ho g2.1 false t
    have s3 := sub_commuteHFlush ord false t u2
    have q3 := post_commuteHFlush false t ord u2
    refine g3.does ?_
    generalize commuteHFlush ord false t u2 = u3 at g3 s3 q3
    have g4 := goodU_commuteHFlush ho g3.1 true t
    have s4 := sub_commuteHFlush ord true t u3
    have q4 := post_commuteHFlush true t ord u3
    refine g4.does ?_
    generalize commuteHFlush ord true t u3 = u4 at g4 s4 q4
    have hi := g4.1
    have hC : ∀ k b, u4.bufs k = some b → k.tgt = t → CommutesH b := by
      rintro ⟨a, c, t'⟩ b e rfl
      cases a
      · exact q3 c (ho.all c) b (s4.some e)
      · exact q4 c (ho.all c) b e
    have hN : ∀ k b, u4.bufs k = some b → k.ctrl ≠ t := by
      rintro ⟨a, c, t'⟩ b e rfl
      have := s3.some (s4.some e)
      rw [p2] at this
      cases this
    have hI : Inv (shardCommuteH ord t u4.bufs) := by
      refine hi.of_id fun k b' e => ?_
      rw [shardCommuteH_at ho] at e
      split at e
      · rename_i ht
        cases e0 : u4.bufs k with
        | none => rw [e0] at e; cases e
        | some b =>
          rw [e0] at e
          have e : keep (commuteHBuffer k.anti b) = some b' := e
          rw [keep_some e]
          exact ⟨b, rfl, commuteHBuffer_inv (hC k b e0 ht), commuteHBuffer_unit (hi.unit k b e0)⟩
      · exact ⟨b', e, id, hi.unit k b' e⟩
    refine ⟨hI, ?_⟩
    refine pending_conj ho hI id Function.injective_id Function.surjective_id (onQubit t hadamard) (fun k ψ => ?_) u4.base
    rw [id, shardCommuteH_at ho]
    cases e : u4.bufs k with
    | none => split <;> rfl
    | some b =>
      split
      · rename_i ht
        subst ht
        show opO k (keep _) _ = _
        rw [opO_keep]
        exact commuteH_conj (hi.ne k b e) (hi.unit k b e).2 (hC k b e rfl) ψ
      · rename_i ht
        exact (onQubit_op (hN k b e) ht hadamard ψ).symm
  · exact does_revertAll_gate ho h t _

/-! ### Controlled gates -/

theorem indep_valuesAre {cs : List (Q × Bool)} {q : Q} (h : ∀ c ∈ cs, c.1 ≠ q) : Indep (valuesAre cs) q := by
  intro b v
  unfold valuesAre
  induction cs with
  | nil => rfl
  | cons c cs ih =>
    simp only [List.all_cons]
    rw [Function.update_of_ne (h c (by simp)), ih fun c hc => h c (by simp [hc])]

/-- Nothing inverts the qubit `q`. -/
def NoInvOn (m : Bufs Q) (q : Q) : Prop := ∀ k b, m k = some b → k.tgt = q → b.inv = false

theorem TameI.noInvOn {m m' : Bufs Q} (h : TameI m' m) {q : Q} (hq : NoInvOn m q) : NoInvOn m' q := by
  intro k b e ht
  by_contra hc
  obtain ⟨b0, e0, h0⟩ := h k b e (by simpa using hc)
  rw [hq k b0 e0 ht] at h0; cases h0

theorem noInvOn_revert (ho : Order ord) (u : QUnit Q) (i : Q) : NoInvOn (revertInvertTargets ord i u).bufs i :=
  fun k _ e ht => revertInvertTargets_post ho u i k ht e

theorem revert_controls (ho : Order ord) (cs : List (Q × Bool)) : ∀ {u : QUnit Q}, Inv u.bufs →
    GoodU ord u (cs.foldl (fun u c => revertInvertTargets ord c.1 u) u) ∧
    (∀ q, (NoInvOn u.bufs q ∨ ∃ c ∈ cs, c.1 = q) →
      NoInvOn (cs.foldl (fun u c => revertInvertTargets ord c.1 u) u).bufs q) := by
  induction cs with
  | nil => intro u h; exact ⟨GoodU.refl h, fun q hq => by simpa using hq⟩
  | cons c cs ih =>
    intro u h
    have h1 := goodU_revertInvertTargets ho h c.1
    obtain ⟨h2, h3⟩ := ih h1.1
    refine ⟨h1.trans h2, fun q hq => ?_⟩
    apply h3
    rcases hq with hq | ⟨c', hc', rfl⟩
    · exact Or.inl ((tameI_revert ho u c.1 _ _ _ _ _ _).noInvOn hq)
    · rw [List.mem_cons] at hc'
      rcases hc' with rfl | hc'
      · exact Or.inl (noInvOn_revert ho u _)
      · exact Or.inr ⟨c', hc', rfl⟩

theorem does_controlled (ho : Order ord) {u : QUnit Q} (h : Inv u.bufs) (cs : List (Q × Bool)) {t : Q}
    (isPhase : Bool) (g : Mtrx) (hg : isPhase = true → g.m1 = 0 ∧ g.m2 = 0) :
    Does ord (onWhen (valuesAre cs) t g) u (applyEitherControlled ord cs t isPhase g u) := by
  unfold applyEitherControlled
  obtain ⟨h1, h2⟩ := revert_controls ho cs h
  simp only []
  refine h1.does ?_
  generalize cs.foldl (fun u c => revertInvertTargets ord c.1 u) u = v at h1 h2
  cases isPhase
  · simp only [Bool.false_eq_true, if_false]
    have g1 := goodU_revertAll ho h1.1 t
    refine g1.does ?_
    refine does_free ho g1.1 (revertAll_post ho v t) _ (fun k b e hi => ?_) g
    refine indep_valuesAre fun c hc hh => ?_
    have := (tameI_revert ho v t .both .both .both noOne noOne false).noInvOn (h2 c.1 (Or.inr ⟨c, hc, rfl⟩)) k b e hh.symm
    rw [hi] at this; cases this
  · simp only [if_true]
    have g1 := goodU_revertInvertTargets ho h1.1 t
    refine g1.does ?_
    obtain ⟨e1, e2⟩ := hg rfl
    rcases g with ⟨x, g1', g2', y⟩
    obtain rfl : g1' = 0 := e1
    obtain rfl : g2' = 0 := e2
    refine does_diag ho g1.1 _ (fun k b e hi => ⟨indep_valuesAre fun c hc hh => ?_, fun hh => ?_⟩) x y
    · have := (tameI_revert ho v t .onlyInvert .onlyTargets .both noOne noOne false).noInvOn
        (h2 c.1 (Or.inr ⟨c, hc, rfl⟩)) k b e hh.symm
      rw [hi] at this; cases this
    · have := noInvOn_revert ho v t k b e hh
      rw [hi] at this; cases this

theorem valuesAre_one (c : Q) (v : Bool) : valuesAre [(c, v)] = fun s : Q → Bool => s c == v := by
  funext s; simp [valuesAre]

theorem good_remove_id (ho : Order ord) {m : Bufs Q} (h : Inv m) {k : Key Q} {b : PhaseShard} (e : m k = some b)
    (hb : b.IsId) : Good ord m (remove m k) := by
  refine ⟨h.remove k, fun ψ => ?_⟩
  rw [pending_remove ho h k, e]
  exact (op_id hb _).symm

theorem pair_phase {c t : Q} {b ab : PhaseShard} (hb : b.inv = false) (hab : ab.inv = false)
    (h1 : b.diff = ab.same) (h2 : b.same = ab.diff) (ψ : St Q) :
    op ⟨false, c, t⟩ b (op ⟨true, c, t⟩ ab ψ) = onQubit t ⟨b.diff, 0, 0, b.same⟩ ψ := by
  rw [op_phase hb, op_phase hab]
  funext s
  unfold coef
  simp only [← h1, ← h2]
  rcases Bool.eq_false_or_eq_true (s c) with hc | hc <;> rcases Bool.eq_false_or_eq_true (s t) with ht | ht <;>
    simp [hc, ht, onQubit_true, onQubit_false]

theorem goodU_optimizePair (ho : Order ord) {u : QUnit Q} (h : Inv u.bufs) (clifford sameUnit : Bool) (k : Key Q) :
    GoodU ord u (optimizePairBuffers ord clifford sameUnit k u) := by
  unfold optimizePairBuffers
  cases e : u.bufs k with
  | none => exact GoodU.refl h
  | some b =>
    simp only []
    split
    · rename_i hb; exact (good_remove_id ho h e hb).toU
    · split
      · exact goodU_flush ho h e
      · cases e' : u.bufs { k with anti := !k.anti } with
        | none => exact GoodU.refl h
        | some ab =>
          simp only []
          split
          · exact GoodU.refl h
          · rename_i hii
            push Not at hii
            have hne : ({ k with anti := !k.anti } : Key Q) ≠ k := by
              intro hh
              have := congrArg Key.anti hh
              simp at this
            have hi : b.inv = false := by
              by_contra hc
              exact (h.alone k b e (by simpa using hc) _ ab e' hne).2 rfl
            have hai : ab.inv = false := hii ▸ hi
            simp only [hi, Bool.false_eq_true, if_false]
            have pairs : ∀ b ab : PhaseShard, b.inv = false → ab.inv = false → u.bufs { k with anti := false } = some b →
                u.bufs { k with anti := true } = some ab →
                GoodU ord u (if b.diff = ab.same ∧ b.same = ab.diff then
                  gatePhase ord clifford b.diff b.same k.tgt
                    { u with bufs := remove (remove u.bufs { k with anti := false }) { k with anti := true } }
                  else u) := by
              intro b ab hb hab eb eab
              split
              · rename_i hd
                have hne2 : ({ k with anti := true } : Key Q) ≠ { k with anti := false } := by
                  intro hh
                  have := congrArg Key.anti hh
                  simp at this
                have hr := (h.remove { k with anti := false }).remove { k with anti := true }
                obtain ⟨g1, g2⟩ := does_phase ho (u := ⟨remove (remove u.bufs { k with anti := false })
                  { k with anti := true }, u.base⟩) hr clifford (h.unit _ _ eb).1 (h.unit _ _ eb).2 k.tgt
                refine ⟨g1, g2.trans ?_⟩
                unfold state
                simp only []
                rw [pending_remove ho h { k with anti := false }, eb, pending_remove ho (h.remove _) { k with anti := true }]
                rw [show remove u.bufs { k with anti := false } { k with anti := true } = some ab by
                  rw [remove, Function.update_of_ne hne2, eab]]
                exact (pair_phase hb hab hd.1 hd.2 _).symm
              · exact GoodU.refl h
            rcases k with ⟨a, c, t⟩
            cases a
            · exact pairs b ab hi hai e e'
            · exact pairs ab b hai hi e' e

theorem same_phase {c t : Q} {x : ℂ} (v : Bool) :
    onWhen (fun s : Q → Bool => s c == v) t ⟨x, 0, 0, x⟩ =
      onQubit c (if v then ⟨1, 0, 0, x⟩ else ⟨x, 0, 0, 1⟩) := by
  funext ψ s
  unfold onWhen
  cases v <;> rcases Bool.eq_false_or_eq_true (s c) with hc | hc <;>
    rcases Bool.eq_false_or_eq_true (s t) with ht | ht <;> simp [hc, ht, onQubit_true, onQubit_false]

theorem onWhen_id (p : (Q → Bool) → Bool) (t : Q) (ψ : St Q) : onWhen p t ⟨1, 0, 0, 1⟩ ψ = ψ := by
  funext s
  unfold onWhen
  split
  · rcases Bool.eq_false_or_eq_true (s t) with ht | ht <;> simp [ht, onQubit_true, onQubit_false]
  · rfl

theorem phaseOp_key (v : Bool) (c t : Q) (x y : ℂ) :
    (if v then phaseOp (Q := Q) ⟨false, c, t⟩ x y else phaseOp ⟨true, c, t⟩ y x) =
      onWhen (fun s : Q → Bool => s c == v) t ⟨x, 0, 0, y⟩ := by
  cases v <;> rfl

theorem invOp_key (v : Bool) (c t : Q) (x y : ℂ) :
    (if v then invOp (Q := Q) ⟨false, c, t⟩ x y else invOp ⟨true, c, t⟩ y x) =
      onWhen (fun s : Q → Bool => s c == v) t ⟨0, x, y, 0⟩ := by
  cases v <;> rfl

/-- After the two flushes that precede a buffered phase gate. -/
theorem free_after (ho : Order ord) {u : QUnit Q} (h : Inv u.bufs) (c t : Q) (k1 k2 : Kind) (a : Bool)
    (h1 : k1.has (!a)) (h2 : k2.has a) :
    let u1 := revertInvertTargets ord c u
    let u2 := revertBasis2Qb ord t .onlyInvert .onlyTargets k1 noOne noOne false u1
    let u3 := revertBasis2Qb ord t .onlyInvert .onlyTargets k2 noOne (fun p => decide (p = c)) false u2
    GoodU ord u u3 ∧ Free u3.bufs ⟨a, c, t⟩ := by
  intro u1 u2 u3
  have g1 := goodU_revertInvertTargets ho h c
  have g2 := goodU_revert ho g1.1 t .onlyInvert .onlyTargets k1 noOne noOne false
  have g3 := goodU_revert ho g2.1 t .onlyInvert .onlyTargets k2 noOne (fun p => decide (p = c)) false
  refine ⟨(g1.trans g2).trans g3, ?_⟩
  have t2 : TameI u2.bufs u1.bufs := tameI_revert ho _ _ _ _ _ _ _ _
  have t3 : TameI u3.bufs u2.bufs := tameI_revert ho _ _ _ _ _ _ _ _
  intro k b e hi hne
  constructor
  · intro hc
    have := t3.noInvOn (t2.noInvOn (noInvOn_revert ho u c)) k b e hc
    rw [hi] at this; cases this
  · intro ht
    rcases k with ⟨a', c', t'⟩
    obtain rfl : t' = t := ht
    by_cases ha : a' = a
    · subst ha
      rcases (revert_post ho u2 t' .onlyInvert .onlyTargets k2 noOne (fun p => decide (p = c)) false).2.2 a' c' b (by simp)
        h2 e with hh | hh
      · simp [Skips, hi] at hh
      · apply hne
        have : c' = c := by simpa using hh
        rw [this]
    · have ha' : a' = !a := by revert ha; cases a' <;> cases a <;> simp
      subst ha'
      obtain ⟨b0, e0, hi0⟩ := t3 _ b e hi
      rcases (revert_post ho u1 t' .onlyInvert .onlyTargets k1 noOne noOne false).2.2 (!a) c' b0 (by simp) h1 e0 with hh | hh
      · simp [Skips, hi0] at hh
      · simp [noOne] at hh

theorem does_ucPhase (ho : Order ord) {u : QUnit Q} (h : Inv u.bufs) (clifford buffered sameUnit : Bool) {c t : Q}
    (hct : c ≠ t) (v : Bool) {x y : ℂ} (hx : ‖x‖ = 1) (hy : ‖y‖ = 1) :
    Does ord (onWhen (fun s => s c == v) t ⟨x, 0, 0, y⟩) u (ucPhase ord clifford buffered sameUnit c v x y t u) := by
  unfold ucPhase
  split
  · rename_i hxy
    refine ⟨h, ?_⟩
    rw [hxy.1, hxy.2, onWhen_id]
  · split
    · rename_i hxy
      rw [hxy, same_phase]
      cases v
      · exact does_phase ho h clifford hy (by simp) c
      · exact does_phase ho h clifford (by simp) hy c
    · simp only []
      rw [← phaseOp_key]
      cases v
      · simp only [Bool.false_eq_true, if_false]
        obtain ⟨g, hf⟩ := free_after ho h c t .onlyCtrl .onlyAnti true (by simp [Kind.has]) (by simp [Kind.has])
        refine g.does ?_
        generalize revertBasis2Qb ord t .onlyInvert .onlyTargets .onlyAnti noOne (fun p => decide (p = c)) false
          (revertBasis2Qb ord t .onlyInvert .onlyTargets .onlyCtrl noOne noOne false (revertInvertTargets ord c u)) = w at g hf
        cases buffered
        · have := does_controlled ho g.1 [(c, false)] (t := t) true ⟨x, 0, 0, y⟩ (fun _ => ⟨rfl, rfl⟩)
          rwa [valuesAre_one] at this
        · obtain ⟨a1, a2⟩ := g.1.addAngles ho (k := ⟨true, c, t⟩) hct hy hx hf
          refine Does.good (u' := { w with bufs := addAngles w.bufs ⟨true, c, t⟩ y x }) ⟨a1, a2 w.base⟩ ?_
          exact goodU_optimizePair ho a1 clifford sameUnit _
      · simp only [if_true]
        obtain ⟨g, hf⟩ := free_after ho h c t .onlyAnti .onlyCtrl false (by simp [Kind.has]) (by simp [Kind.has])
        refine g.does ?_
        generalize revertBasis2Qb ord t .onlyInvert .onlyTargets .onlyCtrl noOne (fun p => decide (p = c)) false
          (revertBasis2Qb ord t .onlyInvert .onlyTargets .onlyAnti noOne noOne false (revertInvertTargets ord c u)) = w at g hf
        cases buffered
        · have := does_controlled ho g.1 [(c, true)] (t := t) true ⟨x, 0, 0, y⟩ (fun _ => ⟨rfl, rfl⟩)
          rwa [valuesAre_one] at this
        · obtain ⟨a1, a2⟩ := g.1.addAngles ho (k := ⟨false, c, t⟩) hct hx hy hf
          refine Does.good (u' := { w with bufs := addAngles w.bufs ⟨false, c, t⟩ x y }) ⟨a1, a2 w.base⟩ ?_
          exact goodU_optimizePair ho a1 clifford sameUnit _

/-- After the two flushes that precede a buffered inversion. -/
theorem alone_after (ho : Order ord) {u : QUnit Q} (h : Inv u.bufs) (c t : Q) (k1 k2 : Kind) (a : Bool)
    (h1 : k1.has (!a)) (h2 : k2.has a) :
    let u1 := revertInvertTargets ord c u
    let u2 := revertBasis2Qb ord t .both .both k1 noOne noOne false u1
    let u3 := revertBasis2Qb ord t .both .both k2 noOne (fun p => decide (p = c)) false u2
    GoodU ord u u3 ∧ Free u3.bufs ⟨a, c, t⟩ ∧ Alone u3.bufs ⟨a, c, t⟩ := by
  intro u1 u2 u3
  have g1 := goodU_revertInvertTargets ho h c
  have g2 := goodU_revert ho g1.1 t .both .both k1 noOne noOne false
  have g3 := goodU_revert ho g2.1 t .both .both k2 noOne (fun p => decide (p = c)) false
  have t2 : TameI u2.bufs u1.bufs := tameI_revert ho _ _ _ _ _ _ _ _
  have t3 : Tame u3.bufs u2.bufs := tame_revert ho _ _ _ _ _ _ _ _ (Or.inr (Or.inl rfl))
  obtain ⟨_, q2, r2⟩ := revert_post ho u1 t .both .both k1 noOne noOne false
  obtain ⟨_, q3, r3⟩ := revert_post ho u2 t .both .both k2 noOne (fun p => decide (p = c)) false
  have hA : Alone u3.bufs ⟨a, c, t⟩ := by
    rintro ⟨a', c', t'⟩ b e hne
    by_cases ha : a' = a
    · subst ha
      constructor
      · rintro (rfl : c' = t)
        rcases q3 a' t' b (by simp) h2 e with hh | hh <;> simp [Skips, noOne] at hh
      · rintro (rfl : t' = t)
        rcases r3 a' c' b (by simp) h2 e with hh | hh
        · simp [Skips] at hh
        · apply hne
          have : c' = c := by simpa using hh
          rw [this]
    · have ha' : a' = !a := by revert ha; cases a' <;> cases a <;> simp
      subst ha'
      obtain ⟨b0, e0, _⟩ := t3 _ b e
      constructor
      · rintro (rfl : c' = t)
        rcases q2 (!a) t' b0 (by simp) h1 e0 with hh | hh <;> simp [Skips, noOne] at hh
      · rintro (rfl : t' = t)
        rcases r2 (!a) c' b0 (by simp) h1 e0 with hh | hh <;> simp [Skips, noOne] at hh
  refine ⟨(g1.trans g2).trans g3, ?_, hA⟩
  intro k b e hi hne
  refine ⟨fun hc => ?_, (hA k b e hne).2⟩
  have := t3.tameI.noInvOn (t2.noInvOn (noInvOn_revert ho u c)) k b e hc
  rw [hi] at this; cases this

theorem does_ucInvert (ho : Order ord) {u : QUnit Q} (h : Inv u.bufs) (clifford buffered sameUnit : Bool) {c t : Q}
    (hct : c ≠ t) (v : Bool) {x y : ℂ} (hx : ‖x‖ = 1) (hy : ‖y‖ = 1) :
    Does ord (onWhen (fun s => s c == v) t ⟨0, x, y, 0⟩) u (ucInvert ord clifford buffered sameUnit c v x y t u) := by
  unfold ucInvert
  simp only []
  rw [← invOp_key]
  cases v
  · simp only [Bool.false_eq_true, if_false]
    obtain ⟨g, hf, ha⟩ := alone_after ho h c t .onlyCtrl .onlyAnti true (by simp [Kind.has]) (by simp [Kind.has])
    refine g.does ?_
    generalize revertBasis2Qb ord t .both .both .onlyAnti noOne (fun p => decide (p = c)) false
      (revertBasis2Qb ord t .both .both .onlyCtrl noOne noOne false (revertInvertTargets ord c u)) = w at g hf ha
    cases buffered
    · have := does_controlled ho g.1 [(c, false)] (t := t) false ⟨0, x, y, 0⟩ (by simp)
      rwa [valuesAre_one] at this
    · obtain ⟨a1, a2⟩ := g.1.addInversion ho (k := ⟨true, c, t⟩) hct hy hx hf ha
      refine Does.good (u' := { w with bufs := addInversion w.bufs ⟨true, c, t⟩ y x }) ⟨a1, a2 w.base⟩ ?_
      exact goodU_optimizePair ho a1 clifford sameUnit _
  · simp only [if_true]
    obtain ⟨g, hf, ha⟩ := alone_after ho h c t .onlyAnti .onlyCtrl false (by simp [Kind.has]) (by simp [Kind.has])
    refine g.does ?_
    generalize revertBasis2Qb ord t .both .both .onlyCtrl noOne (fun p => decide (p = c)) false
      (revertBasis2Qb ord t .both .both .onlyAnti noOne noOne false (revertInvertTargets ord c u)) = w at g hf ha
    cases buffered
    · have := does_controlled ho g.1 [(c, true)] (t := t) false ⟨0, x, y, 0⟩ (by simp)
      rwa [valuesAre_one] at this
    · obtain ⟨a1, a2⟩ := g.1.addInversion ho (k := ⟨false, c, t⟩) hct hx hy hf ha
      refine Does.good (u' := { w with bufs := addInversion w.bufs ⟨false, c, t⟩ x y }) ⟨a1, a2 w.base⟩ ?_
      exact goodU_optimizePair ho a1 clifford sameUnit _

end Verif.Phase
