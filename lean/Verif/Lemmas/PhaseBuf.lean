import Verif.Lemmas.PhaseOps
import Mathlib.Analysis.Normed.Field.Basic
import Mathlib.Analysis.Complex.Norm
import Mathlib.Tactic.FieldSimp

/-!
What the operations on the buffers do to the invariant and to the meaning.
-/

namespace Verif.Phase

open Verif.Matrix2 Verif.Spec.Circuit

variable {Q : Type} [DecidableEq Q] {ord : List Q}

theorem unit_one {z : ℂ} (h : ‖z‖ = 1) : unit z = z := by simp [unit, h]

/-- A buffer, or nothing when it is the identity. -/
noncomputable def keep (b : PhaseShard) : Option PhaseShard := by
  classical exact if b.IsId then none else some b

theorem op_id {k : Key Q} {b : PhaseShard} (h : b.IsId) (ψ : St Q) : op k b ψ = ψ := by
  rw [op_phase h.1]
  funext s
  simp [coef, h.2.1, h.2.2]

theorem opO_keep (k : Key Q) (b : PhaseShard) (ψ : St Q) : opO k (keep b) ψ = op k b ψ := by
  unfold keep
  split
  · rename_i h; rw [op_id h]; rfl
  · rfl

/-- The buffer at `k`, or a fresh one. -/
def get (m : Bufs Q) (k : Key Q) : PhaseShard := (m k).getD PhaseShard.fresh

theorem op_get (m : Bufs Q) (k : Key Q) (ψ : St Q) : op k (get m k) ψ = opO k (m k) ψ := by
  unfold get
  cases m k with
  | none => exact op_id ⟨rfl, rfl, rfl⟩ ψ
  | some b => rfl

theorem addBuffer_get (m : Bufs Q) (k : Key Q) : addBuffer m k = Function.update m k (some (get m k)) := by
  unfold addBuffer get
  cases e : m k with
  | none => rfl
  | some b =>
    show m = _
    rw [Option.getD_some, ← e, Function.update_eq_self]

theorem Inv.get_unit {m : Bufs Q} (h : Inv m) (k : Key Q) : ‖(get m k).diff‖ = 1 ∧ ‖(get m k).same‖ = 1 := by
  unfold get
  cases e : m k with
  | none => simp [PhaseShard.fresh]
  | some b => exact h.unit k b e

theorem addAngles_eq (m : Bufs Q) (k : Key Q) {d s : ℂ}
    (hd : ‖(get m k).diff * d‖ = 1) (hs : ‖(get m k).same * s‖ = 1) :
    addAngles m k d s =
      Function.update m k (keep { get m k with diff := (get m k).diff * d, same := (get m k).same * s }) := by
  unfold addAngles
  simp only [addBuffer_get, Function.update_self, unit_one hd, unit_one hs, remove, Function.update_idem]
  unfold keep PhaseShard.IsId
  dsimp only
  split <;> rfl

theorem addInversion_eq (m : Bufs Q) (k : Key Q) {d s : ℂ}
    (hd : ‖(get m k).same * d‖ = 1) (hs : ‖(get m k).diff * s‖ = 1) :
    addInversion m k d s =
      Function.update m k (keep ⟨(get m k).same * d, (get m k).diff * s, !(get m k).inv⟩) := by
  unfold addInversion
  have e : modify (addBuffer m k) k (fun b => { b.swapped with inv := !b.inv }) =
      Function.update m k (some ⟨(get m k).same, (get m k).diff, !(get m k).inv⟩) := by
    unfold modify
    rw [addBuffer_get, Function.update_self, Function.update_idem]
    rfl
  simp only [e]
  have e2 : get (Function.update m k (some ⟨(get m k).same, (get m k).diff, !(get m k).inv⟩)) k =
      ⟨(get m k).same, (get m k).diff, !(get m k).inv⟩ := by
    conv_lhs => unfold get
    rw [Function.update_self]; rfl
  rw [addAngles_eq _ k (by rw [e2]; exact hd) (by rw [e2]; exact hs), e2, Function.update_idem]

/-- The phase gate that `addAngles` adds. -/
def phaseOp (k : Key Q) (d s : ℂ) : St Q → St Q := op k ⟨d, s, false⟩

/-- The inversion that `addInversion` adds. -/
def invOp (k : Key Q) (d s : ℂ) : St Q → St Q := op k ⟨d, s, true⟩

theorem op_phaseOp {k : Key Q} (hk : k.ctrl ≠ k.tgt) (b : PhaseShard) (d s : ℂ) (ψ : St Q) :
    op k { b with diff := b.diff * d, same := b.same * s } ψ = phaseOp k d s (op k b ψ) := by
  unfold phaseOp op
  rw [onWhen_mul (indep_ctrl hk)]
  congr 1
  rcases b with ⟨bd, bs, bi⟩
  cases k.anti <;> cases bi <;> simp [bufMtrx, mmul, mul_comm]

theorem op_invOp {k : Key Q} (hk : k.ctrl ≠ k.tgt) (b : PhaseShard) (d s : ℂ) (ψ : St Q) :
    op k ⟨b.same * d, b.diff * s, !b.inv⟩ ψ = invOp k d s (op k b ψ) := by
  unfold invOp op
  rw [onWhen_mul (indep_ctrl hk)]
  congr 1
  rcases b with ⟨bd, bs, bi⟩
  cases k.anti <;> cases bi <;> simp [bufMtrx, mmul, mul_comm]

/-- No inverting buffer elsewhere targets either qubit of `k`. -/
def Free (m : Bufs Q) (k : Key Q) : Prop :=
  ∀ k' b', m k' = some b' → b'.inv = true → k' ≠ k → k'.tgt ≠ k.ctrl ∧ k'.tgt ≠ k.tgt

/-- No other buffer involves the target of `k`. -/
def Alone (m : Bufs Q) (k : Key Q) : Prop :=
  ∀ k' b', m k' = some b' → k' ≠ k → k'.ctrl ≠ k.tgt ∧ k'.tgt ≠ k.tgt

theorem Inv.update {m : Bufs Q} (h : Inv m) {k : Key Q} {x : Option PhaseShard} (hk : k.ctrl ≠ k.tgt)
    (hu : ∀ b, x = some b → ‖b.diff‖ = 1 ∧ ‖b.same‖ = 1)
    (hf : Free m k) (ha : ∀ b, x = some b → b.inv = true → Alone m k) : Inv (Function.update m k x) := by
  refine ⟨?_, ?_, ?_⟩
  · intro k' b hb
    by_cases e : k' = k
    · rw [e]; exact hk
    · rw [Function.update_of_ne e] at hb; exact h.ne k' b hb
  · intro k' b hb
    by_cases e : k' = k
    · rw [e, Function.update_self] at hb; exact hu b hb
    · rw [Function.update_of_ne e] at hb; exact h.unit k' b hb
  · intro k' b hb hi k'' b'' hb'' hne
    by_cases e : k' = k
    · rw [e, Function.update_self] at hb
      rw [e] at hne ⊢
      rw [Function.update_of_ne hne] at hb''
      exact ha b hb hi k'' b'' hb'' hne
    · rw [Function.update_of_ne e] at hb
      by_cases e' : k'' = k
      · rw [e']
        obtain ⟨h1, h2⟩ := hf k' b hb hi e
        exact ⟨h1.symm, h2.symm⟩
      · rw [Function.update_of_ne e'] at hb''
        exact h.alone k' b hb hi k'' b'' hb'' hne

theorem keep_some {b b' : PhaseShard} (h : keep b = some b') : b' = b := by
  unfold keep at h
  split at h
  · cases h
  · exact (Option.some.inj h).symm

theorem norm_mul_one {x y : ℂ} (hx : ‖x‖ = 1) (hy : ‖y‖ = 1) : ‖x * y‖ = 1 := by rw [norm_mul, hx, hy, one_mul]

theorem Inv.addAngles (ho : Order ord) {m : Bufs Q} (h : Inv m) {k : Key Q} {d s : ℂ} (hk : k.ctrl ≠ k.tgt)
    (hd : ‖d‖ = 1) (hs : ‖s‖ = 1) (hf : Free m k) :
    Inv (addAngles m k d s) ∧ ∀ ψ, pending ord (addAngles m k d s) ψ = phaseOp k d s (pending ord m ψ) := by
  obtain ⟨u1, u2⟩ := h.get_unit k
  rw [addAngles_eq m k (norm_mul_one u1 hd) (norm_mul_one u2 hs)]
  have hi : Inv (Function.update m k
      (keep { get m k with diff := (get m k).diff * d, same := (get m k).same * s })) := by
    refine h.update hk (fun b hb => ?_) hf (fun b hb hbi => ?_)
    · rw [keep_some hb]; exact ⟨norm_mul_one u1 hd, norm_mul_one u2 hs⟩
    · rw [keep_some hb] at hbi
      intro k' b' hb' hne
      cases e : m k with
      | none => simp [get, e, PhaseShard.fresh] at hbi
      | some b0 =>
        have : b0.inv = true := by simpa [get, e] using hbi
        exact h.alone k b0 e this k' b' hb' hne
  refine ⟨hi, fun ψ => ?_⟩
  rw [pending_update ho hi, opO_keep, op_phaseOp hk, op_get, ← pending_outer ho h k]

theorem Inv.addInversion (ho : Order ord) {m : Bufs Q} (h : Inv m) {k : Key Q} {d s : ℂ} (hk : k.ctrl ≠ k.tgt)
    (hd : ‖d‖ = 1) (hs : ‖s‖ = 1) (hf : Free m k) (ha : Alone m k) :
    Inv (addInversion m k d s) ∧ ∀ ψ, pending ord (addInversion m k d s) ψ = invOp k d s (pending ord m ψ) := by
  obtain ⟨u1, u2⟩ := h.get_unit k
  rw [addInversion_eq m k (norm_mul_one u2 hd) (norm_mul_one u1 hs)]
  have hi : Inv (Function.update m k (keep ⟨(get m k).same * d, (get m k).diff * s, !(get m k).inv⟩)) := by
    refine h.update hk (fun b hb => ?_) hf (fun b hb hbi => ha)
    rw [keep_some hb]; exact ⟨norm_mul_one u2 hd, norm_mul_one u1 hs⟩
  refine ⟨hi, fun ψ => ?_⟩
  rw [pending_update ho hi, opO_keep, op_invOp hk, op_get, ← pending_outer ho h k]

/-! ### Moving a diagonal buffer to another place on the same pair -/

/-- What remains after removing a buffer without inversion has nothing that inverts either of its qubits. -/
theorem Inv.free_of_phase {m : Bufs Q} (h : Inv m) {k : Key Q} {b : PhaseShard} (e : m k = some b) (hi : b.inv = false)
    {k' : Key Q} (hp : (k'.ctrl = k.ctrl ∧ k'.tgt = k.tgt) ∨ (k'.ctrl = k.tgt ∧ k'.tgt = k.ctrl)) :
    Free (Phase.remove m k) k' := by
  intro k2 b2 e2 hi2 _
  have hne : k2 ≠ k := by
    rintro rfl
    simp [Phase.remove] at e2
  rw [Phase.remove, Function.update_of_ne hne] at e2
  obtain ⟨h1, h2⟩ := h.alone k2 b2 e2 hi2 k b e hne.symm
  rcases hp with ⟨p1, p2⟩ | ⟨p1, p2⟩
  · rw [p1, p2]; exact ⟨h1.symm, h2.symm⟩
  · rw [p1, p2]; exact ⟨h2.symm, h1.symm⟩

theorem Inv.move (ho : Order ord) {m : Bufs Q} (h : Inv m) {k k' : Key Q} {b : PhaseShard} (e : m k = some b)
    (hi : b.inv = false) (hp : k'.ctrl = k.tgt ∧ k'.tgt = k.ctrl) {d s : ℂ} (hd : ‖d‖ = 1) (hs : ‖s‖ = 1)
    (hop : ∀ ψ, phaseOp k' d s ψ = op k b ψ) :
    Inv (Phase.addAngles (Phase.remove m k) k' d s) ∧
      ∀ ψ, pending ord (Phase.addAngles (Phase.remove m k) k' d s) ψ = pending ord m ψ := by
  have hk := h.ne k b e
  obtain ⟨h1, h2⟩ := (h.remove k).addAngles ho (k := k') (by rw [hp.1, hp.2]; exact hk.symm) hd hs
    (h.free_of_phase e hi (Or.inr hp))
  refine ⟨h1, fun ψ => ?_⟩
  rw [h2, hop, pending_remove ho h k, e]
  rfl

theorem phaseOp_flip {a : Bool} {c t : Q} {b : PhaseShard} (hi : b.inv = false) (hd : b.diff = 1) (ψ : St Q) :
    phaseOp ⟨a, t, c⟩ 1 b.same ψ = op ⟨a, c, t⟩ b ψ := by
  unfold phaseOp
  rw [op_phase rfl, op_phase hi]
  funext s
  unfold coef
  simp only [hd]
  by_cases h1 : s c = !a <;> by_cases h2 : s t = !a <;> simp [h1, h2]

theorem phaseOp_flip_anti {a : Bool} {c t : Q} {b : PhaseShard} (hi : b.inv = false) (hs : b.same = 1) (ψ : St Q) :
    phaseOp ⟨!a, t, c⟩ b.diff 1 ψ = op ⟨a, c, t⟩ b ψ := by
  unfold phaseOp
  rw [op_phase rfl, op_phase hi]
  funext s
  unfold coef
  simp only [hs]
  cases a <;> rcases Bool.eq_false_or_eq_true (s c) with h1 | h1 <;>
    rcases Bool.eq_false_or_eq_true (s t) with h2 | h2 <;> simp [h1, h2]

/-! ### Loops -/

theorem foldl_inv {α β : Type*} {P : β → Prop} {f : β → α → β} {l : List α} (h : ∀ x p, p ∈ l → P x → P (f x p)) {x : β}
    (hx : P x) : P (l.foldl f x) := by
  induction l generalizing x with
  | nil => exact hx
  | cons y l ih => exact ih (fun x p hp => h x p (by simp [hp])) (h x y (by simp) hx)

/-- Same meaning, invariant kept. -/
def Good (ord : List Q) (m m' : Bufs Q) : Prop := Inv m' ∧ ∀ ψ, pending ord m' ψ = pending ord m ψ

theorem Good.refl {m : Bufs Q} (h : Inv m) : Good ord m m := ⟨h, fun _ => rfl⟩

theorem Good.trans {m m' m'' : Bufs Q} (h : Good ord m m') (h' : Good ord m' m'') : Good ord m m'' :=
  ⟨h'.1, fun ψ => (h'.2 ψ).trans (h.2 ψ)⟩

theorem good_fold {m : Bufs Q} (h : Inv m) {f : Bufs Q → Q → Bufs Q} {l : List Q}
    (hf : ∀ m p, Inv m → Good ord m (f m p)) : Good ord m (l.foldl f m) :=
  foldl_inv (P := fun m' => Good ord m m') (fun x p _ hx => hx.trans (hf x p hx.1)) (Good.refl h)

theorem good_optimizeControls (ho : Order ord) {m : Bufs Q} (h : Inv m) (a : Bool) (s : Q) :
    Good ord m (optimizeControls ord a s m) := by
  refine good_fold h fun m p h => ?_
  cases e : m ⟨a, s, p⟩ with
  | none => exact Good.refl h
  | some b =>
    simp only []
    split
    · exact Good.refl h
    · rename_i hc
      push Not at hc
      have hi : b.inv = false := by simpa using hc.1
      exact h.move ho e hi ⟨rfl, rfl⟩ (by simp) (h.unit _ _ e).2 (phaseOp_flip hi hc.2)

theorem good_optimizeTargets (ho : Order ord) {m : Bufs Q} (h : Inv m) (a : Bool) (s : Q) :
    Good ord m (optimizeTargets ord a s m) := by
  refine good_fold h fun m p h => ?_
  cases e : m ⟨a, p, s⟩ with
  | none => exact Good.refl h
  | some b =>
    simp only []
    split
    · exact Good.refl h
    · rename_i hc
      push Not at hc
      have hi : b.inv = false := by simpa using hc.1
      exact h.move ho e hi ⟨rfl, rfl⟩ (by simp) (h.unit _ _ e).2 (phaseOp_flip hi hc.2)

theorem good_optimizeBothTargets (ho : Order ord) {m : Bufs Q} (h : Inv m) (s : Q) :
    Good ord m (optimizeBothTargets ord s m) := by
  have key : ∀ (a : Bool) {m : Bufs Q}, Inv m → Good ord m (optimizeBothTargetsLoop ord a s m) := by
    intro a m h
    refine good_fold h fun m p h => ?_
    cases e : m ⟨a, p, s⟩ with
    | none => exact Good.refl h
    | some b =>
      simp only []
      split
      · exact Good.refl h
      · rename_i hc
        have hi : b.inv = false := by simpa using hc
        split
        · rename_i hd
          exact h.move ho e hi ⟨rfl, rfl⟩ (by simp) (h.unit _ _ e).2 (phaseOp_flip hi hd)
        · split
          · rename_i hs
            exact h.move ho e hi ⟨rfl, rfl⟩ (h.unit _ _ e).1 (by simp) (phaseOp_flip_anti hi hs)
          · exact Good.refl h
  exact (key false h).trans (key true (key false h).1)

theorem good_combineBuffers (ho : Order ord) {m : Bufs Q} (h : Inv m) (a : Bool) (s : Q) :
    Good ord m (combineBuffers ord a s m) := by
  refine good_fold h fun m p h => ?_
  cases e : m ⟨a, s, p⟩ with
  | none => exact Good.refl h
  | some b =>
    cases e' : m ⟨a, p, s⟩ with
    | none => exact Good.refl h
    | some b' =>
      simp only []
      split
      · rename_i hc
        exact h.move ho e hc.1 ⟨rfl, rfl⟩ (by simp) (h.unit _ _ e).2 (phaseOp_flip hc.1 hc.2)
      · split
        · rename_i hc
          exact h.move ho e' hc.1 ⟨rfl, rfl⟩ (by simp) (h.unit _ _ e').2 (phaseOp_flip hc.1 hc.2)
        · exact Good.refl h

theorem good_combineGates (ho : Order ord) {m : Bufs Q} (h : Inv m) (s : Q) : Good ord m (combineGates ord s m) :=
  (good_combineBuffers ho h false s).trans (good_combineBuffers ho (good_combineBuffers ho h false s).1 true s)

theorem good_revertOptimize (ho : Order ord) {m : Bufs Q} (h : Inv m) (i : Q) (excl : Excl) (side : Side) (kind : Kind)
    (skip : Bool) : Good ord m (revertOptimize ord i excl side kind skip m) := by
  unfold revertOptimize
  split
  · simp only []
    have h1 : Good ord m (if kind ≠ .onlyAnti then optimizeControls ord false i m else m) := by
      split
      · exact good_optimizeControls ho h false i
      · exact Good.refl h
    split
    · exact h1.trans (good_optimizeControls ho h1.1 true i)
    · exact h1
  · split
    · cases kind
      · exact good_optimizeBothTargets ho h i
      · exact good_optimizeTargets ho h false i
      · exact good_optimizeTargets ho h true i
    · exact Good.refl h

/-! ### Flushing -/

/-- Same state, invariant kept. -/
def GoodU (ord : List Q) (u u' : QUnit Q) : Prop := Inv u'.bufs ∧ state ord u' = state ord u

theorem GoodU.refl {u : QUnit Q} (h : Inv u.bufs) : GoodU ord u u := ⟨h, rfl⟩

theorem GoodU.trans {u u' u'' : QUnit Q} (h : GoodU ord u u') (h' : GoodU ord u' u'') : GoodU ord u u'' :=
  ⟨h'.1, h'.2.trans h.2⟩

theorem Good.toU {u : QUnit Q} {m' : Bufs Q} (h : Good ord u.bufs m') : GoodU ord u { u with bufs := m' } :=
  ⟨h.1, h.2 u.base⟩

theorem goodU_flush (ho : Order ord) {u : QUnit Q} (h : Inv u.bufs) {k : Key Q} {b : PhaseShard} (e : u.bufs k = some b) :
    GoodU ord u (applyBuffer { u with bufs := remove u.bufs k } k b) := by
  refine ⟨h.remove k, ?_⟩
  unfold state applyBuffer
  simp only []
  rw [pending_remove_inner ho h k, e]
  rfl

theorem goodU_fold {u : QUnit Q} (h : Inv u.bufs) {f : QUnit Q → Q → QUnit Q} {l : List Q}
    (hf : ∀ u p, Inv u.bufs → GoodU ord u (f u p)) : GoodU ord u (l.foldl f u) :=
  foldl_inv (P := fun u' => GoodU ord u u') (fun x p _ hx => hx.trans (hf x p hx.1)) (GoodU.refl h)

theorem goodU_applyBufferMap (ho : Order ord) {u : QUnit Q} (h : Inv u.bufs) (key : Q → Key Q) (excl : Excl)
    (except : Q → Bool) : GoodU ord u (applyBufferMap ord key excl except u) := by
  refine goodU_fold h fun u p h => ?_
  cases e : u.bufs (key p) with
  | none => exact GoodU.refl h
  | some b =>
    simp only []
    split
    · exact GoodU.refl h
    · split
      · exact GoodU.refl h
      · exact goodU_flush ho h e

theorem goodU_revert (ho : Order ord) {u : QUnit Q} (h : Inv u.bufs) (i : Q) (excl : Excl) (side : Side) (kind : Kind)
    (e1 e2 : Q → Bool) (skip : Bool) : GoodU ord u (revertBasis2Qb ord i excl side kind e1 e2 skip u) := by
  have ite_good : ∀ {c : Prop} [Decidable c] {u v w : QUnit Q}, GoodU ord u v → (GoodU ord u w) →
      GoodU ord u (if c then v else w) := by
    intro c _ u v w h1 h2; split <;> assumption
  unfold revertBasis2Qb
  simp only []
  have hg := good_combineGates ho h i
  have h0 := (hg.trans (good_revertOptimize ho hg.1 i excl side kind skip)).toU (u := u)
  refine h0.trans ?_
  generalize ({ u with bufs := revertOptimize ord i excl side kind skip (combineGates ord i u.bufs) } : QUnit Q) = v at h0
  have h := h0.1
  clear h0 hg
  have two : ∀ (k1 k2 : Q → Key Q) (c1 c2 : Prop) [Decidable c1] [Decidable c2] (e : Q → Bool) {v : QUnit Q}, Inv v.bufs →
      GoodU ord v (if c2 then applyBufferMap ord k2 excl e (if c1 then applyBufferMap ord k1 excl e v else v)
        else (if c1 then applyBufferMap ord k1 excl e v else v)) := by
    intro k1 k2 c1 c2 _ _ e v h
    have h1 : GoodU ord v (if c1 then applyBufferMap ord k1 excl e v else v) :=
      ite_good (goodU_applyBufferMap ho h _ _ _) (GoodU.refl h)
    exact ite_good (h1.trans (goodU_applyBufferMap ho h1.1 _ _ _)) h1
  have hA := ite_good (c := side ≠ .onlyTargets)
    (two (fun p => ⟨false, i, p⟩) (fun p => ⟨true, i, p⟩) (kind ≠ .onlyAnti) (kind ≠ .onlyCtrl) e1 h) (GoodU.refl h)
  refine ite_good hA (hA.trans ?_)
  exact two (fun p => ⟨false, p, i⟩) (fun p => ⟨true, p, i⟩) (kind ≠ .onlyAnti) (kind ≠ .onlyCtrl) e2 hA.1

end Verif.Phase
