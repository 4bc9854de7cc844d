import Verif.Lemmas.PhaseGates
import Mathlib.Algebra.BigOperators.Group.Finset.Basic
import Mathlib.Data.Fintype.Pi

/-!
Reading probabilities and measuring a unit that has buffered gates.
-/

namespace Verif.Phase

open Verif.Matrix2 Verif.Spec.Circuit

variable {Q : Type} [DecidableEq Q] {ord : List Q}

/-! ### Flushing everything -/

theorem toPermBasisAll_post (ho : Order ord) {u : QUnit Q} (h : Inv u.bufs) :
    GoodU ord u (toPermBasisAll ord u) ∧ ∀ k, (toPermBasisAll ord u).bufs k = none := by
  have key : ∀ (l : List Q) {u : QUnit Q}, Inv u.bufs → GoodU ord u (l.foldl (fun u q => revertAll ord q u) u) ∧
      ∀ k, (u.bufs k = none ∨ k.ctrl ∈ l ∨ k.tgt ∈ l) → (l.foldl (fun u q => revertAll ord q u) u).bufs k = none := by
    intro l
    induction l with
    | nil => intro u h; exact ⟨GoodU.refl h, fun k hk => by simpa using hk⟩
    | cons q l ih =>
      intro u h
      have h1 := goodU_revertAll ho h q
      obtain ⟨h2, h3⟩ := ih h1.1
      refine ⟨h1.trans h2, fun k hk => h3 k ?_⟩
      by_cases hq : k.ctrl = q ∨ k.tgt = q
      · exact Or.inl (revertAll_post ho u q k hq)
      · rcases hk with hk | hk | hk
        · exact Or.inl ((tame_revert ho u q _ _ _ _ _ _ (Or.inr (Or.inl rfl))).none hk)
        · exact Or.inr (Or.inl (by
            rcases List.mem_cons.mp hk with e | e
            · exact absurd (Or.inl e) hq
            · exact e))
        · exact Or.inr (Or.inr (by
            rcases List.mem_cons.mp hk with e | e
            · exact absurd (Or.inr e) hq
            · exact e))
  obtain ⟨h1, h2⟩ := key ord h
  exact ⟨h1, fun k => h2 k (Or.inr (Or.inl (ho.all _)))⟩

theorem toPermBasisProb_post (ho : Order ord) {u : QUnit Q} (h : Inv u.bufs) (qs : List Q) :
    GoodU ord u (toPermBasisProb ord qs u) ∧ ∀ q ∈ qs, NoInvOn (toPermBasisProb ord qs u).bufs q := by
  have e : toPermBasisProb ord qs u =
      (qs.map fun q => (q, true)).foldl (fun u c => revertInvertTargets ord c.1 u) u := by
    unfold toPermBasisProb
    rw [List.foldl_map]
  obtain ⟨h1, h2⟩ := revert_controls ho (qs.map fun q => (q, true)) h
  rw [e]
  exact ⟨h1, fun q hq => h2 q (Or.inr ⟨(q, true), List.mem_map.mpr ⟨q, hq, rfl⟩, rfl⟩)⟩

/-! ### Moduli -/

/-- The basis state whose amplitude a buffer moves to `s`, up to a phase. -/
def source (k : Key Q) (b : PhaseShard) (s : Q → Bool) : Q → Bool :=
  if b.inv = true ∧ s k.ctrl = !k.anti then Function.update s k.tgt (!(s k.tgt)) else s

theorem source_source {k : Key Q} (hk : k.ctrl ≠ k.tgt) (b : PhaseShard) (s : Q → Bool) :
    source k b (source k b s) = s := by
  unfold source
  by_cases h : b.inv = true ∧ s k.ctrl = !k.anti
  · rw [if_pos h, if_pos (by rw [Function.update_of_ne hk]; exact h), Function.update_self, Function.update_idem,
      Bool.not_not, Function.update_eq_self]
  · rw [if_neg h, if_neg h]

theorem norm_op {k : Key Q} {b : PhaseShard} (hu : ‖b.diff‖ = 1 ∧ ‖b.same‖ = 1) (φ : St Q) (s : Q → Bool) :
    ‖op k b φ s‖ = ‖φ (source k b s)‖ := by
  unfold op onWhen source
  by_cases hc : s k.ctrl = !k.anti
  · rw [if_pos (by simp [hc])]
    rcases b with ⟨d, e, i⟩
    obtain ⟨h1, h2⟩ : ‖d‖ = 1 ∧ ‖e‖ = 1 := hu
    cases i
    · rcases Bool.eq_false_or_eq_true (s k.tgt) with ht | ht
      · rw [onQubit_true ht]; cases k.anti <;> simp [bufMtrx, h1, h2]
      · rw [onQubit_false ht]; cases k.anti <;> simp [bufMtrx, h1, h2]
    · rw [if_pos ⟨rfl, hc⟩]
      rcases Bool.eq_false_or_eq_true (s k.tgt) with ht | ht
      · rw [onQubit_true ht]; cases k.anti <;> simp [bufMtrx, h1, h2, ht]
      · rw [onQubit_false ht]; cases k.anti <;> simp [bufMtrx, h1, h2, ht]
  · rw [if_neg (by simpa using hc), if_neg (by tauto)]

/-- The probability that measuring all qubits gives a basis state in `P`. -/
noncomputable def prob [Fintype Q] (P : (Q → Bool) → Prop) [DecidablePred P] (ψ : St Q) : ℝ :=
  ∑ s : Q → Bool, if P s then ‖ψ s‖ ^ 2 else 0

theorem prob_op [Fintype Q] {P : (Q → Bool) → Prop} [DecidablePred P] {k : Key Q} (hk : k.ctrl ≠ k.tgt) {b : PhaseShard}
    (hu : ‖b.diff‖ = 1 ∧ ‖b.same‖ = 1)
    (hP : b.inv = true → ∀ s v, P (Function.update s k.tgt v) ↔ P s) (φ : St Q) :
    prob P (op k b φ) = prob P φ := by
  unfold prob
  let e : (Q → Bool) ≃ (Q → Bool) := ⟨source k b, source k b, source_source hk b, source_source hk b⟩
  rw [← Equiv.sum_comp e (fun s => if P s then ‖φ s‖ ^ 2 else 0)]
  refine Finset.sum_congr rfl fun s _ => ?_
  rw [norm_op hu]
  have : P (source k b s) ↔ P s := by
    unfold source
    split
    · rename_i h; exact hP h.1 s _
    · rfl
  show _ = if P (source k b s) then ‖φ (source k b s)‖ ^ 2 else 0
  rw [if_congr this rfl rfl]

theorem prob_pending [Fintype Q] {P : (Q → Bool) → Prop} [DecidablePred P] {m : Bufs Q} (h : Inv m)
    (hP : ∀ k b, m k = some b → b.inv = true → ∀ s v, P (Function.update s k.tgt v) ↔ P s) (ψ : St Q) :
    prob P (pending ord m ψ) = prob P ψ := by
  unfold pending
  generalize keys ord = l
  induction l generalizing ψ with
  | nil => rfl
  | cons k l ih =>
    rw [List.foldl_cons, ih]
    cases e : m k with
    | none => rfl
    | some b => exact prob_op (h.ne k b e) (h.unit k b e) (hP k b e) ψ

/-! ### Dropping phases -/

/-- The moduli of all amplitudes stay the same. -/
def SameModuli (ord : List Q) (m m' : Bufs Q) : Prop := Inv m' ∧ ∀ ψ s, ‖pending ord m' ψ s‖ = ‖pending ord m ψ s‖

theorem SameModuli.refl {m : Bufs Q} (h : Inv m) : SameModuli ord m m := ⟨h, fun _ _ => rfl⟩

theorem SameModuli.trans {m m' m'' : Bufs Q} (h : SameModuli ord m m') (h' : SameModuli ord m' m'') :
    SameModuli ord m m'' := ⟨h'.1, fun ψ s => (h'.2 ψ s).trans (h.2 ψ s)⟩

theorem sameModuli_remove (ho : Order ord) {m : Bufs Q} (h : Inv m) {k : Key Q} {b : PhaseShard} (e : m k = some b)
    (hi : b.inv = false) : SameModuli ord m (remove m k) := by
  refine ⟨h.remove k, fun ψ s => ?_⟩
  rw [pending_remove ho h k, e]
  show _ = ‖op k b _ s‖
  rw [norm_op (h.unit k b e)]
  simp [source, hi]

/-- What `ClearInvertPhase` does to a buffer. -/
def cleared (b : PhaseShard) : PhaseShard := if b.inv = true then { b with diff := 1, same := 1 } else b

theorem cleared_unit {b : PhaseShard} (h : ‖b.diff‖ = 1 ∧ ‖b.same‖ = 1) :
    ‖(cleared b).diff‖ = 1 ∧ ‖(cleared b).same‖ = 1 := by
  unfold cleared
  split
  · simp
  · exact h

theorem cleared_inv (b : PhaseShard) : (cleared b).inv = b.inv := by unfold cleared; split <;> rfl

theorem sameModuli_clear (ho : Order ord) {m : Bufs Q} (h : Inv m) (k : Key Q) :
    SameModuli ord m (modify m k cleared) := by
  unfold modify
  cases e : m k with
  | none =>
    rw [Option.map_none, ← e, Function.update_eq_self]
    exact SameModuli.refl h
  | some b =>
    have hi : Inv (Function.update m k (some (cleared b))) := by
      refine h.of_id fun k' b' e' => ?_
      by_cases hk : k' = k
      · subst hk
        rw [Function.update_self] at e'
        rw [← Option.some.inj e']
        exact ⟨b, e, fun hh => by rwa [cleared_inv] at hh, cleared_unit (h.unit _ b e)⟩
      · rw [Function.update_of_ne hk] at e'
        exact ⟨b', e', id, h.unit _ _ e'⟩
    refine ⟨hi, fun ψ s => ?_⟩
    rw [Option.map_some, pending_update ho hi, pending_outer ho h k, e]
    show ‖op k (cleared b) _ s‖ = ‖op k b _ s‖
    rw [norm_op (h.unit _ b e), norm_op (cleared_unit (h.unit _ b e))]
    unfold source
    rw [cleared_inv]

theorem sameModuli_fold {m : Bufs Q} (h : Inv m) {f : Bufs Q → Q → Bufs Q} {l : List Q}
    (hf : ∀ m p, Inv m → SameModuli ord m (f m p)) : SameModuli ord m (l.foldl f m) :=
  foldl_inv (P := fun m' => SameModuli ord m m') (fun x p _ hx => hx.trans (hf x p hx.1)) (SameModuli.refl h)

theorem sameModuli_removePhase (ho : Order ord) {m : Bufs Q} (h : Inv m) (key : Q → Key Q) :
    SameModuli ord m (removePhaseBuffers ord key m) := by
  refine sameModuli_fold h fun m p h => ?_
  cases e : m (key p) with
  | none => exact SameModuli.refl h
  | some b =>
    simp only []
    split
    · rename_i hi; exact sameModuli_remove ho h e hi
    · exact SameModuli.refl h

theorem sameModuli_dump (ho : Order ord) {m : Bufs Q} (h : Inv m) (s : Q) :
    SameModuli ord m (dumpPhaseBuffers ord s m) := by
  unfold dumpPhaseBuffers
  have h1 := sameModuli_removePhase ho h (fun p => ⟨false, p, s⟩)
  have h2 := h1.trans (sameModuli_removePhase ho h1.1 (fun p => ⟨true, p, s⟩))
  have h3 := h2.trans (sameModuli_removePhase ho h2.1 (fun p => ⟨false, s, p⟩))
  exact h3.trans (sameModuli_removePhase ho h3.1 (fun p => ⟨true, s, p⟩))

theorem sameModuli_clearMap (ho : Order ord) {m : Bufs Q} (h : Inv m) (key : Q → Key Q) :
    SameModuli ord m (clearMapInvertPhase ord key m) :=
  sameModuli_fold h fun _ p h => sameModuli_clear ho h (key p)

theorem sameModuli_clearInvert (ho : Order ord) {m : Bufs Q} (h : Inv m) (s : Q) :
    SameModuli ord m (clearInvertPhase ord s m) := by
  unfold clearInvertPhase
  have h1 := sameModuli_clearMap ho h (fun p => ⟨false, s, p⟩)
  have h2 := h1.trans (sameModuli_clearMap ho h1.1 (fun p => ⟨true, s, p⟩))
  have h3 := h2.trans (sameModuli_clearMap ho h2.1 (fun p => ⟨false, p, s⟩))
  exact h3.trans (sameModuli_clearMap ho h3.1 (fun p => ⟨true, p, s⟩))

theorem sameModuli_mAll (ho : Order ord) {m : Bufs Q} (h : Inv m) : SameModuli ord m (mAllBuffers ord m) :=
  sameModuli_fold h fun _ s h => (sameModuli_dump ho h s).trans (sameModuli_clearInvert ho (sameModuli_dump ho h s).1 s)

/-! What `MAll` leaves are plain controlled-NOTs. -/

theorem removePhase_at (ho : Order ord) {key : Q → Key Q} (hk : Function.Injective key) (m : Bufs Q) :
    Sub (removePhaseBuffers ord key m) m ∧ ∀ p b, removePhaseBuffers ord key m (key p) = some b → b.inv = true := by
  have hs : ∀ (l : List Q) (m : Bufs Q), Sub (removePhaseBuffers l key m) m := by
    intro l m
    refine foldl_inv (P := fun m' => Sub m' m) (fun m' p _ h => Sub.trans ?_ h) (Sub.refl _)
    cases m' (key p) with
    | none => exact Sub.refl _
    | some b =>
      simp only []
      split
      · exact Sub.remove _ _
      · exact Sub.refl _
  refine ⟨hs ord m, ?_⟩
  have key2 : ∀ (l : List Q) (m : Bufs Q) p, p ∈ l → ∀ b, removePhaseBuffers l key m (key p) = some b → b.inv = true := by
    intro l
    induction l with
    | nil => intro m p hp; simp at hp
    | cons y l ih =>
      intro m p hp b hb
      by_cases hl : p ∈ l
      · exact ih _ p hl b hb
      · have hy : p = y := by simpa [hl] using hp
        subst hy
        have hb' := (hs l _).some hb
        cases e : m (key p) with
        | none => simp only [e] at hb'; cases hb'
        | some b0 =>
          simp only [e] at hb'
          split at hb'
          · simp [remove] at hb'
          · rename_i hi
            rw [e] at hb'
            rw [← Option.some.inj hb']
            simpa using hi
  exact fun p b => key2 ord m p (ho.all p) b

/-- Every buffer that involves `s` is a controlled-NOT. -/
def PlainOn (m : Bufs Q) (s : Q) : Prop :=
  ∀ k b, m k = some b → (k.ctrl = s ∨ k.tgt = s) → b = ⟨1, 1, true⟩

theorem clearMap_step (ho : Order ord) {key : Q → Key Q} (hk : Function.Injective key) (m : Bufs Q) (k : Key Q) :
    (clearMapInvertPhase ord key m k = m k ∧ ∀ p, k ≠ key p) ∨
    ((∃ p, k = key p) ∧ clearMapInvertPhase ord key m k = (m k).map cleared) := by
  obtain ⟨h1, h2⟩ := fold_modify ho hk cleared m
  by_cases h : ∃ p, k = key p
  · obtain ⟨p, rfl⟩ := h
    exact Or.inr ⟨⟨p, rfl⟩, h1 p⟩
  · push Not at h
    exact Or.inl ⟨h2 k h, h⟩

theorem plain_step (ho : Order ord) (m : Bufs Q) (s : Q) :
    PlainOn (clearInvertPhase ord s (dumpPhaseBuffers ord s m)) s ∧
    ∀ s', PlainOn m s' → PlainOn (clearInvertPhase ord s (dumpPhaseBuffers ord s m)) s' := by
  obtain ⟨s1, p1⟩ := removePhase_at ho (inj_tgt false s) m
  obtain ⟨s2, p2⟩ := removePhase_at ho (inj_tgt true s) (removePhaseBuffers ord (fun p => ⟨false, p, s⟩) m)
  obtain ⟨s3, p3⟩ := removePhase_at ho (inj_ctrl false s) (removePhaseBuffers ord (fun p => ⟨true, p, s⟩)
    (removePhaseBuffers ord (fun p => ⟨false, p, s⟩) m))
  obtain ⟨s4, p4⟩ := removePhase_at ho (inj_ctrl true s) (removePhaseBuffers ord (fun p => ⟨false, s, p⟩)
    (removePhaseBuffers ord (fun p => ⟨true, p, s⟩) (removePhaseBuffers ord (fun p => ⟨false, p, s⟩) m)))
  have hsub : Sub (dumpPhaseBuffers ord s m) m := ((s4.trans s3).trans s2).trans s1
  have hinv : ∀ k b, dumpPhaseBuffers ord s m k = some b → (k.ctrl = s ∨ k.tgt = s) → b.inv = true := by
    rintro ⟨a, c, t⟩ b e (h | h)
    · obtain rfl : c = s := h
      cases a
      · exact p3 t b (s4.some e)
      · exact p4 t b e
    · obtain rfl : t = s := h
      cases a
      · exact p1 c b (s2.some (s3.some (s4.some e)))
      · exact p2 c b (s3.some (s4.some e))
  generalize dumpPhaseBuffers ord s m = n at hsub hinv
  have hidem : ∀ b, cleared (cleared b) = cleared b := by
    intro b
    rcases b with ⟨d, e, i⟩
    cases i <;> rfl
  -- each entry of the result is an entry of `n`, cleared if it involves `s`
  have hat : ∀ k b, clearInvertPhase ord s n k = some b →
      ∃ b0, n k = some b0 ∧ (b = b0 ∨ b = cleared b0) ∧ (k.ctrl = s ∨ k.tgt = s → b = cleared b0) := by
    intro k b e
    unfold clearInvertPhase at e
    have c1 := clearMap_step ho (inj_ctrl false s) n k
    have c2 := clearMap_step ho (inj_ctrl true s) (clearMapInvertPhase ord (fun p => ⟨false, s, p⟩) n) k
    have c3 := clearMap_step ho (inj_tgt false s) (clearMapInvertPhase ord (fun p => ⟨true, s, p⟩)
      (clearMapInvertPhase ord (fun p => ⟨false, s, p⟩) n)) k
    have c4 := clearMap_step ho (inj_tgt true s) (clearMapInvertPhase ord (fun p => ⟨false, p, s⟩)
      (clearMapInvertPhase ord (fun p => ⟨true, s, p⟩) (clearMapInvertPhase ord (fun p => ⟨false, s, p⟩) n))) k
    have step : ∀ {x y : Option PhaseShard} {P : Prop}, ((y = x ∧ ¬ P) ∨ (P ∧ y = x.map cleared)) →
        (y = x ∨ y = x.map cleared) ∧ (P → y = x.map cleared) := by
      rintro x y P (⟨h, hp⟩ | ⟨hp, h⟩)
      · exact ⟨Or.inl h, fun q => absurd q hp⟩
      · exact ⟨Or.inr h, fun _ => h⟩
    obtain ⟨d1, f1⟩ := step (P := ∃ p, k = (⟨false, s, p⟩ : Key Q)) (by rcases c1 with h | h; exact Or.inl ⟨h.1, by rintro ⟨p, hp⟩; exact h.2 p hp⟩; exact Or.inr h)
    obtain ⟨d2, f2⟩ := step (P := ∃ p, k = (⟨true, s, p⟩ : Key Q)) (by rcases c2 with h | h; exact Or.inl ⟨h.1, by rintro ⟨p, hp⟩; exact h.2 p hp⟩; exact Or.inr h)
    obtain ⟨d3, f3⟩ := step (P := ∃ p, k = (⟨false, p, s⟩ : Key Q)) (by rcases c3 with h | h; exact Or.inl ⟨h.1, by rintro ⟨p, hp⟩; exact h.2 p hp⟩; exact Or.inr h)
    obtain ⟨d4, f4⟩ := step (P := ∃ p, k = (⟨true, p, s⟩ : Key Q)) (by rcases c4 with h | h; exact Or.inl ⟨h.1, by rintro ⟨p, hp⟩; exact h.2 p hp⟩; exact Or.inr h)
    rw [e] at d4 f4
    generalize clearMapInvertPhase ord (fun p => ⟨false, p, s⟩)
      (clearMapInvertPhase ord (fun p => ⟨true, s, p⟩) (clearMapInvertPhase ord (fun p => ⟨false, s, p⟩) n)) k = x3 at *
    generalize clearMapInvertPhase ord (fun p => ⟨true, s, p⟩)
      (clearMapInvertPhase ord (fun p => ⟨false, s, p⟩) n) k = x2 at *
    generalize clearMapInvertPhase ord (fun p => ⟨false, s, p⟩) n k = x1 at *
    cases e0 : n k with
    | none =>
      rw [e0] at d1
      have g1 : x1 = none := by rcases d1 with h | h <;> simpa using h
      rw [g1] at d2
      have g2 : x2 = none := by rcases d2 with h | h <;> simpa using h
      rw [g2] at d3
      have g3 : x3 = none := by rcases d3 with h | h <;> simpa using h
      rw [g3] at d4
      rcases d4 with h | h <;> simp at h
    | some b0 =>
      refine ⟨b0, rfl, ?_⟩
      rw [e0] at d1 f1
      have lift : ∀ {x y : Option PhaseShard} {P : Prop} {R : Prop},
          ((y = x ∨ y = x.map cleared) ∧ (P → y = x.map cleared)) →
          ((x = some b0 ∨ x = some (cleared b0)) ∧ (R → x = some (cleared b0))) →
          ((y = some b0 ∨ y = some (cleared b0)) ∧ (R ∨ P → y = some (cleared b0))) := by
        rintro x y P R ⟨h1, h2⟩ ⟨h3, h4⟩
        constructor
        · rcases h1 with rfl | rfl <;> rcases h3 with rfl | rfl <;> simp [hidem]
        · rintro (r | p)
          · rw [h4 r] at h1
            rcases h1 with rfl | rfl
            · rfl
            · simp [hidem]
          · rw [h2 p]
            rcases h3 with rfl | rfl <;> simp [hidem]
      have g1 := lift (R := False) ⟨d1, f1⟩ ⟨Or.inl rfl, False.elim⟩
      have g2 := lift ⟨d2, f2⟩ g1
      have g3 := lift ⟨d3, f3⟩ g2
      have g4 := lift ⟨d4, f4⟩ g3
      refine ⟨by rcases g4.1 with h | h <;> [left; right] <;> exact Option.some.inj h, fun h => ?_⟩
      apply Option.some.inj
      apply g4.2
      rcases k with ⟨a, c, t⟩
      rcases h with h | h
      · obtain rfl : c = s := h
        cases a
        · exact Or.inl (Or.inl (Or.inl (Or.inr ⟨t, rfl⟩)))
        · exact Or.inl (Or.inl (Or.inr ⟨t, rfl⟩))
      · obtain rfl : t = s := h
        cases a
        · exact Or.inl (Or.inr ⟨c, rfl⟩)
        · exact Or.inr ⟨c, rfl⟩
  constructor
  · intro k b e hk
    obtain ⟨b0, e0, _, hb⟩ := hat k b e
    rw [hb hk]
    have := hinv k b0 e0 hk
    unfold cleared
    rw [if_pos this]
    rcases b0 with ⟨d, e, i⟩
    simp only at this
    simp [this]
  · intro s' hs' k b e hk
    obtain ⟨b0, e0, hb, _⟩ := hat k b e
    have := hs' k b0 (hsub.some e0) hk
    subst this
    rcases hb with rfl | rfl <;> rfl

theorem mAll_plain (ho : Order ord) (m : Bufs Q) (k : Key Q) {b : PhaseShard} (e : mAllBuffers ord m k = some b) :
    b = ⟨1, 1, true⟩ := by
  have key : ∀ (l : List Q) (m : Bufs Q) s, (PlainOn m s ∨ s ∈ l) →
      PlainOn (l.foldl (fun m s => clearInvertPhase ord s (dumpPhaseBuffers ord s m)) m) s := by
    intro l
    induction l with
    | nil => intro m s h; simpa using h
    | cons q l ih =>
      intro m s h
      apply ih
      rcases h with h | h
      · exact Or.inl ((plain_step ho m q).2 s h)
      · rcases List.mem_cons.mp h with rfl | h
        · exact Or.inl (plain_step ho m s).1
        · exact Or.inr h
  exact key ord m k.ctrl (Or.inr (ho.all _)) k b e (Or.inl rfl)

/-! ### Measuring one qubit -/

theorem project_op {k : Key Q} {b : PhaseShard} {i : Q} (v : Bool) (h : b.inv = true → k.tgt ≠ i) (ψ : St Q) :
    op k b (project i v ψ) = project i v (op k b ψ) := by
  have e : ∀ ψ : St Q, project i v ψ = fun s => (if s i = v then 1 else 0) * ψ s := by
    intro ψ; funext s; unfold project; split <;> simp
  cases hb : b.inv
  · simp only [e, op_phase hb]
    funext s; ring
  · simp only [e]
    refine onWhen_diag (f := fun s => if s i = v then 1 else 0) (fun s w => ?_) _ ψ
    rw [Function.update_of_ne (h hb).symm]

/-- The state is zero unless qubit `i` is `v`. -/
def Eigen (i : Q) (v : Bool) (ψ : St Q) : Prop := ∀ s, s i ≠ v → ψ s = 0

theorem op_eigen {p : Q} {v : Bool} {i : Q} {ψ : St Q} (h : Eigen i v ψ) (hp : i ≠ p) (b : PhaseShard) :
    op ⟨v, i, p⟩ b ψ = ψ := by
  funext s
  unfold op onWhen
  split
  · rename_i hs
    have hs : s i ≠ v := by
      have : s i = !v := by simpa using hs
      rw [this]; cases v <;> simp
    rw [h s hs]
    unfold onQubit
    have z : ∀ w, ψ (Function.update s p w) = 0 := fun w => h _ (by rwa [Function.update_of_ne hp])
    simp only [z]
    split <;> ring
  · rfl

theorem goodU_flushEigenstate (ho : Order ord) {u : QUnit Q} (h : Inv u.bufs) {i : Q} {v : Bool} (he : Eigen i v u.base) :
    GoodU ord u (flushEigenstate ord v i u) := by
  unfold flushEigenstate
  simp only []
  have h1 := (good_optimizeTargets ho h v i).toU (u := u)
  have h2 : GoodU ord u { u with bufs := dumpControlOf ord v i u.bufs } := by
    unfold dumpControlOf
    have key : ∀ (l : List Q) (m : Bufs Q), Inv m →
        Inv (l.foldl (fun m p => remove m ⟨v, i, p⟩) m) ∧
        pending ord (l.foldl (fun m p => remove m ⟨v, i, p⟩) m) u.base = pending ord m u.base := by
      intro l
      induction l with
      | nil => intro m hm; exact ⟨hm, rfl⟩
      | cons p l ih =>
        intro m hm
        obtain ⟨a, b⟩ := ih (remove m ⟨v, i, p⟩) (hm.remove _)
        refine ⟨a, b.trans ?_⟩
        rw [pending_remove_inner ho hm ⟨v, i, p⟩]
        cases e : m ⟨v, i, p⟩ with
        | none => rfl
        | some b =>
          show _ = pending ord _ (op _ b u.base)
          rw [op_eigen he (hm.ne _ b e)]
    obtain ⟨a, b⟩ := key ord _ h1.1
    exact ⟨a, b.trans h1.2⟩
  exact h2.trans (goodU_revert ho h2.1 i _ _ _ _ _ _)

theorem does_forceM (ho : Order ord) {u : QUnit Q} (h : Inv u.bufs) (v : Bool) (i : Q) :
    Does ord (project i v) u (forceM ord v i u) := by
  unfold forceM
  simp only []
  have h1 := goodU_revertInvertTargets ho h i
  have hn := noInvOn_revert ho u i
  refine h1.does ?_
  generalize revertInvertTargets ord i u = w at h1 hn
  have h2 : Does ord (project i v) w { w with base := project i v w.base } := by
    refine ⟨h1.1, pending_through ho h1.1 (project i v) (fun k b e ψ => ?_) w.base⟩
    refine project_op v (fun hi ht => ?_) ψ
    rw [hn k b e ht] at hi; cases hi
  refine h2.good ?_
  refine goodU_flushEigenstate ho (u := { w with base := project i v w.base }) h1.1 ?_
  intro s hs
  show project i v w.base s = 0
  unfold project
  rw [if_neg hs]

end Verif.Phase
