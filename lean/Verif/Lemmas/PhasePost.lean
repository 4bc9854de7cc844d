import Verif.Lemmas.PhaseBuf
import Verif.Lib.BlockFold

/-!
Which buffers are left after flushing, and the loops of the commutation rules entry by entry.
-/

namespace Verif.Phase

open Verif.Matrix2 Verif.Spec.Circuit

variable {Q : Type} [DecidableEq Q] {ord : List Q}

/-! ### What is left -/

/-- Nothing was added or changed. -/
def Sub (m' m : Bufs Q) : Prop := ∀ k, m' k = none ∨ m' k = m k

/-- No place was added, no kind changed. -/
def Tame (m' m : Bufs Q) : Prop := ∀ k b', m' k = some b' → ∃ b, m k = some b ∧ b'.inv = b.inv

/-- No inversion was added. -/
def TameI (m' m : Bufs Q) : Prop := ∀ k b', m' k = some b' → b'.inv = true → ∃ b, m k = some b ∧ b.inv = true

theorem Sub.some {m' m : Bufs Q} (h : Sub m' m) {k : Key Q} {b : PhaseShard} (e : m' k = some b) : m k = some b := by
  rcases h k with h | h
  · rw [h] at e; cases e
  · rw [← h, e]

theorem Sub.refl (m : Bufs Q) : Sub m m := fun _ => Or.inr rfl

theorem Sub.trans {m m' m'' : Bufs Q} (h : Sub m'' m') (h' : Sub m' m) : Sub m'' m := by
  intro k
  rcases h k with h | h
  · exact Or.inl h
  · rw [h]; exact h' k

theorem Sub.remove (m : Bufs Q) (k : Key Q) : Sub (remove m k) m := by
  intro k'
  unfold Phase.remove
  by_cases e : k' = k
  · left; rw [e, Function.update_self]
  · right; rw [Function.update_of_ne e]

theorem Sub.tame {m m' : Bufs Q} (h : Sub m' m) : Tame m' m := fun _ b' e => ⟨b', h.some e, rfl⟩

theorem Tame.refl (m : Bufs Q) : Tame m m := (Sub.refl m).tame

theorem Tame.trans {m m' m'' : Bufs Q} (h : Tame m'' m') (h' : Tame m' m) : Tame m'' m := by
  intro k b e
  obtain ⟨b1, e1, i1⟩ := h k b e
  obtain ⟨b2, e2, i2⟩ := h' k b1 e1
  exact ⟨b2, e2, i1.trans i2⟩

theorem Tame.none {m m' : Bufs Q} (h : Tame m' m) {k : Key Q} (e : m k = none) : m' k = none := by
  cases e' : m' k with
  | none => rfl
  | some b =>
    obtain ⟨b0, e0, _⟩ := h k b e'
    rw [e] at e0; cases e0

theorem Tame.tameI {m m' : Bufs Q} (h : Tame m' m) : TameI m' m := by
  intro k b e hi
  obtain ⟨b1, e1, i1⟩ := h k b e
  exact ⟨b1, e1, i1 ▸ hi⟩

theorem TameI.refl (m : Bufs Q) : TameI m m := (Tame.refl m).tameI

theorem TameI.trans {m m' m'' : Bufs Q} (h : TameI m'' m') (h' : TameI m' m) : TameI m'' m := by
  intro k b e hi
  obtain ⟨b1, e1, i1⟩ := h k b e hi
  exact h' k b1 e1 i1

theorem addAngles_some {m : Bufs Q} {k : Key Q} {d s : ℂ} {k' : Key Q} {b' : PhaseShard}
    (e : addAngles m k d s k' = some b') : (k' = k ∧ b'.inv = (get m k).inv) ∨ m k' = some b' := by
  by_cases hk : k' = k
  · left
    refine ⟨hk, ?_⟩
    rw [hk] at e
    unfold addAngles at e
    simp only [addBuffer_get, Function.update_self] at e
    split at e
    · rw [remove, Function.update_self] at e; cases e
    · rw [Function.update_self] at e
      rw [← Option.some.inj e]
  · right
    unfold addAngles at e
    simp only [addBuffer_get, Function.update_self] at e
    split at e
    · rwa [remove, Function.update_of_ne hk, Function.update_of_ne hk] at e
    · rwa [Function.update_of_ne hk, Function.update_of_ne hk] at e

theorem get_inv {m : Bufs Q} {k : Key Q} (h : (get m k).inv = true) : ∃ b, m k = some b ∧ b.inv = true := by
  cases e : m k with
  | none => simp [get, e, PhaseShard.fresh] at h
  | some b => exact ⟨b, rfl, by simpa [get, e] using h⟩

theorem tameI_addAngles (m : Bufs Q) (k : Key Q) (d s : ℂ) : TameI (addAngles m k d s) m := by
  intro k' b' e hi
  rcases addAngles_some e with ⟨rfl, h⟩ | h
  · exact get_inv (h ▸ hi)
  · exact ⟨b', h, hi⟩

theorem tameI_move (m : Bufs Q) (k k' : Key Q) (d s : ℂ) : TameI (addAngles (remove m k) k' d s) m :=
  (tameI_addAngles _ _ _ _).trans (Sub.remove m k).tame.tameI

theorem tameI_optimizeControls (m : Bufs Q) (a : Bool) (s : Q) : TameI (optimizeControls ord a s m) m := by
  refine foldl_inv (P := fun m' => TameI m' m) (fun m' p _ h => TameI.trans ?_ h) (TameI.refl m)
  cases m' ⟨a, s, p⟩ with
  | none => exact TameI.refl _
  | some b =>
    simp only []
    split
    · exact TameI.refl _
    · exact tameI_move _ _ _ _ _

theorem tameI_optimizeTargets (m : Bufs Q) (a : Bool) (s : Q) : TameI (optimizeTargets ord a s m) m := by
  refine foldl_inv (P := fun m' => TameI m' m) (fun m' p _ h => TameI.trans ?_ h) (TameI.refl m)
  cases m' ⟨a, p, s⟩ with
  | none => exact TameI.refl _
  | some b =>
    simp only []
    split
    · exact TameI.refl _
    · exact tameI_move _ _ _ _ _

theorem tameI_optimizeBothTargets (m : Bufs Q) (s : Q) : TameI (optimizeBothTargets ord s m) m := by
  have key : ∀ a (m : Bufs Q), TameI (optimizeBothTargetsLoop ord a s m) m := by
    intro a m
    refine foldl_inv (P := fun m' => TameI m' m) (fun m' p _ h => TameI.trans ?_ h) (TameI.refl m)
    cases m' ⟨a, p, s⟩ with
    | none => exact TameI.refl _
    | some b =>
      simp only []
      split
      · exact TameI.refl _
      · split
        · exact tameI_move _ _ _ _ _
        · split
          · exact tameI_move _ _ _ _ _
          · exact TameI.refl _
  exact (key _ _).trans (key _ _)

theorem tame_move {m : Bufs Q} {k k' : Key Q} {b b2 : PhaseShard} (e : m k = some b) (e2 : m k' = some b2)
    (hb : b.inv = false) (d s : ℂ) : Tame (addAngles (remove m k) k' d s) m := by
  intro k3 b3 e3
  rcases addAngles_some e3 with ⟨rfl, h⟩ | h
  · by_cases hk : k3 = k
    · refine ⟨b, hk ▸ e, ?_⟩
      rw [h, hb, hk]
      simp [get, remove, PhaseShard.fresh]
    · refine ⟨b2, e2, ?_⟩
      rw [h]
      simp [get, remove, Function.update_of_ne hk, e2]
  · exact ⟨b3, (Sub.remove m k).some h, rfl⟩

theorem tame_combineGates (m : Bufs Q) (s : Q) : Tame (combineGates ord s m) m := by
  have key : ∀ a (m : Bufs Q), Tame (combineBuffers ord a s m) m := by
    intro a m
    refine foldl_inv (P := fun m' => Tame m' m) (fun m' p _ h => Tame.trans ?_ h) (Tame.refl m)
    cases e : m' ⟨a, s, p⟩ with
    | none => exact Tame.refl _
    | some b =>
      cases e' : m' ⟨a, p, s⟩ with
      | none => exact Tame.refl _
      | some b' =>
        simp only []
        split
        · rename_i hc; exact tame_move e e' hc.1 _ _
        · split
          · rename_i hc; exact tame_move e' e hc.1 _ _
          · exact Tame.refl _
  exact (key _ _).trans (key _ _)

theorem tameI_revertOptimize (m : Bufs Q) (i : Q) (excl : Excl) (side : Side) (kind : Kind) (skip : Bool) :
    TameI (revertOptimize ord i excl side kind skip m) m := by
  unfold revertOptimize
  split
  · simp only []
    have h1 : TameI (if kind ≠ .onlyAnti then optimizeControls ord false i m else m) m := by
      split
      · exact tameI_optimizeControls m false i
      · exact TameI.refl m
    split
    · exact (tameI_optimizeControls _ true i).trans h1
    · exact h1
  · split
    · cases kind
      · exact tameI_optimizeBothTargets m i
      · exact tameI_optimizeTargets m false i
      · exact tameI_optimizeTargets m true i
    · exact TameI.refl m

/-- A buffer that `ApplyBufferMap` leaves alone because of the exclusivity. -/
def Skips (excl : Excl) (b : PhaseShard) : Prop :=
  (excl = .onlyInvert ∧ b.inv = false) ∨ (excl = .onlyPhase ∧ b.inv = true)

theorem sub_applyBufferMap (l : List Q) (key : Q → Key Q) (excl : Excl) (except : Q → Bool) (u : QUnit Q) :
    Sub (applyBufferMap l key excl except u).bufs u.bufs := by
  refine foldl_inv (P := fun u' : QUnit Q => Sub u'.bufs u.bufs) (fun u' p _ h => Sub.trans ?_ h) (Sub.refl _)
  cases u'.bufs (key p) with
  | none => exact Sub.refl _
  | some b =>
    simp only []
    split
    · exact Sub.refl _
    · split
      · exact Sub.refl _
      · exact Sub.remove _ _

theorem post_applyBufferMap (key : Q → Key Q) (excl : Excl) (except : Q → Bool) : ∀ (l : List Q) (u : QUnit Q) (p : Q),
    p ∈ l → ∀ b, (applyBufferMap l key excl except u).bufs (key p) = some b → Skips excl b ∨ except p = true := by
  intro l
  induction l with
  | nil => intro u p hp; simp at hp
  | cons y l ih =>
    intro u p hp b hb
    by_cases hl : p ∈ l
    · exact ih _ p hl b hb
    · have hy : p = y := by simpa [hl] using hp
      subst hy
      have hb' := (sub_applyBufferMap l key excl except _).some hb
      cases e : u.bufs (key p) with
      | none => simp only [e] at hb'; cases hb'
      | some b0 =>
        simp only [e] at hb'
        split at hb'
        · rename_i hs
          rw [e] at hb'
          left; rw [← Option.some.inj hb']; exact hs
        · split at hb'
          · rename_i h; exact Or.inr h
          · simp [applyBuffer, remove] at hb'

/-- The kind of buffer is one that is flushed. -/
def Kind.has : Kind → Bool → Prop
  | kind, false => kind ≠ .onlyAnti
  | kind, true => kind ≠ .onlyCtrl

/-- Two applications of `ApplyBufferMap`, each under a condition. -/
theorem two_maps (ho : Order ord) {key : Bool → Q → Key Q} {excl : Excl} {e : Q → Bool} {kind : Kind} (v : QUnit Q) :
    let w := if kind ≠ .onlyCtrl then applyBufferMap ord (key true) excl e
        (if kind ≠ .onlyAnti then applyBufferMap ord (key false) excl e v else v)
      else (if kind ≠ .onlyAnti then applyBufferMap ord (key false) excl e v else v)
    Sub w.bufs v.bufs ∧ ∀ a p b, kind.has a → w.bufs (key a p) = some b → Skips excl b ∨ e p = true := by
  intro w
  set x := (if kind ≠ .onlyAnti then applyBufferMap ord (key false) excl e v else v) with hx
  have h1 : Sub x.bufs v.bufs := by
    rw [hx]; split
    · exact sub_applyBufferMap _ _ _ _ _
    · exact Sub.refl _
  have h2 : Sub w.bufs x.bufs := by
    show Sub (if kind ≠ .onlyCtrl then _ else x).bufs x.bufs
    split
    · exact sub_applyBufferMap _ _ _ _ _
    · exact Sub.refl _
  refine ⟨h2.trans h1, ?_⟩
  intro a p b ha hb
  cases a
  · have hk : kind ≠ .onlyAnti := ha
    have := h2.some hb
    rw [hx, if_pos hk] at this
    exact post_applyBufferMap _ _ _ _ _ p (ho.all p) b this
  · have hk : kind ≠ .onlyCtrl := ha
    have hb' : (if kind ≠ .onlyCtrl then applyBufferMap ord (key true) excl e x else x).bufs (key true p) = some b := hb
    rw [if_pos hk] at hb'
    exact post_applyBufferMap _ _ _ _ _ p (ho.all p) b hb'

theorem revert_post (ho : Order ord) (u : QUnit Q) (i : Q) (excl : Excl) (side : Side) (kind : Kind)
    (e1 e2 : Q → Bool) (skip : Bool) :
    let u' := revertBasis2Qb ord i excl side kind e1 e2 skip u
    Sub u'.bufs (revertOptimize ord i excl side kind skip (combineGates ord i u.bufs)) ∧
    (∀ a p b, side ≠ .onlyTargets → kind.has a → u'.bufs ⟨a, i, p⟩ = some b → Skips excl b ∨ e1 p = true) ∧
    (∀ a p b, side ≠ .onlyControls → kind.has a → u'.bufs ⟨a, p, i⟩ = some b → Skips excl b ∨ e2 p = true) := by
  intro u'
  have hdef : u' = revertBasis2Qb ord i excl side kind e1 e2 skip u := rfl
  unfold revertBasis2Qb at hdef
  simp only [] at hdef
  set m0 := revertOptimize ord i excl side kind skip (combineGates ord i u.bufs) with hm0
  set v : QUnit Q := { u with bufs := m0 } with hv
  obtain ⟨s1, p1⟩ := two_maps ho (key := fun a p => ⟨a, i, p⟩) (excl := excl) (e := e1) (kind := kind) v
  set w1 := (if kind ≠ .onlyCtrl then applyBufferMap ord (fun p => ⟨true, i, p⟩) excl e1
        (if kind ≠ .onlyAnti then applyBufferMap ord (fun p => ⟨false, i, p⟩) excl e1 v else v)
      else (if kind ≠ .onlyAnti then applyBufferMap ord (fun p => ⟨false, i, p⟩) excl e1 v else v)) with hw1
  set w := (if side ≠ .onlyTargets then w1 else v) with hw
  obtain ⟨s2, p2⟩ := two_maps ho (key := fun a p => ⟨a, p, i⟩) (excl := excl) (e := e2) (kind := kind) w
  have sw : Sub w.bufs m0 := by
    rw [hw]; split
    · exact s1
    · exact Sub.refl _
  have su : Sub u'.bufs w.bufs := by
    rw [hdef]; split
    · exact Sub.refl _
    · exact s2
  refine ⟨su.trans sw, ?_, ?_⟩
  · intro a p b hs hk hb
    have := su.some hb
    rw [hw, if_pos hs] at this
    exact p1 a p b hk this
  · intro a p b hs hk hb
    rw [hdef, if_neg hs] at hb
    exact p2 a p b hk hb

/-- `RevertBasis2Qb` adds no inversion. -/
theorem tameI_revert (ho : Order ord) (u : QUnit Q) (i : Q) (excl : Excl) (side : Side) (kind : Kind)
    (e1 e2 : Q → Bool) (skip : Bool) :
    TameI (revertBasis2Qb ord i excl side kind e1 e2 skip u).bufs u.bufs :=
  ((revert_post ho u i excl side kind e1 e2 skip).1.tame.tameI.trans (tameI_revertOptimize _ _ _ _ _ _)).trans
    (tame_combineGates _ _).tameI

theorem revertOptimize_none {m : Bufs Q} {i : Q} {excl : Excl} {side : Side} {kind : Kind} {skip : Bool}
    (h : skip = true ∨ side = .both ∨ excl = .onlyInvert) : revertOptimize ord i excl side kind skip m = m := by
  unfold revertOptimize
  rw [if_neg, if_neg]
  · rintro ⟨a, b, c⟩
    rcases h with h | h | h
    · rw [h] at a; cases a
    · rw [h] at b; cases b
    · exact c h
  · rintro ⟨a, b, c⟩
    rcases h with h | h | h
    · rw [h] at a; cases a
    · rw [h] at b; cases b
    · exact c h

/-- Without optimisation it adds nothing at all. -/
theorem tame_revert (ho : Order ord) (u : QUnit Q) (i : Q) (excl : Excl) (side : Side) (kind : Kind)
    (e1 e2 : Q → Bool) (skip : Bool) (h : skip = true ∨ side = .both ∨ excl = .onlyInvert) :
    Tame (revertBasis2Qb ord i excl side kind e1 e2 skip u).bufs u.bufs := by
  have := (revert_post ho u i excl side kind e1 e2 skip).1
  rw [revertOptimize_none h] at this
  exact this.tame.trans (tame_combineGates _ _)

/-- After `RevertBasis2Qb(i)` no buffer involves `i`. -/
theorem revertAll_post (ho : Order ord) (u : QUnit Q) (i : Q) (k : Key Q) (hk : k.ctrl = i ∨ k.tgt = i) :
    (revertAll ord i u).bufs k = none := by
  obtain ⟨_, h1, h2⟩ := revert_post ho u i .both .both .both noOne noOne false
  have hh : ∀ a, Kind.both.has a := by intro a; cases a <;> simp [Kind.has]
  rcases k with ⟨a, c, t⟩
  cases e : (revertAll ord i u).bufs ⟨a, c, t⟩ with
  | none => rfl
  | some b =>
    rcases hk with hk | hk
    · subst hk
      rcases h1 a t b (by simp) (hh a) e with h | h <;> simp [Skips, noOne] at h
    · subst hk
      rcases h2 a c b (by simp) (hh a) e with h | h <;> simp [Skips, noOne] at h

/-- After `RevertBasis2Qb(i, ONLY_INVERT, ONLY_TARGETS)` nothing inverts `i`. -/
theorem revertInvertTargets_post (ho : Order ord) (u : QUnit Q) (i : Q) (k : Key Q) (hk : k.tgt = i) {b : PhaseShard}
    (e : (revertInvertTargets ord i u).bufs k = some b) : b.inv = false := by
  obtain ⟨_, _, h2⟩ := revert_post ho u i .onlyInvert .onlyTargets .both noOne noOne false
  rcases k with ⟨a, c, t⟩
  subst hk
  rcases h2 a c b (by simp) (by cases a <;> simp [Kind.has]) e with h | h
  · simpa [Skips] using h
  · simp [noOne] at h

/-! ### Loops entry by entry -/

theorem fold_modify (ho : Order ord) {key : Q → Key Q} (hk : Function.Injective key) (f : PhaseShard → PhaseShard)
    (m : Bufs Q) :
    (∀ p, (ord.foldl (fun m p => modify m (key p) f) m) (key p) = (m (key p)).map f) ∧
    (∀ k, (∀ p, k ≠ key p) → (ord.foldl (fun m p => modify m (key p) f) m) k = m k) := by
  obtain ⟨h1, h2⟩ := BlockFold.block_fold (fun (m : Bufs Q) p => modify m (key p) f) (fun p k => k = key p) ord ho.nodup
    (fun p _ m k h => by show modify m (key p) f k = m k; rw [modify, Function.update_of_ne h])
    (fun p _ m m' h k hk => by
      show modify m (key p) f k = modify m' (key p) f k
      rw [hk, modify, modify, Function.update_self, Function.update_self, h _ rfl])
    (fun p _ q _ k h h' => hk (h.symm.trans h')) m
  refine ⟨fun p => ?_, fun k hk => h2 k fun p _ => hk p⟩
  rw [h1 p (ho.all p) _ rfl]
  show modify m (key p) f (key p) = _
  rw [modify, Function.update_self]

theorem inj_ctrl (a : Bool) (s : Q) : Function.Injective fun p : Q => (⟨a, s, p⟩ : Key Q) := by
  intro p q h; simpa using h

theorem inj_tgt (a : Bool) (s : Q) : Function.Injective fun p : Q => (⟨a, p, s⟩ : Key Q) := by
  intro p q h; simpa using h

theorem fold_targets (ho : Order ord) (a : Bool) (s : Q) (f : PhaseShard → PhaseShard) (m : Bufs Q) (k : Key Q) :
    (ord.foldl (fun m p => modify m ⟨a, p, s⟩ f) m) k = if k.anti = a ∧ k.tgt = s then (m k).map f else m k := by
  obtain ⟨h1, h2⟩ := fold_modify ho (inj_tgt a s) f m
  rcases k with ⟨a', c, t⟩
  split
  · rename_i h
    obtain ⟨rfl, rfl⟩ : a' = a ∧ t = s := h
    exact h1 c
  · rename_i h
    refine h2 _ fun p e => h ?_
    simp only [Key.mk.injEq] at e
    exact ⟨e.1, e.2.2⟩

theorem fold_controls (ho : Order ord) (a : Bool) (s : Q) (f : PhaseShard → PhaseShard) (m : Bufs Q) (k : Key Q) :
    (ord.foldl (fun m p => modify m ⟨a, s, p⟩ f) m) k = if k.anti = a ∧ k.ctrl = s then (m k).map f else m k := by
  obtain ⟨h1, h2⟩ := fold_modify ho (inj_ctrl a s) f m
  rcases k with ⟨a', c, t⟩
  split
  · rename_i h
    obtain ⟨rfl, rfl⟩ : a' = a ∧ c = s := h
    exact h1 t
  · rename_i h
    refine h2 _ fun p e => h ?_
    simp only [Key.mk.injEq] at e
    exact ⟨e.1, e.2.1⟩

theorem swapTargetAnti_at (c t : Q) (m : Bufs Q) (k : Key Q) :
    swapTargetAnti c t m k =
      if k.ctrl = c ∧ k.tgt = t then (m { k with anti := !k.anti }).map PhaseShard.swapped else m k := by
  rcases k with ⟨a, c', t'⟩
  unfold swapTargetAnti
  by_cases h : c' = c ∧ t' = t
  · obtain ⟨rfl, rfl⟩ := h
    rw [if_pos ⟨rfl, rfl⟩]
    cases e1 : m ⟨false, c', t'⟩ <;> cases e2 : m ⟨true, c', t'⟩ <;> cases a <;>
      simp [e1, e2, remove, Function.update_apply]
  · rw [if_neg h]
    have hne : ∀ a', (⟨a, c', t'⟩ : Key Q) ≠ ⟨a', c, t⟩ := by
      intro a' e
      simp only [Key.mk.injEq] at e
      exact h e.2
    cases e1 : m ⟨false, c, t⟩ <;> cases e2 : m ⟨true, c, t⟩ <;>
      simp [remove, Function.update_of_ne (hne _)]

theorem flipPhaseAnti_at (ho : Order ord) {m : Bufs Q} (hm : Inv m) (s : Q) (k : Key Q) :
    flipPhaseAnti ord s m k =
      if k.ctrl = s then (m { k with anti := !k.anti }).map PhaseShard.swapped
      else if k.tgt = s then (m k).map PhaseShard.swapped else m k := by
  unfold flipPhaseAnti
  simp only [fold_targets ho]
  have key : ∀ k, (ord.foldl (fun m p =>
      if (m ⟨false, s, p⟩).isSome || (m ⟨true, s, p⟩).isSome then swapTargetAnti s p m else m) m) k =
      if k.ctrl = s then (m { k with anti := !k.anti }).map PhaseShard.swapped else m k := by
    intro k
    obtain ⟨h1, h2⟩ := BlockFold.block_fold (fun (m : Bufs Q) p =>
        if (m ⟨false, s, p⟩).isSome || (m ⟨true, s, p⟩).isSome then swapTargetAnti s p m else m)
      (fun p k => k.ctrl = s ∧ k.tgt = p) ord ho.nodup
      (fun p _ m k h => by
        beta_reduce
        split
        · rw [swapTargetAnti_at, if_neg h]
        · rfl)
      (fun p _ m m' h k hk => by
        beta_reduce
        rw [h ⟨false, s, p⟩ ⟨rfl, rfl⟩, h ⟨true, s, p⟩ ⟨rfl, rfl⟩]
        split
        · rw [swapTargetAnti_at, swapTargetAnti_at, if_pos hk, if_pos hk, h]
          exact hk
        · exact h k hk)
      (fun p _ q _ k h h' => h.2.symm.trans h'.2) m
    split
    · rename_i hk
      rw [h1 k.tgt (ho.all _) k ⟨hk, rfl⟩]
      split
      · rw [swapTargetAnti_at, if_pos ⟨hk, rfl⟩]
      · rename_i hn
        simp only [Bool.or_eq_true, not_or, Bool.not_eq_true, Option.isSome_eq_false_iff,
          Option.isNone_iff_eq_none] at hn
        rcases k with ⟨a, c, t⟩
        obtain rfl : c = s := hk
        cases a <;> simp [hn.1, hn.2]
    · rename_i hk
      exact h2 k fun p _ h => hk h.1
  simp only [key]
  rcases k with ⟨a, c, t⟩
  by_cases hc : c = s
  · by_cases ht : t = s
    · have : m ⟨!a, c, t⟩ = none := by
        cases e : m ⟨!a, c, t⟩ with
        | none => rfl
        | some b => exact absurd (hc.trans ht.symm) (hm.ne _ _ e)
      cases a <;> simp_all
    · simp [hc, ht]
  · by_cases ht : t = s <;> cases a <;> simp [hc, ht]

/-! ### `CommutePhase` -/

/-- What `CommutePhase` does to an inverting buffer. -/
noncomputable def phaseConj (a : Bool) (x y : ℂ) (b : PhaseShard) : PhaseShard :=
  if b.inv = true then
    if a then { b with diff := b.diff * (y / x), same := b.same * (x / y) }
    else { b with diff := b.diff * (x / y), same := b.same * (y / x) }
  else b

/-- Either every buffer that targets `s` inverts, or none does. -/
def Uniform (m : Bufs Q) (s : Q) : Prop :=
  (∀ k b, m k = some b → k.tgt = s → b.inv = true) ∨ (∀ k b, m k = some b → k.tgt = s → b.inv = false)

theorem Inv.uniform {m : Bufs Q} (h : Inv m) (s : Q) : Uniform m s := by
  by_cases hh : ∃ k b, m k = some b ∧ k.tgt = s ∧ b.inv = true
  · obtain ⟨k, b, e, ht, hi⟩ := hh
    left
    intro k' b' e' ht'
    by_cases hk : k' = k
    · rw [hk, e] at e'; rw [← Option.some.inj e']; exact hi
    · exact absurd (ht'.trans ht.symm) (h.alone k b e hi k' b' e' hk).2
  · right
    intro k b e ht
    by_contra hc
    exact hh ⟨k, b, e, ht, by simpa using hc⟩

theorem commutePhase_at (ho : Order ord) {m : Bufs Q} {s : Q} (hu : Uniform m s) (x y : ℂ) (k : Key Q) :
    commutePhase ord s x y m k = if k.tgt = s then (m k).map (phaseConj k.anti x y) else m k := by
  rcases hu with hu | hu
  · -- every buffer inverts: the loops never return early
    have loop : ∀ (a : Bool) (f : PhaseShard → PhaseShard), (∀ b, (f b).inv = b.inv) → ∀ (l : List Q) (m : Bufs Q),
        (∀ k b, m k = some b → k.tgt = s → b.inv = true) →
        commutePhaseLoop l a s f (m, false) =
          (l.foldl (fun m p => modify m ⟨a, p, s⟩ f) m, false) := by
      intro a f hf l
      induction l with
      | nil => intro m _; rfl
      | cons p l ih =>
        intro m hm
        rw [commutePhaseLoop, List.foldl_cons, List.foldl_cons]
        have hm' : ∀ k b, modify m ⟨a, p, s⟩ f k = some b → k.tgt = s → b.inv = true := by
          intro k b e ht
          unfold modify at e
          by_cases hk : k = ⟨a, p, s⟩
          · rw [hk, Function.update_self] at e
            cases e0 : m ⟨a, p, s⟩ with
            | none => rw [e0] at e; cases e
            | some b0 =>
              rw [e0] at e
              have : f b0 = b := Option.some.inj e
              rw [← this, hf]
              exact hm _ _ e0 rfl
          · rw [Function.update_of_ne hk] at e; exact hm k b e ht
        have hstep : commutePhaseLoop [p] a s f (m, false) = (modify m ⟨a, p, s⟩ f, false) := by
          unfold commutePhaseLoop
          rw [List.foldl_cons, List.foldl_nil]
          cases e : m ⟨a, p, s⟩ with
          | none =>
            simp only [modify, e, Option.map_none]
            rw [← e, Function.update_eq_self]
          | some b =>
            have := hm _ _ e rfl
            simp [e, this]
        rw [commutePhaseLoop, List.foldl_cons, List.foldl_nil] at hstep
        rw [hstep]
        exact ih _ hm'
    unfold commutePhase
    rw [loop false (fun b => { b with diff := b.diff * (x / y), same := b.same * (y / x) }) (fun _ => rfl) ord m hu]
    rw [loop true (fun b => { b with diff := b.diff * (y / x), same := b.same * (x / y) }) (fun _ => rfl) ord]
    · simp only [fold_targets ho]
      rcases k with ⟨a, c, t⟩
      by_cases ht : t = s
      · subst ht
        cases e : m ⟨a, c, t⟩ with
        | none => cases a <;> simp
        | some b =>
          have := hu _ _ e rfl
          cases a <;> simp [phaseConj, this]
      · simp [ht]
    · intro k b e ht
      rw [fold_targets ho] at e
      split at e
      · cases e0 : m k with
        | none => rw [e0] at e; cases e
        | some b0 =>
          rw [e0] at e
          have := hu k b0 e0 ht
          rw [← Option.some.inj e]; exact this
      · exact hu k b e ht
  · have loop : ∀ (a : Bool) (f : PhaseShard → PhaseShard) (l : List Q) (r : Bufs Q × Bool), r.1 = m →
        (commutePhaseLoop l a s f r).1 = m := by
      intro a f l
      induction l with
      | nil => intro r h; exact h
      | cons p l ih =>
        intro r hr
        rw [commutePhaseLoop, List.foldl_cons]
        apply ih
        cases e : r.1 ⟨a, p, s⟩ with
        | none => exact hr
        | some b =>
          have hb : b.inv = false := hu _ _ (hr ▸ e) rfl
          simp only []
          rw [if_pos hb]
          split <;> exact hr
    have hcm : commutePhase ord s x y m = m := by
      unfold commutePhase
      exact loop true _ ord _ (loop false _ ord _ rfl)
    rw [hcm]
    split
    · rename_i ht
      cases e : m k with
      | none => rfl
      | some b =>
        have := hu k b e ht
        simp [phaseConj, this]
    · rfl

end Verif.Phase
