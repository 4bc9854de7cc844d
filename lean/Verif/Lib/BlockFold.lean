import Mathlib.Data.List.Perm.Basic
import Mathlib.Logic.Function.Basic

/-!
Loops whose iterations rewrite disjoint blocks of an array, and loops that scatter one array into another.
-/

namespace Verif.BlockFold

variable {α : Type*}

/-- If each iteration only changes, and only depends on, its own block, and blocks are disjoint, then the whole
loop acts on each block as the one iteration that owns it, in any order. -/
theorem block_fold {ι κ : Type*} (step : (κ → α) → ι → (κ → α)) (blk : ι → κ → Prop) :
    ∀ (l : List ι), l.Nodup →
    (∀ x ∈ l, ∀ s i, ¬ blk x i → step s x i = s i) →
    (∀ x ∈ l, ∀ s s', (∀ i, blk x i → s i = s' i) → ∀ i, blk x i → step s x i = step s' x i) →
    (∀ x ∈ l, ∀ y ∈ l, ∀ i, blk x i → blk y i → x = y) → ∀ s,
    (∀ x ∈ l, ∀ i, blk x i → l.foldl step s i = step s x i) ∧
    (∀ i, (∀ x ∈ l, ¬ blk x i) → l.foldl step s i = s i) := by
  intro l
  induction l with
  | nil => intro _ _ _ _ s; simp
  | cons y l ih =>
    intro hn hoff hdep hdis s
    rw [List.nodup_cons] at hn
    obtain ⟨h1, h2⟩ := ih hn.2 (fun x hx => hoff x (by simp [hx])) (fun x hx => hdep x (by simp [hx]))
      (fun x hx z hz => hdis x (by simp [hx]) z (by simp [hz])) (step s y)
    rw [List.foldl_cons]
    have hne : ∀ x ∈ l, ∀ i, blk x i → ¬ blk y i := fun x hx i hi hy => by
      have := hdis x (by simp [hx]) y (by simp) i hi hy
      subst this; exact hn.1 hx
    constructor
    · intro x hx i hi
      rw [List.mem_cons] at hx
      rcases hx with rfl | hx
      · by_cases hl : ∃ z ∈ l, blk z i
        · obtain ⟨z, hz, hzi⟩ := hl
          exact absurd hi (hne z hz i hzi)
        · rw [h2 i (fun z hz hzi => hl ⟨z, hz, hzi⟩)]
      · rw [h1 x hx i hi]
        exact hdep x (by simp [hx]) _ _ (fun j hj => hoff y (by simp) s j (hne x hx j hj)) i hi
    · intro i hi
      rw [h2 i (fun x hx => hi x (by simp [hx])), hoff y (by simp) s i (hi y (by simp))]

/-- One after the other, write `val x` to cell `out x`. -/
def scatter (init : ℕ → α) (l : List ℕ) (out : ℕ → ℕ) (val : ℕ → α) : ℕ → α :=
  l.foldl (fun s x => Function.update s (out x) (val x)) init

theorem scatter_off (out : ℕ → ℕ) (val : ℕ → α) : ∀ (l : List ℕ) (init : ℕ → α) (j : ℕ),
    (∀ x ∈ l, out x ≠ j) → scatter init l out val j = init j := by
  intro l
  induction l with
  | nil => intro init j _; rfl
  | cons y l ih =>
    intro init j h
    show scatter (Function.update init (out y) (val y)) l out val j = init j
    rw [ih _ _ (fun x hx => h x (by simp [hx])), Function.update_of_ne (Ne.symm (h y (by simp)))]

theorem scatter_at (out : ℕ → ℕ) (val : ℕ → α) : ∀ (l : List ℕ) (init : ℕ → α),
    (∀ x ∈ l, ∀ y ∈ l, out x = out y → val x = val y) → ∀ x ∈ l, scatter init l out val (out x) = val x := by
  intro l
  induction l with
  | nil => intro init _ x hx; simp at hx
  | cons y l ih =>
    intro init h x hx
    show scatter (Function.update init (out y) (val y)) l out val (out x) = val x
    by_cases hl : ∃ z ∈ l, out z = out x
    · obtain ⟨z, hz, hzx⟩ := hl
      rw [← hzx, ih _ (fun a ha b hb => h a (by simp [ha]) b (by simp [hb])) z hz]
      exact h z (by simp [hz]) x hx hzx
    · rw [scatter_off _ _ _ _ _ (fun z hz hzx => hl ⟨z, hz, hzx⟩)]
      rw [List.mem_cons] at hx
      rcases hx with rfl | hx
      · rw [Function.update_self]
      · exact absurd ⟨x, hx, rfl⟩ hl

/-- One after the other, write each pair. -/
def writes (init : ℕ → α) (l : List (ℕ × α)) : ℕ → α := l.foldl (fun s p => Function.update s p.1 p.2) init

theorem writes_off : ∀ (l : List (ℕ × α)) (init : ℕ → α) (j : ℕ), (∀ p ∈ l, p.1 ≠ j) → writes init l j = init j := by
  intro l
  induction l with
  | nil => intro init j _; rfl
  | cons y l ih =>
    intro init j h
    show writes (Function.update init y.1 y.2) l j = init j
    rw [ih _ _ (fun x hx => h x (by simp [hx])), Function.update_of_ne (Ne.symm (h y (by simp)))]

/-- A cell that is written at least once, always with the same value, ends up with that value. -/
theorem writes_at : ∀ (l : List (ℕ × α)) (init : ℕ → α) (j : ℕ) (v : α), (∃ p ∈ l, p.1 = j) →
    (∀ p ∈ l, p.1 = j → p.2 = v) → writes init l j = v := by
  intro l
  induction l with
  | nil => intro init j v h _; simp at h
  | cons y l ih =>
    intro init j v h hv
    show writes (Function.update init y.1 y.2) l j = v
    by_cases hl : ∃ p ∈ l, p.1 = j
    · exact ih _ _ _ hl (fun p hp => hv p (by simp [hp]))
    · rw [writes_off _ _ _ (fun p hp hpj => hl ⟨p, hp, hpj⟩)]
      obtain ⟨p, hp, hpj⟩ := h
      rw [List.mem_cons] at hp
      rcases hp with rfl | hp
      · rw [← hpj, Function.update_self]; exact hv p (by simp) hpj
      · exact absurd ⟨p, hp, hpj⟩ hl

end Verif.BlockFold
