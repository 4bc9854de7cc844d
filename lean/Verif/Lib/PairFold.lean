import Mathlib.Data.List.Perm.Basic
import Mathlib.Algebra.BigOperators.Group.List.Basic
import Mathlib.Data.Real.Basic

/-!
Loops that rewrite disjoint pairs (or single cells) of an array.
-/

namespace Verif.PairFold

variable {α : Type*}

/-- One iteration: the cells `a x`, `b x` are replaced by a function of their contents, and a number
depending on the new contents is accumulated. -/
def pstep (a b : ℕ → ℕ) (K : ℕ → α → α → α × α) (g : α → α → ℝ) (st : (ℕ → α) × ℝ) (x : ℕ) :
    (ℕ → α) × ℝ :=
  let q := K x (st.1 (a x)) (st.1 (b x))
  (Function.update (Function.update st.1 (a x) q.1) (b x) q.2, st.2 + g q.1 q.2)

/-- The pairs of different iterations do not overlap. -/
structure Disj (a b : ℕ → ℕ) (l : List ℕ) : Prop where
  ab : ∀ x ∈ l, a x ≠ b x
  aa : ∀ x ∈ l, ∀ y ∈ l, a x = a y → x = y
  bb : ∀ x ∈ l, ∀ y ∈ l, b x = b y → x = y
  cross : ∀ x ∈ l, ∀ y ∈ l, a x ≠ b y

theorem fold_spec (a b : ℕ → ℕ) (K : ℕ → α → α → α × α) (g : α → α → ℝ) :
    ∀ (l : List ℕ), l.Nodup → Disj a b l → ∀ (s : ℕ → α) (r : ℝ),
    (∀ x ∈ l, ((l.foldl (pstep a b K g) (s, r)).1 (a x) = (K x (s (a x)) (s (b x))).1 ∧
      (l.foldl (pstep a b K g) (s, r)).1 (b x) = (K x (s (a x)) (s (b x))).2)) ∧
    (∀ i, (∀ x ∈ l, i ≠ a x ∧ i ≠ b x) → (l.foldl (pstep a b K g) (s, r)).1 i = s i) ∧
    (l.foldl (pstep a b K g) (s, r)).2 =
      r + (l.map fun x => g (K x (s (a x)) (s (b x))).1 (K x (s (a x)) (s (b x))).2).sum := by
  intro l
  induction l with
  | nil => intro _ _ s r; simp
  | cons y l ih =>
    intro hn hd s r
    rw [List.nodup_cons] at hn
    have hd' : Disj a b l :=
      ⟨fun x h => hd.ab x (by simp [h]), fun x h z h' => hd.aa x (by simp [h]) z (by simp [h']),
        fun x h z h' => hd.bb x (by simp [h]) z (by simp [h']),
        fun x h z h' => hd.cross x (by simp [h]) z (by simp [h'])⟩
    obtain ⟨h1, h2, h3⟩ := ih hn.2 hd'
      (pstep a b K g (s, r) y).1 (pstep a b K g (s, r) y).2
    have hya : ∀ x ∈ l, a x ≠ a y := fun x hx h => by
      have := hd.aa x (by simp [hx]) y (by simp) h
      subst this; exact hn.1 hx
    have hyb : ∀ x ∈ l, b x ≠ b y := fun x hx h => by
      have := hd.bb x (by simp [hx]) y (by simp) h
      subst this; exact hn.1 hx
    have hab : ∀ x ∈ l, a x ≠ b y := fun x hx => hd.cross x (by simp [hx]) y (by simp)
    have hba : ∀ x ∈ l, b x ≠ a y := fun x hx => (hd.cross y (by simp) x (by simp [hx])).symm
    have hA : ∀ x ∈ l, (pstep a b K g (s, r) y).1 (a x) = s (a x) := fun x hx => by
      simp [pstep, Function.update_of_ne (hab x hx), Function.update_of_ne (hya x hx)]
    have hB : ∀ x ∈ l, (pstep a b K g (s, r) y).1 (b x) = s (b x) := fun x hx => by
      simp [pstep, Function.update_of_ne (hyb x hx), Function.update_of_ne (hba x hx)]
    rw [List.foldl_cons]
    refine ⟨?_, ?_, ?_⟩
    · intro x hx
      rcases List.mem_cons.1 hx with rfl | hx
      · rw [h2 (a x) (fun z hz => ⟨(hya z hz).symm, (hba z hz).symm⟩),
          h2 (b x) (fun z hz => ⟨(hab z hz).symm, (hyb z hz).symm⟩)]
        simp [pstep, Function.update_of_ne (hd.ab x (by simp))]
      · rw [(h1 x hx).1, (h1 x hx).2, hA x hx, hB x hx]
        exact ⟨rfl, rfl⟩
    · intro i hi
      rw [h2 i (fun x hx => hi x (by simp [hx]))]
      have := hi y (by simp)
      simp [pstep, Function.update_of_ne this.1, Function.update_of_ne this.2]
    · rw [h3, List.map_cons, List.sum_cons]
      rw [List.map_congr_left (g := fun x => g (K x (s (a x)) (s (b x))).1
        (K x (s (a x)) (s (b x))).2) (fun x hx => by rw [hA x hx, hB x hx])]
      simp [pstep, add_assoc]

/-- One iteration that rewrites the single cell `a x`. -/
def cstep (a : ℕ → ℕ) (K : ℕ → α → α) (s : ℕ → α) (x : ℕ) : ℕ → α :=
  Function.update s (a x) (K x (s (a x)))

theorem cfold_spec (a : ℕ → ℕ) (K : ℕ → α → α) :
    ∀ (l : List ℕ), l.Nodup → (∀ x ∈ l, ∀ y ∈ l, a x = a y → x = y) → ∀ (s : ℕ → α),
    (∀ x ∈ l, l.foldl (cstep a K) s (a x) = K x (s (a x))) ∧
    (∀ i, (∀ x ∈ l, i ≠ a x) → l.foldl (cstep a K) s i = s i) := by
  intro l
  induction l with
  | nil => intro _ _ s; simp
  | cons y l ih =>
    intro hn hd s
    rw [List.nodup_cons] at hn
    obtain ⟨h1, h2⟩ := ih hn.2 (fun x h z h' => hd x (by simp [h]) z (by simp [h'])) (cstep a K s y)
    have hya : ∀ x ∈ l, a x ≠ a y := fun x hx h => by
      have := hd x (by simp [hx]) y (by simp) h
      subst this; exact hn.1 hx
    rw [List.foldl_cons]
    refine ⟨?_, ?_⟩
    · intro x hx
      rcases List.mem_cons.1 hx with rfl | hx
      · rw [h2 (a x) (fun z hz => (hya z hz).symm)]
        simp [cstep]
      · rw [h1 x hx]
        simp [cstep, Function.update_of_ne (hya x hx)]
    · intro i hi
      rw [h2 i (fun x hx => hi x (by simp [hx]))]
      simp [cstep, Function.update_of_ne (hi y (by simp))]

end Verif.PairFold
