import Verif.Lemmas.StabMeas

/-!
Helper lemmas: the elimination leaves the stabiliser rows in echelon form.
-/

namespace Verif.Stab

open Verif.Pauli Complex

variable {n : ℕ}

/-- A bit of a row that adds up under `rowmult`. -/
def Lin (l : Row n → Bool) : Prop := ∀ u v, l (rowmult u v) = (l u ^^ l v)

theorem lin_x (j : Fin n) : Lin fun w : Row n => w.x j := fun _ _ => rfl
theorem lin_z (j : Fin n) : Lin fun w : Row n => w.z j := fun _ _ => rfl

theorem elim_fold (sel : Row n → Bool) {i : ℕ} (hi : n ≤ i) (l : List ℕ) (hl : l.Nodup) (hl' : ∀ k ∈ l, i < k ∧ k < 2 * n)
    (S : Tab n) {b : ℕ} (hb : n ≤ b) :
    l.foldl (fun T k2 => if sel (T k2) then rowmultT (rowmultT T k2 i) (i - n) (k2 - n) else T) S b =
      if b ∈ l ∧ sel (S b) = true then rowmult (S b) (S i) else S b := by
  induction l generalizing S with
  | nil => simp
  | cons k l ih =>
    rw [List.nodup_cons] at hl
    have hk := hl' k List.mem_cons_self
    have hn : 0 < n := by omega
    rw [List.foldl_cons]
    have hstep : ∀ c, n ≤ c → (if sel (S k) then rowmultT (rowmultT S k i) (i - n) (k - n) else S) c =
        if c = k ∧ sel (S k) = true then rowmult (S k) (S i) else S c := by
      intro c hc
      by_cases hs : sel (S k) = true
      · rw [if_pos hs]
        have := multMove_apply hn S hi hk.1 hk.2 c
        unfold multMove at this
        rw [this]
        by_cases hck : c = k
        · rw [if_pos hck, if_pos ⟨hck, hs⟩]
        · rw [if_neg hck, if_neg (by omega), if_neg (fun h => hck h.1)]
      · rw [if_neg hs, if_neg (fun h => hs h.2)]
    rw [ih hl.2 (fun k hk => hl' k (List.mem_cons_of_mem _ hk)), hstep b hb, hstep i hi]
    rw [if_neg (show ¬ (i = k ∧ sel (S k) = true) by rintro ⟨h, _⟩; omega)]
    by_cases hbk : b = k
    · subst hbk
      rw [if_neg (fun h => hl.1 h.1)]
      refine if_congr ?_ rfl rfl
      simp
    · have h0 : ¬ (b = k ∧ sel (S k) = true) := fun h => hbk h.1
      rw [if_neg h0]
      refine if_congr ?_ rfl rfl
      simp [hbk]

/-- What one column of the elimination does to the stabiliser rows. -/
structure Step (sel : Row n → Bool) (T : Tab n) (i : ℕ) (T' : Tab n) (i' : ℕ) : Prop where
  above : ∀ a, n ≤ a → a < i → T' a = T a
  keep : ∀ l, Lin l → (∀ b, i ≤ b → b < 2 * n → l (T b) = false) → ∀ b, i ≤ b → b < 2 * n → l (T' b) = false
  done : (i' = i ∧ ∀ b, i ≤ b → b < 2 * n → sel (T' b) = false) ∨
    (i' = i + 1 ∧ i < 2 * n ∧ sel (T' i) = true ∧ ∀ b, i < b → b < 2 * n → sel (T' b) = false)

theorem elim_step (sel : Row n → Bool) (hsel : Lin sel) (s : Tab n × ℕ) (hi : n ≤ s.2) :
    Step sel s.1 s.2 (elimStep n sel s).1 (elimStep n sel s).2 := by
  obtain ⟨T, i⟩ := s
  simp only at hi
  unfold elimStep
  dsimp only
  cases hf : (List.range' i (2 * n - i)).find? (fun k => sel (T k)) with
  | none =>
    rw [List.find?_eq_none] at hf
    refine ⟨fun _ _ _ => rfl, fun l _ h => h, Or.inl ⟨rfl, fun b hb hb' => ?_⟩⟩
    have := hf b (by rw [List.mem_range'_1]; omega)
    simpa using this
  | some k =>
    have hk := List.mem_of_find?_eq_some hf
    have hks : sel (T k) = true := by simpa using List.find?_some hf
    rw [List.mem_range'_1] at hk
    have hn : 0 < n := by omega
    dsimp only
    have hS : ∀ b, n ≤ b → rowswapT (rowswapT T i k) (i - n) (k - n) b = T (if b = i then k else if b = k then i else b) := by
      intro b hb
      have := swapMove_apply hn T hi (by omega) (b := k) (by omega) (by omega) b
      unfold swapMove at this
      rw [this]
      congr 1
      unfold swapIx
      split_ifs <;> omega
    have hrow : ∀ b, n ≤ b → (List.range' (i + 1) (2 * n - (i + 1))).foldl
        (fun T k2 => if sel (T k2) then rowmultT (rowmultT T k2 i) (i - n) (k2 - n) else T)
          (rowswapT (rowswapT T i k) (i - n) (k - n)) b =
        if (i < b ∧ b < 2 * n) ∧ sel (T (if b = k then i else b)) = true then rowmult (T (if b = k then i else b)) (T k)
        else T (if b = i then k else if b = k then i else b) := by
      intro b hb
      rw [elim_fold sel hi _ (List.nodup_range' ..) (by intro k hk; rw [List.mem_range'_1] at hk; omega) _ hb,
        hS b hb, hS i hi, if_pos rfl]
      have hmem : b ∈ List.range' (i + 1) (2 * n - (i + 1)) ↔ i < b ∧ b < 2 * n := by
        rw [List.mem_range'_1]; omega
      by_cases hbi : b = i
      · rw [if_neg (fun h => by have := hmem.1 h.1; omega)]
        symm
        refine if_neg (fun h => ?_)
        have := h.1.1
        omega
      · rw [if_neg hbi]
        exact if_congr (and_congr_left fun _ => hmem) rfl rfl
    refine ⟨?_, ?_, Or.inr ⟨rfl, by omega, ?_, ?_⟩⟩
    · intro a ha hai
      rw [hrow a ha, if_neg (by omega), if_neg (by omega), if_neg (by omega)]
    · intro l hl h b hb hb'
      rw [hrow b (by omega)]
      have h1 : l (T (if b = k then i else b)) = false := by
        split_ifs
        · exact h _ (le_refl _) (by omega)
        · exact h _ hb hb'
      split_ifs at h1 ⊢
      all_goals first | (rw [hl, h1, h _ (by omega) (by omega)]; rfl) | exact h _ (by omega) (by omega)
    · rw [hrow i hi, if_neg (by omega), if_pos rfl]; exact hks
    · intro b hb hb'
      rw [hrow b (by omega)]
      by_cases hc : sel (T (if b = k then i else b)) = true
      · rw [if_pos ⟨⟨hb, hb'⟩, hc⟩, hsel, hc, hks]; rfl
      · rw [if_neg (fun h => hc h.2), if_neg (by omega)]
        simpa using hc

/-- Echelon form of the rows `lo .. i - 1`, after the columns below `J`. -/
structure Ech (bit : Row n → Fin n → Bool) (lo : ℕ) (T : Tab n) (i J : ℕ) : Prop where
  le : lo ≤ i
  le' : i ≤ 2 * n
  pivot : ∀ a, lo ≤ a → a < i → ∃ q : Fin n, q.val < J ∧ bit (T a) q = true ∧
    (∀ b, a < b → b < 2 * n → bit (T b) q = false) ∧ ∀ b, a ≤ b → b < 2 * n → ∀ j : Fin n, j < q → bit (T b) j = false
  rest : ∀ b, i ≤ b → b < 2 * n → ∀ j : Fin n, j.val < J → bit (T b) j = false

theorem ech_step {bit : Row n → Fin n → Bool} (hbit : ∀ j, Lin fun w => bit w j) {lo i J : ℕ} (hlo : n ≤ lo) {T T' : Tab n} {i' : ℕ}
    (h : Ech bit lo T i J) (hJ : J < n) (hs : Step (fun w => bit w ⟨J, hJ⟩) T i T' i') : Ech bit lo T' i' (J + 1) := by
  have hle := h.le
  have hle' := h.le'
  have keep : ∀ j : Fin n, (∀ b, i ≤ b → b < 2 * n → bit (T b) j = false) → ∀ b, i ≤ b → b < 2 * n → bit (T' b) j = false :=
    fun j => hs.keep _ (hbit j)
  have old : ∀ a, lo ≤ a → a < i → ∃ q : Fin n, q.val < J + 1 ∧ bit (T' a) q = true ∧
      (∀ b, a < b → b < 2 * n → bit (T' b) q = false) ∧ ∀ b, a ≤ b → b < 2 * n → ∀ j : Fin n, j < q → bit (T' b) j = false := by
    intro a ha hai
    obtain ⟨q, hq, h1, h2, h3⟩ := h.pivot a ha hai
    refine ⟨q, by omega, by rw [hs.above a (by omega) hai]; exact h1, ?_, ?_⟩
    · intro b hb hb'
      by_cases hbi : b < i
      · rw [hs.above b (by omega) hbi]; exact h2 b hb hb'
      · exact keep q (fun b hb hb' => h2 b (by omega) hb') b (by omega) hb'
    · intro b hb hb' j hj
      by_cases hbi : b < i
      · rw [hs.above b (by omega) hbi]; exact h3 b hb hb' j hj
      · exact keep j (fun b hb hb' => h3 b (by omega) hb' j hj) b (by omega) hb'
  have low : ∀ b, i ≤ b → b < 2 * n → ∀ j : Fin n, j.val < J → bit (T' b) j = false := fun b hb hb' j hj =>
    keep j (fun b hb hb' => h.rest b hb hb' j hj) b hb hb'
  rcases hs.done with ⟨rfl, h0⟩ | ⟨rfl, h1, h2, h3⟩
  · refine ⟨hle, hle', old, fun b hb hb' j hj => ?_⟩
    by_cases hj' : j.val < J
    · exact low b hb hb' j hj'
    · have : j = ⟨J, hJ⟩ := Fin.ext (by simp; omega)
      rw [this]; exact h0 b hb hb'
  · refine ⟨by omega, by omega, ?_, ?_⟩
    · intro a ha hai
      by_cases hai' : a < i
      · exact old a ha hai'
      · have : a = i := by omega
        subst this
        exact ⟨⟨J, hJ⟩, Nat.lt_succ_self J, h2, h3, fun b hb hb' j hj => low b hb hb' j hj⟩
    · intro b hb hb' j hj
      by_cases hj' : j.val < J
      · exact low b (by omega) hb' j hj'
      · have : j = ⟨J, hJ⟩ := Fin.ext (by simp; omega)
        rw [this]; exact h3 b (by omega) hb'

theorem finRange_foldl_ind {α : Type*} (P : ℕ → α → Prop) (f : α → Fin n → α) (h : ∀ (j : Fin n) a, P j a → P (j + 1) (f a j)) (a : α)
    (h0 : P 0 a) : P n ((List.finRange n).foldl f a) := by
  have key : ∀ (k : ℕ) (hk : k ≤ n) (a : α), P k a →
      P n (((List.finRange n).drop k).foldl f a) := by
    intro k hk
    induction hd : n - k generalizing k with
    | zero =>
      intro a ha
      have : k = n := by omega
      subst this
      rw [List.drop_of_length_le (by simp)]; exact ha
    | succ d ih =>
      intro a ha
      have hlt : k < n := by omega
      rw [List.drop_eq_getElem_cons (by simpa using hlt), List.foldl_cons]
      apply ih (k + 1) (by omega) (by omega)
      have := h ⟨k, hlt⟩ a ha
      simpa using this
  simpa using key 0 (Nat.zero_le n) a h0

theorem ech_pass {bit : Row n → Fin n → Bool} (hbit : ∀ j, Lin fun w => bit w j) {lo : ℕ} (hlo : n ≤ lo) (hlo' : lo ≤ 2 * n) (T : Tab n) :
    let s := (List.finRange n).foldl (fun s j => elimStep n (fun w => bit w j) s) (T, lo)
    Ech bit lo s.1 s.2 n ∧ (∀ a, n ≤ a → a < lo → s.1 a = T a) ∧
      ∀ l, Lin l → (∀ b, lo ≤ b → b < 2 * n → l (T b) = false) → ∀ b, lo ≤ b → b < 2 * n → l (s.1 b) = false := by
  refine finRange_foldl_ind (fun J (s : Tab n × ℕ) => Ech bit lo s.1 s.2 J ∧ (∀ a, n ≤ a → a < lo → s.1 a = T a) ∧
      ∀ l, Lin l → (∀ b, lo ≤ b → b < 2 * n → l (T b) = false) → ∀ b, lo ≤ b → b < 2 * n → l (s.1 b) = false) _ ?_ _ ?_
  · rintro j s ⟨h1, h2, h3⟩
    have hs := elim_step (fun w => bit w j) (hbit j) s (by have := h1.le; omega)
    have hle := h1.le
    refine ⟨ech_step hbit hlo h1 j.isLt hs, ?_, ?_⟩
    · intro a ha hal
      rw [hs.above a ha (by omega), h2 a ha hal]
    · intro l hl h b hb hb'
      by_cases hbs : b < s.2
      · rw [hs.above b (by omega) hbs]; exact h3 l hl h b hb hb'
      · exact hs.keep l hl (fun b hb hb' => h3 l hl h b (by omega) hb') b (by omega) hb'
  · exact ⟨⟨le_refl _, hlo', fun a ha ha' => absurd ha' (by omega), fun b _ _ j hj => absurd hj (by omega)⟩,
      fun _ _ _ => rfl, fun _ _ h => h⟩

/-- The form `gaussian` leaves: `g` rows in echelon form by their X bits, then rows of Z's alone in echelon form. -/
structure Reduced (T : Tab n) (g : ℕ) : Prop where
  le : g ≤ n
  xs : ∀ a, n ≤ a → a < n + g → ∃ q : Fin n, (T a).x q = true ∧ (∀ b, a < b → b < 2 * n → (T b).x q = false) ∧
    ∀ b, a ≤ b → b < 2 * n → ∀ j : Fin n, j < q → (T b).x j = false
  zero : ∀ b, n + g ≤ b → b < 2 * n → ∀ j, (T b).x j = false
  zs : ∀ a, n + g ≤ a → a < 2 * n → ∃ q : Fin n, (T a).z q = true ∧ (∀ b, a < b → b < 2 * n → (T b).z q = false) ∧
    ∀ b, a ≤ b → b < 2 * n → ∀ j : Fin n, j < q → (T b).z j = false

theorem sp_blank {w v : Row n} (hx : ∀ j, w.x j = false) (hz : ∀ j, w.z j = false) : sp w v = 0 := by
  unfold sp
  refine Finset.sum_eq_zero fun j _ => ?_
  rw [hx, hz]; simp [sp1]

theorem reduced_gaussian {T : Tab n} (h : Inv T) : Reduced (gaussian T).1 (gaussian T).2 := by
  have hG := inv_gaussian h
  unfold gaussian at hG ⊢
  dsimp only at hG ⊢
  obtain ⟨e1, -, -⟩ := ech_pass (bit := fun w : Row n => w.x) lin_x (le_refl n) (by omega) T
  revert hG
  generalize hs : (List.finRange n).foldl (fun s j => elimStep n (fun w => w.x j) s) (T, n) = s at e1 ⊢
  obtain ⟨S, i⟩ := s
  obtain ⟨le1, le1', p1, r1⟩ := e1
  dsimp only at le1 le1' p1 r1 ⊢
  obtain ⟨e2, a2, k2⟩ := ech_pass (bit := fun w : Row n => w.z) lin_z (lo := i) le1 le1' S
  intro hG
  generalize ht : (List.finRange n).foldl (fun s j => elimStep n (fun w => w.z j) s) (S, i) = t at e2 a2 k2 hG ⊢
  obtain ⟨U, m⟩ := t
  obtain ⟨le2, le2', p2, r2⟩ := e2
  dsimp only at le2 le2' p2 r2 a2 k2 hG ⊢
  have hx0 : ∀ b, i ≤ b → b < 2 * n → ∀ j, (U b).x j = false := fun b hb hb' j =>
    k2 _ (lin_x j) (fun b hb hb' => r1 b hb hb' j j.isLt) b hb hb'
  have hm : m = 2 * n := by
    by_contra hne
    have hlt : m < 2 * n := by omega
    have h1 := hG.comm m (m - n) hlt (by omega)
    rw [if_pos (by unfold Partner; omega), sp_blank (hx0 m le2 hlt) (fun j => r2 m (le_refl _) hlt j j.isLt)] at h1
    exact absurd h1 (by decide)
  have hng : n + (i - n) = i := by omega
  refine ⟨by omega, ?_, ?_, ?_⟩
  · intro a ha hai
    rw [hng] at hai
    obtain ⟨q, -, h1, h2, h3⟩ := p1 a ha hai
    refine ⟨q, by rw [a2 a ha hai]; exact h1, ?_, ?_⟩
    · intro b hb hb'
      by_cases hbi : b < i
      · rw [a2 b (by omega) hbi]; exact h2 b hb hb'
      · exact hx0 b (by omega) hb' q
    · intro b hb hb' j hj
      by_cases hbi : b < i
      · rw [a2 b (by omega) hbi]; exact h3 b hb hb' j hj
      · exact hx0 b (by omega) hb' j
  · rw [hng]; exact hx0
  · rw [hng]
    intro a ha ha'
    obtain ⟨q, -, h1, h2, h3⟩ := p2 a ha (by omega)
    exact ⟨q, h1, h2, h3⟩

/-! ### A second elimination changes nothing -/

theorem elim_idle (sel : Row n → Bool) (T : Tab n) {i : ℕ} (hi : n ≤ i)
    (h : ∀ b, i < b → b < 2 * n → sel (T b) = false) :
    elimStep n sel (T, i) = if i < 2 * n ∧ sel (T i) = true then (T, i + 1) else (T, i) := by
  unfold elimStep
  dsimp only
  by_cases hc : i < 2 * n ∧ sel (T i) = true
  · have hf : (List.range' i (2 * n - i)).find? (fun k => sel (T k)) = some i := by
      rw [show 2 * n - i = (2 * n - i - 1) + 1 by omega, List.range'_succ, List.find?_cons, hc.2]
    rw [hf, if_pos hc]
    dsimp only
    have e1 : rowswapT T i i = T := by unfold rowswapT; rw [if_pos rfl]
    have e2 : rowswapT T (i - n) (i - n) = T := by unfold rowswapT; rw [if_pos rfl]
    rw [e1, e2]
    have e3 : ∀ l : List ℕ, (∀ k ∈ l, i < k ∧ k < 2 * n) →
        l.foldl (fun T k2 => if sel (T k2) then rowmultT (rowmultT T k2 i) (i - n) (k2 - n) else T) T = T := by
      intro l
      induction l with
      | nil => intro _; rfl
      | cons k l ih =>
        intro hl
        have hk := hl k List.mem_cons_self
        rw [List.foldl_cons, h k hk.1 hk.2]
        exact ih fun k hk => hl k (List.mem_cons_of_mem _ hk)
    rw [e3]
    intro k hk
    rw [List.mem_range'_1] at hk; omega
  · have hf : (List.range' i (2 * n - i)).find? (fun k => sel (T k)) = none := by
      rw [List.find?_eq_none]
      intro b hb
      rw [List.mem_range'_1] at hb
      rcases Nat.eq_or_lt_of_le hb.1 with h1 | h1
      · subst h1
        exact fun hs => hc ⟨by omega, hs⟩
      · rw [h b h1 (by omega)]; simp
    rw [hf, if_neg hc]

/-- A pass over rows already in echelon form: `i` counts the pivots passed. -/
theorem idle_pass {bit : Row n → Fin n → Bool} {T : Tab n} {lo hi : ℕ} (hlo : n ≤ lo) (hle : lo ≤ hi) (hhi : hi ≤ 2 * n)
    (hp : ∀ a, lo ≤ a → a < hi → ∃ q : Fin n, bit (T a) q = true ∧ (∀ b, a < b → b < 2 * n → bit (T b) q = false) ∧
      ∀ b, a ≤ b → b < 2 * n → ∀ j : Fin n, j < q → bit (T b) j = false)
    (h0 : ∀ b, hi ≤ b → b < 2 * n → ∀ j, bit (T b) j = false) :
    (List.finRange n).foldl (fun s j => elimStep n (fun w => bit w j) s) (T, lo) = (T, hi) := by
  have key := finRange_foldl_ind (n := n) (fun J s => s.1 = T ∧ lo ≤ s.2 ∧ s.2 ≤ hi ∧
      (∀ a, lo ≤ a → a < s.2 → ∃ q : Fin n, q.val < J ∧ bit (T a) q = true) ∧
      ∀ b, s.2 ≤ b → b < 2 * n → ∀ j : Fin n, j.val < J → bit (T b) j = false)
    (fun s j => elimStep n (fun w => bit w j) s) ?_ (T, lo) ?_
  · obtain ⟨h1, h2, h3, -, h5⟩ := key
    refine Prod.ext h1 ?_
    by_contra hne
    have hlt : ((List.finRange n).foldl (fun s j => elimStep n (fun w => bit w j) s) (T, lo)).2 < hi :=
      lt_of_le_of_ne h3 hne
    obtain ⟨q, hq, -⟩ := hp _ h2 hlt
    rw [h5 _ (le_refl _) (by omega) q q.isLt] at hq
    exact absurd hq (by decide)
  · rintro j ⟨S, i⟩ ⟨h1, h2, h3, h4, h5⟩
    dsimp only at h1 h2 h3 h4 h5
    subst h1
    -- rows beyond `i` have no bit in column `j`
    have hcol : ∀ b, i < b → b < 2 * n → bit (S b) j = false := by
      intro b hb hb'
      by_cases hih : i < hi
      · obtain ⟨q, q1, q2, q3⟩ := hp i h2 hih
        have hjq : ¬ q < j := by
          intro hlt
          rw [h5 i (le_refl _) (by omega) q hlt] at q1
          exact absurd q1 (by decide)
        rcases eq_or_lt_of_le (not_lt.mp hjq) with e | e
        · rw [e]; exact q2 b hb hb'
        · exact q3 b (by omega) hb' j e
      · exact h0 b (by omega) hb' j
    rw [elim_idle _ S (by omega) hcol]
    by_cases hc : i < 2 * n ∧ bit (S i) j = true
    · rw [if_pos hc]
      have hih : i < hi := by
        by_contra hge
        rw [h0 i (by omega) hc.1 j] at hc
        exact absurd hc.2 (by decide)
      refine ⟨rfl, by show lo ≤ i + 1; omega, by show i + 1 ≤ hi; omega, ?_, ?_⟩
      · intro a ha hai
        by_cases h : a < i
        · obtain ⟨q, q1, q2⟩ := h4 a ha h
          exact ⟨q, by omega, q2⟩
        · have : a = i := by
            have : a < i + 1 := hai
            omega
          subst this
          exact ⟨j, by omega, hc.2⟩
      · intro b hb hb' k hk
        have hb2 : i + 1 ≤ b := hb
        by_cases hkj : k.val < j.val
        · exact h5 b (by omega) hb' k hkj
        · have : k = j := Fin.ext (by omega)
          rw [this]; exact hcol b (by omega) hb'
    · rw [if_neg hc]
      refine ⟨rfl, h2, h3, ?_, ?_⟩
      · intro a ha hai
        obtain ⟨q, q1, q2⟩ := h4 a ha hai
        exact ⟨q, by omega, q2⟩
      · intro b hb hb' k hk
        have hb2 : i ≤ b := hb
        by_cases hkj : k.val < j.val
        · exact h5 b hb hb' k hkj
        · have : k = j := Fin.ext (by omega)
          rw [this]
          rcases Nat.eq_or_lt_of_le hb2 with e | e
          · subst e
            have := fun hs => hc ⟨hb', hs⟩
            simpa using this
          · exact hcol b e hb'
  · exact ⟨rfl, le_refl _, hle, fun a ha ha' => absurd ha' (by show ¬ a < lo; omega), fun b _ _ j hj => absurd hj (by omega)⟩

theorem gaussian_reduced {T : Tab n} {g : ℕ} (h : Reduced T g) : gaussian T = (T, g) := by
  have hle := h.le
  unfold gaussian
  have e1 : (List.finRange n).foldl (fun s j => elimStep n (fun w => w.x j) s) (T, n) = (T, n + g) :=
    idle_pass (bit := fun w : Row n => w.x) (le_refl n) (by omega) (by omega) h.xs h.zero
  rw [e1]
  have e2 : (List.finRange n).foldl (fun s j => elimStep n (fun w => w.z j) s) (T, n + g) = (T, 2 * n) :=
    idle_pass (bit := fun w : Row n => w.z) (by omega) (by omega) (le_refl _) h.zs (fun b hb hb' => absurd hb' (by omega))
  dsimp only
  rw [e2]
  simp

end Verif.Stab
