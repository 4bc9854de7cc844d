import Verif.Props.StabProduct

/-!
Helper lemmas: what elimination, gates and collapse do to the rows.
-/

namespace Verif.Stab

open Verif.Pauli Complex

variable {n : ℕ}

/-- The stabiliser rows of the tableau stabilise the state. -/
def Stabilises (T : Tab n) (ψ : State n) : Prop := ∀ i, n ≤ i → i < 2 * n → (T i).op ψ = ψ

/-- Row `i` and row `j` are partners. -/
def Partner (n i j : ℕ) : Prop := i + n = j ∨ j + n = i

instance (n i j : ℕ) : Decidable (Partner n i j) := inferInstanceAs (Decidable (_ ∨ _))

/-- The tableau relations: real phases, and a row anticommutes with its partner and with no other row. -/
structure Inv (T : Tab n) : Prop where
  herm : ∀ i, i < 2 * n → (T i).r = 0 ∨ (T i).r = 2
  comm : ∀ i j, i < 2 * n → j < 2 * n → sp (T i) (T j) = if Partner n i j then 1 else 0

/-! ### Elimination -/

/-- The two moves of the elimination on stabiliser rows `a`, `b`. -/
def swapMove (n : ℕ) (T : Tab n) (a b : ℕ) : Tab n := rowswapT (rowswapT T a b) (a - n) (b - n)

def multMove (n : ℕ) (T : Tab n) (a b : ℕ) : Tab n := rowmultT (rowmultT T b a) (a - n) (b - n)

theorem foldl_ind {α β : Type*} (P : α → Prop) (f : α → β → α) (l : List β) (h : ∀ a, P a → ∀ b ∈ l, P (f a b)) (a : α)
    (ha : P a) : P (l.foldl f a) := by
  induction l generalizing a with
  | nil => exact ha
  | cons b l ih => exact ih (fun a ha b hb => h a ha b (List.mem_cons_of_mem _ hb)) _ (h a ha b List.mem_cons_self)

theorem elim_ind (P : Tab n → Prop)
    (hs : ∀ T a b, n ≤ a → a < 2 * n → n ≤ b → b < 2 * n → P T → P (swapMove n T a b))
    (hm : ∀ T a b, n ≤ a → a < b → b < 2 * n → P T → P (multMove n T a b))
    (sel : Row n → Bool) (s : Tab n × ℕ) (h : P s.1 ∧ n ≤ s.2) : P (elimStep n sel s).1 ∧ n ≤ (elimStep n sel s).2 := by
  unfold elimStep
  cases hf : (List.range' s.2 (2 * n - s.2)).find? (fun k => sel (s.1 k)) with
  | none => exact h
  | some k =>
    have hk := List.mem_of_find?_eq_some hf
    rw [List.mem_range'_1] at hk
    refine ⟨?_, by show n ≤ s.2 + 1; omega⟩
    refine foldl_ind P _ _ ?_ _ (hs s.1 s.2 k h.2 (by omega) (by omega) (by omega) h.1)
    intro T hT k2 hk2
    rw [List.mem_range'_1] at hk2
    split_ifs
    · exact hm T s.2 k2 h.2 (by omega) (by omega) hT
    · exact hT

theorem gaussian_ind (P : Tab n → Prop)
    (hs : ∀ T a b, n ≤ a → a < 2 * n → n ≤ b → b < 2 * n → P T → P (swapMove n T a b))
    (hm : ∀ T a b, n ≤ a → a < b → b < 2 * n → P T → P (multMove n T a b))
    (T : Tab n) (h : P T) : P (gaussian T).1 := by
  have h1 := foldl_ind (fun s : Tab n × ℕ => P s.1 ∧ n ≤ s.2)
    (fun s (j : Fin n) => elimStep n (fun w => w.x j) s) (List.finRange n)
    (fun s hs' j _ => elim_ind P hs hm _ s hs') (T, n) ⟨h, le_refl n⟩
  exact (foldl_ind (fun s : Tab n × ℕ => P s.1 ∧ n ≤ s.2)
    (fun s (j : Fin n) => elimStep n (fun w => w.z j) s) (List.finRange n)
    (fun s hs' j _ => elim_ind P hs hm _ s hs') _ h1).1

/-- The row numbers exchanged by `swapMove`. -/
def swapIx (n a b i : ℕ) : ℕ :=
  if i = a then b else if i = b then a else if i = a - n then b - n else if i = b - n then a - n else i

theorem swapMove_apply (hn : 0 < n) (T : Tab n) {a b : ℕ} (ha : n ≤ a) (ha' : a < 2 * n) (hb : n ≤ b) (hb' : b < 2 * n) (i : ℕ) :
    swapMove n T a b i = T (swapIx n a b i) := by
  unfold swapMove rowswapT swapIx
  by_cases hab : a = b
  · subst hab
    simp only [if_true]
    congr 1
    split_ifs <;> omega
  · have hab' : a - n ≠ b - n := by omega
    rw [if_neg hab', if_neg hab]
    simp only [Function.update_apply]
    repeat' split_ifs
    all_goals first | rfl | (congr 1; omega) | omega

theorem multMove_apply (hn : 0 < n) (T : Tab n) {a b : ℕ} (ha : n ≤ a) (hab : a < b) (hb' : b < 2 * n) (i : ℕ) :
    multMove n T a b i = if i = b then rowmult (T b) (T a) else
      if i = a - n then rowmult (T (a - n)) (T (b - n)) else T i := by
  unfold multMove rowmultT
  simp only [Function.update_apply]
  repeat' split_ifs
  all_goals first | rfl | omega | (subst_vars; first | rfl | omega)

theorem inv_swapMove {T : Tab n} (h : Inv T) {a b : ℕ} (ha : n ≤ a) (ha' : a < 2 * n) (hb : n ≤ b) (hb' : b < 2 * n) :
    Inv (swapMove n T a b) := by
  have hn : 0 < n := by omega
  have hlt : ∀ i, i < 2 * n → swapIx n a b i < 2 * n := by
    intro i hi; unfold swapIx; split_ifs <;> omega
  constructor
  · intro i hi
    rw [swapMove_apply hn T ha ha' hb hb']
    exact h.herm _ (hlt i hi)
  · intro i j hi hj
    rw [swapMove_apply hn T ha ha' hb hb', swapMove_apply hn T ha ha' hb hb', h.comm _ _ (hlt i hi) (hlt j hj)]
    refine if_congr ?_ rfl rfl
    unfold Partner swapIx
    split_ifs <;> omega

theorem z2_add (a : ZMod 2) : a + a = 0 := by revert a; decide

theorem inv_multMove {T : Tab n} (h : Inv T) {a b : ℕ} (ha : n ≤ a) (hab : a < b) (hb' : b < 2 * n) :
    Inv (multMove n T a b) := by
  have hn : 0 < n := by omega
  constructor
  · intro i hi
    rw [multMove_apply hn T ha hab hb']
    split_ifs with h1 h2
    · refine clifford_even (h.herm _ hb') (h.herm _ (by omega)) ?_
      rw [h.comm _ _ hb' (by omega), if_neg (by unfold Partner; omega)]
    · refine clifford_even (h.herm _ (by omega)) (h.herm _ (by omega)) ?_
      rw [h.comm _ _ (by omega) (by omega), if_neg (by unfold Partner; omega)]
    · exact h.herm i hi
  · have P1 : ∀ {i j : ℕ}, i < 2 * n → j < 2 * n → Partner n i j → sp (T i) (T j) = 1 := fun hi hj hp => by
      rw [h.comm _ _ hi hj, if_pos hp]
    have P0 : ∀ {i j : ℕ}, i < 2 * n → j < 2 * n → ¬ Partner n i j → sp (T i) (T j) = 0 := fun hi hj hp => by
      rw [h.comm _ _ hi hj, if_neg hp]
    have hb : b < 2 * n := hb'
    have ha2 : a < 2 * n := by omega
    have han : a - n < 2 * n := by omega
    have hbn : b - n < 2 * n := by omega
    intro i j hi hj
    rw [multMove_apply hn T ha hab hb', multMove_apply hn T ha hab hb']
    by_cases i1 : i = b
    · subst i1
      rw [if_pos rfl]
      by_cases j1 : j = i
      · subst j1
        rw [if_pos rfl, sp_self, if_neg (by unfold Partner; omega)]
      · rw [if_neg j1]
        by_cases j2 : j = a - n
        · rw [if_pos j2, sp_rowmult, sp_rowmult', sp_rowmult']
          rw [P0 hi han (by unfold Partner; omega), P1 hi hbn (by unfold Partner; omega),
            P1 ha2 han (by unfold Partner; omega), P0 ha2 hbn (by unfold Partner; omega),
            if_neg (by unfold Partner; omega)]
          decide
        · rw [if_neg j2, sp_rowmult, h.comm _ _ hi hj, P0 ha2 hj (by unfold Partner; omega), add_zero]
    · rw [if_neg i1]
      by_cases i2 : i = a - n
      · rw [if_pos i2]
        by_cases j1 : j = b
        · subst j1
          rw [if_pos rfl, sp_rowmult, sp_rowmult', sp_rowmult']
          rw [P0 han hj (by unfold Partner; omega), P1 hbn hj (by unfold Partner; omega),
            P1 han ha2 (by unfold Partner; omega), P0 hbn ha2 (by unfold Partner; omega),
            if_neg (by unfold Partner; omega)]
          decide
        · rw [if_neg j1]
          by_cases j2 : j = a - n
          · rw [if_pos j2, sp_self, if_neg (by unfold Partner; omega)]
          · rw [if_neg j2, sp_rowmult, ← i2, h.comm _ _ hi hj, P0 hbn hj (by unfold Partner; omega), add_zero]
      · rw [if_neg i2]
        by_cases j1 : j = b
        · subst j1
          rw [if_pos rfl, sp_rowmult', h.comm _ _ hi hj, P0 hi ha2 (by unfold Partner; omega), add_zero]
        · rw [if_neg j1]
          by_cases j2 : j = a - n
          · rw [if_pos j2, sp_rowmult', ← j2, h.comm _ _ hi hj, P0 hi hbn (by unfold Partner; omega), add_zero]
          · rw [if_neg j2, h.comm _ _ hi hj]

theorem inv_gaussian {T : Tab n} (h : Inv T) : Inv (gaussian T).1 :=
  gaussian_ind Inv (fun _ _ _ ha ha' hb hb' hT => inv_swapMove hT ha ha' hb hb')
    (fun _ _ _ ha hab hb hT => inv_multMove hT ha hab hb) T h

theorem stab_swapMove {T : Tab n} {ψ : State n} {a b : ℕ} (ha : n ≤ a) (ha' : a < 2 * n) (hb : n ≤ b) (hb' : b < 2 * n) :
    Stabilises (swapMove n T a b) ψ ↔ Stabilises T ψ := by
  have hn : 0 < n := by omega
  have key : ∀ i, n ≤ i → i < 2 * n → n ≤ swapIx n a b i ∧ swapIx n a b i < 2 * n ∧ swapIx n a b (swapIx n a b i) = i := by
    intro i hi hi'
    unfold swapIx
    split_ifs <;> omega
  constructor
  · intro h i hi hi'
    have := h _ (key i hi hi').1 (key i hi hi').2.1
    rwa [swapMove_apply hn T ha ha' hb hb', (key i hi hi').2.2] at this
  · intro h i hi hi'
    rw [swapMove_apply hn T ha ha' hb hb']
    exact h _ (key i hi hi').1 (key i hi hi').2.1

theorem op_op_self {w : Row n} (h : w.r = 0 ∨ w.r = 2) (ψ : State n) : w.op (w.op ψ) = ψ := by
  rw [← rowmult_op]
  funext f
  rw [op_apply]
  have h1 : (rowmult w w).x = fun _ => false := by funext j; simp [rowmult]
  have h2 : (rowmult w w).z = fun _ => false := by funext j; simp [rowmult]
  have h3 : I ^ (rowmult w w).r = 1 := by
    show I ^ clifford w w = 1
    rw [clifford_phase, Finset.prod_eq_one]
    · rcases h with h | h <;> rw [h] <;> norm_num
    · intro j _
      unfold dphase
      cases w.x j <;> cases w.z j <;> simp [cliffordStep]
  have h4 : bxor f (fun _ => false) = f := by funext j; simp [bxor]
  rw [h3, h1, h2, h4, Finset.prod_eq_one (fun j _ => coef_ff _)]
  ring

theorem stab_multMove {T : Tab n} {ψ : State n} {a b : ℕ} (ha : n ≤ a) (hab : a < b) (hb : b < 2 * n)
    (h : Stabilises T ψ) : Stabilises (multMove n T a b) ψ := by
  have hn : 0 < n := by omega
  intro i hi hi'
  rw [multMove_apply hn T ha hab hb]
  split_ifs with h1 h2
  · rw [rowmult_op, h b (by omega) hb, h a ha (by omega)]
  · omega
  · exact h i hi hi'

theorem stab_gaussian {T : Tab n} {ψ : State n} (h : Stabilises T ψ) : Stabilises (gaussian T).1 ψ :=
  gaussian_ind (fun T => Stabilises T ψ) (fun _ _ _ ha ha' hb hb' hT => (stab_swapMove ha ha' hb hb').2 hT)
    (fun _ _ _ ha hab hb hT => stab_multMove ha hab hb hT) T h

theorem inv_scratch {T : Tab n} (h : Inv T) (w : Row n) : Inv (Function.update T (2 * n) w) := by
  constructor
  · intro i hi
    rw [Function.update_of_ne (by omega)]; exact h.herm i hi
  · intro i j hi hj
    rw [Function.update_of_ne (by omega), Function.update_of_ne (by omega)]; exact h.comm i j hi hj

theorem stab_scratch {T : Tab n} {ψ : State n} (h : Stabilises T ψ) (w : Row n) :
    Stabilises (Function.update T (2 * n) w) ψ := by
  intro i hi hi'
  rw [Function.update_of_ne (by omega)]; exact h i hi hi'

/-! ### Gates -/

theorem inv_parFor {T : Tab n} (h : Inv T) {F : Row n → Row n} (hsp : ∀ w v, sp (F w) (F v) = sp w v)
    (hr : ∀ w, ∃ s, (F w).r = sgn s w.r) : Inv (parFor T F) := by
  constructor
  · intro i hi
    unfold parFor
    rw [if_pos hi]
    obtain ⟨s, hs⟩ := hr (T i)
    rw [hs]
    exact sgn_even (h.herm i hi)
  · intro i j hi hj
    unfold parFor
    rw [if_pos hi, if_pos hj, hsp, h.comm i j hi hj]

theorem stab_parFor {T : Tab n} {ψ : State n} (h : Stabilises T ψ) {F : Row n → Row n} {U : State n → State n}
    (hc : ∀ w φ, (F w).op (U φ) = U (w.op φ)) : Stabilises (parFor T F) (U ψ) := by
  intro i hi hi'
  unfold parFor
  rw [if_pos hi', hc, h i hi hi']

end Verif.Stab
