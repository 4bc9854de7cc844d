import Verif.Model.StabCompose
import Verif.Spec.Join
import Verif.Lemmas.StabInv

/-!
Helper lemmas: rows of a composed tableau.
-/

namespace Verif.Stab

open Verif.Pauli Complex

variable {n m start : ℕ}

/-! ### Columns -/

/-- Column of the whole for a column of the outer register. -/
def outIdx (m start : ℕ) (j : Fin n) : Fin (n + m) := ⟨if j.val < start then j.val else j.val + m, by split <;> omega⟩

/-- Column of the whole for a column of the inner register. -/
def inIdx (hs : start ≤ n) (j : Fin m) : Fin (n + m) := ⟨start + j.val, by omega⟩

theorem idx_bij (hs : start ≤ n) : Function.Bijective (Sum.elim (outIdx m start) (inIdx hs) : Fin n ⊕ Fin m → Fin (n + m)) := by
  rw [Fintype.bijective_iff_injective_and_card]
  refine ⟨?_, by simp⟩
  intro a b hab
  rcases a with a | a <;> rcases b with b | b <;> simp only [Sum.elim_inl, Sum.elim_inr, outIdx, inIdx, Fin.mk.injEq] at hab
  · have : a = b := by apply Fin.ext; split_ifs at hab <;> omega
    rw [this]
  · exfalso; split_ifs at hab <;> omega
  · exfalso; split_ifs at hab <;> omega
  · have : a = b := by apply Fin.ext; omega
    rw [this]

theorem prod_split {M : Type*} [CommMonoid M] (hs : start ≤ n) (F : Fin (n + m) → M) :
    ∏ k, F k = (∏ j, F (outIdx m start j)) * ∏ j, F (inIdx hs j) := by
  rw [← (Equiv.ofBijective _ (idx_bij (m := m) hs)).prod_comp, Fintype.prod_sum_type]
  rfl

theorem sum_split {M : Type*} [AddCommMonoid M] (hs : start ≤ n) (F : Fin (n + m) → M) :
    ∑ k, F k = (∑ j, F (outIdx m start j)) + ∑ j, F (inIdx hs j) := by
  rw [← (Equiv.ofBijective _ (idx_bij (m := m) hs)).sum_comp, Fintype.sum_sum_type]
  rfl

theorem idx_cases (hs : start ≤ n) (k : Fin (n + m)) : (∃ j, k = outIdx m start j) ∨ ∃ j, k = inIdx hs j := by
  obtain ⟨a | a, ha⟩ := (idx_bij (m := m) hs).2 k
  · exact Or.inl ⟨a, ha.symm⟩
  · exact Or.inr ⟨a, ha.symm⟩

theorem outside_eq (f : Bits (n + m)) (j : Fin n) : outside start f j = f (outIdx m start j) := rfl

theorem inside_eq (hs : start ≤ n) (f : Bits (n + m)) (j : Fin m) : inside start f j = f (inIdx hs j) := by
  unfold inside inIdx; rw [dif_pos (by omega)]

theorem ext_fin (b : Fin n → Bool) (j : Fin n) : ext b j.val = b j := by
  unfold ext; rw [dif_pos j.isLt]

theorem insertAt_out (hs : start ≤ n) (b : Fin n → Bool) (j : Fin n) :
    insertAt (ext b) start (fun _ => false) m (outIdx m start j) = b j := by
  unfold insertAt
  by_cases h : j.val < start
  · have e : (outIdx m start j).val = j.val := if_pos h
    rw [e, if_pos h, ext_fin]
  · have e : (outIdx m start j).val = j.val + m := if_neg h
    rw [e, if_neg (by omega), if_neg (by omega), Nat.add_sub_cancel, ext_fin]

theorem insertAt_in (hs : start ≤ n) (b : Fin n → Bool) (j : Fin m) :
    insertAt (ext b) start (fun _ => false) m (inIdx hs j) = false := by
  unfold insertAt inIdx
  dsimp only
  rw [if_neg (by omega), if_pos (by omega)]

theorem insertIn_out (hs : start ≤ n) (b : Fin m → Bool) (j : Fin n) :
    insertAt (insertAt (ext b) 0 (fun _ => false) start) (start + m) (fun _ => false) (n - start) (outIdx m start j) = false := by
  unfold insertAt
  by_cases h : j.val < start
  · have e : (outIdx m start j).val = j.val := if_pos h
    rw [e, if_pos (by omega), if_neg (by omega), if_pos (by omega)]
  · have e : (outIdx m start j).val = j.val + m := if_neg h
    rw [e, if_neg (by omega), if_pos (by omega)]

theorem insertIn_in (hs : start ≤ n) (b : Fin m → Bool) (j : Fin m) :
    insertAt (insertAt (ext b) 0 (fun _ => false) start) (start + m) (fun _ => false) (n - start) (inIdx hs j) = b j := by
  unfold insertAt inIdx
  dsimp only
  rw [if_pos (by omega), if_neg (by omega), if_neg (by omega), show start + j.val - start = j.val by omega, ext_fin]

/-! ### Operators -/

theorem coef_blank (b : Bool) : coef false false b = 1 := by rw [coef_ff]

theorem padRow_op (hs : start ≤ n) (w : Row n) (ψ : State n) (φ : State m) :
    (padRow m start w).op (joined start ψ φ) = joined start (w.op ψ) φ := by
  funext f
  unfold joined
  rw [op_apply, op_apply, prod_split hs]
  have h1 : ∀ j, (padRow m start w).x (outIdx m start j) = w.x j := fun j => insertAt_out hs _ _
  have h2 : ∀ j, (padRow m start w).z (outIdx m start j) = w.z j := fun j => insertAt_out hs _ _
  have h3 : ∀ j, (padRow m start w).x (inIdx hs j) = false := fun j => insertAt_in hs _ _
  have h4 : ∀ j, (padRow m start w).z (inIdx hs j) = false := fun j => insertAt_in hs _ _
  simp only [h1, h2, h3, h4, coef_blank, Finset.prod_const_one, mul_one]
  have e1 : outside start (bxor f (padRow m start w).x) = bxor (outside start f) w.x := by
    funext j
    show (f _ ^^ (padRow m start w).x (outIdx m start j)) = (_ ^^ _)
    rw [h1]; rfl
  have e2 : inside start (bxor f (padRow m start w).x) = inside start f := by
    funext j
    rw [inside_eq hs, inside_eq hs]
    show (f _ ^^ (padRow m start w).x (inIdx hs j)) = _
    rw [h3, Bool.xor_false]
  rw [e1, e2]
  show I ^ w.r * (∏ j, coef (w.x j) (w.z j) (outside start f j)) * _ = _
  ring

theorem insRow_op (hs : start ≤ n) (v : Row m) (ψ : State n) (φ : State m) :
    (insRow n start v).op (joined start ψ φ) = joined start ψ (v.op φ) := by
  funext f
  unfold joined
  rw [op_apply, op_apply, prod_split hs]
  have h1 : ∀ j, (insRow n start v).x (outIdx m start j) = false := fun j => insertIn_out hs _ _
  have h2 : ∀ j, (insRow n start v).z (outIdx m start j) = false := fun j => insertIn_out hs _ _
  have h3 : ∀ j, (insRow n start v).x (inIdx hs j) = v.x j := fun j => insertIn_in hs _ _
  have h4 : ∀ j, (insRow n start v).z (inIdx hs j) = v.z j := fun j => insertIn_in hs _ _
  simp only [h1, h2, h3, h4, coef_blank, Finset.prod_const_one, one_mul]
  have e1 : outside start (bxor f (insRow n start v).x) = outside start f := by
    funext j
    show (f _ ^^ (insRow n start v).x (outIdx m start j)) = _
    rw [h1, Bool.xor_false]; rfl
  have e2 : inside start (bxor f (insRow n start v).x) = bxor (inside start f) v.x := by
    funext j
    rw [inside_eq hs]
    show (f _ ^^ (insRow n start v).x (inIdx hs j)) = (_ ^^ _)
    rw [h3, inside_eq hs]
  rw [e1, e2]
  simp only [← inside_eq hs f]
  show I ^ v.r * _ * _ = _
  ring

theorem sp1_blank (x z : Bool) : sp1 x z false false = 0 := by revert x z; decide
theorem sp1_blank' (x z : Bool) : sp1 false false x z = 0 := by revert x z; decide

theorem sp_pad (hs : start ≤ n) (w v : Row n) : sp (padRow m start w) (padRow m start v) = sp w v := by
  unfold sp
  rw [sum_split hs]
  simp only [padRow, insertAt_out hs, insertAt_in hs, sp1_blank, Finset.sum_const_zero, add_zero]

theorem sp_ins (hs : start ≤ n) (w v : Row m) : sp (insRow n start w) (insRow n start v) = sp w v := by
  unfold sp
  rw [sum_split hs]
  simp only [insRow, insertIn_out hs, insertIn_in hs, sp1_blank, Finset.sum_const_zero, zero_add]

theorem sp_pad_ins (hs : start ≤ n) (w : Row n) (v : Row m) : sp (padRow m start w) (insRow n start v) = 0 := by
  unfold sp
  rw [sum_split hs]
  simp only [padRow, insRow, insertAt_out hs, insertAt_in hs, insertIn_out hs, insertIn_in hs, sp1_blank, sp1_blank',
    Finset.sum_const_zero, zero_add]

/-! ### Rows -/

/-- Row of the whole for a row of the outer register. -/
def up (n m start a : ℕ) : ℕ :=
  if a < n then (if a < start then a else a + m) else if a - n < start then n + m + (a - n) else n + m + (a - n) + m

/-- Row of the whole for a row of the inner register. -/
def upS (n m start b : ℕ) : ℕ := if b < m then start + b else n + m + start + (b - m)

theorem up_lt {a : ℕ} (ha : a < 2 * n) : up n m start a < 2 * (n + m) := by unfold up; split_ifs <;> omega
theorem upS_lt (hs : start ≤ n) {b : ℕ} (hb : b < 2 * m) : upS n m start b < 2 * (n + m) := by unfold upS; split_ifs <;> omega
theorem up_ge {a : ℕ} (ha : a < 2 * n) : n + m ≤ up n m start a ↔ n ≤ a := by unfold up; split_ifs <;> omega
theorem upS_ge (hs : start ≤ n) {b : ℕ} : n + m ≤ upS n m start b ↔ m ≤ b := by unfold upS; split_ifs <;> omega

theorem up_cases (hs : start ≤ n) {i : ℕ} (hi : i < 2 * (n + m)) :
    (∃ a, a < 2 * n ∧ i = up n m start a) ∨ ∃ b, b < 2 * m ∧ i = upS n m start b := by
  by_cases h1 : i < n + m
  · by_cases h2 : i < start
    · exact Or.inl ⟨i, by omega, by unfold up; rw [if_pos (by omega), if_pos h2]⟩
    · by_cases h3 : i < start + m
      · exact Or.inr ⟨i - start, by omega, by unfold upS; rw [if_pos (by omega)]; omega⟩
      · exact Or.inl ⟨i - m, by omega, by unfold up; rw [if_pos (by omega), if_neg (by omega)]; omega⟩
  · by_cases h2 : i < n + m + start
    · exact Or.inl ⟨i - m, by omega, by unfold up; rw [if_neg (by omega), if_pos (by omega)]; omega⟩
    · by_cases h3 : i < n + m + start + m
      · exact Or.inr ⟨i - n - start, by omega, by unfold upS; rw [if_neg (by omega)]; omega⟩
      · exact Or.inl ⟨i - m - m, by omega, by unfold up; rw [if_neg (by omega), if_neg (by omega)]; omega⟩

theorem partner_up {a b : ℕ} (ha : a < 2 * n) (hb : b < 2 * n) :
    Partner (n + m) (up n m start a) (up n m start b) ↔ Partner n a b := by
  unfold Partner up; split_ifs <;> omega

theorem partner_upS (hs : start ≤ n) {a b : ℕ} (ha : a < 2 * m) (hb : b < 2 * m) :
    Partner (n + m) (upS n m start a) (upS n m start b) ↔ Partner m a b := by
  unfold Partner upS; split_ifs <;> omega

theorem not_partner {a b : ℕ} (hs : start ≤ n) (ha : a < 2 * n) (hb : b < 2 * m) :
    ¬ Partner (n + m) (up n m start a) (upS n m start b) := by
  unfold Partner up upS; split_ifs <;> omega

theorem partner_comm {a b : ℕ} : Partner n a b ↔ Partner n b a := or_comm

/-- A tableau made of the rows of two others. -/
structure Made (T : Tab n) (S : Tab m) (start : ℕ) (R : Tab (n + m)) : Prop where
  le : start ≤ n
  out : ∀ a, a < 2 * n → R (up n m start a) = padRow m start (T a)
  inn : ∀ b, b < 2 * m → R (upS n m start b) = insRow n start (S b)

theorem Made.inv {T : Tab n} {S : Tab m} {R : Tab (n + m)} (h : Made T S start R) : Inv R ↔ Inv T ∧ Inv S := by
  have hs := h.le
  constructor
  · intro hR
    refine ⟨⟨fun a ha => ?_, fun a b ha hb => ?_⟩, ⟨fun a ha => ?_, fun a b ha hb => ?_⟩⟩
    · have := hR.herm _ (up_lt (m := m) (start := start) ha)
      rwa [h.out a ha] at this
    · have := hR.comm _ _ (up_lt (m := m) (start := start) ha) (up_lt (m := m) (start := start) hb)
      rw [h.out a ha, h.out b hb, sp_pad hs] at this
      rw [this]
      simp only [partner_up ha hb]
    · have := hR.herm _ (upS_lt (n := n) hs ha)
      rwa [h.inn a ha] at this
    · have := hR.comm _ _ (upS_lt (n := n) hs ha) (upS_lt (n := n) hs hb)
      rw [h.inn a ha, h.inn b hb, sp_ins hs] at this
      rw [this]
      simp only [partner_upS hs ha hb]
  · rintro ⟨hT, hS⟩
    refine ⟨fun i hi => ?_, fun i j hi hj => ?_⟩
    · rcases up_cases hs hi with ⟨a, ha, rfl⟩ | ⟨b, hb, rfl⟩
      · rw [h.out a ha]; exact hT.herm a ha
      · rw [h.inn b hb]; exact hS.herm b hb
    · rcases up_cases hs hi with ⟨a, ha, rfl⟩ | ⟨a, ha, rfl⟩ <;> rcases up_cases hs hj with ⟨b, hb, rfl⟩ | ⟨b, hb, rfl⟩
      · rw [h.out a ha, h.out b hb, sp_pad hs, hT.comm a b ha hb]
        simp only [partner_up ha hb]
      · rw [h.out a ha, h.inn b hb, sp_pad_ins hs, if_neg (not_partner hs ha hb)]
      · rw [h.inn a ha, h.out b hb, sp_comm, sp_pad_ins hs, if_neg (fun hp => not_partner hs hb ha (partner_comm.1 hp))]
      · rw [h.inn a ha, h.inn b hb, sp_ins hs, hS.comm a b ha hb]
        simp only [partner_upS hs ha hb]

theorem Made.stabilises {T : Tab n} {S : Tab m} {R : Tab (n + m)} (h : Made T S start R) {ψ : State n} {φ : State m}
    (hψ : Stabilises T ψ) (hφ : Stabilises S φ) : Stabilises R (joined start ψ φ) := by
  have hs := h.le
  intro i hi hi'
  rcases up_cases hs hi' with ⟨a, ha, rfl⟩ | ⟨b, hb, rfl⟩
  · rw [h.out a ha, padRow_op hs, hψ a ((up_ge ha).1 hi) ha]
  · rw [h.inn b hb, insRow_op hs, hφ b ((upS_ge hs).1 hi) hb]

theorem made_compose {T : Tab n} {S : Tab m} {k : ℕ} {R : Tab (n + m)} (h : compose T S start = some (k, R)) :
    k = start ∧ Made T S start R := by
  unfold compose at h
  split_ifs at h with hs
  dsimp only at h
  rw [Option.some.injEq, Prod.mk.injEq] at h
  obtain ⟨rfl, rfl⟩ := h
  refine ⟨rfl, by omega, fun a ha => ?_, fun b hb => ?_⟩
  · unfold insertAt up
    split_ifs <;> first | omega | (congr 2; omega) | rfl
  · unfold insertAt upS
    split_ifs <;> dsimp only <;> first | omega | (congr 2; omega) | rfl

/-! ### Taking apart -/

theorem drop_pad (hs : start ≤ n) {w : Row (n + m)} (hb : ∀ j : Fin m, w.x (inIdx hs j) = false ∧ w.z (inIdx hs j) = false) :
    padRow m start (dropRow start w) = w := by
  have key : ∀ b : Fin (n + m) → Bool, (∀ j : Fin m, b (inIdx hs j) = false) → ∀ k : Fin (n + m),
      insertAt (ext fun j : Fin n => eraseAt (ext b) start (start + m) j) start (fun _ => false) m k = b k := by
    intro b hb k
    rcases idx_cases hs k with ⟨j, rfl⟩ | ⟨j, rfl⟩
    · rw [insertAt_out hs]
      unfold eraseAt outIdx
      by_cases h : j.val < start
      · simp only [if_pos h]
        unfold ext; rw [dif_pos (by omega)]
      · simp only [if_neg h]
        unfold ext; rw [dif_pos (by omega)]
        congr 2; omega
    · rw [insertAt_in hs, hb]
  refine Row.ext ?_ ?_ rfl
  · funext k; exact key w.x (fun j => (hb j).1) k
  · funext k; exact key w.z (fun j => (hb j).2) k

theorem cut_ins (hs : start ≤ n) {w : Row (n + m)} (hb : ∀ j : Fin n, w.x (outIdx m start j) = false ∧ w.z (outIdx m start j) = false) :
    insRow n start (cutRow m start w) = w := by
  have key : ∀ b : Fin (n + m) → Bool, (∀ j : Fin n, b (outIdx m start j) = false) → ∀ k : Fin (n + m),
      insertAt (insertAt (ext fun j : Fin m => ext b (start + j)) 0 (fun _ => false) start) (start + m) (fun _ => false) (n - start) k =
        b k := by
    intro b hb k
    rcases idx_cases hs k with ⟨j, rfl⟩ | ⟨j, rfl⟩
    · rw [insertIn_out hs, hb]
    · rw [insertIn_in hs]
      unfold ext inIdx; rw [dif_pos (by omega)]
  refine Row.ext ?_ ?_ rfl
  · funext k; exact key w.x (fun j => (hb j).1) k
  · funext k; exact key w.z (fun j => (hb j).2) k

theorem bitsSet_false {w : Row n} {a b : ℕ} (h : bitsSet w a b = false) (j : Fin n) (ha : a ≤ j) (hb : j < b) :
    w.x j = false ∧ w.z j = false := by
  unfold bitsSet at h
  rw [List.any_eq_false] at h
  have := h j.val (List.mem_range'_1.2 ⟨ha, by omega⟩)
  rw [ext_fin, ext_fin, Bool.not_eq_true, Bool.or_eq_false_iff] at this
  exact this

/-- What the test says when it says yes. -/
theorem canDecompose_true {T : Tab (n + m)} {G : Tab (n + m)} (h : canDecompose T start m = some (true, G)) (h1 : n + m ≠ 1) :
    ∃ hs : start ≤ n, G = (gaussian T).1 ∧
      (∀ a, a < 2 * n → ∀ j : Fin m, (G (up n m start a)).x (inIdx hs j) = false ∧ (G (up n m start a)).z (inIdx hs j) = false) ∧
      ∀ b, b < 2 * m → ∀ j : Fin n, (G (upS n m start b)).x (outIdx m start j) = false ∧ (G (upS n m start b)).z (outIdx m start j) = false := by
  unfold canDecompose at h
  dsimp only at h
  split_ifs at h with c1 c4 c5 c6
  · simp at h
  · simp at h
  · simp at h
  · simp only [Option.some.injEq, Prod.mk.injEq, true_and] at h
    subst h
    have hs : start ≤ n := by
      unfold badRange at c1
      simp only [decide_eq_true_eq] at c1; omega
    simp only [List.any_eq_true, not_exists, not_and, Bool.or_eq_true, not_or, Bool.not_eq_true] at c4 c5 c6
    refine ⟨hs, rfl, fun a ha j => ?_, fun b hb j => ?_⟩
    · have key : ∀ p, (p < start ∨ start + m ≤ p ∧ p < n + m) → bitsSet ((gaussian T).1 p) start (start + m) = false ∧
          bitsSet ((gaussian T).1 (p + (n + m))) start (start + m) = false := by
        rintro p (hp | ⟨hp, hp'⟩)
        · exact c4 p (List.mem_range.2 hp)
        · exact c5 p (List.mem_range'_1.2 ⟨hp, by omega⟩)
      unfold up
      split_ifs with d1 d2 d3
      · exact bitsSet_false (key a (Or.inl d2)).1 _ (by simp [inIdx]) (by simp [inIdx])
      · exact bitsSet_false (key (a + m) (Or.inr ⟨by omega, by omega⟩)).1 _ (by simp [inIdx]) (by simp [inIdx])
      · have := (key (a - n) (Or.inl d3)).2
        rw [show a - n + (n + m) = n + m + (a - n) by omega] at this
        exact bitsSet_false this _ (by simp [inIdx]) (by simp [inIdx])
      · have := (key (a - n + m) (Or.inr ⟨by omega, by omega⟩)).2
        rw [show a - n + m + (n + m) = n + m + (a - n) + m by omega] at this
        exact bitsSet_false this _ (by simp [inIdx]) (by simp [inIdx])
    · have key : ∀ w : Row (n + m), bitsSet w 0 start = false → bitsSet w (start + m) (n + m) = false →
          w.x (outIdx m start j) = false ∧ w.z (outIdx m start j) = false := by
        intro w w1 w2
        by_cases hj : j.val < start
        · exact bitsSet_false w1 _ (Nat.zero_le _) (by simp [outIdx, hj])
        · refine bitsSet_false w2 _ ?_ ?_
          · simp only [outIdx, if_neg hj]; omega
          · simp only [outIdx, if_neg hj]; omega
      unfold upS
      split_ifs with d1
      · have := c6 (start + b) (List.mem_range'_1.2 ⟨by omega, by omega⟩)
        exact key _ this.1.1 this.2.1
      · have := c6 (start + (b - m)) (List.mem_range'_1.2 ⟨by omega, by omega⟩)
        rw [show start + (b - m) + (n + m) = n + m + start + (b - m) by omega] at this
        exact key _ this.1.2 this.2.2

/-- When the test says yes, the eliminated tableau is made of the two parts that `decompose` returns. -/
theorem made_decompose {T : Tab (n + m)} {G : Tab (n + m)} (h : canDecompose T start m = some (true, G)) (hm : m ≠ 0) (D : Tab m) :
    ∃ A B, decompose T start D = some (A, B) ∧ Made A B start (gaussian T).1 ∧ ∀ i, 2 * m ≤ i → B i = D i := by
  have hs : start ≤ n := by
    unfold canDecompose at h
    split_ifs at h with c1 <;> first | (simp only [badRange, decide_eq_true_eq] at c1; omega) | cases h
  have hb : (∀ a, a < 2 * n → ∀ j : Fin m, ((gaussian T).1 (up n m start a)).x (inIdx hs j) = false ∧
        ((gaussian T).1 (up n m start a)).z (inIdx hs j) = false) ∧
      ∀ b, b < 2 * m → ∀ j : Fin n, ((gaussian T).1 (upS n m start b)).x (outIdx m start j) = false ∧
        ((gaussian T).1 (upS n m start b)).z (outIdx m start j) = false := by
    by_cases h1 : n + m = 1
    · have : n = 0 := by omega
      subst this
      exact ⟨fun a ha => by omega, fun b _ j => j.elim0⟩
    · obtain ⟨_, rfl, g1, g2⟩ := canDecompose_true h h1
      exact ⟨g1, g2⟩
  have hd : decompose T start D = some
      (fun i => dropRow start (eraseAt (eraseAt (gaussian T).1 (n + m + start) (n + m + (start + m))) start (start + m) i),
      fun i => if i < m then cutRow m start ((gaussian T).1 (start + i))
        else if i < 2 * m then cutRow m start ((gaussian T).1 (n + m + start + (i - m))) else D i) := by
    unfold decompose
    rw [if_neg (by simp only [badRange, decide_eq_true_eq]; omega), dif_neg hm]
  refine ⟨_, _, hd, ⟨hs, fun a ha => ?_, fun b hb' => ?_⟩, fun i hi => ?_⟩
  · rw [← drop_pad hs (hb.1 a ha)]
    congr 2
    unfold eraseAt up
    split_ifs <;> first | rfl | omega | exact congrArg _ (by omega)
  · rw [← cut_ins hs (hb.2 b hb')]
    congr 1
    unfold upS
    split_ifs <;> rfl
  · rw [if_neg (by omega), if_neg (by omega)]

end Verif.Stab
