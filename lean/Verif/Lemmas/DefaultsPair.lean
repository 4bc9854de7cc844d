import Verif.Lemmas.DefaultsUniform

/-!
Gate sequences on two qubits, computed on the four amplitudes they mix.
-/

namespace Verif.Defaults

open Verif.Engine Verif.Spec Verif.Bits Verif.Utils Complex Classical

/-- The four amplitudes of the states that agree with `i` outside `q1`, `q2`. -/
def blk (q1 q2 : ℕ) (s : ℕ → ℂ) (i : ℕ) (x y : Bool) : ℂ := s (setBit q1 x (setBit q2 y i))

/-- A matrix on the first or the second of two qubits, and the controlled `X`. -/
def act1 (m : M2) (f : Bool → Bool → ℂ) (x y : Bool) : ℂ :=
  if x then m.c * f false y + m.d * f true y else m.a * f false y + m.b * f true y
def act2 (m : M2) (f : Bool → Bool → ℂ) (x y : Bool) : ℂ :=
  if y then m.c * f x false + m.d * f x true else m.a * f x false + m.b * f x true
def cx12 (f : Bool → Bool → ℂ) (x y : Bool) : ℂ := if x then f x (!y) else f x y
def cx21 (f : Bool → Bool → ℂ) (x y : Bool) : ℂ := if y then f (!x) y else f x y
def exch (u v : ℂ) (f : Bool → Bool → ℂ) (x y : Bool) : ℂ := if x = y then f x y else u * f x y + v * f y x

variable {q1 q2 : ℕ}

theorem set_set (h : q1 ≠ q2) (i : ℕ) : setBit q1 (i.testBit q1) (setBit q2 (i.testBit q2) i) = i := by
  apply Nat.eq_of_testBit_eq
  intro k
  rw [Verif.Spec.testBit_setBit, Verif.Spec.testBit_setBit]
  by_cases h1 : k = q1
  · subst h1; simp
  · by_cases h2 : k = q2
    · subst h2; simp [h1]
    · simp [h1, h2]

theorem blk_ext (h : q1 ≠ q2) {s s' : ℕ → ℂ} (e : ∀ i, blk q1 q2 s i = blk q1 q2 s' i) : s = s' := by
  funext i
  have := congrFun (congrFun (e i) (i.testBit q1)) (i.testBit q2)
  simpa only [blk, set_set h] using this

theorem bit1 (x y : Bool) (i : ℕ) : (setBit q1 x (setBit q2 y i)).testBit q1 = x := by
  rw [Verif.Spec.testBit_setBit]; simp

theorem bit2 (h : q1 ≠ q2) (x y : Bool) (i : ℕ) : (setBit q1 x (setBit q2 y i)).testBit q2 = y := by
  rw [Verif.Spec.testBit_setBit, Verif.Spec.testBit_setBit]; simp [h.symm]

theorem bitOther {k : ℕ} (h1 : k ≠ q1) (h2 : k ≠ q2) (x y : Bool) (i : ℕ) :
    (setBit q1 x (setBit q2 y i)).testBit k = i.testBit k := by
  rw [Verif.Spec.testBit_setBit, Verif.Spec.testBit_setBit]; simp [h1, h2]

theorem flip1 (x y : Bool) (i : ℕ) : flipBit q1 (setBit q1 x (setBit q2 y i)) = setBit q1 (!x) (setBit q2 y i) := by
  apply Nat.eq_of_testBit_eq
  intro k
  simp only [testBit_flip, Verif.Spec.testBit_setBit]
  by_cases h1 : k = q1 <;> simp [h1]

theorem flip2 (h : q1 ≠ q2) (x y : Bool) (i : ℕ) : flipBit q2 (setBit q1 x (setBit q2 y i)) = setBit q1 x (setBit q2 (!y) i) := by
  apply Nat.eq_of_testBit_eq
  intro k
  simp only [testBit_flip, Verif.Spec.testBit_setBit]
  by_cases h1 : k = q2
  · subst h1; simp [h.symm]
  · simp [h1]

theorem swap12 (h : q1 ≠ q2) (x y : Bool) (i : ℕ) :
    swapBits q1 q2 (setBit q1 x (setBit q2 y i)) = setBit q1 y (setBit q2 x i) := by
  apply Nat.eq_of_testBit_eq
  intro k
  rw [testBit_swapBits, bit1, bit2 h]
  by_cases h1 : k = q1
  · subst h1; simp [bit1]
  · by_cases h2 : k = q2
    · subst h2; simp [h1, bit2 h]
    · rw [bitOther h1 h2, bitOther h1 h2]; simp [h1, h2]

/-- A condition that does not look at the two qubits. -/
def Blind (q1 q2 : ℕ) (p : ℕ → Prop) : Prop := ∀ i x y, p (setBit q1 x (setBit q2 y i)) ↔ p i

theorem blind_true : Blind q1 q2 fun _ => True := fun _ _ _ => Iff.rfl

theorem blind_allAre {v : Bool} {cs : List ℕ} (h1 : q1 ∉ cs) (h2 : q2 ∉ cs) : Blind q1 q2 (AllAre v cs) := by
  intro i x y
  unfold AllAre
  refine forall₂_congr fun c hc => ?_
  have n1 : c ≠ q1 := fun h => h1 (h ▸ hc)
  have n2 : c ≠ q2 := fun h => h2 (h ▸ hc)
  rw [bitOther n1 n2]

theorem blk_gate1 {p : ℕ → Prop} [DecidablePred p] (hp : Blind q1 q2 p) (m : M2) (s : ℕ → ℂ) (i : ℕ) :
    blk q1 q2 (gate p q1 m.a m.b m.c m.d s) i = if p i then act1 m (blk q1 q2 s i) else blk q1 q2 s i := by
  funext x y
  by_cases h : p i
  · rw [if_pos h]
    unfold blk act1 gate
    rw [if_pos ((hp i x y).2 h), bit1, flip1]
    cases x <;> simp
  · rw [if_neg h]
    unfold blk gate
    rw [if_neg (fun h' => h ((hp i x y).1 h'))]

theorem blk_gate2 (hq : q1 ≠ q2) {p : ℕ → Prop} [DecidablePred p] (hp : Blind q1 q2 p) (m : M2) (s : ℕ → ℂ) (i : ℕ) :
    blk q1 q2 (gate p q2 m.a m.b m.c m.d s) i = if p i then act2 m (blk q1 q2 s i) else blk q1 q2 s i := by
  funext x y
  by_cases h : p i
  · rw [if_pos h]
    unfold blk act2 gate
    rw [if_pos ((hp i x y).2 h), bit2 hq, flip2 hq]
    cases y <;> simp
  · rw [if_neg h]
    unfold blk gate
    rw [if_neg (fun h' => h ((hp i x y).1 h'))]

theorem blk_cx12 (hq : q1 ≠ q2) {cs : List ℕ} (hp : Blind q1 q2 (AllAre true cs)) (s : ℕ → ℂ) (i : ℕ) :
    blk q1 q2 (gate (AllAre true (cs ++ [q1])) q2 0 1 1 0 s) i =
      if AllAre true cs i then cx12 (blk q1 q2 s i) else blk q1 q2 s i := by
  have hc : ∀ j, AllAre true (cs ++ [q1]) j ↔ AllAre true cs j ∧ j.testBit q1 = true := by
    intro j; simp only [AllAre, List.mem_append, List.mem_singleton, or_imp, forall_and, forall_eq]
  funext x y
  unfold blk
  rw [show gate (AllAre true (cs ++ [q1])) q2 0 1 1 0 s (setBit q1 x (setBit q2 y i)) =
    if AllAre true cs i ∧ x = true then s (setBit q1 x (setBit q2 (!y) i)) else s (setBit q1 x (setBit q2 y i)) from ?_]
  · by_cases h : AllAre true cs i
    · cases x <;> simp [h, cx12]
    · simp [h]
  · unfold gate
    by_cases h : AllAre true cs i ∧ x = true
    · rw [if_pos h, if_pos ((hc _).2 ⟨(hp i x y).2 h.1, by rw [bit1]; exact h.2⟩), flip2 hq]
      split_ifs <;> ring
    · rw [if_neg h, if_neg (fun h' => h ⟨(hp i x y).1 ((hc _).1 h').1, by have := ((hc _).1 h').2; rwa [bit1] at this⟩)]

theorem blk_cx21 (hq : q1 ≠ q2) {cs : List ℕ} (hp : Blind q1 q2 (AllAre true cs)) (s : ℕ → ℂ) (i : ℕ) :
    blk q1 q2 (gate (AllAre true (cs ++ [q2])) q1 0 1 1 0 s) i =
      if AllAre true cs i then cx21 (blk q1 q2 s i) else blk q1 q2 s i := by
  have hc : ∀ j, AllAre true (cs ++ [q2]) j ↔ AllAre true cs j ∧ j.testBit q2 = true := by
    intro j; simp only [AllAre, List.mem_append, List.mem_singleton, or_imp, forall_and, forall_eq]
  funext x y
  unfold blk
  rw [show gate (AllAre true (cs ++ [q2])) q1 0 1 1 0 s (setBit q1 x (setBit q2 y i)) =
    if AllAre true cs i ∧ y = true then s (setBit q1 (!x) (setBit q2 y i)) else s (setBit q1 x (setBit q2 y i)) from ?_]
  · by_cases h : AllAre true cs i
    · cases y <;> simp [h, cx21]
    · simp [h]
  · unfold gate
    by_cases h : AllAre true cs i ∧ y = true
    · rw [if_pos h, if_pos ((hc _).2 ⟨(hp i x y).2 h.1, by rw [bit2 hq]; exact h.2⟩), flip1]
      split_ifs <;> ring
    · rw [if_neg h, if_neg (fun h' => h ⟨(hp i x y).1 ((hc _).1 h').1, by have := ((hc _).1 h').2; rwa [bit2 hq] at this⟩)]

theorem blk_exchange (hq : q1 ≠ q2) {p : ℕ → Prop} [DecidablePred p] (hp : Blind q1 q2 p) (u v : ℂ) (s : ℕ → ℂ) (i : ℕ) :
    blk q1 q2 (exchange p q1 q2 u v s) i = if p i then exch u v (blk q1 q2 s i) else blk q1 q2 s i := by
  funext x y
  unfold blk exchange
  rw [bit1, bit2 hq, swap12 hq]
  by_cases h : p i
  · rw [if_pos h]
    unfold exch
    by_cases hxy : x = y
    · simp [hxy]
    · rw [if_pos ⟨(hp i x y).2 h, hxy⟩, if_neg hxy]
  · rw [if_neg h, if_neg (fun h' => h ((hp i x y).1 h'.1))]

theorem exchange_same (p : ℕ → Prop) [DecidablePred p] (q : ℕ) (u v : ℂ) (s : ℕ → ℂ) : exchange p q q u v s = s := by
  funext i; unfold exchange; simp

/-! ## Algebra of the four amplitudes -/

theorem s12_sq : s12 * s12 = 1 / 2 := Real.mul_self_sqrt (by norm_num)

theorem s12_sqC : (s12 : ℂ) ^ 2 = 1 / 2 := by
  rw [pow_two, ← ofReal_mul, s12_sq]; norm_num

theorem sqrtI_eq : sqrtI = s12 * (1 + I) := by
  apply Complex.ext <;> simp [sqrtI]

theorem sqrtNI_eq : sqrtNI = s12 * (1 - I) := by
  apply Complex.ext <;> simp [sqrtNI]

theorem cx_swap (f : Bool → Bool → ℂ) : cx12 (cx21 (cx12 f)) = exch 0 1 f := by
  funext x y; cases x <;> cases y <;> simp [cx12, cx21, exch]

theorem cz_alg (f : Bool → Bool → ℂ) (x y : Bool) : act2 ⟨1, 0, 0, -1⟩ f x y = if y then -f x y else f x y := by
  cases y <;> simp [act2]

theorem sqrtSwap_alg (f : Bool → Bool → ℂ) :
    act2 ⟨1, 0, 0, I⟩ (act1 ⟨1, 0, 0, -I⟩ (cx12 (act1 hM (act1 ⟨1, 0, 0, sqrtNI⟩ (act2 hM (act1 hM (cx12 (act1 hM (act2 hM
      (act1 ⟨1, 0, 0, sqrtI⟩ (act2 ⟨1, 0, 0, sqrtNI⟩ (act1 hM (cx12 f))))))))))))) =
      exch ((1 + I) / 2) ((1 - I) / 2) f := by
  have h2 := s12_sqC
  have h3 : (s12 : ℂ) ^ 3 = s12 / 2 := by rw [pow_succ, h2]; ring
  have h4 : (s12 : ℂ) ^ 4 = 1 / 4 := by rw [show 4 = 2 * 2 from rfl, pow_mul, h2]; norm_num
  have h5 : (s12 : ℂ) ^ 5 = s12 / 4 := by rw [pow_succ, h4]; ring
  have h6 : (s12 : ℂ) ^ 6 = 1 / 8 := by rw [pow_succ, h5]; linear_combination h2 / 4
  have h7 : (s12 : ℂ) ^ 7 = s12 / 8 := by rw [pow_succ, h6]; ring
  have h8 : (s12 : ℂ) ^ 8 = 1 / 16 := by rw [pow_succ, h7]; linear_combination h2 / 8
  have i2 := I_sq
  have i3 : I ^ 3 = -I := by rw [pow_succ, i2]; ring
  have i4 : I ^ 4 = 1 := by rw [show 4 = 2 * 2 from rfl, pow_mul, i2]; norm_num
  have i5 : I ^ 5 = I := by rw [pow_succ, i4]; ring
  funext x y
  cases x <;> cases y <;>
    simp [act1, act2, cx12, exch, hM, sqrtI_eq, sqrtNI_eq] <;> ring_nf <;>
    simp only [h2, h3, h4, h5, h6, h7, h8, i2, i3, i4, i5] <;> ring

theorem isqrtSwap_alg (f : Bool → Bool → ℂ) :
    cx12 (act1 hM (act2 ⟨1, 0, 0, sqrtI⟩ (act1 ⟨1, 0, 0, sqrtNI⟩ (act2 hM (act1 hM (cx12 (act1 hM (act2 hM
      (act1 ⟨1, 0, 0, sqrtI⟩ (act1 hM (cx12 (act1 ⟨1, 0, 0, I⟩ (act2 ⟨1, 0, 0, -I⟩ f))))))))))))) =
      exch ((1 - I) / 2) ((1 + I) / 2) f := by
  have h2 := s12_sqC
  have h3 : (s12 : ℂ) ^ 3 = s12 / 2 := by rw [pow_succ, h2]; ring
  have h4 : (s12 : ℂ) ^ 4 = 1 / 4 := by rw [show 4 = 2 * 2 from rfl, pow_mul, h2]; norm_num
  have h5 : (s12 : ℂ) ^ 5 = s12 / 4 := by rw [pow_succ, h4]; ring
  have h6 : (s12 : ℂ) ^ 6 = 1 / 8 := by rw [pow_succ, h5]; linear_combination h2 / 4
  have h7 : (s12 : ℂ) ^ 7 = s12 / 8 := by rw [pow_succ, h6]; ring
  have h8 : (s12 : ℂ) ^ 8 = 1 / 16 := by rw [pow_succ, h7]; linear_combination h2 / 8
  have i2 := I_sq
  have i3 : I ^ 3 = -I := by rw [pow_succ, i2]; ring
  have i4 : I ^ 4 = 1 := by rw [show 4 = 2 * 2 from rfl, pow_mul, i2]; norm_num
  have i5 : I ^ 5 = I := by rw [pow_succ, i4]; ring
  funext x y
  cases x <;> cases y <;>
    simp [act1, act2, cx12, exch, hM, sqrtI_eq, sqrtNI_eq] <;> ring_nf <;>
    simp only [h2, h3, h4, h5, h6, h7, h8, i2, i3, i4, i5] <;> ring

/-! ## The sequences -/

theorem sem_phase_one (r : Bool) (br : ℂ) (q : ℕ) (s : ℕ → ℂ) : sem (phase r 1 br q) s = gate (fun _ => True) q 1 0 0 br s := by
  unfold phase
  split_ifs with h
  · have h2 : br = 1 := (sub_eq_zero.1 h.2).symm
    rw [h2, sem_nil]; funext i; rw [gate_id]
  · rfl

theorem allAre_nil (v : Bool) (i : ℕ) : AllAre v [] i ↔ True := by simp [AllAre]

theorem blk_cnot12 (hq : q1 ≠ q2) (s : ℕ → ℂ) (i : ℕ) : blk q1 q2 (sem (cnot q1 q2) s) i = cx12 (blk q1 q2 s i) := by
  have := blk_cx12 hq (cs := []) (blind_allAre (by simp) (by simp)) s i
  rw [if_pos ((allAre_nil _ _).2 trivial)] at this
  exact this

theorem blk_cnot21 (hq : q1 ≠ q2) (s : ℕ → ℂ) (i : ℕ) : blk q1 q2 (sem (cnot q2 q1) s) i = cx21 (blk q1 q2 s i) := by
  have := blk_cx21 hq (cs := []) (blind_allAre (by simp) (by simp)) s i
  rw [if_pos ((allAre_nil _ _).2 trivial)] at this
  exact this

theorem blk_mtrx1 (m : M2) (s : ℕ → ℂ) (i : ℕ) : blk q1 q2 (sem [.mtrx m q1] s) i = act1 m (blk q1 q2 s i) := by
  have := blk_gate1 (q1 := q1) (q2 := q2) blind_true m s i
  rw [if_pos trivial] at this
  exact this

theorem blk_mtrx2 (hq : q1 ≠ q2) (m : M2) (s : ℕ → ℂ) (i : ℕ) : blk q1 q2 (sem [.mtrx m q2] s) i = act2 m (blk q1 q2 s i) := by
  have := blk_gate2 hq blind_true m s i
  rw [if_pos trivial] at this
  exact this

theorem blk_phase1 (r : Bool) (br : ℂ) (s : ℕ → ℂ) (i : ℕ) :
    blk q1 q2 (sem (phase r 1 br q1) s) i = act1 ⟨1, 0, 0, br⟩ (blk q1 q2 s i) := by
  rw [sem_phase_one]; exact blk_mtrx1 ⟨1, 0, 0, br⟩ s i

theorem blk_phase2 (hq : q1 ≠ q2) (r : Bool) (br : ℂ) (s : ℕ → ℂ) (i : ℕ) :
    blk q1 q2 (sem (phase r 1 br q2) s) i = act2 ⟨1, 0, 0, br⟩ (blk q1 q2 s i) := by
  rw [sem_phase_one]; exact blk_mtrx2 hq ⟨1, 0, 0, br⟩ s i

theorem blk_cz (hq : q1 ≠ q2) (s : ℕ → ℂ) (i : ℕ) :
    blk q1 q2 (sem (cz q1 q2) s) i = fun x y => if x = true ∧ y = true then -blk q1 q2 s i x y else blk q1 q2 s i x y := by
  rw [cz, sem_mcPhase]
  funext x y
  unfold blk gate
  have h : AllAre true [q1] (setBit q1 x (setBit q2 y i)) ↔ x = true := by simp [AllAre, bit1]
  by_cases hx : x = true
  · rw [if_pos (h.2 hx), bit2 hq]
    cases y <;> simp [hx]
  · rw [if_neg (fun h' => hx (h.1 h'))]; simp [hx]

theorem blk_exch_true (hq : q1 ≠ q2) (u v : ℂ) (s : ℕ → ℂ) (i : ℕ) :
    blk q1 q2 (exchange (fun _ => True) q1 q2 u v s) i = exch u v (blk q1 q2 s i) := by
  rw [blk_exchange hq blind_true, if_pos trivial]

theorem sem_swap (q1 q2 : ℕ) (s : ℕ → ℂ) : sem (swap q1 q2) s = exchange (fun _ => True) q1 q2 0 1 s := by
  unfold swap
  split_ifs with hq
  · subst hq; rw [exchange_same]; rfl
  · refine blk_ext hq fun i => ?_
    simp only [sem_append, blk_cnot12 hq, blk_cnot21 hq, blk_exch_true hq, cx_swap]

theorem sem_iswap (r : Bool) (q1 q2 : ℕ) (s : ℕ → ℂ) : sem (iswap r q1 q2) s = exchange (fun _ => True) q1 q2 0 I s := by
  unfold iswap
  split_ifs with hq
  · subst hq; rw [exchange_same]; rfl
  · refine blk_ext hq fun i => ?_
    simp only [Defaults.s, sem_append, sem_swap, blk_cz hq, blk_phase1, blk_phase2 hq, blk_exch_true hq]
    funext x y
    cases x <;> cases y <;> simp [act1, act2, exch]
    linear_combination -(blk q1 q2 s i true true) * I_sq

theorem sem_iiswap (r : Bool) (q1 q2 : ℕ) (s : ℕ → ℂ) : sem (iiswap r q1 q2) s = exchange (fun _ => True) q1 q2 0 (-I) s := by
  unfold iiswap
  split_ifs with hq
  · subst hq; rw [exchange_same]; rfl
  · refine blk_ext hq fun i => ?_
    simp only [Defaults.is, sem_append, sem_swap, blk_cz hq, blk_phase1, blk_phase2 hq, blk_exch_true hq]
    funext x y
    cases x <;> cases y <;> simp [act1, act2, exch]
    linear_combination -(blk q1 q2 s i true true) * I_sq

theorem sem_sqrtSwap (r : Bool) (q1 q2 : ℕ) (s : ℕ → ℂ) :
    sem (sqrtSwap r q1 q2) s = exchange (fun _ => True) q1 q2 ((1 + I) / 2) ((1 - I) / 2) s := by
  unfold sqrtSwap
  split_ifs with hq
  · subst hq; rw [exchange_same]; rfl
  · refine blk_ext hq fun i => ?_
    simp only [Defaults.is, Defaults.s, Defaults.t, it, h, sem_append, blk_cnot12 hq, blk_phase1, blk_phase2 hq, blk_mtrx1, blk_mtrx2 hq,
      blk_exch_true hq, sqrtSwap_alg]

theorem sem_isqrtSwap (r : Bool) (q1 q2 : ℕ) (s : ℕ → ℂ) :
    sem (isqrtSwap r q1 q2) s = exchange (fun _ => True) q1 q2 ((1 - I) / 2) ((1 + I) / 2) s := by
  unfold isqrtSwap
  split_ifs with hq
  · subst hq; rw [exchange_same]; rfl
  · refine blk_ext hq fun i => ?_
    simp only [Defaults.is, Defaults.s, Defaults.t, it, h, sem_append, blk_cnot12 hq, blk_phase1, blk_phase2 hq, blk_mtrx1, blk_mtrx2 hq,
      blk_exch_true hq, isqrtSwap_alg]

theorem sem_cswap {cs : List ℕ} (h1 : q1 ∉ cs) (h2 : q2 ∉ cs) (s : ℕ → ℂ) :
    sem (cswap cs q1 q2) s = exchange (AllAre true cs) q1 q2 0 1 s := by
  unfold cswap
  split_ifs with hc hq
  · subst hc
    rw [sem_swap]
    funext i; unfold exchange; simp [AllAre]
  · subst hq; rw [exchange_same]; rfl
  · have hb : Blind q1 q2 (AllAre true cs) := blind_allAre h1 h2
    refine blk_ext hq fun i => ?_
    simp only [sem_append, sem_mcInvert, blk_cx12 hq hb, blk_cx21 hq hb, blk_exchange hq hb]
    by_cases h : AllAre true cs i
    · simp only [if_pos h, cx_swap]
    · simp only [if_neg h]

theorem blk_mc1 {cs : List ℕ} (hb : Blind q1 q2 (AllAre true cs)) (m : M2) (s : ℕ → ℂ) (i : ℕ) :
    blk q1 q2 ((Prim.mc cs m q1).sem s) i = if AllAre true cs i then act1 m (blk q1 q2 s i) else blk q1 q2 s i :=
  blk_gate1 hb m s i

theorem blk_mc2 (hq : q1 ≠ q2) {cs : List ℕ} (hb : Blind q1 q2 (AllAre true cs)) (m : M2) (s : ℕ → ℂ) (i : ℕ) :
    blk q1 q2 ((Prim.mc cs m q2).sem s) i = if AllAre true cs i then act2 m (blk q1 q2 s i) else blk q1 q2 s i :=
  blk_gate2 hq hb m s i

theorem blk_mcx (hq : q1 ≠ q2) {cs : List ℕ} (hb : Blind q1 q2 (AllAre true cs)) (s : ℕ → ℂ) (i : ℕ) :
    blk q1 q2 ((Prim.mc (cs ++ [q1]) ⟨0, 1, 1, 0⟩ q2).sem s) i =
      if AllAre true cs i then cx12 (blk q1 q2 s i) else blk q1 q2 s i :=
  blk_cx12 hq hb s i

theorem sem_csqrtSwap (r : Bool) {cs : List ℕ} (h1 : q1 ∉ cs) (h2 : q2 ∉ cs) (s : ℕ → ℂ) :
    sem (csqrtSwap r cs q1 q2) s = exchange (AllAre true cs) q1 q2 ((1 + I) / 2) ((1 - I) / 2) s := by
  unfold csqrtSwap
  split_ifs with hc hq
  · subst hc
    rw [sem_sqrtSwap]
    funext i; unfold exchange; simp [AllAre]
  · subst hq; rw [exchange_same]; rfl
  · have hb : Blind q1 q2 (AllAre true cs) := blind_allAre h1 h2
    refine blk_ext hq fun i => ?_
    simp only [sem_cons, sem_nil, blk_mc1 hb, blk_mc2 hq hb, blk_mcx hq hb, blk_exchange hq hb]
    by_cases h : AllAre true cs i
    · simp only [if_pos h, sqrtSwap_alg]
    · simp only [if_neg h]

theorem sem_cisqrtSwap {cs : List ℕ} (h1 : q1 ∉ cs) (h2 : q2 ∉ cs) (s : ℕ → ℂ) :
    sem (cisqrtSwap cs q1 q2) s = exchange (AllAre true cs) q1 q2 ((1 - I) / 2) ((1 + I) / 2) s := by
  unfold cisqrtSwap
  split_ifs with hq
  · subst hq; rw [exchange_same]; rfl
  · have hb : Blind q1 q2 (AllAre true cs) := blind_allAre h1 h2
    refine blk_ext hq fun i => ?_
    simp only [sem_cons, sem_nil, blk_mc1 hb, blk_mc2 hq hb, blk_mcx hq hb, blk_exchange hq hb]
    by_cases h : AllAre true cs i
    · simp only [if_pos h, isqrtSwap_alg]
    · simp only [if_neg h]

/-- An exchange between two copies of `XMask` on the controls. -/
theorem sem_anti_exchange {cs : List ℕ} (h1 : q1 ∉ cs) (h2 : q2 ∉ cs) {p : List Prim} {u v : ℂ}
    (h : ∀ s, sem p s = exchange (AllAre true cs) q1 q2 u v s) (s : ℕ → ℂ) :
    sem (xMask (ctrlMask cs) ++ p ++ xMask (ctrlMask cs)) s = exchange (AllAre false cs) q1 q2 u v s := by
  rw [sem_conj_xMask]
  simp only [h]
  rw [exchange_xorMask _ (ctrlMask_not h1) (ctrlMask_not h2)]
  funext i
  unfold exchange
  simp only [allAre_ctrlMask]

end Verif.Defaults
