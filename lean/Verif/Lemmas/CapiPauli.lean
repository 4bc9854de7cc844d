import Verif.Model.CapiPauli
import Verif.Props.EngineExpect
import Verif.Props.EngineMaskGates
import Verif.Props.EngineMeasReg
import Verif.Props.EngineUniform

/-!
Helper lemmas: the changes of basis as operators, and how they carry products of `Z` to products of Pauli operators.
-/

namespace Verif.CapiPauli

open Verif.Engine Verif.ParFor Verif.Spec Verif.Bits Classical

/-- An unconditional gate. -/
noncomputable abbrev g1 (q : ℕ) (a b c d : ℂ) (s : ℕ → ℂ) : ℕ → ℂ := gate (fun _ => True) q a b c d s

noncomputable def hOp (q : ℕ) (s : ℕ → ℂ) : ℕ → ℂ := g1 q hMat.a hMat.b hMat.c hMat.d s
noncomputable def pOp (w : ℂ) (q : ℕ) (s : ℕ → ℂ) : ℕ → ℂ := g1 q 1 0 0 w s

noncomputable def turn (b : PauliName) (q : ℕ) (s : ℕ → ℂ) : ℕ → ℂ :=
  match b with
  | .X => hOp q s
  | .Y => hOp q (pOp (-Complex.I) q s)
  | _ => s

noncomputable def back (b : PauliName) (q : ℕ) (s : ℕ → ℂ) : ℕ → ℂ :=
  match b with
  | .X => hOp q s
  | .Y => pOp Complex.I q (hOp q s)
  | _ => s

noncomputable def zOf (b : PauliName) (q : ℕ) (s : ℕ → ℂ) : ℕ → ℂ :=
  match b with
  | .I => s
  | _ => pOp (-1) q s

noncomputable def turns : Ops → (ℕ → ℂ) → ℕ → ℂ
  | [], s => s
  | (q, b) :: l, s => turns l (turn b q s)

noncomputable def backs : Ops → (ℕ → ℂ) → ℕ → ℂ
  | [], s => s
  | (q, b) :: l, s => backs l (back b q s)

noncomputable def zs : Ops → (ℕ → ℂ) → ℕ → ℂ
  | [], s => s
  | (q, b) :: l, s => zOf b q (zs l s)

noncomputable def paulis : Ops → (ℕ → ℂ) → ℕ → ℂ
  | [], s => s
  | (q, b) :: l, s => pauliGate b q (paulis l s)

theorem paulis_eq (l : Ops) (s : ℕ → ℂ) : paulis l s = pauliProduct (l.map (·.1)) (l.map (·.2)) s := by
  induction l with
  | nil => rfl
  | cons x l ih => simp only [paulis, List.map_cons, pauliProduct, ih]

/-! ## Commutation -/

/-- `F` commutes with every gate on qubit `k`. -/
def Fix (k : ℕ) (F : (ℕ → ℂ) → ℕ → ℂ) : Prop := ∀ a b c d s, F (g1 k a b c d s) = g1 k a b c d (F s)

theorem fix_g1 {k q : ℕ} (h : q ≠ k) (a b c d : ℂ) : Fix k (g1 q a b c d) := by
  intro a' b' c' d' s
  funext i
  exact gate_comm h (fun _ => Iff.rfl) (fun _ => Iff.rfl) a b c d a' b' c' d' s i

theorem fix_id (k : ℕ) : Fix k (fun s => s) := fun _ _ _ _ _ => rfl

theorem Fix.comp {k : ℕ} {F G : (ℕ → ℂ) → ℕ → ℂ} (hF : Fix k F) (hG : Fix k G) : Fix k (fun s => F (G s)) := by
  intro a b c d s
  simp only [hG a b c d s, hF a b c d]

theorem fix_turn {k q : ℕ} (h : q ≠ k) (b : PauliName) : Fix k (turn b q) := by
  cases b
  · exact fix_id k
  · exact fix_g1 h _ _ _ _
  · exact (fix_g1 h _ _ _ _).comp (fix_g1 h _ _ _ _)
  · exact fix_id k

theorem fix_back {k q : ℕ} (h : q ≠ k) (b : PauliName) : Fix k (back b q) := by
  cases b
  · exact fix_id k
  · exact fix_g1 h _ _ _ _
  · exact (fix_g1 h _ _ _ _).comp (fix_g1 h _ _ _ _)
  · exact fix_id k

theorem fix_zOf {k q : ℕ} (h : q ≠ k) (b : PauliName) : Fix k (zOf b q) := by
  cases b
  · exact fix_id k
  all_goals exact fix_g1 h _ _ _ _

theorem fix_turns {k : ℕ} : ∀ {l : Ops}, k ∉ l.map (·.1) → Fix k (turns l)
  | [], _ => fix_id k
  | (q, b) :: l, h => by
    simp only [List.map_cons, List.mem_cons, not_or] at h
    exact (fix_turns h.2).comp (fix_turn (Ne.symm h.1) b)

theorem fix_backs {k : ℕ} : ∀ {l : Ops}, k ∉ l.map (·.1) → Fix k (backs l)
  | [], _ => fix_id k
  | (q, b) :: l, h => by
    simp only [List.map_cons, List.mem_cons, not_or] at h
    exact (fix_backs h.2).comp (fix_back (Ne.symm h.1) b)

theorem fix_zs {k : ℕ} : ∀ {l : Ops}, k ∉ l.map (·.1) → Fix k (zs l)
  | [], _ => fix_id k
  | (q, b) :: l, h => by
    simp only [List.map_cons, List.mem_cons, not_or] at h
    exact (fix_zOf (Ne.symm h.1) b).comp (fix_zs h.2)

theorem Fix.turn {k : ℕ} {F : (ℕ → ℂ) → ℕ → ℂ} (hF : Fix k F) (b : PauliName) (s : ℕ → ℂ) :
    F (CapiPauli.turn b k s) = CapiPauli.turn b k (F s) := by
  cases b <;> simp only [CapiPauli.turn, hOp, pOp, hF _ _ _ _ _]

theorem Fix.pauli {k : ℕ} {F : (ℕ → ℂ) → ℕ → ℂ} (hF : Fix k F) (b : PauliName) (s : ℕ → ℂ) :
    F (pauliGate b k s) = pauliGate b k (F s) := by
  cases b
  · rfl
  all_goals exact hF _ _ _ _ _

/-! ## One qubit -/

theorem hOp_hOp (q : ℕ) (s : ℕ → ℂ) : hOp q (hOp q s) = s := funext fun i => gate_hh q s i

theorem pOp_pOp (w v : ℂ) (q : ℕ) (s : ℕ → ℂ) : pOp w q (pOp v q s) = pOp (w * v) q s := by
  funext i
  simp only [pOp, g1, gate, if_true]
  by_cases h : i.testBit q = true <;> simp [h] <;> ring

theorem pOp_one (q : ℕ) (s : ℕ → ℂ) : pOp 1 q s = s := by
  funext i
  simp only [pOp, g1, gate, if_true]
  by_cases h : i.testBit q = true <;> simp [h]

theorem back_turn (b : PauliName) (q : ℕ) (s : ℕ → ℂ) : back b q (turn b q s) = s := by
  cases b
  · rfl
  · exact hOp_hOp q s
  · simp only [back, turn, hOp_hOp, pOp_pOp]
    rw [mul_neg, Complex.I_mul_I, neg_neg, pOp_one]
  · rfl

theorem hzh (q : ℕ) (s : ℕ → ℂ) : hOp q (pOp (-1) q (hOp q s)) = g1 q 0 1 1 0 s := by
  funext i
  have hf : (flipBit q i).testBit q = !i.testBit q := by rw [testBit_flip]; simp
  have h2 := half_sqrt
  simp only [hOp, pOp, g1, gate, hMat, if_true, hf, Engine.flip_flip]
  set c := ((1 / Real.sqrt 2 : ℝ) : ℂ)
  cases i.testBit q
  · simp only [Bool.false_eq_true, if_false, Bool.not_false, if_true]
    linear_combination (2 * s (flipBit q i)) * h2
  · simp only [Bool.false_eq_true, if_false, Bool.not_true, if_true]
    linear_combination (2 * s (flipBit q i)) * h2

theorem back_z_turn (b : PauliName) (q : ℕ) (s : ℕ → ℂ) : back b q (zOf b q (turn b q s)) = pauliGate b q s := by
  cases b
  · rfl
  · exact hzh q s
  · simp only [back, turn, zOf, hzh, pauliGate]
    funext i
    have hf : (flipBit q i).testBit q = !i.testBit q := by rw [testBit_flip]; simp
    simp only [pOp, g1, gate, if_true, hf]
    cases i.testBit q <;> simp
  · rfl

/-! ## All qubits -/

theorem backs_turns : ∀ {l : Ops}, (l.map (·.1)).Nodup → ∀ s, backs l (turns l s) = s
  | [], _, _ => rfl
  | (q, b) :: l, h, s => by
    simp only [List.map_cons, List.nodup_cons] at h
    simp only [backs, turns]
    rw [(fix_turns h.1).turn, back_turn, backs_turns h.2]

theorem backs_zs_turns : ∀ {l : Ops}, (l.map (·.1)).Nodup → ∀ s, backs l (zs l (turns l s)) = paulis l s
  | [], _, _ => rfl
  | (q, b) :: l, h, s => by
    simp only [List.map_cons, List.nodup_cons] at h
    simp only [backs, turns, zs, paulis]
    rw [((fix_zs h.1).comp (fix_turns h.1)).turn, back_z_turn, (fix_backs h.1).pauli, backs_zs_turns h.2]

/-! ## Linearity, ranges, conditions -/

theorem g1_lin (q : ℕ) (a b c d x y : ℂ) (s t : ℕ → ℂ) :
    g1 q a b c d (fun i => x * s i + y * t i) = fun i => x * g1 q a b c d s i + y * g1 q a b c d t i := by
  funext i
  simp only [g1, gate, if_true]
  split_ifs <;> ring

theorem back_lin (b : PauliName) (q : ℕ) (x y : ℂ) (s t : ℕ → ℂ) :
    back b q (fun i => x * s i + y * t i) = fun i => x * back b q s i + y * back b q t i := by
  cases b
  · rfl
  · exact g1_lin q _ _ _ _ x y s t
  · simp only [back, hOp, pOp, g1_lin]
  · rfl

theorem backs_lin : ∀ (l : Ops) (x y : ℂ) (s t : ℕ → ℂ),
    backs l (fun i => x * s i + y * t i) = fun i => x * backs l s i + y * backs l t i
  | [], _, _, _, _ => rfl
  | (q, b) :: l, x, y, s, t => by simp only [backs, back_lin, backs_lin l]

theorem g1_cond {p : ℕ → Prop} {q : ℕ} (hp : Ignores p q) (a b c d : ℂ) (s t : ℕ → ℂ) :
    g1 q a b c d (fun i => if p i then s i else t i) = fun i => if p i then g1 q a b c d s i else g1 q a b c d t i := by
  funext i
  have := hp i
  simp only [g1, gate, if_true]
  by_cases h : p i
  · simp only [h, this.2 h, if_true]
  · simp only [h, mt this.1 h, if_false]

theorem back_cond {p : ℕ → Prop} {q : ℕ} (hp : Ignores p q) (b : PauliName) (s t : ℕ → ℂ) :
    back b q (fun i => if p i then s i else t i) = fun i => if p i then back b q s i else back b q t i := by
  cases b
  · rfl
  · exact g1_cond hp _ _ _ _ s t
  · simp only [back, hOp, pOp, g1_cond hp]
  · rfl

theorem backs_cond {p : ℕ → Prop} : ∀ {l : Ops}, (∀ x ∈ l, Ignores p x.1) → ∀ s t : ℕ → ℂ,
    backs l (fun i => if p i then s i else t i) = fun i => if p i then backs l s i else backs l t i
  | [], _, _, _ => rfl
  | (q, b) :: l, h, s, t => by
    simp only [backs]
    rw [back_cond (h (q, b) (by simp)) b s t]
    exact backs_cond (fun x hx => h x (by simp [hx])) _ _

theorem g1_same {n q : ℕ} (hq : q < n) (a b c d : ℂ) {s t : ℕ → ℂ} (h : SameOn n s t) :
    SameOn n (g1 q a b c d s) (g1 q a b c d t) := by
  intro i hi
  simp only [g1, gate, if_true]
  rw [h i hi, h _ (flip_lt hq hi)]

theorem back_same {n q : ℕ} (hq : q < n) (b : PauliName) {s t : ℕ → ℂ} (h : SameOn n s t) : SameOn n (back b q s) (back b q t) := by
  cases b
  · exact h
  · exact g1_same hq _ _ _ _ h
  · exact g1_same hq _ _ _ _ (g1_same hq _ _ _ _ h)
  · exact h

theorem turn_same {n q : ℕ} (hq : q < n) (b : PauliName) {s t : ℕ → ℂ} (h : SameOn n s t) : SameOn n (turn b q s) (turn b q t) := by
  cases b
  · exact h
  · exact g1_same hq _ _ _ _ h
  · exact g1_same hq _ _ _ _ (g1_same hq _ _ _ _ h)
  · exact h

theorem backs_same {n : ℕ} : ∀ {l : Ops}, (∀ x ∈ l, x.1 < n) → ∀ {s t : ℕ → ℂ}, SameOn n s t → SameOn n (backs l s) (backs l t)
  | [], _, _, _, h => h
  | (q, b) :: l, hl, _, _, h => by
    simp only [backs]
    exact backs_same (fun x hx => hl x (by simp [hx])) (back_same (hl (q, b) (by simp)) b h)

theorem turns_same {n : ℕ} : ∀ {l : Ops}, (∀ x ∈ l, x.1 < n) → ∀ {s t : ℕ → ℂ}, SameOn n s t → SameOn n (turns l s) (turns l t)
  | [], _, _, _, h => h
  | (q, b) :: l, hl, _, _, h => by
    simp only [turns]
    exact turns_same (fun x hx => hl x (by simp [hx])) (turn_same (hl (q, b) (by simp)) b h)

/-! ## Total probability -/

theorem totalProb_g1 {n q : ℕ} (hq : q < n) {m : M2} (hm : m.IsUnitary) (s : ℕ → ℂ) :
    totalProb n (g1 q m.a m.b m.c m.d s) = totalProb n s := by
  have key := gate_inner hq (p := fun _ => True) (fun _ => Iff.rfl) hm s s
  rw [← totalProb_eq_inner, ← totalProb_eq_inner] at key
  exact_mod_cast key

theorem totalProb_pOp {n q : ℕ} (hq : q < n) {w : ℂ} (hw : (starRingEnd ℂ) w * w = 1) (s : ℕ → ℂ) :
    totalProb n (pOp w q s) = totalProb n s := by
  refine totalProb_g1 hq (m := ⟨1, 0, 0, w⟩) ?_ s
  constructor <;> simp [hw]

theorem conj_I : (starRingEnd ℂ) Complex.I * Complex.I = 1 := by simp
theorem conj_nI : (starRingEnd ℂ) (-Complex.I) * -Complex.I = 1 := by simp

theorem totalProb_turn {n q : ℕ} (hq : q < n) (b : PauliName) (s : ℕ → ℂ) : totalProb n (turn b q s) = totalProb n s := by
  cases b
  · rfl
  · exact totalProb_hadamard hq s
  · exact (totalProb_hadamard hq _).trans (totalProb_pOp hq conj_nI s)
  · rfl

theorem totalProb_back {n q : ℕ} (hq : q < n) (b : PauliName) (s : ℕ → ℂ) : totalProb n (back b q s) = totalProb n s := by
  cases b
  · rfl
  · exact totalProb_hadamard hq s
  · exact (totalProb_pOp hq conj_I _).trans (totalProb_hadamard hq s)
  · rfl

theorem totalProb_turns {n : ℕ} : ∀ {l : Ops}, (∀ x ∈ l, x.1 < n) → ∀ s, totalProb n (turns l s) = totalProb n s
  | [], _, _ => rfl
  | (q, b) :: l, hl, s => by
    simp only [turns]
    rw [totalProb_turns (fun x hx => hl x (by simp [hx])), totalProb_turn (hl (q, b) (by simp)) b s]

theorem totalProb_backs {n : ℕ} : ∀ {l : Ops}, (∀ x ∈ l, x.1 < n) → ∀ s, totalProb n (backs l s) = totalProb n s
  | [], _, _ => rfl
  | (q, b) :: l, hl, s => by
    simp only [backs]
    rw [totalProb_backs (fun x hx => hl x (by simp [hx])), totalProb_back (hl (q, b) (by simp)) b s]

/-! ## The product of `Z` is the sign of the parity -/

theorem zOf_eq {b : PauliName} (hb : b ≠ .I) (q : ℕ) (s : ℕ → ℂ) (i : ℕ) :
    zOf b q s i = (if i.testBit q then -1 else 1) * s i := by
  cases b
  · exact absurd rfl hb
  all_goals
    simp only [zOf, pOp, g1, gate, if_true]
    by_cases h : i.testBit q = true <;> simp [h]

theorem removeIdentities_eq (l : Ops) : removeIdentities l = l.filter fun x => x.2 ≠ .I := by
  induction l with
  | nil => rfl
  | cons x l ih => obtain ⟨q, b⟩ := x; cases b <;> simp [removeIdentities, ih]

theorem zs_eq (s : ℕ → ℂ) (i : ℕ) : ∀ l : Ops, zs l s i =
    (-1) ^ (((removeIdentities l).map (·.1)).filter fun q => i.testBit q).length * s i
  | [] => by simp [zs, removeIdentities]
  | (q, b) :: l => by
    have ih := zs_eq s i l
    by_cases hb : b = .I
    · subst hb
      simp only [zs, zOf, removeIdentities]
      exact ih
    · have hr : removeIdentities ((q, b) :: l) = (q, b) :: removeIdentities l := by cases b <;> first | rfl | exact absurd rfl hb
      simp only [zs]
      rw [zOf_eq hb, ih, hr, List.map_cons, List.filter_cons]
      by_cases h : i.testBit q = true
      · simp only [h, if_true, List.length_cons, pow_succ]; ring
      · simp only [h, Bool.false_eq_true, if_false]; ring

theorem mask_testBit (qs : List ℕ) (k : ℕ) : (makeMask qs).testBit k = decide (k ∈ qs) := by
  have gen : ∀ (qs : List ℕ) (m : ℕ), (qs.foldl (fun mask q => mask ||| 2 ^ q) m).testBit k = (m.testBit k || decide (k ∈ qs)) := by
    intro qs
    induction qs with
    | nil => intro m; simp
    | cons q qs ih =>
      intro m
      rw [List.foldl_cons, ih, Nat.testBit_or, Nat.testBit_two_pow]
      by_cases h1 : q = k
      · subst h1; simp
      · simp [h1, Ne.symm h1]
  unfold makeMask
  rw [gen]; simp

theorem mask_lt {n : ℕ} {qs : List ℕ} (h : ∀ q ∈ qs, q < n) : makeMask qs < 2 ^ n := by
  rw [lt_two_pow_iff_testBit]
  intro k hk
  rw [mask_testBit]
  exact decide_eq_false fun hm => absurd (h k hm) (by omega)

theorem mask_ne {qs : List ℕ} (h : qs ≠ []) : makeMask qs ≠ 0 := by
  obtain ⟨q, hq⟩ := List.exists_mem_of_ne_nil qs h
  intro h0
  have := mask_testBit qs q
  rw [h0] at this
  simp [hq] at this

theorem maskCount_eq {n : ℕ} {qs : List ℕ} (hn : qs.Nodup) (h : ∀ q ∈ qs, q < n) (i : ℕ) :
    maskCount n (makeMask qs) i = (qs.filter fun q => i.testBit q).length := by
  unfold maskCount
  rw [← List.toFinset_card_of_nodup (hn.filter _)]
  congr 1
  ext k
  simp only [Finset.mem_filter, Finset.mem_range, List.mem_toFinset, List.mem_filter, mask_testBit, decide_eq_true_eq]
  constructor
  · rintro ⟨_, h1, h2⟩; exact ⟨h1, h2⟩
  · rintro ⟨h1, h2⟩; exact ⟨h k h1, h1, h2⟩

/-- The product of `Z` in terms of the mask. -/
theorem zs_mask {n : ℕ} {l : Ops} (hd : (l.map (·.1)).Nodup) (hl : ∀ x ∈ l, x.1 < n) (s : ℕ → ℂ) (i : ℕ) :
    zs l s i = (if maskCount n (makeMask ((removeIdentities l).map (·.1))) i % 2 = 1 then -1 else 1) * s i := by
  have hsub : (removeIdentities l).map (·.1) |>.Sublist (l.map (·.1)) := by
    rw [removeIdentities_eq]; exact (List.filter_sublist).map _
  rw [zs_eq, maskCount_eq (hsub.nodup hd) (fun q hq => by
    obtain ⟨x, hx, rfl⟩ := List.mem_map.1 (hsub.subset hq)
    exact hl x hx)]
  set c := (((removeIdentities l).map (·.1)).filter fun q => i.testBit q).length
  rcases Nat.mod_two_eq_zero_or_one c with h | h
  · rw [if_neg (by omega), (Nat.even_iff.2 h).neg_one_pow]
  · rw [if_pos h, (Nat.odd_iff.2 h).neg_one_pow]

/-! ## The code -/

/-- What a call leaves alone. -/
structure Like (e f : Eng) : Prop where
  size : f.n = e.n
  doNorm : f.doNorm = e.doNorm
  floor : f.floor = e.floor
  rgp : f.rgp = e.rgp

theorem Like.refl (e : Eng) : Like e e := ⟨rfl, rfl, rfl, rfl⟩

theorem Like.trans {e f g : Eng} (h : Like e f) (k : Like f g) : Like e g :=
  ⟨k.size.trans h.size, k.doNorm.trans h.doNorm, k.floor.trans h.floor, k.rgp.trans h.rgp⟩

theorem h_ok {σ : List ℕ → List ℕ} (hσ : IsSched σ) {e : Eng} (hn : e.n ≤ 64) (hd : e.doNorm = false) {q : ℕ} (hq : q < e.n) :
    ∃ f, gateH σ e q = some f ∧ Like e f ∧ SameOn e.n f.amp (hOp q e.amp) := by
  obtain ⟨f, h1, h2, _, h4, h5, h6, h7, _⟩ := mtrx_gate hσ hn (m := hMat) (Or.inl hd) hq
  exact ⟨f, h1, ⟨h2, h4, h5, h6⟩, h7 (hMat_kept e.rgp)⟩

theorem p_ok {σ : List ℕ → List ℕ} (hσ : IsSched σ) {e : Eng} (hn : e.n ≤ 64) (hd : e.doNorm = false) {q : ℕ} (hq : q < e.n)
    {w : ℂ} (hw : w ≠ 1) :
    ∃ f, phase σ e 1 w q = some f ∧ Like e f ∧ SameOn e.n f.amp (pOp w q e.amp) := by
  obtain ⟨f, h1, h2, _, h4, h5, h6, h7, _⟩ := mtrx_gate hσ hn (m := ⟨1, 0, 0, w⟩) (Or.inl hd) hq
  refine ⟨f, ?_, ⟨h2, h4, h5, h6⟩, h7 (by rintro ⟨_, _, _, h⟩; exact hw h.symm)⟩
  unfold phase
  rw [if_neg (by rintro ⟨_, h⟩; exact hw (sub_eq_zero.1 h).symm)]
  exact h1

theorem I_ne : Complex.I ≠ 1 := by intro h; have := congrArg Complex.re h; simp at this
theorem nI_ne : -Complex.I ≠ 1 := by intro h; have := congrArg Complex.re h; simp at this

/-- The operators at their positions. -/
def at' (pos : ℕ → ℕ) (l : Ops) : Ops := l.map fun x => (pos x.1, x.2)

theorem transform_ok {σ : List ℕ → List ℕ} (hσ : IsSched σ) (pos : ℕ → ℕ) : ∀ (l : Ops) {e : Eng}, e.n ≤ 64 → e.doNorm = false →
    (∀ x ∈ l, pos x.1 < e.n) →
    ∃ f, transformBasis σ pos e l = some f ∧ Like e f ∧ SameOn e.n f.amp (turns (at' pos l) e.amp)
  | [], e, _, _, _ => ⟨e, rfl, Like.refl e, fun _ _ => rfl⟩
  | (q, b) :: l, e, hn, hd, hl => by
    have hq : pos q < e.n := hl (q, b) (by simp)
    have step : ∃ f, (match b with
        | .X => gateH σ e (pos q)
        | .Y => (phase σ e 1 (-Complex.I) (pos q)).bind fun e => gateH σ e (pos q)
        | _ => some e) = some f ∧ Like e f ∧ SameOn e.n f.amp (turn b (pos q) e.amp) := by
      cases b
      · exact ⟨e, rfl, Like.refl e, fun _ _ => rfl⟩
      · exact h_ok hσ hn hd hq
      · obtain ⟨f, f1, f2, f3⟩ := p_ok hσ hn hd hq nI_ne
        obtain ⟨g, g1', g2, g3⟩ := h_ok hσ (e := f) (by rw [f2.size]; exact hn) (by rw [f2.doNorm]; exact hd) (q := pos q)
          (by rw [f2.size]; exact hq)
        rw [f2.size] at g3
        refine ⟨g, by simp only [f1, Option.bind_some, g1'], f2.trans g2, fun i hi => ?_⟩
        rw [g3 i hi]
        exact g1_same hq _ _ _ _ f3 i hi
      · exact ⟨e, rfl, Like.refl e, fun _ _ => rfl⟩
    obtain ⟨f, f1, f2, f3⟩ := step
    obtain ⟨g, g1', g2, g3⟩ := transform_ok hσ pos l (e := f) (by rw [f2.size]; exact hn) (by rw [f2.doNorm]; exact hd)
      (fun x hx => by rw [f2.size]; exact hl x (by simp [hx]))
    rw [f2.size] at g3
    refine ⟨g, ?_, f2.trans g2, fun i hi => ?_⟩
    · cases b
      · simp only [Option.some.injEq] at f1; subst f1; exact g1'
      · simp only at f1; simp only [transformBasis, f1, Option.bind_some]; exact g1'
      · simp only at f1; simp only [transformBasis, f1, Option.bind_some]; exact g1'
      · simp only [Option.some.injEq] at f1; subst f1; exact g1'
    · rw [g3 i hi]
      simp only [at', List.map_cons, turns]
      exact turns_same (fun x hx => by
        obtain ⟨y, hy, rfl⟩ := List.mem_map.1 hx
        exact hl y (by simp [hy])) f3 i hi

theorem revert_ok {σ : List ℕ → List ℕ} (hσ : IsSched σ) (pos : ℕ → ℕ) : ∀ (l : Ops) {e : Eng}, e.n ≤ 64 → e.doNorm = false →
    (∀ x ∈ l, pos x.1 < e.n) →
    ∃ f, revertBasis σ pos e l = some f ∧ Like e f ∧ SameOn e.n f.amp (backs (at' pos l) e.amp)
  | [], e, _, _, _ => ⟨e, rfl, Like.refl e, fun _ _ => rfl⟩
  | (q, b) :: l, e, hn, hd, hl => by
    have hq : pos q < e.n := hl (q, b) (by simp)
    have step : ∃ f, (match b with
        | .X => gateH σ e (pos q)
        | .Y => (gateH σ e (pos q)).bind fun e => phase σ e 1 Complex.I (pos q)
        | _ => some e) = some f ∧ Like e f ∧ SameOn e.n f.amp (back b (pos q) e.amp) := by
      cases b
      · exact ⟨e, rfl, Like.refl e, fun _ _ => rfl⟩
      · exact h_ok hσ hn hd hq
      · obtain ⟨f, f1, f2, f3⟩ := h_ok hσ hn hd hq
        obtain ⟨g, g1', g2, g3⟩ := p_ok hσ (e := f) (by rw [f2.size]; exact hn) (by rw [f2.doNorm]; exact hd) (q := pos q)
          (by rw [f2.size]; exact hq) I_ne
        rw [f2.size] at g3
        refine ⟨g, by simp only [f1, Option.bind_some, g1'], f2.trans g2, fun i hi => ?_⟩
        rw [g3 i hi]
        exact g1_same hq _ _ _ _ f3 i hi
      · exact ⟨e, rfl, Like.refl e, fun _ _ => rfl⟩
    obtain ⟨f, f1, f2, f3⟩ := step
    obtain ⟨g, g1', g2, g3⟩ := revert_ok hσ pos l (e := f) (by rw [f2.size]; exact hn) (by rw [f2.doNorm]; exact hd)
      (fun x hx => by rw [f2.size]; exact hl x (by simp [hx]))
    rw [f2.size] at g3
    refine ⟨g, ?_, f2.trans g2, fun i hi => ?_⟩
    · cases b
      · simp only [Option.some.injEq] at f1; subst f1; exact g1'
      · simp only at f1; simp only [revertBasis, f1, Option.bind_some]; exact g1'
      · simp only at f1; simp only [revertBasis, f1, Option.bind_some]; exact g1'
      · simp only [Option.some.injEq] at f1; subst f1; exact g1'
    · rw [g3 i hi]
      simp only [at', List.map_cons, backs]
      exact backs_same (fun x hx => by
        obtain ⟨y, hy, rfl⟩ := List.mem_map.1 hx
        exact hl y (by simp [hy])) f3 i hi

theorem remove_at (pos : ℕ → ℕ) (l : Ops) : removeIdentities (at' pos l) = at' pos (removeIdentities l) := by
  induction l with
  | nil => rfl
  | cons x l ih => obtain ⟨q, b⟩ := x; cases b <;> simp_all [removeIdentities, at']

end Verif.CapiPauli
