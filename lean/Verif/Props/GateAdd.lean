import Verif.Props.GateLogic
import Mathlib.Data.List.Basic

/-!
C17 (gate level) and C18: full adders, register adders and the ripple increment.
-/

namespace Verif.Circ

open Verif.Engine Verif.Spec Verif.Bits

/-! ## Full adder -/

/-- Majority of three bits: the carry of a one-bit addition. -/
def maj (x y z : Bool) : Bool := (x && y) || (x && z) || (y && z)

/-- Specification of the full adder on basis states: the sum replaces the carry-in, the carry is added
into the carry-out. -/
def fullAddIdx (a b c o i : ℕ) : ℕ :=
  flipIf (maj (i.testBit a) (i.testBit b) (i.testBit c)) o (flipIf (i.testBit a ^^ i.testBit b) c i)

theorem act_fullAdd {a b c o : ℕ} (hab : a ≠ b) (hac : a ≠ c) (hao : a ≠ o) (hbc : b ≠ c) (hbo : b ≠ o)
    (hco : c ≠ o) (i : ℕ) : act (fullAdd a b c o) i = fullAddIdx a b c o i := by
  apply Nat.eq_of_testBit_eq
  intro k
  simp only [fullAdd, act_cons, act_nil, act_ccnot, act_cnot, fullAddIdx, testBit_flipIf, maj]
  by_cases ka : k = a
  · subst ka; simp [hab, hac, hao]
  by_cases kb : k = b
  · subst kb; simp [hab, Ne.symm hab, hbc, hbo, hac, hao]
  by_cases kc : k = c
  · subst kc
    simp [hab, hac, hao, Ne.symm hab, hbc, Ne.symm hbc, hbo, hco, Ne.symm hac]
    cases i.testBit a <;> cases i.testBit b <;> cases i.testBit k <;> rfl
  by_cases ko : k = o
  · subst ko
    simp [hab, hac, hao, Ne.symm hab, hbc, Ne.symm hbc, hbo, hco, Ne.symm hac, Ne.symm hao, Ne.symm hbo, Ne.symm hco]
    cases i.testBit a <;> cases i.testBit b <;> cases i.testBit c <;> cases i.testBit k <;> rfl
  · simp [ka, kb, kc, ko]

theorem fullAdd_ok {n a b c o : ℕ} (hd : [a, b, c, o].Nodup) (hn : ∀ k ∈ [a, b, c, o], k < n) :
    ∀ q ∈ fullAdd a b c o, q.Ok n := by
  simp only [List.nodup_cons, List.mem_cons, not_or, List.not_mem_nil, not_false_eq_true, and_true,
    List.nodup_nil] at hd
  obtain ⟨⟨hab, hac, hao⟩, ⟨hbc, hbo⟩, hco⟩ := hd
  have ha := hn a (by simp); have hb := hn b (by simp); have hc := hn c (by simp); have ho := hn o (by simp)
  intro q hq
  simp only [fullAdd, List.mem_cons, List.not_mem_nil, or_false] at hq
  rcases hq with rfl | rfl | rfl | rfl | rfl
  · exact ok_ccnot hao hbo hab ha hb ho
  · exact ok_cnot hab ha hb
  · exact ok_ccnot hbo hco hbc hb hc ho
  · exact ok_cnot hbc hb hc
  · exact ok_cnot hab ha hb

/-- `IFullAdd` is `FullAdd` run backwards. -/
theorem iFullAdd_eq_reverse (a b c o : ℕ) : iFullAdd a b c o = (fullAdd a b c o).reverse := rfl

theorem ciFullAdd_eq_reverse (cs : List ℕ) (a b c o : ℕ) :
    ciFullAdd cs a b c o = (cFullAdd cs a b c o).reverse := rfl

/-- C17. `FullAdd` on four different qubits moves every basis state to the one with the sum in the
carry-in qubit and the majority added into the carry-out qubit. -/
theorem fullAdd_adds {σ : List ℕ → List ℕ} (hσ : IsSched σ) {e : Eng} (he : Exact e) {a b c o : ℕ}
    (hd : [a, b, c, o].Nodup) (hn : ∀ k ∈ [a, b, c, o], k < e.n) :
    Moves σ (fullAdd a b c o) e (fullAddIdx a b c o) := by
  refine moves_of hσ he (fullAdd_ok hd hn) fun i => ?_
  simp only [List.nodup_cons, List.mem_cons, not_or, List.not_mem_nil, not_false_eq_true, and_true,
    List.nodup_nil] at hd
  exact act_fullAdd hd.1.1 hd.1.2.1 hd.1.2.2 hd.2.1.1 hd.2.1.2 hd.2.2 i

/-- C17: what the specification says about the bits: the inputs stay, the two outputs are the binary sum of
the three input bits when the carry-out starts in `|0⟩`. -/
theorem fullAddIdx_bits {a b c o : ℕ} (hd : [a, b, c, o].Nodup) (i : ℕ) (ho : i.testBit o = false) :
    ((fullAddIdx a b c o i).testBit c).toNat + 2 * ((fullAddIdx a b c o i).testBit o).toNat =
      (i.testBit a).toNat + (i.testBit b).toNat + (i.testBit c).toNat ∧
    ∀ k, k ≠ c → k ≠ o → (fullAddIdx a b c o i).testBit k = i.testBit k := by
  simp only [List.nodup_cons, List.mem_cons, not_or, List.not_mem_nil, not_false_eq_true, and_true,
    List.nodup_nil] at hd
  constructor
  · simp only [fullAddIdx, testBit_flipIf, maj, hd.2.2, Ne.symm hd.2.2, ho, decide_true, decide_false,
      Bool.and_false, Bool.and_true, Bool.xor_false, Bool.false_xor]
    cases i.testBit a <;> cases i.testBit b <;> cases i.testBit c <;> rfl
  · intro k h1 h2
    simp [fullAddIdx, testBit_flipIf, h1, h2]

/-- C17. Any of these programs followed by its reverse restores every amplitude. -/
theorem run_reverse {σ : List ℕ → List ℕ} (hσ : IsSched σ) {e : Eng} (he : Exact e) {p : List Op}
    (hp : ∀ o ∈ p, o.Ok e.n) : ∃ e' e'', run σ p e = some e' ∧ run σ p.reverse e' = some e'' ∧
      e''.n = e.n ∧ SameOn e.n e''.amp e.amp := by
  obtain ⟨e', h1, h2, h3, h4⟩ := run_act hσ he hp
  obtain ⟨e'', k1, k2, -, k4⟩ := run_act hσ h3 (p := p.reverse) (by rw [h2]; exact reverse_ok hp)
  refine ⟨e', e'', h1, k1, k2.trans h2, fun i hi => ?_⟩
  have := k4 (act p i) (by rw [h2]; exact act_lt hp hi)
  rw [act_reverse hp, h4 i hi] at this
  exact this

/-- C17. `IFullAdd` undoes `FullAdd`. -/
theorem iFullAdd_undoes {σ : List ℕ → List ℕ} (hσ : IsSched σ) {e : Eng} (he : Exact e) {a b c o : ℕ}
    (hd : [a, b, c, o].Nodup) (hn : ∀ k ∈ [a, b, c, o], k < e.n) :
    ∃ e' e'', run σ (fullAdd a b c o) e = some e' ∧ run σ (iFullAdd a b c o) e' = some e'' ∧
      e''.n = e.n ∧ SameOn e.n e''.amp e.amp :=
  run_reverse hσ he (fullAdd_ok hd hn)

/-! ## Controlled full adder -/

theorem act_cFullAdd {cs : List ℕ} {a b c o : ℕ} (hd : (cs ++ [a, b, c, o]).Nodup) (i : ℕ) :
    act (cFullAdd cs a b c o) i = if AllAre true cs i then fullAddIdx a b c o i else i := by
  obtain ⟨-, hd', hx⟩ := List.nodup_append.1 hd
  have hm : ∀ k ∈ [a, b, c, o], k ∉ cs := fun k hk hc => hx k hc k hk rfl
  have hb : b ∉ cs := hm b (by simp)
  have hc : c ∉ cs := hm c (by simp)
  have ho : o ∉ cs := hm o (by simp)
  have hf : ∀ (v : Bool) (t j : ℕ), t ∉ cs → (AllAre true cs (flipIf v t j) ↔ AllAre true cs j) := by
    intro v t j ht
    cases v
    · rfl
    · exact allAre_flip ht
  have hdec : ∀ (l : List ℕ) (j : ℕ), decide (AllAre true (cs ++ l) j) =
      (decide (AllAre true cs j) && decide (AllAre true l j)) := by
    intro l j
    simp only [allAre_append, Bool.decide_and]
  by_cases hA : AllAre true cs i
  · rw [if_pos hA]
    simp only [List.nodup_cons, List.mem_cons, not_or, List.not_mem_nil, not_false_eq_true, and_true,
      List.nodup_nil] at hd'
    rw [← act_fullAdd hd'.1.1 hd'.1.2.1 hd'.1.2.2 hd'.2.1.1 hd'.2.1.2 hd'.2.2 i]
    simp only [cFullAdd, fullAdd, act_cons, act_nil, act_mcx, cnot, ccnot, hdec,
      hf _ _ _ hb, hf _ _ _ hc, hf _ _ _ ho, hA, decide_true, Bool.true_and]
  · rw [if_neg hA]
    have h0 : ∀ (t j : ℕ), flipIf false t j = j := fun _ _ => rfl
    simp only [cFullAdd, act_cons, act_nil, act_mcx, hdec, hA, decide_false, Bool.false_and, h0]

theorem cFullAdd_ok {n : ℕ} {cs : List ℕ} {a b c o : ℕ} (hd : (cs ++ [a, b, c, o]).Nodup)
    (hn : ∀ k ∈ cs ++ [a, b, c, o], k < n) : ∀ q ∈ cFullAdd cs a b c o, q.Ok n := by
  have sub : ∀ l : List ℕ, l.Sublist [a, b, c, o] → ∀ l' : List ℕ, l'.Perm l →
      (cs ++ l').Nodup ∧ ∀ k ∈ cs ++ l', k < n := by
    intro l hl l' hp
    have hs : (cs ++ l).Sublist (cs ++ [a, b, c, o]) := hl.append_left cs
    have hp' : (cs ++ l').Perm (cs ++ l) := hp.append_left cs
    exact ⟨hp'.nodup_iff.2 (hs.nodup hd), fun k hk => hn k (hs.subset (hp'.subset hk))⟩
  intro q hq
  simp only [cFullAdd, List.mem_cons, List.not_mem_nil, or_false] at hq
  have e1 : ∀ x y z : ℕ, cs ++ [x, y] ++ [z] = cs ++ [x, y, z] := by simp
  have e2 : ∀ x y : ℕ, cs ++ [x] ++ [y] = cs ++ [x, y] := by simp
  rcases hq with rfl | rfl | rfl | rfl | rfl
  · show (cs ++ [a, b] ++ [o]).Nodup ∧ _
    rw [e1]; exact sub [a, b, o] (by simp) _ (List.Perm.refl _)
  · show (cs ++ [a] ++ [b]).Nodup ∧ _
    rw [e2]; exact sub [a, b] (by simp) _ (List.Perm.refl _)
  · show (cs ++ [b, c] ++ [o]).Nodup ∧ _
    rw [e1]; exact sub [b, c, o] (by simp) _ (List.Perm.refl _)
  · show (cs ++ [b] ++ [c]).Nodup ∧ _
    rw [e2]; exact sub [b, c] (by simp) _ (List.Perm.refl _)
  · show (cs ++ [a] ++ [b]).Nodup ∧ _
    rw [e2]; exact sub [a, b] (by simp) _ (List.Perm.refl _)

/-- C17. `CFullAdd` is the full adder when every control is set and the identity otherwise. -/
theorem cFullAdd_adds {σ : List ℕ → List ℕ} (hσ : IsSched σ) {e : Eng} (he : Exact e) {cs : List ℕ}
    {a b c o : ℕ} (hd : (cs ++ [a, b, c, o]).Nodup) (hn : ∀ k ∈ cs ++ [a, b, c, o], k < e.n) :
    Moves σ (cFullAdd cs a b c o) e (fun i => if AllAre true cs i then fullAddIdx a b c o i else i) :=
  moves_of hσ he (cFullAdd_ok hd hn) fun i => act_cFullAdd hd i

/-- C17. `CIFullAdd` undoes `CFullAdd`. -/
theorem ciFullAdd_undoes {σ : List ℕ → List ℕ} (hσ : IsSched σ) {e : Eng} (he : Exact e) {cs : List ℕ}
    {a b c o : ℕ} (hd : (cs ++ [a, b, c, o]).Nodup) (hn : ∀ k ∈ cs ++ [a, b, c, o], k < e.n) :
    ∃ e' e'', run σ (cFullAdd cs a b c o) e = some e' ∧ run σ (ciFullAdd cs a b c o) e' = some e'' ∧
      e''.n = e.n ∧ SameOn e.n e''.amp e.amp :=
  run_reverse hσ he (cFullAdd_ok hd hn)

/-! ## Register adders -/

/-- Three registers of `len` qubits and a carry qubit, all different, inside `n` qubits. -/
structure Layout (in1 in2 out len carry n : ℕ) : Prop where
  b1 : in1 + len ≤ n
  b2 : in2 + len ≤ n
  bo : out + len ≤ n
  bc : carry < n
  d12 : in1 + len ≤ in2 ∨ in2 + len ≤ in1
  d1o : in1 + len ≤ out ∨ out + len ≤ in1
  d2o : in2 + len ≤ out ∨ out + len ≤ in2
  c1 : carry < in1 ∨ in1 + len ≤ carry
  c2 : carry < in2 ∨ in2 + len ≤ carry
  co : carry < out ∨ out + len ≤ carry

theorem Layout.nodup {in1 in2 out len carry n : ℕ} (h : Layout in1 in2 out len carry n) {i : ℕ} (hi : i < len)
    {x y : ℕ} (hx : x = carry ∨ (out ≤ x ∧ x < out + len)) (hy : y = carry ∨ (out ≤ y ∧ y < out + len))
    (hxy : x ≠ y) : [in1 + i, in2 + i, x, y].Nodup ∧ ∀ k ∈ [in1 + i, in2 + i, x, y], k < n := by
  obtain ⟨b1, b2, bo, bc, d12, d1o, d2o, c1, c2, co⟩ := h
  constructor
  · simp only [List.nodup_cons, List.mem_cons, not_or, List.not_mem_nil, not_false_eq_true, and_true,
      List.nodup_nil]
    omega
  · intro k hk
    simp only [List.mem_cons, List.not_mem_nil, or_false] at hk
    omega

theorem adc_ok {in1 in2 out len carry n : ℕ} (h : Layout in1 in2 out len carry n) :
    ∀ o ∈ adc in1 in2 out len carry, o.Ok n := by
  have hco := h.co
  have hbc := h.bc
  have hbo := h.bo
  rw [adc]
  by_cases h0 : len = 0
  · simp [h0]
  rw [if_neg h0]
  have f0 : ∀ o ∈ fullAdd in1 in2 carry out, o.Ok n := by
    have := h.nodup (i := 0) (by omega) (x := carry) (y := out) (by omega) (by omega) (by omega)
    exact fullAdd_ok this.1 this.2
  by_cases h1 : len = 1
  · rw [if_pos h1]
    intro o ho
    rw [List.mem_append] at ho
    rcases ho with ho | ho
    · exact f0 o ho
    · simp at ho; subst ho; exact ⟨hbc, by omega⟩
  · rw [if_neg h1]
    intro o ho
    rw [List.mem_append, List.mem_append, List.mem_flatMap] at ho
    rcases ho with (ho | ⟨i, hi, ho⟩) | ho
    · exact f0 o ho
    · rw [List.mem_range'_1] at hi
      have := h.nodup (i := i) (by omega) (x := out + i) (y := out + i + 1) (by omega) (by omega) (by omega)
      exact fullAdd_ok this.1 this.2 o ho
    · have := h.nodup (i := len - 1) (by omega) (x := out + (len - 1)) (y := carry) (by omega) (by omega) (by omega)
      exact fullAdd_ok this.1 this.2 o ho

theorem iadc_eq_reverse (in1 in2 out len carry : ℕ) :
    iadc in1 in2 out len carry = (adc in1 in2 out len carry).reverse := by
  unfold iadc adc
  split_ifs
  · rfl
  · rfl
  · rw [List.reverse_append, List.reverse_append, List.reverse_flatMap, List.append_assoc]
    rfl

/-- C17. `IADC` undoes `ADC`, for every length. -/
theorem iadc_undoes {σ : List ℕ → List ℕ} (hσ : IsSched σ) {e : Eng} (he : Exact e) {in1 in2 out len carry : ℕ}
    (h : Layout in1 in2 out len carry e.n) :
    ∃ e' e'', run σ (adc in1 in2 out len carry) e = some e' ∧ run σ (iadc in1 in2 out len carry) e' = some e'' ∧
      e''.n = e.n ∧ SameOn e.n e''.amp e.amp := by
  rw [iadc_eq_reverse]
  exact run_reverse hσ he (adc_ok h)

theorem cadc_ok {cs : List ℕ} {in1 in2 out len carry n : ℕ} (h : Layout in1 in2 out len carry n) (hcs : cs.Nodup)
    (hb : ∀ c ∈ cs, c < n) (hd : ∀ c ∈ cs, c ≠ carry ∧ (c < in1 ∨ in1 + len ≤ c) ∧ (c < in2 ∨ in2 + len ≤ c) ∧
      (c < out ∨ out + len ≤ c)) : ∀ o ∈ cadc cs in1 in2 out len carry, o.Ok n := by
  have hco := h.co
  have hbc := h.bc
  have hbo := h.bo
  have key : ∀ i < len, ∀ x y : ℕ, (x = carry ∨ (out ≤ x ∧ x < out + len)) → (y = carry ∨ (out ≤ y ∧ y < out + len)) →
      x ≠ y → ∀ o ∈ cFullAdd cs (in1 + i) (in2 + i) x y, o.Ok n := by
    intro i hi x y hx hy hxy
    obtain ⟨h1, h2⟩ := h.nodup hi hx hy hxy
    refine cFullAdd_ok (List.nodup_append.2 ⟨hcs, h1, ?_⟩) ?_
    · intro c hc k hk
      have := hd c hc
      simp only [List.mem_cons, List.not_mem_nil, or_false] at hk
      omega
    · intro k hk
      rw [List.mem_append] at hk
      rcases hk with hk | hk
      · exact hb k hk
      · exact h2 k hk
  rw [cadc]
  by_cases h0 : len = 0
  · simp [h0]
  rw [if_neg h0]
  by_cases h1 : len = 1
  · rw [if_pos h1]
    intro o ho
    rw [List.mem_append] at ho
    rcases ho with ho | ho
    · exact key 0 (by omega) carry out (by omega) (by omega) (by omega) o ho
    · simp at ho; subst ho
      refine ⟨List.nodup_append.2 ⟨hcs, by simp; omega, ?_⟩, ?_⟩
      · intro c hc k hk
        have := hd c hc
        simp at hk; omega
      · intro k hk
        rw [List.mem_append] at hk
        rcases hk with hk | hk
        · exact hb k hk
        · simp at hk; omega
  · rw [if_neg h1]
    intro o ho
    rw [List.mem_append, List.mem_append, List.mem_flatMap] at ho
    rcases ho with (ho | ⟨i, hi, ho⟩) | ho
    · exact key 0 (by omega) carry out (by omega) (by omega) (by omega) o ho
    · rw [List.mem_range'_1] at hi
      exact key i (by omega) _ _ (by omega) (by omega) (by omega) o ho
    · exact key (len - 1) (by omega) _ _ (by omega) (by omega) (by omega) o ho

theorem ciadc_eq_reverse (cs : List ℕ) (in1 in2 out len carry : ℕ) :
    ciadc cs in1 in2 out len carry = (cadc cs in1 in2 out len carry).reverse := by
  unfold ciadc cadc
  split_ifs
  · rfl
  · rfl
  · rw [List.reverse_append, List.reverse_append, List.reverse_flatMap, List.append_assoc]
    rfl

/-- C17. `CIADC` undoes `CADC`, for every length and control list. -/
theorem ciadc_undoes {σ : List ℕ → List ℕ} (hσ : IsSched σ) {e : Eng} (he : Exact e) {cs : List ℕ}
    {in1 in2 out len carry : ℕ} (h : Layout in1 in2 out len carry e.n) (hcs : cs.Nodup)
    (hb : ∀ c ∈ cs, c < e.n) (hd : ∀ c ∈ cs, c ≠ carry ∧ (c < in1 ∨ in1 + len ≤ c) ∧ (c < in2 ∨ in2 + len ≤ c) ∧
      (c < out ∨ out + len ≤ c)) :
    ∃ e' e'', run σ (cadc cs in1 in2 out len carry) e = some e' ∧
      run σ (ciadc cs in1 in2 out len carry) e' = some e'' ∧ e''.n = e.n ∧ SameOn e.n e''.amp e.amp := by
  rw [ciadc_eq_reverse]
  exact run_reverse hσ he (cadc_ok h hcs hb hd)

/-- C17, partial: `ADC` of two registers of one qubit. With the output qubit in `|0⟩`, output and carry hold
the binary sum of the two inputs and the carry-in, and nothing else changes. Missing: lengths of two and more,
for which the code does not compute the sum (`adc_wrong`). -/
theorem adc_one_partial {σ : List ℕ → List ℕ} (hσ : IsSched σ) {e : Eng} (he : Exact e) {in1 in2 out carry : ℕ}
    (h : Layout in1 in2 out 1 carry e.n) : ∃ T : ℕ → ℕ, Moves σ (adc in1 in2 out 1 carry) e T ∧
      ∀ i, i.testBit out = false →
        ((T i).testBit out).toNat + 2 * ((T i).testBit carry).toNat =
          (i.testBit in1).toNat + (i.testBit in2).toNat + (i.testBit carry).toNat ∧
        ∀ k, k ≠ out → k ≠ carry → (T i).testBit k = i.testBit k := by
  refine ⟨_, moves_of hσ he (adc_ok h) fun i => rfl, fun i ho => ?_⟩
  have hco := h.co
  have hd := (h.nodup (i := 0) (by omega) (x := carry) (y := out) (by omega) (by omega) (by omega)).1
  have hb := fullAddIdx_bits hd i ho
  have ha : act (adc in1 in2 out 1 carry) i = swapBits carry out (fullAddIdx in1 in2 carry out i) := by
    rw [adc, if_neg (by omega), if_pos rfl, act_append, act_cons, act_nil]
    simp only [List.nodup_cons, List.mem_cons, not_or, List.not_mem_nil, not_false_eq_true, and_true,
      List.nodup_nil, Nat.add_zero] at hd
    rw [act_fullAdd hd.1.1 hd.1.2.1 hd.1.2.2 hd.2.1.1 hd.2.1.2 hd.2.2 i]; rfl
  simp only [ha, testBit_swapBits, Nat.add_zero] at hb ⊢
  refine ⟨?_, fun k h1 h2 => ?_⟩
  · rw [if_neg (by omega), if_pos trivial, if_pos trivial]
    exact hb.1
  · rw [if_neg h2, if_neg h1]
    exact hb.2 k h2 h1

/-- C17 fails for `ADC` on registers of two or more qubits: the lowest output qubit receives the carry of
the lowest bits instead of their sum, for every layout, length and basis state. -/
theorem adc_low_bit {in1 in2 out len carry n : ℕ} (h : Layout in1 in2 out len carry n) (hl : 2 ≤ len) (i : ℕ)
    (ho : i.testBit out = false) : (act (adc in1 in2 out len carry) i).testBit out =
      maj (i.testBit in1) (i.testBit in2) (i.testBit carry) := by
  have hco := h.co
  have hd := (h.nodup (i := 0) (by omega) (x := carry) (y := out) (by omega) (by omega) (by omega)).1
  simp only [List.nodup_cons, List.mem_cons, not_or, List.not_mem_nil, not_false_eq_true, and_true,
      List.nodup_nil, Nat.add_zero] at hd
  have hd12 := h.d12
  have hd1o := h.d1o
  have hd2o := h.d2o
  rw [adc, if_neg (by omega), if_neg (by omega), List.append_assoc, act_append, act_testBit]
  · rw [act_fullAdd hd.1.1 hd.1.2.1 hd.1.2.2 hd.2.1.1 hd.2.1.2 hd.2.2 i]
    simp [fullAddIdx, testBit_flipIf, ho, Ne.symm hd.2.2]
  · have key : ∀ a b c d : ℕ, out ≠ b → out ≠ c → out ≠ d → ∀ o ∈ fullAdd a b c d, out ∉ o.targets := by
      intro a b c d h2 h3 h4 o ho
      simp only [fullAdd, List.mem_cons, List.not_mem_nil, or_false] at ho
      rcases ho with rfl | rfl | rfl | rfl | rfl <;> simp [cnot, ccnot, Op.targets, h2, h3, h4]
    intro o ho
    rw [List.mem_append, List.mem_flatMap] at ho
    rcases ho with ⟨j, hj, ho⟩ | ho
    · rw [List.mem_range'_1] at hj
      exact key _ _ _ _ (by omega) (by omega) (by omega) o ho
    · exact key _ _ _ _ (by omega) (by omega) (by omega) o ho

/-- The negation of C17 for `ADC`: for every layout of length two or more there is a basis state, with the
output register cleared, whose sum comes out wrong in the lowest bit. -/
theorem adc_wrong {σ : List ℕ → List ℕ} (hσ : IsSched σ) {e : Eng} (he : Exact e) {in1 in2 out len carry : ℕ}
    (h : Layout in1 in2 out len carry e.n) (hl : 2 ≤ len) : ∃ T : ℕ → ℕ,
      Moves σ (adc in1 in2 out len carry) e T ∧ ∃ i < 2 ^ e.n, field out len i = 0 ∧
        field out len (T i) % 2 ≠ (field in1 len i + field in2 len i + (i.testBit carry).toNat) % 2 := by
  refine ⟨_, moves_of hσ he (adc_ok h) fun i => rfl, 2 ^ in1, ?_, ?_, ?_⟩
  · exact Nat.pow_lt_pow_right (by norm_num) (by have := h.b1; omega)
  · apply Nat.eq_of_testBit_eq
    intro k
    rw [testBit_field, Nat.testBit_two_pow]
    have := h.d1o
    by_cases hk : k < len
    · simp [hk]; omega
    · simp [hk]
  · have hb : ∀ s, in1 ≠ s → (2 ^ in1).testBit s = false := fun s hs => by simp [Nat.testBit_two_pow, hs]
    have h1 : field in1 len (2 ^ in1) = 1 := by
      unfold field
      rw [Nat.div_self (by positivity)]
      exact Nat.mod_eq_of_lt (Nat.one_lt_two_pow (by omega))
    have h2 : field in2 len (2 ^ in1) = 0 := by
      apply Nat.eq_of_testBit_eq
      intro k
      rw [testBit_field, Nat.testBit_two_pow]
      have := h.d12
      by_cases hk : k < len
      · simp [hk]; omega
      · simp [hk]
    have hc := h.c1
    have hd := h.d1o
    have hd' := h.d12
    rw [h1, h2, hb carry (by omega)]
    have hlow := adc_low_bit h hl (2 ^ in1) (hb out (by omega))
    rw [hb carry (by omega), hb in2 (by omega)] at hlow
    have hf : (field out len (act (adc in1 in2 out len carry) (2 ^ in1))).testBit 0 = false := by
      rw [testBit_field, Nat.add_zero, hlow]; simp [maj]
    rw [Nat.testBit_zero, decide_eq_false_iff_not] at hf
    simpa using hf

/-- Non-vacuity, and the failure in numbers: adding 1 and 1 on two-qubit registers at 0, 2 into 4 with carry
6 leaves 1 in the output register. -/
example : Layout 0 2 4 2 6 7 ∧ field 4 2 (act (adc 0 2 4 2 6) 5) = 1 := by
  refine ⟨⟨?_, ?_, ?_, ?_, ?_, ?_, ?_, ?_, ?_, ?_⟩, by decide⟩ <;> omega

/-! ## C18: ripple increment -/

/-- C18. The default `INC`, a cascade of X and anti-controlled X gates, adds `toAdd` modulo `2^len` to the
register and changes no other qubit, for every start, length, addend and state. -/
theorem inc_gates_add {σ : List ℕ → List ℕ} (hσ : IsSched σ) {e : Eng} (he : Exact e) {toAdd start len : ℕ}
    (h : start + len ≤ e.n) : Moves σ (inc toAdd start len) e
      (fun i => setField start len (field start len i + toAdd) i) :=
  moves_of hσ he (inc_ok h) fun i => act_inc toAdd start len i

/-- C09, gate level. The default `CINC` adds exactly on the basis states with every control set. -/
theorem cinc_gates_add {σ : List ℕ → List ℕ} (hσ : IsSched σ) {e : Eng} (he : Exact e) {toAdd start len : ℕ}
    {cs : List ℕ} (h : start + len ≤ e.n) (hn : cs.Nodup) (hb : ∀ c ∈ cs, c < e.n)
    (hd : ∀ c ∈ cs, c < start ∨ start + len ≤ c) : Moves σ (cinc toAdd start len cs) e
      (fun i => if AllAre true cs i then setField start len (field start len i + toAdd) i else i) :=
  moves_of hσ he (cinc_ok h hn hb hd) fun i => act_cinc hn hd i

theorem add_negAddend {toSub len : ℕ} (hl : len ≤ 128) (hs : toSub < 2 ^ 128) :
    (toSub + negAddend toSub len) % 2 ^ len = 0 := by
  unfold negAddend
  rw [Nat.mod_eq_of_lt hs]
  have hd : 2 ^ len ∣ 2 ^ 128 := pow_dvd_pow 2 hl
  have h1 : (2 ^ 128 + 2 ^ len % 2 ^ 128 - toSub) % 2 ^ 128 % 2 ^ len =
      (2 ^ 128 + 2 ^ len % 2 ^ 128 - toSub) % 2 ^ len := Nat.mod_mod_of_dvd _ hd
  rw [Nat.add_mod, h1, ← Nat.add_mod, Nat.add_sub_cancel' (by omega)]
  have h2 : 2 ^ len ∣ 2 ^ 128 + 2 ^ len % 2 ^ 128 := by
    apply Nat.dvd_add hd
    rcases Nat.lt_or_eq_of_le hl with h | h
    · rw [Nat.mod_eq_of_lt (Nat.pow_lt_pow_right (by norm_num) h)]
    · subst h; simp
  exact Nat.mod_eq_zero_of_dvd h2

/-- C18: the default `DEC` undoes the default `INC`, in either order. -/
theorem dec_gates_undo {toAdd start len : ℕ} (hl : len ≤ 128) (hs : toAdd < 2 ^ 128) (i : ℕ) :
    act (dec toAdd start len) (act (inc toAdd start len) i) = i ∧
    act (inc toAdd start len) (act (dec toAdd start len) i) = i := by
  have key : ∀ a b, (a + b) % 2 ^ len = 0 → setField start len (field start len i + (a + b)) i = i := by
    intro a b hab
    have : setField start len (field start len i + (a + b)) i = setField start len (field start len i) i := by
      apply setField_congr
      rw [Nat.add_mod, hab]; simp
    rw [this, setField_field]
  have h0 := add_negAddend hl hs
  constructor
  · rw [dec, act_inc, act_inc, setField_add_add]
    exact key _ _ h0
  · rw [dec, act_inc, act_inc, setField_add_add]
    exact key _ _ (by rw [Nat.add_comm]; exact h0)

/-- Non-vacuity: adding 3 to the register `[1, 4)` holding 6 wraps to 1 and keeps qubits 0 and 4. -/
example : act (inc 3 1 3) (1 + 2 * 6 + 16) = 1 + 2 * 1 + 16 ∧
    act (cinc 3 1 3 [0, 4]) (1 + 2 * 6 + 16) = 1 + 2 * 1 + 16 ∧
    act (cinc 3 1 3 [0, 4]) (2 * 6 + 16) = 2 * 6 + 16 := by decide

/-! ## C10 at gate level: the default `INCDECC` uses a wrong target -/

/-- C10 fails for the default `INCDECC`: the carry goes to qubit `start + carryIndex`, not `carryIndex`. With a
register at `[1, 3)` and carry qubit 3, adding 1 to 3 sets qubit 4. -/
theorem incdecc_default_wrong : act (incdecc 1 1 2 3) (2 * 3) = 2 ^ 4 ∧ 2 ^ 4 ≠ setField 1 2 (3 + 1) 0 + 2 ^ 3 := by
  decide

/-- C10, partial, for the default `INCDECC`: when the register starts at qubit 0 the target is right, and the
register together with the carry qubit above it is a ripple increment of `len + 1` qubits. Missing: other
starts, for which the code is wrong, and other positions of the carry. -/
theorem incdecc_default_partial {toAdd len : ℕ} (hl : 1 ≤ len) (ht : toAdd < 2 ^ len) (i : ℕ) :
    act (incdecc toAdd 0 len len) i = setField 0 (len + 1) (field 0 (len + 1) i + toAdd) i := by
  have : incdecc toAdd 0 len len = incCore toAdd 0 (len + 1) := by
    have hlast : (toAdd >>> len) &&& 1 = 0 := by
      rw [and_one_eq_zero, Nat.testBit_shiftRight, Nat.add_zero]
      exact Nat.testBit_lt_two_pow ht
    rw [incdecc, if_neg (by omega), incCore, List.range_succ, List.flatMap_append]
    simp only [List.flatMap_cons, List.flatMap_nil, hlast, if_true, List.append_nil]
    rw [List.flatMap_def, List.flatMap_def]
    congr 1
    apply List.map_congr_left
    intro i hi
    rw [List.mem_range] at hi
    split_ifs
    · rfl
    · rw [chain]
      congr 1
      rw [show len + 1 - 1 - i = len - i by omega]
      apply List.map_congr_left
      intro j hj
      rw [List.mem_range] at hj
      congr 1
      · apply List.map_congr_left
        intro k hk
        rw [List.mem_range] at hk
        rw [if_neg (by omega)]; omega
      · split_ifs with h
        · omega
        · rw [Nat.mod_eq_of_lt (by omega)]; omega
  rw [this, act_incCore]

/-- C12 fails for the default (gate-level) `MULModNOut`: multiplying 0 by 2 modulo 3 on two-qubit registers
leaves 1 in the output register. -/
theorem mulModNOut_default_wrong : field 2 2 (act (mulModNOut 2 3 0 2 2) 0) = 1 ∧ 0 * 2 % 3 ≠ 1 := by decide

end Verif.Circ
