import Verif.Lemmas.GateCode

/-!
C49: logic gates write the Boolean function into the output qubit.
-/

namespace Verif.Circ

open Verif.Engine Verif.Spec

/-- Running the gates `p` on engine `e` succeeds, and moves the amplitude of every basis state `i` to the
basis state `T i`. -/
def Moves (σ : List ℕ → List ℕ) (p : List Op) (e : Eng) (T : ℕ → ℕ) : Prop :=
  ∃ e', run σ p e = some e' ∧ e'.n = e.n ∧ ∀ i < 2 ^ e.n, e'.amp (T i) = e.amp i

theorem moves_of {σ : List ℕ → List ℕ} (hσ : IsSched σ) {p : List Op} {e : Eng} (he : Exact e)
    (hp : ∀ o ∈ p, o.Ok e.n) {T : ℕ → ℕ} (hT : ∀ i, act p i = T i) : Moves σ p e T := by
  obtain ⟨e', h1, h2, -, h4⟩ := run_act hσ he hp
  exact ⟨e', h1, h2, fun i hi => by rw [← hT]; exact h4 i hi⟩

theorem ok_cnot {n c t : ℕ} (h : c ≠ t) (hc : c < n) (ht : t < n) : (cnot c t).Ok n :=
  ⟨by simp [h], by simp [hc, ht]⟩

theorem ok_ccnot {n c d t : ℕ} (h : c ≠ t) (h' : d ≠ t) (hcd : c ≠ d) (hc : c < n) (hd : d < n) (ht : t < n) :
    (ccnot c d t).Ok n :=
  ⟨by simp [h, h', hcd], by simp [hc, hd, ht]⟩

theorem ok_antiCnot {n c t : ℕ} (h : c ≠ t) (hc : c < n) (ht : t < n) : (antiCnot c t).Ok n :=
  ⟨by simp [h], by simp [hc, ht]⟩

theorem ok_antiCcnot {n c d t : ℕ} (h : c ≠ t) (h' : d ≠ t) (hcd : c ≠ d) (hc : c < n) (hd : d < n) (ht : t < n) :
    (antiCcnot c d t).Ok n :=
  ⟨by simp [h, h', hcd], by simp [hc, hd, ht]⟩

theorem ok_x {n t : ℕ} (h : t < n) : (Op.x t).Ok n := h

/-- The output qubit is flipped by the function value: on an output that starts in `|0⟩` it is set to it. -/
theorem flipIf_output {b : Bool} {o i : ℕ} (h : i.testBit o = false) : (flipIf b o i).testBit o = b := by
  rw [testBit_flipIf]; simp [h]

/-- Every other qubit, the inputs included, is unchanged. -/
theorem flipIf_other {b : Bool} {o i k : ℕ} (h : k ≠ o) : (flipIf b o i).testBit k = i.testBit k := by
  rw [testBit_flipIf]; simp [h]

section
variable {σ : List ℕ → List ℕ} (hσ : IsSched σ) {e : Eng} (he : Exact e) {a b o : ℕ}
  (ha : a < e.n) (hb : b < e.n) (ho : o < e.n)
include hσ he ha hb ho

/-- C49, `AND`: for output different from the inputs (which may be equal to one another) the output is
flipped exactly when both inputs are set. -/
theorem and_writes (h1 : a ≠ o) (h2 : b ≠ o) : ∃ p, land a b o = .gates p ∧
    Moves σ p e (fun i => flipIf (i.testBit a && i.testBit b) o i) := by
  by_cases hab : a = b
  · subst hab
    refine ⟨[cnot a o], by simp [land, h1], moves_of hσ he ?_ fun i => ?_⟩
    · intro p hp; simp at hp; subst hp; exact ok_cnot h1 ha ho
    · simp [act_cons, act_nil, act_cnot]
  · refine ⟨[ccnot a b o], by simp [land, h1, h2, hab], moves_of hσ he ?_ fun i => ?_⟩
    · intro p hp; simp at hp; subst hp; exact ok_ccnot h1 h2 hab ha hb ho
    · simp [act_cons, act_nil, act_ccnot]

/-- C49, `OR`. -/
theorem or_writes (h1 : a ≠ o) (h2 : b ≠ o) : ∃ p, lor a b o = .gates p ∧
    Moves σ p e (fun i => flipIf (i.testBit a || i.testBit b) o i) := by
  by_cases hab : a = b
  · subst hab
    refine ⟨[.x o, antiCnot a o], by simp [lor, h1], moves_of hσ he ?_ fun i => ?_⟩
    · intro p hp
      simp at hp
      rcases hp with rfl | rfl
      · exact ok_x ho
      · exact ok_antiCnot h1 ha ho
    · simp only [act_cons, act_nil, act_x, act_antiCnot, flipIf_other h1]
      apply Nat.eq_of_testBit_eq; intro k
      simp only [testBit_flipIf]
      cases i.testBit a <;> simp
  · refine ⟨[.x o, antiCcnot a b o], by simp [lor, h1, h2, hab], moves_of hσ he ?_ fun i => ?_⟩
    · intro p hp
      simp at hp
      rcases hp with rfl | rfl
      · exact ok_x ho
      · exact ok_antiCcnot h1 h2 hab ha hb ho
    · simp only [act_cons, act_nil, act_x, act_antiCcnot, flipIf_other h1, flipIf_other h2]
      apply Nat.eq_of_testBit_eq; intro k
      simp only [testBit_flipIf]
      cases i.testBit a <;> cases i.testBit b <;> simp

/-- C49, `XOR` out of place. -/
theorem xor_writes (h1 : a ≠ o) (h2 : b ≠ o) : ∃ p, lxor a b o = .gates p ∧
    Moves σ p e (fun i => flipIf (i.testBit a ^^ i.testBit b) o i) := by
  refine ⟨[cnot a o, cnot b o], by simp [lxor, h1, h2], moves_of hσ he ?_ fun i => ?_⟩
  · intro p hp
    simp at hp
    rcases hp with rfl | rfl
    · exact ok_cnot h1 ha ho
    · exact ok_cnot h2 hb ho
  · simp only [act_cons, act_nil, act_cnot, flipIf_other h2]
    apply Nat.eq_of_testBit_eq; intro k
    simp only [testBit_flipIf]
    cases i.testBit a <;> cases i.testBit b <;> simp

omit ho in
/-- C49, `XOR` in place: with the output equal to one of two different inputs, that qubit becomes the
exclusive or. -/
theorem xor_inplace (h : a ≠ b) : ∃ p q, lxor a b a = .gates p ∧ lxor b a a = .gates q ∧
    Moves σ p e (fun i => flipIf (i.testBit b) a i) ∧ Moves σ q e (fun i => flipIf (i.testBit b) a i) ∧
    ∀ i, (flipIf (i.testBit b) a i).testBit a = (i.testBit a ^^ i.testBit b) := by
  have hm : Moves σ [cnot b a] e (fun i => flipIf (i.testBit b) a i) := by
    refine moves_of hσ he ?_ fun i => by simp [act_cons, act_nil, act_cnot]
    intro p hp; simp at hp; subst hp; exact ok_cnot (Ne.symm h) hb ha
  refine ⟨[cnot b a], [cnot b a], ?_, ?_, hm, hm, fun i => by rw [testBit_flipIf]; simp⟩
  · simp [lxor, Ne.symm h]
  · simp [lxor, Ne.symm h]

omit ha hb in
theorem moves_then_x {p : List Op} {f : ℕ → Bool} (hp : ∀ q ∈ p, q.Ok e.n)
    (h : ∀ i, act p i = flipIf (f i) o i) : Moves σ (p ++ [.x o]) e (fun i => flipIf (!f i) o i) := by
  refine moves_of hσ he ?_ fun i => ?_
  · intro q hq
    rw [List.mem_append] at hq
    rcases hq with hq | hq
    · exact hp q hq
    · simp at hq; subst hq; exact ok_x ho
  · rw [act_append, h, act_cons, act_nil, act_x]
    apply Nat.eq_of_testBit_eq; intro k
    simp only [testBit_flipIf]
    cases f i <;> simp

/-- C49, `NAND`. -/
theorem nand_writes (h1 : a ≠ o) (h2 : b ≠ o) : ∃ p, lnand a b o = .gates p ∧
    Moves σ p e (fun i => flipIf (!(i.testBit a && i.testBit b)) o i) := by
  by_cases hab : a = b
  · subst hab
    refine ⟨[cnot a o, .x o], by simp [lnand, land, Logic.andThen, h1],
      moves_then_x hσ he ho (p := [cnot a o]) ?_ fun i => ?_⟩
    · intro p hp; simp at hp; subst hp; exact ok_cnot h1 ha ho
    · simp [act_cons, act_nil, act_cnot]
  · refine ⟨[ccnot a b o, .x o], by simp [lnand, land, Logic.andThen, h1, h2, hab],
      moves_then_x hσ he ho (p := [ccnot a b o]) ?_ fun i => ?_⟩
    · intro p hp; simp at hp; subst hp; exact ok_ccnot h1 h2 hab ha hb ho
    · simp [act_cons, act_nil, act_ccnot]

/-- C49, `NOR`. -/
theorem nor_writes (h1 : a ≠ o) (h2 : b ≠ o) : ∃ p, lnor a b o = .gates p ∧
    Moves σ p e (fun i => flipIf (!(i.testBit a || i.testBit b)) o i) := by
  by_cases hab : a = b
  · subst hab
    refine ⟨[.x o, antiCnot a o, .x o], by simp [lnor, lor, Logic.andThen, h1],
      moves_then_x hσ he ho (p := [.x o, antiCnot a o]) ?_ fun i => ?_⟩
    · intro p hp
      simp at hp
      rcases hp with rfl | rfl
      · exact ok_x ho
      · exact ok_antiCnot h1 ha ho
    · simp only [act_cons, act_nil, act_x, act_antiCnot, flipIf_other h1]
      apply Nat.eq_of_testBit_eq; intro k
      simp only [testBit_flipIf]
      cases i.testBit a <;> simp
  · refine ⟨[.x o, antiCcnot a b o, .x o], by simp [lnor, lor, Logic.andThen, h1, h2, hab],
      moves_then_x hσ he ho (p := [.x o, antiCcnot a b o]) ?_ fun i => ?_⟩
    · intro p hp
      simp at hp
      rcases hp with rfl | rfl
      · exact ok_x ho
      · exact ok_antiCcnot h1 h2 hab ha hb ho
    · simp only [act_cons, act_nil, act_x, act_antiCcnot, flipIf_other h1, flipIf_other h2]
      apply Nat.eq_of_testBit_eq; intro k
      simp only [testBit_flipIf]
      cases i.testBit a <;> cases i.testBit b <;> simp

/-- C49, `XNOR` out of place. -/
theorem xnor_writes (h1 : a ≠ o) (h2 : b ≠ o) : ∃ p, lxnor a b o = .gates p ∧
    Moves σ p e (fun i => flipIf (!(i.testBit a ^^ i.testBit b)) o i) := by
  refine ⟨[cnot a o, cnot b o, .x o], by simp [lxnor, lxor, Logic.andThen, h1, h2],
    moves_then_x hσ he ho (p := [cnot a o, cnot b o]) ?_ fun i => ?_⟩
  · intro p hp
    simp at hp
    rcases hp with rfl | rfl
    · exact ok_cnot h1 ha ho
    · exact ok_cnot h2 hb ho
  · simp only [act_cons, act_nil, act_cnot, flipIf_other h2]
    apply Nat.eq_of_testBit_eq; intro k
    simp only [testBit_flipIf]
    cases i.testBit a <;> cases i.testBit b <;> simp

end

/-- C49: `AND`/`OR` (and `NAND`/`NOR`) throw when the output is exactly one of the two inputs. -/
theorem and_or_alias {a b o : ℕ} (h : a ≠ b) (ho : o = a ∨ o = b) :
    land a b o = .throws ∧ lor a b o = .throws ∧ lnand a b o = .throws ∧ lnor a b o = .throws := by
  rcases ho with rfl | rfl
  · simp [land, lor, lnand, lnor, Logic.andThen, h]
  · simp [land, lor, lnand, lnor, Logic.andThen, h, Ne.symm h]

/-- C49: `XOR` of a qubit with itself into itself clears it. -/
theorem xor_self (q : ℕ) : lxor q q q = .reset q [] := by simp [lxor]

section
variable {σ : List ℕ → List ℕ} (hσ : IsSched σ) {e : Eng} (he : Exact e) {q o : ℕ} (c : Bool)
  (hq : q < e.n) (ho : o < e.n)
include hσ he hq ho

/-- C49, the variants with a classical operand, output different from the quantum input. -/
theorem classical_writes (h : q ≠ o) :
    Moves σ (cland q c o) e (fun i => flipIf (i.testBit q && c) o i) ∧
    Moves σ (clor q c o) e (fun i => flipIf (i.testBit q || c) o i) ∧
    Moves σ (clxor q c o) e (fun i => flipIf (i.testBit q ^^ c) o i) := by
  have hx : ∀ p ∈ [Op.x o], p.Ok e.n := by intro p hp; simp at hp; subst hp; exact ok_x ho
  have hc : ∀ p ∈ [cnot q o], p.Ok e.n := by intro p hp; simp at hp; subst hp; exact ok_cnot h hq ho
  have hxc : ∀ p ∈ [Op.x o, cnot q o], p.Ok e.n := by
    intro p hp; simp at hp; rcases hp with rfl | rfl
    · exact ok_x ho
    · exact ok_cnot h hq ho
  cases c
  · refine ⟨?_, ?_, ?_⟩
    · have : cland q false o = [] := by simp [cland]
      rw [this]; exact moves_of hσ he (by simp) fun i => by simp [act_nil, flipIf]
    · have : clor q false o = [cnot q o] := by simp [clor, h]
      rw [this]; exact moves_of hσ he hc fun i => by simp [act_cons, act_nil, act_cnot]
    · have : clxor q false o = [cnot q o] := by simp [clxor, h]
      rw [this]; exact moves_of hσ he hc fun i => by simp [act_cons, act_nil, act_cnot]
  · refine ⟨?_, ?_, ?_⟩
    · have : cland q true o = [cnot q o] := by simp [cland, h]
      rw [this]; exact moves_of hσ he hc fun i => by simp [act_cons, act_nil, act_cnot]
    · have : clor q true o = [.x o] := by simp [clor]
      rw [this]; exact moves_of hσ he hx fun i => by simp [act_cons, act_nil, act_x]
    · have : clxor q true o = [.x o, cnot q o] := by simp [clxor, h]
      rw [this]
      refine moves_of hσ he hxc fun i => ?_
      simp only [act_cons, act_nil, act_x, act_cnot, flipIf_other h]
      apply Nat.eq_of_testBit_eq; intro k
      simp only [testBit_flipIf]
      cases i.testBit q <;> simp

/-- C49, the negated variants with a classical operand. -/
theorem classical_negated (h : q ≠ o) :
    Moves σ (clnand q c o) e (fun i => flipIf (!(i.testBit q && c)) o i) ∧
    Moves σ (clnor q c o) e (fun i => flipIf (!(i.testBit q || c)) o i) ∧
    Moves σ (clxnor q c o) e (fun i => flipIf (!(i.testBit q ^^ c)) o i) := by
  have hx : ∀ p ∈ [Op.x o], p.Ok e.n := by intro p hp; simp at hp; subst hp; exact ok_x ho
  have hc : ∀ p ∈ [cnot q o], p.Ok e.n := by intro p hp; simp at hp; subst hp; exact ok_cnot h hq ho
  have hxc : ∀ p ∈ [Op.x o, cnot q o], p.Ok e.n := by
    intro p hp; simp at hp; rcases hp with rfl | rfl
    · exact ok_x ho
    · exact ok_cnot h hq ho
  cases c
  · refine ⟨?_, ?_, ?_⟩
    · have : cland q false o = [] := by simp [cland]
      rw [clnand, this]; exact moves_then_x hσ he ho (f := fun i => i.testBit q && false) (by simp) fun i => by simp [act_nil, flipIf]
    · have : clor q false o = [cnot q o] := by simp [clor, h]
      rw [clnor, this]; exact moves_then_x hσ he ho (f := fun i => i.testBit q || false) hc fun i => by simp [act_cons, act_nil, act_cnot]
    · have : clxor q false o = [cnot q o] := by simp [clxor, h]
      rw [clxnor, this]; exact moves_then_x hσ he ho (f := fun i => i.testBit q ^^ false) hc fun i => by simp [act_cons, act_nil, act_cnot]
  · refine ⟨?_, ?_, ?_⟩
    · have : cland q true o = [cnot q o] := by simp [cland, h]
      rw [clnand, this]; exact moves_then_x hσ he ho (f := fun i => i.testBit q && true) hc fun i => by simp [act_cons, act_nil, act_cnot]
    · have : clor q true o = [.x o] := by simp [clor]
      rw [clnor, this]; exact moves_then_x hσ he ho (f := fun i => i.testBit q || true) hx fun i => by simp [act_cons, act_nil, act_x]
    · have : clxor q true o = [.x o, cnot q o] := by simp [clxor, h]
      rw [clxnor, this]
      refine moves_then_x hσ he ho (f := fun i => i.testBit q ^^ true) hxc fun i => ?_
      simp only [act_cons, act_nil, act_x, act_cnot, flipIf_other h]
      apply Nat.eq_of_testBit_eq; intro k
      simp only [testBit_flipIf]
      cases i.testBit q <;> simp

end

/-- C49, the code outside the documented use: `NAND` of a qubit with itself into itself is an `X`, which
happens to be the right function, but `CLAND(q, false, q)` does nothing, although `q AND false` is `0`. -/
theorem cland_alias_wrong (q : ℕ) : cland q false q = [] ∧
    ∃ i : ℕ, (act (cland q false q) i).testBit q ≠ (i.testBit q && false) :=
  ⟨by simp [cland], 2 ^ q, by simp [cland, act_nil]⟩

/-- Non-vacuity: on three qubits, `NAND(0, 1, 2)` sends `|011⟩` to itself and `|001⟩` to `|101⟩`. -/
example : lnand 0 1 2 = .gates [ccnot 0 1 2, .x 2] ∧ act [ccnot 0 1 2, .x 2] 3 = 3 ∧
    act [ccnot 0 1 2, .x 2] 1 = 5 := by decide

end Verif.Circ
