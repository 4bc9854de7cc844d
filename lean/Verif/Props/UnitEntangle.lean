import Verif.Lemmas.UnitEntangle
import Verif.Props.EngineMask
import Verif.Props.Utils
import Mathlib.Tactic.FinCases
import Mathlib.Tactic.IntervalCases

/-!
# C82: joining the units of `QUnit`, and its operations on parities

`whole` (here `R.joint`) is the state of all qubits, as the product of what the units hold; it is in `Verif/Spec/Product.lean`.
-/

namespace Verif.QUE

open Verif.Spec Verif.Engine Finset

/-- Five qubits, each in a unit of its own, but for qubits 2 and 3, which share one. -/
def five : Reg where
  n := 5
  unit q := if q = 3 then 2 else q
  pos q := if q = 3 then 1 else 0
  size u := if u = 2 then 2 else 1
  amp _ _ := 1

theorem five_valid : five.Valid := by
  constructor
  · intro q hq
    change q < 5 at hq
    interval_cases q <;> decide
  · intro p hp q hq
    change p < 5 at hp
    change q < 5 at hq
    interval_cases p <;> interval_cases q <;> decide

theorem five_joint (i : ℕ) : five.joint i = 1 := by
  rw [joint_eq]
  exact prod_eq_one fun _ _ => rfl

/-- Two qubits, the first `|0⟩ + |1⟩`, the second `|0⟩`. -/
def two : Reg where
  n := 2
  unit q := q
  pos _ := 0
  size _ := 1
  amp u j := if u = 1 ∧ j = 1 then 0 else 1

theorem two_valid : two.Valid := ⟨fun _ _ => Nat.zero_lt_one, fun _ _ _ _ h _ => h⟩

/-! ## Joining units -/

/-- C82. `EntangleInCurrentBasis` does not change the state. Afterwards all the qubits are in the returned unit, at different places inside
it, and what is written back to the arguments are these places. -/
theorem entangle_keeps {R : Reg} (h : R.Valid) {bits : List ℕ} (hb : ∀ b ∈ bits, b < R.n) (h0 : bits ≠ []) :
    ∃ R' u ps, R.entangle bits = (R', u, ps) ∧ R'.joint = R.joint ∧ R'.n = R.n ∧ R'.Valid ∧ (∀ b ∈ bits, R'.unit b = u) ∧
      ps = bits.map R'.pos ∧ ∀ q, R.unit q ∉ bits.map R.unit → R'.unit q = R.unit q := by
  have hj := entangle_joins h hb h0
  refine ⟨_, _, _, rfl, hj.joint, hj.n, hj.valid, fun b hb' => ?_, rfl, hj.stay⟩
  exact List.mem_singleton.1 (hj.into b (List.mem_map.2 ⟨b, hb', rfl⟩))

example : ∃ R' u ps, five.entangle [0, 3, 4] = (R', u, ps) ∧ R'.joint = five.joint ∧ R'.n = five.n ∧ R'.Valid ∧
    (∀ b ∈ [0, 3, 4], R'.unit b = u) ∧ ps = [0, 3, 4].map R'.pos ∧
      ∀ q, five.unit q ∉ [0, 3, 4].map five.unit → R'.unit q = five.unit q :=
  entangle_keeps five_valid (by decide) (by decide)

theorem sort_ne_nil {l : List ℕ} (h : l ≠ []) : l.mergeSort (· ≤ ·) ≠ [] := by
  intro h1
  have := List.length_mergeSort (le := fun a b : ℕ => decide (a ≤ b)) l
  rw [h1] at this
  exact h (List.length_eq_zero_iff.1 (by simpa using this.symm))

/-- The same for `Entangle`, which sorts a copy of its arguments. -/
theorem entangleCopy_keeps {R : Reg} (h : R.Valid) {bits : List ℕ} (hb : ∀ b ∈ bits, b < R.n) (h0 : bits ≠ []) :
    ∃ R' u, R.entangleCopy bits = (R', u) ∧ R'.joint = R.joint ∧ R'.n = R.n ∧ R'.Valid ∧ ∀ b ∈ bits, R'.unit b = u := by
  obtain ⟨R', u, ps, h1, h2, h3, h4, h5, -, -⟩ := entangle_keeps h (bits := bits.mergeSort (· ≤ ·))
    (fun b hb' => hb b (List.mem_mergeSort.1 hb')) (sort_ne_nil h0)
  refine ⟨R', u, ?_, h2, h3, h4, fun b hb' => h5 b (List.mem_mergeSort.2 hb')⟩
  unfold Reg.entangleCopy
  rw [h1]

example : ∃ R' u, five.entangleCopy [4, 0] = (R', u) ∧ R'.joint = five.joint ∧ R'.n = five.n ∧ R'.Valid ∧ ∀ b ∈ [4, 0], R'.unit b = u :=
  entangleCopy_keeps five_valid (by decide) (by decide)

/-! ## Controlled gates -/

/-- C82. A controlled gate of `QUnit` that goes to a unit is the gate on the qubits, while the joined units are not larger than the limit. -/
theorem either_partial {cap : ℕ} {prob : ℕ → ℝ} {R : Reg} (h : R.Valid) {cs : List ℕ} {t : ℕ} (hc : ∀ c ∈ cs, c < R.n) (ht : t < R.n)
    (hm : R.logMem ((cs ++ [t]).mergeSort (· ≤ ·)) ≤ cap) (perm : ℕ) (a b c d : ℂ) :
    (R.either cap prob cs perm t a b c d).joint = gate (Matches perm cs) t a b c d R.joint := by
  unfold Reg.either
  rw [if_pos hm]
  obtain ⟨R', u, ps, h1, h2, h3, h4, h5, -, -⟩ := entangle_keeps h (bits := (cs ++ [t]).mergeSort (· ≤ ·)) (by
    intro b hb
    rw [List.mem_mergeSort, List.mem_append, List.mem_singleton] at hb
    rcases hb with hb | rfl
    · exact hc b hb
    · exact ht) (sort_ne_nil (by simp))
  have hu : ∀ x ∈ cs ++ [t], R'.unit x = u := fun x hx => h5 x (List.mem_mergeSort.2 hx)
  have htu : R'.unit t = u := hu t (by simp)
  rw [h1]
  dsimp only
  rw [← htu, act_gate h4 (by rw [h3]; exact ht) (p := Matches perm cs), h2]
  intro i
  exact matches_held h4 (fun c hc' => ⟨by rw [h3]; exact hc c hc', by rw [htu]; exact hu c (by simp [hc'])⟩) perm i

example : (five.either 4 (fun _ => 1 / 2) [3, 4] 1 1 0 1 1 0).joint = gate (Matches 1 [3, 4]) 1 0 1 1 0 five.joint :=
  either_partial five_valid (by decide) (by decide) (by
    rw [show ([3, 4] ++ [1] : List ℕ).mergeSort (· ≤ ·) = [1, 3, 4] by simp [List.mergeSort]]
    decide +kernel) _ _ _ _ _

/-- C82. Above the limit the gate is not the gate: here a `CNOT` between two units that would be too large together, its control set
with probability one half, does nothing. -/
theorem either_wrong : ∃ (cap : ℕ) (prob : ℕ → ℝ) (R : Reg) (cs : List ℕ) (t : ℕ), R.Valid ∧ (∀ c ∈ cs, c < R.n) ∧ t < R.n ∧
    (R.either cap prob cs 1 t 0 1 1 0).joint ≠ gate (Matches 1 cs) t 0 1 1 0 R.joint := by
  refine ⟨1, fun _ => 1 / 2, two, [0], 1, two_valid, by decide, by decide, fun h => ?_⟩
  have h1 : two.either 1 (fun _ => 1 / 2) [0] 1 1 0 1 1 0 = two := by
    unfold Reg.either
    rw [show ([0] ++ [1] : List ℕ).mergeSort (· ≤ ·) = [0, 1] by simp [List.mergeSort], if_neg (by decide +kernel)]
    dsimp only
    rw [if_neg (by norm_num)]
  have h2 := congrFun h 1
  rw [h1] at h2
  have h3 : two.joint 1 = 1 := by
    rw [joint_eq, show (range two.n).image two.unit = {0, 1} by decide +kernel, prod_pair (by decide)]
    rw [show two.held 0 1 = 1 by decide +kernel, show two.held 1 1 = 0 by decide +kernel]
    simp [two]
  have h4 : two.joint 3 = 0 := by
    rw [joint_eq, show (range two.n).image two.unit = {0, 1} by decide +kernel, prod_pair (by decide)]
    rw [show two.held 0 3 = 1 by decide +kernel, show two.held 1 3 = 1 by decide +kernel]
    simp [two]
  unfold gate at h2
  rw [if_pos (by decide +kernel), if_neg (by decide +kernel), show flipBit 1 1 = 3 by decide +kernel, h3, h4] at h2
  norm_num at h2

/-- C82. The controlled swaps of `QUnit`. -/
theorem eitherSwap_exchanges {R : Reg} (h : R.Valid) {cs : List ℕ} {q1 q2 : ℕ} (hc : ∀ c ∈ cs, c < R.n) (h1 : q1 < R.n) (h2 : q2 < R.n)
    (hq : q1 ≠ q2) (anti : Bool) (u v : ℂ) :
    (R.eitherSwap cs anti q1 q2 u v).joint = exchange (AllAre (!anti) cs) q1 q2 u v R.joint := by
  unfold Reg.eitherSwap
  obtain ⟨R', w, ps, e1, e2, e3, e4, e5, -, -⟩ := entangle_keeps h (bits := (cs ++ [q1, q2]).mergeSort (· ≤ ·)) (by
    intro b hb
    rw [List.mem_mergeSort, List.mem_append] at hb
    simp only [List.mem_cons, List.not_mem_nil, or_false] at hb
    rcases hb with hb | rfl | rfl
    · exact hc b hb
    · exact h1
    · exact h2) (sort_ne_nil (by simp))
  have hu : ∀ x ∈ cs ++ [q1, q2], R'.unit x = w := fun x hx => e5 x (List.mem_mergeSort.2 hx)
  have hu1 : R'.unit q1 = w := hu q1 (by simp)
  rw [e1]
  dsimp only
  rw [← hu1, act_exchange e4 (by rw [e3]; exact h1) (by rw [e3]; exact h2) hq (by rw [hu1]; exact hu q2 (by simp))
    (p := AllAre (!anti) cs), e2]
  intro i
  exact allAre_held e4 (fun c hc' => ⟨by rw [e3]; exact hc c hc', by rw [hu1]; exact hu c (by simp [hc'])⟩) _ i

example : (five.eitherSwap [3] false 1 4 0 1).joint = exchange (AllAre (!false) [3]) 1 4 0 1 five.joint :=
  eitherSwap_exchanges five_valid (by decide) (by decide) (by decide) (by decide) _ _ _

/-! ## Operations on parities -/

/-- The factor of a parity rotation, by the parity. -/
noncomputable def rot (θ : ℝ) (odd : Bool) : ℂ := ⟨Real.cos θ, if odd then Real.sin θ else -Real.sin θ⟩

theorem rot_eq (θ : ℝ) (c : ℕ) : parityFactor θ c = rot θ (decide (c % 2 = 1)) := by
  rw [parityFactor_cos]
  unfold rot
  by_cases h : c % 2 = 1
  · rw [if_pos h, decide_eq_true h, if_pos rfl]
  · rw [if_neg h, decide_eq_false h, if_neg (by simp)]

theorem rot_flip (θ : ℝ) (f b : Bool) : rot (if f then -θ else θ) b = rot θ (f ^^ b) := by
  unfold rot
  cases f <;> cases b <;> simp

theorem rot_half (θ : ℝ) (f : Bool) : (if f then -θ else θ) / 2 = if f then -(θ / 2) else θ / 2 := by
  cases f <;> simp [neg_div]

theorem rot_inv (θ : ℝ) : 1 / rot θ true = rot θ false := by
  have h : rot θ false * rot θ true = 1 := by
    apply Complex.ext
    · simp only [rot, Complex.mul_re, Complex.one_re]
      have := Real.cos_sq_add_sin_sq θ
      simp
      nlinarith
    · simp only [rot, Complex.mul_im, Complex.one_im]
      simp
      ring
  rw [div_eq_iff, h]
  rintro h0
  rw [h0, mul_zero] at h
  exact zero_ne_one h

theorem gate_diag (p : ℕ → Prop) [DecidablePred p] (t : ℕ) (a d : ℂ) (s : ℕ → ℂ) (i : ℕ) :
    gate p t a 0 0 d s i = if p i then (if i.testBit t then d else a) * s i else s i := by
  unfold gate
  split_ifs <;> ring

/-- `MCPhase` and `Phase`. -/
theorem phase_ok {R : Reg} (h : R.Valid) {cs : List ℕ} {t : ℕ} (hc : ∀ c ∈ cs, c < R.n) (ht : t < R.n) {tl br : ℂ}
    (hd : t ∉ cs ∨ cs.length = 1 ∧ tl = br) :
    ∃ R', R.phase cs tl br t = some R' ∧ ∀ i, R'.joint i =
      if AllAre true cs i then (if i.testBit t then br else tl) * R.joint i else R.joint i := by
  have general : t ∉ cs → ∃ R', (if t ∈ cs then none else
      let s := R.entangle ((cs ++ [t]).mergeSort (· ≤ ·))
      some (s.1.act s.2.1 (gate (AllAre true (cs.map s.1.pos)) (s.1.pos t) tl 0 0 br)) : Option Reg) = some R' ∧ ∀ i, R'.joint i =
      if AllAre true cs i then (if i.testBit t then br else tl) * R.joint i else R.joint i := by
    intro hd
    rw [if_neg hd]
    obtain ⟨R', u, ps, h1, h2, h3, h4, h5, -, -⟩ := entangle_keeps h (bits := (cs ++ [t]).mergeSort (· ≤ ·)) (by
      intro b hb
      rw [List.mem_mergeSort, List.mem_append, List.mem_singleton] at hb
      rcases hb with hb | rfl
      · exact hc b hb
      · exact ht) (sort_ne_nil (by simp))
    have hu : ∀ x ∈ cs ++ [t], R'.unit x = u := fun x hx => h5 x (List.mem_mergeSort.2 hx)
    have htu : R'.unit t = u := hu t (by simp)
    rw [h1]
    refine ⟨_, rfl, fun i => ?_⟩
    dsimp only
    rw [← htu, act_gate h4 (by rw [h3]; exact ht) (p := AllAre true cs), h2, gate_diag]
    intro i
    exact allAre_held h4 (fun c hc' => ⟨by rw [h3]; exact hc c hc', by rw [htu]; exact hu c (by simp [hc'])⟩) _ i
  by_cases hs : ∃ c, cs = [c] ∧ tl = br
  · obtain ⟨c, rfl, rfl⟩ := hs
    unfold Reg.phase
    simp only [decide_true]
    refine ⟨_, rfl, fun i => ?_⟩
    rw [act_gate h (hc c (by simp)) (p := fun _ => True) (fun _ => Iff.rfl), gate_diag, if_pos trivial]
    have : AllAre true [c] i ↔ i.testBit c = true := by simp [AllAre]
    simp only [this, ite_self]
    split_ifs <;> ring
  · have hd' : t ∉ cs := by
      rcases hd with hd | ⟨hd1, hd2⟩
      · exact hd
      · obtain ⟨c, hc'⟩ := List.length_eq_one_iff.1 hd1
        exact absurd ⟨c, hc', hd2⟩ hs
    obtain ⟨R', h1, h2⟩ := general hd'
    refine ⟨R', ?_, h2⟩
    rw [← h1]
    unfold Reg.phase
    split
    · rename_i c heq
      exact absurd ⟨c, rfl, of_decide_eq_true heq⟩ hs
    · rfl

/-- What the caches say is true of the state. -/
def Sound (known : ℕ → Option Bool) (ψ : ℕ → ℂ) : Prop := ∀ q v, known q = some v → ∀ i, ψ i ≠ 0 → i.testBit q = v

theorem parity_sound {known : ℕ → Option Bool} {ψ : ℕ → ℂ} (hk : Sound known ψ) (n mask : ℕ) {i : ℕ} (hi : ψ i ≠ 0) :
    decide (maskCount n mask i % 2 = 1) = (flipOf known (bitsOf n mask) ^^
      decide ((((bitsOf n mask).filter (known · = none)).filter fun q => i.testBit q).length % 2 = 1)) := by
  rw [maskCount_eq]
  unfold flipOf
  rw [parity_known _ _ fun q _ v hv => hk q v hv i hi, Bool.false_xor]

theorem odd_single (q i : ℕ) : decide (([q].filter fun q => i.testBit q).length % 2 = 1) = i.testBit q := by
  by_cases h : i.testBit q = true
  · rw [List.filter_cons_of_pos h, h]; rfl
  · rw [List.filter_cons_of_neg h, Bool.not_eq_true _ |>.mp h]; rfl

/-- C82. `PhaseParity` of `QUnit` multiplies by `exp(iθ/2)` where the parity of the masked qubits is odd, by `exp(-iθ/2)` where it is even,
whatever the caches know. -/
theorem phaseParity_rotates {R : Reg} (h : R.Valid) {known : ℕ → Option Bool} (hk : Sound known R.joint) {mask : ℕ} (hm : mask < 2 ^ R.n)
    (h0 : mask ≠ 0) (θ : ℝ) :
    ∃ R', R.phaseParity known θ mask = some R' ∧ ∀ i, R'.joint i = parityFactor (θ / 2) (maskCount R.n mask i) * R.joint i := by
  have hn : 0 < R.n := by
    rcases Nat.eq_zero_or_pos R.n with h1 | h1
    · rw [h1] at hm; omega
    · exact h1
  have hlt : ∀ q ∈ (bitsOf R.n mask).filter (known · = none), q < R.n := fun q hq => (mem_bitsOf.1 (List.mem_filter.1 hq).1).1
  have hfac : (⟨Real.cos (θ / 2), Real.sin (θ / 2)⟩ : ℂ) = rot (θ / 2) true := rfl
  -- from the parity of the unknown qubits to the parity of all of them
  have fin : ∀ R' : Reg, (∀ i, R.joint i ≠ 0 → R'.joint i = rot (θ / 2) (flipOf known (bitsOf R.n mask) ^^
      decide ((((bitsOf R.n mask).filter (known · = none)).filter fun q => i.testBit q).length % 2 = 1)) * R.joint i) →
      (∀ i, R.joint i = 0 → R'.joint i = 0) → ∀ i, R'.joint i = parityFactor (θ / 2) (maskCount R.n mask i) * R.joint i := by
    intro R' h1 h2 i
    by_cases hi : R.joint i = 0
    · rw [h2 i hi, hi, mul_zero]
    · rw [h1 i hi, rot_eq, parity_sound hk R.n mask hi]
  unfold Reg.phaseParity
  rw [if_neg (by omega), if_neg h0]
  simp only [hfac, rot_inv]
  by_cases h1 : (bitsOf R.n mask).length = 1
  · rw [if_pos h1]
    obtain ⟨q, hq⟩ := List.length_eq_one_iff.1 h1
    have hq' : q < R.n := (mem_bitsOf.1 (show q ∈ bitsOf R.n mask by rw [hq]; simp)).1
    rw [hq]
    obtain ⟨R', h2, h3⟩ := phase_ok h (cs := []) (t := q) (by simp) hq' (tl := rot (θ / 2) false) (br := rot (θ / 2) true) (Or.inl (by simp))
    refine ⟨R', h2, fun i => ?_⟩
    rw [h3, if_pos (by simp [AllAre]), rot_eq, maskCount_eq, hq, odd_single]
    cases i.testBit q <;> rfl
  · rw [if_neg h1]
    split
    · rename_i he
      split_ifs with hf
      · obtain ⟨R', h2, h3⟩ := phase_ok h (cs := []) (t := 0) (by simp) hn (tl := rot (θ / 2) true) (br := rot (θ / 2) true) (Or.inl (by simp))
        refine ⟨R', h2, fin R' (fun i _ => ?_) (fun i hi => ?_)⟩
        · rw [h3, if_pos (by simp [AllAre]), he, hf, ite_self]; rfl
        · rw [h3, hi]; simp
      · obtain ⟨R', h2, h3⟩ := phase_ok h (cs := []) (t := 0) (by simp) hn (tl := rot (θ / 2) false) (br := rot (θ / 2) false) (Or.inl (by simp))
        rw [Bool.not_eq_true] at hf
        refine ⟨R', h2, fin R' (fun i _ => ?_) (fun i hi => ?_)⟩
        · rw [h3, if_pos (by simp [AllAre]), he, hf, ite_self]; rfl
        · rw [h3, hi]; simp
    · rename_i q he
      have hq' : q < R.n := hlt q (by rw [he]; simp)
      split_ifs with hf
      · obtain ⟨R', h2, h3⟩ := phase_ok h (cs := []) (t := q) (by simp) hq' (tl := rot (θ / 2) true) (br := rot (θ / 2) false) (Or.inl (by simp))
        refine ⟨R', h2, fin R' (fun i _ => ?_) (fun i hi => ?_)⟩
        · rw [h3, if_pos (by simp [AllAre]), he, hf, odd_single]; cases i.testBit q <;> rfl
        · rw [h3, hi]; simp
      · obtain ⟨R', h2, h3⟩ := phase_ok h (cs := []) (t := q) (by simp) hq' (tl := rot (θ / 2) false) (br := rot (θ / 2) true) (Or.inl (by simp))
        rw [Bool.not_eq_true] at hf
        refine ⟨R', h2, fin R' (fun i _ => ?_) (fun i hi => ?_)⟩
        · rw [h3, if_pos (by simp [AllAre]), he, hf, odd_single]; cases i.testBit q <;> rfl
        · rw [h3, hi]; simp
    · rename_i e hne1 hne2
      generalize he : (bitsOf R.n mask).filter (known · = none) = e at *
      have hne : (e : List ℕ) ≠ [] := by rintro rfl; exact hne1 rfl
      have hnd : e.Nodup := by rw [← he]; exact (nodup_bitsOf R.n mask).filter _
      obtain ⟨R', u, h1, h2, h3, h4, h5⟩ := entangleCopy_keeps h hlt hne
      rw [h1]
      refine ⟨_, rfl, fin _ (fun i _ => ?_) (fun i hi => ?_)⟩
      · dsimp only
        rw [act_parity h4 (fun q hq => ⟨by rw [h3]; exact hlt q hq, h5 q hq⟩) hnd hne (p := fun _ => True) (fun _ => Iff.rfl), if_pos trivial, h2,
          ← rot_flip, ← rot_half]
        rfl
      · dsimp only
        rw [act_parity h4 (fun q hq => ⟨by rw [h3]; exact hlt q hq, h5 q hq⟩) hnd hne (p := fun _ => True) (fun _ => Iff.rfl), if_pos trivial, h2,
          hi, mul_zero]

theorem sound_none (ψ : ℕ → ℂ) : Sound (fun _ => none) ψ := fun _ _ h => by simp at h

example : ∃ R', five.phaseParity (fun _ => none) 1 0b11010 = some R' ∧
    ∀ i, R'.joint i = parityFactor (1 / 2) (maskCount five.n 0b11010 i) * five.joint i :=
  phaseParity_rotates five_valid (sound_none _) (by decide) (by decide) 1

example : Sound (fun q => if q = 1 then some false else none) two.joint := by
  intro q v hv i hi
  dsimp only at hv
  split_ifs at hv with h1
  cases hv
  subst h1
  by_contra hb
  rw [Bool.not_eq_false] at hb
  apply hi
  have h1 : two.held 1 i = 1 := by
    have e1 := held_at two_valid (q := 1) (by decide) i
    have e2 : two.held 1 i < 2 := part_lt _ _ _ _ _ _
    rw [hb] at e1
    change (two.held 1 i).testBit 0 = true at e1
    interval_cases h : two.held 1 i
    · simp at e1
    · rfl
  rw [joint_eq, show (range two.n).image two.unit = {0, 1} by decide +kernel, prod_pair (by decide), h1]
  simp [two]

/-- C82. `ZMask` of `QUnit` is not the product of the `Z` gates: it is `-i` times that. -/
theorem zMask_phase {R : Reg} (h : R.Valid) {known : ℕ → Option Bool} (hk : Sound known R.joint) {mask : ℕ} (hm : mask < 2 ^ R.n)
    (h0 : mask ≠ 0) :
    ∃ R', R.zMask known mask = some R' ∧ ∀ i, R'.joint i = -Complex.I * ((-1) ^ maskCount R.n mask i * R.joint i) := by
  obtain ⟨R', h1, h2⟩ := phaseParity_rotates h hk hm h0 Real.pi
  refine ⟨R', h1, fun i => ?_⟩
  rw [h2, rot_eq, ← mul_assoc]
  congr 1
  rcases Nat.mod_two_eq_zero_or_one (maskCount R.n mask i) with h3 | h3
  · rw [(Nat.even_iff.2 h3).neg_one_pow, h3]
    apply Complex.ext <;> simp [rot]
  · rw [(Nat.odd_iff.2 h3).neg_one_pow, h3]
    apply Complex.ext <;> simp [rot]

example : ∃ R', five.zMask (fun _ => none) 0b101 = some R' ∧
    ∀ i, R'.joint i = -Complex.I * ((-1) ^ maskCount five.n 0b101 i * five.joint i) :=
  zMask_phase five_valid (sound_none _) (by decide) (by decide)

/-- C82. `CUniformParityRZ` of `QUnit`, when the caches know all controls, or all but one of the masked qubits, or all of these and qubit 0
is not among two or more controls. -/
theorem cUniformParityRZ_partial {R : Reg} (h : R.Valid) {trim known : ℕ → Option Bool} (ht : Sound trim R.joint) (hk : Sound known R.joint)
    {cs : List ℕ} {mask : ℕ} (hn : 0 < R.n) (hm : mask < 2 ^ R.n) (hb : ∀ c ∈ cs, c < R.n) (hnd : cs.Nodup)
    (hdis : ∀ c ∈ cs, mask.testBit c = false)
    (hc : (∀ c ∈ cs, trim c ≠ none) ∨ ((bitsOf R.n mask).filter (known · = none)).length = 1 ∨
      ((∀ q ∈ bitsOf R.n mask, known q ≠ none) ∧ (0 ∉ cs ∨ (cs.filter (trim · = none)).length = 1))) (θ : ℝ) :
    ∃ R', R.cUniformParityRZ trim known cs mask θ = some R' ∧
      ∀ i, R'.joint i = if AllAre true cs i then parityFactor θ (maskCount R.n mask i) * R.joint i else R.joint i := by
  have hlt : ∀ q ∈ (bitsOf R.n mask).filter (known · = none), q < R.n := fun q hq => (mem_bitsOf.1 (List.mem_filter.1 hq).1).1
  have hfac : (⟨Real.cos θ, Real.sin θ⟩ : ℂ) = rot θ true := rfl
  have hfac' : (⟨Real.cos θ, -Real.sin θ⟩ : ℂ) = rot θ false := rfl
  unfold Reg.cUniformParityRZ
  rw [if_neg (by omega), (Utils.throwIfBad_correct cs R.n).2 ⟨hb, hnd⟩, if_neg (by simp)]
  simp only [hfac, hfac']
  by_cases hf : cs.any (fun c => trim c = some false) = true
  · rw [if_pos hf]
    refine ⟨R, rfl, fun i => ?_⟩
    obtain ⟨c, hc1, hc2⟩ := List.any_eq_true.1 hf
    split_ifs with ha
    · by_cases hi : R.joint i = 0
      · rw [hi, mul_zero]
      · have := ht c false (by simpa using hc2) i hi
        rw [ha c hc1] at this
        simp at this
    · rfl
  · rw [if_neg hf]
    have hnf : ∀ c ∈ cs, trim c ≠ some false := by
      intro c hc1 hc2
      exact hf (List.any_eq_true.2 ⟨c, hc1, by simpa using hc2⟩)
    have hall : ∀ i, R.joint i ≠ 0 → (AllAre true cs i ↔ AllAre true (cs.filter (trim · = none)) i) := by
      intro i hi
      constructor
      · intro ha c hc'; exact ha c (List.mem_filter.1 hc').1
      · intro ha c hc'
        cases hv : trim c with
        | none => exact ha c (List.mem_filter.2 ⟨hc', by simpa using hv⟩)
        | some v =>
          cases v
          · exact absurd hv (hnf c hc')
          · exact ht c true hv i hi
    have fin : ∀ R' : Reg, (∀ i, R.joint i ≠ 0 → R'.joint i = if AllAre true (cs.filter (trim · = none)) i then
        rot θ (flipOf known (bitsOf R.n mask) ^^
        decide ((((bitsOf R.n mask).filter (known · = none)).filter fun q => i.testBit q).length % 2 = 1)) * R.joint i else R.joint i) →
        (∀ i, R.joint i = 0 → R'.joint i = 0) → ∀ i, R'.joint i =
          if AllAre true cs i then parityFactor θ (maskCount R.n mask i) * R.joint i else R.joint i := by
      intro R' h1 h2 i
      by_cases hi : R.joint i = 0
      · rw [h2 i hi, hi]; simp
      · rw [h1 i hi, rot_eq, parity_sound hk R.n mask hi]
        simp only [hall i hi]
    have hcl : ∀ c ∈ cs.filter (trim · = none), c < R.n := fun c hc' => hb c (List.mem_filter.1 hc').1
    have zero : ∀ a b : ℂ, ∀ p q : Prop, ∀ [Decidable p] [Decidable q], (if p then (if q then a else b) * (0 : ℂ) else 0) = 0 := by
      intro a b p q _ _; simp
    split
    · rename_i he
      have hd : ∀ x : ℂ, 0 ∉ cs.filter (trim · = none) ∨ (cs.filter (trim · = none)).length = 1 ∧ x = x := by
        intro x
        rcases hc with hc | hc | ⟨-, hc | hc⟩
        · left; intro h1; rw [List.mem_filter] at h1; exact hc 0 h1.1 (by simpa using h1.2)
        · rw [he] at hc; simp at hc
        · left; intro h1; exact hc (List.mem_filter.1 h1).1
        · exact Or.inr ⟨hc, rfl⟩
      split_ifs with hfl
      · obtain ⟨R', h2, h3⟩ := phase_ok h hcl hn (hd (rot θ true))
        refine ⟨R', h2, fin R' (fun i _ => ?_) (fun i hi => ?_)⟩
        · rw [h3, he, hfl, ite_self]; rfl
        · rw [h3, hi, zero]
      · obtain ⟨R', h2, h3⟩ := phase_ok h hcl hn (hd (rot θ false))
        rw [Bool.not_eq_true] at hfl
        refine ⟨R', h2, fin R' (fun i _ => ?_) (fun i hi => ?_)⟩
        · rw [h3, he, hfl, ite_self]; rfl
        · rw [h3, hi, zero]
    · rename_i q he
      have hq' : q < R.n := hlt q (by rw [he]; simp)
      have hqc : q ∉ cs.filter (trim · = none) := by
        intro h1
        have h2 := hdis q (List.mem_filter.1 h1).1
        have h3 : q ∈ (bitsOf R.n mask).filter (known · = none) := by rw [he]; simp
        rw [(mem_bitsOf.1 (List.mem_filter.1 h3).1).2] at h2
        simp at h2
      split_ifs with hfl
      · obtain ⟨R', h2, h3⟩ := phase_ok h hcl hq' (tl := rot θ true) (br := rot θ false) (Or.inl hqc)
        refine ⟨R', h2, fin R' (fun i _ => ?_) (fun i hi => ?_)⟩
        · rw [h3, he, hfl, odd_single]; cases i.testBit q <;> rfl
        · rw [h3, hi, zero]
      · obtain ⟨R', h2, h3⟩ := phase_ok h hcl hq' (tl := rot θ false) (br := rot θ true) (Or.inl hqc)
        rw [Bool.not_eq_true] at hfl
        refine ⟨R', h2, fin R' (fun i _ => ?_) (fun i hi => ?_)⟩
        · rw [h3, he, hfl, odd_single]; cases i.testBit q <;> rfl
        · rw [h3, hi, zero]
    · rename_i e hne1 hne2
      generalize he : (bitsOf R.n mask).filter (known · = none) = e at *
      have hne : (e : List ℕ) ≠ [] := by rintro rfl; exact hne1 rfl
      have hnd' : e.Nodup := by rw [← he]; exact (nodup_bitsOf R.n mask).filter _
      have hc0 : cs.filter (trim · = none) = [] := by
        rcases hc with hc | hc | ⟨hc, -⟩
        · rw [List.filter_eq_nil_iff]; intro c hc'; simpa using hc c hc'
        · obtain ⟨q, hq⟩ := List.length_eq_one_iff.1 hc
          exact absurd hq (hne2 q)
        · exfalso
          apply hne
          rw [← he, List.filter_eq_nil_iff]
          intro q hq; simpa using hc q hq
      rw [hc0] at fin ⊢
      rw [if_pos rfl]
      obtain ⟨R', u, h1, h2, h3, h4, h5⟩ := entangleCopy_keeps h hlt hne
      rw [h1]
      have key : ∀ i, (R'.act u (byParity (R'.size u) (maskOf (e.map R'.pos)) (fun _ => True) fun odd =>
          ⟨Real.cos (if flipOf known (bitsOf R.n mask) then -θ else θ), if odd then Real.sin (if flipOf known (bitsOf R.n mask) then -θ else θ)
            else -Real.sin (if flipOf known (bitsOf R.n mask) then -θ else θ)⟩)).joint i =
          rot θ (flipOf known (bitsOf R.n mask) ^^ decide ((e.filter fun q => i.testBit q).length % 2 = 1)) * R.joint i := by
        intro i
        rw [act_parity h4 (fun q hq => ⟨by rw [h3]; exact hlt q hq, h5 q hq⟩) hnd' hne (p := fun _ => True) (fun _ => Iff.rfl), if_pos trivial, h2,
          ← rot_flip]
        rfl
      refine ⟨_, rfl, fin _ (fun i _ => ?_) (fun i hi => ?_)⟩
      · dsimp only
        rw [key, if_pos (by simp [AllAre])]
      · dsimp only
        rw [key, hi, mul_zero]

example : ∃ R', five.cUniformParityRZ (fun _ => none) (fun _ => none) [] 0b11001 1 = some R' ∧
    ∀ i, R'.joint i = if AllAre true [] i then parityFactor 1 (maskCount five.n 0b11001 i) * five.joint i else five.joint i :=
  cUniformParityRZ_partial five_valid (sound_none _) (sound_none _) (by decide) (by decide) (by decide) (by decide) (by decide)
    (Or.inl (by simp)) 1

example : ∃ R', five.cUniformParityRZ (fun _ => none) (fun _ => none) [3, 1] 0b10000 1 = some R' ∧
    ∀ i, R'.joint i = if AllAre true [3, 1] i then parityFactor 1 (maskCount five.n 0b10000 i) * five.joint i else five.joint i :=
  cUniformParityRZ_partial five_valid (sound_none _) (sound_none _) (by decide) (by decide) (by decide) (by decide) (by decide)
    (Or.inr (Or.inl (by decide))) 1

theorem byParity_congr {m k : ℕ} {p p' : ℕ → Prop} [DecidablePred p] [DecidablePred p'] (hp : ∀ j, p j ↔ p' j) {f f' : Bool → ℂ}
    (hf : f = f') : byParity m k p f = byParity m k p' f' := by
  subst hf
  funext s j
  unfold byParity
  simp only [hp j]

/-- C82. In the other case it is wrong: with qubit 3 as the control, the place of this qubit in its unit is taken for a qubit, and qubit 1
controls the rotation instead. -/
theorem cUniformParityRZ_wrong : ∃ (R : Reg) (cs : List ℕ) (mask : ℕ) (θ : ℝ) (R' : Reg), R.Valid ∧ (∀ c ∈ cs, c < R.n) ∧ cs.Nodup ∧
    mask < 2 ^ R.n ∧ (∀ c ∈ cs, mask.testBit c = false) ∧
    R.cUniformParityRZ (fun _ => none) (fun _ => none) cs mask θ = some R' ∧
    ¬ ∀ i, R'.joint i = if AllAre true cs i then parityFactor θ (maskCount R.n mask i) * R.joint i else R.joint i := by
  have hs : (five.entangleCopy [0, 4]) = ((five.entangle [0, 4]).1, 0) := by
    unfold Reg.entangleCopy
    rw [show ([0, 4] : List ℕ).mergeSort (· ≤ ·) = [0, 4] by simp [List.mergeSort]]
    rfl
  have e1 := entangle_joins five_valid (bits := [0, 4]) (by decide) (by decide)
  have e2 := entangle_joins e1.valid (bits := [3]) (by rw [e1.n]; decide) (by decide)
  have hs3 : ((five.entangle [0, 4]).1.entangle [3]).1.entangleCopy [1, 0] = ((((five.entangle [0, 4]).1.entangle [3]).1.entangle [0, 1]).1, 0) := by
    unfold Reg.entangleCopy
    rw [show ([1, 0] : List ℕ).mergeSort (· ≤ ·) = [0, 1] by simp [List.mergeSort]]
    rfl
  have e3 := entangle_joins e2.valid (bits := [0, 1]) (by rw [e2.n, e1.n]; decide) (by decide)
  generalize hR3 : (((five.entangle [0, 4]).1.entangle [3]).1.entangle [0, 1]).1 = R3 at *
  have hu : ∀ q ∈ [0, 4], R3.unit q = 0 := by rw [← hR3]; decide +kernel
  have hu1 : R3.unit 1 = 0 := by rw [← hR3]; decide +kernel
  have hp : [0, 4].map (five.entangle [0, 4]).1.pos = [0, 4].map R3.pos := by rw [← hR3]; decide +kernel
  have hn : R3.n = 5 := by rw [e3.n, e2.n, e1.n]; rfl
  have hj : R3.joint = five.joint := by rw [e3.joint, e2.joint, e1.joint]
  have hrun : five.cUniformParityRZ (fun _ => none) (fun _ => none) [3] 17 Real.pi =
      some (R3.act 0 (byParity (R3.size 0) (maskOf ([0, 4].map R3.pos)) (AllAre true ([1].map R3.pos)) (rot Real.pi))) := by
    unfold Reg.cUniformParityRZ
    rw [if_neg (by decide), if_neg (by decide), if_neg (by decide)]
    simp only [show (bitsOf five.n 17).filter (fun _ => decide True) = [0, 4] by decide,
      show ([3] : List ℕ).filter (fun _ => decide True) = [3] by decide, hs]
    rw [if_neg (by simp)]
    rw [show ((five.entangle [0, 4]).1.entangle [3]).2.2 = [1] by decide +kernel]
    simp only [List.headD_cons, hs3, hp]
    refine congrArg (fun f => some (R3.act 0 f)) (byParity_congr (fun j => ?_) ?_)
    · rw [show ([3] : List ℕ).filter (fun _ => decide ((none : Option Bool) = none)) = [3] from rfl, hs]
      dsimp only
      rw [show ((five.entangle [0, 4]).1.entangle [3]).2.2 = [1] by decide +kernel, List.headD_cons, hs3]
    · funext odd
      rw [show flipOf (fun _ => none) (bitsOf five.n 17) = false by decide +kernel]
      rfl
  refine ⟨five, [3], 17, Real.pi, _, five_valid, by decide, by decide, by decide, by decide, hrun, fun hall => ?_⟩
  have h8 := hall 8
  rw [if_pos (by decide), rot_eq, five_joint, show maskCount five.n 17 8 % 2 = 0 by decide +kernel,
    act_parity e3.valid (fun q hq => ⟨by rw [hn]; revert q; decide, hu q hq⟩) (by decide) (by decide) (p := AllAre true [1])
      (fun i => allAre_held e3.valid (by simp [hn, hu1]) _ i), if_neg (by decide), hj, five_joint] at h8
  have := congrArg Complex.re h8
  simp [rot] at this
  norm_num at this

/-! ## Measuring parities -/

/-- C82. `ForceMParity` of `QUnit`: the result is the parity of the masked qubits in what is left of the state, whatever the caches know. -/
theorem forceMParity_measures {R : Reg} (h : R.Valid) {known : ℕ → Option Bool} (hk : Sound known R.joint) {mask : ℕ} (hm : mask < 2 ^ R.n)
    (r : Bool) :
    ∃ v R', R.forceMParity known mask r = some (v, R') ∧
      ∀ i, R'.joint i = if decide (maskCount R.n mask i % 2 = 1) = v then R.joint i else 0 := by
  have hlt : ∀ q ∈ (bitsOf R.n mask).filter (known · = none), q < R.n := fun q hq => (mem_bitsOf.1 (List.mem_filter.1 hq).1).1
  have one : ∀ q < R.n, ∀ i, (R.act (R.unit q) fun s j => if j.testBit (R.pos q) = r then s j else 0).joint i =
      if i.testBit q = r then R.joint i else 0 := by
    intro q hq i
    rw [joint_act ⟨q, hq, rfl⟩, held_at h hq, joint_split ⟨q, hq, rfl⟩]
    split_ifs
    · rfl
    · rw [zero_mul]
  have fin : ∀ (R' : Reg) (v : Bool), (∀ i, R.joint i ≠ 0 → R'.joint i = if (flipOf known (bitsOf R.n mask) ^^
      decide ((((bitsOf R.n mask).filter (known · = none)).filter fun q => i.testBit q).length % 2 = 1)) = v then R.joint i else 0) →
      (∀ i, R.joint i = 0 → R'.joint i = 0) → ∀ i, R'.joint i = if decide (maskCount R.n mask i % 2 = 1) = v then R.joint i else 0 := by
    intro R' v h1 h2 i
    by_cases hi : R.joint i = 0
    · rw [h2 i hi, hi, ite_self]
    · rw [h1 i hi, parity_sound hk R.n mask hi]
  have cancel : ∀ f a b : Bool, ((f ^^ a) = (f ^^ b)) = (a = b) := by decide
  unfold Reg.forceMParity
  rw [if_neg (by omega)]
  by_cases h0 : mask = 0
  · rw [if_pos h0]
    refine ⟨_, _, rfl, fun i => ?_⟩
    subst h0
    rw [if_pos]
    simp [maskCount]
  rw [if_neg h0]
  by_cases h1 : (bitsOf R.n mask).length = 1
  · rw [if_pos h1]
    obtain ⟨q, hq⟩ := List.length_eq_one_iff.1 h1
    have hq' : q < R.n := (mem_bitsOf.1 (show q ∈ bitsOf R.n mask by rw [hq]; simp)).1
    refine ⟨_, _, rfl, fun i => ?_⟩
    rw [hq, List.headD_cons, one q hq', maskCount_eq, hq, odd_single]
  · rw [if_neg h1]
    dsimp only
    split
    · rename_i he
      refine ⟨_, _, rfl, fin _ _ (fun i _ => ?_) (fun i hi => hi)⟩
      rw [he]
      simp
    · rename_i q he
      have hq' : q < R.n := hlt q (by rw [he]; simp)
      refine ⟨_, _, rfl, fin _ _ (fun i _ => ?_) (fun i hi => ?_)⟩
      · rw [one q hq', he, odd_single]
        simp only [cancel]
      · rw [one q hq', hi, ite_self]
    · rename_i e hne1 hne2
      generalize he : (bitsOf R.n mask).filter (known · = none) = e at *
      have hne : (e : List ℕ) ≠ [] := by rintro rfl; exact hne1 rfl
      have hnd : e.Nodup := by rw [← he]; exact (nodup_bitsOf R.n mask).filter _
      obtain ⟨R', u, h1, h2, h3, h4, h5⟩ := entangleCopy_keeps h hlt hne
      rw [h1]
      have key : ∀ i, (R'.act u (byParity (R'.size u) (maskOf (e.map R'.pos)) (fun _ => True) fun odd => if odd = r then 1 else 0)).joint i =
          if decide ((e.filter fun q => i.testBit q).length % 2 = 1) = r then R.joint i else 0 := by
        intro i
        rw [act_parity h4 (fun q hq => ⟨by rw [h3]; exact hlt q hq, h5 q hq⟩) hnd hne (p := fun _ => True) (fun _ => Iff.rfl), if_pos trivial, h2]
        split_ifs
        · rw [one_mul]
        · rw [zero_mul]
      refine ⟨_, _, rfl, fin _ _ (fun i _ => ?_) (fun i hi => ?_)⟩
      · dsimp only
        rw [key]
        simp only [cancel]
      · dsimp only
        rw [key, hi, ite_self]

example : ∃ v R', five.forceMParity (fun _ => none) 0b01101 true = some (v, R') ∧
    ∀ i, R'.joint i = if decide (maskCount five.n 0b01101 i % 2 = 1) = v then five.joint i else 0 :=
  forceMParity_measures five_valid (sound_none _) (by decide) _

end Verif.QUE
