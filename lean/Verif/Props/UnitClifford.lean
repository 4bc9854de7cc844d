import Verif.Lemmas.UnitCliffordMeas

/-!
# C71: `QUnitClifford` is a stabilizer register kept in parts

A register stands for a state (`Rep`, in `Verif.Spec.Shards`) if the state is the product of states of its units. `SetPermutation` makes
such a register; the gates, exchanges, merging, separating and ordering of units, and measurement take a register that stands for a state
to one that stands for the state they should make, and `Prob` is the Born probability. The controlled gates do so unless the control
certainly has the active value: then `CGate` passes the number of the qubit where the place in the unit is meant.
-/

namespace Verif.Units

open Verif.Stab Verif.Pauli
open Complex (I)

variable {n : ℕ}

/-- `SetPermutation` makes the basis state. -/
theorem setPerm_spec (n perm : ℕ) : Rep (setPerm n perm) (ket fun i : Fin n => perm.testBit i.val) := by
  refine ⟨⟨fun i j h _ => Fin.ext h, fun _ => Nat.zero_lt_one, fun i p hp => ⟨i, rfl, ?_⟩, fun i => i.isLt⟩, 1,
    fun u b => ket (fun _ : Fin 1 => perm.testBit u) fun p => b p.val, one_ne_zero, fun i => ⟨_, one_holds _, fun _ => rfl⟩, fun b => ?_⟩
  · have : p < 1 := hp
    show 0 = p
    omega
  · have hu : used (setPerm n perm) = Finset.univ.image fun i : Fin n => i.val := rfl
    rw [one_mul, hu, Finset.prod_image (fun i _ j _ h => Fin.ext h)]
    have hs : ∀ (i : Fin n), sub (setPerm n perm) b i.val 0 = b i := by
      intro i
      unfold sub
      rw [Bool.eq_iff_iff, decide_eq_true_iff]
      constructor
      · rintro ⟨j, hj, -, hb⟩
        rwa [show j = i from Fin.ext hj] at hb
      · exact fun hb => ⟨i, rfl, rfl, hb⟩
    have hf : ∀ i : Fin n, ket (fun _ : Fin 1 => perm.testBit i.val) (fun p : Fin 1 => sub (setPerm n perm) b i.val p.val) =
        if b i = perm.testBit i.val then 1 else 0 := by
      intro i
      unfold ket
      refine if_congr ⟨fun he => ?_, fun he => ?_⟩ rfl rfl
      · rw [← hs i]; exact congrFun he 0
      · funext p
        have : p.val = 0 := by omega
        rw [this, hs i, he]
    rw [Finset.prod_congr rfl fun i _ => hf i]
    unfold ket
    by_cases hb : b = fun i => perm.testBit i.val
    · rw [if_pos hb]
      exact (Finset.prod_eq_one fun i _ => if_pos (congrFun hb i)).symm
    · rw [if_neg hb]
      obtain ⟨i, hi⟩ : ∃ i, b i ≠ perm.testBit i.val := by
        by_contra hn
        push Not at hn
        exact hb (funext hn)
      exact (Finset.prod_eq_zero (Finset.mem_univ i) (if_neg hi)).symm

/-- The control, the target and the active value of a controlled gate. -/
def _root_.Verif.Stab.Gate.control : Gate → Option (ℕ × ℕ × Bool)
  | .cnot c t | .cy c t | .cz c t => some (c, t, true)
  | .antiCnot c t | .antiCy c t | .antiCz c t => some (c, t, false)
  | _ => none

/-- Every gate takes the register to the state it should make, up to a factor. Missing: a controlled gate whose control certainly has
the active value, unless the target happens to be at its own number in its unit. -/
theorem run_partial {Q : QUC n} {Ψ : State n} (h : Rep Q Ψ) {g : Gate} (hg : g.Valid n)
    (hsafe : ∀ c t v, g.control = some (c, t, v) → ∀ (hc : c < n) (ht : t < n),
      Q.mapped ⟨t, ht⟩ = t ∨ ∃ f : Bits n, f ⟨c, hc⟩ = (!v) ∧ Ψ f ≠ 0) :
    ∃ Q', Q.run g = some Q' ∧ Rep Q' (g.U n Ψ) := by
  have one : ∀ (t : ℕ) (ht : t < n) (g : ℕ → Gate), (g = .h ∨ g = .x ∨ g = .y ∨ g = .z ∨ g = .s ∨ g = .is) →
      ∃ Q', Q.gate1 g t = some Q' ∧ Rep Q' ((g t).U n Ψ) := by
    intro t ht g hg
    obtain ⟨Q', e, h', -⟩ := gate1_rep h ⟨t, ht⟩ hg
    exact ⟨Q', e, h'⟩
  have hne : ∀ {c t : ℕ} (hc : c < n) (ht : t < n), c ≠ t → (⟨c, hc⟩ : Fin n) ≠ ⟨t, ht⟩ := fun _ _ h he => h (Fin.mk.inj he)
  cases g with
  | cnot c t =>
    obtain ⟨hc, ht, hct⟩ := hg
    have := cnot_rep h ⟨c, hc⟩ ⟨t, ht⟩ (hne hc ht hct) false (hsafe c t true rfl hc ht)
    simpa [QUC.run, Gate.U, hc, ht] using this
  | antiCnot c t =>
    obtain ⟨hc, ht, hct⟩ := hg
    have := cnot_rep h ⟨c, hc⟩ ⟨t, ht⟩ (hne hc ht hct) true (hsafe c t false rfl hc ht)
    simpa [QUC.run, Gate.U, hc, ht] using this
  | cy c t =>
    obtain ⟨hc, ht, hct⟩ := hg
    exact cGate_rep h ⟨c, hc⟩ ⟨t, ht⟩ (hne hc ht hct) (g := .cy) (g1 := .y) (isAnti := false) (by simp) (by simp)
      ⟨0, -I, I, 0, by simp [Gate.U, yGate, hc, ht], by simp [Gate.U, yGate, ht]⟩ (hsafe c t true rfl hc ht)
  | antiCy c t =>
    obtain ⟨hc, ht, hct⟩ := hg
    exact cGate_rep h ⟨c, hc⟩ ⟨t, ht⟩ (hne hc ht hct) (g := .antiCy) (g1 := .y) (isAnti := true) (by simp) (by simp)
      ⟨0, -I, I, 0, by simp [Gate.U, yGate, hc, ht], by simp [Gate.U, yGate, ht]⟩ (hsafe c t false rfl hc ht)
  | cz c t =>
    obtain ⟨hc, ht, hct⟩ := hg
    have := cz_rep h ⟨c, hc⟩ ⟨t, ht⟩ (hne hc ht hct) false (hsafe c t true rfl hc ht)
    simpa [QUC.run, Gate.U, hc, ht] using this
  | antiCz c t =>
    obtain ⟨hc, ht, hct⟩ := hg
    have := cz_rep h ⟨c, hc⟩ ⟨t, ht⟩ (hne hc ht hct) true (hsafe c t false rfl hc ht)
    simpa [QUC.run, Gate.U, hc, ht] using this
  | swap c t =>
    obtain ⟨hc, ht, hct⟩ := hg
    have := swap_rep h ⟨c, hc⟩ ⟨t, ht⟩
    simpa [QUC.run, Gate.U, hc, ht] using this
  | iswap c t =>
    obtain ⟨hc, ht, hct⟩ := hg
    have := swapGate_rep h ⟨c, hc⟩ ⟨t, ht⟩ (hne hc ht hct) (g := .iswap) Complex.I_ne_zero (by simp)
    simpa [QUC.run, Gate.U, hc, ht] using this
  | iiswap c t =>
    obtain ⟨hc, ht, hct⟩ := hg
    have := swapGate_rep h ⟨c, hc⟩ ⟨t, ht⟩ (hne hc ht hct) (g := .iiswap) (neg_ne_zero.2 Complex.I_ne_zero) (by simp)
    simpa [QUC.run, Gate.U, hc, ht] using this
  | h t => exact one t hg .h (by simp)
  | x t => exact one t hg .x (by simp)
  | y t => exact one t hg .y (by simp)
  | z t => exact one t hg .z (by simp)
  | s t => exact one t hg .s (by simp)
  | is t => exact one t hg .is (by simp)

/-- A circuit in which, on the state reached, no control certainly has the active value. -/
def Open (n : ℕ) : List Gate → State n → Prop
  | [], _ => True
  | g :: l, Ψ => (∀ c t v, g.control = some (c, t, v) → ∀ hc : c < n, ∃ f : Bits n, f ⟨c, hc⟩ = (!v) ∧ Ψ f ≠ 0) ∧ Open n l (g.U n Ψ)

/-- Such circuits act as the product of their gates. Missing: the other circuits. -/
theorem circuit_partial : ∀ (l : List Gate) {Q : QUC n} {Ψ : State n}, Rep Q Ψ → (∀ g ∈ l, g.Valid n) → Open n l Ψ →
    ∃ Q', l.foldlM QUC.run Q = some Q' ∧ Rep Q' (l.foldl (fun Ψ g => g.U n Ψ) Ψ) := by
  intro l
  induction l with
  | nil => exact fun h _ _ => ⟨_, rfl, h⟩
  | cons g l ih =>
    intro Q Ψ h hv ho
    obtain ⟨Q1, e1, h1⟩ := run_partial h (hv g (by simp)) (fun c t v hc hcn _ => Or.inr (ho.1 c t v hc hcn))
    obtain ⟨Q2, e2, h2⟩ := ih h1 (fun g hg => hv g (by simp [hg])) ho.2
    exact ⟨Q2, by rw [List.foldlM_cons, e1]; exact e2, h2⟩

/-- `Prob` is the Born probability (in halves), and leaves the state. -/
theorem prob_spec {Q : QUC n} {Ψ : State n} (h : Rep Q Ψ) (t : Fin n) : ∃ k Q', Q.prob t = some (k, Q') ∧ Rep Q' Ψ ∧
    2 * weight t true Ψ = k * norm2 Ψ := by
  obtain ⟨k, Q', e, h', -, -, hk⟩ := prob_rep h t
  refine ⟨k, Q', e, h', ?_⟩
  have hsum : norm2 Ψ = weight t true Ψ + weight t false Ψ := by
    unfold norm2 weight
    rw [← Finset.sum_add_distrib]
    refine Finset.sum_congr rfl fun f _ => ?_
    unfold proj
    cases hf : f t <;> simp
  have hz : ∀ v, (∀ f, f t = v → Ψ f = 0) → weight t v Ψ = 0 := by
    intro v hv
    unfold weight
    refine Finset.sum_eq_zero fun f _ => ?_
    unfold proj
    split_ifs with hf
    · rw [hv f hf, Complex.normSq_zero]
    · exact Complex.normSq_zero
  rcases hk with ⟨rfl, h0⟩ | ⟨rfl, h0⟩ | ⟨rfl, hd⟩
  · rw [hz true h0]; simp
  · rw [hsum, hz false h0]; push_cast; ring
  · obtain ⟨c, ψ, -, hψ, hΨ⟩ := rep_states h
    have hu := hψ _ (mem_used (Q := Q) t)
    have hm := h.1.lt t
    obtain ⟨b, hb⟩ := sepZ_some (Q.heap (Q.unit t)).tab hm
    have hbf : b = false := by
      cases b
      · rfl
      · obtain ⟨v, hv⟩ := (sepZ_iff hu hm hb).1 rfl
        refine absurd ⟨v, fun f hf => ?_⟩ hd
        rw [hΨ, ← Finset.mul_prod_erase _ _ (mem_used (Q := Q) t), hv _ (by rw [subF_at h.1 f t hm]; exact hf)]
        ring
    subst hbf
    have hw := (measure_random hu.1 hm hb hu.2.1 true true true).1
    rw [hsum, weight_rep h.1 hΨ t true, weight_rep h.1 hΨ t false, hw]
    push_cast
    ring

/-- `EntangleInCurrentBasis` puts the qubits into one unit and leaves the state. -/
theorem entangle_spec {Q : QUC n} {Ψ : State n} (h : Rep Q Ψ) (a : Fin n) (bits : List (Fin n)) :
    ∃ Q', Q.entangle (a :: bits) = some Q' ∧ Rep Q' Ψ ∧ ∀ i ∈ a :: bits, Q'.unit i = Q'.unit a := by
  obtain ⟨Q', e, h', hu⟩ := entangle_rep h a bits
  exact ⟨Q', e, h', fun i hi => by rw [hu i hi, hu a (by simp)]⟩

/-- `TrySeparate` leaves the state; where it says so, the qubit has a unit of its own. -/
theorem trySeparate_spec {Q : QUC n} {Ψ : State n} (h : Rep Q Ψ) (q : Fin n) :
    ∃ b Q', Q.trySeparate q = some (b, Q') ∧ Rep Q' Ψ ∧ (b = true → (Q'.heap (Q'.unit q)).size = 1 ∧ ∀ i, i ≠ q → Q'.unit i ≠ Q'.unit q) := by
  obtain ⟨⟨b, Q'⟩, e, h'⟩ := trySeparate_rep h q
  dsimp only at h'
  refine ⟨b, Q', e, h', fun hb => ?_⟩
  have hone : (Q'.heap (Q'.unit q)).size = 1 := by
    subst hb
    unfold QUC.trySeparate at e
    by_cases hs : (Q.heap (Q.unit q)).size ≤ 1
    · rw [if_pos hs, Option.some.injEq, Prod.mk.injEq] at e
      rw [← e.2]
      have := h.1.lt q
      omega
    · rw [if_neg hs, Option.bind_eq_some_iff] at e
      obtain ⟨⟨b, G⟩, e1, e2⟩ := e
      dsimp only at e2
      cases b
      · rw [if_neg (by simp), Option.some.injEq, Prod.mk.injEq] at e2
        exact absurd e2.1 (by simp)
      · rw [if_pos rfl] at e2
        obtain ⟨o1, o2, e3, -, hs2, -⟩ := split_of_cut h q hs e1
        rw [e3, Option.map_some, Option.some.injEq, Prod.mk.injEq] at e2
        rw [← e2.2]
        show (Function.update (Function.update Q.heap (Q.unit q) o1) Q.fresh o2 (Function.update Q.unit q Q.fresh q)).size = 1
        rw [Function.update_self, Function.update_self, hs2]
  refine ⟨hone, fun i hi hu => hi (h'.1.inj i q hu ?_)⟩
  have h1 := h'.1.lt i
  have h2 := h'.1.lt q
  rw [hu] at h1
  omega

/-- `ForceM` with `doApply`: a possible outcome (the forced one; the drawn one for a qubit without definite value), and the state that is
left. -/
theorem forceM_spec {Q : QUC n} {Ψ : State n} (h : Rep Q Ψ) (t : Fin n) (res doForce rnd : Bool)
    (hf : doForce = true → ∃ f, f t = res ∧ Ψ f ≠ 0) :
    ∃ v Q', Q.forceM t res doForce true rnd = some (v, Q') ∧ (doForce = true → v = res) ∧ (∃ f, f t = v ∧ Ψ f ≠ 0) ∧
      (doForce = false → ¬ Definite t Ψ → v = rnd) ∧ Rep Q' (proj t v Ψ) := forceM_rep h t res doForce rnd hf

/-- `ForceM` of an impossible result throws. -/
theorem forceM_throws {Q : QUC n} {Ψ : State n} (h : Rep Q Ψ) (t : Fin n) (res rnd : Bool) (hz : ∀ f, f t = res → Ψ f = 0) :
    Q.forceM t res true true rnd = none := forceM_impossible h t res rnd hz

/-- `ForceM` without `doApply` leaves the state. -/
theorem forceM_look {Q : QUC n} {Ψ : State n} (h : Rep Q Ψ) (t : Fin n) (res doForce rnd : Bool) {v : Bool} {Q' : QUC n}
    (e : Q.forceM t res doForce false rnd = some (v, Q')) : Rep Q' Ψ := (look_rep h t res doForce rnd e).1

/-! ### Where `CGate` fails -/

/-- `X(0)`, then `CNOT(0, 1)`, on two qubits in units of their own: the gate is called with place 1 on a unit of one qubit, which
throws. -/
theorem cgate_throws : ∃ Q1, (setPerm 2 0).run (.x 0) = some Q1 ∧ Rep Q1 (xGate 0 (ket fun i : Fin 2 => (0 : ℕ).testBit i.val)) ∧
    (Gate.cnot 0 1).Valid 2 ∧ Q1.run (.cnot 0 1) = none := by
  obtain ⟨Q1, e, h⟩ := run_partial (setPerm_spec 2 0) (g := .x 0) (by decide) (by intro c t v h; simp [Gate.control] at h)
  refine ⟨Q1, e, by simpa [Gate.U] using h, by decide, ?_⟩
  have key : (((setPerm 2 0).run (.x 0)).bind fun Q => Q.run (.cnot 0 1)).isNone = true := by decide +kernel
  rw [e, Option.bind_some, Option.isNone_iff_eq_none] at key
  exact key

/-- The gates of `cgate_wrong_qubit`. -/
def ghz : List Gate := [.h 1, .cnot 1 2, .cnot 2 3, .x 0]

theorem h_supp {t : Fin n} {ψ : State n} {P : Bits n → Bool} (h : ∀ f, P f = false → ψ f = 0) :
    ∀ f, (P (Function.update f t false) || P (Function.update f t true)) = false → hGate t ψ f = 0 := by
  intro f hf
  rw [Bool.or_eq_false_iff] at hf
  unfold hGate gate1
  rw [h _ hf.1, h _ hf.2]
  simp

theorem x_supp {t : Fin n} {ψ : State n} {P : Bits n → Bool} (h : ∀ f, P f = false → ψ f = 0) :
    ∀ f, P (Function.update f t (!f t)) = false → xGate t ψ f = 0 := by
  intro f hf
  unfold xGate gate1
  cases hft : f t
  · rw [hft] at hf; simp only [Bool.not_false] at hf; rw [h _ hf]; simp
  · rw [hft] at hf; simp only [Bool.not_true] at hf; rw [h _ hf]; simp

theorem cx_supp {c t : Fin n} {ψ : State n} {P : Bits n → Bool} (h : ∀ f, P f = false → ψ f = 0) :
    ∀ f, P (if f c = true then Function.update f t (!f t) else f) = false → ctrl true c (xGate t) ψ f = 0 := by
  intro f hf
  unfold ctrl
  split_ifs with hc
  · rw [if_pos hc] at hf; exact x_supp h f hf
  · rw [if_neg hc] at hf; exact h f hf

/-- After the gates and `CNOT(0, 1)` qubit 1 must differ from qubit 3. -/
theorem ghz_supp : ∀ f : Bits 4, f 1 = f 3 →
    (Gate.cnot 0 1).U 4 (ghz.foldl (fun Ψ g => g.U 4 Ψ) (ket fun i : Fin 4 => (0 : ℕ).testBit i.val)) f = 0 := by
  have h0 : ∀ f : Bits 4, (!f 0 && !f 1 && !f 2 && !f 3) = false → ket (fun i : Fin 4 => (0 : ℕ).testBit i.val) f = 0 := by
    intro f hf
    unfold ket
    rw [if_neg]
    rintro rfl
    simp at hf
  have h5 := cx_supp (c := 0) (t := 1) (x_supp (t := 0) (cx_supp (c := 2) (t := 3) (cx_supp (c := 1) (t := 2) (h_supp (t := 1) h0))))
  intro f hf
  have e : (Gate.cnot 0 1).U 4 (ghz.foldl (fun Ψ g => g.U 4 Ψ) (ket fun i : Fin 4 => (0 : ℕ).testBit i.val)) =
      ctrl true 0 (xGate 1) (xGate 0 (ctrl true 2 (xGate 3) (ctrl true 1 (xGate 2) (hGate 1 (ket fun i : Fin 4 => (0 : ℕ).testBit i.val))))) := by
    simp [ghz, Gate.U]
  rw [e]
  refine h5 f ?_
  revert f
  decide +kernel

theorem ghz_runs : ∃ Q, ghz.foldlM QUC.run (setPerm 4 0) = some Q ∧
    Rep Q (ghz.foldl (fun Ψ g => g.U 4 Ψ) (ket fun i : Fin 4 => (0 : ℕ).testBit i.val)) := by
  refine circuit_partial ghz (setPerm_spec 4 0) (by decide) ?_
  have hk : ket (fun i : Fin 4 => (0 : ℕ).testBit i.val) (fun _ => false) = 1 := by
    unfold ket; rw [if_pos]; funext i; simp
  have hk' : ∀ f : Bits 4, f 1 = true → ket (fun i : Fin 4 => (0 : ℕ).testBit i.val) f = 0 := by
    intro f hf; unfold ket; rw [if_neg]; rintro rfl; simp at hf
  have e1 : hGate 1 (ket fun i : Fin 4 => (0 : ℕ).testBit i.val) (fun _ => false) ≠ 0 := by
    unfold hGate gate1
    rw [hk' (Function.update _ 1 true) (by simp)]
    have : Function.update (fun _ : Fin 4 => false) 1 false = fun _ => false := by funext i; simp [Function.update_apply]
    rw [this, hk]
    simpa using rt_ne
  refine ⟨by simp [Gate.control], ⟨?_, ⟨?_, ⟨by simp [Gate.control], trivial⟩⟩⟩⟩
  · intro c t v hc hcn
    simp only [Gate.control, Option.some.injEq, Prod.mk.injEq] at hc
    obtain ⟨rfl, rfl, rfl⟩ := hc
    exact ⟨fun _ => false, rfl, by simpa [Gate.U] using e1⟩
  · intro c t v hc hcn
    simp only [Gate.control, Option.some.injEq, Prod.mk.injEq] at hc
    obtain ⟨rfl, rfl, rfl⟩ := hc
    refine ⟨fun _ => false, rfl, ?_⟩
    have : (Gate.cnot 1 2).U 4 ((Gate.h 1).U 4 (ket fun i : Fin 4 => (0 : ℕ).testBit i.val)) (fun _ => false) =
        hGate 1 (ket fun i : Fin 4 => (0 : ℕ).testBit i.val) (fun _ => false) := by
      simp [Gate.U, ctrl]
    rw [this]
    exact e1

/-- Qubits 1, 2 and 3 share a unit, in places 0, 1 and 2, and qubit 0 is 1. `CNOT(0, 1)` flips qubit 2 instead of qubit 1: the register
no longer stands for the state that the gate should make (forcing qubit 3 to 0 leaves qubit 1 at 0). -/
theorem cgate_wrong_qubit : ∃ (Q Q' : QUC 4) (Ψ : State 4), ghz.foldlM QUC.run (setPerm 4 0) = some Q ∧ Rep Q Ψ ∧
    Q.run (.cnot 0 1) = some Q' ∧ ¬ Rep Q' ((Gate.cnot 0 1).U 4 Ψ) := by
  obtain ⟨Q, e, h⟩ := ghz_runs
  have key : ((ghz.foldlM QUC.run (setPerm 4 0)).bind fun Q => (Q.run (.cnot 0 1)).bind fun Q =>
      (Q.forceM 3 false true true false).bind fun s => (s.2.prob 1).map Prod.fst) = some 0 := by decide +kernel
  rw [e, Option.bind_some, Option.bind_eq_some_iff] at key
  obtain ⟨Q', e', key⟩ := key
  refine ⟨Q, Q', _, e, h, e', fun h' => ?_⟩
  rw [Option.bind_eq_some_iff] at key
  obtain ⟨⟨v, Q2⟩, e2, key⟩ := key
  dsimp only at key
  have hposs : ∃ f : Bits 4, f 3 = false ∧
      (Gate.cnot 0 1).U 4 (ghz.foldl (fun Ψ g => g.U 4 Ψ) (ket fun i : Fin 4 => (0 : ℕ).testBit i.val)) f ≠ 0 := by
    by_contra hn
    push Not at hn
    have := forceM_throws h' 3 false false hn
    rw [show ((3 : Fin 4) : ℕ) = 3 from rfl, e2] at this
    exact absurd this (by simp)
  obtain ⟨v', Q3, e3, hv, -, -, h3⟩ := forceM_spec h' 3 false true false (fun _ => hposs)
  obtain rfl := hv rfl
  rw [show ((3 : Fin 4) : ℕ) = 3 from rfl, e2, Option.some.injEq, Prod.mk.injEq] at e3
  rw [← e3.2] at h3
  obtain ⟨k, Q4, e4, -, -, -, hk⟩ := prob_rep h3 1
  rw [show ((1 : Fin 4) : ℕ) = 1 from rfl] at e4
  rw [e4, Option.map_some, Option.some.injEq] at key
  dsimp only at key
  subst key
  refine rep_ne h3 (funext fun f => ?_)
  show proj 3 false _ f = 0
  rcases hk with ⟨-, hz⟩ | ⟨hk, -⟩ | ⟨hk, -⟩
  · cases hf : f 1
    · unfold proj
      split_ifs with h3'
      · exact ghz_supp f (by rw [hf, h3'])
      · rfl
    · exact hz f hf
  · omega
  · omega

/-! ### Examples -/

/-- A Bell pair: one unit of two qubits, in which each has probability one half; after forcing one, both are separate and 1. -/
example : (([.h 0, .cnot 0 1].foldlM QUC.run (setPerm 2 0)).bind fun Q =>
      (Q.prob 1).map fun s => [s.1, (Q.heap (Q.unit 0)).size, if Q.unit 0 = Q.unit 1 then 1 else 0]) = some [1, 2, 1] ∧
    (([.h 0, .cnot 0 1].foldlM QUC.run (setPerm 2 0)).bind fun Q => (Q.forceM 0 true true true false).bind fun s =>
      (s.2.prob 1).map fun p => [p.1, (s.2.heap (s.2.unit 0)).size, if s.2.unit 0 = s.2.unit 1 then 1 else 0]) = some [2, 1, 0] := by
  constructor <;> decide +kernel

/-- The hypotheses of `run_partial` are met by the second gate. -/
example : ∃ Q Q', (setPerm 2 0).run (.h 0) = some Q ∧ Q.run (.cnot 0 1) = some Q' ∧
    Rep Q' (ctrl true 0 (xGate 1) (hGate 0 (ket fun i : Fin 2 => (0 : ℕ).testBit i.val))) := by
  obtain ⟨Q, e, h⟩ := run_partial (setPerm_spec 2 0) (g := .h 0) (by decide) (by intro c t v h; simp [Gate.control] at h)
  have hk : ket (fun i : Fin 2 => (0 : ℕ).testBit i.val) (fun _ => false) = 1 := by
    unfold ket; rw [if_pos]; funext i; simp
  have hk' : ∀ f : Bits 2, f 0 = true → ket (fun i : Fin 2 => (0 : ℕ).testBit i.val) f = 0 := by
    intro f hf; unfold ket; rw [if_neg]; rintro rfl; simp at hf
  obtain ⟨Q', e', h'⟩ := run_partial h (g := .cnot 0 1) (by decide) (by
    intro c t v hc hcn ht
    simp only [Gate.control, Option.some.injEq, Prod.mk.injEq] at hc
    obtain ⟨rfl, rfl, rfl⟩ := hc
    refine Or.inr ⟨fun _ => false, rfl, ?_⟩
    have e1 : (Gate.h 0).U 2 (ket fun i : Fin 2 => (0 : ℕ).testBit i.val) (fun _ => false) =
        hGate 0 (ket fun i : Fin 2 => (0 : ℕ).testBit i.val) (fun _ => false) := by simp [Gate.U]
    rw [e1]
    unfold hGate gate1
    rw [hk' (Function.update _ 0 true) (by simp)]
    have : Function.update (fun _ : Fin 2 => false) 0 false = fun _ => false := by funext i; simp [Function.update_apply]
    rw [this, hk]
    simpa using rt_ne)
  exact ⟨Q, Q', e, e', by simpa [Gate.U] using h'⟩

end Verif.Units
