import Verif.Lemmas.PhaseMeas
import Mathlib.Tactic.NormNum

/-!
# C52: buffered two-qubit gates do not change what a `QUnit` computes

`state ord u` is the state that unit `u` stands for: its buffered gates applied to its state vector. `Inv` is the invariant
that the gates maintain. The last theorems about gates do not mention the meaning of buffers any more: after any sequence of
gates and a flush, the state vector is what the gates give when they are applied directly.
-/

namespace Verif.Phase

open Verif.Matrix2 Verif.Spec.Circuit

variable {Q : Type} [DecidableEq Q] {ord : List Q}

/-! ### One gate -/

/-- **C52**, phase gates (`Phase`, `S`, `IS`, `Z`, `T`, ...), commuted past the buffers or after flushing them. -/
theorem phase_buffered (ho : Order ord) {u : QUnit Q} (h : Inv u.bufs) (clifford : Bool) {x y : ℂ} (hx : ‖x‖ = 1)
    (hy : ‖y‖ = 1) (t : Q) :
    Inv (gatePhase ord clifford x y t u).bufs ∧
      state ord (gatePhase ord clifford x y t u) = onQubit t ⟨x, 0, 0, y⟩ (state ord u) :=
  does_phase ho h clifford hx hy t

/-- **C52**, inversions (`X`, `Y`, `Invert`). -/
theorem invert_buffered (ho : Order ord) {u : QUnit Q} (h : Inv u.bufs) (clifford : Bool) {x y : ℂ} (hx : ‖x‖ = 1)
    (hy : ‖y‖ = 1) (t : Q) :
    Inv (gateInvert ord clifford x y t u).bufs ∧
      state ord (gateInvert ord clifford x y t u) = onQubit t ⟨0, x, y, 0⟩ (state ord u) :=
  does_invert ho h clifford hx hy t

/-- **C52**, the Hadamard gate: what does not commute is flushed, what does is changed. -/
theorem h_buffered (ho : Order ord) {u : QUnit Q} (h : Inv u.bufs) (clifford : Bool) (t : Q) :
    Inv (gateH ord clifford t u).bufs ∧ state ord (gateH ord clifford t u) = onQubit t hadamard (state ord u) :=
  does_h ho h clifford t

/-- **C52**, any other single-qubit gate. -/
theorem mtrx_buffered (ho : Order ord) {u : QUnit Q} (h : Inv u.bufs) (g : Mtrx) (t : Q) :
    Inv (gateMtrx ord g t u).bufs ∧ state ord (gateMtrx ord g t u) = onQubit t g (state ord u) :=
  does_mtrx ho h g t

/-- **C52**, the phase gate with one control, buffered or not, whatever unit the qubits are in. -/
theorem ucPhase_buffered (ho : Order ord) {u : QUnit Q} (h : Inv u.bufs) (clifford buffered sameUnit : Bool) {c t : Q}
    (hct : c ≠ t) (v : Bool) {x y : ℂ} (hx : ‖x‖ = 1) (hy : ‖y‖ = 1) :
    Inv (ucPhase ord clifford buffered sameUnit c v x y t u).bufs ∧
      state ord (ucPhase ord clifford buffered sameUnit c v x y t u) =
        onWhen (fun s => s c == v) t ⟨x, 0, 0, y⟩ (state ord u) :=
  does_ucPhase ho h clifford buffered sameUnit hct v hx hy

/-- **C52**, the inversion with one control. -/
theorem ucInvert_buffered (ho : Order ord) {u : QUnit Q} (h : Inv u.bufs) (clifford buffered sameUnit : Bool) {c t : Q}
    (hct : c ≠ t) (v : Bool) {x y : ℂ} (hx : ‖x‖ = 1) (hy : ‖y‖ = 1) :
    Inv (ucInvert ord clifford buffered sameUnit c v x y t u).bufs ∧
      state ord (ucInvert ord clifford buffered sameUnit c v x y t u) =
        onWhen (fun s => s c == v) t ⟨0, x, y, 0⟩ (state ord u) :=
  does_ucInvert ho h clifford buffered sameUnit hct v hx hy

/-- **C52**, gates with any number of controls, which only flush the buffers in their way. -/
theorem controlled_buffered (ho : Order ord) {u : QUnit Q} (h : Inv u.bufs) (cs : List (Q × Bool)) (t : Q)
    (isPhase : Bool) (g : Mtrx) (hg : isPhase = true → g.m1 = 0 ∧ g.m2 = 0) :
    Inv (applyEitherControlled ord cs t isPhase g u).bufs ∧
      state ord (applyEitherControlled ord cs t isPhase g u) = onWhen (valuesAre cs) t g (state ord u) :=
  does_controlled ho h cs isPhase g hg

/-- **C52**, flushing, whatever the options. -/
theorem revert_buffered (ho : Order ord) {u : QUnit Q} (h : Inv u.bufs) (i : Q) (excl : Excl) (side : Side) (kind : Kind)
    (e1 e2 : Q → Bool) (skip : Bool) :
    Inv (revertBasis2Qb ord i excl side kind e1 e2 skip u).bufs ∧
      state ord (revertBasis2Qb ord i excl side kind e1 e2 skip u) = state ord u :=
  goodU_revert ho h i excl side kind e1 e2 skip

/-! ### Any sequence of gates -/

/-- A call of the interface, with the choices that depend on parts of the program that are not modelled. -/
inductive Cmd (Q : Type) where
  | phase (clifford : Bool) (x y : ℂ) (t : Q)
  | invert (clifford : Bool) (x y : ℂ) (t : Q)
  | h (clifford : Bool) (t : Q)
  | mtrx (g : Mtrx) (t : Q)
  | ucPhase (clifford buffered sameUnit : Bool) (c : Q) (v : Bool) (x y : ℂ) (t : Q)
  | ucInvert (clifford buffered sameUnit : Bool) (c : Q) (v : Bool) (x y : ℂ) (t : Q)
  | ucMtrx (cs : List (Q × Bool)) (g : Mtrx) (t : Q)
  | prob (qs : List Q)
  | force (v : Bool) (t : Q)

/-- The program. -/
noncomputable def Cmd.run (ord : List Q) : Cmd Q → QUnit Q → QUnit Q
  | .phase cl x y t, u => gatePhase ord cl x y t u
  | .invert cl x y t, u => gateInvert ord cl x y t u
  | .h cl t, u => gateH ord cl t u
  | .mtrx g t, u => gateMtrx ord g t u
  | .ucPhase cl bf su c v x y t, u => Phase.ucPhase ord cl bf su c v x y t u
  | .ucInvert cl bf su c v x y t, u => Phase.ucInvert ord cl bf su c v x y t u
  | .ucMtrx cs g t, u => applyEitherControlled ord cs t false g u
  | .prob qs, u => toPermBasisProb ord qs u
  | .force v t, u => forceM ord v t u

/-- What it should do. -/
noncomputable def Cmd.spec : Cmd Q → St Q → St Q
  | .phase _ x y t => onQubit t ⟨x, 0, 0, y⟩
  | .invert _ x y t => onQubit t ⟨0, x, y, 0⟩
  | .h _ t => onQubit t hadamard
  | .mtrx g t => onQubit t g
  | .ucPhase _ _ _ c v x y t => onWhen (fun s => s c == v) t ⟨x, 0, 0, y⟩
  | .ucInvert _ _ _ c v x y t => onWhen (fun s => s c == v) t ⟨0, x, y, 0⟩
  | .ucMtrx cs g t => onWhen (valuesAre cs) t g
  | .prob _ => id
  | .force v t => fun ψ s => if s t = v then ψ s else 0

/-- Valid arguments: phases have modulus one, and the control is not the target. -/
def Cmd.Valid : Cmd Q → Prop
  | .phase _ x y _ | .invert _ x y _ => ‖x‖ = 1 ∧ ‖y‖ = 1
  | .ucPhase _ _ _ c _ x y t | .ucInvert _ _ _ c _ x y t => c ≠ t ∧ ‖x‖ = 1 ∧ ‖y‖ = 1
  | _ => True

/-- **C52**: the invariant and the meaning along every sequence of calls. -/
theorem history_buffered (ho : Order ord) (cmds : List (Cmd Q)) (hv : ∀ c ∈ cmds, c.Valid) {u : QUnit Q}
    (h : Inv u.bufs) :
    Inv (cmds.foldl (fun u c => c.run ord u) u).bufs ∧
      state ord (cmds.foldl (fun u c => c.run ord u) u) = cmds.foldl (fun ψ c => c.spec ψ) (state ord u) := by
  induction cmds generalizing u with
  | nil => exact ⟨h, rfl⟩
  | cons c cmds ih =>
    have one : Does ord c.spec u (c.run ord u) := by
      have hc := hv c (by simp)
      cases c with
      | phase cl x y t => exact does_phase ho h cl hc.1 hc.2 t
      | invert cl x y t => exact does_invert ho h cl hc.1 hc.2 t
      | h cl t => exact does_h ho h cl t
      | mtrx g t => exact does_mtrx ho h g t
      | ucPhase cl bf su c v x y t => exact does_ucPhase ho h cl bf su hc.1 v hc.2.1 hc.2.2
      | ucInvert cl bf su c v x y t => exact does_ucInvert ho h cl bf su hc.1 v hc.2.1 hc.2.2
      | ucMtrx cs g t => exact does_controlled ho h cs false g (by simp)
      | prob qs => exact (toPermBasisProb_post ho h qs).1
      | force v t => exact does_forceM ho h v t
    obtain ⟨h1, h2⟩ := ih (fun c hc => hv c (by simp [hc])) one.1
    refine ⟨h1, h2.trans ?_⟩
    rw [List.foldl_cons, one.2]

/-- **C52**: start with no buffers, make any calls, flush: the state vector is the one that the calls give when each acts
directly on the state vector. Nothing here depends on what the buffers are taken to mean. -/
theorem flush_buffered (ho : Order ord) (cmds : List (Cmd Q)) (hv : ∀ c ∈ cmds, c.Valid) (ψ : St Q) :
    (toPermBasisAll ord (cmds.foldl (fun u c => c.run ord u) ⟨fun _ => none, ψ⟩)).base =
      cmds.foldl (fun ψ c => c.spec ψ) ψ ∧
    ∀ k, (toPermBasisAll ord (cmds.foldl (fun u c => c.run ord u) ⟨fun _ => none, ψ⟩)).bufs k = none := by
  have h0 : Inv (Q := Q) (fun _ => none) := ⟨by simp, by simp, by simp⟩
  obtain ⟨h1, h2⟩ := history_buffered ho cmds hv (u := ⟨fun _ => none, ψ⟩) h0
  obtain ⟨h3, h4⟩ := toPermBasisAll_post ho h1
  refine ⟨?_, h4⟩
  have e1 := h3.2.trans h2
  unfold state at e1
  simp only [] at e1
  rw [pending_none h4, pending_none (fun _ => rfl)] at e1
  exact e1

/-! ### Reading out -/

/-- **C52**: after what `Prob`, `ProbMask` etc. flush, the state vector gives the probability of every event about the qubits
in question, although other buffers are still pending. -/
theorem prob_buffered [Fintype Q] (ho : Order ord) {u : QUnit Q} (h : Inv u.bufs) (qs : List Q)
    (P : (Q → Bool) → Prop) [DecidablePred P] (hP : ∀ q, q ∉ qs → ∀ s v, P (Function.update s q v) ↔ P s) :
    ∑ s, (if P s then ‖(toPermBasisProb ord qs u).base s‖ ^ 2 else 0) =
      ∑ s, if P s then ‖state ord u s‖ ^ 2 else 0 := by
  obtain ⟨h1, h2⟩ := toPermBasisProb_post ho h qs
  have := prob_pending (ord := ord) (P := P) h1.1 (fun k b e hi s v => hP k.tgt (fun hq => by
    rw [h2 _ hq k b e rfl] at hi; cases hi) s v) (toPermBasisProb ord qs u).base
  have e : pending ord (toPermBasisProb ord qs u).bufs (toPermBasisProb ord qs u).base = state ord u := h1.2
  rw [e] at this
  exact this.symm

/-- **C52**: measuring one qubit with pending buffers projects the state that the unit stands for. -/
theorem forceM_buffered (ho : Order ord) {u : QUnit Q} (h : Inv u.bufs) (v : Bool) (i : Q) :
    Inv (forceM ord v i u).bufs ∧
      state ord (forceM ord v i u) = fun s => if s i = v then state ord u s else 0 :=
  does_forceM ho h v i

/-- **C52**: what `MAll` drops changes no modulus of an amplitude, so no probability; only controlled-NOTs remain. -/
theorem mAll_buffered (ho : Order ord) {m : Bufs Q} (h : Inv m) :
    (∀ ψ s, ‖pending ord (mAllBuffers ord m) ψ s‖ = ‖pending ord m ψ s‖) ∧
    ∀ k b, mAllBuffers ord m k = some b → b = ⟨1, 1, true⟩ :=
  ⟨(sameModuli_mAll ho h).2, fun k _ e => mAll_plain ho m k e⟩

/-- **C52**: when a qubit is known to be in an eigenstate, `Flush0Eigenstate` (`v = false`) and `Flush1Eigenstate` only
drop buffers that do nothing. -/
theorem flushEigenstate_buffered (ho : Order ord) {u : QUnit Q} (h : Inv u.bufs) {i : Q} {v : Bool}
    (he : ∀ s, s i ≠ v → u.base s = 0) :
    Inv (flushEigenstate ord v i u).bufs ∧ state ord (flushEigenstate ord v i u) = state ord u :=
  goodU_flushEigenstate ho h he

/-- **C52** for `CommutePhase` on its own: `m` pending and then a phase gate is the phase gate and then the changed
buffers, one by one, provided that the buffers targeting `t` are all inversions or all phases. `Inv` gives that. -/
theorem commutePhase_buffer (ho : Order ord) {m : Bufs Q} (h : Inv m) {x y : ℂ} (hx : ‖x‖ = 1) (hy : ‖y‖ = 1) (t : Q)
    (k : Key Q) (b : PhaseShard) (hk : m k = some b) :
    ∃ b', commutePhase ord t x y m k = some b' ∧
      ∀ ψ, op k b' (onQubit t ⟨x, 0, 0, y⟩ ψ) = onQubit t ⟨x, 0, 0, y⟩ (op k b ψ) := by
  have hx0 : x ≠ 0 := by intro e; rw [e] at hx; simp at hx
  have hy0 : y ≠ 0 := by intro e; rw [e] at hy; simp at hy
  have hne := h.ne k b hk
  rw [commutePhase_at ho (h.uniform t)]
  by_cases ht : k.tgt = t
  · rw [if_pos ht, hk]
    refine ⟨_, rfl, fun ψ => ?_⟩
    subst ht
    funext s
    unfold op phaseConj
    unfold onWhen onQubit bufMtrx
    have hc : ∀ v, Function.update s k.tgt v k.ctrl = s k.ctrl := fun v => Function.update_of_ne hne _ _
    cases hi : b.inv <;> cases ha : k.anti <;> cases hs : s k.ctrl <;> cases h2 : s k.tgt <;>
      simp [hc, hs, h2, hi, ha] <;> field_simp
  · rw [if_neg ht]
    refine ⟨b, hk, fun ψ => ?_⟩
    have := onWhen_diagonal_op (k := k) (b := b) (p := fun _ => true) (t := t) (x := x) (y := y)
      (fun _ => ⟨fun _ _ => rfl, ht⟩) ψ
    rw [onWhen_true, onWhen_true] at this
    exact this.symm

/-! ### Cases -/

theorem order_bool : Order [false, true] := ⟨by decide, by decide⟩

/-- One buffered controlled-Z, from qubit `false` to qubit `true`. -/
def czBufs : Bufs Bool := fun k => if k = ⟨false, false, true⟩ then some ⟨1, -1, false⟩ else none

theorem inv_cz : Inv czBufs := by
  have e : ∀ k b, czBufs k = some b → k = ⟨false, false, true⟩ ∧ b = ⟨1, -1, false⟩ := by
    intro k b h
    unfold czBufs at h
    split at h
    · rename_i hk; exact ⟨hk, (Option.some.inj h).symm⟩
    · cases h
  refine ⟨fun k b h => ?_, fun k b h => ?_, fun k b h hi => ?_⟩
  · rw [(e k b h).1]; decide
  · rw [(e k b h).2]; simp
  · rw [(e k b h).2] at hi; cases hi

/-- The hypotheses hold for a unit with a pending controlled-Z. -/
example (ψ : St Bool) : state [false, true] (gateH [false, true] false true ⟨czBufs, ψ⟩) =
    onQubit true hadamard (state [false, true] ⟨czBufs, ψ⟩) :=
  (h_buffered order_bool inv_cz false true).2

/-- A circuit that buffers a controlled-Z, turns it into a controlled-NOT by `H`, and takes `Y` and `S` past it. -/
example (ψ : St Bool) :
    (toPermBasisAll [false, true] ([Cmd.h false false, .ucPhase false true false false true 1 (-1) true, .h false true,
      .invert false (-Complex.I) Complex.I true, .phase false 1 Complex.I true, .force true false].foldl
        (fun u c => c.run [false, true] u) ⟨fun _ => none, ψ⟩)).base =
    project false true (onQubit true ⟨1, 0, 0, Complex.I⟩ (onQubit true ⟨0, -Complex.I, Complex.I, 0⟩
      (onQubit true hadamard (onWhen (fun s => s false == true) true ⟨1, 0, 0, -1⟩ (onQubit false hadamard ψ))))) :=
  (flush_buffered order_bool _ (by simp [Cmd.Valid]) ψ).1

/-- The other gates with a pending controlled-Z: a buffered controlled-NOT, and a gate with two controls. -/
example (ψ : St Bool) : state [false, true] (ucInvert [false, true] false true false true true 1 1 false ⟨czBufs, ψ⟩) =
    onWhen (fun s => s true == true) false ⟨0, 1, 1, 0⟩ (state [false, true] ⟨czBufs, ψ⟩) :=
  (ucInvert_buffered order_bool inv_cz false true false (by decide) true (by simp) (by simp)).2

example (ψ : St Bool) :
    state [false, true] (applyEitherControlled [false, true] [(true, false)] false false hadamard ⟨czBufs, ψ⟩) =
    onWhen (valuesAre [(true, false)]) false hadamard (state [false, true] ⟨czBufs, ψ⟩) :=
  (controlled_buffered order_bool inv_cz _ _ _ _ (by simp)).2

/-- The probability that the target of the pending gate is one. -/
example (ψ : St Bool) :
    ∑ s, (if s true = true then ‖(toPermBasisProb [false, true] [true] ⟨czBufs, ψ⟩).base s‖ ^ 2 else 0) =
      ∑ s, if s true = true then ‖state [false, true] ⟨czBufs, ψ⟩ s‖ ^ 2 else 0 :=
  prob_buffered order_bool inv_cz [true] (fun s => s true = true) (by
    intro q hq s v
    have : q = false := by cases q <;> simp_all
    subst this
    simp)

example (ψ : St Bool) : state [false, true] (forceM [false, true] true false ⟨czBufs, ψ⟩) =
    fun s => if s false = true then state [false, true] ⟨czBufs, ψ⟩ s else 0 :=
  (forceM_buffered order_bool inv_cz true false).2

example : state [false, true] (flushEigenstate [false, true] true true ⟨czBufs, fun s => if s true then 1 else 0⟩) =
    state [false, true] ⟨czBufs, fun s => if s true then 1 else 0⟩ :=
  (flushEigenstate_buffered order_bool inv_cz (by simp)).2

/-! ### `CommutePhase` without the invariant -/

/-- A shard that is the target of a phase buffer and, behind it, of an inverting one. -/
noncomputable def mixedBufs : Bufs (Fin 3) := fun k =>
  if k = ⟨false, 0, 2⟩ then some ⟨1, -1, false⟩ else if k = ⟨false, 1, 2⟩ then some ⟨1, 1, true⟩ else none

/-- **C52 needs the invariant**: with mixed buffers, which `QUnit` never makes, `CommutePhase` returns at the phase buffer
and leaves the inverting one as it was, so that it no longer commutes with the gate. -/
theorem commutePhase_mixed : ∃ b', commutePhase [0, 1, 2] 2 1 (-1) mixedBufs ⟨false, 1, 2⟩ = some b' ∧
    ∃ ψ, op ⟨false, 1, 2⟩ b' (onQubit 2 ⟨1, 0, 0, -1⟩ ψ) ≠ onQubit 2 ⟨1, 0, 0, -1⟩ (op ⟨false, 1, 2⟩ ⟨1, 1, true⟩ ψ) := by
  refine ⟨⟨1, 1, true⟩, ?_, fun _ => 1, ?_⟩
  · simp [commutePhase, commutePhaseLoop, mixedBufs]
  · intro h
    have := congrFun h fun _ => true
    simp [op, onWhen, onQubit, bufMtrx] at this
    norm_num at this

/-! ### `ForceM` without applying -/

/-- **C52 fails for `doApply = false`**: `ForceM(q, r, false, false)` is to leave the state alone, but
`ToPermBasisMeasure` turns a pending controlled-Z from `q` around and then drops it. -/
theorem toPermBasisMeasure_loses : ∃ (u : QUnit Bool), Inv u.bufs ∧
    state [false, true] (toPermBasisMeasure [false, true] false u) ≠ state [false, true] u ∧
    ∀ z : ℂ, state [false, true] (toPermBasisMeasure [false, true] false u) ≠ fun s => z * state [false, true] u s := by
  have hstate : ∀ s, state [false, true] ⟨czBufs, fun _ => 1⟩ s = if s false && s true then -1 else 1 := by
    intro s
    have : state [false, true] ⟨czBufs, fun _ => 1⟩ = op ⟨false, false, true⟩ ⟨1, -1, false⟩ (fun _ => 1) := by
      simp [state, pending, keys, czBufs, opO]
    rw [this, op_phase rfl]
    cases h1 : s false <;> cases h2 : s true <;> simp [coef, h1, h2]
  have hafter : state [false, true] (toPermBasisMeasure [false, true] false ⟨czBufs, fun _ => 1⟩) = fun _ => 1 := by
    have c : combineGates [false, true] false czBufs = czBufs := by
      simp [combineGates, combineBuffers, czBufs]
    have r1 : revertBasis2Qb [false, true] false .onlyInvert .both .both noOne noOne false ⟨czBufs, fun _ => 1⟩ =
        ⟨czBufs, fun _ => 1⟩ := by
      unfold revertBasis2Qb
      rw [revertOptimize_none (Or.inr (Or.inr rfl)), c]
      simp [applyBufferMap, czBufs]
    have o1 : optimizeControls [false, true] false false czBufs =
        addAngles (remove czBufs ⟨false, false, true⟩) ⟨false, true, false⟩ 1 (-1) := by
      simp [optimizeControls, czBufs]
    have g : remove czBufs ⟨false, false, true⟩ = fun _ => none := by
      funext k
      unfold remove
      by_cases hk : k = ⟨false, false, true⟩
      · rw [hk, Function.update_self]
      · rw [Function.update_of_ne hk]; simp [czBufs, hk]
    have o2 : addAngles (fun _ : Key Bool => none) ⟨false, true, false⟩ 1 (-1) =
        Function.update (fun _ => none) ⟨false, true, false⟩ (some ⟨1, -1, false⟩) := by
      have hn : ¬ ((-1 : ℂ) = 1) := by norm_num
      rw [addAngles_eq _ _ (by simp [get, PhaseShard.fresh]) (by simp [get, PhaseShard.fresh])]
      simp [get, PhaseShard.fresh, keep, PhaseShard.IsId, hn]
    have r2 : revertBasis2Qb [false, true] false .onlyPhase .onlyControls .both noOne noOne false ⟨czBufs, fun _ => 1⟩ =
        ⟨Function.update (fun _ => none) ⟨false, true, false⟩ (some ⟨1, -1, false⟩), fun _ => 1⟩ := by
      have e : revertOptimize [false, true] false .onlyPhase .onlyControls .both false czBufs =
          Function.update (fun _ => none) ⟨false, true, false⟩ (some ⟨1, -1, false⟩) := by
        unfold revertOptimize
        simp only [and_self, ne_eq, reduceCtorEq, not_false_eq_true, if_true]
        rw [o1, g, o2]
        simp [optimizeControls]
      unfold revertBasis2Qb
      rw [c, e]
      simp [applyBufferMap]
    unfold toPermBasisMeasure
    simp only []
    rw [r1, r2]
    have d : dumpMultiBit [false, true] false
        (Function.update (fun _ => none) (⟨false, true, false⟩ : Key Bool) (some ⟨1, -1, false⟩)) = fun _ => none := by
      funext k
      rcases k with ⟨a, c, t⟩
      cases a <;> cases c <;> cases t <;> simp [dumpMultiBit, remove]
    simp only [d]
    exact pending_none (fun _ => rfl) _
  refine ⟨⟨czBufs, fun _ => 1⟩, inv_cz, ?_, ?_⟩
  · intro h
    have := congrFun h fun _ => true
    rw [hafter, hstate] at this
    norm_num at this
  · intro z h
    have h1 := congrFun h fun _ => true
    have h2 := congrFun h fun _ => false
    rw [hafter] at h1 h2
    simp only [hstate] at h1 h2
    simp only [Bool.and_self, if_true, Bool.false_eq_true, if_false, mul_one] at h1 h2
    rw [← h2] at h1
    norm_num at h1

end Verif.Phase
