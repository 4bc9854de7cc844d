import Verif.Lemmas.DefaultsExec
import Verif.Props.OclGate
import Verif.Props.Bdt

/-!
# C63: the default bodies of `QInterface`

A simulator type must implement `Mtrx` and `MCMtrx` only. If those two act as their matrices, every gate that
`QInterface` builds out of them acts as its documented operator: anti-controlled gates, gates on a control permutation,
uniformly controlled gates, mask gates, exchanges and their roots, with and without controls.

The statements hold for every simulator type that is `Lawful`; the CPU engine, the OpenCL engine and the decision diagram are shown to be.
-/

namespace Verif.Defaults

open Verif.Engine Verif.Spec Verif.Bits Complex Classical

/-- Equal on `n` qubits, up to a phase of modulus one if the global phase is random. -/
def UpTo (n : ℕ) (r : Bool) (φ ψ : ℕ → ℂ) : Prop := ∃ w : ℂ, ‖w‖ = 1 ∧ (r = false → w = 1) ∧ ∀ i < 2 ^ n, w * φ i = ψ i

theorem UpTo.of_eq {n : ℕ} {r : Bool} {φ ψ : ℕ → ℂ} (h : ∀ i < 2 ^ n, φ i = ψ i) : UpTo n r φ ψ :=
  ⟨1, by simp, fun _ => rfl, fun i hi => by rw [one_mul, h i hi]⟩

theorem UpTo.trans {n : ℕ} {r : Bool} {φ ψ χ : ℕ → ℂ} (h : UpTo n r φ ψ) (k : UpTo n r ψ χ) : UpTo n r φ χ := by
  obtain ⟨w, w1, w2, w3⟩ := h
  obtain ⟨z, z1, z2, z3⟩ := k
  refine ⟨z * w, by rw [norm_mul, w1, z1, one_mul], fun hr => by rw [w2 hr, z2 hr, one_mul], fun i hi => ?_⟩
  rw [mul_assoc, w3 i hi, z3 i hi]

/-- A simulator type whose two gates act as their matrices on the states that satisfy `Good`, for matrices that satisfy `Adm`, among
them all unitary ones. `size` is the number of qubits, `view` reads the amplitudes. -/
structure Lawful {S : Type} (B : Backend S) (Adm : M2 → Prop) (size : S → ℕ) (view : S → ℕ → ℂ) (Good : S → Prop) : Prop where
  unitary : ∀ m : M2, m.IsUnitary → Adm m
  mtrx : ∀ {s : S}, Good s → ∀ {m : M2}, Adm m → ∀ {q : ℕ}, q < size s →
    ∃ s', B.mtrx s m q = some s' ∧ Good s' ∧ size s' = size s ∧ B.rgp s' = B.rgp s ∧
      UpTo (size s) (B.rgp s) (view s') (gate (fun _ => True) q m.a m.b m.c m.d (view s))
  mcMtrx : ∀ {s : S}, Good s → ∀ {m : M2}, Adm m → ∀ {cs : List ℕ} {t : ℕ}, (cs ++ [t]).Nodup → (∀ k ∈ cs ++ [t], k < size s) →
    ∃ s', B.mcMtrx s cs m t = some s' ∧ Good s' ∧ size s' = size s ∧ B.rgp s' = B.rgp s ∧
      UpTo (size s) (B.rgp s) (view s') (gate (AllAre true cs) t m.a m.b m.c m.d (view s))

/-- The calls succeed, and change the state from `s` as the operator `T` does. -/
def Performs {S : Type} (B : Backend S) (size : S → ℕ) (view : S → ℕ → ℂ) (Good : S → Prop) (p : List Prim)
    (T : (ℕ → ℂ) → ℕ → ℂ) (s : S) : Prop :=
  ∃ s', exec B p s = some s' ∧ Good s' ∧ size s' = size s ∧ B.rgp s' = B.rgp s ∧
    UpTo (size s) (B.rgp s) (view s') (T (view s))

section

variable {S : Type} {B : Backend S} {Adm : M2 → Prop} {size : S → ℕ} {view : S → ℕ → ℂ} {Good : S → Prop}

theorem performs_sem (L : Lawful B Adm size view Good) {p : List Prim} : ∀ {s : S}, Good s → Fine Adm (size s) p →
    Performs B size view Good p (sem p) s := by
  induction p with
  | nil => intro s hs _; exact ⟨s, rfl, hs, rfl, rfl, .of_eq fun _ _ => rfl⟩
  | cons o p ih =>
    intro s hs hp
    obtain ⟨⟨ho, hm⟩, hp⟩ := fine_cons.1 hp
    have step : ∃ s', (exec B (o :: p) s = exec B p s') ∧ Good s' ∧ size s' = size s ∧ B.rgp s' = B.rgp s ∧
        UpTo (size s) (B.rgp s) (view s') (o.sem (view s)) := by
      cases o with
      | mtrx m t =>
        obtain ⟨s', h1, h2, h3, h4, h5⟩ := L.mtrx hs (m := m) hm ho
        exact ⟨s', by rw [exec, h1]; rfl, h2, h3, h4, h5⟩
      | mc cs m t =>
        obtain ⟨s', h1, h2, h3, h4, h5⟩ := L.mcMtrx hs (m := m) hm ho.1 ho.2
        exact ⟨s', by rw [exec, h1]; rfl, h2, h3, h4, h5⟩
    obtain ⟨s1, e1, g1, n1, r1, w, w1, w2, w3⟩ := step
    obtain ⟨s2, e2, g2, n2, r2, u2⟩ := ih g1 (by rw [n1]; exact hp)
    refine ⟨s2, e1.trans e2, g2, n2.trans n1, r2.trans r1, ?_⟩
    rw [n1, r1] at u2
    refine u2.trans ⟨w, w1, w2, fun i hi => ?_⟩
    rw [sem_cons, ← congrFun (sem_smul p w (view s1)) i]
    exact sem_congr (fun o ho => (hp o ho).1) w3 i hi

theorem performs_of (L : Lawful B Adm size view Good) {s : S} (hs : Good s) {p : List Prim} (hp : Fine Adm (size s) p)
    {T : (ℕ → ℂ) → ℕ → ℂ} (hT : UpTo (size s) (B.rgp s) (sem p (view s)) (T (view s))) : Performs B size view Good p T s := by
  obtain ⟨s', h1, h2, h3, h4, h5⟩ := performs_sem L hs hp
  exact ⟨s', h1, h2, h3, h4, h5.trans hT⟩

theorem performs_eq (L : Lawful B Adm size view Good) {s : S} (hs : Good s) {p : List Prim} (hp : Fine Adm (size s) p)
    {T : (ℕ → ℂ) → ℕ → ℂ} (hT : sem p (view s) = T (view s)) : Performs B size view Good p T s :=
  performs_of L hs hp (.of_eq fun i _ => by rw [hT])

theorem notMem_of_nodup {cs : List ℕ} {t : ℕ} (hnd : (cs ++ [t]).Nodup) : t ∉ cs :=
  fun h => (List.nodup_append.1 hnd).2.2 t h t (by simp) rfl

/-! ## Controlled gates -/

/-- `Phase`. -/
theorem phase_spec (L : Lawful B Adm size view Good) {s : S} (hs : Good s) {tl br : ℂ} (h1 : ‖tl‖ = 1) (hm : Adm ⟨tl, 0, 0, br⟩)
    {q : ℕ} (hq : q < size s) :
    Performs B size view Good (phase (B.rgp s) tl br q) (gate (fun _ => True) q tl 0 0 br) s := by
  obtain ⟨w, w1, w2, w3⟩ := sem_phase (B.rgp s) h1 br q (view s)
  exact performs_of L hs (fine_phase _ hm hq) ⟨w, w1, w2, fun i _ => w3 i⟩

/-- `Invert`. -/
theorem invert_spec (L : Lawful B Adm size view Good) {s : S} (hs : Good s) {tr bl : ℂ} (hm : Adm ⟨0, tr, bl, 0⟩)
    {q : ℕ} (hq : q < size s) : Performs B size view Good (invert tr bl q) (gate (fun _ => True) q 0 tr bl 0) s :=
  performs_eq L hs (fine_mtrx hm hq) rfl

/-- `MCPhase`. -/
theorem mcPhase_spec (L : Lawful B Adm size view Good) {s : S} (hs : Good s) {tl br : ℂ} (hm : Adm ⟨tl, 0, 0, br⟩) {cs : List ℕ} {t : ℕ}
    (hnd : (cs ++ [t]).Nodup) (hb : ∀ k ∈ cs ++ [t], k < size s) :
    Performs B size view Good (mcPhase cs tl br t) (gate (AllAre true cs) t tl 0 0 br) s :=
  performs_eq L hs (fine_mcPhase hm hnd hb) (sem_mcPhase ..)

/-- `MCInvert`. -/
theorem mcInvert_spec (L : Lawful B Adm size view Good) {s : S} (hs : Good s) {tr bl : ℂ} (hm : Adm ⟨0, tr, bl, 0⟩) {cs : List ℕ} {t : ℕ}
    (hnd : (cs ++ [t]).Nodup) (hb : ∀ k ∈ cs ++ [t], k < size s) :
    Performs B size view Good (mcInvert cs tr bl t) (gate (AllAre true cs) t 0 tr bl 0) s :=
  performs_eq L hs (fine_mc hm hnd hb) (sem_mcInvert ..)

/-- `MACMtrx`: the matrix, where all controls are clear. -/
theorem macMtrx_spec (L : Lawful B Adm size view Good) {s : S} (hs : Good s) {m : M2} (hm : Adm m) {cs : List ℕ} {t : ℕ}
    (hnd : (cs ++ [t]).Nodup) (hb : ∀ k ∈ cs ++ [t], k < size s) :
    Performs B size view Good (macMtrx cs m t) (gate (AllAre false cs) t m.a m.b m.c m.d) s :=
  performs_eq L hs (fine_macMtrx L.unitary hm hnd hb) (sem_macMtrx (notMem_of_nodup hnd) m _)

/-- `MACPhase`. -/
theorem macPhase_spec (L : Lawful B Adm size view Good) {s : S} (hs : Good s) {tl br : ℂ} (hm : Adm ⟨tl, 0, 0, br⟩) {cs : List ℕ} {t : ℕ}
    (hnd : (cs ++ [t]).Nodup) (hb : ∀ k ∈ cs ++ [t], k < size s) :
    Performs B size view Good (macPhase cs tl br t) (gate (AllAre false cs) t tl 0 0 br) s :=
  performs_eq L hs (fine_macPhase L.unitary hm hnd hb) (sem_macPhase (notMem_of_nodup hnd) tl br _)

/-- `MACInvert`. -/
theorem macInvert_spec (L : Lawful B Adm size view Good) {s : S} (hs : Good s) {tr bl : ℂ} (hm : Adm ⟨0, tr, bl, 0⟩) {cs : List ℕ} {t : ℕ}
    (hnd : (cs ++ [t]).Nodup) (hb : ∀ k ∈ cs ++ [t], k < size s) :
    Performs B size view Good (macInvert cs tr bl t) (gate (AllAre false cs) t 0 tr bl 0) s :=
  performs_eq L hs (fine_macInvert L.unitary hm hnd hb) (sem_macInvert (notMem_of_nodup hnd) tr bl _)

/-- `UCMtrx`: the matrix, where the controls read the given permutation, whether more or fewer than half of its bits are set. -/
theorem ucMtrx_spec (L : Lawful B Adm size view Good) {s : S} (hs : Good s) {m : M2} (hm : Adm m) {cs : List ℕ} {t : ℕ}
    (hnd : (cs ++ [t]).Nodup) (hb : ∀ k ∈ cs ++ [t], k < size s) (perm : ℕ) :
    Performs B size view Good (ucMtrx cs m t perm) (gate (Matches perm cs) t m.a m.b m.c m.d) s :=
  performs_eq L hs (fine_ucMtrx L.unitary hm hnd hb perm) (sem_ucMtrx hnd m perm _)

/-- `UCPhase`. -/
theorem ucPhase_spec (L : Lawful B Adm size view Good) {s : S} (hs : Good s) {tl br : ℂ} (hm : Adm ⟨tl, 0, 0, br⟩) {cs : List ℕ} {t : ℕ}
    (hnd : (cs ++ [t]).Nodup) (hb : ∀ k ∈ cs ++ [t], k < size s) (perm : ℕ) :
    Performs B size view Good (ucPhase cs tl br t perm) (gate (Matches perm cs) t tl 0 0 br) s := by
  unfold ucPhase
  split_ifs with h
  · refine performs_eq L hs fine_nil ?_
    rw [← sub_eq_zero.1 h.1, ← sub_eq_zero.1 h.2, sem_nil]; funext i; rw [gate_id]
  · exact ucMtrx_spec L hs hm hnd hb perm

/-- `UCInvert`. -/
theorem ucInvert_spec (L : Lawful B Adm size view Good) {s : S} (hs : Good s) {tr bl : ℂ} (hm : Adm ⟨0, tr, bl, 0⟩) {cs : List ℕ} {t : ℕ}
    (hnd : (cs ++ [t]).Nodup) (hb : ∀ k ∈ cs ++ [t], k < size s) (perm : ℕ) :
    Performs B size view Good (ucInvert cs tr bl t perm) (gate (Matches perm cs) t 0 tr bl 0) s :=
  ucMtrx_spec L hs hm hnd hb perm

/-- `UniformlyControlledSingleBit`: on the basis states whose controls read `v`, the matrix whose index is `v` spread around the skipped
powers, with the bits of the skip value set. -/
theorem uniform_spec (L : Lawful B Adm size view Good) {s : S} (hs : Good s) {cs : List ℕ} {t : ℕ} {ms : ℕ → M2} (hm : ∀ ix, Adm (ms ix))
    (hnd : (cs ++ [t]).Nodup) (hb : ∀ k ∈ cs ++ [t], k < size s) {ps : List ℕ} (hps : ps.Pairwise (· < ·))
    (hw : cs.length + ps.length ≤ 128) (val : ℕ) :
    ∃ s', exec B (uniform cs t ms (ps.map Engine.pow2) val) s = some s' ∧ Good s' ∧ size s' = size s ∧ B.rgp s' = B.rgp s ∧
      ∃ w : ℂ, ‖w‖ = 1 ∧ (B.rgp s = false → w = 1) ∧ ∀ i < 2 ^ size s, ∀ v ix, IsCtrlValue cs i v → IsMatrixIndex ps val v ix →
        w * view s' i = gate (fun _ => True) t (ms ix).a (ms ix).b (ms ix).c (ms ix).d (view s) i := by
  obtain ⟨s', h1, h2, h3, h4, w, w1, w2, w3⟩ :=
    performs_sem L hs (fine_uniform L.unitary (ps := ps.map Engine.pow2) (val := val) (fun v _ => hm _) hnd hb)
  refine ⟨s', h1, h2, h3, h4, w, w1, w2, fun i hi v ix hv hix => ?_⟩
  rw [w3 i hi, sem_uniform hnd ms hps hw val _ hv hix]

/-- `ZeroPhaseFlip`: the sign of the basis states whose register reads zero. -/
theorem zeroPhaseFlip_spec (L : Lawful B Adm size view Good) {s : S} (hs : Good s) {start length : ℕ} (h : start + length ≤ size s) :
    Performs B size view Good (zeroPhaseFlip (B.rgp s) start length)
      (fun ψ i => if 0 < length ∧ field start length i = 0 then -ψ i else ψ i) s := by
  have hread : ∀ i, field start length i = 0 ↔ ∀ k < length, i.testBit (start + k) = false := by
    intro i
    unfold field
    constructor
    · intro h k hk
      have := congrArg (fun x => x.testBit k) h
      simpa [Nat.testBit_mod_two_pow, Nat.testBit_div_two_pow, hk, Nat.add_comm] using this
    · intro h
      apply Nat.eq_of_testBit_eq
      intro k
      rw [Nat.zero_testBit, Nat.testBit_mod_two_pow, Nat.testBit_div_two_pow]
      by_cases hk : k < length
      · have := h k hk
        rw [Nat.add_comm] at this
        simp [this]
      · simp [hk]
  unfold zeroPhaseFlip
  by_cases h0 : length = 0
  · rw [if_pos h0]
    refine performs_eq L hs fine_nil ?_
    funext i; rw [sem_nil, if_neg (by omega)]
  rw [if_neg h0]
  by_cases h1 : length = 1
  · rw [if_pos h1]
    have hne : ¬ ((B.rgp s = true ∨ 1 - (-1 : ℂ) = 0) ∧ (-1 : ℂ) - 1 = 0) := by norm_num
    refine performs_eq L hs (fine_phaseU L.unitary _ (by simp) (by simp) (by omega)) ?_
    unfold phase
    rw [if_neg hne]
    funext i
    show gate (fun _ => True) start (-1) 0 0 1 (view s) i = _
    subst h1
    have hi : field start 1 i = 0 ↔ i.testBit start = false :=
      (hread i).trans ⟨fun h => by simpa using h 0, fun h k hk => by obtain rfl : k = 0 := by omega
                                                                     exact h⟩
    unfold gate
    rw [if_pos trivial]
    cases hb : i.testBit start <;> simp [hi, hb]
  · rw [if_neg h1]
    have hnd : ((List.range (length - 1)).map (start + ·) ++ [start + (length - 1)]).Nodup := by
      apply nodup_snoc
      · exact List.Nodup.map (fun a b h => by simpa using h) List.nodup_range
      · simp
    have hb : ∀ k ∈ (List.range (length - 1)).map (start + ·) ++ [start + (length - 1)], k < size s := by
      apply lt_snoc
      · intro c hc; simp at hc; obtain ⟨a, ha, rfl⟩ := hc; omega
      · omega
    refine performs_eq L hs (fine_macPhase L.unitary (L.unitary _ (unitary_diag (by simp) (by simp))) hnd hb) ?_
    rw [sem_macPhase (notMem_of_nodup hnd)]
    funext i
    have hi : (0 < length ∧ field start length i = 0) ↔
        AllAre false ((List.range (length - 1)).map (start + ·)) i ∧ i.testBit (start + (length - 1)) = false := by
      rw [hread, AllAre]
      constructor
      · rintro ⟨-, hk⟩
        refine ⟨fun c hc => ?_, hk _ (by omega)⟩
        simp at hc
        obtain ⟨a, ha, rfl⟩ := hc
        exact hk a (by omega)
      · rintro ⟨ha, hl⟩
        refine ⟨by omega, fun k hk => ?_⟩
        rcases Nat.lt_or_ge k (length - 1) with h' | h'
        · exact ha _ (by simp; exact h')
        · obtain rfl : k = length - 1 := by omega
          exact hl
    unfold gate
    by_cases hall : AllAre false ((List.range (length - 1)).map (start + ·)) i
    · cases hbt : i.testBit (start + (length - 1)) <;> simp [hall, hi, hbt]
    · simp [hall, hi]

/-! ## Masks -/

/-- `XMask`. -/
theorem xMask_spec (L : Lawful B Adm size view Good) {s : S} (hs : Good s) {mask : ℕ} (hm : mask < 2 ^ size s) :
    Performs B size view Good (xMask mask) (fun ψ i => ψ (i ^^^ mask)) s :=
  performs_eq L hs (fine_xMask L.unitary hm) (sem_xMask mask _)

/-- `ZMask`: a sign for every masked qubit that is set. -/
theorem zMask_spec (L : Lawful B Adm size view Good) {s : S} (hs : Good s) {mask : ℕ} (hm : mask < 2 ^ size s) :
    Performs B size view Good (zMask (B.rgp s) mask) (fun ψ i => (-1) ^ maskCount (size s) mask i * ψ i) s :=
  performs_eq L hs (fine_zMask L.unitary _ hm) (sem_zMask _ hm _)

/-- `YMask`: `Y` on every masked qubit. The mask zero has no logarithm. -/
theorem yMask_spec (L : Lawful B Adm size view Good) {s : S} (hs : Good s) {mask : ℕ} (h0 : mask ≠ 0) (hm : mask < 2 ^ size s) :
    Performs B size view Good (yMask (B.rgp s) mask)
      (fun ψ i => (-I) ^ maskCount (size s) mask mask * (-1) ^ maskCount (size s) mask i * ψ (i ^^^ mask)) s := by
  obtain ⟨w, w1, w2, w3⟩ := sem_yMask (B.rgp s) h0 hm (view s)
  exact performs_of L hs (fine_yMask L.unitary _ h0 hm) ⟨w, w1, w2, fun i _ => w3 i⟩

/-- `PhaseRootNMask`: the root's phase for every masked qubit that is set. -/
theorem phaseRootNMask_spec (L : Lawful B Adm size view Good) {s : S} (hs : Good s) (sg : ℤ) {k : ℕ} (hk : k ≠ 0) {mask : ℕ}
    (hm : mask < 2 ^ size s) :
    Performs B size view Good (phaseRootNMask sg (B.rgp s) k mask)
      (fun ψ i => Complex.exp ((2 * Real.pi * sg / 2 ^ k * maskCount (size s) mask i : ℝ) * I) * ψ i) s := by
  refine performs_eq L hs (fine_phaseRootNMask L.unitary sg _ k hm) ?_
  rw [sem_phaseRootNMask sg _ hk hm]
  funext i
  rw [rootN, ← Complex.exp_nat_mul]
  congr 2
  obtain ⟨j, rfl⟩ := Nat.exists_eq_succ_of_ne_zero hk
  push_cast
  rw [pow_succ]
  field_simp

/-- `PhaseParity`: `e^{iθ/2}` when an odd number of masked qubits is set, `e^{-iθ/2}` otherwise. -/
theorem phaseParity_spec (L : Lawful B Adm size view Good) {s : S} (hs : Good s) {mask : ℕ} (h0 : mask ≠ 0) (hm : mask < 2 ^ size s)
    (θ : ℝ) :
    Performs B size view Good (phaseParity (B.rgp s) θ mask)
      (fun ψ i => parityFactor (θ / 2) (maskCount (size s) mask i) * ψ i) s := by
  obtain ⟨w, w1, w2, w3⟩ := sem_phaseParity (B.rgp s) h0 hm θ (view s)
  exact performs_of L hs (fine_phaseParity L.unitary _ θ hm) ⟨w, w1, w2, fun i _ => w3 i⟩

/-! ## Exchanges -/

/-- `Swap`. -/
theorem swap_spec (L : Lawful B Adm size view Good) {s : S} (hs : Good s) {q1 q2 : ℕ} (h1 : q1 < size s) (h2 : q2 < size s) :
    Performs B size view Good (swap q1 q2) (exchange (fun _ => True) q1 q2 0 1) s :=
  performs_eq L hs (fine_swap L.unitary h1 h2) (sem_swap ..)

/-- `ISwap`: exchange, with a factor `i` on the basis states where the qubits differ. -/
theorem iswap_spec (L : Lawful B Adm size view Good) {s : S} (hs : Good s) {q1 q2 : ℕ} (h1 : q1 < size s) (h2 : q2 < size s) :
    Performs B size view Good (iswap (B.rgp s) q1 q2) (exchange (fun _ => True) q1 q2 0 I) s :=
  performs_eq L hs (fine_iswap L.unitary _ h1 h2) (sem_iswap ..)

/-- `IISwap`: the inverse of `ISwap`. -/
theorem iiswap_spec (L : Lawful B Adm size view Good) {s : S} (hs : Good s) {q1 q2 : ℕ} (h1 : q1 < size s) (h2 : q2 < size s) :
    Performs B size view Good (iiswap (B.rgp s) q1 q2) (exchange (fun _ => True) q1 q2 0 (-I)) s :=
  performs_eq L hs (fine_iiswap L.unitary _ h1 h2) (sem_iiswap ..)

/-- `SqrtSwap`. -/
theorem sqrtSwap_spec (L : Lawful B Adm size view Good) {s : S} (hs : Good s) {q1 q2 : ℕ} (h1 : q1 < size s) (h2 : q2 < size s) :
    Performs B size view Good (sqrtSwap (B.rgp s) q1 q2) (exchange (fun _ => True) q1 q2 ((1 + I) / 2) ((1 - I) / 2)) s :=
  performs_eq L hs (fine_sqrtSwap L.unitary _ h1 h2) (sem_sqrtSwap ..)

/-- `ISqrtSwap`. -/
theorem isqrtSwap_spec (L : Lawful B Adm size view Good) {s : S} (hs : Good s) {q1 q2 : ℕ} (h1 : q1 < size s) (h2 : q2 < size s) :
    Performs B size view Good (isqrtSwap (B.rgp s) q1 q2) (exchange (fun _ => True) q1 q2 ((1 - I) / 2) ((1 + I) / 2)) s :=
  performs_eq L hs (fine_isqrtSwap L.unitary _ h1 h2) (sem_isqrtSwap ..)

/-- `CSwap`, `CSqrtSwap`, `CISqrtSwap`: the exchange where all controls are set. -/
theorem controlled_exchange_spec (L : Lawful B Adm size view Good) {s : S} (hs : Good s) {cs : List ℕ} {q1 q2 : ℕ}
    (h : Distinct (size s) cs q1 q2) :
    Performs B size view Good (cswap cs q1 q2) (exchange (AllAre true cs) q1 q2 0 1) s ∧
    Performs B size view Good (csqrtSwap (B.rgp s) cs q1 q2) (exchange (AllAre true cs) q1 q2 ((1 + I) / 2) ((1 - I) / 2)) s ∧
    Performs B size view Good (cisqrtSwap cs q1 q2) (exchange (AllAre true cs) q1 q2 ((1 - I) / 2) ((1 + I) / 2)) s :=
  ⟨performs_eq L hs (fine_cswap L.unitary h) (sem_cswap h.not1 h.not2 _),
    performs_eq L hs (fine_csqrtSwap L.unitary _ h) (sem_csqrtSwap _ h.not1 h.not2 _),
    performs_eq L hs (fine_cisqrtSwap L.unitary h) (sem_cisqrtSwap h.not1 h.not2 _)⟩

/-- `AntiCSwap`, `AntiCSqrtSwap`, `AntiCISqrtSwap`: the exchange where all controls are clear. -/
theorem anti_exchange_spec (L : Lawful B Adm size view Good) {s : S} (hs : Good s) {cs : List ℕ} {q1 q2 : ℕ}
    (h : Distinct (size s) cs q1 q2) :
    Performs B size view Good (antiCswap cs q1 q2) (exchange (AllAre false cs) q1 q2 0 1) s ∧
    Performs B size view Good (antiCsqrtSwap (B.rgp s) cs q1 q2) (exchange (AllAre false cs) q1 q2 ((1 + I) / 2) ((1 - I) / 2)) s ∧
    Performs B size view Good (antiCisqrtSwap cs q1 q2) (exchange (AllAre false cs) q1 q2 ((1 - I) / 2) ((1 + I) / 2)) s :=
  ⟨performs_eq L hs (fine_wrap L.unitary h.lt (fine_cswap L.unitary h)) (sem_anti_exchange h.not1 h.not2 (sem_cswap h.not1 h.not2) _),
    performs_eq L hs (fine_wrap L.unitary h.lt (fine_csqrtSwap L.unitary _ h))
      (sem_anti_exchange h.not1 h.not2 (sem_csqrtSwap _ h.not1 h.not2) _),
    performs_eq L hs (fine_wrap L.unitary h.lt (fine_cisqrtSwap L.unitary h))
      (sem_anti_exchange h.not1 h.not2 (sem_cisqrtSwap h.not1 h.not2) _)⟩

end

/-! ## Simulator types -/

/-- Matrices of which a multiple of the identity is a phase. -/
def PhaseOk (m : M2) : Prop := m.b = 0 → m.c = 0 → m.a = m.d → ‖m.a‖ = 1

/-- The CPU engine, `src/qengine/qengine.cpp:19-48`. -/
noncomputable def cpu (σ : List ℕ → List ℕ) : Backend Eng where
  rgp e := e.rgp
  mtrx e m q := Engine.mtrx σ e m q
  mcMtrx e cs m t := Engine.eitherMtrx σ e cs m t false

/-- The CPU engine without normalisation is lawful. -/
theorem cpu_lawful {σ : List ℕ → List ℕ} (hσ : IsSched σ) :
    Lawful (cpu σ) PhaseOk (fun e => e.n) (fun e => e.amp) (fun e => e.n ≤ 64 ∧ e.doNorm = false) := by
  have hm : ∀ {e : Eng}, (e.n ≤ 64 ∧ e.doNorm = false) → ∀ {m : M2}, PhaseOk m → ∀ {q : ℕ}, q < e.n →
      ∃ e', Engine.mtrx σ e m q = some e' ∧ (e'.n ≤ 64 ∧ e'.doNorm = false) ∧ e'.n = e.n ∧ e'.rgp = e.rgp ∧
        UpTo e.n e.rgp e'.amp (gate (fun _ => True) q m.a m.b m.c m.d e.amp) := by
    intro e he m hm q hq
    obtain ⟨e', h1, h2, -, h3, -, h4, h5, h6⟩ := Engine.mtrx_gate hσ he.1 (m := m) (Or.inl he.2) hq
    refine ⟨e', h1, ⟨h2 ▸ he.1, h3.trans he.2⟩, h2, h4, ?_⟩
    by_cases hd : Dropped e.rgp m
    · exact ⟨m.a, hm hd.2.1 hd.2.2.1 hd.2.2.2, fun h => absurd hd.1 (by rw [h]; simp), h6 hd⟩
    · exact .of_eq (h5 hd)
  refine ⟨fun m h _ hc _ => scalar_norm h hc, hm, ?_⟩
  intro e he m hmm cs t hnd hb
  by_cases hc : cs = []
  · subst hc
    obtain ⟨e', h1, h2⟩ := hm he hmm (hb t (by simp))
    refine ⟨e', ?_, ?_⟩
    · show Engine.eitherMtrx σ e [] m t false = some e'
      unfold Engine.eitherMtrx; rw [if_pos rfl]; exact h1
    · have : gate (AllAre true ([] : List ℕ)) t m.a m.b m.c m.d e.amp = gate (fun _ => True) t m.a m.b m.c m.d e.amp :=
        gate_ext (fun i => by simp [AllAre]) ..
      rw [this]; exact h2
  · obtain ⟨e', h1, h2, h3⟩ := Engine.eitherMtrx_gate hσ he.1 (Or.inl he.2) hc m hnd hb false
    obtain ⟨k1, k2, k3, -⟩ := Engine.eitherMtrx_meta h1
    exact ⟨e', h1, ⟨h2 ▸ he.1, k3.trans he.2⟩, h2, k2, .of_eq h3⟩

theorem ocl_meta {d : Ocl.Dev} {σ : List (ℕ × ℕ) → List (ℕ × ℕ)} {τ : List ℕ → List ℕ} {old : Ocl.Bufs} {e e' : Eng} {o1 o2 : ℕ}
    {m : M2} {pows : List ℕ} {dc : Bool} {sp : Ocl.Special} {thr : ℝ}
    (h : Ocl.apply2x2 d σ τ old e o1 o2 m pows dc sp thr = some e') : e'.rgp = e.rgp ∧ e'.doNorm = e.doNorm := by
  unfold Ocl.apply2x2 at h
  dsimp only at h
  split_ifs at h <;> first | (cases h; done) | (obtain rfl := Option.some.inj h; exact ⟨rfl, rfl⟩)

/-- The OpenCL engine, `src/qengine/qengine.cpp:19-48`, `src/qengine/opencl.cpp:800-1024`. -/
noncomputable def ocl (d : Ocl.Dev) (σ : List (ℕ × ℕ) → List (ℕ × ℕ)) (τ : List ℕ → List ℕ) (old : Ocl.Bufs) : Backend Eng where
  rgp e := e.rgp
  mtrx e m q := Ocl.mtrx d σ τ old e m q
  mcMtrx e cs m t := Ocl.eitherMtrx d σ τ old e cs m t false

/-- The OpenCL engine without normalisation is lawful. -/
theorem ocl_lawful {d : Ocl.Dev} (hd : d.Ok) {σ : List (ℕ × ℕ) → List (ℕ × ℕ)} (hσ : Ocl.IsSched2 σ) {τ : List ℕ → List ℕ}
    (hτ : IsSched τ) (old : Ocl.Bufs) :
    Lawful (ocl d σ τ old) PhaseOk (fun e => e.n) (fun e => e.amp) (fun e => e.n ≤ 64 ∧ e.doNorm = false) := by
  have hm : ∀ {e : Eng}, (e.n ≤ 64 ∧ e.doNorm = false) → ∀ {m : M2}, PhaseOk m → ∀ {q : ℕ}, q < e.n →
      ∃ e', Ocl.mtrx d σ τ old e m q = some e' ∧ (e'.n ≤ 64 ∧ e'.doNorm = false) ∧ e'.n = e.n ∧ e'.rgp = e.rgp ∧
        UpTo e.n e.rgp e'.amp (gate (fun _ => True) q m.a m.b m.c m.d e.amp) := by
    intro e he m hm q hq
    obtain ⟨e', h1, h2, h3, -, h4, h5, h6⟩ := Ocl.mtrx_gate hd hσ hτ old he.1 m hq
    refine ⟨e', h1, ⟨h2 ▸ he.1, h3.trans he.2⟩, h2, h4, ?_⟩
    by_cases hs : Ocl.Skipped e.rgp m
    · rw [h5 hs]
      obtain ⟨a1, a2, a3, a4⟩ := hs
      refine ⟨m.a, hm a1 a2 a3, fun h => ?_, fun i _ => ?_⟩
      · rcases a4 with h' | h'
        · exact h'
        · rw [h] at h'; cases h'
      · rw [a1, a2, ← a3]; unfold gate; rw [if_pos trivial]; split_ifs <;> ring
    · refine .of_eq fun i hi => ?_
      rw [(h6 hs).1 i hi, if_neg (by rw [he.2]; simp), one_mul]
  refine ⟨fun m h _ hc _ => scalar_norm h hc, hm, ?_⟩
  intro e he m hmm cs t hnd hb
  by_cases hc : cs = []
  · subst hc
    obtain ⟨e', h1, h2⟩ := hm he hmm (hb t (by simp))
    refine ⟨e', ?_, ?_⟩
    · show Ocl.eitherMtrx d σ τ old e [] m t false = some e'
      unfold Ocl.eitherMtrx; rw [if_pos rfl]; exact h1
    · have : gate (AllAre true ([] : List ℕ)) t m.a m.b m.c m.d e.amp = gate (fun _ => True) t m.a m.b m.c m.d e.amp :=
        gate_ext (fun i => by simp [AllAre]) ..
      rw [this]; exact h2
  · obtain ⟨e', h1, h2, h3⟩ := Ocl.eitherMtrx_gate hd hσ hτ old he.1 (Or.inl he.2) hc m hnd hb false
    have hmeta : e'.rgp = e.rgp ∧ e'.doNorm = e.doNorm := by
      unfold Ocl.eitherMtrx at h1
      rw [if_neg hc] at h1
      split_ifs at h1 with g1 g2
      · obtain rfl := Option.some.inj h1; exact ⟨rfl, rfl⟩
      · rw [he.2] at g2; simp at g2
      · unfold Ocl.applyCtrl Ocl.apply at h1
        dsimp only at h1
        rw [if_neg (by simp)] at h1
        exact ocl_meta h1
    exact ⟨e', h1, ⟨h2 ▸ he.1, hmeta.2.trans he.2⟩, h2, hmeta.1, .of_eq h3⟩

/-- The decision diagram over `n` qubits, `src/qbdt/tree.cpp:676-689`. -/
noncomputable def bdt (rgp : Bool) (n : ℕ) : Backend Bdt.Node where
  rgp _ := rgp
  mtrx t m q := Bdt.applySingle rgp n ⟨m.a, m.b, m.c, m.d⟩ q t
  mcMtrx t cs m q := Bdt.mcMtrx rgp n cs ⟨m.a, m.b, m.c, m.d⟩ q t

theorem unitary_rows {m : M2} (h : m.IsUnitary) : Spec.Circuit.Unitary ⟨m.a, m.b, m.c, m.d⟩ := by
  obtain ⟨a, b, c, d⟩ := m
  obtain ⟨h1, h2, h3⟩ := h
  dsimp only at h1 h2 h3
  have h4 : (starRingEnd ℂ) b * a + (starRingEnd ℂ) d * c = 0 := by
    have := congrArg (starRingEnd ℂ) h3
    simp only [map_add, map_mul, Complex.conj_conj, map_zero] at this
    linear_combination this
  have hM : (!![(starRingEnd ℂ) a, (starRingEnd ℂ) c; (starRingEnd ℂ) b, (starRingEnd ℂ) d] : Matrix (Fin 2) (Fin 2) ℂ) *
      !![a, b; c, d] = 1 := by
    rw [Matrix.mul_fin_two, h1, h2, h3, h4, Matrix.one_fin_two]
  have hM' := mul_eq_one_comm.1 hM
  rw [Matrix.mul_fin_two, Matrix.one_fin_two] at hM'
  have e := fun i j => congrFun (congrFun hM' i) j
  have e1 := e 0 0
  have e2 := e 1 1
  have e3 := e 0 1
  simp at e1 e2 e3
  exact ⟨h1, h2, h3, e1, e2, e3⟩

/-- The decision diagram is lawful for unitary matrices. -/
theorem bdt_lawful (rgp : Bool) (n : ℕ) :
    Lawful (bdt rgp n) M2.IsUnitary (fun _ => n) (fun t => Bdt.getAmplitude n t) (Bdt.State n) := by
  have hm : ∀ {t : Bdt.Node}, Bdt.State n t → ∀ {m : M2}, m.IsUnitary → ∀ {q : ℕ}, q < n →
      ∃ t', Bdt.applySingle rgp n ⟨m.a, m.b, m.c, m.d⟩ q t = some t' ∧ Bdt.State n t' ∧
        UpTo n rgp (Bdt.getAmplitude n t') (gate (fun _ => True) q m.a m.b m.c m.d (Bdt.getAmplitude n t)) := by
    intro t ht m hm q hq
    obtain ⟨t', h1, h2, w, w1, w2, w3⟩ := Bdt.mtrx_spec rgp (unitary_rows hm) hq ht
    exact ⟨t', h1, h2, w, w1, w2, fun i _ => (w3 i).symm⟩
  refine ⟨fun m h => h, ?_, ?_⟩
  · intro t ht m hu q hq
    obtain ⟨t', h1, h2, h3⟩ := hm ht hu hq
    exact ⟨t', h1, h2, rfl, rfl, h3⟩
  · intro t ht m hu cs q hnd hb
    by_cases hc : cs = []
    · subst hc
      obtain ⟨t', h1, h2, h3⟩ := hm ht hu (hb q (by simp))
      refine ⟨t', ?_, h2, rfl, rfl, ?_⟩
      · show Bdt.mcMtrx rgp n [] _ q t = some t'
        unfold Bdt.mcMtrx; rw [if_pos rfl]; exact h1
      · have : gate (AllAre true ([] : List ℕ)) q m.a m.b m.c m.d (Bdt.getAmplitude n t) =
            gate (fun _ => True) q m.a m.b m.c m.d (Bdt.getAmplitude n t) := gate_ext (fun i => by simp [AllAre]) ..
        rw [this]; exact h3
    · obtain ⟨t', h1, h2, h3⟩ := Bdt.mcMtrx_spec rgp (unitary_rows hu) hc (n := n) (target := q) (controls := cs)
        ⟨(List.nodup_append.1 hnd).1, fun c hc => hb c (by simp [hc]), notMem_of_nodup hnd, hb q (by simp)⟩ ht
      exact ⟨t', h1, h2, rfl, rfl, .of_eq fun i _ => h3 i⟩

/-! ## Cases -/

/-- Three qubits in `|110⟩`, with the global phase kept. -/
noncomputable def three : Eng := { n := 3, amp := fun i => if i = 6 then 1 else 0, rn := 1, doNorm := false, floor := 0, rgp := false }

theorem three_good : three.n ≤ 64 ∧ three.doNorm = false := ⟨by decide, rfl⟩

theorem id_sched : IsSched id := fun l => List.Perm.refl l

/-- An anti-controlled `H` on the CPU engine. -/
example : ∃ e', exec (cpu id) (macMtrx [0] hM 1) three = some e' ∧ e'.amp 4 = (s12 : ℂ) ∧ e'.amp 6 = -(s12 : ℂ) := by
  obtain ⟨e', h1, -, -, -, w, -, w2, w3⟩ := macMtrx_spec (cpu_lawful id_sched) three_good (m := hM)
    (fun _ h _ => absurd h (by simp [hM, s12])) (cs := [0]) (t := 1) (by decide) (by simp [three])
  obtain rfl : w = 1 := w2 rfl
  refine ⟨e', h1, ?_, ?_⟩
  · rw [← one_mul (e'.amp 4), w3 4 (by simp [three])]
    simp [gate, AllAre, flipBit, three, hM, Nat.testBit]
  · rw [← one_mul (e'.amp 6), w3 6 (by simp [three])]
    simp [gate, AllAre, flipBit, three, hM, Nat.testBit]

/-- The square root of an exchange leaves both basis states. -/
example : ∃ e', exec (cpu id) (sqrtSwap false 0 1) three = some e' ∧ e'.amp 6 = (1 + I) / 2 ∧ e'.amp 5 = (1 - I) / 2 := by
  obtain ⟨e', h1, -, -, -, w, -, w2, w3⟩ := sqrtSwap_spec (cpu_lawful id_sched) three_good (q1 := 0) (q2 := 1)
    (by simp [three]) (by simp [three])
  obtain rfl : w = 1 := w2 rfl
  refine ⟨e', h1, ?_, ?_⟩
  · rw [← one_mul (e'.amp 6), w3 6 (by simp [three])]
    simp [exchange, swapBits, three, Nat.testBit]
  · rw [← one_mul (e'.amp 5), w3 5 (by simp [three])]
    simp [exchange, swapBits, three, Nat.testBit]

/-- `YMask` of two qubits. -/
example : ∃ e', exec (cpu id) (yMask false 3) three = some e' ∧ e'.amp 5 = 1 := by
  obtain ⟨e', h1, -, -, -, w, -, w2, w3⟩ := yMask_spec (cpu_lawful id_sched) three_good (mask := 3) (by decide) (by simp [three])
  obtain rfl : w = 1 := w2 rfl
  refine ⟨e', h1, ?_⟩
  rw [← one_mul (e'.amp 5), w3 5 (by simp [three])]
  have e1 : maskCount 3 3 3 = 2 := by decide
  have e2 : maskCount 3 3 5 = 1 := by decide
  simp [three, e1, e2]

/-- The decision diagram: a controlled exchange, and the matrix on the control permutation 2. -/
example : ∃ t', exec (bdt false 3) (ucMtrx [0, 1] hM 2 2) (Bdt.setPermutation 3 2 1) = some t' ∧
    Bdt.getAmplitude 3 t' 6 = (s12 : ℂ) := by
  obtain ⟨g, a⟩ := Bdt.setPermutation_spec 3 2 1 (by simp)
  obtain ⟨t', h1, -, -, -, w, -, w2, w3⟩ := ucMtrx_spec (bdt_lawful false 3) g (m := hM) unitary_hM (cs := [0, 1]) (t := 2)
    (by decide) (by simp) 2
  obtain rfl : w = 1 := w2 rfl
  refine ⟨t', h1, ?_⟩
  rw [← one_mul (Bdt.getAmplitude 3 t' 6), w3 6 (by norm_num)]
  have hM' : Matches 2 [0, 1] 6 := by
    intro k hk
    have hk' : k < 2 := hk
    interval_cases k <;> simp [Nat.testBit]
  unfold gate
  dsimp only
  rw [if_pos hM', a, a]
  simp [flipBit, hM, Nat.testBit]

/-- Distinct qubits of a controlled exchange. -/
example : Distinct 5 [0, 3] 1 4 := ⟨by decide, by decide, by decide, by decide, by decide, by decide⟩

end Verif.Defaults
