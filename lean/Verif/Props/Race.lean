import Verif.Lemmas.Race
import Verif.Lemmas.EngineGate
import Verif.Props.EngineUniform
import Verif.Props.EngineArith

/-!
# C58: the parallel loops have no data races

The other theorems about the engine let the calls of a loop body run in any order, each call at once. Here the calls
interleave access by access; for the loops without data races this changes nothing. `DecomposeDispose` has one.
-/

namespace Verif.Race

open Verif.Engine Verif.ParFor Verif.Spec Verif.BlockFold Classical

/-- Programs without a data race end with the same memory in every interleaving, and some interleaving ends. -/
theorem raceFree_deterministic {α V : Type} [DecidableEq α] {l : List (Prog α V)} (h : RaceFree l) (s : α → V) :
    ∃ r, Pool s l r ∧ ∀ s', Pool s l s' → s' = r :=
  ⟨runAll s l, pool_seq s l, fun _ hp => pool_eq h hp⟩

/-- Two programs that only read a common cell do not race; two that add to it do. -/
example : RaceFree [(Prog.read 0 fun x => .write 1 x .done : Prog ℕ ℕ), .read 0 fun x => .write 2 x .done] ∧
    ¬ RaceFree [(Prog.read 0 fun x => .write 0 (x + 1) .done : Prog ℕ ℕ), .read 0 fun x => .write 0 (x + 1) .done] := by
  constructor
  · refine List.Pairwise.cons ?_ (List.pairwise_singleton _ _)
    intro q hq i
    obtain rfl := List.mem_singleton.1 hq
    refine ⟨?_, ?_⟩
    · rintro (_ | _ | ⟨_, _, _, _, _ | ⟨_, _, _, _, h⟩⟩)
      · refine ⟨?_, ?_⟩
        · rintro (_ | _ | ⟨_, _, _, _, h⟩)
          rcases h with _ | ⟨_, _, _, _, h⟩
          cases h
        · rintro (_ | _ | ⟨_, _, _, _, h⟩)
          rcases h with _ | ⟨_, _, _, _, h⟩
          cases h
      · cases h
    · rintro (_ | _ | ⟨_, _, _, _, _ | ⟨_, _, _, _, h⟩⟩)
      · rintro (_ | _ | ⟨_, _, _, _, h⟩)
        rcases h with _ | ⟨_, _, _, _, h⟩
        cases h
      · cases h
  · intro h
    have := (List.pairwise_cons.1 h).1 _ (List.mem_singleton.2 rfl) 0
    exact (this.1 (.read _ _ _ 0 (.here _ _ _))).1 (.read _ _ _ 0 (.here _ _ _))

/-! ## `Apply2x2`: all gates -/

theorem apply2x2_raceFree {n : ℕ} {ps : List ℕ} {o1 o2 : ℕ} (v : Valid n ps o1 o2) (cn : Bool) (thr nrm : ℝ) (m : M2) :
    RaceFree ((parForMaskPlan 64 0 (2 ^ n) (ps.map (2 ^ ·))).map (apply2x2Prog cn thr nrm m o1 o2)) := by
  obtain ⟨hnd, -, hdj⟩ := plan_facts v (σ := id) (fun l => List.Perm.refl l)
  refine raceFree_map hnd (fun x i => i = x + o1 ∨ i = x + o2) (fun x _ i h => pair_touch (Or.inl h))
    (fun x _ y _ i h _ => pair_touch (Or.inr h)) ?_
  rintro x hx y hy i (rfl | rfl) (h | h)
  · exact hdj.aa x hx y hy h
  · exact absurd h (hdj.cross x hx y hy)
  · exact absurd h.symm (hdj.cross y hy x hx)
  · exact hdj.bb x hx y hy h

/-- Every interleaving of the accesses of `Apply2x2` ends with the amplitudes that the calls give one after the other, in
any order `σ`. -/
theorem apply2x2_interleaved {n : ℕ} {ps : List ℕ} {o1 o2 : ℕ} (v : Valid n ps o1 o2) (cn : Bool) (thr nrm : ℝ) (m : M2)
    {s s' : ℕ → ℂ} (h : Pool s ((parForMaskPlan 64 0 (2 ^ n) (ps.map (2 ^ ·))).map (apply2x2Prog cn thr nrm m o1 o2)) s')
    {σ : List ℕ → List ℕ} (hσ : IsSched σ) :
    s' = ((σ (parForMaskPlan 64 0 (2 ^ n) (ps.map (2 ^ ·)))).foldl (Engine.step cn thr nrm m o1 o2) (s, 0)).1 := by
  rw [pool_eq (apply2x2_raceFree v cn thr nrm m) h, fold_amp v hσ,
    ← fold_amp v (σ := id) (fun l => List.Perm.refl l) cn thr nrm m s 0]
  show _ = ((parForMaskPlan 64 0 (2 ^ n) (ps.map (2 ^ ·))).foldl (Engine.step cn thr nrm m o1 o2) (s, 0)).1
  rw [runAll_map _ _ (fun s lcv => (Engine.step cn thr nrm m o1 o2 (s, 0) lcv).1) (fun x s => rfl)]
  have : ∀ (l : List ℕ) (s : ℕ → ℂ) (r : ℝ), l.foldl (fun s lcv => (Engine.step cn thr nrm m o1 o2 (s, 0) lcv).1) s =
      (l.foldl (Engine.step cn thr nrm m o1 o2) (s, r)).1 := by
    intro l
    induction l with
    | nil => intro s r; rfl
    | cons x l ih => intro s r; exact ih _ _
  exact this _ _ _

/-- A controlled gate, with its calls interleaved in any way. -/
theorem controlled_interleaved {n t : ℕ} {cs : List ℕ} (hn : n ≤ 64) (hnd : (cs ++ [t]).Nodup)
    (hb : ∀ k ∈ cs ++ [t], k < n) (m : M2) {s s' : ℕ → ℂ}
    (h : Pool s ((parForMaskPlan 64 0 (2 ^ n) (sortPows (cs.map pow2 ++ [pow2 t]))).map
      (apply2x2Prog false 0 1 m ((cs.map pow2).foldl (· ||| ·) 0) ((cs.map pow2).foldl (· ||| ·) 0 ||| pow2 t))) s') :
    ∀ i < 2 ^ n, s' i = gate (AllAre true cs) t m.a m.b m.c m.d s i := by
  intro i hi
  have hsub : Sub cs ((cs.map pow2).foldl (· ||| ·) 0) := by
    intro k hk; rw [testBit_foldl_or] at hk; simpa using hk
  have htc : t ∉ cs := by
    intro h
    rw [List.nodup_append] at hnd
    exact hnd.2.2 t h t (by simp) rfl
  have hsort : sortPows (cs.map pow2 ++ [pow2 t]) = ((cs ++ [t]).mergeSort (· ≤ ·)).map (2 ^ ·) := by
    rw [← sortPows_map]
    simp [pow2]
  rw [hsort] at h
  have hv := valid_ctrl hn hnd hb hsub
  rw [apply2x2_interleaved hv _ _ _ _ h (σ := id) (fun l => List.Perm.refl l), fold_amp hv (σ := id) (fun l => List.Perm.refl l)]
  refine pairSpec_gate (cs := cs) (fun k => ?_) htc hsub (AllAre true cs) (fun i => ?_) m s hi
  · rw [mem_sort]; simp
  · simp only [AllAre, Pat, testBit_foldl_or, Nat.zero_testBit, Bool.false_or]
    exact forall₂_congr fun c hc => by simp [hc]

/-- The hypotheses hold for a Toffoli gate on five qubits; the sequential execution is an interleaving. -/
example (s : ℕ → ℂ) : ∃ s', Pool s ((parForMaskPlan 64 0 (2 ^ 5) (sortPows ([3, 1].map pow2 ++ [pow2 4]))).map
    (apply2x2Prog false 0 1 pauliX (([3, 1].map pow2).foldl (· ||| ·) 0) (([3, 1].map pow2).foldl (· ||| ·) 0 ||| pow2 4))) s' ∧
    s' 26 = s 10 := by
  refine ⟨_, pool_seq _ _, ?_⟩
  rw [controlled_interleaved (n := 5) (t := 4) (cs := [3, 1]) (by norm_num) (by decide) (by decide) pauliX (pool_seq _ _) 26
    (by norm_num)]
  rw [gate, if_pos (by unfold AllAre; decide), if_pos (by decide)]
  simp [pauliX, flipBit]

/-! ## The other loops -/

theorem plan_all (n : ℕ) : (parForPlan 0 (2 ^ n)).Nodup ∧ ∀ i, i ∈ parForPlan 0 (2 ^ n) ↔ i < 2 ^ n := by
  refine ⟨?_, fun i => mem_parForPlan⟩
  unfold parForPlan
  exact List.nodup_range'

/-- `XMask`. -/
theorem xMask_interleaved {n mask : ℕ} (hm : mask < 2 ^ n) (h0 : mask ≠ 0) {s s' : ℕ → ℂ}
    (h : Pool s ((parForPlan 0 (2 ^ n)).map (xMaskProg n mask)) s') : ∀ i < 2 ^ n, s' i = s (i ^^^ mask) := by
  obtain ⟨hnd, hmem⟩ := plan_all n
  have hrf : RaceFree ((parForPlan 0 (2 ^ n)).map (xMaskProg n mask)) := by
    have key : ∀ x ∈ parForPlan 0 (2 ^ n), ∀ i, (xMaskProg n mask x).Writes i ∨ (xMaskProg n mask x).Reads i →
        ¬ (x &&& mask < (x &&& mask) ^^^ mask) ∧ (i = x ^^^ mask ∨ i = x) := by
      intro x hx i hi
      obtain ⟨e1, e2⟩ := and_or_other hm ((hmem x).1 hx)
      unfold xMaskProg at hi
      dsimp only at hi
      split at hi
      · rcases hi with hi | hi <;> cases hi
      · rename_i hlt
        rw [e1, e2] at hi
        exact ⟨hlt, pair_touch (K := fun y0 y1 => (y1, y0)) hi⟩
    refine raceFree_map hnd (fun x i => ¬ (x &&& mask < (x &&& mask) ^^^ mask) ∧ (i = x ^^^ mask ∨ i = x))
      (fun x hx i h => key x hx i (Or.inl h)) (fun x hx y _ i h _ => key x hx i (Or.inr h)) ?_
    have cross : ∀ x y : ℕ, ¬ (x &&& mask < (x &&& mask) ^^^ mask) → ¬ (y &&& mask < (y &&& mask) ^^^ mask) →
        x ^^^ mask = y → False := by
      rintro x y h1 h2 rfl
      have e : (x ^^^ mask) &&& mask = (x &&& mask) ^^^ mask := by
        apply Nat.eq_of_testBit_eq
        intro k
        simp only [Nat.testBit_and, Nat.testBit_xor]
        cases x.testBit k <;> cases mask.testBit k <;> rfl
      rw [e, Nat.xor_assoc, Nat.xor_self, Nat.xor_zero] at h2
      have e' : (x &&& mask) ^^^ mask = x &&& mask := by omega
      apply h0
      have : (x &&& mask) ^^^ ((x &&& mask) ^^^ mask) = (x &&& mask) ^^^ (x &&& mask) := by rw [e']
      rwa [← Nat.xor_assoc, Nat.xor_self, Nat.zero_xor] at this
    rintro x - y - i ⟨h1, rfl | rfl⟩ ⟨h2, h | h⟩
    · exact Nat.xor_left_injective h
    · exact (cross x y h1 h2 h).elim
    · exact (cross y i h2 h1 h.symm).elim
    · exact h
  intro i hi
  rw [pool_eq hrf h, runAll_map _ _ (xMaskStep n mask)]
  · exact xMask_fold hm h0 hnd hmem s i hi
  · intro x s
    unfold xMaskProg xMaskStep
    dsimp only
    split <;> rfl

/-- Loops whose calls read and write only their own cell. -/
theorem own_raceFree {l : List ℕ} (hnd : l.Nodup) {f : ℕ → Prog ℕ ℂ} (hf : ∀ x ∈ l, ∀ i, (f x).Writes i ∨ (f x).Reads i → i = x) :
    RaceFree (l.map f) := by
  refine raceFree_map hnd (fun x i => i = x) (fun x hx i h => hf x hx i (Or.inl h)) (fun x hx y _ i h _ => hf x hx i (Or.inr h)) ?_
  rintro x - y - i rfl h
  exact h

theorem own_touch {a i : ℕ} {f : ℂ → ℂ} (h : (Prog.read a fun y => .write a (f y) .done).Writes i ∨
    (Prog.read a fun y => .write a (f y) .done).Reads i) : i = a := by
  rcases h with h | h
  · rcases h with _ | _ | ⟨_, _, _, _, h⟩
    rcases h with _ | ⟨_, _, _, _, h⟩
    · rfl
    cases h
  · rcases h with _ | _ | ⟨_, _, _, _, h⟩
    · rfl
    rcases h with _ | ⟨_, _, _, _, h⟩
    cases h

/-- `PhaseParity`. -/
theorem phaseParity_interleaved {n mask : ℕ} (hm : mask < 2 ^ n) (fac facAdj : ℂ) {s s' : ℕ → ℂ}
    (h : Pool s ((parForPlan 0 (2 ^ n)).map (phaseParityProg n mask fac facAdj)) s') :
    s' = (parForPlan 0 (2 ^ n)).foldl (phaseParityStep n mask fac facAdj) s := by
  obtain ⟨hnd, hmem⟩ := plan_all n
  rw [pool_eq (own_raceFree hnd fun x hx i hi => ?_) h]
  · exact runAll_map _ _ _ (fun x s => rfl) s
  · have e := (and_or_other hm ((hmem x).1 hx)).1
    unfold phaseParityProg at hi
    dsimp only at hi
    rw [e] at hi
    exact own_touch (f := fun y => (if parityBit (x &&& mask) ≠ 0 then fac else facAdj) * y) hi

/-- `ApplyM`, the collapse of a measurement. -/
theorem applyM_interleaved {e : Eng} (regMask result : ℕ) (nrm : ℂ) {s' : ℕ → ℂ}
    (h : Pool e.amp ((parForPlan 0 (2 ^ e.n)).map (applyMProg regMask result nrm)) s') :
    s' = (applyM id e regMask result nrm).amp := by
  obtain ⟨hnd, hmem⟩ := plan_all e.n
  rw [pool_eq (own_raceFree hnd fun x hx i hi => ?_) h]
  · refine runAll_map _ _ _ (fun x s => ?_) _
    unfold applyMProg
    split <;> rfl
  · unfold applyMProg at hi
    split at hi
    · exact own_touch hi
    · rcases hi with hi | hi
      · rcases hi with _ | ⟨_, _, _, _, h⟩
        · rfl
        cases h
      · rcases hi with _ | ⟨_, _, _, _, h⟩
        cases h

/-- `UniformlyControlledSingleBit`. -/
theorem uniformlyControlled_interleaved {n t : ℕ} (hn : n < 64) (ht : t < n) (controls : List ℕ) (ms : ℕ → M2)
    (skipPowers : List ℕ) (skipVal : ℕ) (nrm : ℂ) {s s' : ℕ → ℂ}
    (h : Pool s ((parForSkipPlan 64 0 (2 ^ n) (pow2 t) 1).map (ucProg controls t ms skipPowers skipVal nrm)) s') :
    s' = (parForSkipPlan 64 0 (2 ^ n) (pow2 t) 1).foldl (ucStep controls t ms skipPowers skipVal nrm) s := by
  obtain ⟨hnd, hmem⟩ := plan_skip hn ht (σ := id) (fun l => List.Perm.refl l)
  have hmem : ∀ i, i ∈ parForSkipPlan 64 0 (2 ^ n) (pow2 t) 1 ↔ i < 2 ^ n ∧ i.testBit t = false := hmem
  rw [pool_eq ?_ h]
  · exact runAll_map _ _ _ (fun x s => rfl) s
  have key : ∀ x i, (ucProg controls t ms skipPowers skipVal nrm x).Writes i ∨
      (ucProg controls t ms skipPowers skipVal nrm x).Reads i → i = x ∨ i = x ||| pow2 t := fun x i hi =>
    pair_touch (K := fun y0 y1 =>
      (nrm * ((ms (ucIndex skipPowers skipVal (ctrlOffset controls x))).a * y0 +
        (ms (ucIndex skipPowers skipVal (ctrlOffset controls x))).b * y1),
       nrm * ((ms (ucIndex skipPowers skipVal (ctrlOffset controls x))).c * y0 +
        (ms (ucIndex skipPowers skipVal (ctrlOffset controls x))).d * y1))) hi
  have hset : ∀ x : ℕ, (x ||| pow2 t).testBit t = true := fun x => by
    rw [Nat.testBit_or, pow2, Nat.testBit_two_pow_self, Bool.or_true]
  refine raceFree_map hnd (fun x i => i = x ∨ i = x ||| pow2 t) (fun x _ i h => key x i (Or.inl h))
    (fun x _ y _ i h _ => key x i (Or.inr h)) ?_
  rintro x hx y hy i (rfl | rfl) (h | h)
  · exact h
  · have := hset y
    rw [← h, ((hmem i).1 hx).2] at this
    exact absurd this (by simp)
  · have := hset x
    rw [h, ((hmem y).1 hy).2] at this
    exact absurd this (by simp)
  · have e1 := or_flip ((hmem x).1 hx).2
    have e2 := or_flip ((hmem y).1 hy).2
    rw [pow2, e1, e2] at h
    exact Nat.xor_left_injective h

/-- The loops that copy every amplitude to a cell of a new array: different amplitudes must go to different cells. -/
theorem copy_interleaved {l : List ℕ} (hnd : l.Nodup) {out : ℕ → ℕ} (hinj : ∀ x ∈ l, ∀ y ∈ l, out x = out y → x = y)
    {amp junk : ℕ → ℂ} {s' : ℕ ⊕ ℕ → ℂ} (h : Pool (Sum.elim amp junk) (l.map (copyProg out)) s') :
    ∀ x ∈ l, s' (.inr (out x)) = amp x := by
  have key : ∀ (x : ℕ) (i : ℕ ⊕ ℕ), (copyProg out x).Writes i → i = .inr (out x) := by
    rintro x i (_ | _ | ⟨_, _, _, _, h⟩)
    rcases h with _ | ⟨_, _, _, _, h⟩
    · rfl
    cases h
  have key' : ∀ (x : ℕ) (i : ℕ ⊕ ℕ), (copyProg out x).Reads i → i = .inl x := by
    rintro x i (_ | _ | ⟨_, _, _, _, h⟩)
    · rfl
    rcases h with _ | ⟨_, _, _, _, h⟩
    cases h
  have hrf : RaceFree (l.map (copyProg out)) := by
    refine raceFree_map hnd (fun x i => i = .inr (out x)) (fun x _ i h => key x i h) ?_ ?_
    · intro x _ y _ i h1 h2
      rw [key' x i h1] at h2
      exact absurd (key y _ h2) (by simp)
    · rintro x hx y hy i rfl h
      exact hinj x hx y hy (Sum.inr.inj h)
  rw [pool_eq hrf h]
  intro x hx
  have gen : ∀ (l : List ℕ) (s : ℕ ⊕ ℕ → ℂ), (∀ i, s (.inl i) = amp i) → l.Nodup →
      (∀ x ∈ l, ∀ y ∈ l, out x = out y → x = y) → (∀ i, runAll s (l.map (copyProg out)) (.inl i) = amp i) ∧
      (∀ j, (∀ x ∈ l, out x ≠ j) → runAll s (l.map (copyProg out)) (.inr j) = s (.inr j)) ∧
      ∀ x ∈ l, runAll s (l.map (copyProg out)) (.inr (out x)) = amp x := by
    intro l
    induction l with
    | nil => intro s hs _ _; exact ⟨hs, fun _ _ => rfl, by simp⟩
    | cons y l ih =>
      intro s hs hnd hinj
      rw [List.nodup_cons] at hnd
      have hrun : (copyProg out y).run s = Function.update s (.inr (out y)) (amp y) := by
        rw [← hs y]; rfl
      obtain ⟨i1, i2, i3⟩ := ih (Function.update s (.inr (out y)) (amp y)) (fun i => by simp [hs]) hnd.2
        (fun x hx z hz => hinj x (by simp [hx]) z (by simp [hz]))
      have hcons : runAll s ((y :: l).map (copyProg out)) =
          runAll (Function.update s (.inr (out y)) (amp y)) (l.map (copyProg out)) := by
        rw [← hrun]; rfl
      rw [hcons]
      refine ⟨i1, fun j hj => ?_, fun x hx => ?_⟩
      · rw [i2 j fun x hx => hj x (by simp [hx]), Function.update_of_ne]
        intro e
        exact hj y (by simp) (Sum.inr.inj e).symm
      · rcases List.mem_cons.1 hx with rfl | hx
        · rw [i2 (out x) fun z hz e => ?_, Function.update_self]
          have := hinj z (by simp [hz]) x (by simp) e
          subst this
          exact hnd.1 hz
        · exact i3 x hx
  exact (gen l _ (fun i => rfl) hnd hinj).2.2 x hx

/-- `INC`: every interleaving adds. -/
theorem inc_interleaved {n toAdd start length : ℕ} (hn : n < 64) (hs : start + length ≤ n) {amp junk : ℕ → ℂ}
    {s' : ℕ ⊕ ℕ → ℂ} (h : Pool (Sum.elim amp junk) ((parForPlan 0 (2 ^ n)).map (copyProg (incOut n toAdd start length))) s') :
    ∀ i < 2 ^ n, s' (.inr (setField start length (field start length i + toAdd) i)) = amp i := by
  obtain ⟨hnd, hmem⟩ := plan_all n
  have hout : ∀ i < 2 ^ n, incOut n toAdd start length i = setField start length (field start length i + toAdd) i := by
    intro i hi
    unfold incOut
    dsimp only
    rw [read_field, mask_eq_mod, mask_eq_mod, write_field hs hi (Nat.mod_lt _ (by positivity)), setField_mod]
    apply setField_congr
    rw [Nat.mod_mod_of_dvd _ (pow_dvd_pow 2 (by omega)), ocl, Nat.mod_mod_of_dvd _ (pow_dvd_pow 2 (by omega)), Nat.add_mod_mod]
  intro i hi
  rw [← hout i hi]
  refine copy_interleaved hnd (fun x hx y hy e => ?_) h i ((hmem i).2 hi)
  rw [hout x ((hmem x).1 hx), hout y ((hmem y).1 hy)] at e
  exact addField_inj e

/-! ## `DecomposeDispose` -/

/-- Any two calls of the first loop of `DecomposeDispose` race: both read and write the same angles. -/
theorem decompose_races (floor : ℝ) (amp : ℕ → ℂ) (start length : ℕ) {x y : ℕ}
    (hx : floor < Complex.normSq (amp (remIdx start length x))) (hy : floor < Complex.normSq (amp (remIdx start length y))) :
    ¬ Apart (decomposeProg floor amp start length x) (decomposeProg floor amp start length y) := by
  have hr : List.range (2 ^ length) = 0 :: (List.range (2 ^ length - 1)).map Nat.succ := by
    rw [← List.range_succ_eq_map]
    congr 1
    have := Nat.one_le_two_pow (n := length)
    omega
  have key : ∀ x, floor < Complex.normSq (amp (remIdx start length x)) →
      (decomposeProg floor amp start length x).Writes (.partAngle 0) := by
    intro x hx
    unfold decomposeProg
    rw [hr, decomposeInner]
    refine .read _ _ _ 0 (.write _ _ _ _ ?_)
    rw [Nat.zero_shiftLeft, Nat.or_zero, if_pos hx]
    exact .read _ _ _ 0 (.here _ _ _)
  intro h
  exact ((h (.partAngle 0)).1 (key x hx)).1 (key y hy)

theorem inner_off (floor : ℝ) (amp : ℕ → ℂ) (lcv : ℕ) {k : ℕ} : ∀ (l : List ℕ), k ∉ l →
    ¬ (decomposeInner floor amp lcv l).Writes (.partAngle k) := by
  intro l
  induction l with
  | nil => intro _ h; cases h
  | cons a l ih =>
    intro hk h
    rw [decomposeInner] at h
    rcases h with _ | _ | ⟨_, _, _, _, h⟩
    rcases h with _ | ⟨_, _, _, _, h⟩
    split at h
    · rcases h with _ | _ | ⟨_, _, _, _, h⟩
      rcases h with _ | ⟨_, _, _, _, h⟩
      · simp at hk
      · exact ih (fun h => hk (by simp [h])) h
    · exact ih (fun h => hk (by simp [h])) h

/-- The angle that the two calls add up when one runs after the other. -/
theorem decompose_sequential (floor : ℝ) (amp : ℕ → ℂ) (start length : ℕ) {x : ℕ} (s : Cell → ℝ)
    (hx : floor < Complex.normSq (amp (remIdx start length x))) :
    (decomposeProg floor amp start length x).run s (.partAngle 0) = s (.partAngle 0) +
      Complex.arg (amp (remIdx start length x)) * Complex.normSq (amp (remIdx start length x)) := by
  have hr : List.range (2 ^ length) = 0 :: (List.range (2 ^ length - 1)).map Nat.succ := by
    rw [← List.range_succ_eq_map]
    congr 1
    have := Nat.one_le_two_pow (n := length)
    omega
  unfold decomposeProg
  rw [hr, decomposeInner, Prog.run, Prog.run, Nat.zero_shiftLeft, Nat.or_zero, if_pos hx, Prog.run, Prog.run,
    run_off (inner_off _ _ _ _ (by simp)), Function.update_self, Function.update_of_ne (by simp)]

/-- Some interleaving of the two calls loses what one of them adds. -/
theorem decompose_loses (floor : ℝ) (amp : ℕ → ℂ) (start length : ℕ) {x y : ℕ} (s : Cell → ℝ)
    (hx : floor < Complex.normSq (amp (remIdx start length x))) :
    ∃ s', Pool s [decomposeProg floor amp start length x, decomposeProg floor amp start length y] s' ∧
      s' (.partAngle 0) = s (.partAngle 0) +
        Complex.arg (amp (remIdx start length x)) * Complex.normSq (amp (remIdx start length x)) := by
  have hr : List.range (2 ^ length) = 0 :: (List.range (2 ^ length - 1)).map Nat.succ := by
    rw [← List.range_succ_eq_map]
    congr 1
    have := Nat.one_le_two_pow (n := length)
    omega
  set f := fun k => amp (remIdx start length x ||| (k <<< start)) with hf
  have hf0 : f 0 = amp (remIdx start length x) := by rw [hf]; simp
  set q := decomposeProg floor amp start length y with hq
  set rest := decomposeInner floor f x ((List.range (2 ^ length - 1)).map Nat.succ) with hrest
  have hp : decomposeProg floor amp start length x = .read (.remProb x) fun v => .write (.remProb x) (v + Complex.normSq (f 0)) <|
      .read (.partAngle 0) fun w => .write (.partAngle 0) (w + Complex.arg (f 0) * Complex.normSq (f 0)) rest := by
    unfold decomposeProg
    rw [← hf, hr, decomposeInner]
    rw [if_pos (by rw [hf0]; exact hx)]
  set s1 := Function.update s (Cell.remProb x) (s (.remProb x) + Complex.normSq (f 0)) with hs1
  have hs1v : s1 (.partAngle 0) = s (.partAngle 0) := by rw [hs1, Function.update_of_ne (by simp)]
  set w := Prog.write (Cell.partAngle 0) (s1 (.partAngle 0) + Complex.arg (f 0) * Complex.normSq (f 0)) rest with hw
  have c1 : Relation.ReflTransGen Step (s, [decomposeProg floor amp start length x, q]) (s1, [w, q]) := by
    rw [hp]
    refine .head (.mk [] [q] (.read s _ _)) (.head (.mk [] [q] (.write s _ _ _)) (.head (.mk [] [q] (.read s1 _ _)) ?_))
    exact .refl
  have c2 := run_steps q s1 [w] []
  have c3 := run_steps w (q.run s1) [] [.done]
  refine ⟨w.run (q.run s1), ⟨[.done, .done], (c1.trans c2).trans c3, by simp⟩, ?_⟩
  rw [hw, Prog.run, hrest, run_off (inner_off _ _ _ _ (by simp)), Function.update_self, hs1v, hf0]

/-- Two calls that both add an angle that is not zero: the result depends on the interleaving. -/
theorem decompose_wrong_interleaving (floor : ℝ) (amp : ℕ → ℂ) (start length : ℕ) {x y : ℕ} (s : Cell → ℝ)
    (hx : floor < Complex.normSq (amp (remIdx start length x))) (hy : floor < Complex.normSq (amp (remIdx start length y)))
    (hf : 0 ≤ floor) (ha : Complex.arg (amp (remIdx start length y)) ≠ 0) : ∃ s1 s2,
      Pool s [decomposeProg floor amp start length x, decomposeProg floor amp start length y] s1 ∧
      Pool s [decomposeProg floor amp start length x, decomposeProg floor amp start length y] s2 ∧
      s1 (.partAngle 0) ≠ s2 (.partAngle 0) := by
  obtain ⟨s1, h1, e1⟩ := decompose_loses floor amp start length (y := y) s hx
  refine ⟨s1, _, h1, pool_seq _ _, ?_⟩
  rw [e1]
  show _ ≠ (decomposeProg floor amp start length y).run ((decomposeProg floor amp start length x).run s) (.partAngle 0)
  rw [decompose_sequential _ _ _ _ _ hy, decompose_sequential _ _ _ _ _ hx]
  have : Complex.arg (amp (remIdx start length y)) * Complex.normSq (amp (remIdx start length y)) ≠ 0 :=
    mul_ne_zero ha (by linarith)
  intro h
  exact this (by linarith)

/-- The hypotheses hold for the state whose amplitudes are all `i`. -/
example : ∃ s1 s2, Pool (fun _ => 0) [decomposeProg 0 (fun _ => Complex.I) 5 3 0, decomposeProg 0 (fun _ => Complex.I) 5 3 4096] s1 ∧
    Pool (fun _ => 0) [decomposeProg 0 (fun _ => Complex.I) 5 3 0, decomposeProg 0 (fun _ => Complex.I) 5 3 4096] s2 ∧
    s1 (.partAngle 0) ≠ s2 (.partAngle 0) :=
  decompose_wrong_interleaving 0 (fun _ => Complex.I) 5 3 (fun _ => 0) (by simp) (by simp) le_rfl
    (by rw [Complex.arg_I]; positivity)

end Verif.Race
