import Verif.Model.Defaults
import Verif.Props.EngineUniform
import Verif.Lemmas.Fourier

/-!
The state transformation of a list of calls, and what it is for the default bodies.
-/

namespace Verif.Defaults

open Verif.Engine Verif.Spec Verif.Bits Complex Classical

/-- The transformation of one call. -/
noncomputable def Prim.sem : Prim → (ℕ → ℂ) → ℕ → ℂ
  | .mtrx m t, s => gate (fun _ => True) t m.a m.b m.c m.d s
  | .mc cs m t, s => gate (AllAre true cs) t m.a m.b m.c m.d s

/-- The transformation of a list of calls. -/
noncomputable def sem (p : List Prim) (s : ℕ → ℂ) : ℕ → ℂ := p.foldl (fun s o => o.sem s) s

theorem sem_nil (s : ℕ → ℂ) : sem [] s = s := rfl
theorem sem_cons (o : Prim) (p : List Prim) (s : ℕ → ℂ) : sem (o :: p) s = sem p (o.sem s) := rfl
theorem sem_append (p q : List Prim) (s : ℕ → ℂ) : sem (p ++ q) s = sem q (sem p s) := by simp [sem]

/-- Calls a simulator accepts. -/
def Prim.Ok (n : ℕ) : Prim → Prop
  | .mtrx _ t => t < n
  | .mc cs _ t => (cs ++ [t]).Nodup ∧ ∀ k ∈ cs ++ [t], k < n

/-- The matrix of the call. -/
def Prim.m : Prim → M2
  | .mtrx m _ => m
  | .mc _ m _ => m

theorem gate_ext {p q : ℕ → Prop} [DecidablePred p] [DecidablePred q] (h : ∀ i, p i ↔ q i) (t : ℕ) (a b c d : ℂ) (s : ℕ → ℂ) :
    gate p t a b c d s = gate q t a b c d s := by
  funext i
  unfold gate
  by_cases hp : p i
  · rw [if_pos hp, if_pos ((h i).1 hp)]
  · rw [if_neg hp, if_neg (fun hq => hp ((h i).2 hq))]

theorem gate_smul (p : ℕ → Prop) [DecidablePred p] (t : ℕ) (a b c d k : ℂ) (s : ℕ → ℂ) (i : ℕ) :
    gate p t a b c d (fun j => k * s j) i = k * gate p t a b c d s i := by
  unfold gate; split_ifs <;> ring

theorem gate_congr_lt {n : ℕ} {p : ℕ → Prop} [DecidablePred p] {t : ℕ} (ht : t < n) (a b c d : ℂ) {s s' : ℕ → ℂ}
    (h : ∀ i < 2 ^ n, s i = s' i) {i : ℕ} (hi : i < 2 ^ n) : gate p t a b c d s i = gate p t a b c d s' i := by
  unfold gate; rw [h i hi, h _ (flip_lt ht hi)]

theorem Prim.sem_congr {n : ℕ} {o : Prim} (ho : o.Ok n) {s s' : ℕ → ℂ} (h : ∀ i < 2 ^ n, s i = s' i) :
    ∀ i < 2 ^ n, o.sem s i = o.sem s' i := by
  intro i hi
  cases o with
  | mtrx m t => exact gate_congr_lt (p := fun _ => True) ho _ _ _ _ h hi
  | mc cs m t => exact gate_congr_lt (p := AllAre true cs) (ho.2 t (by simp)) _ _ _ _ h hi

theorem sem_congr {n : ℕ} {p : List Prim} (hp : ∀ o ∈ p, o.Ok n) : ∀ {s s' : ℕ → ℂ}, (∀ i < 2 ^ n, s i = s' i) →
    ∀ i < 2 ^ n, sem p s i = sem p s' i := by
  induction p with
  | nil => intro s s' h; exact h
  | cons o p ih =>
    intro s s' h
    rw [sem_cons, sem_cons]
    exact ih (fun o' ho' => hp o' (by simp [ho'])) (Prim.sem_congr (hp o (by simp)) h)

theorem Prim.sem_smul (o : Prim) (k : ℂ) (s : ℕ → ℂ) : o.sem (fun j => k * s j) = fun i => k * o.sem s i := by
  cases o with
  | mtrx m t => exact funext fun i => gate_smul (fun _ => True) ..
  | mc cs m t => exact funext fun i => gate_smul (AllAre true cs) ..

theorem sem_smul (p : List Prim) (k : ℂ) : ∀ s : ℕ → ℂ, sem p (fun j => k * s j) = fun i => k * sem p s i := by
  induction p with
  | nil => intro s; rfl
  | cons o p ih => intro s; rw [sem_cons, sem_cons, Prim.sem_smul, ih]

/-! ## Single calls -/

theorem sem_invert (tr bl : ℂ) (q : ℕ) (s : ℕ → ℂ) : sem (invert tr bl q) s = gate (fun _ => True) q 0 tr bl 0 s := rfl

theorem sem_mcInvert (cs : List ℕ) (tr bl : ℂ) (q : ℕ) (s : ℕ → ℂ) :
    sem (mcInvert cs tr bl q) s = gate (AllAre true cs) q 0 tr bl 0 s := rfl

theorem sem_mcPhase (cs : List ℕ) (tl br : ℂ) (q : ℕ) (s : ℕ → ℂ) :
    sem (mcPhase cs tl br q) s = gate (AllAre true cs) q tl 0 0 br s := by
  unfold mcPhase
  split_ifs with h
  · have h1 : tl = 1 := (sub_eq_zero.1 h.1).symm
    have h2 : br = 1 := (sub_eq_zero.1 h.2).symm
    rw [h1, h2, sem_nil]; funext i; rw [gate_id]
  · rfl

theorem sem_x (q : ℕ) (s : ℕ → ℂ) : sem (x q) s = fun i => s (flipBit q i) := by
  rw [x, sem_invert]; funext i; unfold gate; rw [if_pos trivial]; split_ifs <;> ring_nf

theorem sem_flatMap_x (l : List ℕ) (s : ℕ → ℂ) : sem (l.flatMap x) s = fun i => s (l.foldr (fun q i => flipBit q i) i) := by
  induction l generalizing s with
  | nil => rfl
  | cons q l ih => rw [List.flatMap_cons, sem_append, sem_x, ih]; rfl

theorem sem_xMask (mask : ℕ) (s : ℕ → ℂ) : sem (xMask mask) s = fun i => s (i ^^^ mask) := by
  rw [xMask, sem_flatMap_x]; funext i; rw [foldr_flip]

theorem testBit_ctrlMask (cs : List ℕ) (k : ℕ) : (ctrlMask cs).testBit k = decide (k ∈ cs) := by
  have h : ∀ (l : List ℕ) (m : ℕ), (l.foldl (fun m c => m ||| 2 ^ c) m).testBit k = (m.testBit k || decide (k ∈ l)) := by
    intro l
    induction l with
    | nil => intro m; simp
    | cons c l ih =>
      intro m
      rw [List.foldl_cons, ih, Nat.testBit_or, Nat.testBit_two_pow]
      by_cases hk : k = c
      · subst hk; simp
      · have hk' : ¬ c = k := fun h => hk h.symm
        simp [hk, hk']
  rw [ctrlMask, h]; simp

theorem flip_xor (t i m : ℕ) : flipBit t i ^^^ m = flipBit t (i ^^^ m) := by
  unfold flipBit; rw [Nat.xor_assoc, Nat.xor_comm (2 ^ t) m, ← Nat.xor_assoc]

theorem swapBits_xor {q1 q2 i m : ℕ} (h1 : m.testBit q1 = false) (h2 : m.testBit q2 = false) :
    swapBits q1 q2 i ^^^ m = swapBits q1 q2 (i ^^^ m) := by
  have e : ∀ q, m.testBit q = false → (i ^^^ m).testBit q = i.testBit q := by intro q hq; simp [hq]
  unfold swapBits
  rw [e _ h1, e _ h2]
  split_ifs
  · rfl
  · rw [Nat.xor_assoc, Nat.xor_comm _ m, ← Nat.xor_assoc]

/-- A gate between two copies of `XMask`. -/
theorem gate_xorMask (p : ℕ → Prop) [DecidablePred p] {t mask : ℕ} (ht : mask.testBit t = false) (a b c d : ℂ) (s : ℕ → ℂ) :
    (fun i => gate p t a b c d (fun j => s (j ^^^ mask)) (i ^^^ mask)) = gate (fun i => p (i ^^^ mask)) t a b c d s := by
  funext i
  unfold gate
  have e : (i ^^^ mask).testBit t = i.testBit t := by simp [ht]
  simp only [e, flip_xor, Nat.xor_assoc, Nat.xor_self, Nat.xor_zero]

theorem exchange_xorMask (p : ℕ → Prop) [DecidablePred p] {q1 q2 mask : ℕ} (h1 : mask.testBit q1 = false)
    (h2 : mask.testBit q2 = false) (u v : ℂ) (s : ℕ → ℂ) :
    (fun i => exchange p q1 q2 u v (fun j => s (j ^^^ mask)) (i ^^^ mask)) = exchange (fun i => p (i ^^^ mask)) q1 q2 u v s := by
  funext i
  unfold exchange
  have e1 : (i ^^^ mask).testBit q1 = i.testBit q1 := by simp [h1]
  have e2 : (i ^^^ mask).testBit q2 = i.testBit q2 := by simp [h2]
  simp only [e1, e2, swapBits_xor h1 h2, Nat.xor_assoc, Nat.xor_self, Nat.xor_zero]

theorem allAre_ctrlMask (cs : List ℕ) (i : ℕ) : AllAre true cs (i ^^^ ctrlMask cs) ↔ AllAre false cs i := by
  unfold AllAre
  refine forall₂_congr fun c hc => ?_
  rw [Nat.testBit_xor, testBit_ctrlMask]
  simp [hc]

theorem sem_conj_xMask (mask : ℕ) (p : List Prim) (s : ℕ → ℂ) :
    sem (xMask mask ++ p ++ xMask mask) s = fun i => sem p (fun j => s (j ^^^ mask)) (i ^^^ mask) := by
  rw [sem_append, sem_append, sem_xMask, sem_xMask]

theorem ctrlMask_not {cs : List ℕ} {t : ℕ} (h : t ∉ cs) : (ctrlMask cs).testBit t = false := by
  rw [testBit_ctrlMask]; simp [h]

/-- A wrapped gate acts on zeros of the controls. -/
theorem sem_macWrapper {cs : List ℕ} {t : ℕ} (ht : t ∉ cs) {fn : List ℕ → List Prim} {a b c d : ℂ}
    (h : ∀ s, sem (fn cs) s = gate (AllAre true cs) t a b c d s) (s : ℕ → ℂ) :
    sem (macWrapper cs fn) s = gate (AllAre false cs) t a b c d s := by
  rw [macWrapper, sem_conj_xMask]
  simp only [h]
  rw [gate_xorMask _ (ctrlMask_not ht)]
  exact gate_ext (allAre_ctrlMask cs) ..

theorem sem_macPhase {cs : List ℕ} {t : ℕ} (ht : t ∉ cs) (tl br : ℂ) (s : ℕ → ℂ) :
    sem (macPhase cs tl br t) s = gate (AllAre false cs) t tl 0 0 br s := by
  unfold macPhase
  split_ifs with h
  · have h1 : tl = 1 := (sub_eq_zero.1 h.1).symm
    have h2 : br = 1 := (sub_eq_zero.1 h.2).symm
    rw [h1, h2, sem_nil]; funext i; rw [gate_id]
  · exact sem_macWrapper ht (fun s => sem_mcPhase ..) s

theorem sem_macInvert {cs : List ℕ} {t : ℕ} (ht : t ∉ cs) (tr bl : ℂ) (s : ℕ → ℂ) :
    sem (macInvert cs tr bl t) s = gate (AllAre false cs) t 0 tr bl 0 s :=
  sem_macWrapper ht (fun s => sem_mcInvert ..) s

theorem sem_macMtrx {cs : List ℕ} {t : ℕ} (ht : t ∉ cs) (m : M2) (s : ℕ → ℂ) :
    sem (macMtrx cs m t) s = gate (AllAre false cs) t m.a m.b m.c m.d s := by
  unfold macMtrx
  split_ifs with h1 h2
  · rw [sem_macPhase ht, h1.1, h1.2]
  · rw [sem_macInvert ht, h2.1, h2.2]
  · exact sem_macWrapper ht (fun s => rfl) s

/-- The basis states flipped at the controls `cs[j]` with bit `j` of `perm` equal to `v`. -/
theorem sem_xWhere {cs : List ℕ} (hnd : cs.Nodup) (v : Bool) (perm : ℕ) :
    ∃ mask : ℕ, (∀ s, sem (xWhere v cs perm) s = fun i => s (i ^^^ mask)) ∧
      (∀ k, k ∉ cs → mask.testBit k = false) ∧
      ∀ j (h : j < cs.length), mask.testBit cs[j] = decide (perm.testBit j = v) := by
  have key : ∀ m ≤ cs.length, ∃ mask : ℕ, (∀ s, sem ((List.range m).flatMap fun i =>
        if perm.testBit i = v then x (cs.getD i 0) else []) s = fun i => s (i ^^^ mask)) ∧
      (∀ k, k ∉ cs → mask.testBit k = false) ∧
      ∀ j (h : j < cs.length), mask.testBit cs[j] = decide (j < m ∧ perm.testBit j = v) := by
    intro m
    induction m with
    | zero => intro _; exact ⟨0, fun s => by simp [sem_nil], by simp, by simp⟩
    | succ m ih =>
      intro hm
      obtain ⟨mask, h1, h2, h3⟩ := ih (by omega)
      have hg : cs.getD m 0 = cs[m] := by simp [show m < cs.length by omega]
      by_cases hv : perm.testBit m = v
      · refine ⟨flipBit cs[m] mask, fun s => ?_, fun k hk => ?_, fun j hj => ?_⟩
        · rw [List.range_succ, List.flatMap_append, sem_append, h1]
          simp only [List.flatMap_cons, List.flatMap_nil, List.append_nil, if_pos hv, hg, sem_x]
          funext i; congr 1; unfold flipBit
          rw [Nat.xor_assoc, Nat.xor_comm _ mask]
        · have : k ≠ cs[m] := fun h => hk (h ▸ List.getElem_mem _)
          rw [testBit_flip, h2 k hk]; simp [this.symm, this]
        · rw [testBit_flip, h3 j hj]
          by_cases hjm : j = m
          · subst hjm; simp [hv]
          · have : cs[j] ≠ cs[m] := fun h => hjm ((List.Nodup.getElem_inj_iff hnd).1 h)
            have h4 : (j < m + 1) ↔ j < m := by omega
            simp [this, this.symm, h4]
      · refine ⟨mask, fun s => ?_, h2, fun j hj => ?_⟩
        · rw [List.range_succ, List.flatMap_append, sem_append, h1]
          simp [hv, sem_nil]
        · rw [h3 j hj]
          by_cases hjm : j = m
          · subst hjm; simp [hv]
          · have h4 : (j < m + 1) ↔ j < m := by omega
            simp [h4]
  obtain ⟨mask, h1, h2, h3⟩ := key cs.length le_rfl
  exact ⟨mask, h1, h2, fun j hj => by rw [h3 j hj]; simp [hj]⟩

theorem allAre_iff_getElem (v : Bool) (cs : List ℕ) (i : ℕ) : AllAre v cs i ↔ ∀ j (h : j < cs.length), i.testBit cs[j] = v := by
  unfold AllAre
  rw [List.forall_mem_iff_forall_getElem]

theorem sem_ucMtrx {cs : List ℕ} {t : ℕ} (hnd : (cs ++ [t]).Nodup) (m : M2) (perm : ℕ) (s : ℕ → ℂ) :
    sem (ucMtrx cs m t perm) s = gate (Matches perm cs) t m.a m.b m.c m.d s := by
  have ht : t ∉ cs := fun h => (List.nodup_append.1 hnd).2.2 t h t (by simp) rfl
  have hcs := (List.nodup_append.1 hnd).1
  unfold ucMtrx
  dsimp only
  split_ifs with hc
  · obtain ⟨mask, h1, h2, h3⟩ := sem_xWhere hcs false perm
    rw [sem_append, sem_append, h1, h1, sem_cons, sem_nil]
    show (fun i => gate (AllAre true cs) t m.a m.b m.c m.d (fun j => s (j ^^^ mask)) (i ^^^ mask)) = _
    rw [gate_xorMask _ (h2 t ht)]
    refine gate_ext (fun i => ?_) ..
    rw [allAre_iff_getElem, Matches]
    refine forall₂_congr fun j hj => ?_
    rw [Nat.testBit_xor, h3 j hj]
    cases i.testBit cs[j] <;> cases perm.testBit j <;> simp
  · obtain ⟨mask, h1, h2, h3⟩ := sem_xWhere hcs true perm
    rw [sem_append, sem_append, h1, h1, sem_macMtrx ht]
    show (fun i => gate (AllAre false cs) t m.a m.b m.c m.d (fun j => s (j ^^^ mask)) (i ^^^ mask)) = _
    rw [gate_xorMask _ (h2 t ht)]
    refine gate_ext (fun i => ?_) ..
    rw [allAre_iff_getElem, Matches]
    refine forall₂_congr fun j hj => ?_
    rw [Nat.testBit_xor, h3 j hj]
    cases i.testBit cs[j] <;> cases perm.testBit j <;> simp

end Verif.Defaults
