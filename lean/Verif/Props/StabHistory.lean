import Verif.Lemmas.StabMeas
import Verif.Props.StabGate

/-!
# C27: the tableau relations hold after every history
-/

namespace Verif.Stab

open Verif.Pauli Complex

variable {n : ℕ}

theorem run2_inv {f : Fin n → Fin n → Row n → Row n}
    (hsp : ∀ c t, c ≠ t → ∀ w v, sp (f c t w) (f c t v) = sp w v) (hr : ∀ c t, c ≠ t → ∀ w, ∃ s, (f c t w).r = sgn s w.r)
    {c t : ℕ} (hct : c ≠ t) {T T' : Tab n} (h : Inv T) (hT : run2 f c t T = some T') : Inv T' := by
  unfold run2 at hT
  split_ifs at hT with hb
  rw [Option.some.injEq] at hT
  subst hT
  have : (⟨c, hb.1⟩ : Fin n) ≠ ⟨t, hb.2⟩ := by simpa [Fin.ext_iff] using hct
  exact inv_parFor h (hsp _ _ this) (hr _ _ this)

theorem run1_inv {f : Fin n → Row n → Row n} (hsp : ∀ t w v, sp (f t w) (f t v) = sp w v)
    (hr : ∀ t w, ∃ s, (f t w).r = sgn s w.r) {t : ℕ} {T T' : Tab n} (h : Inv T) (hT : run1 f t T = some T') : Inv T' := by
  unfold run1 at hT
  split_ifs at hT with hb
  rw [Option.some.injEq] at hT
  subst hT
  exact inv_parFor h (hsp _) (hr _)

/-- Every gate on distinct qubits keeps the relations. -/
theorem gate_inv (scr : Row n) {g : Gate} (hg : g.Valid n) {T T' : Tab n} (h : Inv T) (hT : g.run scr T = some T') :
    Inv T' := by
  cases g with
  | cnot c t =>
    exact run2_inv (fun _ _ hct => sp_table2 hct (table_CNOT hct) (by decide)) (fun _ _ hct => r_table2 (table_CNOT hct))
      hg.2.2 h hT
  | antiCnot c t =>
    exact run2_inv (fun _ _ hct => sp_table2 hct (table_AntiCNOT hct) (by decide)) (fun _ _ hct => r_table2 (table_AntiCNOT hct))
      hg.2.2 h hT
  | cy c t =>
    exact run2_inv (fun _ _ hct => sp_table2 hct (table_CY hct) (by decide)) (fun _ _ hct => r_table2 (table_CY hct))
      hg.2.2 h hT
  | antiCy c t =>
    exact run2_inv (fun _ _ hct => sp_table2 hct (table_AntiCY hct) (by decide)) (fun _ _ hct => r_table2 (table_AntiCY hct))
      hg.2.2 h hT
  | cz c t =>
    exact run2_inv (fun _ _ hct => sp_table2 hct (table_CZ hct) (by decide)) (fun _ _ hct => r_table2 (table_CZ hct))
      hg.2.2 h hT
  | antiCz c t =>
    exact run2_inv (fun _ _ hct => sp_table2 hct (table_AntiCZ hct) (by decide)) (fun _ _ hct => r_table2 (table_AntiCZ hct))
      hg.2.2 h hT
  | swap c t =>
    simp only [Gate.run, if_neg hg.2.2] at hT
    exact run2_inv (fun _ _ hct => sp_table2 hct (table_Swap hct) (by decide)) (fun _ _ hct => r_table2 (table_Swap hct))
      hg.2.2 h hT
  | iswap c t =>
    simp only [Gate.run, if_neg hg.2.2] at hT
    exact run2_inv (fun _ _ hct => sp_table2 hct (table_ISwap hct) (by decide)) (fun _ _ hct => r_table2 (table_ISwap hct))
      hg.2.2 h hT
  | iiswap c t =>
    simp only [Gate.run, if_neg hg.2.2] at hT
    exact run2_inv (fun _ _ hct => sp_table2 hct (table_IISwap hct) (by decide)) (fun _ _ hct => r_table2 (table_IISwap hct))
      hg.2.2 h hT
  | h t => exact run1_inv (fun t => sp_table1 (table_H t) (by decide)) (fun t => r_table1 (table_H t)) h hT
  | x t => exact run1_inv (fun t => sp_table1 (table_X t) (by decide)) (fun t => r_table1 (table_X t)) h hT
  | y t => exact run1_inv (fun t => sp_table1 (table_Y t) (by decide)) (fun t => r_table1 (table_Y t)) h hT
  | s t => exact run1_inv (fun t => sp_table1 (table_S t) (by decide)) (fun t => r_table1 (table_S t)) h hT
  | is t => exact run1_inv (fun t => sp_table1 (table_IS t) (by decide)) (fun t => r_table1 (table_IS t)) h hT
  | z t =>
    simp only [Gate.run, Option.map_eq_some_iff] at hT
    obtain ⟨T1, h1, rfl⟩ := hT
    exact inv_scratch (inv_gaussian (run1_inv (fun t => sp_table1 (table_Z t) (by decide))
      (fun t => r_table1 (table_Z t)) h h1)) scr

/-- Every measurement keeps the relations, whether random, determinate, forced or only looked at. -/
theorem forceM_inv {T T' : Tab n} (h : Inv T) {t : ℕ} {result doForce doApply rnd v : Bool}
    (hT : forceM T t result doForce doApply rnd = some (v, T')) : Inv T' := by
  by_cases ht : t < n
  swap
  · unfold forceM at hT; rw [dif_neg ht] at hT; simp at hT
  by_cases h1 : (doForce && !doApply) = true
  · rw [Bool.and_eq_true] at h1
    obtain ⟨rfl, h2⟩ := h1
    obtain rfl : doApply = false := by simpa using h2
    rw [forceM_skip T ht, Option.some.injEq, Prod.mk.injEq] at hT
    rw [← hT.2]; exact h
  rw [Bool.not_eq_true] at h1
  cases hf : findRow n (fun p => (T (p + n)).x ⟨t, ht⟩) with
  | some p =>
    rw [forceM_rand T ht _ _ _ _ h1 hf, Option.some.injEq, Prod.mk.injEq] at hT
    rw [← hT.2]
    have hp := findRow_some hf
    cases doApply
    · exact h
    · exact collapse_inv h hp.1 hp.2.1 _
  | none =>
    cases hm : findRow n (fun m => (T m).x ⟨t, ht⟩) with
    | none =>
      rw [forceM_zero T ht _ _ _ _ h1 hf hm, Option.some.injEq, Prod.mk.injEq] at hT
      rw [← hT.2]; exact h
    | some m =>
      rw [forceM_det T ht _ _ _ _ h1 hf hm] at hT
      split_ifs at hT
      simp only [Option.some.injEq, Prod.mk.injEq] at hT
      rw [← hT.2, scratchRow_eq (findRow_some hm).1]
      exact inv_scratch h _

theorem initTab_inv (scr : Row n) : Inv (initTab n scr) := by
  have hx : ∀ i (hi : i < n), initTab n scr i = xRow ⟨i, hi⟩ := fun i hi => by
    unfold initTab; rw [dif_pos hi]
  have hz : ∀ i (h1 : n ≤ i) (h2 : i < 2 * n), initTab n scr i = zRow ⟨i - n, by omega⟩ 0 := fun i h1 h2 => by
    unfold initTab; rw [dif_neg (by omega), dif_pos (by omega)]
  constructor
  · intro i hi
    by_cases h : i < n
    · rw [hx i h]; exact Or.inl rfl
    · rw [hz i (by omega) hi]; exact Or.inl rfl
  · intro i j hi hj
    by_cases h : i < n <;> by_cases h' : j < n
    · rw [hx i h, hx j h', sp_xRow, if_neg (by simp [xRow]), if_neg (by unfold Partner; omega)]
    · rw [hx i h, hz j (by omega) hj, sp_zRow]
      simp only [xRow, decide_eq_true_eq, Fin.mk.injEq]
      refine if_congr ?_ rfl rfl
      unfold Partner; omega
    · rw [hz i (by omega) hi, hx j h', sp_comm, sp_zRow]
      simp only [xRow, decide_eq_true_eq, Fin.mk.injEq]
      refine if_congr ?_ rfl rfl
      unfold Partner; omega
    · rw [hz i (by omega) hi, hz j (by omega) hj, sp_zRow, if_neg (by simp [zRow]), if_neg (by unfold Partner; omega)]

/-- `SetPermutation` establishes the relations. -/
theorem setPermutation_inv (scr : Row n) (perm : ℕ) : Inv (setPermutation n scr perm) := by
  unfold setPermutation
  refine foldl_ind Inv _ _ ?_ _ (initTab_inv scr)
  intro T hT j _
  split_ifs
  · exact inv_parFor hT (sp_table1 (table_X j) (by decide)) (r_table1 (table_X j))
  · exact hT

/-- The gates of a history act on distinct qubits of the register. -/
def Call.Valid : Call n → Prop
  | .gate g _ => g.Valid n
  | _ => True

/-- After every history of gates, measurements and read-outs from any permutation state, a row anticommutes with its partner
and with no other row, and every phase is `+1` or `-1`. -/
theorem history_inv (scr : Row n) (perm : ℕ) (cs : List (Call n)) (hcs : ∀ c ∈ cs, c.Valid) {T : Tab n}
    (hT : runCalls cs (setPermutation n scr perm) = some T) : Inv T := by
  have key : ∀ (cs : List (Call n)) (T0 : Tab n), (∀ c ∈ cs, c.Valid) → Inv T0 → runCalls cs T0 = some T → Inv T := by
    intro cs
    induction cs with
    | nil =>
      intro T0 _ h0 h
      simp only [runCalls, Option.some.injEq] at h
      rw [← h]; exact h0
    | cons c cs ih =>
      intro T0 hv h0 h
      simp only [runCalls, Option.bind_eq_some_iff] at h
      obtain ⟨T1, h1, h2⟩ := h
      refine ih T1 (fun c hc => hv c (List.mem_cons_of_mem _ hc)) ?_ h2
      have hc := hv c List.mem_cons_self
      cases c with
      | gate g scr => exact gate_inv scr hc h0 h1
      | measure t result doForce doApply rnd =>
        simp only [Call.run, Option.map_eq_some_iff] at h1
        obtain ⟨⟨v, T2⟩, h3, rfl⟩ := h1
        exact forceM_inv h0 h3
      | query scr =>
        simp only [Call.run, Option.some.injEq] at h1
        rw [← h1]
        exact inv_scratch (inv_gaussian h0) scr
  exact key cs _ hcs (setPermutation_inv scr perm) hT

/-- In terms of operators: after every history the stabiliser operators commute, and each destabiliser anticommutes with its
partner and commutes with every other row. -/
theorem history_commute (scr : Row n) (perm : ℕ) (cs : List (Call n)) (hcs : ∀ c ∈ cs, c.Valid) {T : Tab n}
    (hT : runCalls cs (setPermutation n scr perm) = some T) {i j : ℕ} (hi : i < 2 * n) (hj : j < 2 * n) :
    (j ≠ i + n ∧ i ≠ j + n → ∀ ψ, (T i).op ((T j).op ψ) = (T j).op ((T i).op ψ)) ∧
    (j = i + n ∨ i = j + n → ∀ ψ f, (T i).op ((T j).op ψ) f = -(T j).op ((T i).op ψ) f) := by
  have h := history_inv scr perm cs hcs hT
  constructor
  · intro hne
    rw [rows_commute_iff, h.comm i j hi hj, if_neg (by unfold Partner; omega)]
  · intro he ψ f
    rw [op_comm, h.comm i j hi hj, if_pos (by unfold Partner; omega)]
    simp [sg]

/-- Hence no non-empty product of distinct rows is trivial: the generators are independent. -/
theorem history_independent (scr : Row n) (perm : ℕ) (cs : List (Call n)) (hcs : ∀ c ∈ cs, c.Valid) {T : Tab n}
    (hT : runCalls cs (setPermutation n scr perm) = some T) (l : List ℕ) (hl : ∀ i ∈ l, i < 2 * n) (hd : l.Nodup)
    (hx : ∀ j, (l.foldl (fun S i => rowmult S (T i)) (idRow n)).x j = false)
    (hz : ∀ j, (l.foldl (fun S i => rowmult S (T i)) (idRow n)).z j = false) : l = [] := by
  have h := history_inv scr perm cs hcs hT
  have hform : ∀ (l : List ℕ), (∀ i ∈ l, i < 2 * n) → l.Nodup → ∀ (S : Row n) (j : ℕ), j < 2 * n →
      sp (l.foldl (fun S i => rowmult S (T i)) S) (T j) = sp S (T j) + if partner n j ∈ l then 1 else 0 := by
    intro l
    induction l with
    | nil => intro _ _ S j _; simp
    | cons a l ih =>
      intro hl hd S j hj
      have ha := hl a List.mem_cons_self
      rw [List.nodup_cons] at hd
      rw [List.foldl_cons, ih (fun i hi => hl i (List.mem_cons_of_mem _ hi)) hd.2 _ j hj, sp_rowmult, h.comm a j ha hj]
      have hp : Partner n a j ↔ partner n j = a := by
        unfold Partner partner; split_ifs <;> omega
      by_cases hpa : partner n j = a
      · rw [if_pos (hp.2 hpa)]
        simp [hpa, hd.1]
      · rw [if_neg (fun hc => hpa (hp.1 hc))]
        simp [hpa]
  by_contra hne
  obtain ⟨a, ha⟩ := List.exists_mem_of_ne_nil l hne
  have ha' := hl a ha
  have hp : partner n a < 2 * n := by unfold partner; split_ifs <;> omega
  have hpp : partner n (partner n a) = a := by unfold partner; split_ifs <;> omega
  have h1 := hform l hl hd (idRow n) (partner n a) hp
  rw [hpp, if_pos ha] at h1
  have h2 : ∀ (S : Row n), (∀ j, S.x j = false) → (∀ j, S.z j = false) → ∀ v, sp S v = 0 := by
    intro S hx hz v
    exact Finset.sum_eq_zero fun j _ => by simp [sp1, hx, hz]
  rw [h2 _ hx hz, h2 _ (fun _ => rfl) (fun _ => rfl)] at h1
  simp at h1

/-- A history that runs: entangle two qubits, measure one at random, read the state out, measure the other. -/
example : ∃ T, runCalls [.gate (.h 0) (idRow 2), .gate (.cnot 0 1) (idRow 2), .measure 1 false false true true,
    .query (idRow 2), .measure 0 true true true false] (setPermutation 2 (idRow 2) 0) = some T ∧ Inv T := by
  have hr : (runCalls [.gate (.h 0) (idRow 2), .gate (.cnot 0 1) (idRow 2), .measure 1 false false true true,
    .query (idRow 2), .measure 0 true true true false] (setPermutation 2 (idRow 2) 0)).isSome = true := by decide
  obtain ⟨T, hT⟩ := Option.isSome_iff_exists.mp hr
  refine ⟨T, hT, history_inv _ _ _ ?_ hT⟩
  intro c hc
  simp only [List.mem_cons, List.not_mem_nil, or_false] at hc
  rcases hc with rfl | rfl | rfl | rfl | rfl <;> simp [Call.Valid, Gate.Valid]

end Verif.Stab
