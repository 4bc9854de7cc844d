import Verif.Model.GateCode
import Verif.Lemmas.Circ
import Verif.Lib.Field

/-!
Helper lemmas for the gate-level routines: what they do to basis states.
-/

namespace Verif.Circ

open Verif.Engine Verif.Spec Verif.Bits

theorem testBit_flipIf (b : Bool) (t i k : ℕ) :
    (flipIf b t i).testBit k = (i.testBit k ^^ (b && decide (k = t))) := by
  unfold flipIf flipBit
  cases b
  · simp
  · simp [Nat.testBit_xor, Nat.testBit_two_pow, eq_comm]

theorem act_x (t i : ℕ) : (Op.x t).act i = flipIf true t i := rfl

theorem act_cnot (c t i : ℕ) : (cnot c t).act i = flipIf (i.testBit c) t i := by
  simp [cnot, Op.act, AllAre, flipIf]

theorem act_ccnot (c d t i : ℕ) : (ccnot c d t).act i = flipIf (i.testBit c && i.testBit d) t i := by
  simp [ccnot, Op.act, AllAre, flipIf]

theorem act_antiCnot (c t i : ℕ) : (antiCnot c t).act i = flipIf (!i.testBit c) t i := by
  simp [antiCnot, Op.act, AllAre, flipIf]

theorem act_antiCcnot (c d t i : ℕ) :
    (antiCcnot c d t).act i = flipIf (!i.testBit c && !i.testBit d) t i := by
  simp [antiCcnot, Op.act, AllAre, flipIf]

theorem act_mcx (cs : List ℕ) (t i : ℕ) : (Op.mcx cs t).act i = flipIf (decide (AllAre true cs i)) t i := by
  simp [Op.act, flipIf]

theorem act_macx (cs : List ℕ) (t i : ℕ) : (Op.macx cs t).act i = flipIf (decide (AllAre false cs i)) t i := by
  simp [Op.act, flipIf]

/-- Qubits an operation may change. -/
def Op.targets : Op → List ℕ
  | .x t => [t]
  | .mcx _ t => [t]
  | .macx _ t => [t]
  | .swap a b => [a, b]
  | .cswap _ a b => [a, b]

theorem Op.act_testBit (o : Op) {k : ℕ} (h : k ∉ o.targets) (i : ℕ) : (o.act i).testBit k = i.testBit k := by
  cases o with
  | x t => rw [act_x, testBit_flipIf]; simp [Op.targets] at h; simp [h]
  | mcx cs t => rw [act_mcx, testBit_flipIf]; simp [Op.targets] at h; simp [h]
  | macx cs t => rw [act_macx, testBit_flipIf]; simp [Op.targets] at h; simp [h]
  | swap a b => simp [Op.targets] at h; simp [Op.act, testBit_swapBits, h]
  | cswap cs a b =>
    simp [Op.targets] at h
    simp only [Op.act]
    split_ifs
    · simp [testBit_swapBits, h]
    · rfl

theorem act_testBit {p : List Op} {k : ℕ} (h : ∀ o ∈ p, k ∉ o.targets) (i : ℕ) :
    (act p i).testBit k = i.testBit k := by
  induction p generalizing i with
  | nil => rfl
  | cons o p ih =>
    rw [act_cons, ih (fun o' ho' => h o' (by simp [ho'])), o.act_testBit (h o (by simp))]

/-! ### Ripple carry -/

theorem testBit_succ_ripple (m : ℕ) : ∀ b : ℕ, (b + 1).testBit m =
    (b.testBit m ^^ decide (∀ j < m, (b + 1).testBit j = false)) := by
  induction m with
  | zero =>
    intro b
    simp only [Nat.testBit_zero, Nat.not_lt_zero, IsEmpty.forall_iff, implies_true, decide_true, Bool.xor_true]
    rcases Nat.mod_two_eq_zero_or_one b with h | h <;> simp [h, Nat.add_mod]
  | succ m ih =>
    intro b
    rw [Nat.testBit_succ, Nat.testBit_succ]
    rcases Nat.mod_two_eq_zero_or_one b with h | h
    · have h1 : (b + 1) / 2 = b / 2 := by omega
      have h2 : ¬ ∀ j < m + 1, (b + 1).testBit j = false := by
        intro hh
        have := hh 0 (by omega)
        rw [Nat.testBit_zero] at this
        simp at this; omega
      rw [h1, decide_eq_false h2, Bool.xor_false]
    · have h1 : (b + 1) / 2 = b / 2 + 1 := by omega
      rw [h1, ih]
      congr 2
      apply propext
      constructor
      · intro hh j hj
        cases j with
        | zero => rw [Nat.testBit_zero]; simp; omega
        | succ j => rw [Nat.testBit_succ, h1]; exact hh j (by omega)
      · intro hh j hj
        have := hh (j + 1) (by omega)
        rwa [Nat.testBit_succ, h1] at this

theorem testBit_add_pow (I q k : ℕ) : (I + 2 ^ q).testBit k =
    (I.testBit k ^^ (decide (q ≤ k) && decide (∀ j < k - q, (I + 2 ^ q).testBit (q + j) = false))) := by
  have hlt : I % 2 ^ q < 2 ^ q := Nat.mod_lt _ (by positivity)
  have h1 : I + 2 ^ q = 2 ^ q * (I / 2 ^ q + 1) + I % 2 ^ q := by
    have := Nat.div_add_mod I (2 ^ q)
    rw [Nat.mul_add]; omega
  have h2 : ∀ j, (I + 2 ^ q).testBit (q + j) = (I / 2 ^ q + 1).testBit j := by
    intro j
    rw [h1, Nat.testBit_two_pow_mul_add _ hlt, if_neg (by omega)]
    congr 1; omega
  by_cases hk : k < q
  · rw [h1, Nat.testBit_two_pow_mul_add _ hlt, if_pos hk, Nat.testBit_mod_two_pow]
    simp [hk, show ¬ q ≤ k by omega]
  · obtain ⟨m, rfl⟩ : ∃ m, k = q + m := ⟨k - q, by omega⟩
    simp only [h2, Nat.add_sub_cancel_left, Nat.le_add_right, decide_true, Bool.true_and]
    rw [testBit_succ_ripple, Nat.testBit_div_two_pow, Nat.add_comm m q]

/-- The block of gates the ripple increments emit for one bit of the addend. -/
def chain (q m : ℕ) : List Op :=
  .x q :: (List.range m).map fun j => .macx ((List.range (j + 1)).map (q + ·)) (q + j + 1)

theorem chain_succ (q m : ℕ) : chain q (m + 1) =
    chain q m ++ [.macx ((List.range (m + 1)).map (q + ·)) (q + m + 1)] := by
  simp only [chain, List.range_succ (n := m), List.map_append, List.map_cons, List.map_nil, List.cons_append]

theorem allAre_range (v : Bool) (q m r : ℕ) : AllAre v ((List.range m).map (q + ·)) r ↔
    ∀ j < m, r.testBit (q + j) = v := by
  simp [AllAre]

theorem act_chain (q m I k : ℕ) : (act (chain q m) I).testBit k =
    if k ≤ q + m then (I + 2 ^ q).testBit k else I.testBit k := by
  induction m generalizing k with
  | zero =>
    simp only [chain, List.range_zero, List.map_nil, act_cons, act_nil, act_x, testBit_flipIf, Nat.add_zero,
      Bool.true_and]
    split_ifs with h
    · rw [testBit_add_pow]
      rcases Nat.lt_or_eq_of_le h with h' | h'
      · simp [show ¬ k = q by omega, show ¬ q ≤ k by omega]
      · subst h'; simp
    · simp [show ¬ k = q by omega]
  | succ m ih =>
    rw [chain_succ, act_append, act_cons, act_nil, act_macx, testBit_flipIf]
    have hall : decide (AllAre false ((List.range (m + 1)).map (q + ·)) (act (chain q m) I)) =
        decide (∀ j < m + 1, (I + 2 ^ q).testBit (q + j) = false) := by
      congr 1
      rw [allAre_range]
      apply propext
      refine forall₂_congr fun j hj => ?_
      rw [ih, if_pos (by omega)]
    rw [hall, ih]
    by_cases h1 : k ≤ q + m
    · simp [h1, show k ≤ q + (m + 1) by omega, show ¬ k = q + m + 1 by omega]
    · by_cases h2 : k = q + m + 1
      · subst h2
        rw [if_neg h1, if_pos (by omega), testBit_add_pow]
        simp [show q + m + 1 - q = m + 1 by omega, show q ≤ q + m + 1 by omega]
      · simp [h1, h2, show ¬ k ≤ q + (m + 1) by omega]

theorem act_chain_field {s l i I : ℕ} (hi : i < l) :
    act (chain (s + i) (l - 1 - i)) I = setField s l (field s l I + 2 ^ i) I := by
  rw [setField_add]
  apply Nat.eq_of_testBit_eq
  intro k
  rw [act_chain, Nat.testBit_two_pow_mul_add _ (Nat.mod_lt _ (by positivity)), Nat.testBit_mod_two_pow,
    ← pow_add, Nat.testBit_div_two_pow]
  by_cases h : k < s + l
  · simp [h, show k ≤ s + i + (l - 1 - i) by omega]
  · simp only [h, show ¬ k ≤ s + i + (l - 1 - i) by omega, if_false]
    congr 1; omega

theorem and_one_eq_zero (x : ℕ) : (x &&& 1 = 0) ↔ x.testBit 0 = false := by
  rw [Nat.and_one_is_mod, Nat.testBit_zero]; simp

/-- The gates of `INC` for a length of two or more. -/
def incCore (toAdd start len : ℕ) : List Op := (List.range len).flatMap fun i =>
    if (toAdd >>> i) &&& 1 = 0 then [] else chain (start + i) (len - 1 - i)

theorem mod_two_pow_succ' (x m : ℕ) : x % 2 ^ (m + 1) = x % 2 ^ m + (if x.testBit m then 2 ^ m else 0) := by
  rw [pow_succ, Nat.mod_mul, Nat.testBit_eq_decide_div_mod_eq]
  rcases Nat.mod_two_eq_zero_or_one (x / 2 ^ m) with h | h <;> simp [h]

theorem act_incCore_aux (toAdd s l m I : ℕ) (hm : m ≤ l) :
    act ((List.range m).flatMap fun i =>
      if (toAdd >>> i) &&& 1 = 0 then [] else chain (s + i) (l - 1 - i)) I =
      setField s l (field s l I + toAdd % 2 ^ m) I := by
  induction m with
  | zero => simp [act, Nat.mod_one, setField_field]
  | succ m ih =>
    rw [List.range_succ, List.flatMap_append, act_append, ih (by omega)]
    simp only [List.flatMap_cons, List.flatMap_nil, List.append_nil]
    have hb : ((toAdd >>> m) &&& 1 = 0) ↔ toAdd.testBit m = false := by
      rw [and_one_eq_zero, Nat.testBit_shiftRight, Nat.add_zero]
    rw [mod_two_pow_succ']
    by_cases h : toAdd.testBit m = false
    · rw [if_pos (hb.2 h)]; simp [h, act]
    · rw [if_neg (fun hh => h (hb.1 hh)), act_chain_field (by omega), setField_add_add]
      simp only [Bool.not_eq_false] at h
      simp [h]

theorem act_incCore (toAdd s l I : ℕ) :
    act (incCore toAdd s l) I = setField s l (field s l I + toAdd) I := by
  rw [incCore, act_incCore_aux toAdd s l l I le_rfl]
  apply setField_congr
  rw [Nat.add_mod_mod]

theorem inc_eq_core {toAdd start len : ℕ} (h : 2 ≤ len) : inc toAdd start len = incCore toAdd start len := by
  rw [inc, if_neg (by omega), if_neg (by omega), incCore, List.flatMap_def, List.flatMap_def]
  congr 1
  apply List.map_congr_left
  intro i hi
  rw [List.mem_range] at hi
  split_ifs
  · rfl
  · rw [chain]
    congr 1
    apply List.map_congr_left
    intro j hj
    rw [List.mem_range] at hj
    rw [Nat.mod_eq_of_lt (by omega)]
    congr 1; omega

theorem incCore_one (toAdd start : ℕ) : incCore toAdd start 1 = inc toAdd start 1 := by
  rcases Nat.mod_two_eq_zero_or_one toAdd with h | h <;> simp [incCore, inc, chain, h]

theorem act_inc (toAdd s l I : ℕ) : act (inc toAdd s l) I = setField s l (field s l I + toAdd) I := by
  rcases Nat.lt_or_ge l 2 with h | h
  · interval_cases l
    · simp [inc, act, setField_zero_len]
    · rw [← incCore_one, act_incCore]
  · rw [inc_eq_core h, act_incCore]

theorem chain_ok {q m n : ℕ} (h : q + m < n) : ∀ o ∈ chain q m, o.Ok n := by
  intro o ho
  rw [chain, List.mem_cons, List.mem_map] at ho
  rcases ho with rfl | ⟨j, hj, rfl⟩
  · show q < n; omega
  · rw [List.mem_range] at hj
    refine ⟨?_, ?_⟩
    · rw [List.nodup_append]
      refine ⟨List.Nodup.map (fun a b h => Nat.add_left_cancel h) List.nodup_range, by simp, ?_⟩
      intro a ha b hb
      simp at ha hb
      obtain ⟨c, hc, rfl⟩ := ha
      omega
    · intro k hk
      simp at hk
      rcases hk with ⟨c, hc, rfl⟩ | rfl <;> omega

theorem incCore_ok {toAdd s l n : ℕ} (h : s + l ≤ n) : ∀ o ∈ incCore toAdd s l, o.Ok n := by
  intro o ho
  rw [incCore, List.mem_flatMap] at ho
  obtain ⟨i, hi, ho⟩ := ho
  rw [List.mem_range] at hi
  split_ifs at ho
  · simp at ho
  · exact chain_ok (by omega) o ho

theorem inc_ok {toAdd s l n : ℕ} (h : s + l ≤ n) : ∀ o ∈ inc toAdd s l, o.Ok n := by
  rcases Nat.lt_or_ge l 2 with h2 | h2
  · interval_cases l
    · simp [inc]
    · rw [← incCore_one]; exact incCore_ok h
  · rw [inc_eq_core h2]; exact incCore_ok h

/-! ### Controlled ripple -/

/-- An operation with extra anti-controls. -/
def ctl (cs : List ℕ) : Op → Op
  | .x t => .macx cs t
  | .macx bs t => .macx (cs ++ bs) t
  | o => o

/-- Operations that `ctl` controls. -/
def Ctl (cs : List ℕ) : Op → Prop
  | .x t => t ∉ cs
  | .macx _ t => t ∉ cs
  | _ => False

theorem allAre_append {v : Bool} {cs bs : List ℕ} {i : ℕ} : AllAre v (cs ++ bs) i ↔ AllAre v cs i ∧ AllAre v bs i := by
  simp [AllAre, or_imp, forall_and]

theorem act_ctl {cs : List ℕ} {o : Op} (h : Ctl cs o) (i : ℕ) :
    (ctl cs o).act i = if AllAre false cs i then o.act i else i := by
  cases o with
  | x t => rfl
  | macx bs t =>
    simp only [ctl, act_macx]
    by_cases hc : AllAre false cs i
    · rw [if_pos hc]
      have : decide (AllAre false (cs ++ bs) i) = decide (AllAre false bs i) := by
        congr 1; apply propext; rw [allAre_append]; simp [hc]
      rw [this]
    · rw [if_neg hc]
      have : decide (AllAre false (cs ++ bs) i) = false := by
        rw [decide_eq_false_iff_not, allAre_append]; exact fun h => hc h.1
      rw [this]; rfl
  | mcx cs t => exact h.elim
  | swap a b => exact h.elim
  | cswap cs a b => exact h.elim

theorem allAre_act {cs : List ℕ} {o : Op} (h : Ctl cs o) (v : Bool) (i : ℕ) :
    AllAre v cs (o.act i) ↔ AllAre v cs i := by
  unfold AllAre
  refine forall₂_congr fun c hc => ?_
  rw [o.act_testBit]
  cases o with
  | x t => simp only [Op.targets, List.mem_singleton]; rintro rfl; exact h hc
  | macx bs t => simp only [Op.targets, List.mem_singleton]; rintro rfl; exact h hc
  | mcx cs t => exact h.elim
  | swap a b => exact h.elim
  | cswap cs a b => exact h.elim

theorem act_map_ctl {cs : List ℕ} {p : List Op} (h : ∀ o ∈ p, Ctl cs o) (i : ℕ) :
    act (p.map (ctl cs)) i = if AllAre false cs i then act p i else i := by
  induction p generalizing i with
  | nil => simp [act]
  | cons o p ih =>
    rw [List.map_cons, act_cons, ih (fun o' ho' => h o' (by simp [ho'])), act_ctl (h o (by simp)), act_cons]
    by_cases hc : AllAre false cs i
    · simp only [if_pos hc]
      rw [if_pos ((allAre_act (h o (by simp)) false i).2 hc)]
    · simp only [if_neg hc]

theorem ctrlMask_cons {c : ℕ} {cs : List ℕ} (h : c ∉ cs) : ctrlMask (c :: cs) = 2 ^ c ^^^ ctrlMask cs := by
  apply Nat.eq_of_testBit_eq
  intro k
  rw [testBit_ctrlMask, Nat.testBit_xor, testBit_ctrlMask, Nat.testBit_two_pow]
  by_cases hk : c = k
  · subst hk; simp [h]
  · simp [hk, Ne.symm hk]

theorem act_map_x {cs : List ℕ} (h : cs.Nodup) (i : ℕ) : act (cs.map .x) i = i ^^^ ctrlMask cs := by
  induction cs generalizing i with
  | nil => simp [act, ctrlMask]
  | cons c cs ih =>
    rw [List.nodup_cons] at h
    rw [List.map_cons, act_cons, ih h.2, ctrlMask_cons h.1, ← Nat.xor_assoc]; rfl

theorem setField_xor_mask {s l v i : ℕ} {cs : List ℕ} (h : ∀ c ∈ cs, c < s ∨ s + l ≤ c) :
    setField s l v (i ^^^ ctrlMask cs) ^^^ ctrlMask cs = setField s l v i := by
  apply Nat.eq_of_testBit_eq
  intro k
  rw [Nat.testBit_xor, testBit_setField, testBit_setField, Nat.testBit_xor, testBit_ctrlMask]
  split_ifs with a b
  · simp
  · have : k ∉ cs := fun hc => by have := h k hc; omega
    simp [this]
  · simp

theorem field_xor_mask {s l i : ℕ} {cs : List ℕ} (h : ∀ c ∈ cs, c < s ∨ s + l ≤ c) :
    field s l (i ^^^ ctrlMask cs) = field s l i := by
  apply Nat.eq_of_testBit_eq
  intro k
  rw [testBit_field, testBit_field, Nat.testBit_xor, testBit_ctrlMask]
  by_cases hk : k < l
  · have : s + k ∉ cs := fun hc => by have := h _ hc; omega
    simp [this]
  · simp [hk]

theorem chain_ctl {q m : ℕ} {cs : List ℕ} (h : ∀ c ∈ cs, c < q ∨ q + m < c) : ∀ o ∈ chain q m, Ctl cs o := by
  intro o ho
  rw [chain, List.mem_cons, List.mem_map] at ho
  rcases ho with rfl | ⟨j, hj, rfl⟩
  · intro hc; have := h _ hc; omega
  · rw [List.mem_range] at hj
    intro hc; have := h _ hc; omega

theorem incCore_ctl {toAdd s l : ℕ} {cs : List ℕ} (h : ∀ c ∈ cs, c < s ∨ s + l ≤ c) :
    ∀ o ∈ incCore toAdd s l, Ctl cs o := by
  intro o ho
  rw [incCore, List.mem_flatMap] at ho
  obtain ⟨i, hi, ho⟩ := ho
  rw [List.mem_range] at hi
  split_ifs at ho
  · simp at ho
  · exact chain_ctl (fun c hc => by have := h c hc; omega) o ho

theorem cinc_eq_core {toAdd start len : ℕ} {cs : List ℕ} (hc : cs ≠ []) (h : 2 ≤ len) :
    cinc toAdd start len cs = cs.map .x ++ (incCore toAdd start len).map (ctl cs) ++ cs.map .x := by
  rw [cinc, if_neg hc, if_neg (by omega), if_neg (by omega), incCore, List.map_flatMap]
  congr 2
  rw [List.flatMap_def, List.flatMap_def]
  congr 1
  apply List.map_congr_left
  intro i hi
  rw [List.mem_range] at hi
  split_ifs
  · rfl
  · rw [chain, List.map_cons, List.map_map]
    congr 1
    apply List.map_congr_left
    intro j hj
    rw [List.mem_range] at hj
    simp only [Function.comp, ctl]
    rw [Nat.mod_eq_of_lt (by omega)]
    congr 1; omega

theorem act_cinc {toAdd s l : ℕ} {cs : List ℕ} (hn : cs.Nodup) (h : ∀ c ∈ cs, c < s ∨ s + l ≤ c) (I : ℕ) :
    act (cinc toAdd s l cs) I = if AllAre true cs I then setField s l (field s l I + toAdd) I else I := by
  by_cases hc : cs = []
  · subst hc
    rw [cinc, if_pos rfl, act_inc, if_pos (by simp [AllAre])]
  rcases Nat.lt_or_ge l 2 with h2 | h2
  · interval_cases l
    · simp [cinc, hc, act, setField_zero_len]
    · have hi : act (inc toAdd s 1) I = setField s 1 (field s 1 I + toAdd) I := act_inc _ _ _ _
      have h3 : cinc toAdd s 1 cs = if toAdd &&& 1 ≠ 0 then [.mcx cs s] else [] := by simp [cinc, hc]
      have h4 : inc toAdd s 1 = if toAdd &&& 1 ≠ 0 then [.x s] else [] := by simp [inc]
      rw [← hi, h3, h4]
      by_cases ho : toAdd &&& 1 ≠ 0
      · rw [if_pos ho, if_pos ho]; rfl
      · rw [if_neg ho, if_neg ho]; simp [act]
  · rw [cinc_eq_core hc h2, act_append, act_append, act_map_x hn, act_map_x hn,
      act_map_ctl (incCore_ctl h), act_incCore, field_xor_mask h]
    have h1 : AllAre false cs (I ^^^ ctrlMask cs) ↔ AllAre true cs I := by
      rw [← allAre_xor_ctrlMask, Nat.xor_assoc]; simp
    by_cases ht : AllAre true cs I
    · rw [if_pos (h1.2 ht), if_pos ht, setField_xor_mask h]
    · rw [if_neg (fun hh => ht (h1.1 hh)), if_neg ht, Nat.xor_assoc]; simp

theorem ctl_ok {cs : List ℕ} {n : ℕ} (hn : cs.Nodup) (hb : ∀ c ∈ cs, c < n) {o : Op} (ho : o.Ok n) (hc : Ctl cs o)
    (hd : ∀ bs t, o = .macx bs t → ∀ b ∈ bs, b ∉ cs) : (ctl cs o).Ok n := by
  cases o with
  | x t =>
    refine ⟨?_, fun k hk => ?_⟩
    · rw [List.nodup_append]
      exact ⟨hn, by simp, fun a ha b hb' => by simp at hb'; subst hb'; rintro rfl; exact hc ha⟩
    · simp at hk
      rcases hk with hk | rfl
      · exact hb k hk
      · exact ho
  | macx bs t =>
    have hbs := List.nodup_append.1 ho.1
    refine ⟨?_, fun k hk => ?_⟩
    · show (cs ++ bs ++ [t]).Nodup
      rw [List.append_assoc, List.nodup_append]
      refine ⟨hn, ho.1, fun a ha b hb' => ?_⟩
      rw [List.mem_append] at hb'
      rintro rfl
      rcases hb' with hb' | hb'
      · exact hd bs t rfl a hb' ha
      · simp at hb'; subst hb'; exact hc ha
    · simp at hk
      rcases hk with hk | hk | rfl
      · exact hb k hk
      · exact ho.2 k (by simp [hk])
      · exact ho.2 k (by simp)
  | mcx cs t => exact hc.elim
  | swap a b => exact hc.elim
  | cswap cs a b => exact hc.elim

theorem cinc_ok {toAdd s l n : ℕ} {cs : List ℕ} (hl : s + l ≤ n) (hn : cs.Nodup) (hb : ∀ c ∈ cs, c < n)
    (h : ∀ c ∈ cs, c < s ∨ s + l ≤ c) : ∀ o ∈ cinc toAdd s l cs, o.Ok n := by
  by_cases hc : cs = []
  · subst hc; rw [cinc, if_pos rfl]; exact inc_ok hl
  rcases Nat.lt_or_ge l 2 with h2 | h2
  · interval_cases l
    · simp [cinc, hc]
    · rw [cinc, if_neg hc, if_neg (by omega), if_pos rfl]
      split_ifs
      · intro o ho
        simp at ho; subst ho
        refine ⟨?_, fun k hk => ?_⟩
        · rw [List.nodup_append]
          exact ⟨hn, by simp, fun a ha b hb' => by simp at hb'; subst hb'; have := h a ha; omega⟩
        · simp at hk
          rcases hk with hk | rfl
          · exact hb k hk
          · omega
      · simp
  · rw [cinc_eq_core hc h2]
    intro o ho
    rw [List.mem_append, List.mem_append] at ho
    rcases ho with (ho | ho) | ho
    · obtain ⟨c, hc, rfl⟩ := List.mem_map.1 ho; exact hb c hc
    · obtain ⟨o', ho', rfl⟩ := List.mem_map.1 ho
      refine ctl_ok hn hb (incCore_ok hl o' ho') (incCore_ctl h o' ho') ?_
      rintro bs t rfl b hbs hbc
      rw [incCore, List.mem_flatMap] at ho'
      obtain ⟨i, hi, ho'⟩ := ho'
      rw [List.mem_range] at hi
      split_ifs at ho'
      · simp at ho'
      · rw [chain, List.mem_cons, List.mem_map] at ho'
        rcases ho' with ho' | ⟨j, hj, ho'⟩
        · cases ho'
        · rw [List.mem_range] at hj
          injection ho' with h1 h2'
          subst h1
          simp at hbs
          obtain ⟨c, hc1, rfl⟩ := hbs
          have := h _ hbc
          omega
    · obtain ⟨c, hc, rfl⟩ := List.mem_map.1 ho; exact hb c hc

/-! ### Reversals -/

theorem act_reverse_seq (f l I k : ℕ) : (act (reverse f l) I).testBit k =
    if f ≤ k ∧ k < l then I.testBit (f + l - 1 - k) else I.testBit k := by
  induction hm : l - f using Nat.strongRecOn generalizing f l I k with
  | _ m ih =>
    rw [reverse]
    by_cases h : 0 < l ∧ f < l - 1
    · rw [if_pos h, act_cons, ih (l - 1 - (f + 1)) (by omega) _ _ _ _ rfl]
      simp only [Op.act, testBit_swapBits]
      by_cases h1 : f ≤ k ∧ k < l
      · rw [if_pos h1]
        by_cases h2 : f + 1 ≤ k ∧ k < l - 1
        · rw [if_pos h2, if_neg (by omega), if_neg (by omega)]
          congr 1; omega
        · rw [if_neg h2]
          by_cases h3 : k = f
          · subst h3; rw [if_pos rfl]; congr 1; omega
          · rw [if_neg h3, if_pos (by omega)]; congr 1; omega
      · rw [if_neg h1, if_neg (by omega), if_neg (by omega), if_neg (by omega)]
    · rw [if_neg h, act_nil]
      split_ifs with h1
      · congr 1; omega
      · rfl

theorem reversal_ok {f l n : ℕ} (h : l ≤ n) : ∀ o ∈ reverse f l, o.Ok n := by
  induction hm : l - f using Nat.strongRecOn generalizing f l with
  | _ m ih =>
    rw [reverse]
    by_cases h1 : 0 < l ∧ f < l - 1
    · rw [if_pos h1]
      intro o ho
      rw [List.mem_cons] at ho
      rcases ho with rfl | ho
      · exact ⟨by omega, by omega⟩
      · exact ih (l - 1 - (f + 1)) (by omega) (by omega) rfl o ho
    · rw [if_neg h1]; simp

end Verif.Circ
