import Verif.Model.ModMul
import Verif.Props.GateAdd
import Verif.Props.EngineSignedCarry

/-!
# C76: the default modular multiplications

For a power of two as modulus the default `MULModNOut` and `CMULModNOut` add the product to the output register; for every modulus the
`I` versions undo them, and without the controls nothing happens. For other moduli the product is wrong, and the `I` versions are undefined
if the modulus is greater than the range of the input register.
-/

namespace Verif.Circ

open Verif.Engine Verif.Spec

/-- The registers and the controls of a call do not overlap. -/
structure Apart (n s o l ol : ℕ) (cs : List ℕ) : Prop where
  hin : s + l ≤ n
  hout : o + ol ≤ n
  dis : s + l ≤ o ∨ o + ol ≤ s
  nd : cs.Nodup
  clt : ∀ c ∈ cs, c < n
  cin : ∀ c ∈ cs, c < s ∨ s + l ≤ c
  cout : ∀ c ∈ cs, c < o ∨ o + ol ≤ c

variable {n s o l ol : ℕ} {cs : List ℕ}

theorem Apart.withIn (h : Apart n s o l ol cs) {i : ℕ} (hi : i < l) :
    (cs ++ [s + i]).Nodup ∧ (∀ c ∈ cs ++ [s + i], c < o ∨ o + ol ≤ c) ∧ ∀ c ∈ cs ++ [s + i], c < n := by
  refine ⟨?_, ?_, ?_⟩
  · rw [List.nodup_append]
    refine ⟨h.nd, by simp, fun a ha b hb => ?_⟩
    rw [List.mem_singleton] at hb
    have := h.cin a ha; omega
  · intro c hc
    rcases List.mem_append.1 hc with hc | hc
    · exact h.cout c hc
    · rw [List.mem_singleton] at hc
      have := h.dis; omega
  · intro c hc
    rcases List.mem_append.1 hc with hc | hc
    · exact h.clt c hc
    · rw [List.mem_singleton] at hc
      have := h.hin; omega

/-- What the loops over the input qubits add to the output register. -/
theorem act_parts (h : Apart n s o l ol cs) (a b : ℕ → ℕ) (I : ℕ) : ∀ m ≤ l,
    act ((List.range m).flatMap fun i => if a i = 0 then [] else cinc (b i) o ol (cs ++ [s + i])) I =
      if AllAre true cs I then setField o ol (field o ol I + ∑ i ∈ Finset.range m, if I.testBit (s + i) then (if a i = 0 then 0 else b i) else 0) I
      else I := by
  intro m
  induction m with
  | zero =>
    intro _
    simp [act, setField_field]
  | succ m ih =>
    intro hm
    obtain ⟨h1, h2, _⟩ := h.withIn (i := m) (by omega)
    rw [List.range_succ, List.flatMap_append, act_append, ih (by omega), Finset.sum_range_succ]
    simp only [List.flatMap_cons, List.flatMap_nil, List.append_nil]
    by_cases ha : a m = 0
    · rw [if_pos ha]
      simp [act, ha]
    · rw [if_neg ha, act_cinc h1 h2, if_neg ha]
      by_cases hc : AllAre true cs I
      · rw [if_pos hc, if_pos hc]
        have hb : AllAre true (cs ++ [s + m]) (setField o ol (field o ol I + ∑ i ∈ Finset.range m, if I.testBit (s + i) then (if a i = 0 then 0 else b i) else 0) I) ↔
            I.testBit (s + m) = true := by
          rw [Engine.allAre_setField h2, allAre_append]
          simp [AllAre]
          exact fun _ => hc
        by_cases hbit : I.testBit (s + m) = true
        · rw [if_pos (hb.2 hbit), if_pos hbit, setField_add_add]
        · rw [if_neg (fun hh => hbit (hb.1 hh)), if_neg hbit, Nat.add_zero]
      · rw [if_neg hc, if_neg hc, if_neg]
        rw [allAre_append]
        exact fun hh => hc hh.1

/-- The value of a field is the sum of its bits. -/
theorem field_sum (s I : ℕ) : ∀ m, field s m I = ∑ i ∈ Finset.range m, if I.testBit (s + i) then 2 ^ i else 0
  | 0 => by simp [field, Nat.mod_one]
  | m + 1 => by
    rw [Finset.sum_range_succ, ← field_sum s I m]
    unfold field
    rw [mod_two_pow_succ']
    have : (I / 2 ^ s).testBit m = I.testBit (s + m) := by
      rw [← Nat.shiftRight_eq_div_pow, Nat.testBit_shiftRight]
    rw [this]

theorem sum_modEq {N : ℕ} {f g : ℕ → ℕ} : ∀ m, (∀ i < m, f i ≡ g i [MOD N]) → ∑ i ∈ Finset.range m, f i ≡ ∑ i ∈ Finset.range m, g i [MOD N]
  | 0, _ => by simp [Nat.ModEq.refl]
  | m + 1, h => by
    rw [Finset.sum_range_succ, Finset.sum_range_succ]
    exact (sum_modEq m fun i hi => h i (by omega)).add (h m (by omega))

theorem powTwo_pow (k : ℕ) : powTwo (2 ^ k) = true := by
  unfold powTwo
  rw [decide_eq_true_iff]
  refine ⟨by positivity, ?_⟩
  rw [Nat.and_two_pow_sub_one_eq_mod, Nat.mod_self]

theorem outLen_pow (k : ℕ) : outLen (2 ^ k) = k := by
  unfold outLen
  rw [if_pos (powTwo_pow k), Nat.log2_two_pow]

/-! ### Powers of two -/

theorem cAddParts_pow {k toMul : ℕ} (h : Apart n s o l k cs) (I : ℕ) :
    act (cAddParts toMul (2 ^ k) s o l cs) I = if AllAre true cs I then setField o k (field o k I + toMul * field s l I) I else I := by
  unfold cAddParts
  rw [outLen_pow, act_parts h (fun i => toMul * 2 ^ i % 2 ^ k) (fun i => toMul * 2 ^ i % 2 ^ k) I l le_rfl]
  by_cases hc : AllAre true cs I
  · rw [if_pos hc, if_pos hc]
    apply setField_congr
    rw [field_sum s I l, Finset.mul_sum]
    apply Nat.ModEq.add_left
    refine sum_modEq l fun i _ => ?_
    split_ifs with h1 h2
    · exact (Nat.modEq_zero_iff_dvd.2 (Nat.dvd_of_mod_eq_zero h2)).symm
    · exact Nat.mod_modEq _ _
    · rw [Nat.mul_zero]
  · rw [if_neg hc, if_neg hc]


/-- **C76, partial.** For the modulus `2^k` the default `CMULModNOut` adds the product to the `k` qubits of the output register if all
controls are set, and does nothing otherwise. Full statement: for every modulus `N` the output register, initially zero, gets the product
modulo `N`; it is false (`mulModN_wrong`). -/
theorem cMulModN_pow_partial {σ : List ℕ → List ℕ} (hσ : IsSched σ) {e : Eng} (he : Exact e) {k toMul : ℕ} (h : Apart e.n s o l k cs) :
    ∃ p, cMulModN toMul (2 ^ k) s o l cs = some p ∧
      Moves σ p e fun i => if AllAre true cs i then setField o k (field o k i + toMul * field s l i) i else i := by
  refine ⟨_, by rw [cMulModN, if_pos (powTwo_pow k)], moves_of hσ he ?_ fun i => cAddParts_pow h i⟩
  intro x hx
  rw [cAddParts, List.mem_flatMap] at hx
  obtain ⟨i, hi, hx⟩ := hx
  obtain ⟨h1, h2, h3⟩ := h.withIn (List.mem_range.1 hi)
  split_ifs at hx
  · simp at hx
  · rw [outLen_pow] at hx
    exact cinc_ok h.hout h1 h3 h2 x hx

/-- The version without controls is the controlled one with an empty list. -/
theorem mulModN_eq (toMul N s o l : ℕ) : mulModN toMul N s o l = cMulModN toMul N s o l [] := by
  unfold mulModN cMulModN addParts cAddParts dec cdec
  simp only [List.nil_append, cinc, if_true]

theorem iMulModN_eq (toMul N s o l : ℕ) : iMulModN toMul N s o l = cIMulModN toMul N s o l [] := by
  unfold iMulModN cIMulModN subParts cSubParts dec cdec
  simp only [List.nil_append, cinc, if_true]

/-- **C76, partial.** The same for `MULModNOut`. -/
theorem mulModN_pow_partial {σ : List ℕ → List ℕ} (hσ : IsSched σ) {e : Eng} (he : Exact e) {k toMul : ℕ} (h : Apart e.n s o l k []) :
    ∃ p, mulModN toMul (2 ^ k) s o l = some p ∧ Moves σ p e fun i => setField o k (field o k i + toMul * field s l i) i := by
  obtain ⟨p, h1, h2⟩ := cMulModN_pow_partial hσ he (toMul := toMul) h
  refine ⟨p, by rw [mulModN_eq, h1], ?_⟩
  have : (fun i => if AllAre true [] i then setField o k (field o k i + toMul * field s l i) i else i) =
      fun i => setField o k (field o k i + toMul * field s l i) i := by
    funext i; rw [if_pos (by simp [AllAre])]
  rwa [this] at h2

/-! ### Inverses -/

theorem cSub_cAdd {toMul N : ℕ} (hN : 0 < N) (hN' : N < 2 ^ 64) (h : Apart n s o l (outLen N) cs) (hol : outLen N ≤ 128) (I : ℕ) :
    act (cSubParts toMul N s o l cs) (act (cAddParts toMul N s o l cs) I) = I ∧
    act (cAddParts toMul N s o l cs) (act (cSubParts toMul N s o l cs) I) = I := by
  have hadd : ∀ J, act (cAddParts toMul N s o l cs) J = _ := fun J =>
    act_parts h (fun i => toMul * 2 ^ i % N) (fun i => toMul * 2 ^ i % N) J l le_rfl
  have hsub : ∀ J, act (cSubParts toMul N s o l cs) J = _ := fun J =>
    act_parts h (fun i => toMul * 2 ^ i % N) (fun i => negAddend (toMul * 2 ^ i % N) (outLen N)) J l le_rfl
  have key : ∀ (f g : ℕ → ℕ), (∀ i, (f i + g i) % 2 ^ outLen N = 0) → AllAre true cs I →
      setField o (outLen N) (field o (outLen N) (setField o (outLen N) (field o (outLen N) I + ∑ i ∈ Finset.range l, if I.testBit (s + i) then f i else 0) I) +
        ∑ i ∈ Finset.range l, if (setField o (outLen N) (field o (outLen N) I + ∑ i ∈ Finset.range l, if I.testBit (s + i) then f i else 0) I).testBit (s + i) then g i else 0)
        (setField o (outLen N) (field o (outLen N) I + ∑ i ∈ Finset.range l, if I.testBit (s + i) then f i else 0) I) = I := by
    intro f g hfg _
    have hbits : ∀ v, ∑ i ∈ Finset.range l, (if (setField o (outLen N) v I).testBit (s + i) then g i else 0) =
        ∑ i ∈ Finset.range l, if I.testBit (s + i) then g i else 0 := by
      intro v
      refine Finset.sum_congr rfl fun i hi => ?_
      rw [Finset.mem_range] at hi
      have hb : (setField o (outLen N) v I).testBit (s + i) = I.testBit (s + i) := by
        rw [testBit_setField]
        rcases h.dis with hd | hd
        · rw [if_pos (by omega)]
        · rw [if_neg (by omega), if_neg (by omega)]
      rw [hb]
    rw [hbits, setField_add_add, setField_congr (w := field o (outLen N) I), setField_field]
    rw [← Finset.sum_add_distrib]
    have : ∑ i ∈ Finset.range l, ((if I.testBit (s + i) then f i else 0) + if I.testBit (s + i) then g i else 0) ≡
        ∑ i ∈ Finset.range l, 0 [MOD 2 ^ outLen N] := by
      refine sum_modEq l fun i _ => ?_
      split_ifs
      · rw [Nat.modEq_zero_iff_dvd]; exact Nat.dvd_of_mod_eq_zero (hfg i)
      · rfl
    rw [Finset.sum_const_zero] at this
    exact (this.add_left _)
  have hz : ∀ i, ((if toMul * 2 ^ i % N = 0 then 0 else toMul * 2 ^ i % N) +
      if toMul * 2 ^ i % N = 0 then 0 else negAddend (toMul * 2 ^ i % N) (outLen N)) % 2 ^ outLen N = 0 := by
    intro i
    split_ifs
    · simp
    · have := Nat.mod_lt (toMul * 2 ^ i) hN
      exact add_negAddend hol (this.trans (hN'.trans (by norm_num)))
  constructor
  · rw [hadd, hsub]
    by_cases hc : AllAre true cs I
    · rw [if_pos hc, if_pos ((Engine.allAre_setField h.cout).2 hc)]
      exact key _ _ hz hc
    · rw [if_neg hc, if_neg hc]
  · rw [hsub, hadd]
    by_cases hc : AllAre true cs I
    · rw [if_pos hc, if_pos ((Engine.allAre_setField h.cout).2 hc)]
      exact key _ _ (fun i => by rw [Nat.add_comm]; exact hz i) hc
    · rw [if_neg hc, if_neg hc]

/-- The same calls `m` times. -/
def times (m : ℕ) (p : List Op) : List Op := (List.range m).flatMap fun _ => p

theorem times_succ (m : ℕ) (p : List Op) (I : ℕ) : act (times (m + 1) p) I = act p (act (times m p) I) := by
  unfold times
  rw [List.range_succ, List.flatMap_append, act_append]
  simp

theorem times_comm (m : ℕ) (p : List Op) : ∀ I, act (times m p) (act p I) = act p (act (times m p) I) := by
  induction m with
  | zero => intro I; rfl
  | succ m ih => intro I; rw [times_succ, times_succ, ih]

theorem times_undo {p q : List Op} (h : ∀ I, act q (act p I) = I) : ∀ (m I : ℕ), act (times m q) (act (times m p) I) = I
  | 0, _ => rfl
  | m + 1, I => by rw [times_succ, times_succ, ← times_comm, h, times_undo h m]

theorem x_x (c I : ℕ) : act [.x c] (act [.x c] I) = I := by
  show (Op.x c).act ((Op.x c).act I) = I
  rw [act_x, act_x]
  apply Nat.eq_of_testBit_eq
  intro k
  rw [testBit_flipIf, testBit_flipIf]
  by_cases hk : k = c <;> simp [hk]

theorem outLen_le {N : ℕ} (hN' : N < 2 ^ 64) : outLen N ≤ 128 := by
  have h1 : Nat.log2 N ≤ 64 := by
    rcases Nat.eq_zero_or_pos N with h0 | h0
    · simp [h0]
    · exact Nat.lt_succ_iff.1 ((Nat.log2_lt (by omega)).2 (hN'.trans (by norm_num)))
  unfold outLen
  split_ifs <;> omega

theorem log2_div_lt {N l : ℕ} (hN : 2 ≤ N) (hl : 2 ^ l / N ≠ 0) : Nat.log2 (2 ^ l / N) < l := by
  rw [Nat.log2_lt hl]
  exact Nat.div_lt_self (by positivity) hN

/-- **C76.** The default `CIMULModNOut` undoes the default `CMULModNOut`, and the other way round, for every modulus in the range of the
input register and every content of the output register. -/
theorem cIMulModN_undoes {toMul N : ℕ} (hN : 2 ≤ N) (hN' : N < 2 ^ 64) (hl : l ≤ 64) (hNl : N ≤ 2 ^ l) (h : Apart n s o l (outLen N) cs) :
    ∃ p q, cMulModN toMul N s o l cs = some p ∧ cIMulModN toMul N s o l cs = some q ∧
      ∀ I, act q (act p I) = I ∧ act p (act q I) = I := by
  have hol := outLen_le hN'
  have hd0 : 2 ^ l / N ≠ 0 := by
    have := Nat.div_pos hNl (by omega); omega
  have hlog : log2C (2 ^ l / N) = some (Nat.log2 (2 ^ l / N)) := by rw [log2C, if_neg hd0]
  have hlt := log2_div_lt hN hd0
  have hparts := fun I => cSub_cAdd (toMul := toMul) (by omega) hN' h hol I
  by_cases hp : powTwo N = true
  · refine ⟨cAddParts toMul N s o l cs, cSubParts toMul N s o l cs, by rw [cMulModN, if_pos hp], ?_, hparts⟩
    rw [cIMulModN, hlog, Option.map_some]
    dsimp only
    rw [if_pos hp, List.nil_append]
  · have hN128 : N < 2 ^ 128 := hN'.trans (by norm_num)
    have hin := fun I => cdec_gates_undo (toAdd := N) (start := s) (len := l) (by omega) hN128 h.nd h.cin I
    obtain ⟨c, hc⟩ : ∃ c, c = s + l - (Nat.log2 (2 ^ l / N) + 1) := ⟨_, rfl⟩
    obtain ⟨h1, h2, _⟩ := h.withIn (i := l - (Nat.log2 (2 ^ l / N) + 1)) (by omega)
    have hcs : s + (l - (Nat.log2 (2 ^ l / N) + 1)) = c := by omega
    rw [hcs] at h1 h2
    have hout := fun I => cdec_gates_undo (toAdd := N) (start := o) (len := outLen N) hol hN128 h1 h2 I
    have hE : ∀ I, act ([.x c] ++ cinc N o (outLen N) (cs ++ [c]) ++ [.x c] ++ cinc N s l cs)
        (act (cdec N s l cs ++ [.x c] ++ cdec N o (outLen N) (cs ++ [c]) ++ [.x c]) I) = I := by
      intro I
      simp only [act_append]
      rw [x_x, (hout _).2, x_x, (hin _).2]
    have hE' : ∀ I, act (cdec N s l cs ++ [.x c] ++ cdec N o (outLen N) (cs ++ [c]) ++ [.x c])
        (act ([.x c] ++ cinc N o (outLen N) (cs ++ [c]) ++ [.x c] ++ cinc N s l cs) I) = I := by
      intro I
      simp only [act_append]
      rw [(hin _).1, x_x, (hout _).1, x_x]
    refine ⟨cAddParts toMul N s o l cs ++ times (2 ^ l / N) (cdec N s l cs ++ [.x c] ++ cdec N o (outLen N) (cs ++ [c]) ++ [.x c]) ++
      times (2 ^ l / N) (cinc N s l cs), times (2 ^ l / N) (cdec N s l cs) ++
      times (2 ^ l / N) ([.x c] ++ cinc N o (outLen N) (cs ++ [c]) ++ [.x c] ++ cinc N s l cs) ++ cSubParts toMul N s o l cs, ?_, ?_, ?_⟩
    · rw [cMulModN, if_neg hp, hlog, Option.map_some, hc]; rfl
    · rw [cIMulModN, hlog, Option.map_some, hc]
      dsimp only
      rw [if_neg hp]; rfl
    · intro I
      constructor
      · rw [act_append, act_append, act_append, act_append, times_undo (fun J => (hin J).1), times_undo hE, (hparts _).1]
      · rw [act_append, act_append, act_append, act_append, (hparts _).2, times_undo hE', times_undo (fun J => (hin J).2)]

/-- **C76.** The same without controls. -/
theorem iMulModN_undoes {toMul N : ℕ} (hN : 2 ≤ N) (hN' : N < 2 ^ 64) (hl : l ≤ 64) (hNl : N ≤ 2 ^ l) (h : Apart n s o l (outLen N) []) :
    ∃ p q, mulModN toMul N s o l = some p ∧ iMulModN toMul N s o l = some q ∧ ∀ I, act q (act p I) = I ∧ act p (act q I) = I := by
  rw [mulModN_eq, iMulModN_eq]
  exact cIMulModN_undoes hN hN' hl hNl h

/-! ### Controls that are not set -/

theorem times_id {p : List Op} {I : ℕ} (h : act p I = I) : ∀ m, act (times m p) I = I
  | 0 => rfl
  | m + 1 => by rw [times_succ, times_id h m, h]

/-- **C76.** If a control is not set, neither the default `CMULModNOut` nor `CIMULModNOut` does anything, for every modulus. -/
theorem cMulModN_off {toMul N : ℕ} (hN : 2 ≤ N) (hN' : N < 2 ^ 64) (hl : l ≤ 64) (hNl : N ≤ 2 ^ l) (h : Apart n s o l (outLen N) cs) {I : ℕ}
    (hoff : ¬ AllAre true cs I) : ∃ p q, cMulModN toMul N s o l cs = some p ∧ cIMulModN toMul N s o l cs = some q ∧ act p I = I ∧ act q I = I := by
  obtain ⟨p, q, h1, h2, h3⟩ := cIMulModN_undoes (toMul := toMul) hN hN' hl hNl h
  have hp : act p I = I := by
    have hd0 : 2 ^ l / N ≠ 0 := by
      have := Nat.div_pos hNl (by omega); omega
    have hlog : log2C (2 ^ l / N) = some (Nat.log2 (2 ^ l / N)) := by rw [log2C, if_neg hd0]
    have hlt := log2_div_lt hN hd0
    have hadd : act (cAddParts toMul N s o l cs) I = I := by
      rw [cAddParts, act_parts h (fun i => toMul * 2 ^ i % N) (fun i => toMul * 2 ^ i % N) I l le_rfl, if_neg hoff]
    by_cases hp : powTwo N = true
    · rw [cMulModN, if_pos hp] at h1
      rw [← Option.some.inj h1, hadd]
    · rw [cMulModN, if_neg hp, hlog, Option.map_some] at h1
      rw [← Option.some.inj h1]
      obtain ⟨h5, h6, _⟩ := h.withIn (i := l - (Nat.log2 (2 ^ l / N) + 1)) (by omega)
      have hcs : s + (l - (Nat.log2 (2 ^ l / N) + 1)) = s + l - (Nat.log2 (2 ^ l / N) + 1) := by omega
      rw [hcs] at h5 h6
      have hx : ¬ AllAre true cs (act [.x (s + l - (Nat.log2 (2 ^ l / N) + 1))] I) := by
        intro hh
        apply hoff
        intro k hk
        have := hh k hk
        rw [show act [.x (s + l - (Nat.log2 (2 ^ l / N) + 1))] I = flipIf true (s + l - (Nat.log2 (2 ^ l / N) + 1)) I from rfl, testBit_flipIf] at this
        have hne : ¬ k = s + l - (Nat.log2 (2 ^ l / N) + 1) := by have := h.cin k hk; omega
        simpa [hne] using this
      have hblock : act (cdec N s l cs ++ [.x (s + l - (Nat.log2 (2 ^ l / N) + 1))] ++
          cdec N o (outLen N) (cs ++ [s + l - (Nat.log2 (2 ^ l / N) + 1)]) ++ [.x (s + l - (Nat.log2 (2 ^ l / N) + 1))]) I = I := by
        unfold cdec
        rw [act_append, act_append, act_append, act_cinc h.nd h.cin, if_neg hoff, act_cinc h5 h6, if_neg, x_x]
        rw [allAre_append]
        exact fun hh => hx hh.1
      have hinc : act (cinc N s l cs) I = I := by rw [act_cinc h.nd h.cin, if_neg hoff]
      show act (cAddParts toMul N s o l cs ++ times (2 ^ l / N) _ ++ times (2 ^ l / N) _) I = I
      rw [act_append, act_append, hadd, times_id hblock, times_id hinc]
  exact ⟨p, q, h1, h2, hp, by have := (h3 I).1; rwa [hp] at this⟩

/-! ### Where the code fails -/

/-- The code violates C76: two times zero modulo three is left as one. -/
theorem mulModN_wrong : ∃ p, mulModN 2 3 0 2 2 = some p ∧ field 2 2 (act p 0) = 1 ∧ 2 * field 0 2 0 % 3 = 0 := by
  refine ⟨_, rfl, ?_, ?_⟩ <;> decide +kernel

/-- The code violates C76: with a modulus beyond the range of the input register, `MULModNOut` modulo a power of two is right, but
`IMULModNOut` takes the logarithm of zero, which is undefined, though it does not need it. -/
theorem iMulModN_undefined (toMul k s o l : ℕ) (h : l < k) :
    (∃ p, mulModN toMul (2 ^ k) s o l = some p) ∧ iMulModN toMul (2 ^ k) s o l = none ∧ ∀ cs, cIMulModN toMul (2 ^ k) s o l cs = none := by
  have hz : 2 ^ l / 2 ^ k = 0 := Nat.div_eq_of_lt (Nat.pow_lt_pow_right (by norm_num) h)
  refine ⟨⟨_, by rw [mulModN, if_pos (powTwo_pow k)]⟩, ?_, fun cs => ?_⟩
  · rw [iMulModN, hz]; rfl
  · rw [cIMulModN, hz]; rfl

/-- Registers of three and three qubits with two controls around them; a modulus that is not a power of two. -/
example : Apart 9 1 5 3 (outLen 6) [0, 8] ∧ 2 ≤ 6 ∧ 6 < 2 ^ 64 ∧ 6 ≤ 2 ^ 3 ∧ outLen 6 = 3 := by
  refine ⟨⟨?_, ?_, ?_, ?_, ?_, ?_, ?_⟩, by norm_num, by norm_num, by norm_num, by decide +kernel⟩ <;> decide +kernel

/-- A product modulo eight: 3 + 5 * 6 = 33 = 1. -/
example : ∃ p, mulModN 5 8 0 3 3 = some p ∧ act p (6 + 8 * 3) = 6 + 8 * 1 := ⟨_, rfl, by decide +kernel⟩

end Verif.Circ
