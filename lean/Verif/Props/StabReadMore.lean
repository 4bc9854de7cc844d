import Verif.Props.StabRead
import Verif.Props.StabHistory

/-!
# C68, continued: probabilities, expectation values, and whole histories
-/

namespace Verif.Stab

open Verif.Pauli Complex

variable {n : ℕ}

/-! ### Specification -/

/-- The average of a quantity over the basis states, by the Born rule. -/
noncomputable def born (ψ : State n) (F : ℕ → ℝ) : ℝ := ∑ p ∈ Finset.range (2 ^ n), F p * normSq (ψ (bitsOf n p))

/-- The weight of a basis state: one of two numbers for each qubit listed. -/
noncomputable def bitWeight (bits : List ℕ) (w : ℕ → ℝ) (p : ℕ) : ℝ :=
  ∑ b ∈ Finset.range bits.length, if p.testBit (bits.getD b 0) then w (2 * b + 1) else w (2 * b)

/-! ### Probabilities -/

/-- `GetProbs` returns the Born probabilities. -/
theorem probs_spec {T : Tab n} (h : Inv T) {ph : ℂ} (hph : normSq ph = 1) {ψ : State n} (hψ : Stabilises T ψ) (hn : norm2 ψ = 1)
    {p : ℕ} (hp : p < 2 ^ n) : (getProbs ph T).2 p = normSq (ψ (bitsOf n p)) := by
  have hs := start_prepare h
  obtain ⟨c, hc, hv⟩ := quantumState_spec h hph hψ (by rw [hn]; exact one_ne_zero)
  rw [hn, mul_one] at hc
  have e0 : normSq (ψ (bitsOf n p)) = normSq ((getQuantumState ph T).2 p) := by
    rw [hv p hp, map_mul, hc, one_mul]
  rw [e0, state_eq h ph hp]
  unfold getProbs
  rw [prepare_eq]
  dsimp only
  rw [hs.walk_eq]
  by_cases hx : ∃ t < 2 ^ (gaussian T).2, basisPerm (wrow (gaussian T).1 (gaussian T).2 (seedRow T) t) = p
  · obtain ⟨t, ht, rfl⟩ := hx
    have e := fold_update_at
      (fun t => (getBasisAmp ph (readNrm (gaussian T).2) (wrow (gaussian T).1 (gaussian T).2 (seedRow T) t)).permutation)
      (fun t => normSq (getBasisAmp ph (readNrm (gaussian T).2) (wrow (gaussian T).1 (gaussian T).2 (seedRow T) t)).amplitude)
      hs.perm_inj (fun _ => 0) ht
    refine e.trans ?_
    rw [amp_eq ph _ (hs.wrow_lt t), perm_bits, hs.total_at t ht]
  · have e := fold_update_off (k := 2 ^ (gaussian T).2)
      (fun t => (getBasisAmp ph (readNrm (gaussian T).2) (wrow (gaussian T).1 (gaussian T).2 (seedRow T) t)).permutation)
      (fun t => normSq (getBasisAmp ph (readNrm (gaussian T).2) (wrow (gaussian T).1 (gaussian T).2 (seedRow T) t)).amplitude)
      (fun _ => 0) (p := p) (fun t ht he => hx ⟨t, ht, he⟩)
    refine e.trans ?_
    rw [total_off, mul_zero, map_zero]
    intro t ht he
    exact hx ⟨t, ht, (perm_eq_iff _ hp).2 he⟩

theorem walk_born {T : Tab n} (h : Inv T) {ph : ℂ} (hph : normSq ph = 1) {ψ : State n} (hψ : Stabilises T ψ) (hn : norm2 ψ = 1)
    {P : Row n} (hs : Start (gaussian T).1 (gaussian T).2 P) (F : ℕ → ℝ) :
    (walk ph (readNrm (gaussian T).2) (gaussian T).2 (fun e v => v + F e.permutation * normSq e.amplitude)
      (at' (gaussian T).1 (gaussian T).2 P 0) 0).2 = born ψ F := by
  rw [hs.walk_eq]
  dsimp only
  rw [fold_sum, hs.average hph (stab_gaussian hψ) hn]
  rfl

/-- `ProbMask` is the Born probability that the masked bits read `perm`. -/
theorem probMask_spec {T : Tab n} (h : Inv T) {ph : ℂ} (hph : normSq ph = 1) {ψ : State n} (hψ : Stabilises T ψ) (hn : norm2 ψ = 1)
    (mask perm : ℕ) : (probMask ph T mask perm).2 = born ψ fun p => if p &&& mask = perm then 1 else 0 := by
  unfold probMask
  rw [prepare_eq]
  dsimp only
  have := walk_born h hph hψ hn (start_prepare h) fun p => if p &&& mask = perm then 1 else 0
  rw [← this]
  congr 3
  funext e v
  split_ifs <;> simp

theorem born_le_one {ψ : State n} (hn : norm2 ψ = 1) {p : ℕ} (hp : p < 2 ^ n) : normSq (ψ (bitsOf n p)) ≤ 1 := by
  have h1 : norm2 ψ = ∑ p ∈ Finset.range (2 ^ n), normSq (ψ (bitsOf n p)) := sum_bits fun f => normSq (ψ f)
  rw [← hn, h1]
  exact Finset.single_le_sum (f := fun p => normSq (ψ (bitsOf n p))) (fun _ _ => normSq_nonneg _) (Finset.mem_range.2 hp)

/-- `ProbPermRdm` is the Born probability that the qubits below the ancillae read `perm`. -/
theorem probPermRdm_spec {T : Tab n} (h : Inv T) {ph : ℂ} (hph : normSq ph = 1) {ψ : State n} (hψ : Stabilises T ψ)
    (hn : norm2 ψ = 1) {perm k : ℕ} (hk : k ≤ n) (hp : perm < 2 ^ k) :
    ∃ T', probPermRdm ph T perm k = some (T', born ψ fun p => if p % 2 ^ k = perm then 1 else 0) := by
  unfold probPermRdm
  rw [if_neg (by omega)]
  by_cases hkn : k = n
  · subst hkn
    rw [if_pos rfl]
    dsimp only
    refine ⟨_, congrArg some (Prod.ext rfl ?_)⟩
    dsimp only
    obtain ⟨c, hc, hv⟩ := quantumState_spec h hph hψ (by rw [hn]; exact one_ne_zero)
    rw [hn, mul_one] at hc
    rw [amplitude_spec h ph hp, hv perm hp, map_mul, hc, one_mul, max_eq_left (normSq_nonneg _), min_eq_left (born_le_one hn hp)]
    unfold born
    rw [Finset.sum_eq_single perm]
    · dsimp only
      rw [Nat.mod_eq_of_lt hp, if_pos rfl, one_mul]
    · intro q hq hne
      dsimp only
      rw [Nat.mod_eq_of_lt (Finset.mem_range.1 hq), if_neg hne, zero_mul]
    · intro hc
      exact absurd (Finset.mem_range.2 hp) hc
  · rw [if_neg hkn]
    refine ⟨_, congrArg some (Prod.ext rfl ?_)⟩
    dsimp only
    rw [probMask_spec h hph hψ hn]
    simp only [Nat.and_two_pow_sub_one_eq_mod, Nat.mod_eq_of_lt hp]

/-- It throws for more qubits than there are. -/
theorem probPermRdm_throws (ph : ℂ) (T : Tab n) (perm : ℕ) {k : ℕ} (hk : n < k) : probPermRdm ph T perm k = none := by
  unfold probPermRdm
  rw [if_pos hk]

/-! ### Expectation values -/

theorem entryWeight_eq (bits : List ℕ) (ws : List ℝ) (p : ℕ) : entryWeight bits ws p = bitWeight bits (fun k => ws.getD k 0) p := by
  unfold entryWeight bitWeight
  rw [fold_sum]
  refine Finset.sum_congr rfl fun b _ => ?_
  have hb : (p &&& 2 ^ bits.getD b 0 ≠ 0) ↔ p.testBit (bits.getD b 0) = true := by
    rw [Nat.and_two_pow]
    have := Nat.two_pow_pos (bits.getD b 0)
    cases p.testBit (bits.getD b 0) <;> simp
  have h1 : b <<< 1 = 2 * b := by rw [Nat.shiftLeft_eq]; ring
  have h2 : b <<< 1 ||| 1 = 2 * b + 1 := by
    rw [h1]
    have := Nat.two_pow_add_eq_or_of_lt (i := 1) (b := 1) (by norm_num) b
    simpa using this.symm
  rw [h1, ← h1, h2, h1]
  simp only [hb]

theorem expectation_born {T : Tab n} (h : Inv T) {ph : ℂ} (hph : normSq ph = 1) {ψ : State n} (hψ : Stabilises T ψ) (hn : norm2 ψ = 1)
    {bits : List ℕ} (hb : ∀ b ∈ bits, b < n) (hd : bits.Nodup) {count : ℕ} (hc : 2 * bits.length ≤ count) (val : ℕ → ℝ) :
    expectationT ph T bits count val =
      some (at' (gaussian T).1 (gaussian T).2 (seedRow T) (2 ^ (gaussian T).2 - 1), born ψ val) := by
  unfold expectationT
  rw [if_neg, prepare_eq]
  · dsimp only
    refine congrArg some (Prod.ext ?_ (walk_born h hph hψ hn (start_prepare h) val))
    rw [(start_prepare h).walk_eq]
  · rw [Nat.shiftLeft_eq]
    push Not
    exact ⟨by omega, hb, hd⟩

theorem at_move {T : Tab n} {g : ℕ} {P : Row n} (t : ℕ) : at' T g P t = at' T g (wrow T g P t) 0 := by
  unfold at'
  rw [wrow_zero]

theorem variance_born {T : Tab n} (h : Inv T) {ph : ℂ} (hph : normSq ph = 1) {ψ : State n} (hψ : Stabilises T ψ) (hn : norm2 ψ = 1)
    {bits : List ℕ} (hb : ∀ b ∈ bits, b < n) (hd : bits.Nodup) {count : ℕ} (hc : 2 * bits.length ≤ count) (val : ℕ → ℝ) :
    ∃ T', varianceT ph T bits count val = some (T', born ψ fun p => (val p - born ψ val) * (val p - born ψ val)) := by
  have hs := start_prepare h
  have hcond : ¬ (count < bits.length <<< 1 ∨ (∃ b ∈ bits, n ≤ b) ∨ ¬ bits.Nodup) := by
    rw [Nat.shiftLeft_eq]
    push Not
    exact ⟨by omega, hb, hd⟩
  have hex : expectationT ph (prepare T).1 bits count val = expectationT ph T bits count val := by
    unfold expectationT
    rw [if_neg hcond, if_neg hcond]
    have : prepare (prepare T).1 = prepare T := by
      rw [show (prepare T).1 = Function.update (gaussian T).1 (2 * n) _ from rfl]
      exact prepare_again h _
    rw [this]
  unfold varianceT
  rw [if_neg hcond]
  dsimp only
  rw [hex, expectation_born h hph hψ hn hb hd hc val]
  dsimp only
  rw [prepare_eq, at_move (2 ^ (gaussian T).2 - 1)]
  dsimp only
  refine ⟨_, congrArg some (Prod.ext rfl ?_)⟩
  exact walk_born h hph hψ hn (hs.move _) fun p => (val p - born ψ val) * (val p - born ψ val)

/-- `ExpectationFloatsFactorized` is the Born average of the weights. -/
theorem expectationFloats_spec {T : Tab n} (h : Inv T) {ph : ℂ} (hph : normSq ph = 1) {ψ : State n} (hψ : Stabilises T ψ)
    (hn : norm2 ψ = 1) {bits : List ℕ} (hb : ∀ b ∈ bits, b < n) (hd : bits.Nodup) {ws : List ℝ} (hw : 2 * bits.length ≤ ws.length) :
    ∃ T', expectationFloats ph T bits ws = some (T', born ψ (bitWeight bits fun k => ws.getD k 0)) := by
  have e := expectation_born h hph hψ hn hb hd hw (entryWeight bits ws)
  rw [show born ψ (entryWeight bits ws) = born ψ (bitWeight bits fun k => ws.getD k 0) by rw [funext (entryWeight_eq bits ws)]] at e
  exact ⟨_, e⟩

/-- `VarianceFloatsFactorized` is the Born average of the squared distance from the mean. -/
theorem varianceFloats_spec {T : Tab n} (h : Inv T) {ph : ℂ} (hph : normSq ph = 1) {ψ : State n} (hψ : Stabilises T ψ)
    (hn : norm2 ψ = 1) {bits : List ℕ} (hb : ∀ b ∈ bits, b < n) (hd : bits.Nodup) {ws : List ℝ} (hw : 2 * bits.length ≤ ws.length) :
    ∃ T', varianceFloats ph T bits ws = some (T', born ψ fun p =>
      (bitWeight bits (fun k => ws.getD k 0) p - born ψ (bitWeight bits fun k => ws.getD k 0)) ^ 2) := by
  obtain ⟨T', e⟩ := variance_born h hph hψ hn hb hd hw (entryWeight bits ws)
  refine ⟨T', e.trans ?_⟩
  rw [funext (entryWeight_eq bits ws)]
  simp only [sq]

/-- The integer weight of a basis state. -/
def bitIndex (bits perms : List ℕ) (offset : ℕ) (p : ℕ) : ℕ :=
  offset + ∑ b ∈ Finset.range bits.length, if p.testBit (bits.getD b 0) then perms.getD (2 * b + 1) 0 else perms.getD (2 * b) 0

theorem entryIndex_mod (bits perms : List ℕ) (offset : ℕ) (p : ℕ) :
    entryIndex bits perms offset p = bitIndex bits perms offset p % 2 ^ 128 := by
  unfold entryIndex bitIndex
  generalize 2 ^ 128 = M
  have key : ∀ k, (List.range k).foldl
      (fun w b => (w + if p &&& 2 ^ bits.getD b 0 ≠ 0 then perms.getD (b <<< 1 ||| 1) 0 else perms.getD (b <<< 1) 0) % M) 0 % M =
      (∑ b ∈ Finset.range k, if p.testBit (bits.getD b 0) then perms.getD (2 * b + 1) 0 else perms.getD (2 * b) 0) % M := by
    intro k
    induction k with
    | zero => rfl
    | succ b ih =>
      have hb : (p &&& 2 ^ bits.getD b 0 ≠ 0) ↔ p.testBit (bits.getD b 0) = true := by
        rw [Nat.and_two_pow]
        have := Nat.two_pow_pos (bits.getD b 0)
        cases p.testBit (bits.getD b 0) <;> simp
      have h1 : b <<< 1 = 2 * b := by rw [Nat.shiftLeft_eq]; ring
      have h2 : b <<< 1 ||| 1 = 2 * b + 1 := by
        rw [h1]
        have := Nat.two_pow_add_eq_or_of_lt (i := 1) (b := 1) (by norm_num) b
        simpa using this.symm
      rw [List.range_succ, List.foldl_append, Finset.sum_range_succ, Nat.add_mod, ← ih, ← Nat.add_mod]
      simp only [List.foldl_cons, List.foldl_nil, Nat.mod_mod]
      rw [h2, h1]
      simp only [hb, Nat.add_mod, Nat.mod_mod]
  rw [Nat.add_mod, key, ← Nat.add_mod]

/-- `ExpectationBitsFactorized` is the Born average of the integer weights, taken modulo `2^128`. -/
theorem expectationBits_spec {T : Tab n} (h : Inv T) {ph : ℂ} (hph : normSq ph = 1) {ψ : State n} (hψ : Stabilises T ψ)
    (hn : norm2 ψ = 1) {bits : List ℕ} (hb : ∀ b ∈ bits, b < n) (hd : bits.Nodup) {perms : List ℕ} (hw : 2 * bits.length ≤ perms.length) (offset : ℕ) :
    ∃ T', expectationBits ph T bits perms offset = some (T', born ψ fun p => ((bitIndex bits perms offset p % 2 ^ 128 : ℕ) : ℝ)) := by
  have e := expectation_born h hph hψ hn hb hd hw fun p => (entryIndex bits perms offset p : ℝ)
  simp only [entryIndex_mod] at e
  refine ⟨_, Eq.trans ?_ e⟩
  unfold expectationBits
  simp only [entryIndex_mod]

/-- `VarianceBitsFactorized` is the Born average of the squared distance from that mean. -/
theorem varianceBits_partial {T : Tab n} (h : Inv T) {ph : ℂ} (hph : normSq ph = 1) {ψ : State n} (hψ : Stabilises T ψ)
    (hn : norm2 ψ = 1) {bits : List ℕ} (hb : ∀ b ∈ bits, b < n) (hd : bits.Nodup) {perms : List ℕ} (hw : 2 * bits.length ≤ perms.length) (offset : ℕ)
    (hM : ∀ p, p < 2 ^ n → bitIndex bits perms offset p < 2 ^ 128) :
    (∃ T', expectationBits ph T bits perms offset = some (T', born ψ fun p => (bitIndex bits perms offset p : ℝ))) ∧
    ∃ T', varianceBits ph T bits perms offset = some (T', born ψ fun p =>
      ((bitIndex bits perms offset p : ℝ) - born ψ fun p => (bitIndex bits perms offset p : ℝ)) ^ 2) := by
  have eb : ∀ F : ℕ → ℝ → ℝ, (born ψ fun p => F p ((bitIndex bits perms offset p % 2 ^ 128 : ℕ) : ℝ)) =
      born ψ fun p => F p (bitIndex bits perms offset p : ℝ) := by
    intro F
    refine Finset.sum_congr rfl fun p hp => ?_
    dsimp only
    rw [Nat.mod_eq_of_lt (hM p (Finset.mem_range.1 hp))]
  constructor
  · obtain ⟨T', e⟩ := expectationBits_spec h hph hψ hn hb hd hw offset
    exact ⟨T', by rw [e, eb fun _ x => x]⟩
  · obtain ⟨T', e⟩ := variance_born h hph hψ hn hb hd hw fun p => (entryIndex bits perms offset p : ℝ)
    refine ⟨T', e.trans ?_⟩
    simp only [entryIndex_mod]
    rw [eb fun _ x => x, eb fun _ x => (x - _) * (x - _)]
    simp only [sq]

/-- Too few weights, a qubit that is not there, and a qubit named twice are refused. -/
theorem expectation_throws (ph : ℂ) (T : Tab n) {bits : List ℕ} {ws : List ℝ} (perms : List ℕ) (offset : ℕ)
    (h : ((∃ b ∈ bits, n ≤ b) ∨ ¬ bits.Nodup) ∨ ws.length < 2 * bits.length ∧ perms.length < 2 * bits.length) :
    expectationFloats ph T bits ws = none ∧ varianceFloats ph T bits ws = none ∧
    expectationBits ph T bits perms offset = none ∧ varianceBits ph T bits perms offset = none := by
  unfold expectationFloats varianceFloats expectationBits varianceBits expectationT varianceT
  have h1 : ws.length < bits.length <<< 1 ∨ (∃ b ∈ bits, n ≤ b) ∨ ¬ bits.Nodup := by
    rw [Nat.shiftLeft_eq]; rcases h with h | h
    · exact Or.inr h
    · left; omega
  have h2 : perms.length < bits.length <<< 1 ∨ (∃ b ∈ bits, n ≤ b) ∨ ¬ bits.Nodup := by
    rw [Nat.shiftLeft_eq]; rcases h with h | h
    · exact Or.inr h
    · left; omega
  rw [if_pos h1, if_pos h1, if_pos h2, if_pos h2]
  exact ⟨rfl, rfl, rfl, rfl⟩

/-! ### Reading does not disturb -/

/-- What a read-out leaves: the reduced tableau, and something in the scratch row. -/
def Read (T T' : Tab n) : Prop := ∃ w, T' = Function.update (gaussian T).1 (2 * n) w

/-- Every read-out leaves that. -/
theorem reads_leave {T : Tab n} (h : Inv T) (ph : ℂ) (perms bits : List ℕ) (ws : List ℝ) (p t mask : ℕ) (m : Bool) :
    Read T (getQuantumState ph T).1 ∧ Read T (getQuantumStateMap ph T).1 ∧ Read T (getProbs ph T).1 ∧
    Read T (getAmplitude ph T p).1 ∧ Read T (getAmplitudes ph T perms).1 ∧ Read T (getQubitAmplitude ph T t m).1 ∧
    (∀ r, getAnyAmplitude ph T = some r → Read T r.1) ∧ Read T (probMask ph T mask p).1 ∧
    (∀ r, probPermRdm ph T p t = some r → Read T r.1) ∧
    (∀ count val r, expectationT ph T bits count val = some r → Read T r.1) ∧
    (∀ count val r, varianceT ph T bits count val = some r → Read T r.1) := by
  have hs := start_prepare h
  have hat : ∀ P k, Read T (at' (gaussian T).1 (gaussian T).2 P k) := fun P k => ⟨_, rfl⟩
  have hw : ∀ {β : Type} (f : Entry → β → β) (b : β), Read T (walk ph (readNrm (prepare T).2) (prepare T).2 f (prepare T).1 b).1 := by
    intro β f b
    rw [prepare_eq]
    dsimp only
    rw [hs.walk_eq]
    exact hat _ _
  have hse : ∀ {β : Type} (f : Entry → Option β), Read T (search ph (readNrm (prepare T).2) (prepare T).2 f (prepare T).1).1 := by
    intro β f
    rw [prepare_eq]
    dsimp only
    obtain ⟨k, hk⟩ := (hs.search_eq ph (readNrm (gaussian T).2) f).1
    rw [hk]
    exact hat _ _
  have hex : ∀ count val r, expectationT ph T bits count val = some r → Read T r.1 := by
    intro count val r hr
    unfold expectationT at hr
    split_ifs at hr with hc
    rw [Option.some.injEq] at hr
    rw [← hr]; exact hw _ _
  refine ⟨hw _ _, hw _ _, hw _ _, hse _, ?_, hse _, ?_, hw _ _, ?_, hex, ?_⟩
  · have h0 : 0 < 2 ^ (gaussian T).2 := Nat.two_pow_pos _
    obtain ⟨m, -, e, -⟩ := hs.amps ph (readNrm (gaussian T).2) perms (k := 2 ^ (gaussian T).2 - 1) (by omega)
    unfold getAmplitudes ampsWalk
    rw [prepare_eq]
    dsimp only at e ⊢
    rw [e]
    exact hat _ _
  · intro r hr
    unfold getAnyAmplitude at hr
    dsimp only at hr
    split_ifs at hr with hc
    rw [Option.some.injEq] at hr
    rw [← hr]
    exact ⟨_, rfl⟩
  · intro r hr
    unfold probPermRdm at hr
    split_ifs at hr with h1 h2 <;> rw [Option.some.injEq] at hr <;> rw [← hr]
    · exact hse _
    · exact hw _ _
  · intro count val r hr
    unfold varianceT at hr
    split_ifs at hr with hc
    dsimp only at hr
    have hag : expectationT ph (prepare T).1 bits count val = expectationT ph T bits count val := by
      unfold expectationT
      rw [if_neg hc, if_neg hc]
      have : prepare (prepare T).1 = prepare T := by
        rw [show (prepare T).1 = Function.update (gaussian T).1 (2 * n) _ from rfl]
        exact prepare_again h _
      rw [this]
    rw [hag] at hr
    have he : ∃ r, expectationT ph T bits count val = some r := by
      unfold expectationT
      rw [if_neg hc]
      exact ⟨_, rfl⟩
    obtain ⟨⟨T1, mean⟩, he⟩ := he
    have h1 : T1 = at' (gaussian T).1 (gaussian T).2 (seedRow T) (2 ^ (gaussian T).2 - 1) := by
      unfold expectationT at he
      rw [if_neg hc, prepare_eq, Option.some.injEq] at he
      dsimp only at he
      rw [hs.walk_eq] at he
      exact (congrArg Prod.fst he).symm
    rw [he] at hr
    dsimp only at hr
    rw [Option.some.injEq] at hr
    rw [← hr, h1, at_move (2 ^ (gaussian T).2 - 1), prepare_eq]
    dsimp only
    rw [(hs.move _).walk_eq]
    exact hat _ _

/-- After a read-out the rows satisfy the same relations and stabilise the same states. -/
theorem read_keeps {T T' : Tab n} (h : Inv T) (hr : Read T T') : Inv T' ∧ ∀ ψ, Stabilises T' ψ ↔ Stabilises T ψ := by
  obtain ⟨w, rfl⟩ := hr
  refine ⟨inv_scratch (inv_gaussian h) w, fun ψ => ⟨fun hs => unstab_gaussian h ?_, fun hs => stab_scratch (stab_gaussian hs) w⟩⟩
  have := stab_scratch hs ((gaussian T).1 (2 * n))
  rwa [Function.update_idem, Function.update_eq_self] at this

/-- Every later read-out gives exactly what it would have given, global phase included. -/
theorem read_repeats {T T' : Tab n} (h : Inv T) (hr : Read T T') (ph : ℂ) :
    getQuantumState ph T' = getQuantumState ph T ∧ getQuantumStateMap ph T' = getQuantumStateMap ph T ∧
    getProbs ph T' = getProbs ph T ∧ getAmplitude ph T' = getAmplitude ph T ∧ getAmplitudes ph T' = getAmplitudes ph T ∧
    getAnyAmplitude ph T' = getAnyAmplitude ph T ∧ getQubitAmplitude ph T' = getQubitAmplitude ph T ∧
    expectationT ph T' = expectationT ph T ∧ varianceT ph T' = varianceT ph T ∧ probMask ph T' = probMask ph T ∧
    probPermRdm ph T' = probPermRdm ph T := by
  obtain ⟨w, rfl⟩ := hr
  have hp := prepare_again h w
  have ha : getAmplitude ph (Function.update (gaussian T).1 (2 * n) w) = getAmplitude ph T := by
    funext p; unfold getAmplitude; rw [hp]
  have hm : probMask ph (Function.update (gaussian T).1 (2 * n) w) = probMask ph T := by
    funext p q; unfold probMask; rw [hp]
  refine ⟨?_, ?_, ?_, ha, ?_, ?_, ?_, ?_, ?_, hm, ?_⟩
  · unfold getQuantumState; rw [hp]
  · unfold getQuantumStateMap; rw [hp]
  · unfold getProbs; rw [hp]
  · funext p; unfold getAmplitudes; rw [hp]
  · unfold getAnyAmplitude; rw [hp]
  · funext t m; unfold getQubitAmplitude; rw [hp]
  · funext b c v; unfold expectationT; rw [hp]
  · funext b c v; unfold varianceT; rw [hp]
  · funext p k; unfold probPermRdm; rw [ha, hm]

/-! ### Whole histories -/

theorem norm2_ne {ψ : State n} : norm2 ψ ≠ 0 ↔ ψ ≠ 0 := by
  rw [not_iff_not]
  unfold norm2
  rw [Finset.sum_eq_zero_iff_of_nonneg fun _ _ => normSq_nonneg _]
  constructor
  · intro h; funext f; exact normSq_eq_zero.1 (h f (Finset.mem_univ _))
  · rintro rfl f _; exact normSq_zero

/-- `f` with qubit `t` flipped. -/
def flip (f : Bits n) (t : Fin n) : Bits n := Function.update f t (!f t)

theorem flip_flip (f : Bits n) (t : Fin n) : flip (flip f t) t = f := by
  unfold flip
  rw [Function.update_self, Bool.not_not, Function.update_idem, Function.update_eq_self]

/-- An operator that keeps the weight of every pair of basis states differing in qubit `t`. -/
def Pairs (t : Fin n) (U : State n → State n) : Prop :=
  ∀ ψ f, normSq (U ψ f) + normSq (U ψ (flip f t)) = normSq (ψ f) + normSq (ψ (flip f t))

theorem pairs_norm {t : Fin n} {U : State n → State n} (h : Pairs t U) (ψ : State n) : norm2 (U ψ) = norm2 ψ := by
  have re : ∀ φ : State n, ∑ f, normSq (φ (flip f t)) = norm2 φ := by
    intro φ
    exact Finset.sum_bij' (fun f _ => flip f t) (fun f _ => flip f t) (fun _ _ => Finset.mem_univ _)
      (fun _ _ => Finset.mem_univ _) (fun f _ => flip_flip f t) (fun f _ => flip_flip f t) (fun _ _ => rfl)
  have e : norm2 (U ψ) + norm2 (U ψ) = norm2 ψ + norm2 ψ := by
    conv_lhs => rw [← re (U ψ)]
    conv_rhs => rw [← re ψ]
    rw [re (U ψ), re ψ]
    have h1 := re (U ψ)
    have h2 := re ψ
    calc norm2 (U ψ) + norm2 (U ψ) = ∑ f, (normSq (U ψ f) + normSq (U ψ (flip f t))) := by
          rw [Finset.sum_add_distrib, h1]; rfl
      _ = ∑ f, (normSq (ψ f) + normSq (ψ (flip f t))) := Finset.sum_congr rfl fun f _ => h ψ f
      _ = norm2 ψ + norm2 ψ := by rw [Finset.sum_add_distrib, h2]; rfl
  linarith

theorem pairs_gate1 {t : Fin n} {a b c d : ℂ} (h : ∀ x y : ℂ, normSq (a * x + b * y) + normSq (c * x + d * y) = normSq x + normSq y) :
    Pairs t (gate1 t a b c d) := by
  intro ψ f
  have h0 : ∀ v, Function.update (flip f t) t v = Function.update f t v := by
    intro v; unfold flip; rw [Function.update_idem]
  have ht : flip f t t = !f t := by unfold flip; rw [Function.update_self]
  unfold gate1
  rw [h0, h0, ht]
  have key := h (ψ (Function.update f t false)) (ψ (Function.update f t true))
  cases hf : f t
  · have e1 : Function.update f t false = f := by rw [← hf, Function.update_eq_self]
    have e2 : flip f t = Function.update f t true := by unfold flip; rw [hf]; rfl
    simp only [Bool.not_false, if_true, Bool.false_eq_true, if_false]
    rw [key, e1, e2]
  · have e1 : Function.update f t true = f := by rw [← hf, Function.update_eq_self]
    have e2 : flip f t = Function.update f t false := by unfold flip; rw [hf]; rfl
    simp only [Bool.not_true, if_true, Bool.false_eq_true, if_false]
    rw [add_comm, key, e1, e2, add_comm]

theorem pairs_ctrl {c t : Fin n} (hct : c ≠ t) (v : Bool) {G : State n → State n} (h : Pairs t G) : Pairs t (ctrl v c G) := by
  intro ψ f
  have hc : flip f t c = f c := by unfold flip; rw [Function.update_of_ne hct]
  unfold ctrl
  rw [hc]
  split_ifs
  · exact h ψ f
  · rfl

theorem pairs_x (t : Fin n) : Pairs t (xGate t) := by
  refine pairs_gate1 fun x y => ?_
  simp [add_comm]
theorem pairs_y (t : Fin n) : Pairs t (yGate t) := by
  refine pairs_gate1 fun x y => ?_
  simp [add_comm]
theorem pairs_z (t : Fin n) : Pairs t (zGate t) := by
  refine pairs_gate1 fun x y => ?_
  simp
theorem pairs_s (t : Fin n) : Pairs t (sGate t) := by
  refine pairs_gate1 fun x y => ?_
  simp
theorem pairs_is (t : Fin n) : Pairs t (isGate t) := by
  refine pairs_gate1 fun x y => ?_
  simp
theorem pairs_h (t : Fin n) : Pairs t (hGate t) := by
  refine pairs_gate1 fun x y => ?_
  have h2 : normSq rt = 1 / 2 := by
    have := congrArg Complex.re rt_mul
    unfold rt at this ⊢
    rw [normSq_ofReal]
    rw [← ofReal_mul, ofReal_re] at this
    rw [this]; norm_num
  rw [show rt * x + rt * y = rt * (x + y) by ring, show rt * x + -rt * y = rt * (x - y) by ring, map_mul, map_mul, h2,
    normSq_add, normSq_sub]
  ring

theorem swap_norm (c t : Fin n) {w : ℂ} (hw : normSq w = 1) (ψ : State n) : norm2 (swapOp c t w ψ) = norm2 ψ := by
  unfold norm2 swapOp
  refine Finset.sum_bij' (fun f _ => f ∘ Equiv.swap c t) (fun f _ => f ∘ Equiv.swap c t) (fun _ _ => Finset.mem_univ _)
    (fun _ _ => Finset.mem_univ _) (fun f _ => ?_) (fun f _ => ?_) (fun f _ => ?_)
  · funext j; simp
  · funext j; simp
  · rw [map_mul]
    split_ifs
    · rw [map_one, one_mul]
    · rw [hw, one_mul]

/-- Every gate keeps the norm. -/
theorem gate_norm {g : Gate} (hg : g.Valid n) (ψ : State n) : norm2 (g.U n ψ) = norm2 ψ := by
  cases g with
  | cnot c t =>
    obtain ⟨hc, ht, hct⟩ := hg
    simp only [Gate.U, dif_pos (And.intro hc ht)]
    exact pairs_norm (pairs_ctrl (by simpa [Fin.ext_iff] using hct) _ (pairs_x _)) ψ
  | antiCnot c t =>
    obtain ⟨hc, ht, hct⟩ := hg
    simp only [Gate.U, dif_pos (And.intro hc ht)]
    exact pairs_norm (pairs_ctrl (by simpa [Fin.ext_iff] using hct) _ (pairs_x _)) ψ
  | cy c t =>
    obtain ⟨hc, ht, hct⟩ := hg
    simp only [Gate.U, dif_pos (And.intro hc ht)]
    exact pairs_norm (pairs_ctrl (by simpa [Fin.ext_iff] using hct) _ (pairs_y _)) ψ
  | antiCy c t =>
    obtain ⟨hc, ht, hct⟩ := hg
    simp only [Gate.U, dif_pos (And.intro hc ht)]
    exact pairs_norm (pairs_ctrl (by simpa [Fin.ext_iff] using hct) _ (pairs_y _)) ψ
  | cz c t =>
    obtain ⟨hc, ht, hct⟩ := hg
    simp only [Gate.U, dif_pos (And.intro hc ht)]
    exact pairs_norm (pairs_ctrl (by simpa [Fin.ext_iff] using hct) _ (pairs_z _)) ψ
  | antiCz c t =>
    obtain ⟨hc, ht, hct⟩ := hg
    simp only [Gate.U, dif_pos (And.intro hc ht)]
    exact pairs_norm (pairs_ctrl (by simpa [Fin.ext_iff] using hct) _ (pairs_z _)) ψ
  | swap c t =>
    obtain ⟨hc, ht, hct⟩ := hg
    simp only [Gate.U, dif_pos (And.intro hc ht)]
    exact swap_norm _ _ (by simp) ψ
  | iswap c t =>
    obtain ⟨hc, ht, hct⟩ := hg
    simp only [Gate.U, dif_pos (And.intro hc ht)]
    exact swap_norm _ _ (by simp) ψ
  | iiswap c t =>
    obtain ⟨hc, ht, hct⟩ := hg
    simp only [Gate.U, dif_pos (And.intro hc ht)]
    exact swap_norm _ _ (by simp) ψ
  | h t =>
    have ht : t < n := hg
    simp only [Gate.U, dif_pos ht]
    exact pairs_norm (pairs_h _) ψ
  | x t =>
    have ht : t < n := hg
    simp only [Gate.U, dif_pos ht]
    exact pairs_norm (pairs_x _) ψ
  | y t =>
    have ht : t < n := hg
    simp only [Gate.U, dif_pos ht]
    exact pairs_norm (pairs_y _) ψ
  | z t =>
    have ht : t < n := hg
    simp only [Gate.U, dif_pos ht]
    exact pairs_norm (pairs_z _) ψ
  | s t =>
    have ht : t < n := hg
    simp only [Gate.U, dif_pos ht]
    exact pairs_norm (pairs_s _) ψ
  | is t =>
    have ht : t < n := hg
    simp only [Gate.U, dif_pos ht]
    exact pairs_norm (pairs_is _) ψ

/-- The tableaux that calls can reach, each with the state the calls describe: basis states, gates as unitaries, measurements
that report `v` as projections on `v`, and looks and read-outs, which change nothing. -/
inductive Reaches : Tab n → State n → Prop
  | start (scr : Row n) (perm : ℕ) : Reaches (setPermutation n scr perm) (ket (bitsOf n perm))
  | gate {T T' : Tab n} {ψ : State n} {g : Gate} (scr : Row n) (h : Reaches T ψ) (hg : g.Valid n) (e : g.run scr T = some T') :
      Reaches T' (g.U n ψ)
  | measure {T T' : Tab n} {ψ : State n} {t : ℕ} (ht : t < n) {result doForce rnd v : Bool} (h : Reaches T ψ)
      (e : forceM T t result doForce true rnd = some (v, T')) : Reaches T' (proj ⟨t, ht⟩ v ψ)
  | look {T T' : Tab n} {ψ : State n} {t : ℕ} {result doForce rnd v : Bool} (h : Reaches T ψ)
      (e : forceM T t result doForce false rnd = some (v, T')) : Reaches T' ψ
  | read {T T' : Tab n} {ψ : State n} (h : Reaches T ψ) (e : Read T T') : Reaches T' ψ

theorem reaches_stab {T : Tab n} {ψ : State n} (h : Reaches T ψ) : Inv T ∧ Stabilises T ψ ∧ ψ ≠ 0 := by
  induction h with
  | start scr perm =>
    refine ⟨setPermutation_inv scr perm, setPermutation_stabilises scr perm, ?_⟩
    intro hc
    have := congrFun hc (bitsOf n perm)
    simp [ket] at this
  | gate scr _ hg e ih =>
    obtain ⟨h1, h2, h3⟩ := ih
    obtain ⟨T'', e', hs⟩ := gate_stabilises scr hg h2
    rw [e, Option.some.injEq] at e'
    subst e'
    refine ⟨gate_inv scr hg h1 e, hs, ?_⟩
    rw [← norm2_ne, gate_norm hg, norm2_ne]
    exact h3
  | @measure T T' ψ t ht result doForce rnd v _ e ih =>
    obtain ⟨h1, h2, h3⟩ := ih
    obtain ⟨b, hb⟩ : ∃ b, isSeparableZ T t = some b := by
      unfold isSeparableZ; rw [dif_pos ht]; exact ⟨_, rfl⟩
    cases b
    · obtain ⟨-, T'', e', hi, hs⟩ := measure_random h1 ht hb h2 result doForce rnd
      rw [e, Option.some.injEq, Prod.mk.injEq] at e'
      obtain ⟨rfl, rfl⟩ := e'
      exact ⟨hi, hs, random_possible ht hb h2 h3 _⟩
    · obtain ⟨u, hu, hm, hf, hn⟩ := measure_determined h1 ht hb
      have key : v = u ∧ ∀ i, i < 2 * n → T' i = T i := by
        cases doForce
        · obtain ⟨T'', e', hrow⟩ := hm result true rnd
          rw [e, Option.some.injEq, Prod.mk.injEq] at e'
          obtain ⟨rfl, rfl⟩ := e'
          exact ⟨rfl, hrow⟩
        · by_cases hru : result = u
          · subst hru
            obtain ⟨T'', e', hrow⟩ := hf rnd
            rw [e, Option.some.injEq, Prod.mk.injEq] at e'
            obtain ⟨rfl, rfl⟩ := e'
            exact ⟨rfl, hrow⟩
          · have : result = !u := by cases result <;> cases u <;> simp_all
            rw [this, hn rnd] at e
            exact absurd e (by simp)
      obtain ⟨rfl, hrow⟩ := key
      have hp : proj ⟨t, ht⟩ v ψ = ψ := by
        funext f
        unfold proj
        split_ifs with hf
        · rfl
        · exact (hu ψ h2 f hf).symm
      rw [hp]
      refine ⟨forceM_inv h1 e, fun i hi hi' => ?_, h3⟩
      rw [hrow i hi']; exact h2 i hi hi'
  | look _ e ih =>
    obtain ⟨h1, h2, h3⟩ := ih
    refine ⟨forceM_inv h1 e, fun i hi hi' => ?_, h3⟩
    rw [measure_look e i hi']; exact h2 i hi hi'
  | read _ e ih =>
    obtain ⟨h1, h2, h3⟩ := ih
    have := read_keeps h1 e
    exact ⟨this.1, (this.2 _).2 h2, h3⟩

/-- Every history: the vector read out is the state the calls describe, normalised, up to one global phase. -/
theorem history_state {T : Tab n} {ψ : State n} (h : Reaches T ψ) {ph : ℂ} (hph : normSq ph = 1) :
    ∃ c, normSq c * norm2 ψ = 1 ∧ ∀ p, p < 2 ^ n → (getQuantumState ph T).2 p = c * ψ (bitsOf n p) ∧
      (getAmplitude ph T p).2 = c * ψ (bitsOf n p) := by
  obtain ⟨h1, h2, h3⟩ := reaches_stab h
  obtain ⟨c, hc, hv⟩ := quantumState_spec h1 hph h2 (norm2_ne.2 h3)
  exact ⟨c, hc, fun p hp => ⟨hv p hp, by rw [amplitude_spec h1 ph hp, hv p hp]⟩⟩

/-! ### How many amplitudes -/

/-- The number of nonzero amplitudes is `2^g`, with the `g` that the elimination returns. -/
theorem support_card {T : Tab n} {ψ : State n} (h : Reaches T ψ) :
    (Finset.univ.filter fun f => ψ f ≠ 0).card = 2 ^ (gaussian T).2 := by
  obtain ⟨h1, h2, h3⟩ := reaches_stab h
  have hs := start_prepare h1
  have hψ := stab_gaussian h2
  have hh := hs.head hψ
  have hne : normSq (ψ (seedRow T).x) ≠ 0 := by
    intro hc
    rw [hc, zero_mul] at hh
    exact norm2_ne.2 h3 hh.symm
  have e : ∀ f, normSq (total (gaussian T).1 (gaussian T).2 (seedRow T) f) = if ψ f ≠ 0 then 1 else 0 := by
    intro f
    have hw := hs.weights hψ f
    by_cases hx : ∃ t < 2 ^ (gaussian T).2, (wrow (gaussian T).1 (gaussian T).2 (seedRow T) t).x = f
    · obtain ⟨t, ht, rfl⟩ := hx
      have ht := hs.total_at t ht
      rw [ht, map_pow, normSq_I, one_pow] at hw ⊢
      rw [if_pos]
      intro hc
      rw [hc, normSq_zero, mul_one] at hw
      exact hne hw.symm
    · have ht : total (gaussian T).1 (gaussian T).2 (seedRow T) f = 0 := total_off fun t ht he => hx ⟨t, ht, he⟩
      rw [ht, normSq_zero] at hw ⊢
      rw [mul_zero, normSq_eq_zero] at hw
      rw [if_neg (by simpa using hw)]
  have hn := hs.total_norm
  rw [Finset.sum_congr rfl fun f _ => e f, Finset.sum_boole] at hn
  exact_mod_cast hn

/-- `GetAnyAmplitude` gives an entry of the vector whenever there are fewer than `2^64` of them that are not zero; with more,
the shift in it is undefined. -/
theorem anyAmplitude_iff {T : Tab n} {ψ : State n} (h : Reaches T ψ) (ph : ℂ) :
    (∃ r, getAnyAmplitude ph T = some r) ↔ (Finset.univ.filter fun f => ψ f ≠ 0).card < 2 ^ 64 := by
  rw [support_card h, Nat.pow_lt_pow_iff_right (by norm_num)]
  unfold getAnyAmplitude
  rw [prepare_eq]
  dsimp only
  constructor
  · rintro ⟨r, hr⟩
    by_contra hc
    rw [if_neg hc] at hr
    exact absurd hr (by simp)
  · intro hc
    exact ⟨_, if_pos hc⟩

/-- One `H` on each of the first `k` qubits. -/
theorem plus_reaches (scr : Row n) {k : ℕ} (hk : k ≤ n) :
    ∃ (T : Tab n) (ψ : State n), Reaches T ψ ∧ ∀ f, ψ f ≠ 0 ↔ ∀ j : Fin n, k ≤ j.val → f j = false := by
  induction k with
  | zero =>
    refine ⟨_, _, Reaches.start scr 0, fun f => ?_⟩
    unfold ket
    constructor
    · intro h j _
      by_contra hc
      apply h
      rw [if_neg]
      rintro rfl
      apply hc
      simp [bitsOf]
    · intro h
      rw [if_pos]
      · exact one_ne_zero
      · funext j; rw [h j (Nat.zero_le _)]; simp [bitsOf]
  | succ k ih =>
    obtain ⟨T, ψ, hR, hψ⟩ := ih (by omega)
    have hv : (Gate.h k).Valid n := by show k < n; omega
    obtain ⟨T', e, -⟩ := gate_stabilises scr hv (reaches_stab hR).2.1
    refine ⟨T', _, Reaches.gate scr hR hv e, fun f => ?_⟩
    have hkn : k < n := by omega
    have hrt : rt ≠ 0 := by
      intro hc
      have := rt_mul
      rw [hc] at this
      norm_num at this
    have h0 : ψ (Function.update f ⟨k, hkn⟩ true) = 0 := by
      by_contra hc
      have := (hψ _).1 hc ⟨k, hkn⟩ (le_refl _)
      rw [Function.update_self] at this
      exact absurd this (by simp)
    have h1 : ψ (Function.update f ⟨k, hkn⟩ false) ≠ 0 ↔ ∀ j : Fin n, k + 1 ≤ j.val → f j = false := by
      rw [hψ]
      constructor
      · intro h j hj
        have := h j (by omega)
        rwa [Function.update_of_ne] at this
        rintro rfl; simp at hj
      · intro h j hj
        by_cases hjk : j = ⟨k, hkn⟩
        · rw [hjk, Function.update_self]
        · rw [Function.update_of_ne hjk]
          refine h j ?_
          have : j.val ≠ k := fun hc => hjk (Fin.ext hc)
          omega
    rw [← h1]
    simp only [Gate.U, dif_pos hkn, hGate, gate1, h0, mul_zero, add_zero]
    split_ifs <;> simp [hrt]

/-- From 64 qubits on there is a history after which `GetAnyAmplitude` is undefined: an `H` on every qubit. -/
theorem anyAmplitude_undefined (scr : Row n) (hn : 64 ≤ n) (ph : ℂ) :
    ∃ (T : Tab n) (ψ : State n), Reaches T ψ ∧ getAnyAmplitude ph T = none := by
  obtain ⟨T, ψ, hR, hψ⟩ := plus_reaches scr (le_refl n)
  refine ⟨T, ψ, hR, ?_⟩
  have hall : (Finset.univ.filter fun f => ψ f ≠ 0) = (Finset.univ : Finset (Bits n)) := by
    rw [Finset.filter_true_of_mem]
    intro f _
    exact (hψ f).2 fun j hj => absurd j.2 (by omega)
  have hi := (anyAmplitude_iff hR ph).not
  rw [hall, Finset.card_univ] at hi
  have hcard : Fintype.card (Bits n) = 2 ^ n := by simp [Bits]
  rw [hcard, Nat.pow_lt_pow_iff_right (by norm_num)] at hi
  have := hi.2 (by omega)
  cases hg : getAnyAmplitude ph T with
  | none => rfl
  | some r => exact absurd ⟨r, hg⟩ this

/-! ### Cases -/

theorem norm2_ket (b : Bits n) : norm2 (ket b) = 1 := by
  unfold norm2 ket
  rw [Finset.sum_eq_single b]
  · simp
  · intro f _ hf; simp [hf]
  · simp

theorem rt_normSq : normSq rt = 1 / 2 := by
  have := congrArg Complex.re rt_mul
  unfold rt at this ⊢
  rw [normSq_ofReal]
  rw [← ofReal_mul, ofReal_re] at this
  rw [this]; norm_num

/-- A Bell pair, `H(0)` then `CNOT(0, 1)` on `|00⟩`. -/
noncomputable def bell : State 2 := (Gate.cnot 0 1).U 2 ((Gate.h 0).U 2 (ket (bitsOf 2 0)))

theorem bell_reaches (scr : Row 2) : ∃ T, Reaches T bell := by
  have h0 := Reaches.start (n := 2) scr 0
  have v1 : (Gate.h 0).Valid 2 := by decide
  have v2 : (Gate.cnot 0 1).Valid 2 := by decide
  obtain ⟨T1, e1, -⟩ := gate_stabilises scr v1 (reaches_stab h0).2.1
  have h1 := Reaches.gate scr h0 v1 e1
  obtain ⟨T2, e2, -⟩ := gate_stabilises scr v2 (reaches_stab h1).2.1
  exact ⟨T2, Reaches.gate scr h1 v2 e2⟩

theorem bell_norm : norm2 bell = 1 := by
  unfold bell
  rw [gate_norm (by decide), gate_norm (by decide), norm2_ket]

theorem bell_at (f : Bits 2) : bell f = if f 0 = f 1 then rt else 0 := by
  unfold bell
  simp only [Gate.U, show (0 : ℕ) < 2 by norm_num, show (1 : ℕ) < 2 by norm_num, and_self, dif_pos]
  have hk : ∀ a b : Bool, (ket (bitsOf 2 0) : State 2) (Function.update (Function.update f 1 a) 0 b) = if a = false ∧ b = false then 1 else 0 := by
    intro a b
    unfold ket
    refine if_congr ?_ rfl rfl
    constructor
    · intro h
      have h0 := congrFun h 0
      have h1 := congrFun h 1
      simp [bitsOf] at h0 h1
      exact ⟨h1, h0⟩
    · rintro ⟨rfl, rfl⟩
      funext j
      fin_cases j <;> simp [bitsOf]
  have hf : f = Function.update (Function.update f 1 (f 1)) 0 (f 0) := by simp
  have hk' : ∀ b : Bool, (ket (bitsOf 2 0) : State 2) (Function.update f 0 b) = if f 1 = false ∧ b = false then 1 else 0 := by
    intro b
    have := hk (f 1) b
    rwa [Function.update_eq_self] at this
  simp only [ctrl, xGate, hGate, gate1, Fin.mk_zero, Fin.mk_one, hk, hk', Function.update_self]
  cases h0 : f 0 <;> cases h1 : f 1 <;> simp [h0, h1]

/-- Both equal outcomes have probability one half, the unequal ones none; the number of ones has mean one and variance
one. -/
example (scr : Row 2) : ∃ T, Reaches T bell ∧ (getProbs 1 T).2 0 = 1 / 2 ∧ (getProbs 1 T).2 3 = 1 / 2 ∧ (getProbs 1 T).2 1 = 0 ∧
    (∃ T', expectationBits 1 T [0, 1] [0, 1, 0, 1] 0 = some (T', 1)) ∧ (∃ T', varianceBits 1 T [0, 1] [0, 1, 0, 1] 0 = some (T', 1)) := by
  obtain ⟨T, hT⟩ := bell_reaches scr
  obtain ⟨h1, h2, -⟩ := reaches_stab hT
  have hb : ∀ p, normSq (bell (bitsOf 2 p)) = if p.testBit 0 = p.testBit 1 then 1 / 2 else 0 := by
    intro p
    rw [bell_at]
    show normSq (if p.testBit 0 = p.testBit 1 then rt else 0) = _
    split_ifs
    · exact rt_normSq
    · exact normSq_zero
  have hp : ∀ p, p < 2 ^ 2 → (getProbs 1 T).2 p = if p.testBit 0 = p.testBit 1 then 1 / 2 else 0 := fun p hp => by
    rw [probs_spec h1 (by simp) h2 bell_norm hp, hb]
  have hi : ∀ p, bitIndex [0, 1] [0, 1, 0, 1] 0 p = (if p.testBit 0 then 1 else 0) + (if p.testBit 1 then 1 else 0) := by
    intro p
    simp [bitIndex, Finset.sum_range_succ]
  have hm := varianceBits_partial h1 (ph := 1) (by simp) h2 bell_norm (bits := [0, 1]) (by simp) (by decide) (perms := [0, 1, 0, 1]) (by simp) 0
    (fun p _ => by rw [hi]; split_ifs <;> norm_num)
  have hbe : (born bell fun p => (bitIndex [0, 1] [0, 1, 0, 1] 0 p : ℝ)) = 1 := by
    unfold born
    simp only [hi, hb]
    norm_num [Finset.sum_range_succ, Nat.testBit, Nat.shiftRight_eq_div_pow]
  rw [hbe] at hm
  refine ⟨T, hT, ?_, ?_, ?_, hm.1, ?_⟩
  · rw [hp 0 (by norm_num)]; simp
  · rw [hp 3 (by norm_num)]; simp [Nat.testBit]
  · rw [hp 1 (by norm_num)]; simp [Nat.testBit]
  · obtain ⟨T', e⟩ := hm.2
    refine ⟨T', e.trans ?_⟩
    congr 2
    unfold born
    simp only [hi, hb]
    norm_num [Finset.sum_range_succ, Nat.testBit, Nat.shiftRight_eq_div_pow]

/-- The sum of the integer weights can wrap: a qubit in `|0⟩` with weight `2^128 - 1` and offset 1 has mean 0. -/
theorem expectationBits_wraps (scr : Row 1) : ∃ T : Tab 1, Reaches T (ket (bitsOf 1 0)) ∧
    (∃ T', expectationBits 1 T [0] [2 ^ 128 - 1, 0] 1 = some (T', 0)) ∧
    (born (ket (bitsOf 1 0)) fun p => (bitIndex [0] [2 ^ 128 - 1, 0] 1 p : ℝ)) = 2 ^ 128 := by
  have hR := Reaches.start (n := 1) scr 0
  obtain ⟨h1, h2, -⟩ := reaches_stab hR
  have hk : ∀ p, p < 2 ^ 1 → normSq (ket (bitsOf 1 0) (bitsOf 1 p)) = if p = 0 then 1 else 0 := by
    intro p hp
    unfold ket
    by_cases h : p = 0
    · subst h; simp
    · rw [if_neg h, if_neg, normSq_zero]
      intro hc
      exact h (bitsOf_inj hp (by norm_num) hc)
  have hone : ∀ F : ℕ → ℝ, born (ket (bitsOf 1 0)) F = F 0 := by
    intro F
    unfold born
    rw [Finset.sum_eq_single 0]
    · rw [hk 0 (by norm_num), if_pos rfl, mul_one]
    · intro p hp hne
      rw [hk p (Finset.mem_range.1 hp), if_neg hne, mul_zero]
    · simp
  have hi : bitIndex [0] [2 ^ 128 - 1, 0] 1 0 = 2 ^ 128 := by
    simp [bitIndex]
  refine ⟨_, hR, ?_, ?_⟩
  · obtain ⟨T', e⟩ := expectationBits_spec h1 (ph := 1) (by simp) h2 (norm2_ket _) (bits := [0]) (by simp) (by decide) (perms := [2 ^ 128 - 1, 0])
      (by simp) 1
    refine ⟨T', e.trans ?_⟩
    rw [hone, hi, Nat.mod_self, Nat.cast_zero]
  · rw [hone, hi]; norm_num

end Verif.Stab
