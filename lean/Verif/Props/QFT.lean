import Verif.Lemmas.QFTOps

/-!
# Quantum Fourier transform (C19)

`QFT(start, length)` is the discrete Fourier transform of the register `start, ..., start + length - 1` followed by a reversal of the
order of its qubits (output value read with the highest qubit as the least significant), and `IQFT` is the inverse transform
preceded by the reversal. `QFTR` and `IQFTR` do the same on an arbitrary list of distinct qubits. Hence each undoes the other.

`s` is the sign of the argument `std::pow` gives to `-1` (see the model): the direction of the transform.

Automatic normalisation is off (`doNorm = false`); the amplitudes are arbitrary, the state need not be normalised.
-/

namespace Verif.Engine

open Verif.ParFor Verif.Bits Verif.Spec Classical

/-- The operation `fn` succeeds on `e`, keeps the number of qubits, and turns its amplitudes `ψ` into `F ψ`. -/
def TurnsInto (n : ℕ) (e : Eng) (r : Option Eng) (F : (ℕ → ℂ) → ℕ → ℂ) : Prop :=
  ∃ e', r = some e' ∧ e'.n = n ∧ e'.doNorm = false ∧ ∀ i < 2 ^ n, e'.amp i = F e.amp i

theorem Does.turnsInto {n : ℕ} {f : Eng → Option Eng} {F : (ℕ → ℂ) → ℕ → ℂ} (h : Does n f F) {e : Eng} (hn : e.n = n)
    (hd : e.doNorm = false) : TurnsInto n e (f e) F := by
  obtain ⟨e', h1, h2, h3, h4⟩ := h e e.amp ⟨hn, hd, fun _ _ => rfl⟩
  exact ⟨e', h1, h2, h3, h4⟩

theorem qft_does {σ : List ℕ → List ℕ} (hσ : IsSched σ) {s : ℤ} (hs : s = 1 ∨ s = -1) {n start length : ℕ} (hn : n ≤ 64)
    (hb : start + length ≤ n) :
    Does n (fun e => qft σ s e start length) (dft s (List.range' start length) (List.range' start length).reverse) := by
  by_cases h0 : length = 0
  · intro e ψ h
    refine ⟨e, by simp only [qft]; rw [if_pos h0], h.congr fun i _ => ?_⟩
    rw [h0]
    simp [dft, turn_zero, writeBits]
  · rw [show dft s (List.range' start length) (List.range' start length).reverse = qftOp s (start + length - 1) length from
      funext fun ψ => (qftOp_dft hs start length ψ).symm]
    have hfn : (fun e => qft σ s e start length) = fun e => (List.range length).foldlM (fun e i =>
        ((List.range i).foldlM (fun e j => cPhaseRootN σ s e (j + 2) (start + length - 1 - i) (start + length - 1 - i + 1 + j)) e).bind fun e =>
        gateH σ e (start + length - 1 - i)) e := by
      funext e
      unfold qft
      rw [if_neg h0, show start + (length - 1) = start + length - 1 by omega]
    rw [hfn]
    refine Does.loop (F := fun i ψ => hOp (start + length - 1 - i)
      ((List.range i).foldl (fun ψ j => cpOp (start + length - 1 - i) (start + length - 1 - i + 1 + j) (turn s (1 / 2 ^ (j + 2))) ψ) ψ)) _ fun i hi => ?_
    have hi' := List.mem_range.1 hi
    refine Does.then (F := fun ψ => (List.range i).foldl (fun ψ j => cpOp (start + length - 1 - i) (start + length - 1 - i + 1 + j) (turn s (1 / 2 ^ (j + 2))) ψ) ψ)
      (Does.loop (F := fun j => cpOp (start + length - 1 - i) (start + length - 1 - i + 1 + j) (turn s (1 / 2 ^ (j + 2)))) _ fun j hj => ?_)
      (gateH_does hσ hn (by omega))
    have hj' := List.mem_range.1 hj
    exact cPhaseRootN_does hσ hn (by omega) (by omega) (by omega) s j

theorem iqftr_does {σ : List ℕ → List ℕ} (hσ : IsSched σ) {s : ℤ} (hs : s = 1 ∨ s = -1) {n : ℕ} {qs : List ℕ} (hn : n ≤ 64)
    (hnd : qs.Nodup) (hb : ∀ q ∈ qs, q < n) :
    Does n (fun e => iqftr σ s e qs) (dft (-s) qs.reverse qs) := by
  have hs' : -s = 1 ∨ -s = -1 := by rcases hs with rfl | rfl <;> simp
  by_cases h0 : qs.length = 0
  · intro e ψ h
    refine ⟨e, by simp only [iqftr]; rw [if_pos h0], h.congr fun i _ => ?_⟩
    rw [List.length_eq_zero_iff.1 h0]
    simp [dft, turn_zero, writeBits]
  · rw [show dft (-s) qs.reverse qs = iqftrOp (-s) qs qs.length from funext fun ψ => (iqftrOp_dft hs' qs hnd ψ).symm]
    have hfn : (fun e => iqftr σ s e qs) = fun e => (List.range qs.length).foldlM (fun e i =>
        ((List.range i).foldlM (fun e j => ciPhaseRootN σ s e (j + 2) (qs.getD (i - (j + 1)) 0) (qs.getD i 0)) e).bind fun e =>
        gateH σ e (qs.getD i 0)) e := by
      funext e
      unfold iqftr
      rw [if_neg h0]
    rw [hfn]
    refine Does.loop (F := fun i ψ => hOp (qs.getD i 0)
      ((List.range i).foldl (fun ψ j => cpOp (qs.getD (i - (j + 1)) 0) (qs.getD i 0) (turn (-s) (1 / 2 ^ (j + 2))) ψ) ψ)) _ fun i hi => ?_
    have hi' := List.mem_range.1 hi
    refine Does.then (F := fun ψ => (List.range i).foldl (fun ψ j => cpOp (qs.getD (i - (j + 1)) 0) (qs.getD i 0) (turn (-s) (1 / 2 ^ (j + 2))) ψ) ψ)
      (Does.loop (F := fun j => cpOp (qs.getD (i - (j + 1)) 0) (qs.getD i 0) (turn (-s) (1 / 2 ^ (j + 2)))) _ fun j hj => ?_)
      (gateH_does hσ hn (hb _ (getD_mem hi')))
    have hj' := List.mem_range.1 hj
    exact ciPhaseRootN_does hσ hn (hb _ (getD_mem (by omega))) (hb _ (getD_mem hi')) (getD_ne hnd (by omega) hi' (by omega)) s j

theorem iqft_iqftr (σ : List ℕ → List ℕ) (s : ℤ) (e : Eng) (start length : ℕ) :
    iqft σ s e start length = iqftr σ s e (List.range' start length) := by
  unfold iqft iqftr
  rw [List.length_range']
  by_cases h0 : length = 0
  · rw [if_pos h0, if_pos h0]
  · rw [if_neg h0, if_neg h0]
    have hget : ∀ k < length, (List.range' start length).getD k 0 = start + k := by
      intro k hk
      rw [List.getD_eq_getElem _ _ (by simpa using hk), List.getElem_range']
      omega
    have hloop : ∀ (l : List ℕ), (∀ i ∈ l, i < length) → ∀ e : Eng,
        l.foldlM (fun e i => ((List.range i).foldlM (fun e j => ciPhaseRootN σ s e (j + 2) ((start + i) - (j + 1)) (start + i)) e).bind
          fun e => gateH σ e (start + i)) e =
        l.foldlM (fun e i => ((List.range i).foldlM (fun e j => ciPhaseRootN σ s e (j + 2) ((List.range' start length).getD (i - (j + 1)) 0)
          ((List.range' start length).getD i 0)) e).bind fun e => gateH σ e ((List.range' start length).getD i 0)) e := by
      intro l hl
      induction l with
      | nil => intro e; rfl
      | cons i l ih =>
        intro e
        rw [List.foldlM_cons, List.foldlM_cons, hget i (hl i (by simp))]
        have hin : ∀ (l' : List ℕ), (∀ j ∈ l', j < i) → ∀ e : Eng,
            l'.foldlM (fun e j => ciPhaseRootN σ s e (j + 2) ((start + i) - (j + 1)) (start + i)) e =
            l'.foldlM (fun e j => ciPhaseRootN σ s e (j + 2) ((List.range' start length).getD (i - (j + 1)) 0) (start + i)) e := by
          intro l' hl'
          induction l' with
          | nil => intro e; rfl
          | cons j l' ih' =>
            intro e
            have hj := hl' j (by simp)
            have hi := hl i (by simp)
            rw [List.foldlM_cons, List.foldlM_cons, hget _ (by omega), show start + (i - (j + 1)) = start + i - (j + 1) by omega]
            congr 1
            funext e
            exact ih' (fun k hk => hl' k (by simp [hk])) e
        rw [hin _ (fun j hj => List.mem_range.1 hj)]
        congr 1
        funext e
        exact ih (fun k hk => hl k (by simp [hk])) e
    exact hloop _ (fun i hi => List.mem_range.1 hi) e

theorem qftr_does {σ : List ℕ → List ℕ} (hσ : IsSched σ) {s : ℤ} (hs : s = 1 ∨ s = -1) {n : ℕ} {qs : List ℕ} (hn : n ≤ 64)
    (hnd : qs.Nodup) (hb : ∀ q ∈ qs, q < n) :
    Does n (fun e => qftr σ s e qs) (dft s qs qs.reverse) := by
  by_cases h0 : qs.length = 0
  · intro e ψ h
    refine ⟨e, by simp only [qftr]; rw [if_pos h0], h.congr fun i _ => ?_⟩
    rw [List.length_eq_zero_iff.1 h0]
    simp [dft, turn_zero, writeBits]
  · rw [show dft s qs qs.reverse = qftrOp s qs from funext fun ψ => (qftrOp_dft hs qs hnd ψ).symm]
    have hfn : (fun e => qftr σ s e qs) = fun e => (List.range qs.length).foldlM (fun e i =>
        (gateH σ e (qs.getD (qs.length - 1 - i) 0)).bind fun e =>
        (List.range (qs.length - 1 - i)).foldlM (fun e j => cPhaseRootN σ s e (j + 2) (qs.getD (qs.length - 1 - i - (j + 1)) 0)
          (qs.getD (qs.length - 1 - i) 0)) e) e := by
      funext e
      unfold qftr
      rw [if_neg h0]
    rw [hfn]
    refine Does.loop (F := fun i ψ =>
      (List.range (qs.length - 1 - i)).foldl (fun ψ j => cpOp (qs.getD (qs.length - 1 - i - (j + 1)) 0) (qs.getD (qs.length - 1 - i) 0)
        (turn s (1 / 2 ^ (j + 2))) ψ) (hOp (qs.getD (qs.length - 1 - i) 0) ψ)) _ fun i hi => ?_
    have hi' := List.mem_range.1 hi
    refine Does.then (F := hOp (qs.getD (qs.length - 1 - i) 0)) (G := fun ψ => (List.range (qs.length - 1 - i)).foldl (fun ψ j =>
        cpOp (qs.getD (qs.length - 1 - i - (j + 1)) 0) (qs.getD (qs.length - 1 - i) 0) (turn s (1 / 2 ^ (j + 2))) ψ) ψ)
      (gateH_does hσ hn (hb _ (getD_mem (by omega))))
      (Does.loop (F := fun j => cpOp (qs.getD (qs.length - 1 - i - (j + 1)) 0) (qs.getD (qs.length - 1 - i) 0) (turn s (1 / 2 ^ (j + 2)))) _ fun j hj => ?_)
    have hj' := List.mem_range.1 hj
    exact cPhaseRootN_does hσ hn (hb _ (getD_mem (by omega))) (hb _ (getD_mem (by omega))) (getD_ne hnd (by omega) (by omega) (by omega)) s j

/-! ## The theorems -/

/-- `QFT` is the discrete Fourier transform, the output value being read with the qubits in reverse order. -/
theorem qft_is_dft {σ : List ℕ → List ℕ} (hσ : IsSched σ) {s : ℤ} (hs : s = 1 ∨ s = -1) {e : Eng} {start length : ℕ} (hn : e.n ≤ 64)
    (hd : e.doNorm = false) (hb : start + length ≤ e.n) :
    TurnsInto e.n e (qft σ s e start length) (dft s (List.range' start length) (List.range' start length).reverse) :=
  (qft_does hσ hs hn hb).turnsInto rfl hd

/-- `IQFT` is the Fourier transform of opposite sign, the input value being read with the qubits in reverse order. -/
theorem iqft_is_dft {σ : List ℕ → List ℕ} (hσ : IsSched σ) {s : ℤ} (hs : s = 1 ∨ s = -1) {e : Eng} {start length : ℕ} (hn : e.n ≤ 64)
    (hd : e.doNorm = false) (hb : start + length ≤ e.n) :
    TurnsInto e.n e (iqft σ s e start length) (dft (-s) (List.range' start length).reverse (List.range' start length)) := by
  rw [iqft_iqftr]
  exact (iqftr_does hσ hs hn List.nodup_range' (fun q hq => by rw [List.mem_range'_1] at hq; omega)).turnsInto rfl hd

/-- `QFTR` on any list of distinct qubits, the first being the least significant. -/
theorem qftr_is_dft {σ : List ℕ → List ℕ} (hσ : IsSched σ) {s : ℤ} (hs : s = 1 ∨ s = -1) {e : Eng} {qs : List ℕ} (hn : e.n ≤ 64)
    (hd : e.doNorm = false) (hnd : qs.Nodup) (hb : ∀ q ∈ qs, q < e.n) :
    TurnsInto e.n e (qftr σ s e qs) (dft s qs qs.reverse) :=
  (qftr_does hσ hs hn hnd hb).turnsInto rfl hd

/-- `IQFTR` on any list of distinct qubits. -/
theorem iqftr_is_dft {σ : List ℕ → List ℕ} (hσ : IsSched σ) {s : ℤ} (hs : s = 1 ∨ s = -1) {e : Eng} {qs : List ℕ} (hn : e.n ≤ 64)
    (hd : e.doNorm = false) (hnd : qs.Nodup) (hb : ∀ q ∈ qs, q < e.n) :
    TurnsInto e.n e (iqftr σ s e qs) (dft (-s) qs.reverse qs) :=
  (iqftr_does hσ hs hn hnd hb).turnsInto rfl hd

/-- A list of distinct qubits: `IQFTR` undoes `QFTR`. -/
theorem iqftr_qftr {σ σ' : List ℕ → List ℕ} (hσ : IsSched σ) (hσ' : IsSched σ') {s : ℤ} (hs : s = 1 ∨ s = -1) {e : Eng} {qs : List ℕ} (hn : e.n ≤ 64)
    (hd : e.doNorm = false) (hnd : qs.Nodup) (hb : ∀ q ∈ qs, q < e.n) :
    TurnsInto e.n e ((qftr σ s e qs).bind fun e => iqftr σ' s e qs) (fun ψ => ψ) := by
  obtain ⟨e', h1, h2, h3, h4⟩ := ((qftr_does hσ hs hn hnd hb).then (iqftr_does hσ' hs hn hnd hb)).turnsInto rfl hd
  exact ⟨e', h1, h2, h3, fun i hi => (h4 i hi).trans (dft_dft hs hnd (List.reverse_perm qs) _ i)⟩

/-- A list of distinct qubits: `QFTR` undoes `IQFTR`. -/
theorem qftr_iqftr {σ σ' : List ℕ → List ℕ} (hσ : IsSched σ) (hσ' : IsSched σ') {s : ℤ} (hs : s = 1 ∨ s = -1) {e : Eng} {qs : List ℕ} (hn : e.n ≤ 64)
    (hd : e.doNorm = false) (hnd : qs.Nodup) (hb : ∀ q ∈ qs, q < e.n) :
    TurnsInto e.n e ((iqftr σ s e qs).bind fun e => qftr σ' s e qs) (fun ψ => ψ) := by
  obtain ⟨e', h1, h2, h3, h4⟩ := ((iqftr_does hσ hs hn hnd hb).then (qftr_does hσ' hs hn hnd hb)).turnsInto rfl hd
  have hs' : -s = 1 ∨ -s = -1 := by rcases hs with rfl | rfl <;> simp
  refine ⟨e', h1, h2, h3, fun i hi => (h4 i hi).trans ?_⟩
  have := dft_dft hs' (src := qs.reverse) (dst := qs) (List.nodup_reverse.2 hnd) (List.reverse_perm qs).symm e.amp i
  rwa [neg_neg] at this

/-- A register: `IQFT` undoes `QFT`. -/
theorem iqft_qft {σ σ' : List ℕ → List ℕ} (hσ : IsSched σ) (hσ' : IsSched σ') {s : ℤ} (hs : s = 1 ∨ s = -1) {e : Eng} {start length : ℕ}
    (hn : e.n ≤ 64) (hd : e.doNorm = false) (hb : start + length ≤ e.n) :
    TurnsInto e.n e ((qft σ s e start length).bind fun e => iqft σ' s e start length) (fun ψ => ψ) := by
  have hbb : ∀ q ∈ List.range' start length, q < e.n := fun q hq => by rw [List.mem_range'_1] at hq; omega
  have hi : (fun e => iqft σ' s e start length) = fun e => iqftr σ' s e (List.range' start length) := funext fun e => iqft_iqftr _ _ _ _ _
  rw [hi]
  obtain ⟨e', h1, h2, h3, h4⟩ := ((qft_does hσ hs hn hb).then (iqftr_does hσ' hs hn List.nodup_range' hbb)).turnsInto rfl hd
  exact ⟨e', h1, h2, h3, fun i hi => (h4 i hi).trans (dft_dft hs List.nodup_range' (List.reverse_perm _) _ i)⟩

/-- A register: `QFT` undoes `IQFT`. -/
theorem qft_iqft {σ σ' : List ℕ → List ℕ} (hσ : IsSched σ) (hσ' : IsSched σ') {s : ℤ} (hs : s = 1 ∨ s = -1) {e : Eng} {start length : ℕ}
    (hn : e.n ≤ 64) (hd : e.doNorm = false) (hb : start + length ≤ e.n) :
    TurnsInto e.n e ((iqft σ s e start length).bind fun e => qft σ' s e start length) (fun ψ => ψ) := by
  have hbb : ∀ q ∈ List.range' start length, q < e.n := fun q hq => by rw [List.mem_range'_1] at hq; omega
  rw [iqft_iqftr]
  obtain ⟨e', h1, h2, h3, h4⟩ := ((iqftr_does hσ hs hn List.nodup_range' hbb).then (qft_does hσ' hs hn hb)).turnsInto rfl hd
  have hs' : -s = 1 ∨ -s = -1 := by rcases hs with rfl | rfl <;> simp
  refine ⟨e', h1, h2, h3, fun i hi => (h4 i hi).trans ?_⟩
  have := dft_dft hs' (src := (List.range' start length).reverse) (dst := List.range' start length) (List.nodup_reverse.2 List.nodup_range')
    (List.reverse_perm _).symm e.amp i
  rwa [neg_neg] at this

/-- What the definition of the transform means on a basis state: the register value `x` goes to the superposition of all values `y`
(read in reverse) with the phases `s * x * y / 2^length` turns and the weight `2^(-length/2)`; the other qubits are untouched. -/
theorem qft_basis {σ : List ℕ → List ℕ} (hσ : IsSched σ) {s : ℤ} (hs : s = 1 ∨ s = -1) {e : Eng} {start length : ℕ} (hn : e.n ≤ 64)
    (hd : e.doNorm = false) (hb : start + length ≤ e.n) {b : ℕ} (he : ∀ i < 2 ^ e.n, e.amp i = if i = b then 1 else 0) :
    ∃ e', qft σ s e start length = some e' ∧ ∀ i < 2 ^ e.n, e'.amp i =
      if ∀ q, (q < start ∨ start + length ≤ q) → i.testBit q = b.testBit q then
        (1 / Real.sqrt (2 ^ length) : ℝ) * turn s ((readBits (List.range' start length) b : ℝ) *
          (readBits (List.range' start length).reverse i : ℝ) / 2 ^ length)
      else 0 := by
  obtain ⟨e', h1, _, _, h4⟩ := qft_is_dft hσ hs hn hd hb
  refine ⟨e', h1, fun i hi => (h4 i hi).trans ?_⟩
  have hbb : ∀ q ∈ List.range' start length, q < e.n := fun q hq => by rw [List.mem_range'_1] at hq; omega
  unfold dft
  rw [List.length_range']
  have hval : ∀ x, e.amp (writeBits (List.range' start length) x i) = if writeBits (List.range' start length) x i = b then 1 else 0 :=
    fun x => he _ (writeBits_lt hbb x hi)
  simp only [hval]
  by_cases hc : ∀ q, (q < start ∨ start + length ≤ q) → i.testBit q = b.testBit q
  · rw [if_pos hc]
    have hone : ∀ x ∈ Finset.range (2 ^ length),
        turn s ((x : ℝ) * (readBits (List.range' start length).reverse i : ℝ) / 2 ^ length) *
          (if writeBits (List.range' start length) x i = b then (1 : ℂ) else 0) =
        if x = readBits (List.range' start length) b then turn s ((x : ℝ) * (readBits (List.range' start length).reverse i : ℝ) / 2 ^ length) else 0 := by
      intro x hx
      have hx' : x < 2 ^ (List.range' start length).length := by rw [List.length_range']; exact Finset.mem_range.1 hx
      have hiff : writeBits (List.range' start length) x i = b ↔ x = readBits (List.range' start length) b := by
        constructor
        · rintro rfl
          exact (readBits_writeBits List.nodup_range' hx' i).symm
        · rintro rfl
          have h2 : writeBits (List.range' start length) (readBits (List.range' start length) b) i =
              writeBits (List.range' start length) (readBits (List.range' start length) b) b := by
            apply Nat.eq_of_testBit_eq
            intro k
            by_cases hk : k ∈ List.range' start length
            · obtain ⟨j, hj, rfl⟩ := List.getElem_of_mem hk
              rw [testBit_writeBits List.nodup_range' _ _ hj, testBit_writeBits List.nodup_range' _ _ hj]
            · rw [testBit_writeBits_of_notMem hk, testBit_writeBits_of_notMem hk]
              rw [List.mem_range'_1] at hk
              exact hc k (by omega)
          rw [h2, writeBits_readBits List.nodup_range']
      by_cases hxx : x = readBits (List.range' start length) b
      · rw [if_pos (hiff.2 hxx), if_pos hxx, mul_one]
      · rw [if_neg (fun h => hxx (hiff.1 h)), if_neg hxx, mul_zero]
    rw [Finset.sum_congr rfl hone, Finset.sum_ite_eq' (Finset.range (2 ^ length)), if_pos]
    have := readBits_lt (List.range' start length) b
    rw [List.length_range'] at this
    exact Finset.mem_range.2 this
  · rw [if_neg hc]
    have hzero : ∀ x, writeBits (List.range' start length) x i ≠ b := by
      intro x hx
      refine hc fun q hq => ?_
      rw [← hx, testBit_writeBits_of_notMem]
      rw [List.mem_range'_1]
      omega
    simp only [hzero, if_false, mul_zero, Finset.sum_const_zero]

/-! ## A concrete case: three qubits, the upper two transformed -/

/-- `|010⟩`: the register of qubits 1, 2 holds 1. -/
noncomputable def qftDemo : Eng := ⟨3, fun i => if i = 2 then 1 else 0, 1, false, false, 0⟩

example : ∃ e', qft id (-1) qftDemo 1 2 = some e' ∧ ∀ i < 2 ^ 3, e'.amp i =
      if ∀ q, (q < 1 ∨ 1 + 2 ≤ q) → i.testBit q = (2 : ℕ).testBit q then
        (1 / Real.sqrt (2 ^ 2) : ℝ) * turn (-1) ((readBits [1, 2] 2 : ℝ) * (readBits [2, 1] i : ℝ) / 2 ^ 2) else 0 :=
  qft_basis (fun l => List.Perm.refl _) (Or.inr rfl) (e := qftDemo) (start := 1) (length := 2) (by simp [qftDemo]) rfl (by simp [qftDemo]) (b := 2)
    (fun i _ => rfl)

-- the reversed reading of `|100⟩` is 1: a quarter turn from value 1
example : readBits [1, 2] 2 = 1 ∧ readBits [2, 1] 4 = 1 ∧ readBits [2, 1] 2 = 2 := by decide

example : TurnsInto 3 qftDemo ((qftr id 1 qftDemo [2, 0]).bind fun e => iqftr id 1 e [2, 0]) (fun ψ => ψ) :=
  iqftr_qftr (fun l => List.Perm.refl _) (fun l => List.Perm.refl _) (Or.inl rfl) (e := qftDemo) (by simp [qftDemo]) rfl (by simp)
    (by intro q hq; simp at hq; rcases hq with rfl | rfl <;> simp [qftDemo])

end Verif.Engine
