import Verif.Model.EngineMask
import Verif.Props.EngineSwap
import Verif.Props.EngineUnitary
import Verif.Lib.MaskBits

/-! Helper lemmas for the mask gates. -/

namespace Verif.Engine

open Verif.ParFor Verif.Bits Verif.PairFold Verif.Spec Classical

theorem maskQubits_zero : maskQubits 0 = [] := by rw [maskQubits]; simp

theorem maskQubits_spec (mask : ℕ) :
    (maskQubits mask).Nodup ∧ ∀ q, q ∈ maskQubits mask ↔ mask.testBit q = true := by
  induction mask using Nat.strongRecOn with
  | _ mask ih =>
    by_cases h : mask = 0
    · subst h; rw [maskQubits_zero]; simp
    · obtain ⟨l, h1, h2, h3, h4⟩ := and_pred h
      have hlt : mask &&& (mask - 1) < mask := by
        have : mask &&& (mask - 1) ≤ mask - 1 := Nat.and_le_right
        omega
      obtain ⟨i1, i2⟩ := ih _ hlt
      rw [maskQubits]
      simp only [h, dite_false, h4, log2_two_pow]
      refine ⟨List.nodup_cons.2 ⟨?_, i1⟩, fun q => ?_⟩
      · rw [i2, h3]; simp
      · rw [List.mem_cons, i2, h3]
        by_cases hq : q = l
        · subst hq; simp [h1]
        · simp [hq]

theorem maskCount_eq_countP {n mask i : ℕ} (h : mask < 2 ^ n) :
    maskCount n mask i = (maskQubits mask).countP (fun q => i.testBit q) := by
  obtain ⟨h1, h2⟩ := maskQubits_spec mask
  rw [List.countP_eq_length_filter, maskCount]
  have hnd : ((maskQubits mask).filter fun q => i.testBit q).Nodup := h1.filter _
  rw [← List.toFinset_card_of_nodup hnd]
  congr 1
  ext k
  rw [Finset.mem_filter, List.mem_toFinset, List.mem_filter, h2, Finset.mem_range]
  constructor
  · rintro ⟨_, h⟩; exact h
  · rintro ⟨ha, hb⟩
    refine ⟨?_, ha, hb⟩
    by_contra hc
    have := lt_two_pow_iff_testBit.1 h k (by omega)
    rw [this] at ha; cases ha

/-- The gates a mask gate is built from, in a form where only the amplitudes matter. -/
structure Applies (e e' : Eng) (f : (ℕ → ℂ) → ℕ → ℂ) : Prop where
  n : e'.n = e.n
  rgp : e'.rgp = e.rgp
  doNorm : e'.doNorm = e.doNorm
  floor : e'.floor = e.floor
  amp : ∀ i < 2 ^ e.n, e'.amp i = f e.amp i

theorem gateX_applies {σ : List ℕ → List ℕ} (hσ : IsSched σ) {e : Eng} (hn : e.n ≤ 64) {q : ℕ}
    (hq : q < e.n) :
    ∃ e', gateX σ e q = some e' ∧ Applies e e' (fun s i => s (flipBit q i)) := by
  obtain ⟨e', h1, h2, -, h4, h5, h6, h7, -⟩ := mtrx_gate hσ hn (m := ⟨0, 1, 1, 0⟩)
    (Or.inr (Or.inr ⟨rfl, rfl⟩)) hq
  refine ⟨e', h1, h2, h6, h4, h5, fun i hi => ?_⟩
  rw [h7 (by simp [Dropped]) i hi]
  simp [gate]

theorem gateY_applies {σ : List ℕ → List ℕ} (hσ : IsSched σ) {e : Eng} (hn : e.n ≤ 64) {q : ℕ}
    (hq : q < e.n) :
    ∃ e', gateY σ e q = some e' ∧ Applies e e' (fun s i =>
      (if i.testBit q then Complex.I else -Complex.I) * s (flipBit q i)) := by
  obtain ⟨e', h1, h2, -, h4, h5, h6, h7, -⟩ := mtrx_gate hσ hn (m := ⟨0, -Complex.I, Complex.I, 0⟩)
    (Or.inr (Or.inr ⟨rfl, rfl⟩)) hq
  refine ⟨e', h1, h2, h6, h4, h5, fun i hi => ?_⟩
  rw [h7 (by simp [Dropped]) i hi]
  simp only [gate, if_true]
  cases i.testBit q <;> simp

theorem phase_applies {σ : List ℕ → List ℕ} (hσ : IsSched σ) {e : Eng} (hn : e.n ≤ 64) {q : ℕ}
    (hq : q < e.n) {tl br : ℂ} (hne : tl ≠ br ∨ e.rgp = false) :
    ∃ e', phase σ e tl br q = some e' ∧ Applies e e' (fun s i =>
      (if i.testBit q then br else tl) * s i) := by
  unfold phase
  split_ifs with hc
  · refine ⟨e, rfl, rfl, rfl, rfl, rfl, fun i _ => ?_⟩
    have hb : tl = br := sub_eq_zero.1 hc.2
    rcases hne with h | h
    · exact absurd hb h
    · rcases hc.1 with h' | h'
      · rw [h] at h'; cases h'
      · have : tl = 1 := (sub_eq_zero.1 h').symm
        rw [← hb, this]; simp
  · obtain ⟨e', h1, h2, -, h4, h5, h6, h7, -⟩ := mtrx_gate hσ hn (m := ⟨tl, 0, 0, br⟩)
      (Or.inr (Or.inl ⟨rfl, rfl⟩)) hq
    refine ⟨e', h1, h2, h6, h4, h5, fun i hi => ?_⟩
    rw [h7 ?_ i hi]
    · simp only [gate, if_true]
      cases i.testBit q <;> simp
    · rintro ⟨hr, -, -, hab⟩
      rcases hne with h | h
      · exact h hab
      · rw [h] at hr; cases hr

theorem cnot_applies {σ : List ℕ → List ℕ} (hσ : IsSched σ) {e : Eng} (hn : e.n ≤ 64)
    (hfl : e.doNorm = false ∨ e.floor ≤ 0) {c t : ℕ} (hc : c < e.n) (ht : t < e.n) (hct : c ≠ t) :
    ∃ e', cnot σ e c t = some e' ∧ e'.n = e.n ∧ e'.rgp = e.rgp ∧
      ((e'.doNorm = false ∨ e'.floor ≤ 0)) ∧
      ∀ i < 2 ^ e.n, e'.amp i = if i.testBit c then e.amp (flipBit t i) else e.amp i := by
  have hinv : ∀ m : M2, m = ⟨0, 1, 1, 0⟩ → isIdentity e.rgp m true = false := by
    rintro m rfl
    unfold isIdentity; rw [if_pos]; right; simp [M2.isPhase]
  obtain ⟨e', h, h1, h2, h3, h4, h5, h6⟩ := apply2x2_ctrl hσ hn (cs := [c]) (t := t) (by simp)
    (by simpa using hct) (by intro k hk; simp at hk; rcases hk with rfl | rfl <;> assumption)
    (o := ([c].map pow2).foldl (· ||| ·) 0)
    (by intro k hk; rw [testBit_foldl_or] at hk; simpa using hk)
    (AllAre true [c]) (fun i => by
      simp only [AllAre, Pat, testBit_foldl_or, Nat.zero_testBit, Bool.false_or]
      exact forall₂_congr fun c hc => by simp [hc]) ⟨0, 1, 1, 0⟩
  refine ⟨e', ?_, h1, h5, by rw [h3, h4]; exact hfl, fun i hi => ?_⟩
  · unfold cnot eitherMtrx
    rw [if_neg (by simp), hinv _ rfl]
    simp only [Bool.false_eq_true, if_false]
    have hno : (e.doNorm && !decide ((⟨0, 1, 1, 0⟩ : M2).isPhase ∨ (⟨0, 1, 1, 0⟩ : M2).isInvert))
        = false := by simp [M2.isInvert]
    rw [hno]
    exact h
  · rw [h6 i hi]
    simp only [gate, AllAre, List.mem_singleton, forall_eq]
    cases i.testBit c <;> cases i.testBit t <;> simp

/-- Composition over a list of qubits of gates that multiply by a factor and permute indices. -/
theorem foldlM_applies {G : Eng → ℕ → Option Eng} {f : ℕ → (ℕ → ℂ) → ℕ → ℂ} (N : ℕ) (rgp : Bool)
    (hG : ∀ e q, e.n = N → e.rgp = rgp → q < N → ∃ e', G e q = some e' ∧ Applies e e' (f q))
    (hf : ∀ q, q < N → ∀ s s', SameOn N s s' → SameOn N (f q s) (f q s')) :
    ∀ (l : List ℕ), (∀ q ∈ l, q < N) → ∀ e : Eng, e.n = N → e.rgp = rgp →
    ∃ e', l.foldlM G e = some e' ∧
      Applies e e' (fun s => l.foldl (fun s q => f q s) s) := by
  intro l
  induction l with
  | nil => intro _ e hn hr; exact ⟨e, rfl, rfl, rfl, rfl, rfl, fun _ _ => rfl⟩
  | cons q l ih =>
    intro hl e hn hr
    obtain ⟨e1, h1, h2⟩ := hG e q hn hr (hl q (by simp))
    obtain ⟨e2, k1, k2⟩ := ih (fun x hx => hl x (by simp [hx])) e1 (by rw [h2.n, hn])
      (by rw [h2.rgp, hr])
    refine ⟨e2, ?_, by rw [k2.n, h2.n], by rw [k2.rgp, h2.rgp], by rw [k2.doNorm, h2.doNorm],
      by rw [k2.floor, h2.floor], ?_⟩
    · rw [List.foldlM_cons, h1]; exact k1
    · intro i hi
      rw [k2.amp i (by rw [h2.n]; exact hi), List.foldl_cons]
      have hind : ∀ (l : List ℕ), (∀ q ∈ l, q < N) → ∀ s s', SameOn N s s' →
          SameOn N (l.foldl (fun s q => f q s) s) (l.foldl (fun s q => f q s) s') := by
        intro l
        induction l with
        | nil => intro _ s s' h; exact h
        | cons q l ih =>
          intro hl s s' h
          exact ih (fun x hx => hl x (by simp [hx])) _ _ (hf q (hl q (by simp)) s s' h)
      exact hind l (fun x hx => hl x (by simp [hx])) _ _
        (fun j hj => h2.amp j (by rw [hn]; exact hj)) i (by rw [← hn]; exact hi)

/-! ### The XMask loop -/

theorem and_or_other {n mask i : ℕ} (hm : mask < 2 ^ n) (hi : i < 2 ^ n) :
    (i &&& mask) ||| (i &&& ((2 ^ n - 1) ^^^ mask)) = i ∧
    ((i &&& mask) ^^^ mask) ||| (i &&& ((2 ^ n - 1) ^^^ mask)) = i ^^^ mask := by
  constructor <;>
  · apply Nat.eq_of_testBit_eq
    intro k
    simp only [Nat.testBit_or, Nat.testBit_and, Nat.testBit_xor, Nat.testBit_two_pow_sub_one]
    by_cases hk : k < n
    · cases i.testBit k <;> cases mask.testBit k <;> simp [hk]
    · rw [lt_two_pow_iff_testBit.1 hi k (by omega), lt_two_pow_iff_testBit.1 hm k (by omega)]
      simp

theorem foldl_filter_skip {α β : Type*} (f : α → β → α) (c : β → Bool) (l : List β) (s : α) :
    l.foldl (fun s x => if c x then f s x else s) s = (l.filter c).foldl f s := by
  induction l generalizing s with
  | nil => rfl
  | cons x l ih =>
    rw [List.foldl_cons, ih, List.filter_cons]
    cases c x <;> simp

theorem xMask_fold {n mask : ℕ} (hm : mask < 2 ^ n) (h0 : mask ≠ 0) {l : List ℕ} (hnd : l.Nodup)
    (hmem : ∀ i, i ∈ l ↔ i < 2 ^ n) (s : ℕ → ℂ) (i : ℕ) (hi : i < 2 ^ n) :
    l.foldl (xMaskStep n mask) s i = s (i ^^^ mask) := by
  set c : ℕ → Bool := fun x => decide (¬ (x &&& mask < (x &&& mask) ^^^ mask)) with hc
  have hstep : l.foldl (xMaskStep n mask) s = l.foldl (fun s x => if c x then
      Function.update (Function.update s (x ^^^ mask) (s x)) x (s (x ^^^ mask)) else s) s := by
    apply List.foldl_ext
    intro s x hx
    obtain ⟨e1, e2⟩ := and_or_other hm ((hmem x).1 hx)
    unfold xMaskStep
    dsimp only
    rw [e1, e2]
    by_cases h : x &&& mask < (x &&& mask) ^^^ mask
    · simp [hc, h]
    · simp [hc, h]
  rw [hstep, foldl_filter_skip]
  have hp : ∀ (l' : List ℕ) (s : ℕ → ℂ), l'.foldl (fun s x =>
      Function.update (Function.update s (x ^^^ mask) (s x)) x (s (x ^^^ mask))) s =
      (l'.foldl (pstep (fun x => x ^^^ mask) (fun x => x) (fun _ a b => (b, a)) (fun _ _ => 0))
        (s, 0)).1 := by
    intro l'
    induction l' with
    | nil => intro s; rfl
    | cons x l' ih =>
      intro s
      rw [List.foldl_cons, List.foldl_cons, ih]
      simp [pstep]
  rw [hp]
  have hcx : ∀ x, ((x ^^^ mask) &&& mask) = (x &&& mask) ^^^ mask := by
    intro x
    apply Nat.eq_of_testBit_eq
    intro k
    simp only [Nat.testBit_and, Nat.testBit_xor]
    cases x.testBit k <;> cases mask.testBit k <;> rfl
  have hne : ∀ x : ℕ, x &&& mask ≠ (x &&& mask) ^^^ mask := by
    intro x h
    apply h0
    have := congrArg (fun y => (x &&& mask) ^^^ y) h
    simpa [← Nat.xor_assoc] using this.symm
  have hcc : ∀ x, c (x ^^^ mask) = !c x := by
    intro x
    have h1 := hne x
    simp only [hc, hcx]
    rw [Nat.xor_assoc, Nat.xor_self, Nat.xor_zero]
    by_cases h : x &&& mask < (x &&& mask) ^^^ mask
    · simp [h]; omega
    · simp [h]; omega
  have hd : Disj (fun x => x ^^^ mask) (fun x => x) (l.filter c) := by
    refine ⟨?_, ?_, fun x _ y _ h => h, ?_⟩
    · intro x _ h
      have h : x ^^^ mask = x := h
      have := congrArg (fun y => x ^^^ y) h
      simp [← Nat.xor_assoc] at this
      exact h0 this
    · intro x _ y _ h
      have h : x ^^^ mask = y ^^^ mask := h
      have := congrArg (fun z => z ^^^ mask) h
      simpa [Nat.xor_assoc] using this
    · intro x hx y hy h
      have h : x ^^^ mask = y := h
      rw [← h, List.mem_filter, hcc] at hy
      rw [List.mem_filter] at hx
      rw [hx.2] at hy
      simp at hy
  obtain ⟨h1, h2, -⟩ := fold_spec (fun x => x ^^^ mask) (fun x => x) (fun _ (a b : ℂ) => (b, a))
    (fun _ _ => 0) _ (hnd.filter c) hd s 0
  by_cases hci : c i = true
  · exact (h1 i (List.mem_filter.2 ⟨(hmem i).2 hi, hci⟩)).2
  · have hci' : c (i ^^^ mask) = true := by rw [hcc]; simp [hci]
    have := (h1 (i ^^^ mask) (List.mem_filter.2
      ⟨(hmem _).2 (Nat.xor_lt_two_pow hi hm), hci'⟩)).1
    simpa [Nat.xor_assoc] using this

/-! ### Parity -/

/-- Parity of the bits `0..w-1`. -/
def par : ℕ → ℕ → Bool
  | 0, _ => false
  | w + 1, x => xor (par w x) (x.testBit w)

theorem par_popCount (w x : ℕ) : par w x = decide (popCount w x % 2 = 1) := by
  induction w with
  | zero => rfl
  | succ w ih =>
    rw [par, ih, popCount]
    cases x.testBit w
    · simp
    · simp only [if_true, Bool.xor_true]
      by_cases h : popCount w x % 2 = 1
      · simp [h]; omega
      · simp [h]; omega

theorem par_add (a b x : ℕ) : par (a + b) x = xor (par a x) (par b (x >>> a)) := by
  induction b with
  | zero => simp [par]
  | succ b ih =>
    rw [← add_assoc, par, ih, par, Nat.testBit_shiftRight]
    simp [Bool.xor_assoc]

theorem par_xor (w x y : ℕ) : par w (x ^^^ y) = xor (par w x) (par w y) := by
  induction w with
  | zero => rfl
  | succ w ih =>
    rw [par, ih, par, par, Nat.testBit_xor]
    cases par w x <;> cases par w y <;> cases x.testBit w <;> cases y.testBit w <;> rfl

theorem par_fold (k x : ℕ) : par k (x ^^^ (x >>> k)) = par (2 * k) x := by
  rw [par_xor, two_mul, par_add]

theorem ladder_par : ∀ (j fuel v : ℕ), j < fuel →
    (parityLadder fuel (2 ^ j) v).testBit 0 = par (2 ^ (j + 1)) v := by
  intro j
  induction j with
  | zero =>
    intro fuel v h
    obtain ⟨f, rfl⟩ : ∃ f, fuel = f + 1 := ⟨fuel - 1, by omega⟩
    rw [parityLadder]
    simp only [pow_zero, one_ne_zero, if_false]
    have : parityLadder f (1 / 2) (v ^^^ v >>> 1) = v ^^^ v >>> 1 := by
      cases f with
      | zero => rfl
      | succ f => rw [parityLadder]; simp
    rw [this]
    have := par_fold 1 v
    simpa [par] using this
  | succ j ih =>
    intro fuel v h
    obtain ⟨f, rfl⟩ : ∃ f, fuel = f + 1 := ⟨fuel - 1, by omega⟩
    rw [parityLadder]
    have h2 : (2 : ℕ) ^ (j + 1) ≠ 0 := by positivity
    have h3 : 2 ^ (j + 1) / 2 = 2 ^ j := by rw [pow_succ]; simp
    simp only [h2, if_false, h3]
    rw [ih f _ (by omega), par_fold]
    congr 1
    ring

theorem parityBit_eq (v : ℕ) : parityBit v = if par 64 v then 1 else 0 := by
  unfold parityBit
  have h := ladder_par 5 64 v (by norm_num)
  norm_num at h
  rw [← h, Nat.and_one_is_mod]
  have := Nat.mod_two_eq_zero_or_one (parityLadder 64 32 v)
  rcases this with h | h <;> simp [h]

theorem popCount_and {n mask i : ℕ} : popCount n (i &&& mask) = maskCount n mask i := by
  induction n with
  | zero => simp [popCount, maskCount]
  | succ n ih =>
    rw [popCount, ih, maskCount, maskCount, Finset.range_add_one, Finset.filter_insert]
    rw [Nat.testBit_and]
    cases hm : mask.testBit n <;> cases hi : i.testBit n <;> simp

theorem popCount_ge {n w x : ℕ} (hx : x < 2 ^ n) (hw : n ≤ w) : popCount w x = popCount n x := by
  obtain ⟨d, rfl⟩ := Nat.exists_eq_add_of_le hw
  clear hw
  induction d with
  | zero => rfl
  | succ d ih =>
    rw [← add_assoc, popCount, ih, lt_two_pow_iff_testBit.1 hx _ (by omega)]
    simp

theorem plan_for {n : ℕ} {σ : List ℕ → List ℕ} (hσ : IsSched σ) :
    (σ (parForPlan 0 (2 ^ n))).Nodup ∧ ∀ i, i ∈ σ (parForPlan 0 (2 ^ n)) ↔ i < 2 ^ n := by
  have hp := hσ (parForPlan 0 (2 ^ n))
  refine ⟨hp.nodup_iff.2 List.nodup_range', fun i => hp.mem_iff.trans ?_⟩
  simp [parForPlan, List.mem_range'_1]

/-- A loop over all cells that rewrites each cell from its own contents. -/
theorem cell_fold {n : ℕ} {l : List ℕ} (hnd : l.Nodup) (hmem : ∀ i, i ∈ l ↔ i < 2 ^ n)
    (K : ℕ → ℂ → ℂ) (f : (ℕ → ℂ) → ℕ → ℕ → ℂ)
    (hf : ∀ s x, x < 2 ^ n → f s x = Function.update s x (K x (s x))) (s : ℕ → ℂ) (i : ℕ)
    (hi : i < 2 ^ n) : l.foldl f s i = K i (s i) := by
  have : l.foldl f s = l.foldl (cstep id K) s := by
    apply List.foldl_ext
    intro s x hx
    rw [hf s x ((hmem x).1 hx)]; rfl
  rw [this]
  exact (cfold_spec id K l hnd (fun _ _ _ _ h => h) s).1 i ((hmem i).2 hi)

theorem isPowerOfTwo_iff {mask : ℕ} (h : isPowerOfTwo mask = true) :
    ∃ l, mask = 2 ^ l ∧ Nat.log2 mask = l := by
  have h' : mask ≠ 0 ∧ mask &&& (mask - 1) = 0 := by simpa [isPowerOfTwo] using h
  obtain ⟨l, -, -, -, h4⟩ := and_pred h'.1
  rw [h'.2, Nat.xor_zero] at h4
  exact ⟨l, h4, by rw [h4, log2_two_pow]⟩

theorem maskCount_two_pow {n l i : ℕ} (hl : l < n) :
    maskCount n (2 ^ l) i = if i.testBit l then 1 else 0 := by
  unfold maskCount
  simp only [Nat.testBit_two_pow]
  split_ifs with h
  · rw [Finset.card_eq_one]
    refine ⟨l, ?_⟩
    ext k
    simp only [Finset.mem_filter, Finset.mem_range, decide_eq_true_eq, Finset.mem_singleton]
    constructor
    · rintro ⟨_, h, _⟩; exact h.symm
    · rintro rfl; exact ⟨hl, rfl, h⟩
  · rw [Finset.card_eq_zero, Finset.filter_eq_empty_iff]
    rintro k - ⟨h1, h2⟩
    have : l = k := by simpa using h1
    subst this; exact h h2

end Verif.Engine
