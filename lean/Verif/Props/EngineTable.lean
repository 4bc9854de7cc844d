import Verif.Props.EngineMul
import Mathlib.Algebra.BigOperators.Group.Finset.Basic
import Mathlib.Algebra.BigOperators.Fin

/-!
# C14, C15: table lookups
-/

namespace Verif.Engine

open Verif.Spec Verif.BlockFold Verif.ParFor

/-- Entry `k` of a table of little-endian entries of `bytes` bytes. -/
def entry (bytes : ℕ) (values : ℕ → ℕ) (k : ℕ) : ℕ := ∑ j ∈ Finset.range bytes, values (k * bytes + j) * 256 ^ j

theorem tableRead_entry {bytes : ℕ} {values : ℕ → ℕ} (hv : ∀ k, values k < 256) (k : ℕ) :
    tableRead bytes values k = entry bytes values k ∧ entry bytes values k < 256 ^ bytes := by
  unfold tableRead entry
  induction bytes generalizing k with
  | zero => simp
  | succ m _ =>
    have key : ∀ m', m' ≤ m + 1 →
        (List.range m').foldl (fun acc j => acc ||| (values (k * (m + 1) + j) <<< (8 * j))) 0 =
          ∑ j ∈ Finset.range m', values (k * (m + 1) + j) * 256 ^ j ∧
        ∑ j ∈ Finset.range m', values (k * (m + 1) + j) * 256 ^ j < 256 ^ m' := by
      intro m'
      induction m' with
      | zero => simp
      | succ p ih =>
        intro hp
        obtain ⟨h1, h2⟩ := ih (by omega)
        rw [List.range_succ, List.foldl_append, h1, Finset.sum_range_succ]
        have h3 := hv (k * (m + 1) + p)
        have h256 : (256 : ℕ) ^ p = 2 ^ (8 * p) := by rw [pow_mul]; norm_num
        constructor
        · rw [List.foldl_cons, List.foldl_nil]
          rw [h256] at h2 ⊢
          rw [Nat.or_comm, ← Nat.shiftLeft_eq, ← Nat.shiftLeft_add_eq_or_of_lt h2]
          exact Nat.add_comm _ _
        · rw [pow_succ]
          have : values (k * (m + 1) + p) * 256 ^ p ≤ 255 * 256 ^ p := Nat.mul_le_mul_right _ (by omega)
          omega
    exact key (m + 1) le_rfl

/-- C14. `IndexedLDA` sends `|i>|0>` to `|i>|table[i]>`. -/
theorem indexedLDA_loads {σ : List ℕ → List ℕ} (hσ : IsSched σ) {e : Eng} (hn : e.n < 64) {is il vs vl : ℕ}
    {values : ℕ → ℕ} (hi : is + il ≤ e.n) (hv : vs + vl ≤ e.n) (hval : ∀ k, values k < 256)
    (hfit : ∀ k < 2 ^ il, entry ((vl + 7) / 8) values k < 2 ^ vl) :
    ∃ a, indexedLDAE σ e is il vs vl values = some (e.reset a) ∧ ∀ i < 2 ^ e.n, field vs vl i = 0 →
      a (setField vs vl (entry ((vl + 7) / 8) values (field is il i)) i) = e.amp i := by
  unfold indexedLDAE
  rw [rangeOk hi hn, rangeOk hv hn]
  simp only [Bool.false_eq_true, if_false]
  have hb : (vl + 7) >>> 3 = (vl + 7) / 8 := by rw [Nat.shiftRight_eq_div_pow]
  rw [hb]
  have hout : ∀ i < 2 ^ e.n, field vs vl i = 0 →
      i ||| (tableRead ((vl + 7) / 8) values ((i &&& (2 ^ il - 1) <<< is) >>> is) <<< vs) =
      setField vs vl (entry ((vl + 7) / 8) values (field is il i)) i := by
    intro i _ hfi
    rw [read_field, (tableRead_entry hval _).1, or_field hfi (hfit _ (field_lt _ _ _))]
  refine ⟨_, rfl, fun i hi hfi => ?_⟩
  rw [← hout i hi hfi]
  refine (scatter_skip hσ hv hn ?_).1 i hi hfi
  intro x hx hfx y hy hfy hxy
  rw [hout x hx hfx, hout y hy hfy] at hxy
  rw [setOut_inj (f := fun i => entry ((vl + 7) / 8) values (field is il i)) hfx hfy hxy]

theorem indexedRes_eq {n : ℕ} {add : ℕ → ℕ} {is il vs vl c i : ℕ} (hin : is + il ≤ n) (hv : vs + vl ≤ n)
    (hc : c < n) (hn : n < 64) (hd : is + il ≤ vs ∨ vs + vl ≤ is) (hci : c < is ∨ is + il ≤ c)
    (hcv : c < vs ∨ vs + vl ≤ c) (hi : i < 2 ^ n) (hadd : add (field is il i) ≤ 2 ^ vl) :
    indexedRes n add is il vs vl c i = sumIdx vs vl c (field vs vl i + add (field is il i)) i := by
  have hf := field_lt vs vl i
  have hp : 2 ^ vl ≤ 2 ^ 62 ∨ 2 ^ vl = 2 ^ 63 := by
    rcases Nat.lt_or_ge vl 63 with h | h
    · left; exact Nat.pow_le_pow_right (by norm_num) (by omega)
    · right; congr 1; omega
  have hw : field vs vl i + add (field is il i) < 2 ^ 64 := by omega
  have hrest : (i &&& (2 ^ il - 1) <<< is) |||
      (i &&& otherMask n ((2 ^ il - 1) <<< is ||| (2 ^ vl - 1) <<< vs ||| 2 ^ c)) =
      i &&& otherMask n ((2 ^ vl - 1) <<< vs ||| 2 ^ c) := by
    apply Nat.eq_of_testBit_eq
    intro k
    rw [Nat.testBit_or, Nat.testBit_and, Nat.testBit_and, Nat.testBit_and, testBit_otherMask, testBit_otherMask,
      Nat.testBit_or, Nat.testBit_or, Nat.testBit_or, testBit_regMask, testBit_regMask, Nat.testBit_two_pow]
    by_cases h1 : is ≤ k ∧ k < is + il
    · have h2 : ¬ (vs ≤ k ∧ k < vs + vl) := by omega
      have h3 : ¬ c = k := by omega
      rw [decide_eq_true h1, decide_eq_false h2, decide_eq_false h3, decide_eq_true (show k < n by omega)]
      simp
    · rw [decide_eq_false h1]; simp
  have hdiv : (field vs vl i + add (field is il i)) / 2 ^ vl =
      (decide (field vs vl i + add (field is il i) ≥ 2 ^ vl)).toNat := by
    by_cases hge : field vs vl i + add (field is il i) ≥ 2 ^ vl
    · rw [decide_eq_true hge, Bool.toNat_true]
      apply Nat.div_eq_of_lt_le <;> omega
    · rw [decide_eq_false hge, Bool.toNat_false, Nat.div_eq_of_lt (by omega)]
  unfold indexedRes sumIdx
  dsimp only
  rw [read_field, read_field, Nat.mod_eq_of_lt hw, hdiv]
  by_cases hge : field vs vl i + add (field is il i) ≥ 2 ^ vl
  · rw [if_pos hge]
    have := write_field_bit (decide (field vs vl i + add (field is il i) ≥ 2 ^ vl)) hv hc hcv hi
      (v := field vs vl i + add (field is il i) - 2 ^ vl) (by omega)
    rw [setField_congr (s := vs) (l := vl) (w := field vs vl i + add (field is il i))] at this
    · rw [← this, decide_eq_true hge, if_pos rfl, Nat.or_assoc (_ <<< _), hrest]
    · rw [← Nat.add_mod_right, Nat.sub_add_cancel hge]
  · rw [if_neg hge]
    have := write_field_bit (decide (field vs vl i + add (field is il i) ≥ 2 ^ vl)) hv hc hcv hi
      (v := field vs vl i + add (field is il i)) (by omega)
    rw [← this, decide_eq_false hge, Nat.or_assoc (_ <<< _), hrest]
    simp

theorem field_index_sumIdx {is il vs vl c t i : ℕ} (hd : is + il ≤ vs ∨ vs + vl ≤ is)
    (hci : c < is ∨ is + il ≤ c) : field is il (sumIdx vs vl c t i) = field is il i := by
  unfold sumIdx
  rw [field_setField_disjoint (by omega), field_setField_disjoint hd]

theorem indexed_inj {add : ℕ → ℕ} {is il vs vl c i j : ℕ} (hd : is + il ≤ vs ∨ vs + vl ≤ is)
    (hci : c < is ∨ is + il ≤ c) (hcv : c < vs ∨ vs + vl ≤ c) (hi : i.testBit c = false) (hj : j.testBit c = false)
    (hij : sumIdx vs vl c (field vs vl i + add (field is il i)) i =
      sumIdx vs vl c (field vs vl j + add (field is il j)) j) : i = j := by
  have h1 : field is il i = field is il j := by
    rw [← field_index_sumIdx (i := i) hd hci, hij, field_index_sumIdx hd hci]
  rw [← h1] at hij
  exact sumIdx_inj hcv hi hj hij

theorem entry_lt_of_fit {bytes il vl : ℕ} {values : ℕ → ℕ} (hfit : ∀ k < 2 ^ il, entry bytes values k < 2 ^ vl)
    (is i : ℕ) : entry bytes values (field is il i) < 2 ^ vl := hfit _ (field_lt _ _ _)

/-- Flipping the carry away first, for the indexed operations. -/
theorem flip_first {σ : List ℕ → List ℕ} (hσ : IsSched σ) {e : Eng} (hn : e.n < 64) {c : ℕ} (hc : c < e.n) (b : Bool) :
    ∃ e1, (if b then gateX σ e c else some e) = some e1 ∧ e1.n = e.n ∧
      ∀ i < 2 ^ e.n, e1.amp (flipIf b c i) = e.amp i := by
  cases b with
  | false => exact ⟨e, rfl, rfl, fun i _ => rfl⟩
  | true =>
    obtain ⟨e1, h1, h2⟩ := gateX_applies hσ hn.le hc
    refine ⟨e1, by simpa using h1, h2.n, fun i hi => ?_⟩
    show e1.amp (flipBit c i) = e.amp i
    have hlt : flipBit c i < 2 ^ e.n := Nat.xor_lt_two_pow hi (Nat.pow_lt_pow_right (by norm_num) hc)
    rw [h2.amp _ hlt]
    congr 1
    rw [flipBit, flipBit, Nat.xor_assoc, Nat.xor_self, Nat.xor_zero]

theorem flipIf_carry {b : Bool} {c i : ℕ} (h : i.testBit c = b) : (flipIf b c i).testBit c = false := by
  cases b
  · exact h
  · show (flipBit c i).testBit c = false
    rw [flipBit, Nat.testBit_xor, h]; simp

theorem sumIdx_flipIf {b : Bool} {s l c t i : ℕ} (h : c < s ∨ s + l ≤ c) :
    sumIdx s l c t (flipIf b c i) = sumIdx s l c t i := by
  cases b
  · rfl
  · exact sumIdx_flip h

theorem field_flipIf {b : Bool} {s l c i : ℕ} (h : c < s ∨ s + l ≤ c) : field s l (flipIf b c i) = field s l i := by
  cases b
  · rfl
  · exact field_flip h

theorem flipIf_lt {b : Bool} {n c i : ℕ} (hc : c < n) (hi : i < 2 ^ n) : flipIf b c i < 2 ^ n := by
  cases b
  · exact hi
  · exact Nat.xor_lt_two_pow hi (Nat.pow_lt_pow_right (by norm_num) hc)

/-- C14. `IndexedADC` sends `|i>|v>|c>` to `|i>|v + table[i] + c>` with the carry-out in the carry qubit, on the
states whose carry is the measured one. -/
theorem indexedADC_adds {σ : List ℕ → List ℕ} (hσ : IsSched σ) {e : Eng} (hn : e.n < 64) (b : Bool)
    {is il vs vl c : ℕ} {values : ℕ → ℕ} (hin : is + il ≤ e.n) (hv : vs + vl ≤ e.n) (hc : c < e.n)
    (hd : is + il ≤ vs ∨ vs + vl ≤ is) (hci : c < is ∨ is + il ≤ c) (hcv : c < vs ∨ vs + vl ≤ c)
    (hval : ∀ k, values k < 256) (hfit : ∀ k < 2 ^ il, entry ((vl + 7) / 8) values k < 2 ^ vl) :
    ∃ e', indexedADCE σ e b is il vs vl c values = some e' ∧ e'.n = e.n ∧ ∀ i < 2 ^ e.n, i.testBit c = b →
      e'.amp (sumIdx vs vl c (field vs vl i + (entry ((vl + 7) / 8) values (field is il i) + b.toNat)) i) = e.amp i := by
  obtain ⟨e1, h1, h2, h3⟩ := flip_first hσ hn hc b
  unfold indexedADCE
  rw [rangeOk hin hn, rangeOk hv hn]
  simp only [Bool.false_eq_true, if_false]
  rw [if_neg (by omega), h1, Option.bind_some]
  have hb : (vl + 7) >>> 3 = (vl + 7) / 8 := by rw [Nat.shiftRight_eq_div_pow]
  have hbn : (if b = true then 1 else 0) = b.toNat := by cases b <;> rfl
  have hbt : b.toNat ≤ 1 := by cases b <;> simp
  rw [hb, hbn]
  have hout : ∀ i < 2 ^ e1.n, indexedRes e1.n (fun k => tableRead ((vl + 7) / 8) values k + b.toNat) is il vs vl c i =
      sumIdx vs vl c (field vs vl i + (entry ((vl + 7) / 8) values (field is il i) + b.toNat)) i := by
    intro i hi
    have hlt := entry_lt_of_fit hfit is i
    have := indexedRes_eq (add := fun k => tableRead ((vl + 7) / 8) values k + b.toNat) (by rw [h2]; exact hin)
      (by rw [h2]; exact hv) (by rw [h2]; exact hc) (by rw [h2]; exact hn) hd hci hcv hi
      (by show tableRead ((vl + 7) / 8) values _ + b.toNat ≤ _
          rw [(tableRead_entry hval _).1]; omega)
    rw [this]
    show sumIdx vs vl c (field vs vl i + (tableRead ((vl + 7) / 8) values (field is il i) + b.toNat)) i = _
    rw [(tableRead_entry hval _).1]
  refine ⟨_, rfl, h2, fun i hi hib => ?_⟩
  rw [← h3 i hi, ← sumIdx_flipIf (b := b) hcv, ← field_flipIf (b := b) hcv, ← field_flipIf (b := b) (i := i) hci]
  have hi' : flipIf b c i < 2 ^ e1.n := by rw [h2]; exact flipIf_lt hc hi
  rw [← hout _ hi']
  refine (scatter_skip hσ (by omega) (by omega) ?_).1 _ hi' (field_bit_zero.2 (flipIf_carry hib))
  intro x hx hfx y hy hfy hxy
  rw [hout x hx, hout y hy] at hxy
  rw [indexed_inj (add := fun k => entry ((vl + 7) / 8) values k + b.toNat) hd hci hcv (field_bit_zero.1 hfx)
    (field_bit_zero.1 hfy) hxy]

/-- The images in `IndexedSBC`. -/
theorem indexedSBC_out {n is il vs vl c : ℕ} (b : Bool) {values : ℕ → ℕ} (hin : is + il ≤ n) (hv : vs + vl ≤ n)
    (hc : c < n) (hn : n < 64) (hd : is + il ≤ vs ∨ vs + vl ≤ is) (hci : c < is ∨ is + il ≤ c)
    (hcv : c < vs ∨ vs + vl ≤ c) (hval : ∀ k, values k < 256)
    (hfit : ∀ k < 2 ^ il, entry ((vl + 7) / 8) values k < 2 ^ vl) {i : ℕ} (hi : i < 2 ^ n) :
    indexedRes n (fun k => (2 ^ 64 + 2 ^ vl - (tableRead ((vl + 7) / 8) values k + (if b then 0 else 1)) % 2 ^ 64) %
      2 ^ 64) is il vs vl c i =
    sumIdx vs vl c (field vs vl i + (2 ^ vl - (entry ((vl + 7) / 8) values (field is il i) + (1 - b.toNat)))) i := by
  have hlt := entry_lt_of_fit hfit is i
  have hp : 2 ^ vl ≤ 2 ^ 63 := Nat.pow_le_pow_right (by norm_num) (by omega)
  have hbn : (if b = true then 0 else 1) = 1 - b.toNat := by cases b <;> rfl
  have hbt : 1 - b.toNat ≤ 1 := by omega
  have hadd : (2 ^ 64 + 2 ^ vl - (tableRead ((vl + 7) / 8) values (field is il i) + (if b then 0 else 1)) % 2 ^ 64) %
      2 ^ 64 = 2 ^ vl - (entry ((vl + 7) / 8) values (field is il i) + (1 - b.toNat)) := by
    rw [hbn, (tableRead_entry hval _).1, Nat.mod_eq_of_lt (a := _ + _) (by omega)]
    rw [Nat.add_sub_assoc (by omega), Nat.add_mod_left, Nat.mod_eq_of_lt (by omega)]
  have := indexedRes_eq (add := fun k => (2 ^ 64 + 2 ^ vl - (tableRead ((vl + 7) / 8) values k +
    (if b then 0 else 1)) % 2 ^ 64) % 2 ^ 64) hin hv hc hn hd hci hcv hi
    (by show (_ % 2 ^ 64) ≤ _; rw [hadd]; omega)
  rw [this]
  show sumIdx vs vl c (field vs vl i + (_ % 2 ^ 64)) i = _
  rw [hadd]

/-- C14, `IndexedSBC`, in full: `|i>|v>|c>` goes to `|i>|v - table[i] - (1 - c)>` with the carry set when there is no
borrow. Missing: only for states in which the `valueLength - 1` qubits after the carry are clear (always, when the
value has one qubit); the others are lost, see `indexedSBC_wrong`. -/
theorem indexedSBC_partial {σ : List ℕ → List ℕ} (hσ : IsSched σ) {e : Eng} (hn : e.n < 64) (b : Bool)
    {is il vs vl c : ℕ} {values : ℕ → ℕ} (hin : is + il ≤ e.n) (hv : vs + vl ≤ e.n) (hc : c < e.n)
    (hd : is + il ≤ vs ∨ vs + vl ≤ is) (hci : c < is ∨ is + il ≤ c) (hcv : c < vs ∨ vs + vl ≤ c)
    (hval : ∀ k, values k < 256) (hfit : ∀ k < 2 ^ il, entry ((vl + 7) / 8) values k < 2 ^ vl)
    (hvl : 0 < vl) (hskip : c + vl ≤ e.n) :
    ∃ e', indexedSBCE σ e b is il vs vl c values = some e' ∧ e'.n = e.n ∧ ∀ i < 2 ^ e.n, i.testBit c = b →
      field (c + 1) (vl - 1) i = 0 →
      e'.amp (sumIdx vs vl c
        (field vs vl i + (2 ^ vl - (entry ((vl + 7) / 8) values (field is il i) + (1 - b.toNat)))) i) = e.amp i := by
  obtain ⟨e1, h1, h2, h3⟩ := flip_first hσ hn hc b
  unfold indexedSBCE
  rw [rangeOk hin hn, rangeOk hv hn]
  simp only [Bool.false_eq_true, if_false]
  rw [if_neg (by omega), h1, Option.bind_some]
  have hb : (vl + 7) >>> 3 = (vl + 7) / 8 := by rw [Nat.shiftRight_eq_div_pow]
  rw [hb]
  have hout : ∀ i < 2 ^ e1.n, _ := fun i hi => indexedSBC_out (n := e1.n) b (by rw [h2]; exact hin)
    (by rw [h2]; exact hv) (by rw [h2]; exact hc) (by rw [h2]; exact hn) hd hci hcv hval hfit hi
  refine ⟨_, rfl, h2, fun i hi hib hclr => ?_⟩
  rw [← h3 i hi, ← sumIdx_flipIf (b := b) hcv, ← field_flipIf (b := b) hcv, ← field_flipIf (b := b) (i := i) hci]
  have hi' : flipIf b c i < 2 ^ e1.n := by rw [h2]; exact flipIf_lt hc hi
  rw [← hout _ hi']
  have hz : field c vl (flipIf b c i) = 0 := by
    rw [field_eq_zero]
    intro k hk1 hk2
    rcases Nat.eq_or_lt_of_le hk1 with rfl | hk1
    · exact flipIf_carry hib
    · have := field_eq_zero.1 hclr k (by omega) (by omega)
      rw [Circ.testBit_flipIf, this]
      simp; omega
  refine (scatter_skip hσ (by omega) (by omega) ?_).1 _ hi' hz
  intro x hx hfx y hy hfy hxy
  rw [hout x hx, hout y hy] at hxy
  have hc0 : ∀ x, field c vl x = 0 → x.testBit c = false := fun x hx => field_eq_zero.1 hx c le_rfl (by omega)
  rw [indexed_inj (add := fun k => 2 ^ vl - (entry ((vl + 7) / 8) values k + (1 - b.toNat))) hd hci hcv
    (hc0 x hfx) (hc0 y hfy) hxy]

/-- C14 fails for `IndexedSBC`: the loop skips `valueLength` qubits after the carry instead of one. A state in which
none of the components has these qubits clear is turned into the zero vector. -/
theorem indexedSBC_wrong {σ : List ℕ → List ℕ} (hσ : IsSched σ) {e : Eng} (hn : e.n < 64) (b : Bool)
    {is il vs vl c : ℕ} {values : ℕ → ℕ} (hin : is + il ≤ e.n) (hv : vs + vl ≤ e.n) (hc : c < e.n)
    (hvl : 0 < vl) (hskip : c + vl ≤ e.n) (hsupp : ∀ i < 2 ^ e.n, field (c + 1) (vl - 1) i = 0 → e.amp i = 0) :
    ∃ e', indexedSBCE σ e b is il vs vl c values = some e' ∧ ∀ j, e'.amp j = 0 := by
  obtain ⟨e1, h1, h2, h3⟩ := flip_first hσ hn hc b
  unfold indexedSBCE
  rw [rangeOk hin hn, rangeOk hv hn]
  simp only [Bool.false_eq_true, if_false]
  rw [if_neg (by omega), h1, Option.bind_some]
  refine ⟨_, rfl, fun j => ?_⟩
  have hzero : ∀ x < 2 ^ e1.n, field c vl x = 0 → e1.amp x = 0 := by
    intro x hx hfx
    rw [h2] at hx
    have hinv : flipIf b c (flipIf b c x) = x := by
      cases b
      · rfl
      · show flipBit c (flipBit c x) = x
        rw [flipBit, flipBit, Nat.xor_assoc, Nat.xor_self, Nat.xor_zero]
    rw [← hinv, h3 _ (flipIf_lt hc hx)]
    apply hsupp _ (flipIf_lt hc hx)
    rw [field_eq_zero]
    intro k hk1 hk2
    rw [Circ.testBit_flipIf, field_eq_zero.1 hfx k (by omega) (by omega)]
    simp; omega
  have key := scatter_skip hσ (n := e1.n) (s := c) (d := vl) (by omega) (by omega) (init := fun _ => (0 : ℂ))
    (val := e1.amp) (out := indexedRes e1.n
      (fun k => (2 ^ 64 + 2 ^ vl - (tableRead ((vl + 7) >>> 3) values k + (if b then 0 else 1)) % 2 ^ 64) % 2 ^ 64)
      is il vs vl c)
    (by intro x hx hfx y hy hfy _; rw [hzero x hx hfx, hzero y hy hfy])
  by_cases hj : ∃ x < 2 ^ e1.n, field c vl x = 0 ∧ indexedRes e1.n
      (fun k => (2 ^ 64 + 2 ^ vl - (tableRead ((vl + 7) >>> 3) values k + (if b then 0 else 1)) % 2 ^ 64) % 2 ^ 64)
      is il vs vl c x = j
  · obtain ⟨x, hx, hfx, rfl⟩ := hj
    exact (key.1 x hx hfx).trans (hzero x hx hfx)
  · exact key.2 j fun x hx hfx hxj => hj ⟨x, hx, hfx, hxj⟩

/-- Non-vacuity: index `[0, 2)`, value `[2, 5)`, carry 5, table `7, 2, 0, 1`: `|1>|6>|c=0>` adds to `6 + 2 = 8`, and
`indexedSBC_wrong` applies to a 9-qubit state with qubit 6 set. -/
example : sumIdx 2 3 5 (field 2 3 25 + 2) 25 = 33 ∧ field 0 2 25 = 1 ∧ field 2 3 25 = 6 ∧ field 6 2 (64 + 25) ≠ 0 := by
  decide

/-! ## C15 -/

/-- C15. `Hash` replaces the register value by its table entry; when the table is injective on the register values,
amplitudes are permuted. -/
theorem hash_looks_up {σ : List ℕ → List ℕ} (hσ : IsSched σ) {e : Eng} (hn : e.n < 64) {s l : ℕ} {values : ℕ → ℕ}
    (hs : s + l ≤ e.n) (hval : ∀ k, values k < 256)
    (hfit : ∀ k < 2 ^ l, entry ((l + 7) / 8) values k < 2 ^ l)
    (hinj : ∀ x < 2 ^ l, ∀ y < 2 ^ l, entry ((l + 7) / 8) values x = entry ((l + 7) / 8) values y → x = y) :
    Sends e (hashE σ e s l values) (fun i => setField s l (entry ((l + 7) / 8) values (field s l i)) i) := by
  unfold hashE
  rw [rangeOk hs hn]
  simp only [Bool.false_eq_true, if_false]
  have hb : (l + 7) >>> 3 = (l + 7) / 8 := by rw [Nat.shiftRight_eq_div_pow]
  rw [hb]
  have hout : ∀ i < 2 ^ e.n,
      (tableRead ((l + 7) / 8) values ((i &&& (2 ^ l - 1) <<< s) >>> s) <<< s) |||
        (i &&& Utils.bnot 64 (i &&& (2 ^ l - 1) <<< s)) =
      setField s l (entry ((l + 7) / 8) values (field s l i)) i := by
    intro i hi
    have hrest : i &&& Utils.bnot 64 (i &&& (2 ^ l - 1) <<< s) = i &&& otherMask e.n ((2 ^ l - 1) <<< s) := by
      apply Nat.eq_of_testBit_eq
      intro k
      rw [Nat.testBit_and, Nat.testBit_and, testBit_otherMask]
      by_cases hk : k < e.n
      · rw [testBit_bnot (by omega), Nat.testBit_and, decide_eq_true hk]
        cases i.testBit k <;> simp
      · rw [bits_ge hi hk]; simp
    rw [hrest, read_field, (tableRead_entry hval _).1, write_field hs hi (hfit _ (field_lt _ _ _))]
  refine ⟨_, rfl, fun i hi => scatter_all_as hσ hout ?_ hi⟩
  intro i hi j hj hij
  have h1 : field s l i = field s l j := by
    apply hinj _ (field_lt _ _ _) _ (field_lt _ _ _)
    have := congrArg (field s l) hij
    rwa [field_setField, field_setField, Nat.mod_eq_of_lt (hfit _ (field_lt _ _ _)),
      Nat.mod_eq_of_lt (hfit _ (field_lt _ _ _))] at this
  have h2 := congrArg (setField s l (field s l i)) hij
  rw [setField_setField, setField_setField, setField_field, h1, setField_field] at h2
  exact h2

/-- C15. Hashing with the inverse table restores every amplitude. -/
theorem hash_inverse {σ : List ℕ → List ℕ} (hσ : IsSched σ) {e : Eng} (hn : e.n < 64) {s l : ℕ}
    {values values' : ℕ → ℕ} (hs : s + l ≤ e.n) (hval : ∀ k, values k < 256) (hval' : ∀ k, values' k < 256)
    (hfit : ∀ k < 2 ^ l, entry ((l + 7) / 8) values k < 2 ^ l)
    (hfit' : ∀ k < 2 ^ l, entry ((l + 7) / 8) values' k < 2 ^ l)
    (hinv : ∀ x < 2 ^ l, entry ((l + 7) / 8) values' (entry ((l + 7) / 8) values x) = x)
    (hinv' : ∀ x < 2 ^ l, entry ((l + 7) / 8) values (entry ((l + 7) / 8) values' x) = x) :
    ∃ a, ((hashE σ e s l values).bind fun e => hashE σ e s l values') = some (e.reset a) ∧
      ∀ i < 2 ^ e.n, a i = e.amp i := by
  obtain ⟨a, h1, h2⟩ := hash_looks_up hσ hn hs hval hfit (fun x hx y hy hxy => by
    rw [← hinv x hx, hxy, hinv y hy])
  obtain ⟨b, h3, h4⟩ := hash_looks_up hσ (e := e.reset a) hn hs hval' hfit' (fun x hx y hy hxy => by
    rw [← hinv' x hx, hxy, hinv' y hy])
  refine ⟨b, by rw [h1]; exact h3, fun i hi => ?_⟩
  have h5 := h4 _ (setField_lt (v := entry ((l + 7) / 8) values (field s l i)) hs hi)
  dsimp only at h5
  rw [setField_setField, field_setField, Nat.mod_eq_of_lt (hfit _ (field_lt _ _ _)), hinv _ (field_lt _ _ _),
    setField_field] at h5
  rw [h5]
  exact h2 i hi

/-- Non-vacuity: the table `3, 0, 2, 1` and its inverse `1, 3, 2, 0` on a two-qubit register meet the hypotheses. -/
example : (∀ x < 2 ^ 2, entry 1 (fun k => [3, 0, 2, 1].getD k 0) x < 2 ^ 2) ∧
    (∀ x < 2 ^ 2, entry 1 (fun k => [1, 3, 2, 0].getD k 0) (entry 1 (fun k => [3, 0, 2, 1].getD k 0) x) = x) := by
  decide

end Verif.Engine
