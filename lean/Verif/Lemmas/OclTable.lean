import Verif.Lemmas.OclArith
import Verif.Props.EngineTable
import Verif.Props.OclGate

/-!
Helper lemmas for the table operations of the OpenCL engine.
-/

namespace Verif.Ocl

open Verif.Engine Verif.Utils Verif.ParFor Verif.BlockFold Verif.Spec Verif.Bits Classical

/-- Below `2^31` the kernels read the entries of the table. -/
theorem devRead_entry {bytes : ℕ} {values : ℕ → ℕ} {k : ℕ} (hval : ∀ k, values k < 256) (hb : bytes ≤ 4)
    (hfit : entry bytes values k < 2 ^ 31) : devRead bytes values k = entry bytes values k := by
  unfold devRead
  by_cases h1 : bytes = 1
  · rw [if_pos h1, h1]; simp [entry]
  by_cases h2 : bytes = 2
  · rw [if_neg h1, if_pos h2, h2]
    simp [entry, Finset.sum_range_succ, Nat.mul_comm]
  rw [if_neg h1, if_neg h2, ← (tableRead_entry hval k).1, tableRead]
  apply List.foldl_ext
  intro acc j hj
  have hj := List.mem_range.1 hj
  have h3 : 8 * j % 32 = 8 * j := Nat.mod_eq_of_lt (by omega)
  have h4 : values (k * bytes + j) <<< (8 * j) ≤ entry bytes values k := by
    rw [Nat.shiftLeft_eq, show (2 : ℕ) ^ (8 * j) = 256 ^ j by rw [pow_mul]; norm_num]
    exact Finset.single_le_sum (f := fun j => values (k * bytes + j) * 256 ^ j) (fun _ _ => Nat.zero_le _)
      (Finset.mem_range.2 hj)
  have h5 : values (k * bytes + j) <<< (8 * j) < 2 ^ 31 := lt_of_le_of_lt h4 hfit
  have h6 : (2 : ℕ) ^ 31 < 2 ^ 32 := by norm_num
  rw [h3, Nat.mod_eq_of_lt (h5.trans h6), signExt, if_pos h5]

theorem read_fits {vl il : ℕ} {values : ℕ → ℕ} (hval : ∀ k, values k < 256) (hvl : vl ≤ 31)
    (hfit : ∀ k < 2 ^ il, entry ((vl + 7) / 8) values k < 2 ^ vl) {k : ℕ} (hk : k < 2 ^ il) :
    devRead ((vl + 7) >>> 3) values k = entry ((vl + 7) / 8) values k := by
  rw [Nat.shiftRight_eq_div_pow]
  exact devRead_entry hval (by omega) (lt_of_lt_of_le (hfit k hk) (Nat.pow_le_pow_right (by norm_num) hvl))

theorem shift_word {n s l v : ℕ} (h : s + l ≤ n) (hn : n < 64) (hv : v < 2 ^ l) : v <<< s % 2 ^ 64 = v <<< s := by
  apply Nat.mod_eq_of_lt
  rw [Nat.shiftLeft_eq]
  calc v * 2 ^ s < 2 ^ l * 2 ^ s := Nat.mul_lt_mul_of_pos_right hv (by positivity)
    _ = 2 ^ (s + l) := by rw [← pow_add, Nat.add_comm]
    _ ≤ 2 ^ 64 := Nat.pow_le_pow_right (by norm_num) (by omega)

theorem devIndexed_same {n vs vl c inputRes otherRes out : ℕ} (hv : vs + vl ≤ n) (hn : n < 64) (hout : out < 2 ^ vl + 2 ^ vl) :
    devIndexed (2 ^ vl) vs (2 ^ c) inputRes otherRes out =
      if out ≥ 2 ^ vl then ((out - 2 ^ vl) <<< vs) ||| inputRes ||| otherRes ||| 2 ^ c
      else (out <<< vs) ||| inputRes ||| otherRes := by
  unfold devIndexed
  by_cases h : out ≥ 2 ^ vl
  · simp only [if_pos h]
    rw [shift_word hv hn (by omega)]
  · simp only [if_neg h]
    rw [shift_word hv hn (by omega), Nat.or_zero]

theorem indexedMask {n is il vs vl c : ℕ} (hin : is + il ≤ n) (hv : vs + vl ≤ n) (hc : c < n) (hn : n < 64) :
    (2 ^ n - 1) &&& bnot 64 ((2 ^ il - 1) <<< is ||| (2 ^ vl - 1) <<< vs ||| 2 ^ c) =
      otherMask n ((2 ^ il - 1) <<< is ||| (2 ^ vl - 1) <<< vs ||| 2 ^ c) :=
  otherMask_bnot (Nat.or_lt_two_pow (Nat.or_lt_two_pow (regMask_lt hin) (regMask_lt hv))
    (Nat.pow_lt_pow_right (by norm_num) hc)) hn

/-- Flipping the carry away first. -/
theorem ocl_flip_first {R : Rt} (hR : R.Ok) {e : Eng} (hn : e.n < 64) {c : ℕ} (hc : c < e.n) (b : Bool)
    (hs : e.doNorm = false ∨ e.rn = 1) :
    ∃ e1, (if b = true then gateX R.d R.σ R.τ R.old e c else some e) = some e1 ∧ e1.n = e.n ∧
      ∀ i < 2 ^ e.n, e1.amp (flipIf b c i) = e.amp i := by
  cases b with
  | false => exact ⟨e, rfl, rfl, fun i _ => rfl⟩
  | true =>
    obtain ⟨e1, h1, h2, -, -, -, h3, -⟩ := gateX_flips hR.d hR.σ hR.τ R.old hn.le hc
    refine ⟨e1, by simpa using h1, h2, fun i hi => ?_⟩
    show e1.amp (flipBit c i) = e.amp i
    have hlt : flipBit c i < 2 ^ e.n := Nat.xor_lt_two_pow hi (Nat.pow_lt_pow_right (by norm_num) hc)
    rw [h3 _ hlt, scale_one hs, Complex.ofReal_one, one_mul]
    congr 1
    rw [flipBit, flipBit, Nat.xor_assoc, Nat.xor_self, Nat.xor_zero]

end Verif.Ocl
