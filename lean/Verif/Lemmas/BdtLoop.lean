import Verif.Lemmas.BdtNode
import Verif.Lib.Bits

/-!
Helper lemmas: which nodes the loops of `ApplySingle` and `ApplyControlledSingle` reach, and what this does to the
amplitudes.
-/

namespace Verif.Bdt

open Verif.Matrix2 Verif.Spec.Circuit Verif.Spec Classical

/-- `F` at the nodes of depth `d` whose number is in `S`; the number has the first branch as its highest bit. -/
noncomputable def mapAt (F : Node → Node) : ℕ → (ℕ → Prop) → Node → Node
  | 0, S, .leaf s => if S 0 then zero else .leaf s
  | 0, S, .fork s b0 b1 => if S 0 then F (.fork s b0 b1) else .fork s b0 b1
  | _ + 1, _, .leaf s => .leaf s
  | d + 1, S, .fork s b0 b1 => .fork s (mapAt F d S b0) (mapAt F d (fun i => S (2 ^ d + i)) b1)

/-- All nodes with branches at depth `d`. -/
def EachAt (P : Node → Prop) : ℕ → Node → Prop
  | 0, .leaf _ => True
  | 0, .fork s b0 b1 => P (.fork s b0 b1)
  | _ + 1, .leaf _ => True
  | d + 1, .fork _ b0 b1 => EachAt P d b0 ∧ EachAt P d b1

theorem EachAt.mono {P Q : Node → Prop} (h : ∀ s b0 b1, P (.fork s b0 b1) → Q (.fork s b0 b1)) :
    ∀ {d : ℕ} {t : Node}, EachAt P d t → EachAt Q d t
  | 0, .leaf _, _ => trivial
  | 0, .fork _ _ _, hp => h _ _ _ hp
  | _ + 1, .leaf _, _ => trivial
  | _ + 1, .fork _ _ _, hp => ⟨EachAt.mono h hp.1, EachAt.mono h hp.2⟩

theorem eachAt_good {n : ℕ} : ∀ {d : ℕ} {t : Node}, Good (n + d) t → EachAt (Good n) d t
  | 0, .leaf _, _ => trivial
  | 0, .fork _ _ _, h => h
  | _ + 1, .leaf _, _ => trivial
  | _ + 1, .fork _ _ _, h => ⟨eachAt_good h.2.2.1, eachAt_good h.2.2.2⟩

theorem mapAt_congr (F : Node → Node) : ∀ (d : ℕ) (S S' : ℕ → Prop) (t : Node), (∀ x < 2 ^ d, (S x ↔ S' x)) →
    mapAt F d S t = mapAt F d S' t
  | 0, S, S', .leaf s, h => by simp only [mapAt, h 0 (by norm_num)]
  | 0, S, S', .fork s b0 b1, h => by simp only [mapAt, h 0 (by norm_num)]
  | _ + 1, _, _, .leaf s, _ => rfl
  | d + 1, S, S', .fork s b0 b1, h => by
    have e : 2 ^ (d + 1) = 2 ^ d + 2 ^ d := by ring
    rw [mapAt, mapAt, mapAt_congr F d S S' b0 (fun x hx => h x (by omega)),
      mapAt_congr F d _ (fun i => S' (2 ^ d + i)) b1 (fun x hx => h _ (by omega))]

theorem mapAt_none (F : Node → Node) : ∀ (d : ℕ) (t : Node), mapAt F d (fun _ => False) t = t
  | 0, .leaf s => by simp [mapAt]
  | 0, .fork s b0 b1 => by simp [mapAt]
  | _ + 1, .leaf s => rfl
  | d + 1, .fork s b0 b1 => by rw [mapAt, mapAt_none F d, mapAt_none F d]

theorem visit_congr (f : Node → Option Node) : ∀ (d i j : ℕ) (t : Node),
    (∀ x < d, i.testBit x = j.testBit x) → visit f d i t = visit f d j t
  | 0, i, j, .leaf s, _ => rfl
  | 0, i, j, .fork s b0 b1, _ => rfl
  | d + 1, i, j, .leaf s, _ => rfl
  | d + 1, i, j, .fork s b0 b1, h => by
    rw [visit, visit, h d (by omega), visit_congr f d i j b0 (fun x hx => h x (by omega)),
      visit_congr f d i j b1 (fun x hx => h x (by omega))]

theorem or_add {d i k : ℕ} (hi : i < 2 ^ d) (hk : k < 2 ^ d) : (2 ^ d + i) ||| k = 2 ^ d + (i ||| k) := by
  have e : ∀ y, y < 2 ^ d → 2 ^ d + y = 2 ^ d ||| y := fun y hy => by
    have := Nat.two_pow_add_eq_or_of_lt hy 1
    simpa using this
  rw [e i hi, e _ (Nat.or_lt_two_pow hi hk), Nat.or_assoc]

/-- A round of the loop treats the node with number `i`; it leaves out further numbers only below an empty node. -/
theorem visit_ok (f : Node → Option Node) (F : Node → Node) : ∀ (d i : ℕ) (t : Node),
    EachAt (fun x => f x = some (F x)) d t → i < 2 ^ d →
    ∃ k, (∃ e, k = 2 ^ e - 1) ∧ (i ||| k) < 2 ^ d ∧ ∀ S S' : ℕ → Prop, ¬ S i → S' i →
      (∀ x < 2 ^ d, ¬ (i ≤ x ∧ x ≤ i ||| k) → (S x ↔ S' x)) →
      visit f d i (mapAt F d S t) = some (k, mapAt F d S' t)
  | 0, i, .leaf s, _, hi => by
    obtain rfl : i = 0 := by simpa using hi
    exact ⟨0, ⟨0, rfl⟩, by norm_num, fun S S' h h' _ => by simp [mapAt, h, h', visit]⟩
  | 0, i, .fork s b0 b1, hf, hi => by
    obtain rfl : i = 0 := by simpa using hi
    refine ⟨0, ⟨0, rfl⟩, by norm_num, fun S S' h h' _ => ?_⟩
    have hf' : f (.fork s b0 b1) = some (F (.fork s b0 b1)) := hf
    simp [mapAt, h, h', visit, hf']
  | d + 1, i, .leaf s, _, hi => by
    refine ⟨2 ^ (d + 1) - 1, ⟨d + 1, rfl⟩, Nat.or_lt_two_pow hi ?_, fun S S' _ _ _ => rfl⟩
    have := Nat.two_pow_pos (d + 1)
    omega
  | d + 1, i, .fork s b0 b1, hf, hi => by
    have e2 : 2 ^ (d + 1) = 2 ^ d + 2 ^ d := by ring
    by_cases hb : 2 ^ d ≤ i
    · obtain ⟨i', rfl⟩ : ∃ i', i = 2 ^ d + i' := ⟨i - 2 ^ d, by omega⟩
      have hi' : i' < 2 ^ d := by omega
      obtain ⟨k, hk2, hk, H⟩ := visit_ok f F d i' b1 hf.2 hi'
      have hk' : k < 2 ^ d := lt_of_le_of_lt Nat.right_le_or hk
      refine ⟨k, hk2, by rw [or_add hi' hk']; omega, fun S S' h h' hS => ?_⟩
      have tb : (2 ^ d + i').testBit d = true := by
        rw [Nat.testBit_two_pow_add_eq]; simp [Nat.testBit_lt_two_pow hi']
      rw [mapAt, visit, if_pos tb, visit_congr f d (2 ^ d + i') i' _ (fun x hx => Nat.testBit_two_pow_add_gt hx i'),
        H (fun x => S (2 ^ d + x)) (fun x => S' (2 ^ d + x)) h h' (fun x hx hr => hS _ (by omega) (by
          rw [or_add hi' hk']; omega)), mapAt,
        mapAt_congr F d S S' b0 (fun x hx => hS x (by omega) (by omega))]
      rfl
    · have hi' : i < 2 ^ d := by omega
      obtain ⟨k, hk2, hk, H⟩ := visit_ok f F d i b0 hf.1 hi'
      refine ⟨k, hk2, by omega, fun S S' h h' hS => ?_⟩
      have tb : i.testBit d = false := Nat.testBit_lt_two_pow hi'
      rw [mapAt, visit, if_neg (by simp [tb]), H S S' h h' (fun x hx hr => hS x (by omega) hr), mapAt,
        mapAt_congr F d (fun x => S (2 ^ d + x)) (fun x => S' (2 ^ d + x)) b1
          (fun x hx => hS _ (by omega) (by omega))]
      rfl

/-- The loop, given what a round does to the tree. -/
theorem loop_ok (fn : ℕ → Node → Option (ℕ × Node)) (stop : ℕ) (Inv : ℕ → Prop) (T : ℕ → Node)
    (step : ∀ j < stop, Inv j → ∃ k, fn j (T j) = some (k, T ((j ||| k) + 1)) ∧ (j ||| k) < stop ∧
      ((j ||| k) + 1 < stop → Inv ((j ||| k) + 1))) :
    ∀ (fuel j : ℕ), j ≤ stop → (j < stop → Inv j) → stop ≤ fuel + j → loop fn stop fuel j (T j) = some (T stop)
  | 0, j, hj, _, hf => by
    obtain rfl : j = stop := by omega
    rfl
  | fuel + 1, j, hj, hI, hf => by
    by_cases hlt : j < stop
    · obtain ⟨k, e, hk, hI'⟩ := step j hlt (hI hlt)
      rw [loop, if_pos hlt, e]
      have := Nat.left_le_or (n := j) (m := k)
      exact loop_ok fn stop Inv T step fuel _ (by omega) hI' (by omega)
    · obtain rfl : j = stop := by omega
      rw [loop, if_neg hlt]

/-- The number of a node on the way of a basis state: its first `d` qubits, the first being the highest bit. -/
def rev : ℕ → ℕ → ℕ
  | 0, _ => 0
  | d + 1, k => k % 2 * 2 ^ d + rev d (k / 2)

theorem rev_lt : ∀ d k : ℕ, rev d k < 2 ^ d
  | 0, _ => by simp [rev]
  | d + 1, k => by
    have := rev_lt d (k / 2)
    have h2 : k % 2 ≤ 1 := by omega
    have e2 : 2 ^ (d + 1) = 2 ^ d + 2 ^ d := by ring
    have : k % 2 * 2 ^ d ≤ 1 * 2 ^ d := Nat.mul_le_mul_right _ h2
    rw [rev]; omega

theorem testBit_rev : ∀ d k c : ℕ, c < d → (rev d k).testBit (d - (c + 1)) = k.testBit c
  | 0, _, _, h => by omega
  | d + 1, k, c, h => by
    have hl := rev_lt d (k / 2)
    have key : ∀ x, (k % 2 * 2 ^ d + rev d (k / 2)).testBit x =
        if x < d then (rev d (k / 2)).testBit x else (k % 2).testBit (x - d) := fun x => by
      rw [mul_comm, Nat.testBit_two_pow_mul_add _ hl]
    rw [rev, key]
    cases c with
    | zero =>
      rw [if_neg (by omega)]
      simp [Nat.testBit_zero]
    | succ c =>
      rw [if_pos (by omega), show d + 1 - (c + 1 + 1) = d - (c + 1) by omega, testBit_rev d (k / 2) c (by omega),
        Nat.testBit_div_two]

theorem flip_mod (t k : ℕ) : flipBit (t + 1) k % 2 = k % 2 := by
  unfold flipBit
  rw [Nat.xor_mod_two_eq, pow_succ]
  omega

theorem flip_div (t k : ℕ) : flipBit (t + 1) k / 2 = flipBit t (k / 2) := by
  unfold flipBit
  rw [Nat.xor_div_two, pow_succ, Nat.mul_div_cancel _ (by norm_num)]

theorem rev_flip : ∀ (d t k : ℕ), d ≤ t → rev d (flipBit t k) = rev d k
  | 0, _, _, _ => rfl
  | d + 1, 0, _, h => by omega
  | d + 1, t + 1, k, h => by rw [rev, rev, flip_mod, flip_div, rev_flip d t (k / 2) (by omega)]

theorem flip_zero_even {k : ℕ} (h : k % 2 = 0) : flipBit 0 k = k + 1 := by
  unfold flipBit
  rw [pow_zero, Nat.xor_one_of_even (Nat.even_iff.2 h)]

theorem flip_zero_odd {k : ℕ} (h : k % 2 = 1) : flipBit 0 k = k - 1 := by
  unfold flipBit
  rw [pow_zero, Nat.xor_one_of_odd (Nat.odd_iff.2 h)]

/-- A unitary at the chosen nodes of depth `d` is the controlled gate on qubit `d`. -/
theorem mapAt_amp (m : Mtrx) (hm : Unitary m) (n : ℕ) (F : Node → Node)
    (hF : ∀ x, F x = (apply2x2 m (n + 1) x).getD zero) :
    ∀ (d : ℕ) (S : ℕ → Prop) (t : Node), Good (n + 1 + d) t →
      Good (n + 1 + d) (mapAt F d S t) ∧ ‖(mapAt F d S t).scale‖ = ‖t.scale‖ ∧
      ∀ k, amp (n + 1 + d) (mapAt F d S t) k =
        gate (fun i => S (rev d i)) d m.m0 m.m1 m.m2 m.m3 (amp (n + 1 + d) t) k
  | 0, S, .leaf s, h => by
    obtain rfl : s = 0 := h
    have e : mapAt F 0 S (.leaf 0) = zero := by rw [mapAt]; split <;> rfl
    rw [e]
    refine ⟨good_zero _, rfl, fun k => ?_⟩
    have z : ∀ k, amp (n + 1 + 0) (.leaf 0) k = 0 := fun k => amp_zero _ k
    simp [gate, z]
  | 0, S, .fork s b0 b1, h => by
    rw [mapAt]
    by_cases hS : S 0
    · rw [if_pos hS]
      obtain ⟨t, e, gt, nt, at'⟩ := apply2x2_ok m hm n s b0 b1 h
      have eF : F (.fork s b0 b1) = t := by rw [hF, e]; rfl
      rw [eF]
      refine ⟨gt, nt, fun k => ?_⟩
      rw [gate, if_pos (show S (rev 0 k) from hS)]
      simp only [Nat.add_zero]
      rw [at']
      by_cases hk : k % 2 = 1
      · have tb : k.testBit 0 = true := by simp [Nat.testBit_zero, hk]
        rw [if_pos hk, if_pos tb, flip_zero_odd hk, amp_fork_set, amp_fork_set, if_neg (by omega), if_pos hk,
          show (k - 1) / 2 = k / 2 by omega]
      · have tb : ¬ k.testBit 0 = true := by simp [Nat.testBit_zero, hk]
        rw [if_neg hk, if_neg tb, flip_zero_even (by omega), amp_fork_set, amp_fork_set, if_neg hk, if_pos (by omega),
          show (k + 1) / 2 = k / 2 by omega]
    · rw [if_neg hS]
      refine ⟨h, rfl, fun k => ?_⟩
      rw [gate, if_neg (show ¬ S (rev 0 k) from hS)]
  | d + 1, S, .leaf s, h => by
    obtain rfl : s = 0 := h
    refine ⟨good_zero (n + 1 + (d + 1)), rfl, fun k => ?_⟩
    have z : ∀ k, amp (n + 1 + (d + 1)) (.leaf 0) k = 0 := fun k => amp_zero _ k
    simp [gate, z, mapAt]
  | d + 1, S, .fork s b0 b1, h => by
    obtain ⟨hs, hn, g0, g1⟩ := h
    obtain ⟨G0, N0, A0⟩ := mapAt_amp m hm n F hF d S b0 g0
    obtain ⟨G1, N1, A1⟩ := mapAt_amp m hm n F hF d (fun i => S (2 ^ d + i)) b1 g1
    rw [mapAt]
    refine ⟨⟨hs, ?_, G0, G1⟩, rfl, fun k => ?_⟩
    · rw [normSq_of_norm, normSq_of_norm, N0, N1, ← normSq_of_norm, ← normSq_of_norm, hn]
    · rw [← Nat.add_assoc, amp_fork_set, A0, A1]
      simp only [gate, amp_fork_set, flip_mod, flip_div, rev]
      have tb : k.testBit (d + 1) = (k / 2).testBit d := by rw [Nat.testBit_div_two]
      rw [tb]
      by_cases hk : k % 2 = 1
      · simp only [hk, if_true, one_mul]
        split_ifs <;> ring
      · have hk0 : k % 2 = 0 := by omega
        simp only [hk0, zero_mul, zero_add]
        norm_num
        split_ifs <;> ring

end Verif.Bdt
