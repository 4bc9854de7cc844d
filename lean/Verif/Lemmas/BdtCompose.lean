import Verif.Lemmas.BdtMeas

/-!
Helper lemmas: `Compose` on trees.
-/

namespace Verif.Bdt

open Verif.Matrix2 Verif.Spec.Circuit Verif.Spec

theorem insertNothing_good : ∀ (d n : ℕ) (t : Node), Good n t → d ≤ n → insertNothing d t = if t.scale = 0 then zero else t
  | 0, _, _, _, _ => rfl
  | d + 1, 0, _, _, h => by omega
  | d + 1, n + 1, .leaf s, _, _ => rfl
  | d + 1, n + 1, .fork s b0 b1, h, hd => by
    obtain ⟨hs, hn, h0, h1⟩ := h
    have key : ∀ b, Good n b → insertNothing d b = b := by
      intro b hb
      rw [insertNothing_good d n b hb (by omega)]
      split
      · rename_i hz
        cases b with
        | leaf z => rw [scale_leaf] at hz; rw [hz]; rfl
        | fork z c0 c1 =>
          cases n with
          | zero => exact hb.elim
          | succ n => exact absurd hz hb.1
      · rfl
    rw [insertNothing, if_neg hs, scale_fork, if_neg hs, key b0 h0, key b1 h1]

theorem amp_deep : ∀ (m N : ℕ) (b : Node) (k : ℕ), Good m b → m ≤ N → amp N b k = amp m b k
  | 0, 0, _, _, _, _ => rfl
  | 0, N + 1, .leaf s, k, _, _ => rfl
  | 0, _, .fork _ _ _, _, h, _ => h.elim
  | m + 1, 0, _, _, _, h => by omega
  | m + 1, N + 1, .leaf s, _, _, _ => rfl
  | m + 1, N + 1, .fork s b0 b1, k, h, hN => by
    rw [amp_fork_set, amp_fork_set, amp_deep m N b0 _ h.2.2.1 (by omega), amp_deep m N b1 _ h.2.2.2 (by omega)]

theorem withBranches_fork (z s : ℂ) (b0 b1 : Node) : withBranches z (.fork s b0 b1) = (Node.fork s b0 b1).set z := rfl

/-- `InsertAtDepth` below the first `d + 1` qubits. -/
theorem insertAtDepth_ok {m : ℕ} {b : Node} (hb : Good (m + 1) b) (hbs : b.scale ≠ 0) : ∀ (d n : ℕ) (t : Node), Good n t →
    d + 1 ≤ n → ∃ t', insertAtDepth b (m + 1) (d + 1) t = some t' ∧ t'.scale = t.scale ∧
      (n = d + 1 → Good (n + (m + 1)) t') ∧
      ∀ k, amp (n + (m + 1)) t' k = amp (d + 1) t k * amp (m + 1) (b.set 1) (k / 2 ^ (d + 1))
  | d, 0, _, _, h => by omega
  | 0, n + 1, .leaf s, hg, _ => by
    have : s = 0 := hg
    subst this
    refine ⟨zero, by rw [insertAtDepth, if_pos rfl], rfl, fun _ => good_zero _, fun k => ?_⟩
    rw [amp_zero, amp_leaf_zero, zero_mul]
  | d + 1, n + 1, .leaf s, hg, _ => by
    have : s = 0 := hg
    subst this
    refine ⟨zero, by rw [insertAtDepth, if_pos rfl], rfl, fun _ => good_zero _, fun k => ?_⟩
    rw [amp_zero, amp_leaf_zero, zero_mul]
  | 0, n + 1, .fork s b0 b1, hg, hn1 => by
    obtain ⟨hs, hn, h0, h1⟩ := hg
    obtain ⟨sb, c0, c1, rfl⟩ : ∃ sb c0 c1, b = .fork sb c0 c1 := by
      cases b with
      | leaf z => exact absurd hb hbs
      | fork sb c0 c1 => exact ⟨sb, c0, c1, rfl⟩
    have hset : ∀ z : ℂ, z ≠ 0 → insertNothing (m + 1) (withBranches z (.fork sb c0 c1)) = (Node.fork sb c0 c1).set z := by
      intro z hz
      rw [withBranches_fork, insertNothing_good (m + 1) (m + 1) _ (hb.semi.goodSet hbs hz) le_rfl, scale_set, if_neg hz]
    have hgood : ∀ z : ℂ, z ≠ 0 → Good (m + 1) ((Node.fork sb c0 c1).set z) := fun z hz => hb.semi.goodSet hbs hz
    have hamp : ∀ (z : ℂ) (k : ℕ), z ≠ 0 → amp (n + (m + 1)) ((Node.fork sb c0 c1).set z) k =
        z * amp (m + 1) ((Node.fork sb c0 c1).set 1) k := by
      intro z k hz
      rw [amp_deep (m + 1) _ _ _ (hgood z hz) (by omega), amp_set]
    have hk1 : ∀ k : ℕ, amp (0 + 1) (.fork s b0 b1) k = s * (if k % 2 = 1 then b1.scale else b0.scale) := by
      intro k
      rw [amp_fork_set]; rfl
    rw [insertAtDepth, if_neg hs]
    by_cases e0 : b0.scale = 0
    · have e1 : b1.scale ≠ 0 := by
        intro e1; rw [e0, e1] at hn; simp at hn
      rw [if_pos e0, hset _ e1]
      refine ⟨_, rfl, rfl, fun e => ?_, fun k => ?_⟩
      · obtain rfl : n = 0 := by omega
        rw [show 0 + 1 + (m + 1) = (m + 1) + 1 by ring]
        refine ⟨hs, by rw [scale_set]; exact hn, ?_, hgood _ e1⟩
        cases b0 with
        | leaf z => rw [scale_leaf] at e0; subst e0; exact good_zero _
        | fork _ _ _ => exact h0.elim
      · rw [show n + 1 + (m + 1) = (n + (m + 1)) + 1 by ring, amp_fork_set, hk1, hamp _ _ e1, amp_of_scale_zero e0, e0, pow_one]
        split <;> ring
    · rw [if_neg e0]
      by_cases e1 : b1.scale = 0
      · rw [if_pos e1, hset _ e0]
        refine ⟨_, rfl, rfl, fun e => ?_, fun k => ?_⟩
        · obtain rfl : n = 0 := by omega
          rw [show 0 + 1 + (m + 1) = (m + 1) + 1 by ring]
          refine ⟨hs, by rw [scale_set]; exact hn, hgood _ e0, ?_⟩
          cases b1 with
          | leaf z => rw [scale_leaf] at e1; subst e1; exact good_zero _
          | fork _ _ _ => exact h1.elim
        · rw [show n + 1 + (m + 1) = (n + (m + 1)) + 1 by ring, amp_fork_set, hk1, hamp _ _ e0, amp_of_scale_zero e1, e1, pow_one]
          split <;> ring
      · rw [if_neg e1, hset _ e0, hset _ e1]
        refine ⟨_, rfl, rfl, fun e => ?_, fun k => ?_⟩
        · obtain rfl : n = 0 := by omega
          rw [show 0 + 1 + (m + 1) = (m + 1) + 1 by ring]
          exact ⟨hs, by rw [scale_set, scale_set]; exact hn, hgood _ e0, hgood _ e1⟩
        · rw [show n + 1 + (m + 1) = (n + (m + 1)) + 1 by ring, amp_fork_set, hk1, hamp _ _ e0, hamp _ _ e1, pow_one]
          split <;> ring
  | d + 1, n + 1, .fork s b0 b1, hg, hd => by
    obtain ⟨hs, hn, h0, h1⟩ := hg
    obtain ⟨t0, e0, s0, g0, a0⟩ := insertAtDepth_ok hb hbs d n b0 h0 (by omega)
    obtain ⟨t1, e1, s1, g1, a1⟩ := insertAtDepth_ok hb hbs d n b1 h1 (by omega)
    refine ⟨.fork s t0 t1, ?_, rfl, fun e => ?_, fun k => ?_⟩
    · rw [insertAtDepth, if_neg hs]
      simp [e0, e1]
    · rw [show n + 1 + (m + 1) = (n + (m + 1)) + 1 by ring]
      exact ⟨hs, by rw [s0, s1, hn], g0 (by omega), g1 (by omega)⟩
    · rw [show n + 1 + (m + 1) = (n + (m + 1)) + 1 by ring, amp_fork_set, amp_fork_set, a0, a1, Nat.div_div_eq_div_mul,
        show 2 * 2 ^ (d + 1) = 2 ^ (d + 1 + 1) by ring]
      split <;> ring

/-- The amplitudes after `Compose` below the first qubit. -/
theorem compose_ok {n m start : ℕ} {t b : Node} (ht : Good n t) (hb : Good m b) (hbs : b.scale ≠ 0) (hm : m ≠ 0)
    (h1 : 1 ≤ start) (h2 : start ≤ n) : ∃ t', compose n t m b start = some (start, t') ∧ t'.scale = t.scale ∧
      (start = n → Good (n + m) t') ∧
      ∀ k, amp (n + m) t' k = amp start t k * (amp m b (k / 2 ^ start) / b.scale) := by
  obtain ⟨m, rfl⟩ := Nat.exists_eq_succ_of_ne_zero hm
  obtain ⟨d, rfl⟩ : ∃ d, start = d + 1 := ⟨start - 1, by omega⟩
  obtain ⟨t', e, s, g, a⟩ := insertAtDepth_ok hb hbs d n t ht h2
  refine ⟨t', ?_, s, fun h => g h.symm, fun k => ?_⟩
  · rw [compose, if_neg (by omega), if_neg hm, e]; rfl
  · rw [a, amp_scale (m.succ) b]
    field_simp

theorem amp_mod : ∀ (n : ℕ) (t : Node) (k : ℕ), amp n t (k % 2 ^ n) = amp n t k
  | 0, _, _ => rfl
  | n + 1, .leaf _, _ => rfl
  | n + 1, .fork s b0 b1, k => by
    have e1 : k % 2 ^ (n + 1) % 2 = k % 2 := by rw [mod_succ]; omega
    have e2 : k % 2 ^ (n + 1) / 2 = k / 2 % 2 ^ n := by rw [mod_succ]; omega
    rw [amp_fork_set, amp_fork_set, e1, e2, amp_mod n b0, amp_mod n b1]

end Verif.Bdt
