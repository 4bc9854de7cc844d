import Verif.Model.Bdt
import Verif.Spec.Circuit
import Verif.Spec.Gate
import Mathlib.Algebra.BigOperators.Intervals
import Mathlib.Tactic.LinearCombination
import Mathlib.Tactic.FieldSimp

/-!
Helper lemmas: nodes of a decision tree, what `Prune`, `PopStateVector`, `PushStateVector` and `Apply2x2` do to the
amplitudes below a node.
-/

namespace Verif.Bdt

open Verif.Matrix2 Verif.Spec.Circuit

/-- Amplitudes below a node. -/
abbrev amp := getAmplitude

@[simp] theorem scale_set (z : ℂ) (t : Node) : (t.set z).scale = z := by cases t <;> rfl

@[simp] theorem set_set (z w : ℂ) (t : Node) : (t.set z).set w = t.set w := by cases t <;> rfl

@[simp] theorem set_scale (t : Node) : t.set t.scale = t := by cases t <;> rfl

@[simp] theorem scale_zero : zero.scale = 0 := rfl

@[simp] theorem scale_leaf (s : ℂ) : (Node.leaf s).scale = s := rfl

@[simp] theorem scale_fork (s : ℂ) (b0 b1 : Node) : (Node.fork s b0 b1).scale = s := rfl

theorem amp_set (n : ℕ) (z : ℂ) (t : Node) (k : ℕ) : amp n (t.set z) k = z * amp n (t.set 1) k := by
  cases n <;> cases t <;> simp [amp, getAmplitude, Node.set, Node.scale]

theorem amp_scale (n : ℕ) (t : Node) (k : ℕ) : amp n t k = t.scale * amp n (t.set 1) k := by
  conv_lhs => rw [← set_scale t]
  rw [amp_set]

@[simp] theorem amp_zero (n k : ℕ) : amp n zero k = 0 := by
  cases n <;> simp [amp, getAmplitude, zero, Node.scale]

theorem amp_of_scale_zero {n : ℕ} {t : Node} (h : t.scale = 0) (k : ℕ) : amp n t k = 0 := by
  rw [amp_scale, h, zero_mul]

theorem amp_fork (n : ℕ) (s : ℂ) (b0 b1 : Node) (k : ℕ) :
    amp (n + 1) (.fork s b0 b1) k = s * amp n (if k % 2 = 1 then b1 else b0) (k / 2) := rfl

theorem amp_fork_set (n : ℕ) (s : ℂ) (b0 b1 : Node) (k : ℕ) :
    amp (n + 1) (.fork s b0 b1) k =
      s * (if k % 2 = 1 then amp n b1 (k / 2) else amp n b0 (k / 2)) := by
  rw [amp_fork]; split <;> rfl

/-- Trees of `n` qubits as they are between two operations: inner nodes without branches are zero, others are not, and the
squared moduli of the scales of two sibling nodes add up to one. -/
def Good : ℕ → Node → Prop
  | 0, .leaf _ => True
  | 0, .fork _ _ _ => False
  | _ + 1, .leaf s => s = 0
  | n + 1, .fork s b0 b1 =>
    s ≠ 0 ∧ Complex.normSq b0.scale + Complex.normSq b1.scale = 1 ∧ Good n b0 ∧ Good n b1

/-- As `Good`, but the node itself may be zero and still have branches. -/
def Semi : ℕ → Node → Prop
  | 0, .leaf _ => True
  | 0, .fork _ _ _ => False
  | _ + 1, .leaf s => s = 0
  | n + 1, .fork _ b0 b1 =>
    Complex.normSq b0.scale + Complex.normSq b1.scale = 1 ∧ Good n b0 ∧ Good n b1

theorem Good.semi {n : ℕ} {t : Node} (h : Good n t) : Semi n t := by
  cases n <;> cases t <;> simp_all [Good, Semi]

theorem Semi.good {n : ℕ} {t : Node} (h : Semi n t) (hs : t.scale ≠ 0) : Good n t := by
  cases n <;> cases t <;> simp_all [Good, Semi, Node.scale]

theorem Semi.set {n : ℕ} {t : Node} (h : Semi n t) (hs : t.scale ≠ 0) (z : ℂ) : Semi n (t.set z) := by
  cases n <;> cases t <;> simp_all [Semi, Node.set, Node.scale]

theorem Semi.set' {n : ℕ} {t : Node} (h : Semi n t) (z : ℂ) (hz : t.scale = 0 → z = 0) : Semi n (t.set z) := by
  cases n <;> cases t <;> simp_all [Semi, Node.set, Node.scale]

@[simp] theorem good_zero (n : ℕ) : Good n zero := by cases n <;> simp [Good, zero]

theorem Semi.goodSet {n : ℕ} {t : Node} (h : Semi n t) (hs : t.scale ≠ 0) {z : ℂ} (hz : z ≠ 0) :
    Good n (t.set z) := (h.set hs z).good (by simpa using hz)

/-- On such trees `Branch` changes nothing. -/
theorem branch_good : ∀ (n d : ℕ) (t : Node), Good n t → d ≤ n → branch d t = t
  | n, 0, t, _, _ => rfl
  | 0, d + 1, t, _, h => by omega
  | n + 1, d + 1, .leaf s, h, _ => by
    simp only [Good] at h
    simp [branch, h, zero]
  | n + 1, d + 1, .fork s b0 b1, h, hd => by
    obtain ⟨hs, _, h0, h1⟩ := h
    rw [branch, if_neg hs, branch_good n d b0 h0 (by omega), branch_good n d b1 h1 (by omega)]

theorem sqrt_normSq (z : ℂ) : Real.sqrt (Complex.normSq z) = ‖z‖ := rfl

theorem norm_mul_polar (z : ℂ) : (‖z‖ : ℂ) * polarLike 1 z = z := by
  unfold polarLike
  rw [Complex.ofReal_one, one_mul]
  exact Complex.norm_mul_exp_arg_mul_I z

theorem norm_polar (r : ℝ) (z : ℂ) (hr : 0 ≤ r) : ‖polarLike r z‖ = r := by
  unfold polarLike
  rw [norm_mul, Complex.norm_exp_ofReal_mul_I, mul_one, Complex.norm_real, Real.norm_eq_abs, abs_of_nonneg hr]

theorem polar_ne_zero (r : ℝ) (z : ℂ) (hr : 0 < r) : polarLike r z ≠ 0 := by
  rw [← norm_ne_zero_iff, norm_polar r z hr.le]; exact hr.ne'

theorem normSq_of_norm {z : ℂ} : Complex.normSq z = ‖z‖ ^ 2 := Complex.normSq_eq_norm_sq z

theorem unit_norm {z : ℂ} (h : z ≠ 0) : ‖z / (‖z‖ : ℂ)‖ = 1 := by
  have : ‖z‖ ≠ 0 := norm_ne_zero_iff.2 h
  rw [norm_div, Complex.norm_real, norm_norm, div_self this]

/-- `Prune` above the recursion keeps the amplitudes and the modulus of the scale. -/
theorem collect_ok {n : ℕ} {s : ℂ} {b0 b1 : Node} (h0 : Semi n b0) (h1 : Semi n b1)
    (hn : Complex.normSq b0.scale + Complex.normSq b1.scale = 1) :
    Semi (n + 1) (collect s b0 b1) ∧ ‖(collect s b0 b1).scale‖ = ‖s‖ ∧
      ∀ k, amp (n + 1) (collect s b0 b1) k = amp (n + 1) (.fork s b0 b1) k := by
  have key : ∀ z : ℂ, Complex.normSq z = 1 → ‖z‖ = 1 := fun z h => by
    rw [normSq_of_norm] at h
    nlinarith [norm_nonneg z]
  by_cases e0 : b0.scale = 0
  · have n1 : Complex.normSq b1.scale = 1 := by simpa [e0] using hn
    have m1 : ‖b1.scale‖ = 1 := key _ n1
    have e1 : b1.scale ≠ 0 := by intro h; rw [h] at m1; simp at m1
    rw [collect, if_pos e0]
    refine ⟨?_, ?_, fun k => ?_⟩
    · refine ⟨by simp, by simp, h1.goodSet e1 one_ne_zero⟩
    · simp [m1]
    · rw [amp_fork_set, amp_fork_set, amp_scale n b1]
      split
      · rw [m1]; push_cast; ring
      · rw [amp_of_scale_zero e0]; simp
  · by_cases e1 : b1.scale = 0
    · have n0 : Complex.normSq b0.scale = 1 := by simpa [e1] using hn
      have m0 : ‖b0.scale‖ = 1 := key _ n0
      rw [collect, if_neg e0, if_pos e1]
      refine ⟨?_, ?_, fun k => ?_⟩
      · refine ⟨by simp, h0.goodSet e0 one_ne_zero, by simp⟩
      · simp [m0]
      · rw [amp_fork_set, amp_fork_set, amp_scale n b0]
        split
        · rw [amp_of_scale_zero e1]; simp
        · rw [m0]; push_cast; ring
    · rw [collect, if_neg e0, if_neg e1]
      have hp := norm_polar 1 b1.scale zero_le_one
      have hp0 := polar_ne_zero 1 b1.scale zero_lt_one
      generalize polarLike 1 b1.scale = p at hp hp0
      refine ⟨⟨?_, h0.goodSet e0 (div_ne_zero e0 hp0), h1.goodSet e1 (div_ne_zero e1 hp0)⟩, ?_, fun k => ?_⟩
      · rw [scale_set, scale_set, Complex.normSq_div, Complex.normSq_div, normSq_of_norm (z := p), hp]
        simpa using hn
      · simp [hp]
      · rw [amp_fork_set, amp_fork_set, amp_set n (b0.scale / p), amp_set n (b1.scale / p), amp_scale n b0,
          amp_scale n b1]
        split <;> field_simp

theorem normalize_ok {b0 b1 : Node} (hn : Complex.normSq b0.scale + Complex.normSq b1.scale = 1) :
    normalize b0 b1 = some (b0, b1) := by
  simp [normalize, hn]

/-- `Prune` of a tree: same amplitudes, same modulus of the scale. -/
theorem prune_ok : ∀ (n d : ℕ) (s : ℂ) (b0 b1 : Node), Semi n b0 → Semi n b1 →
    Complex.normSq b0.scale + Complex.normSq b1.scale = 1 → d ≤ n →
    ∃ t, prune (d + 1) (.fork s b0 b1) = some t ∧ Semi (n + 1) t ∧ ‖t.scale‖ = ‖s‖ ∧
      ∀ k, amp (n + 1) t k = amp (n + 1) (.fork s b0 b1) k := by
  intro n
  induction n with
  | zero =>
    intro d s b0 b1 h0 h1 hn hd
    obtain rfl : d = 0 := by omega
    refine ⟨collect s b0 b1, ?_, collect_ok h0 h1 hn⟩
    simp [prune, normalize_ok hn]
  | succ n ih =>
    intro d s b0 b1 h0 h1 hn hd
    have sub : ∀ b, Semi (n + 1) b → ∃ t, prune d b = some t ∧ Semi (n + 1) t ∧ ‖t.scale‖ = ‖b.scale‖ ∧
        ∀ k, amp (n + 1) t k = amp (n + 1) b k := by
      intro b hb
      cases d with
      | zero => exact ⟨b, rfl, hb, rfl, fun _ => rfl⟩
      | succ d =>
        cases b with
        | leaf z =>
          simp only [Semi] at hb
          subst hb
          exact ⟨zero, rfl, (good_zero _).semi, rfl, fun _ => rfl⟩
        | fork z c0 c1 =>
          obtain ⟨hc, g0, g1⟩ := hb
          exact ih d z c0 c1 g0.semi g1.semi hc (by omega)
    obtain ⟨t0, e0, s0, m0, a0⟩ := sub b0 h0
    obtain ⟨t1, e1, s1, m1, a1⟩ := sub b1 h1
    have hn' : Complex.normSq t0.scale + Complex.normSq t1.scale = 1 := by
      rw [normSq_of_norm, normSq_of_norm, m0, m1, ← normSq_of_norm, ← normSq_of_norm, hn]
    obtain ⟨c1, c2, c3⟩ := collect_ok (s := s) s0 s1 hn'
    refine ⟨collect s t0 t1, ?_, c1, c2, fun k => ?_⟩
    · simp [prune, e0, e1, normalize_ok hn']
    · rw [c3, amp_fork_set, amp_fork_set, a0, a1]

/-- `Prune` between operations. -/
theorem prune_good (n d : ℕ) (t : Node) (h : Good n t) (hd : d ≤ n) :
    ∃ t', prune d t = some t' ∧ Good n t' ∧ ‖t'.scale‖ = ‖t.scale‖ ∧ ∀ k, amp n t' k = amp n t k := by
  cases d with
  | zero => exact ⟨t, rfl, h, rfl, fun _ => rfl⟩
  | succ d =>
    cases n with
    | zero => omega
    | succ n =>
      cases t with
      | leaf z =>
        simp only [Good] at h
        subst h
        exact ⟨zero, rfl, good_zero _, rfl, fun _ => rfl⟩
      | fork z c0 c1 =>
        obtain ⟨hz, hc, g0, g1⟩ := h
        obtain ⟨t', e, s', m', a'⟩ := prune_ok n d z c0 c1 g0.semi g1.semi hc (by omega)
        refine ⟨t', e, s'.good ?_, m', a'⟩
        rw [← norm_ne_zero_iff, m']
        exact norm_ne_zero_iff.2 hz

/-- `PopStateVector` above the recursion: the branches carry the amplitudes. -/
theorem gather_ok {n : ℕ} {b0 b1 : Node} (h0 : Semi n b0) (h1 : Semi n b1) :
    Good (n + 1) (gather b0 b1) ∧
      ∀ k, amp (n + 1) (gather b0 b1) k = if k % 2 = 1 then amp n b1 (k / 2) else amp n b0 (k / 2) := by
  have polar_eq : ∀ z : ℂ, polarLike (Real.sqrt (Complex.normSq z)) z = z := fun z => by
    rw [sqrt_normSq]
    unfold polarLike
    exact Complex.norm_mul_exp_arg_mul_I z
  by_cases e0 : b0.scale = 0
  · by_cases e1 : b1.scale = 0
    · rw [gather, if_pos ⟨e0, e1⟩]
      refine ⟨good_zero _, fun k => ?_⟩
      rw [amp_zero, amp_of_scale_zero e0, amp_of_scale_zero e1]; simp
    · rw [gather, if_neg (fun h => e1 h.2), if_pos e0, e0, map_zero, zero_add, polar_eq]
      refine ⟨⟨e1, by simp, good_zero _, h1.goodSet e1 one_ne_zero⟩, fun k => ?_⟩
      rw [amp_fork_set, amp_scale n b1, amp_of_scale_zero e0]
      split <;> simp
  · by_cases e1 : b1.scale = 0
    · rw [gather, if_neg (fun h => e0 h.1), if_neg e0, if_pos e1, e1, map_zero, add_zero, polar_eq]
      refine ⟨⟨e0, by simp, h0.goodSet e0 one_ne_zero, good_zero _⟩, fun k => ?_⟩
      rw [amp_fork_set, amp_scale n b0, amp_of_scale_zero e1]
      split <;> simp
    · rw [gather, if_neg (fun h => e0 h.1), if_neg e0, if_neg e1]
      have hpos : 0 < Complex.normSq b0.scale + Complex.normSq b1.scale :=
        add_pos (Complex.normSq_pos.2 e0) (Complex.normSq_pos.2 e1)
      have hp := norm_polar (Real.sqrt (Complex.normSq b0.scale + Complex.normSq b1.scale)) b0.scale (Real.sqrt_nonneg _)
      have hp0 := polar_ne_zero _ b0.scale (Real.sqrt_pos.2 hpos)
      generalize polarLike (Real.sqrt (Complex.normSq b0.scale + Complex.normSq b1.scale)) b0.scale = p at hp hp0
      refine ⟨⟨hp0, ?_, h0.goodSet e0 (div_ne_zero e0 hp0), h1.goodSet e1 (div_ne_zero e1 hp0)⟩, fun k => ?_⟩
      · rw [scale_set, scale_set, Complex.normSq_div, Complex.normSq_div, normSq_of_norm (z := p), hp,
          Real.sq_sqrt hpos.le, ← add_div, div_self hpos.ne']
      · rw [amp_fork_set, amp_set n (b0.scale / p), amp_set n (b1.scale / p), amp_scale n b0, amp_scale n b1]
        split <;> field_simp

theorem sameUnder_set {b0 b1 : Node} (h : sameUnder b0 b1) : b0.set 1 = b1.set 1 := by
  cases b0 <;> cases b1 <;> simp_all [sameUnder, Node.set]

theorem pushState_eq (m : Mtrx) (d : ℕ) : ∃ rec, pushState m d = pushStep m rec := by
  cases d <;> exact ⟨_, rfl⟩

theorem pushStep_both {m : Mtrx} {rec : Node → Node → Option (Node × Node)} {b0 b1 : Node} (h0 : b0.scale = 0)
    (h1 : b1.scale = 0) : pushStep m rec b0 b1 = some (zero, zero) := by
  rw [pushStep, if_pos ⟨h0, h1⟩]

theorem pushStep_left {m : Mtrx} {rec : Node → Node → Option (Node × Node)} {b0 b1 : Node} (h0 : b0.scale = 0)
    (h1 : b1.scale ≠ 0) :
    pushStep m rec b0 b1 = some (b1.set (m.m1 * b1.scale), b1.set (m.m3 * b1.scale)) := by
  rw [pushStep, if_neg (fun h => h1 h.2)]
  simp [h0, h1]

theorem pushStep_right {m : Mtrx} {rec : Node → Node → Option (Node × Node)} {b0 b1 : Node} (h0 : b0.scale ≠ 0)
    (h1 : b1.scale = 0) :
    pushStep m rec b0 b1 = some (b0.set (m.m0 * b0.scale), b0.set (m.m2 * b0.scale)) := by
  rw [pushStep, if_neg (fun h => h0 h.1)]
  simp [h0, h1]

theorem pushStep_same {m : Mtrx} {rec : Node → Node → Option (Node × Node)} {b0 b1 : Node} (h0 : b0.scale ≠ 0)
    (h1 : b1.scale ≠ 0) (hu : sameUnder b0 b1) :
    pushStep m rec b0 b1 =
      some (b0.set (m.m0 * b0.scale + m.m1 * b1.scale), b1.set (m.m2 * b0.scale + m.m3 * b1.scale)) := by
  rw [pushStep, if_neg (fun h => h0 h.1)]
  simp [h0, h1, hu]

theorem pushStep_rec {m : Mtrx} {rec : Node → Node → Option (Node × Node)} {b0 b1 : Node} (h0 : b0.scale ≠ 0)
    (h1 : b1.scale ≠ 0) (hu : ¬ sameUnder b0 b1) :
    pushStep m rec b0 b1 =
      (match branch 1 b0, branch 1 b1 with
      | .fork s0 b00 b01, .fork s1 b10 b11 => do
        let (d00, d10) ← rec (b00.set (b00.scale * s0)) (b10.set (b10.scale * s1))
        let (d01, d11) ← rec (b01.set (b01.scale * s0)) (b11.set (b11.scale * s1))
        let h : ℂ := Real.sqrt (1 / 2)
        return (popState 1 (.fork h d00 d01), popState 1 (.fork h d10 d11))
      | _, _ => none) := by
  rw [pushStep, if_neg (fun h => h0 h.1)]
  simp only [h0, h1, hu, if_false, or_self]
  rfl

/-- `PushStateVector` applies the matrix to two branches. -/
theorem pushState_ok (m : Mtrx) : ∀ (n d : ℕ) (b0 b1 : Node), Good n b0 → Good n b1 → n ≤ d →
    ∃ c0 c1, pushState m d b0 b1 = some (c0, c1) ∧ Semi n c0 ∧ Semi n c1 ∧
      (∀ k, amp n c0 k = m.m0 * amp n b0 k + m.m1 * amp n b1 k) ∧
      (∀ k, amp n c1 k = m.m2 * amp n b0 k + m.m3 * amp n b1 k) := by
  intro n
  induction n with
  | zero =>
    intro d b0 b1 h0 h1 _
    cases b0 with
    | fork => simp [Good] at h0
    | leaf s0 =>
    cases b1 with
    | fork => simp [Good] at h1
    | leaf s1 =>
    obtain ⟨rec, hr⟩ := pushState_eq m d
    rw [hr]
    by_cases e0 : s0 = 0
    · by_cases e1 : s1 = 0
      · refine ⟨zero, zero, pushStep_both e0 e1, trivial, trivial, ?_, ?_⟩ <;> simp [amp, getAmplitude, e0, e1]
      · refine ⟨.leaf (m.m1 * s1), .leaf (m.m3 * s1), pushStep_left e0 e1, trivial, trivial, ?_, ?_⟩ <;>
          simp [amp, getAmplitude, e0]
    · by_cases e1 : s1 = 0
      · refine ⟨.leaf (m.m0 * s0), .leaf (m.m2 * s0), pushStep_right e0 e1, trivial, trivial, ?_, ?_⟩ <;>
          simp [amp, getAmplitude, e1]
      · refine ⟨.leaf (m.m0 * s0 + m.m1 * s1), .leaf (m.m2 * s0 + m.m3 * s1), pushStep_same e0 e1 trivial,
          trivial, trivial, ?_, ?_⟩ <;> simp [amp, getAmplitude]
  | succ n ih =>
    intro d b0 b1 h0 h1 hd
    obtain ⟨rec, hr⟩ := pushState_eq m d
    by_cases e0 : b0.scale = 0
    · by_cases e1 : b1.scale = 0
      · refine ⟨zero, zero, by rw [hr, pushStep_both e0 e1], (good_zero _).semi, (good_zero _).semi, ?_, ?_⟩ <;>
          intro k <;> rw [amp_zero, amp_of_scale_zero e0, amp_of_scale_zero e1] <;> simp
      · refine ⟨b1.set (m.m1 * b1.scale), b1.set (m.m3 * b1.scale), ?_, h1.semi.set e1 _, h1.semi.set e1 _, ?_, ?_⟩
        · rw [hr, pushStep_left e0 e1]
        · intro k; rw [amp_set, amp_scale _ b1, amp_of_scale_zero e0]; ring
        · intro k; rw [amp_set, amp_scale _ b1, amp_of_scale_zero e0]; ring
    · by_cases e1 : b1.scale = 0
      · refine ⟨b0.set (m.m0 * b0.scale), b0.set (m.m2 * b0.scale), ?_, h0.semi.set e0 _, h0.semi.set e0 _, ?_, ?_⟩
        · rw [hr, pushStep_right e0 e1]
        · intro k; rw [amp_set, amp_scale _ b0, amp_of_scale_zero e1]; ring
        · intro k; rw [amp_set, amp_scale _ b0, amp_of_scale_zero e1]; ring
      · by_cases hu : sameUnder b0 b1
        · refine ⟨b0.set (m.m0 * b0.scale + m.m1 * b1.scale), b1.set (m.m2 * b0.scale + m.m3 * b1.scale), ?_,
            h0.semi.set e0 _, h1.semi.set e1 _, ?_, ?_⟩
          · rw [hr, pushStep_same e0 e1 hu]
          · intro k
            rw [amp_set, amp_scale _ b0, amp_scale _ b1, sameUnder_set hu]; ring
          · intro k
            rw [amp_set, amp_scale _ b0, amp_scale _ b1, sameUnder_set hu]; ring
        · cases b0 with
          | leaf s0 => exact absurd h0 e0
          | fork s0 b00 b01 =>
          cases b1 with
          | leaf s1 => exact absurd h1 e1
          | fork s1 b10 b11 =>
          cases d with
          | zero => omega
          | succ d =>
          have br0 := branch_good (n + 1) 1 _ h0 (by omega)
          have br1 := branch_good (n + 1) 1 _ h1 (by omega)
          have scaled : ∀ (b : Node) (s : ℂ), Good n b → s ≠ 0 → Good n (b.set (b.scale * s)) := by
            intro b s hb hs
            by_cases hz : b.scale = 0
            · rw [hz, zero_mul, ← hz, set_scale]; exact hb
            · exact hb.semi.goodSet hz (mul_ne_zero hz hs)
          obtain ⟨z0, -, g00, g01⟩ := h0
          obtain ⟨z1, -, g10, g11⟩ := h1
          obtain ⟨x00, x10, ex, sx0, sx1, ax0, ax1⟩ := ih d _ _ (scaled b00 s0 g00 z0) (scaled b10 s1 g10 z1) (by omega)
          obtain ⟨y01, y11, ey, sy0, sy1, ay0, ay1⟩ := ih d _ _ (scaled b01 s0 g01 z0) (scaled b11 s1 g11 z1) (by omega)
          obtain ⟨G0, A0⟩ := gather_ok sx0 sy0
          obtain ⟨G1, A1⟩ := gather_ok sx1 sy1
          refine ⟨gather x00 y01, gather x10 y11, ?_, G0.semi, G1.semi, ?_, ?_⟩
          · rw [pushState, pushStep_rec e0 e1 hu]
            simp only [br0, br1]
            simp [ex, ey, popState]
          · intro k
            rw [A0, amp_fork_set, amp_fork_set, ax0, ay0, amp_set n (b00.scale * s0), amp_set n (b10.scale * s1),
              amp_set n (b01.scale * s0), amp_set n (b11.scale * s1), amp_scale n b00, amp_scale n b01, amp_scale n b10,
              amp_scale n b11]
            split <;> ring
          · intro k
            rw [A1, amp_fork_set, amp_fork_set, ax1, ay1, amp_set n (b00.scale * s0), amp_set n (b10.scale * s1),
              amp_set n (b01.scale * s0), amp_set n (b11.scale * s1), amp_scale n b00, amp_scale n b01, amp_scale n b10,
              amp_scale n b11]
            split <;> ring

/-- A sum over the basis states of `n + 1` qubits, by the value of the first. -/
theorem sum_even_odd (n : ℕ) (f : ℕ → ℝ) : ∑ k ∈ Finset.range (2 ^ (n + 1)), f k =
    ∑ k ∈ Finset.range (2 ^ n), f (2 * k) + ∑ k ∈ Finset.range (2 ^ n), f (2 * k + 1) := by
  rw [pow_succ, mul_comm, ← Finset.sum_add_distrib]
  generalize 2 ^ n = N
  induction N with
  | zero => simp
  | succ N ih =>
    rw [Nat.mul_succ, Finset.sum_range_succ, Finset.sum_range_succ, Finset.sum_range_succ, ih]
    ring

/-- The squared modulus of the scale of a node is the probability below it. -/
theorem total_semi : ∀ (n : ℕ) (t : Node), Semi n t →
    ∑ k ∈ Finset.range (2 ^ n), Complex.normSq (amp n t k) = Complex.normSq t.scale := by
  intro n
  induction n with
  | zero =>
    intro t h
    simp [amp, getAmplitude]
  | succ n ih =>
    intro t h
    cases t with
    | leaf s =>
      simp only [Semi] at h
      subst h
      have : ∀ k, amp (n + 1) (Node.leaf 0) k = 0 := fun k => amp_zero (n + 1) k
      simp [this, Node.scale]
    | fork s b0 b1 =>
      obtain ⟨hn, g0, g1⟩ := h
      rw [sum_even_odd]
      have e0 : ∀ k, amp (n + 1) (.fork s b0 b1) (2 * k) = s * amp n b0 k := fun k => by
        rw [amp_fork_set, if_neg (by omega), Nat.mul_div_cancel_left _ (by norm_num)]
      have e1 : ∀ k, amp (n + 1) (.fork s b0 b1) (2 * k + 1) = s * amp n b1 k := fun k => by
        rw [amp_fork_set, if_pos (by omega)]
        congr 2
        omega
      simp only [e0, e1, map_mul, ← Finset.mul_sum, ih b0 g0.semi, ih b1 g1.semi]
      rw [← mul_add, hn, mul_one]
      rfl

theorem unitary_pair {m : Mtrx} (hm : Unitary m) (a b : ℂ) :
    Complex.normSq (m.m0 * a + m.m1 * b) + Complex.normSq (m.m2 * a + m.m3 * b) =
      Complex.normSq a + Complex.normSq b := by
  obtain ⟨h1, h2, h3, -, -, -⟩ := hm
  have h3' : m.m0 * (starRingEnd ℂ) m.m1 + m.m2 * (starRingEnd ℂ) m.m3 = 0 := by
    have := congrArg (starRingEnd ℂ) h3
    simpa [mul_comm] using this
  apply Complex.ofReal_injective
  push_cast
  simp only [← Complex.mul_conj, map_add, map_mul]
  linear_combination (a * (starRingEnd ℂ) a) * h1 + (b * (starRingEnd ℂ) b) * h2 + (b * (starRingEnd ℂ) a) * h3 +
    (a * (starRingEnd ℂ) b) * h3'

/-- `Apply2x2` at a node: the matrix acts on the first qubit below it. -/
theorem apply2x2_ok (m : Mtrx) (hm : Unitary m) (n : ℕ) (s : ℂ) (b0 b1 : Node) (h : Good (n + 1) (.fork s b0 b1)) :
    ∃ t, apply2x2 m (n + 1) (.fork s b0 b1) = some t ∧ Good (n + 1) t ∧ ‖t.scale‖ = ‖s‖ ∧
      ∀ k, amp (n + 1) t k =
        if k % 2 = 1 then m.m2 * (s * amp n b0 (k / 2)) + m.m3 * (s * amp n b1 (k / 2))
        else m.m0 * (s * amp n b0 (k / 2)) + m.m1 * (s * amp n b1 (k / 2)) := by
  have br := branch_good (n + 1) 1 _ h (by omega)
  obtain ⟨hs, hn, g0, g1⟩ := h
  have fin : ∀ (d : ℕ) (c0 c1 : Node), d ≤ n → Semi n c0 → Semi n c1 →
      (∀ k, amp n c0 k = m.m0 * amp n b0 k + m.m1 * amp n b1 k) →
      (∀ k, amp n c1 k = m.m2 * amp n b0 k + m.m3 * amp n b1 k) →
      ∃ t, prune (d + 1) (.fork s c0 c1) = some t ∧ Good (n + 1) t ∧ ‖t.scale‖ = ‖s‖ ∧
      ∀ k, amp (n + 1) t k =
        if k % 2 = 1 then m.m2 * (s * amp n b0 (k / 2)) + m.m3 * (s * amp n b1 (k / 2))
        else m.m0 * (s * amp n b0 (k / 2)) + m.m1 * (s * amp n b1 (k / 2)) := by
    intro d c0 c1 hd s0 s1 a0 a1
    have hn' : Complex.normSq c0.scale + Complex.normSq c1.scale = 1 := by
      rw [← total_semi n c0 s0, ← total_semi n c1 s1, ← Finset.sum_add_distrib]
      have : ∀ k, Complex.normSq (amp n c0 k) + Complex.normSq (amp n c1 k) =
          Complex.normSq (amp n b0 k) + Complex.normSq (amp n b1 k) := fun k => by
        rw [a0, a1, unitary_pair hm]
      simp only [this]
      rw [Finset.sum_add_distrib, total_semi n b0 g0.semi, total_semi n b1 g1.semi, hn]
    obtain ⟨t, e, st, mt, at'⟩ := prune_ok n d s c0 c1 s0 s1 hn' hd
    refine ⟨t, e, st.good ?_, mt, fun k => ?_⟩
    · rw [← norm_ne_zero_iff, mt]; exact norm_ne_zero_iff.2 hs
    · rw [at', amp_fork_set, a0, a1]
      split <;> ring
  obtain ⟨u1, u2, -, -, -, -⟩ := hm
  have scaled : ∀ (b : Node) (z : ℂ), Good n b → Semi n (b.set (b.scale * z)) := fun b z hb =>
    hb.semi.set' _ (fun h => by rw [h, zero_mul])
  rw [apply2x2, if_neg (by omega), br]
  by_cases hd : m.m1 = 0 ∧ m.m2 = 0
  · simp only [if_pos hd]
    refine fin 0 _ _ (by omega) (scaled b0 _ g0) (scaled b1 _ g1) (fun k => ?_) (fun k => ?_)
    · rw [amp_set, amp_scale n b0, hd.1]; ring
    · rw [amp_set, amp_scale n b1, hd.2]; ring
  · simp only [if_neg hd]
    by_cases ha : m.m0 = 0 ∧ m.m3 = 0
    · simp only [if_pos ha]
      refine fin 0 _ _ (by omega) (scaled b1 _ g1) (scaled b0 _ g0) (fun k => ?_) (fun k => ?_)
      · rw [amp_set, amp_scale n b1, ha.1]; ring
      · rw [amp_set, amp_scale n b0, ha.2]; ring
    · simp only [if_neg ha]
      obtain ⟨c0, c1, e, s0, s1, a0, a1⟩ := pushState_ok m n (n + 1) b0 b1 g0 g1 (by omega)
      simp only [e, Option.bind_eq_bind, Option.bind_some]
      exact fin n c0 c1 le_rfl s0 s1 a0 a1

end Verif.Bdt
