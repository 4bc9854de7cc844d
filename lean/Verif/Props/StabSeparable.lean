import Verif.Props.StabCompose

/-!
# C69, continued: which qubits can be separated
-/

namespace Verif.Stab

open Verif.Pauli Complex

variable {n m start : ℕ}

/-! ### One qubit -/

/-- Qubit `t` has a state of its own. -/
def Factors (t : Fin n) (ψ : State n) : Prop :=
  ∃ (χ : State n) (a : Bool → ℂ), (∀ f b, χ (Function.update f t b) = χ f) ∧ ∀ f, ψ f = χ f * a (f t)

/-- Qubit `t` has a definite value. -/
def Definite (t : Fin n) (ψ : State n) : Prop := ∃ v, ∀ f, f t ≠ v → ψ f = 0

theorem definite_factors {t : Fin n} {ψ : State n} (h : Definite t ψ) : Factors t ψ := by
  obtain ⟨v, hv⟩ := h
  refine ⟨fun f => ψ (Function.update f t v), fun b => if b = v then 1 else 0, fun f b => by dsimp only; rw [Function.update_idem], fun f => ?_⟩
  dsimp only
  by_cases hf : f t = v
  · rw [if_pos hf, mul_one, ← hf, Function.update_eq_self]
  · rw [if_neg hf, mul_zero, hv f hf]

theorem factors_gate {t : Fin n} {ψ χ : State n} {a : Bool → ℂ} (hχ : ∀ f b, χ (Function.update f t b) = χ f)
    (hψ : ∀ f, ψ f = χ f * a (f t)) (p q r s : ℂ) (f : Bits n) :
    gate1 t p q r s ψ f = χ f * (if f t then r * a false + s * a true else p * a false + q * a true) := by
  unfold gate1
  simp only [hψ, hχ, Function.update_self]
  split_ifs <;> ring

theorem gate_factors {t : Fin n} {ψ : State n} (h : Factors t ψ) (p q r s : ℂ) : Factors t (gate1 t p q r s ψ) := by
  obtain ⟨χ, a, hχ, hψ⟩ := h
  exact ⟨χ, fun b => if b then r * a false + s * a true else p * a false + q * a true, hχ, fun f => factors_gate hχ hψ p q r s f⟩

theorem gate1_gate1 (t : Fin n) (p q r s p' q' r' s' : ℂ) (h1 : p' * p + q' * r = 1) (h2 : p' * q + q' * s = 0)
    (h3 : r' * p + s' * r = 0) (h4 : r' * q + s' * s = 1) (ψ : State n) : gate1 t p' q' r' s' (gate1 t p q r s ψ) = ψ := by
  funext f
  unfold gate1
  simp only [Function.update_self, Function.update_idem, if_true, if_false, Bool.false_eq_true]
  have e : ∀ b, f t = b → ψ (Function.update f t b) = ψ f := by
    intro b hb; rw [← hb, Function.update_eq_self]
  split_ifs with hf
  · rw [e true hf]
    linear_combination (ψ (Function.update f t false)) * h3 + ψ f * h4
  · rw [e false (by simpa using hf)]
    linear_combination (ψ f) * h1 + ψ (Function.update f t true) * h2

theorem hGate_hGate (t : Fin n) (ψ : State n) : hGate t (hGate t ψ) = ψ := by
  have := rt_mul
  exact gate1_gate1 t _ _ _ _ _ _ _ _ (by linear_combination 2 * this) (by ring) (by ring) (by linear_combination 2 * this) ψ

theorem sGate_isGate (t : Fin n) (ψ : State n) : sGate t (isGate t ψ) = ψ := by
  have := I_mul_I
  exact gate1_gate1 t _ _ _ _ _ _ _ _ (by ring) (by ring) (by ring) (by linear_combination -this) ψ

/-- The share of the part with value `b`, if the qubit has a state of its own. -/
theorem weight_factors {t : Fin n} {ψ χ : State n} {a : Bool → ℂ} (hχ : ∀ f b, χ (Function.update f t b) = χ f)
    (hψ : ∀ f, ψ f = χ f * a (f t)) (b : Bool) : 2 * weight t b ψ = norm2 χ * normSq (a b) := by
  have hflip : ∀ b, weight t b χ = weight t (!b) χ := by
    intro b
    unfold weight
    refine Finset.sum_bij' (fun f _ => flip f t) (fun f _ => flip f t) (fun _ _ => Finset.mem_univ _) (fun _ _ => Finset.mem_univ _)
      (fun f _ => flip_flip f t) (fun f _ => flip_flip f t) fun f _ => ?_
    unfold proj flip
    rw [Function.update_self, hχ]
    cases f t <;> cases b <;> rfl
  have hsum : norm2 χ = weight t b χ + weight t (!b) χ := by
    unfold norm2 weight
    rw [← Finset.sum_add_distrib]
    refine Finset.sum_congr rfl fun f _ => ?_
    unfold proj
    cases f t <;> cases b <;> simp
  have hw : weight t b ψ = weight t b χ * normSq (a b) := by
    unfold weight
    rw [Finset.sum_mul]
    refine Finset.sum_congr rfl fun f _ => ?_
    unfold proj
    split_ifs with hf
    · rw [hψ, hf, map_mul]
    · rw [map_zero, zero_mul]
  rw [hw, hsum, ← hflip]; ring

theorem sepZ_iff {T : Tab n} {ψ : State n} (hT : Holds T ψ) {t : ℕ} (ht : t < n) {b : Bool} (hb : isSeparableZ T t = some b) :
    b = true ↔ Definite ⟨t, ht⟩ ψ := by
  cases b
  · refine ⟨fun h => absurd h (by simp), fun ⟨v, hv⟩ => absurd ?_ (random_possible ht hb hT.2.1 hT.2.2 (!v))⟩
    funext f
    unfold proj
    split_ifs with hf
    · exact hv f (by rw [hf]; cases v <;> simp)
    · rfl
  · obtain ⟨v, hv, -⟩ := measure_determined hT.1 ht hb
    exact ⟨fun _ => ⟨v, hv ψ hT.2.1⟩, fun _ => rfl⟩

theorem sepZ_some (T : Tab n) {t : ℕ} (ht : t < n) : ∃ b, isSeparableZ T t = some b := by
  unfold isSeparableZ; rw [dif_pos ht]; exact ⟨_, rfl⟩

theorem gate_holds {T : Tab n} {ψ : State n} (hT : Holds T ψ) (scr : Row n) {g : Gate} (hg : g.Valid n) :
    ∃ T', g.run scr T = some T' ∧ Holds T' (g.U n ψ) := by
  obtain ⟨T', e, hs⟩ := gate_stabilises scr hg hT.2.1
  refine ⟨T', e, gate_inv scr hg hT.1 e, hs, ?_⟩
  rw [← norm2_ne, gate_norm hg, norm2_ne]
  exact hT.2.2

theorem sepX_spec {T : Tab n} {ψ : State n} (hT : Holds T ψ) {t : ℕ} (ht : t < n) :
    ∃ b T', isSeparableX T t = some (b, T') ∧ Holds T' ψ ∧ (b = true ↔ Definite ⟨t, ht⟩ (hGate ⟨t, ht⟩ ψ)) := by
  have hv : (Gate.h t).Valid n := ht
  obtain ⟨T1, e1, h1⟩ := gate_holds hT (idRow n) hv
  obtain ⟨b, hb⟩ := sepZ_some T1 ht
  obtain ⟨T2, e2, h2⟩ := gate_holds h1 (idRow n) hv
  simp only [Gate.U, dif_pos ht] at h1 h2
  rw [hGate_hGate] at h2
  refine ⟨b, T2, ?_, h2, sepZ_iff h1 ht hb⟩
  unfold isSeparableX
  rw [e1, Option.bind_some, hb, Option.bind_some, e2, Option.map_some]

theorem sepY_spec {T : Tab n} {ψ : State n} (hT : Holds T ψ) {t : ℕ} (ht : t < n) :
    ∃ b T', isSeparableY T t = some (b, T') ∧ Holds T' ψ ∧ (b = true ↔ Definite ⟨t, ht⟩ (hGate ⟨t, ht⟩ (isGate ⟨t, ht⟩ ψ))) := by
  have hv : (Gate.is t).Valid n := ht
  have hv' : (Gate.s t).Valid n := ht
  obtain ⟨T1, e1, h1⟩ := gate_holds hT (idRow n) hv
  simp only [Gate.U, dif_pos ht] at h1
  obtain ⟨b, T2, e2, h2, hb⟩ := sepX_spec h1 ht
  obtain ⟨T3, e3, h3⟩ := gate_holds h2 (idRow n) hv'
  simp only [Gate.U, dif_pos ht] at h3
  rw [sGate_isGate] at h3
  refine ⟨b, T3, ?_, h3, hb⟩
  unfold isSeparableY
  rw [e1, Option.bind_some, e2, Option.bind_some, e3, Option.map_some]

/-- A qubit without a definite value is as likely 0 as 1. -/
theorem indefinite_weight {T : Tab n} {ψ : State n} (hT : Holds T ψ) {t : ℕ} (ht : t < n) (hd : ¬ Definite ⟨t, ht⟩ ψ) :
    weight ⟨t, ht⟩ true ψ = weight ⟨t, ht⟩ false ψ := by
  obtain ⟨b, hb⟩ := sepZ_some T ht
  have := sepZ_iff hT ht hb
  cases b
  · exact (measure_random hT.1 ht hb hT.2.1 true true true).1
  · exact absurd (this.1 rfl) hd

/-- A qubit with a state of its own has a definite value in one of the three bases. -/
theorem factors_axis {T : Tab n} {ψ : State n} (hT : Holds T ψ) {t : ℕ} (ht : t < n) (hf : Factors ⟨t, ht⟩ ψ) :
    Definite ⟨t, ht⟩ ψ ∨ Definite ⟨t, ht⟩ (hGate ⟨t, ht⟩ ψ) ∨ Definite ⟨t, ht⟩ (hGate ⟨t, ht⟩ (isGate ⟨t, ht⟩ ψ)) := by
  by_contra hc
  push Not at hc
  obtain ⟨cz, cx, cy⟩ := hc
  have hv : (Gate.h t).Valid n := ht
  have hv' : (Gate.is t).Valid n := ht
  obtain ⟨T1, -, h1⟩ := gate_holds hT (idRow n) hv
  obtain ⟨T2, -, h2⟩ := gate_holds hT (idRow n) hv'
  obtain ⟨T3, -, h3⟩ := gate_holds h2 (idRow n) hv
  simp only [Gate.U, dif_pos ht] at h1 h2 h3
  have wz := indefinite_weight hT ht cz
  have wx := indefinite_weight h1 ht cx
  have wy := indefinite_weight h3 ht cy
  obtain ⟨χ, a, hχ, hψ⟩ := hf
  have hχ0 : norm2 χ ≠ 0 := by
    intro h0
    have hz : χ = 0 := by
      by_contra hne; exact norm2_ne.2 hne h0
    apply hT.2.2
    funext f
    rw [hψ, hz]
    simp
  have hx := factors_gate hχ hψ rt rt rt (-rt)
  have hi := factors_gate hχ hψ 1 0 0 (-I)
  have hy := factors_gate hχ (ψ := isGate ⟨t, ht⟩ ψ) (a := fun b => if b then 0 * a false + (-I) * a true else 1 * a false + 0 * a true) hi rt rt rt (-rt)
  have z1 := weight_factors hχ hψ true
  have z0 := weight_factors hχ hψ false
  have x1 := weight_factors hχ (ψ := hGate ⟨t, ht⟩ ψ) (a := fun b => if b then rt * a false + -rt * a true else rt * a false + rt * a true) hx true
  have x0 := weight_factors hχ (ψ := hGate ⟨t, ht⟩ ψ) (a := fun b => if b then rt * a false + -rt * a true else rt * a false + rt * a true) hx false
  have y1 := weight_factors hχ (ψ := hGate ⟨t, ht⟩ (isGate ⟨t, ht⟩ ψ)) (a := fun b => if b then
    rt * (1 * a false + 0 * a true) + -rt * (0 * a false + (-I) * a true) else
    rt * (1 * a false + 0 * a true) + rt * (0 * a false + (-I) * a true)) hy true
  have y0 := weight_factors hχ (ψ := hGate ⟨t, ht⟩ (isGate ⟨t, ht⟩ ψ)) (a := fun b => if b then
    rt * (1 * a false + 0 * a true) + -rt * (0 * a false + (-I) * a true) else
    rt * (1 * a false + 0 * a true) + rt * (0 * a false + (-I) * a true)) hy false
  simp only [if_true, if_false, Bool.false_eq_true] at x1 x0 y1 y0
  have hrt : normSq rt ≠ 0 := by rw [rt_normSq]; norm_num
  have ez : normSq (a true) = normSq (a false) := by
    apply mul_left_cancel₀ hχ0; rw [← z1, ← z0, wz]
  have ex : normSq (a false - a true) = normSq (a false + a true) := by
    apply mul_left_cancel₀ (mul_ne_zero hχ0 hrt)
    have e1 : normSq (rt * a false + -rt * a true) = normSq rt * normSq (a false - a true) := by rw [← map_mul]; congr 1; ring
    have e2 : normSq (rt * a false + rt * a true) = normSq rt * normSq (a false + a true) := by rw [← map_mul]; congr 1; ring
    rw [e1] at x1; rw [e2] at x0
    linear_combination -x1 + x0 + 2 * wx
  have ey : normSq (a false + I * a true) = normSq (a false - I * a true) := by
    apply mul_left_cancel₀ (mul_ne_zero hχ0 hrt)
    have e1 : normSq (rt * (1 * a false + 0 * a true) + -rt * (0 * a false + (-I) * a true)) = normSq rt * normSq (a false + I * a true) := by
      rw [← map_mul]; congr 1; ring
    have e2 : normSq (rt * (1 * a false + 0 * a true) + rt * (0 * a false + (-I) * a true)) = normSq rt * normSq (a false - I * a true) := by
      rw [← map_mul]; congr 1; ring
    rw [e1] at y1; rw [e2] at y0
    linear_combination -y1 + y0 + 2 * wy
  simp only [normSq_apply, add_re, add_im, sub_re, sub_im, mul_re, mul_im, I_re, I_im, zero_mul, one_mul, zero_sub, zero_add] at ez ex ey
  have k1 : (a false).re * (a true).re + (a false).im * (a true).im = 0 := by linarith
  have k2 : (a false).im * (a true).re - (a false).re * (a true).im = 0 := by linarith
  have k3 : ((a false).re * (a false).re + (a false).im * (a false).im) * ((a true).re * (a true).re + (a true).im * (a true).im) = 0 := by
    linear_combination ((a false).re * (a true).re + (a false).im * (a true).im) * k1 +
      ((a false).im * (a true).re - (a false).re * (a true).im) * k2
  rw [ez, mul_self_eq_zero] at k3
  have a0 : a false = 0 := by rw [← normSq_eq_zero, normSq_apply]; exact k3
  have a1 : a true = 0 := by rw [← normSq_eq_zero, normSq_apply, ez]; exact k3
  apply hT.2.2
  funext f
  rw [hψ]
  show χ f * a (f ⟨t, ht⟩) = 0
  cases f ⟨t, ht⟩
  · rw [a0, mul_zero]
  · rw [a1, mul_zero]

/-- `IsSeparable` leaves the state alone, and its answer is not 0 exactly when the qubit has a state of its own; 1, 2 and 3 name
a basis in which it has a definite value. -/
theorem isSeparable_spec {T : Tab n} {ψ : State n} (hT : Holds T ψ) {t : ℕ} (ht : t < n) :
    ∃ k T', isSeparable T t = some (k, T') ∧ Holds T' ψ ∧ k < 4 ∧ (k ≠ 0 ↔ Factors ⟨t, ht⟩ ψ) ∧
      (k = 1 ↔ Definite ⟨t, ht⟩ ψ) ∧ (k = 2 → Definite ⟨t, ht⟩ (hGate ⟨t, ht⟩ ψ)) ∧
      (k = 3 → Definite ⟨t, ht⟩ (hGate ⟨t, ht⟩ (isGate ⟨t, ht⟩ ψ))) := by
  obtain ⟨b, hb⟩ := sepZ_some T ht
  have hz := sepZ_iff hT ht hb
  unfold isSeparable
  rw [hb, Option.bind_some]
  cases b
  · obtain ⟨b, T1, e1, h1, hx⟩ := sepX_spec hT ht
    have nz : ¬ Definite ⟨t, ht⟩ ψ := fun h => absurd (hz.2 h) (by simp)
    rw [if_neg (by simp), e1, Option.bind_some]
    cases b
    · obtain ⟨b, T2, e2, h2, hy⟩ := sepY_spec h1 ht
      have nx : ¬ Definite ⟨t, ht⟩ (hGate ⟨t, ht⟩ ψ) := fun h => absurd (hx.2 h) (by simp)
      dsimp only
      rw [if_neg (by simp), e2, Option.bind_some]
      dsimp only
      cases b
      · refine ⟨0, T2, if_neg (by simp), h2, by norm_num, ⟨fun h => absurd rfl h, fun hf => ?_⟩, ⟨fun h => by simp at h, fun h => absurd h nz⟩,
          fun h => by simp at h, fun h => by simp at h⟩
        rcases factors_axis hT ht hf with h | h | h
        · exact absurd h nz
        · exact absurd h nx
        · exact absurd (hy.2 h) (by simp)
      · refine ⟨3, T2, if_pos rfl, h2, by norm_num, ⟨fun _ => ?_, fun _ => by norm_num⟩, ⟨fun h => by simp at h, fun h => absurd h nz⟩,
          fun h => by simp at h, fun _ => hy.1 rfl⟩
        have := gate_factors (gate_factors (definite_factors (hy.1 rfl)) rt rt rt (-rt)) 1 0 0 I
        have e : gate1 ⟨t, ht⟩ 1 0 0 I (gate1 ⟨t, ht⟩ rt rt rt (-rt) (hGate ⟨t, ht⟩ (isGate ⟨t, ht⟩ ψ))) = ψ := by
          show sGate ⟨t, ht⟩ (hGate ⟨t, ht⟩ (hGate ⟨t, ht⟩ (isGate ⟨t, ht⟩ ψ))) = ψ
          rw [hGate_hGate, sGate_isGate]
        rwa [e] at this
    · refine ⟨2, T1, if_pos rfl, h1, by norm_num, ⟨fun _ => ?_, fun _ => by norm_num⟩, ⟨fun h => by simp at h, fun h => absurd h nz⟩,
        fun _ => hx.1 rfl, fun h => by simp at h⟩
      have := gate_factors (definite_factors (hx.1 rfl)) rt rt rt (-rt)
      have e : gate1 ⟨t, ht⟩ rt rt rt (-rt) (hGate ⟨t, ht⟩ ψ) = ψ := hGate_hGate _ ψ
      rwa [e] at this
  · exact ⟨1, T, if_pos rfl, hT, by norm_num, ⟨fun _ => definite_factors (hz.1 rfl), fun _ => by norm_num⟩, ⟨fun _ => hz.1 rfl, fun _ => rfl⟩,
      fun h => by simp at h, fun h => by simp at h⟩

/-! ### Several qubits -/

/-- The exchange of two qubits, nothing if they are the same. -/
noncomputable def swapU (n : ℕ) (p : ℕ × ℕ) (ψ : State n) : State n := if p.1 = p.2 then ψ else (Gate.swap p.1 p.2).U n ψ

/-- The exchanges, one after the other. -/
noncomputable def swapsU (n : ℕ) : List (ℕ × ℕ) → State n → State n
  | [], ψ => ψ
  | p :: l, ψ => swapsU n l (swapU n p ψ)

theorem swap_holds {T T' : Tab n} {ψ : State n} (hT : Holds T ψ) (p : ℕ × ℕ) (e : (Gate.swap p.1 p.2).run (idRow n) T = some T') :
    Holds T' (swapU n p ψ) := by
  unfold swapU
  by_cases h : p.1 = p.2
  · simp only [Gate.run, if_pos h, Option.some.injEq] at e
    rw [if_pos h, ← e]; exact hT
  · have hv : (Gate.swap p.1 p.2).Valid n := by
      simp only [Gate.run, if_neg h] at e
      unfold run2 at e
      split_ifs at e with hb
      exact ⟨hb.1, hb.2, h⟩
    obtain ⟨T2, e2, h2⟩ := gate_holds hT (idRow n) hv
    rw [e, Option.some.injEq] at e2
    rw [if_neg h, e2]; exact h2

theorem swaps_holds {l : List (ℕ × ℕ)} {T T' : Tab n} {ψ : State n} (hT : Holds T ψ) (e : swaps l T = some T') :
    Holds T' (swapsU n l ψ) := by
  induction l generalizing T ψ with
  | nil => simp only [swaps, Option.some.injEq] at e; rw [← e]; exact hT
  | cons p l ih =>
    simp only [swaps] at e
    rw [Option.bind_eq_some_iff] at e
    obtain ⟨T1, e1, e2⟩ := e
    exact ih (swap_holds hT p e1) e2

theorem swapU_swapU (p : ℕ × ℕ) (ψ : State n) : swapU n p (swapU n p ψ) = ψ := by
  unfold swapU
  split_ifs with h
  · rfl
  · simp only [Gate.U]
    split_ifs with hb
    · funext f
      unfold swapOp
      simp only [ite_self, one_mul]
      congr 1
      funext j
      simp [Function.comp]
    · rfl

theorem swapsU_append (l l' : List (ℕ × ℕ)) (ψ : State n) : swapsU n (l ++ l') ψ = swapsU n l' (swapsU n l ψ) := by
  induction l generalizing ψ with
  | nil => rfl
  | cons p l ih => exact ih _

theorem swapsU_reverse (l : List (ℕ × ℕ)) (ψ : State n) : swapsU n l.reverse (swapsU n l ψ) = ψ := by
  induction l generalizing ψ with
  | nil => rfl
  | cons p l ih =>
    rw [List.reverse_cons, swapsU_append]
    show swapU n p (swapsU n l.reverse (swapsU n l (swapU n p ψ))) = ψ
    rw [ih, swapU_swapU]

theorem canDecompose_holds {T G : Tab n} {ψ : State n} {len : ℕ} {b : Bool} (hT : Holds T ψ)
    (h : canDecompose T start len = some (b, G)) : Holds G ψ := by
  have := canDecompose_keeps h hT.1
  exact ⟨this.1, (this.2 ψ).2 hT.2.1, hT.2.2⟩

/-- The common shape of the two functions that separate several qubits. -/
def separateWith (T : Tab n) (l : List (ℕ × ℕ)) (len : ℕ) : Option (Bool × Tab n) :=
  (swaps l T).bind fun T => (canDecompose T 0 len).bind fun s => (swaps l.reverse s.2).map fun T => (s.1, T)

theorem separateWith_spec {T T' : Tab (n + m)} {ψ : State (n + m)} {l : List (ℕ × ℕ)} {b : Bool} (hT : Holds T ψ)
    (h : separateWith T l m = some (b, T')) :
    Holds T' ψ ∧ (b = true → m ≠ 0 → ∃ (χ : State n) (φ : State m), swapsU (n + m) l ψ = joined 0 χ φ) := by
  unfold separateWith at h
  rw [Option.bind_eq_some_iff] at h
  obtain ⟨T1, e1, h⟩ := h
  rw [Option.bind_eq_some_iff] at h
  obtain ⟨⟨b', G⟩, e2, h⟩ := h
  rw [Option.map_eq_some_iff] at h
  obtain ⟨T2, e3, h⟩ := h
  rw [Prod.mk.injEq] at h
  obtain ⟨rfl, rfl⟩ := h
  have h1 := swaps_holds hT e1
  have h2 := canDecompose_holds h1 e2
  have h3 := swaps_holds h2 e3
  rw [swapsU_reverse] at h3
  refine ⟨h3, fun hb hm => ?_⟩
  dsimp only at hb
  subst hb
  obtain ⟨-, -, χ, φ, -, -, -, -, he⟩ := decompose_partial h1 e2 hm (fun _ => idRow m)
  exact ⟨χ, φ, he⟩

theorem trySeparateList_eq (T : Tab n) (qubits : List ℕ) :
    trySeparateList T qubits = separateWith T qubits.mergeSort.zipIdx qubits.length := rfl

theorem trySeparate2_eq (T : Tab n) (q1 q2 : ℕ) :
    trySeparate2 T q1 q2 = separateWith T [(min q1 q2, 0), (max q1 q2, 1)] 2 := by
  have e : (if q2 < q1 then (q2, q1) else (q1, q2)) = (min q1 q2, max q1 q2) := by
    split_ifs with h
    · rw [min_eq_right (by omega), max_eq_left (by omega)]
    · rw [min_eq_left (by omega), max_eq_right (by omega)]
  unfold trySeparate2 separateWith
  rw [e]
  simp only [swaps, List.reverse_cons, List.reverse_nil, List.nil_append, List.cons_append, Option.bind_assoc, Option.bind_some,
    Option.map_eq_bind, Function.comp_def]

/-- `TrySeparate` leaves the state alone. -/
theorem trySeparate_keeps {T T' : Tab (n + m)} {ψ : State (n + m)} (hT : Holds T ψ) {b : Bool} :
    (∀ q, trySeparate1 T q = some (b, T') → Holds T' ψ) ∧
    (∀ q1 q2, m = 2 → trySeparate2 T q1 q2 = some (b, T') → Holds T' ψ) ∧
    ∀ qubits, qubits.length = m → trySeparateList T qubits = some (b, T') → Holds T' ψ := by
  refine ⟨fun q h => canDecompose_holds hT h, fun q1 q2 hm h => ?_, fun qubits hm h => ?_⟩
  · subst hm
    rw [trySeparate2_eq] at h
    exact (separateWith_spec hT h).1
  · subst hm
    rw [trySeparateList_eq] at h
    exact (separateWith_spec hT h).1

/-- When `TrySeparate` says yes, the named qubits, moved to the front, are a factor of the state. -/
theorem trySeparate_product {T T' : Tab (n + m)} {ψ : State (n + m)} (hT : Holds T ψ) :
    (∀ q, m = 1 → trySeparate1 T q = some (true, T') → ∃ (χ : State n) (φ : State m), ψ = joined q χ φ) ∧
    (∀ q1 q2, m = 2 → trySeparate2 T q1 q2 = some (true, T') →
      ∃ (χ : State n) (φ : State m), swapsU (n + m) [(min q1 q2, 0), (max q1 q2, 1)] ψ = joined 0 χ φ) ∧
    ∀ qubits, qubits.length = m → m ≠ 0 → trySeparateList T qubits = some (true, T') →
      ∃ (χ : State n) (φ : State m), swapsU (n + m) qubits.mergeSort.zipIdx ψ = joined 0 χ φ := by
  refine ⟨fun q hm h => ?_, fun q1 q2 hm h => ?_, fun qubits hm h0 h => ?_⟩
  · subst hm
    obtain ⟨-, -, χ, φ, -, -, -, -, he⟩ := decompose_partial hT h one_ne_zero (fun _ => idRow 1)
    exact ⟨χ, φ, he⟩
  · subst hm
    rw [trySeparate2_eq] at h
    exact (separateWith_spec hT h).2 rfl two_ne_zero
  · subst hm
    rw [trySeparateList_eq] at h
    exact (separateWith_spec hT h).2 rfl h0

/-! ### Where it fails -/

/-- The tableaux of `|+⟩`, `H(0)` on `|0⟩`, and of `|1⟩`. -/
def plusTab : Tab 1 := parFor (setPermutation 1 (idRow 1) 0) (rowH 0)
def oneTab : Tab 1 := setPermutation 1 (idRow 1) 1

theorem plus_holds : Reaches plusTab (hGate 0 (ket (bitsOf 1 0))) := by
  have := Reaches.gate (idRow 1) (Reaches.start (idRow 1) 0) (g := Gate.h 0) (by decide : (0 : ℕ) < 1) (T' := plusTab) rfl
  simpa [Gate.U] using this

theorem one_holds : Reaches oneTab (ket (bitsOf 1 1)) := Reaches.start (idRow 1) 1

/-- `|1⟩` on qubit 0 and `|+⟩` on qubit 1, put together by `Compose`, are a product state; `CanDecomposeDispose` says they can not
be separated. -/
theorem canDecompose_misses : ∃ R, compose plusTab oneTab 0 = some (0, R) ∧
    Holds R (joined 0 (hGate 0 (ket (bitsOf 1 0))) (ket (bitsOf 1 1))) ∧ (canDecompose R 0 1).map Prod.fst = some false ∧
    (trySeparate1 R 0).map Prod.fst = some false ∧ (isSeparable R 0).map Prod.fst = some 1 := by
  obtain ⟨R, hR, hH⟩ := compose_spec (start := 0) (reaches_holds plus_holds) (reaches_holds one_holds) (by norm_num)
  have key : ((compose plusTab oneTab 0).bind fun s => (canDecompose s.2 0 1).map Prod.fst) = some false ∧
      ((compose plusTab oneTab 0).bind fun s => (isSeparable s.2 0).map Prod.fst) = some 1 := by decide
  rw [hR] at key
  exact ⟨R, hR, hH, key.1, key.1, key.2⟩

/-- Taken apart again, qubit 0, which read 1 for certain, is handed over as a qubit that reads 0 for certain, and what is left, which
was as likely 0 as 1, reads 0 for certain. `probT` is twice the probability of 1. -/
theorem decompose_wrong (rnd : Bool) : ∃ R A B, compose plusTab oneTab 0 = some (0, R) ∧
    decompose R 0 (setPermutation 1 (idRow 1) 0) = some (A, B) ∧
    (probT oneTab 0 rnd).map Prod.fst = some 2 ∧ (probT R 0 rnd).map Prod.fst = some 2 ∧ (probT B 0 rnd).map Prod.fst = some 0 ∧
    (probT plusTab 0 rnd).map Prod.fst = some 1 ∧ (probT R 1 rnd).map Prod.fst = some 1 ∧ (probT A 0 rnd).map Prod.fst = some 0 := by
  have key : ((compose plusTab oneTab 0).bind fun s => (decompose (n := 1) (m := 1) s.2 0 (setPermutation 1 (idRow 1) 0)).map fun d =>
      [(probT oneTab 0 rnd).map Prod.fst, (probT s.2 0 rnd).map Prod.fst, (probT d.2 0 rnd).map Prod.fst,
        (probT plusTab 0 rnd).map Prod.fst, (probT s.2 1 rnd).map Prod.fst, (probT d.1 0 rnd).map Prod.fst]) =
      some [some 2, some 2, some 0, some 1, some 1, some 0] := by cases rnd <;> decide
  obtain ⟨R, hR, -⟩ := compose_spec (start := 0) (reaches_holds plus_holds) (reaches_holds one_holds) (by norm_num)
  have h := key
  rw [hR, Option.bind_some, Option.map_eq_some_iff] at h
  obtain ⟨⟨A, B⟩, hd, h⟩ := h
  simp only [List.cons.injEq, and_true] at h
  obtain ⟨h1, h2, h3, h4, h5, h6⟩ := h
  exact ⟨R, A, B, hR, hd, h1, h2, h3, h4, h5, h6⟩

/-- The hypotheses are met: `|1⟩` put behind `|+⟩`, and a Bell pair put before `|1⟩`, can be separated again; a Bell pair can not, and no
qubit of it has a state of its own; the answers of `IsSeparable` for `|+⟩`, `S|+⟩` and `|1⟩`. -/
example : ((compose plusTab oneTab 1).bind fun s => (canDecompose s.2 1 1).map Prod.fst) = some true ∧
    ((compose oneTab (parFor (parFor (setPermutation 2 (idRow 2) 0) (rowH 0)) (rowCNOT 0 1)) 0).bind fun s =>
      (trySeparate2 s.2 1 0).map Prod.fst) = some true ∧
    (canDecompose (parFor (parFor (setPermutation 2 (idRow 2) 0) (rowH 0)) (rowCNOT 0 1)) 0 1).map Prod.fst = some false ∧
    (isSeparable (parFor (parFor (setPermutation 2 (idRow 2) 0) (rowH 0)) (rowCNOT 0 1)) 1).map Prod.fst = some 0 ∧
    (isSeparable plusTab 0).map Prod.fst = some 2 ∧ (isSeparable (parFor plusTab (rowS 0)) 0).map Prod.fst = some 3 ∧
    (isSeparable oneTab 0).map Prod.fst = some 1 := by
  refine ⟨by decide, by decide, by decide, by decide, by decide, by decide, by decide⟩

end Verif.Stab
