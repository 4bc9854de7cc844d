import Verif.Props.QCircuit
import Mathlib.Data.Fintype.Pi
import Mathlib.Data.Fintype.Card
import Mathlib.Algebra.BigOperators.Group.Finset.Basic
import Mathlib.Algebra.BigOperators.Ring.Finset
import Mathlib.Algebra.BigOperators.Group.Finset.Sigma

/-!
# C33: the past light cone decides the statistics of the selected qubits

For every circuit of unitary gates and swaps, every set of qubits and every state: the joint probabilities of the selected qubits
after running the whole circuit and after running only the past light cone are the same. The proof follows the reduced density
matrix of the light cone backwards through the circuit.
-/

namespace Verif.QCirc

open Verif.Matrix2 Verif.Spec.Circuit

variable {Q : Type} [LinearOrder Q] [Fintype Q]

/-- The probability that the qubits of `S` have the values `x`, up to normalisation. -/
noncomputable def probOf (S : Finset Q) (φ : St Q) (x : Q → Bool) : ℝ :=
  ∑ b : Q → Bool, if ∀ q ∈ S, b q = x q then Complex.normSq (φ b) else 0

/-- The values of `x` on `S` and of `z` elsewhere. -/
def mix (S : Finset Q) (x z : Q → Bool) : Q → Bool := fun q => if q ∈ S then x q else z q

/-- The reduced density matrix on `S` (each entry counted once for every assignment of `S`). -/
noncomputable def rho (S : Finset Q) (φ : St Q) (x y : Q → Bool) : ℂ :=
  ∑ z : Q → Bool, φ (mix S x z) * (starRingEnd ℂ) (φ (mix S y z))

theorem mix_update_out {S : Finset Q} {t : Q} (h : t ∉ S) (x z : Q → Bool) (v : Bool) :
    mix S x (Function.update z t v) = Function.update (mix S x z) t v := by
  funext q
  unfold mix
  by_cases hq : q = t
  · subst hq; simp [h]
  · simp [hq]

theorem mix_update_in {S : Finset Q} {t : Q} (h : t ∈ S) (x z : Q → Bool) (v : Bool) :
    Function.update (mix S x z) t v = mix S (Function.update x t v) z := by
  funext q
  unfold mix
  by_cases hq : q = t
  · subst hq; simp [h]
  · simp [hq]

/-- Flipping one bit of every assignment. -/
def flipEquiv (t : Q) : (Q → Bool) ≃ (Q → Bool) where
  toFun z := Function.update z t (!z t)
  invFun z := Function.update z t (!z t)
  left_inv z := by simp
  right_inv z := by simp

theorem sum_pairs (f g : (Q → Bool) → ℂ) (t : Q)
    (h : ∀ z, f z + f (Function.update z t (!z t)) = g z + g (Function.update z t (!z t))) : ∑ z, f z = ∑ z, g z := by
  have hf : ∀ f : (Q → Bool) → ℂ, 2 * ∑ z, f z = ∑ z, (f z + f (Function.update z t (!z t))) := by
    intro f
    rw [Finset.sum_add_distrib, two_mul]
    congr 1
    exact (Equiv.sum_comp (flipEquiv t) f).symm
  have : 2 * ∑ z, f z = 2 * ∑ z, g z := by
    rw [hf, hf]; exact Finset.sum_congr rfl (fun z _ => h z)
  exact mul_left_cancel₀ two_ne_zero this

/-! ### A gate outside the set -/

theorem rho_act_out {g : Gate Q} (hg : g.Wf) {S : Finset Q} (h1 : g.target ∉ S) (h2 : ∀ c ∈ g.controls, c ∉ S) (φ : St Q)
    (x y : Q → Bool) : rho S (g.act φ) x y = rho S φ x y := by
  unfold rho
  apply sum_pairs _ _ g.target
  intro z
  have hkey : ∀ x z, key g.controls (mix S x z) = key g.controls z := by
    intro x z
    apply key_congr
    intro c hc
    unfold mix; rw [if_neg (h2 c hc)]
  have hkz : ∀ v, key g.controls (Function.update z g.target v) = key g.controls z := key_update hg.notMem z
  have ht : ∀ x z, mix S x z g.target = z g.target := by
    intro x z; unfold mix; rw [if_neg h1]
  cases hm : g.payloads.get (key g.controls z) with
  | none =>
    rw [act_none (by rw [hkey, hm]), act_none (by rw [hkey, hm]), act_none (by rw [hkey, hkz, hm]),
      act_none (by rw [hkey, hkz, hm])]
  | some m =>
    rw [act_some (by rw [hkey, hm]), act_some (by rw [hkey, hm]), act_some (by rw [hkey, hkz, hm]),
      act_some (by rw [hkey, hkz, hm])]
    obtain ⟨u1, u2, u3, _, _, _⟩ := (hg.entries _ _ hm).2
    have u3' := congrArg (starRingEnd ℂ) u3
    simp only [map_add, map_mul, Complex.conj_conj, map_zero] at u3'
    simp only [onQubit, ht, mix_update_out h1, Function.update_idem, Function.update_self]
    generalize hx : mix S x z = X
    generalize hy : mix S y z = Y
    have hX : X g.target = z g.target := by rw [← hx, ht]
    have hY : Y g.target = z g.target := by rw [← hy, ht]
    cases hz : z g.target
    · have eX : X = Function.update X g.target false := by rw [← hz, ← hX, Function.update_eq_self]
      have eY : Y = Function.update Y g.target false := by rw [← hz, ← hY, Function.update_eq_self]
      simp only [Bool.false_eq_true, if_false, Bool.not_false, if_true, map_add, map_mul]
      rw [show φ X = φ (Function.update X g.target false) from congrArg φ eX,
        show φ Y = φ (Function.update Y g.target false) from congrArg φ eY]
      generalize φ (Function.update X g.target false) = a0
      generalize φ (Function.update X g.target true) = a1
      generalize φ (Function.update Y g.target false) = b0
      generalize φ (Function.update Y g.target true) = b1
      linear_combination a0 * (starRingEnd ℂ) b0 * u1 + a1 * (starRingEnd ℂ) b1 * u2 +
        a1 * (starRingEnd ℂ) b0 * u3 + a0 * (starRingEnd ℂ) b1 * u3'
    · have eX : X = Function.update X g.target true := by rw [← hz, ← hX, Function.update_eq_self]
      have eY : Y = Function.update Y g.target true := by rw [← hz, ← hY, Function.update_eq_self]
      simp only [Bool.false_eq_true, if_false, Bool.not_true, if_true, map_add, map_mul]
      rw [show φ X = φ (Function.update X g.target true) from congrArg φ eX,
        show φ Y = φ (Function.update Y g.target true) from congrArg φ eY]
      generalize φ (Function.update X g.target false) = a0
      generalize φ (Function.update X g.target true) = a1
      generalize φ (Function.update Y g.target false) = b0
      generalize φ (Function.update Y g.target true) = b1
      linear_combination a0 * (starRingEnd ℂ) b0 * u1 + a1 * (starRingEnd ℂ) b1 * u2 +
        a1 * (starRingEnd ℂ) b0 * u3 + a0 * (starRingEnd ℂ) b1 * u3'

/-- The assignment with two qubits exchanged. -/
def exch (p q : Q) (b : Q → Bool) : Q → Bool := fun r => if r = p then b q else if r = q then b p else b r

theorem exch_exch (p q : Q) (b : Q → Bool) : exch p q (exch p q b) = b := by
  funext r
  unfold exch
  by_cases h1 : r = p
  · subst h1
    by_cases h2 : q = r <;> simp [h2]
  · by_cases h2 : r = q
    · subst h2; simp [h1]
    · simp [h1, h2]

def exchEquiv (p q : Q) : (Q → Bool) ≃ (Q → Bool) where
  toFun := exch p q
  invFun := exch p q
  left_inv := exch_exch p q
  right_inv := exch_exch p q

theorem rho_swap_out {S : Finset Q} {p q : Q} (hp : p ∉ S) (hq : q ∉ S) (φ : St Q) (x y : Q → Bool) :
    rho S (swap p q φ) x y = rho S φ x y := by
  unfold rho
  have h : ∀ x z, exch p q (mix S x z) = mix S x (exch p q z) := by
    intro x z
    funext r
    unfold exch mix
    by_cases h1 : r = p
    · subst h1; simp [hp, hq]
    · by_cases h2 : r = q
      · subst h2; simp [hp, hq]
      · simp [h1, h2]
  rw [← Equiv.sum_comp (exchEquiv p q)]
  apply Finset.sum_congr rfl
  intro z _
  show φ (exch p q (mix S x (exch p q z))) * (starRingEnd ℂ) (φ (exch p q (mix S y (exch p q z)))) = _
  rw [h, h, exch_exch]

/-! ### A gate inside the set -/

theorem rho_act_in {g : Gate Q} {S : Finset Q} (h1 : g.target ∈ S) (h2 : ∀ c ∈ g.controls, c ∈ S) {φ φ' : St Q}
    (h : ∀ x y, rho S φ x y = rho S φ' x y) (x y : Q → Bool) : rho S (g.act φ) x y = rho S (g.act φ') x y := by
  -- the new entry is a combination of old entries with coefficients that do not depend on the state
  have hkey : ∀ x z, key g.controls (mix S x z) = key g.controls x := by
    intro x z
    apply key_congr
    intro c hc
    unfold mix; rw [if_pos (h2 c hc)]
  have ht : ∀ x z, mix S x z g.target = x g.target := by
    intro x z; unfold mix; rw [if_pos h1]
  have hrow : ∀ x : Q → Bool, ∃ u v : ℂ, ∀ (φ : St Q) z, g.act φ (mix S x z) =
      u * φ (mix S (Function.update x g.target false) z) + v * φ (mix S (Function.update x g.target true) z) := by
    intro x
    cases hm : g.payloads.get (key g.controls x) with
    | none =>
      cases hx : x g.target
      · refine ⟨1, 0, fun φ z => ?_⟩
        rw [act_none (by rw [hkey, hm]), ← hx, Function.update_eq_self]; ring
      · refine ⟨0, 1, fun φ z => ?_⟩
        rw [act_none (by rw [hkey, hm]), ← hx, Function.update_eq_self]; ring
    | some m =>
      refine ⟨if x g.target then m.m2 else m.m0, if x g.target then m.m3 else m.m1, fun φ z => ?_⟩
      rw [act_some (by rw [hkey, hm])]
      simp only [onQubit, ht, mix_update_in h1]
      cases x g.target <;> simp
  obtain ⟨u, v, hx⟩ := hrow x
  obtain ⟨u', v', hy⟩ := hrow y
  have hexp : ∀ φ : St Q, rho S (g.act φ) x y =
      u * (starRingEnd ℂ) u' * rho S φ (Function.update x g.target false) (Function.update y g.target false) +
      u * (starRingEnd ℂ) v' * rho S φ (Function.update x g.target false) (Function.update y g.target true) +
      v * (starRingEnd ℂ) u' * rho S φ (Function.update x g.target true) (Function.update y g.target false) +
      v * (starRingEnd ℂ) v' * rho S φ (Function.update x g.target true) (Function.update y g.target true) := by
    intro φ
    unfold rho
    simp only [Finset.mul_sum, ← Finset.sum_add_distrib]
    apply Finset.sum_congr rfl
    intro z _
    rw [hx, hy, map_add, map_mul, map_mul]; ring
  rw [hexp, hexp, h, h, h, h]

theorem rho_swap_in {S : Finset Q} {p q : Q} (hp : p ∈ S) (hq : q ∈ S) {φ φ' : St Q}
    (h : ∀ x y, rho S φ x y = rho S φ' x y) (x y : Q → Bool) : rho S (swap p q φ) x y = rho S (swap p q φ') x y := by
  have he : ∀ x z, exch p q (mix S x z) = mix S (exch p q x) z := by
    intro x z
    funext r
    unfold exch mix
    by_cases h1 : r = p
    · subst h1; simp [hp, hq]
    · by_cases h2 : r = q
      · subst h2; simp [hp, hq]
      · simp [h1, h2]
  have hr : ∀ φ : St Q, rho S (swap p q φ) x y = rho S φ (exch p q x) (exch p q y) := by
    intro φ
    unfold rho
    apply Finset.sum_congr rfl
    intro z _
    rw [← he, ← he]; rfl
  rw [hr, hr, h]

/-! ### Larger and smaller sets -/

theorem sum_mix (S : Finset Q) (F : (Q → Bool) → ℂ) :
    ∑ w : Q → Bool, ∑ z : Q → Bool, F (mix S w z) = (Fintype.card (Q → Bool) : ℂ) * ∑ u, F u := by
  let e : (Q → Bool) × (Q → Bool) ≃ (Q → Bool) × (Q → Bool) :=
    { toFun := fun p => (mix S p.1 p.2, mix S p.2 p.1)
      invFun := fun p => (mix S p.1 p.2, mix S p.2 p.1)
      left_inv := by
        rintro ⟨w, z⟩
        simp only [Prod.mk.injEq]
        constructor <;> (funext q; unfold mix; by_cases h : q ∈ S <;> simp [h])
      right_inv := by
        rintro ⟨w, z⟩
        simp only [Prod.mk.injEq]
        constructor <;> (funext q; unfold mix; by_cases h : q ∈ S <;> simp [h]) }
  rw [← Fintype.sum_prod_type' (f := fun w z => F (mix S w z))]
  rw [show (∑ p : (Q → Bool) × (Q → Bool), F (mix S p.1 p.2)) = ∑ p : (Q → Bool) × (Q → Bool), F (e p).1 from rfl]
  rw [Equiv.sum_comp e (fun p => F p.1), Fintype.sum_prod_type]
  rw [Finset.mul_sum]
  apply Finset.sum_congr rfl
  intro w _
  simp [Finset.sum_const, Finset.card_univ]

theorem card_ne : (Fintype.card (Q → Bool) : ℂ) ≠ 0 := by
  rw [Nat.cast_ne_zero]; exact Fintype.card_ne_zero

/-- The reduced density matrix of a larger set decides that of a smaller one. -/
theorem rho_mono {S S' : Finset Q} (hs : S ⊆ S') {φ φ' : St Q} (h : ∀ x y, rho S' φ x y = rho S' φ' x y) (x y : Q → Bool) :
    rho S φ x y = rho S φ' x y := by
  have hexp : ∀ φ : St Q, (Fintype.card (Q → Bool) : ℂ) * rho S φ x y = ∑ w, rho S' φ (mix S x w) (mix S y w) := by
    intro φ
    unfold rho
    rw [← sum_mix S' (fun u => φ (mix S x u) * (starRingEnd ℂ) (φ (mix S y u)))]
    apply Finset.sum_congr rfl
    intro w _
    apply Finset.sum_congr rfl
    intro z _
    have hm : ∀ x, mix S x (mix S' w z) = mix S' (mix S x w) z := by
      intro x
      funext q
      unfold mix
      by_cases h1 : q ∈ S
      · simp [h1, hs h1]
      · simp [h1]
    rw [hm, hm]
  apply mul_left_cancel₀ (card_ne (Q := Q))
  rw [hexp, hexp]
  exact Finset.sum_congr rfl (fun w _ => h _ _)

/-- The reduced density matrix decides the probabilities. -/
theorem probOf_of_rho {S : Finset Q} {φ φ' : St Q} (h : ∀ x y, rho S φ x y = rho S φ' x y) (x : Q → Bool) :
    probOf S φ x = probOf S φ' x := by
  have hexp : ∀ φ : St Q, (Fintype.card (Q → Bool) : ℂ) * (probOf S φ x : ℂ) =
      (∑ w : Q → Bool, if ∀ q ∈ S, w q = x q then (1 : ℂ) else 0) * rho S φ x x := by
    intro φ
    have : (probOf S φ x : ℂ) = ∑ b : Q → Bool, if ∀ q ∈ S, b q = x q then φ b * (starRingEnd ℂ) (φ b) else 0 := by
      unfold probOf
      push_cast
      apply Finset.sum_congr rfl
      intro b _
      by_cases hb : ∀ q ∈ S, b q = x q
      · rw [if_pos hb, if_pos hb, Complex.mul_conj]
      · rw [if_neg hb, if_neg hb]; rfl
    rw [this, ← sum_mix S]
    unfold rho
    rw [Finset.sum_mul]
    apply Finset.sum_congr rfl
    intro w _
    rw [Finset.mul_sum]
    apply Finset.sum_congr rfl
    intro z _
    have hiff : (∀ q ∈ S, mix S w z q = x q) ↔ ∀ q ∈ S, w q = x q := by
      constructor
      · intro h q hq; have := h q hq; unfold mix at this; rwa [if_pos hq] at this
      · intro h q hq; unfold mix; rw [if_pos hq]; exact h q hq
    by_cases hw : ∀ q ∈ S, w q = x q
    · have hm : mix S w z = mix S x z := by
        funext q
        unfold mix
        by_cases hq : q ∈ S
        · rw [if_pos hq, if_pos hq, hw q hq]
        · rw [if_neg hq, if_neg hq]
      rw [if_pos (hiff.2 hw), if_pos hw, one_mul, hm]
    · rw [if_neg (fun h0 => hw (hiff.1 h0)), if_neg hw, zero_mul]
  have : (probOf S φ x : ℂ) = (probOf S φ' x : ℂ) := by
    apply mul_left_cancel₀ (card_ne (Q := Q))
    rw [hexp, hexp, h]
  exact_mod_cast this

/-! ### The light cone -/

/-- All gates, by what `Run` is meant to do for them. -/
def runAll (gs : List (Gate Q)) (ψ : St Q) : St Q := gs.foldl (fun φ g => g.meaning φ) ψ

theorem meaning_out {g : Gate Q} (hg : g.Good) {S : Finset Q} (h1 : g.target ∉ S) (h2 : ∀ c ∈ g.controls, c ∉ S) (φ : St Q)
    (x y : Q → Bool) : rho S (g.meaning φ) x y = rho S φ x y := by
  rcases hg with hg | ⟨p, q, _, rfl⟩
  · rw [meaning_wf hg]; exact rho_act_out hg h1 h2 φ x y
  · exact rho_swap_out (h2 q (by simp [swapGate])) h1 φ x y

theorem meaning_in {g : Gate Q} (hg : g.Good) {S : Finset Q} (h1 : g.target ∈ S) (h2 : ∀ c ∈ g.controls, c ∈ S) {φ φ' : St Q}
    (h : ∀ x y, rho S φ x y = rho S φ' x y) (x y : Q → Bool) : rho S (g.meaning φ) x y = rho S (g.meaning φ') x y := by
  rcases hg with hg | ⟨p, q, _, rfl⟩
  · rw [meaning_wf hg]; exact rho_act_in h1 h2 h x y
  · exact rho_swap_in (h2 q (by simp [swapGate])) h1 h x y

theorem lightConeLoop_acc (rev : List (Gate Q)) (S : Finset Q) (acc : List (Gate Q)) :
    lightConeLoop rev S acc = lightConeLoop rev S [] ++ acc := by
  induction rev generalizing S acc with
  | nil => rfl
  | cons g rev ih =>
    rw [lightConeLoop, lightConeLoop]
    by_cases h : g.target ∉ S ∧ (g.controls.all fun c => decide (c ∉ S)) = true
    · rw [if_pos h, if_pos h, ih]
    · rw [if_neg h, if_neg h, ih, ih _ [g]]; simp

theorem lightCone_subset (rev : List (Gate Q)) (S : Finset Q) : ∀ g ∈ lightConeLoop rev S [], g ∈ rev := by
  induction rev generalizing S with
  | nil => simp [lightConeLoop]
  | cons g rev ih =>
    intro x hx
    rw [lightConeLoop] at hx
    by_cases h : g.target ∉ S ∧ (g.controls.all fun c => decide (c ∉ S)) = true
    · rw [if_pos h] at hx
      exact List.mem_cons_of_mem _ (ih S x hx)
    · rw [if_neg h, lightConeLoop_acc, List.mem_append, List.mem_singleton] at hx
      rcases hx with hx | rfl
      · exact List.mem_cons_of_mem _ (ih _ x hx)
      · simp

theorem rho_lightCone (rev : List (Gate Q)) (hrev : ∀ g ∈ rev, g.Good) (S : Finset Q) (ψ : St Q) (x y : Q → Bool) :
    rho S (runAll rev.reverse ψ) x y = rho S (runAll (lightConeLoop rev S []) ψ) x y := by
  induction rev generalizing S x y with
  | nil => rfl
  | cons g rev ih =>
    have hg := hrev g (by simp)
    have hr : ∀ g ∈ rev, g.Good := fun x hx => hrev x (List.mem_cons_of_mem _ hx)
    have hrun : runAll (g :: rev).reverse ψ = g.meaning (runAll rev.reverse ψ) := by
      unfold runAll; rw [List.reverse_cons, List.foldl_append]; rfl
    rw [hrun, lightConeLoop]
    by_cases h : g.target ∉ S ∧ (g.controls.all fun c => decide (c ∉ S)) = true
    · rw [if_pos h, meaning_out hg h.1 (by
        intro c hc
        have := List.all_eq_true.1 h.2 c hc
        simpa using this)]
      exact ih hr S x y
    · rw [if_neg h, lightConeLoop_acc]
      have hrun' : runAll (lightConeLoop rev (insert g.target S ∪ g.controls.toFinset) [] ++ [g]) ψ =
          g.meaning (runAll (lightConeLoop rev (insert g.target S ∪ g.controls.toFinset) []) ψ) := by
        unfold runAll; rw [List.foldl_append]; rfl
      rw [hrun']
      refine rho_mono (S' := insert g.target S ∪ g.controls.toFinset) ?_ ?_ x y
      · intro q hq; simp [hq]
      · refine meaning_in hg (by simp) (fun c hc => by simp [hc]) ?_
        exact fun x y => ih hr _ x y

/-- **C33.** The joint probabilities of the selected qubits after the calls for the whole circuit and after the calls for its past
light cone are the same, whatever the state before. -/
theorem pastLightCone_prob (gs : List (Gate Q)) (hgs : ∀ g ∈ gs, g.Good) (S : Finset Q) :
    ∃ ops cone, runOps gs = some ops ∧ runOps (pastLightCone gs S) = some cone ∧
      ∀ ψ x, probOf S (opsAct cone ψ) x = probOf S (opsAct ops ψ) x := by
  have hc : ∀ g ∈ pastLightCone gs S, g.Good := fun g hg => hgs g (by
    have := lightCone_subset gs.reverse S g hg
    simpa using this)
  obtain ⟨ops, e1, e2, _⟩ := runOps_meaning gs hgs
  obtain ⟨cone, f1, f2, _⟩ := runOps_meaning (pastLightCone gs S) hc
  refine ⟨ops, cone, e1, f1, fun ψ x => ?_⟩
  rw [e2, f2]
  apply probOf_of_rho
  intro x y
  have := rho_lightCone gs.reverse (fun g hg => hgs g (by simpa using hg)) S ψ x y
  rw [List.reverse_reverse] at this
  exact this.symm

/-- A circuit on three qubits in which the last gate is outside the light cone of qubit 0. -/
example : (∀ g ∈ [Gate.mk (1 : Fin 3) [] [(0, xM)], Gate.mk 0 [1] [(1, xM)], Gate.mk 2 [1] [(1, xM)]], Gate.Good g) ∧
    pastLightCone [Gate.mk (1 : Fin 3) [] [(0, xM)], Gate.mk 0 [1] [(1, xM)], Gate.mk 2 [1] [(1, xM)]] {0} =
      [Gate.mk (1 : Fin 3) [] [(0, xM)], Gate.mk 0 [1] [(1, xM)]] := by
  constructor
  · intro g hg
    simp only [List.mem_cons, List.not_mem_nil, or_false] at hg
    rcases hg with rfl | rfl | rfl <;>
      exact Or.inl (single_wf (by simp) (by simp) (by simp) (by simp [Unitary, xM]))
  · simp [pastLightCone, lightConeLoop]

end Verif.QCirc
