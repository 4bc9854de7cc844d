import Verif.Lemmas.UnitCliffordSum
import Verif.Props.StabClifford

/-!
The two-qubit gates of `QUnitClifford`.
-/

namespace Verif.Units

open Verif.Stab Verif.Pauli
open Complex (I)

variable {n : ℕ}

theorem rep_smul {Q : QUC n} {Ψ : State n} (h : Rep Q Ψ) {c : ℂ} (hc : c ≠ 0) : Rep Q (fun f => c * Ψ f) := by
  obtain ⟨hQ, k, F, hk, hF, hΨ⟩ := h
  exact ⟨hQ, c * k, F, mul_ne_zero hc hk, hF, fun b => by show c * Ψ b = _; rw [hΨ]; ring⟩

/-! ### Gates -/

theorem h_h (t : Fin n) (ψ : State n) : hGate t (hGate t ψ) = ψ := by
  funext f
  have e := rt_mul
  cases hf : f t
  · have h0 : Function.update f t false = f := by rw [← hf]; exact Function.update_eq_self t f
    simp only [hGate, gate1, hf, Function.update_self, Function.update_idem, h0]
    simp only [Bool.false_eq_true, if_false, if_true]
    linear_combination 2 * ψ f * e
  · have h0 : Function.update f t true = f := by rw [← hf]; exact Function.update_eq_self t f
    simp only [hGate, gate1, hf, Function.update_self, Function.update_idem, h0]
    simp only [Bool.false_eq_true, if_false, if_true]
    linear_combination 2 * ψ f * e

theorem h_cz_h (v : Bool) {c t : Fin n} (hct : c ≠ t) (ψ : State n) :
    hGate t (ctrl v c (zGate t) (hGate t ψ)) = ctrl v c (xGate t) ψ := by
  funext f
  have e := rt_mul
  by_cases hc : f c = v
  · cases hf : f t
    · have h0 : Function.update f t false = f := by rw [← hf]; exact Function.update_eq_self t f
      simp only [ctrl, hGate, xGate, zGate, gate1, hf, Function.update_self, Function.update_idem, h0, Function.update_of_ne hct, hc]
      simp only [Bool.false_eq_true, if_false, if_true, Function.update_self, Function.update_idem, h0, hf]
      linear_combination 2 * ψ (Function.update f t true) * e
    · have h0 : Function.update f t true = f := by rw [← hf]; exact Function.update_eq_self t f
      simp only [ctrl, hGate, xGate, zGate, gate1, hf, Function.update_self, Function.update_idem, h0, Function.update_of_ne hct, hc]
      simp only [Bool.false_eq_true, if_false, if_true, Function.update_self, Function.update_idem, h0, hf]
      linear_combination 2 * ψ (Function.update f t false) * e
  · cases hf : f t
    · have h0 : Function.update f t false = f := by rw [← hf]; exact Function.update_eq_self t f
      simp only [ctrl, hGate, xGate, zGate, gate1, hf, Function.update_self, Function.update_idem, h0, Function.update_of_ne hct, hc]
      simp only [Bool.false_eq_true, if_false, if_true, Function.update_self, Function.update_idem, h0, hf]
      linear_combination 2 * ψ f * e
    · have h0 : Function.update f t true = f := by rw [← hf]; exact Function.update_eq_self t f
      simp only [ctrl, hGate, xGate, zGate, gate1, hf, Function.update_self, Function.update_idem, h0, Function.update_of_ne hct, hc]
      simp only [Bool.false_eq_true, if_false, if_true, Function.update_self, Function.update_idem, h0, hf]
      linear_combination 2 * ψ f * e

theorem gate1_zero {c t : Fin n} (hct : c ≠ t) {ψ : State n} {v : Bool} (h : ∀ f, f c = v → ψ f = 0) (a b d e : ℂ) :
    ∀ f, f c = v → gate1 t a b d e ψ f = 0 := by
  intro f hf
  unfold gate1
  rw [h _ (by rw [Function.update_of_ne hct, hf]), h _ (by rw [Function.update_of_ne hct, hf])]
  simp

/-- A control that certainly has the active value. -/
theorem ctrl_on {c t : Fin n} (hct : c ≠ t) {ψ : State n} {v : Bool} (h : ∀ f, f c = (!v) → ψ f = 0) (a b d e : ℂ) :
    ctrl v c (gate1 t a b d e) ψ = gate1 t a b d e ψ := by
  funext f
  unfold ctrl
  split_ifs with hf
  · rfl
  · have : f c = !v := by cases hfc : f c <;> cases v <;> simp_all
    rw [h f this, gate1_zero hct h a b d e f this]

/-- A control that certainly has the other value. -/
theorem ctrl_off {c t : Fin n} (hct : c ≠ t) {ψ : State n} {v : Bool} (h : ∀ f, f c = v → ψ f = 0) (a b d e : ℂ) :
    ctrl v c (gate1 t a b d e) ψ = ψ := by
  funext f
  unfold ctrl
  split_ifs with hf
  · rw [h f hf, gate1_zero hct h a b d e f hf]
  · rfl

/-- A controlled `Z` whose target is certainly 1. -/
theorem cz_one (v : Bool) {c t : Fin n} {ψ : State n} (h : ∀ f, f t = false → ψ f = 0) :
    ctrl v c (zGate t) ψ = fun f => (if v then 1 else -1) * zGate c ψ f := by
  funext f
  cases hf : f t
  · have h0 := h f hf
    have ht : Function.update f t false = f := by rw [← hf]; exact Function.update_eq_self t f
    have hz : zGate c ψ f = 0 := by
      unfold zGate gate1
      cases hc : f c
      · have hc' : Function.update f c false = f := by rw [← hc]; exact Function.update_eq_self c f
        rw [hc', h0]; simp
      · have hc' : Function.update f c true = f := by rw [← hc]; exact Function.update_eq_self c f
        rw [hc', h0]; simp
    rw [hz, mul_zero]
    unfold ctrl zGate gate1
    rw [ht, h0, hf]
    simp
  · have ht : Function.update f t true = f := by rw [← hf]; exact Function.update_eq_self t f
    unfold ctrl zGate gate1
    rw [ht, hf]
    cases hc : f c
    · have hc' : Function.update f c false = f := by rw [← hc]; exact Function.update_eq_self c f
      rw [hc']
      cases v <;> simp
    · have hc' : Function.update f c true = f := by rw [← hc]; exact Function.update_eq_self c f
      rw [hc']
      cases v <;> simp

/-- The exchange of qubits with two different definite values. -/
theorem swap_differ {c t : Fin n} (w : ℂ) {ψ : State n} (h : ∀ f, f c = f t → ψ f = 0) :
    swapOp c t w ψ = fun f => w * swapOp c t 1 ψ f := by
  funext f
  unfold swapOp
  split_ifs with hf
  · rw [h _ (by simp [hf])]; simp
  · ring

/-- A qubit that may have a value still may after a gate on another qubit that can be undone. -/
theorem may_h {c t : Fin n} (hct : c ≠ t) {ψ : State n} {v : Bool} (h : ∃ f, f c = v ∧ ψ f ≠ 0) : ∃ f, f c = v ∧ hGate t ψ f ≠ 0 := by
  by_contra hn
  push Not at hn
  obtain ⟨f, hf, h0⟩ := h
  have := gate1_zero hct hn rt rt rt (-rt) f hf
  exact h0 ((congrFun (h_h t ψ) f).symm.trans this)

/-! ### The methods -/

theorem direct_rep {Q : QUC n} {Ψ : State n} (h : Rep Q Ψ) (t : Fin n) (hm : Q.mapped t = t) {g : ℕ → Gate}
    (hg : g = .h ∨ g = .x ∨ g = .y ∨ g = .z ∨ g = .s ∨ g = .is) :
    ∃ Q', ((Q.heap (Q.unit t)).gate (g t)).map (Q.setUnit (Q.unit t)) = some Q' ∧ Rep Q' ((g t).U n Ψ) := by
  obtain ⟨o, e, ho⟩ := pull_one h t hg
  rw [hm] at e
  exact ⟨_, by rw [e]; rfl, ho⟩

theorem cGate_rep {Q : QUC n} {Ψ : State n} (h : Rep Q Ψ) (c t : Fin n) (hct : c ≠ t) {g : ℕ → ℕ → Gate} {g1 : ℕ → Gate} {isAnti : Bool}
    (hg : g = .cnot ∨ g = .antiCnot ∨ g = .cy ∨ g = .antiCy ∨ g = .cz ∨ g = .antiCz ∨ g = .swap ∨ g = .iswap ∨ g = .iiswap)
    (hg1 : g1 = .h ∨ g1 = .x ∨ g1 = .y ∨ g1 = .z ∨ g1 = .s ∨ g1 = .is)
    (hU : ∃ a b d e : ℂ, (g c t).U n = ctrl (!isAnti) c (gate1 t a b d e) ∧ (g1 t).U n = gate1 t a b d e)
    (hsafe : Q.mapped t = t ∨ ∃ f, f c = isAnti ∧ Ψ f ≠ 0) :
    ∃ Q', Q.cGate c t g g1 isAnti = some Q' ∧ Rep Q' ((g c t).U n Ψ) := by
  obtain ⟨k, Q1, e1, h1, hm1, hu1, hk⟩ := prob_rep h c
  obtain ⟨a, b, d, e, hU2, hU1⟩ := hU
  unfold QUC.cGate
  rw [dif_pos t.isLt, e1, Option.bind_some]
  dsimp only
  have hon : (∀ f, f c = isAnti → Ψ f = 0) → ∃ Q', ((Q1.heap (Q1.unit t)).gate (g1 t)).map (Q1.setUnit (Q1.unit t)) = some Q' ∧
      Rep Q' ((g c t).U n Ψ) := by
    intro hz
    have hm : Q1.mapped t = t := by
      rw [hm1]
      rcases hsafe with hs | ⟨f, hf, hf0⟩
      · exact hs
      · exact absurd (hz f hf) hf0
    obtain ⟨Q', e', h'⟩ := direct_rep h1 t hm hg1
    refine ⟨Q', e', ?_⟩
    rw [hU2, ctrl_on hct (by simpa using hz), ← hU1]
    exact h'
  have hoff : (∀ f, f c = (!isAnti) → Ψ f = 0) → ∃ Q', some Q1 = some Q' ∧ Rep Q' ((g c t).U n Ψ) := by
    intro hz
    refine ⟨Q1, rfl, ?_⟩
    rw [hU2, ctrl_off hct hz]
    exact h1
  rcases hk with ⟨rfl, hz⟩ | ⟨rfl, hz⟩ | ⟨rfl, -⟩
  · rw [if_pos rfl]
    cases isAnti
    · rw [if_neg (by simp)]; exact hoff (by simpa using hz)
    · rw [if_pos rfl]; exact hon hz
  · rw [if_neg (by omega), if_pos rfl]
    cases isAnti
    · rw [if_neg (by simp)]; exact hon hz
    · rw [if_pos rfl]; exact hoff (by simpa using hz)
  · rw [if_neg (by omega), if_neg (by omega), dif_pos c.isLt]
    exact joint_rep h1 c t hct hg

theorem swap_rep {Q : QUC n} {Ψ : State n} (h : Rep Q Ψ) (c t : Fin n) :
    ∃ Q', Q.swap c t = some Q' ∧ Rep Q' (swapOp c t 1 Ψ) := by
  by_cases hct : c = t
  · subst hct
    refine ⟨Q, by unfold QUC.swap; rw [dif_pos ⟨c.isLt, c.isLt⟩, if_pos rfl], ?_⟩
    have : swapOp c c 1 Ψ = Ψ := by
      funext f
      unfold swapOp
      simp
    rw [this]; exact h
  · have h' := rep_swap h c t
    refine ⟨_, ?_, h'⟩
    unfold QUC.swap
    rw [dif_pos ⟨c.isLt, t.isLt⟩, if_neg (fun h => hct (Fin.ext h))]

theorem swapGate_rep {Q : QUC n} {Ψ : State n} (h : Rep Q Ψ) (c t : Fin n) (hct : c ≠ t) {g : ℕ → ℕ → Gate} {w : ℂ} (hw : w ≠ 0)
    (hg : g = .iswap ∧ w = I ∨ g = .iiswap ∧ w = -I) :
    ∃ Q', Q.swapGate c t g = some Q' ∧ Rep Q' (swapOp c t w Ψ) := by
  obtain ⟨k, Q1, e1, h1, hm1, hu1, hk⟩ := prob_rep h c
  obtain ⟨k', Q2, e2, h2, hm2, hu2, hk'⟩ := prob_rep h1 t
  have hU : (g c t).U n = swapOp c t w := by
    rcases hg with ⟨rfl, rfl⟩ | ⟨rfl, rfl⟩ <;> simp [Gate.U]
  unfold QUC.swapGate
  rw [e1, Option.bind_some]
  dsimp only
  rw [e2, Option.bind_some]
  dsimp only
  split_ifs with hd hb
  · have hz : ∀ f, f c = f t → Ψ f = 0 := by
      intro f hf
      rcases hd with ⟨rfl, rfl⟩ | ⟨rfl, rfl⟩
      · rcases hk with ⟨-, hz⟩ | ⟨h, -⟩ | ⟨h, -⟩
        · rcases hk' with ⟨h, -⟩ | ⟨-, hz'⟩ | ⟨h, -⟩
          · omega
          · cases hc : f c
            · exact hz' f (by rw [← hf, hc])
            · exact hz f hc
          · omega
        · omega
        · omega
      · rcases hk' with ⟨-, hz⟩ | ⟨h, -⟩ | ⟨h, -⟩
        · rcases hk with ⟨h, -⟩ | ⟨-, hz'⟩ | ⟨h, -⟩
          · omega
          · cases hc : f c
            · exact hz' f hc
            · exact hz f (by rw [← hf, hc])
          · omega
        · omega
        · omega
    obtain ⟨Q', e', h'⟩ := swap_rep h2 c t
    rw [swap_differ w hz]
    exact ⟨Q', e', rep_smul h' hw⟩
  · rw [← hU]
    exact joint_rep h2 c t hct (by rcases hg with ⟨rfl, -⟩ | ⟨rfl, -⟩ <;> simp)
  · exact absurd ⟨c.isLt, t.isLt⟩ hb

theorem cz_rep {Q : QUC n} {Ψ : State n} (h : Rep Q Ψ) (c t : Fin n) (hct : c ≠ t) (isAnti : Bool)
    (hsafe : Q.mapped t = t ∨ ∃ f, f c = isAnti ∧ Ψ f ≠ 0) :
    ∃ Q', Q.cz c t isAnti = some Q' ∧ Rep Q' (ctrl (!isAnti) c (zGate t) Ψ) := by
  obtain ⟨k, Q1, e1, h1, hm1, hu1, hk⟩ := prob_rep h t
  unfold QUC.cz
  rw [e1, Option.bind_some]
  dsimp only
  split_ifs with h2
  · rcases hk with ⟨h, -⟩ | ⟨-, hz⟩ | ⟨h, -⟩
    · omega
    · obtain ⟨Q', e', h', -⟩ := gate1_rep h1 c (g := .z) (by simp)
      refine ⟨Q', e', ?_⟩
      rw [cz_one _ hz]
      refine rep_smul ?_ (by split_ifs <;> simp)
      simpa [Gate.U] using h'
    · omega
  · rename_i ha
    subst ha
    have := cGate_rep h1 c t hct (g := .antiCz) (g1 := .z) (isAnti := true) (by simp) (by simp)
      ⟨1, 0, 0, -1, by simp [Gate.U, zGate], by simp [Gate.U, zGate]⟩ (by rw [hm1]; exact hsafe)
    simpa [Gate.U] using this
  · rename_i ha
    have ha : isAnti = false := by simpa using ha
    subst ha
    have := cGate_rep h1 c t hct (g := .cz) (g1 := .z) (isAnti := false) (by simp) (by simp)
      ⟨1, 0, 0, -1, by simp [Gate.U, zGate], by simp [Gate.U, zGate]⟩ (by rw [hm1]; exact hsafe)
    simpa [Gate.U] using this

theorem cnot_rep {Q : QUC n} {Ψ : State n} (h : Rep Q Ψ) (c t : Fin n) (hct : c ≠ t) (isAnti : Bool)
    (hsafe : Q.mapped t = t ∨ ∃ f, f c = isAnti ∧ Ψ f ≠ 0) :
    ∃ Q', Q.cnot c t isAnti = some Q' ∧ Rep Q' (ctrl (!isAnti) c (xGate t) Ψ) := by
  have hH : ∀ {Q : QUC n} {Ψ : State n}, Rep Q Ψ → ∃ Q', Q.gate1 .h t = some Q' ∧ Rep Q' (hGate t Ψ) ∧ Q'.mapped = Q.mapped := by
    intro Q Ψ h
    obtain ⟨Q', e', h', hm, -⟩ := gate1_rep h t (g := .h) (by simp)
    exact ⟨Q', e', by simpa [Gate.U] using h', hm⟩
  obtain ⟨Q1, e1, h1, hm1⟩ := hH h
  obtain ⟨z, ez, -⟩ := sepZ_rep h1 t
  unfold QUC.cnot
  rw [e1, Option.bind_some, ez, Option.bind_some]
  cases z
  · rw [if_neg (by simp)]
    obtain ⟨Q2, e2, h2, hm2⟩ := hH h1
    rw [e2, Option.bind_some]
    rw [h_h] at h2
    cases isAnti
    · have := cGate_rep h2 c t hct (g := .cnot) (g1 := .x) (isAnti := false) (by simp) (by simp)
        ⟨0, 1, 1, 0, by simp [Gate.U, xGate], by simp [Gate.U, xGate]⟩ (by rw [hm2, hm1]; exact hsafe)
      simpa [Gate.U] using this
    · have := cGate_rep h2 c t hct (g := .antiCnot) (g1 := .x) (isAnti := true) (by simp) (by simp)
        ⟨0, 1, 1, 0, by simp [Gate.U, xGate], by simp [Gate.U, xGate]⟩ (by rw [hm2, hm1]; exact hsafe)
      simpa [Gate.U] using this
  · rw [if_pos rfl]
    obtain ⟨Q2, e2, h2⟩ := cz_rep h1 c t hct isAnti (by
      rcases hsafe with hs | hs
      · left; rw [hm1]; exact hs
      · exact Or.inr (may_h hct hs))
    rw [e2, Option.bind_some]
    obtain ⟨Q3, e3, h3, -⟩ := hH h2
    exact ⟨Q3, e3, by rw [← h_cz_h _ hct]; exact h3⟩

end Verif.Units
