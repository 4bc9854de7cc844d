import Verif.Lemmas.StabCompose
import Verif.Props.StabReadMore

/-!
# C69: putting stabilizer registers together and taking them apart
-/

namespace Verif.Stab

open Verif.Pauli Complex

variable {n m start : ℕ}

/-- The tableau is a tableau of the state. -/
def Holds (T : Tab n) (ψ : State n) : Prop := Inv T ∧ Stabilises T ψ ∧ ψ ≠ 0

/-- Whatever calls reach is of this kind. -/
theorem reaches_holds {T : Tab n} {ψ : State n} (h : Reaches T ψ) : Holds T ψ := reaches_stab h

/-! ### The product of two states -/

theorem sides_bij (hs : start ≤ n) : Function.Bijective fun f : Bits (n + m) => ((outside start f, inside start f) : Bits n × Bits m) := by
  rw [Fintype.bijective_iff_injective_and_card]
  refine ⟨?_, by simp [pow_add]⟩
  intro f g hfg
  simp only [Prod.mk.injEq] at hfg
  funext k
  rcases idx_cases hs k with ⟨j, rfl⟩ | ⟨j, rfl⟩
  · exact congrFun hfg.1 j
  · have := congrFun hfg.2 j
    rwa [inside_eq hs, inside_eq hs] at this

theorem norm2_joined (hs : start ≤ n) (ψ : State n) (φ : State m) : norm2 (joined start ψ φ) = norm2 ψ * norm2 φ := by
  unfold norm2
  rw [Finset.sum_mul_sum, ← Finset.sum_product', Finset.univ_product_univ, ← (Equiv.ofBijective _ (sides_bij (m := m) hs)).sum_comp]
  refine Finset.sum_congr rfl fun f _ => ?_
  unfold joined
  rw [map_mul]
  rfl

theorem joined_ne (hs : start ≤ n) {ψ : State n} {φ : State m} : joined start ψ φ ≠ 0 ↔ ψ ≠ 0 ∧ φ ≠ 0 := by
  rw [← norm2_ne, norm2_joined hs, mul_ne_zero_iff, norm2_ne, norm2_ne]

/-! ### Compose -/

/-- `Compose` returns the position and leaves a tableau of the product state. -/
theorem compose_spec {T : Tab n} {S : Tab m} {ψ : State n} {φ : State m} (hT : Holds T ψ) (hS : Holds S φ) (hs : start ≤ n) :
    ∃ R, compose T S start = some (start, R) ∧ Holds R (joined start ψ φ) := by
  obtain ⟨⟨k, R⟩, hR⟩ : ∃ r, compose T S start = some r := by
    unfold compose; rw [if_neg (by omega)]; exact ⟨_, rfl⟩
  obtain ⟨rfl, hM⟩ := made_compose hR
  exact ⟨R, hR, hM.inv.2 ⟨hT.1, hS.1⟩, hM.stabilises hT.2.1 hS.2.1, (joined_ne hs).2 ⟨hT.2.2, hS.2.2⟩⟩

/-- A position past the end throws. -/
theorem compose_throws (T : Tab n) (S : Tab m) (hs : n < start) : compose T S start = none := by
  unfold compose; rw [if_pos hs]

/-- Two histories, then `Compose`: the vector read out is the product of the two states, normalised, up to a phase. -/
theorem compose_read {T : Tab n} {S : Tab m} {ψ : State n} {φ : State m} (hT : Reaches T ψ) (hS : Reaches S φ) (hs : start ≤ n)
    {ph : ℂ} (hph : normSq ph = 1) : ∃ R, compose T S start = some (start, R) ∧
      ∃ c, normSq c * (norm2 ψ * norm2 φ) = 1 ∧ ∀ p, p < 2 ^ (n + m) →
        (getQuantumState ph R).2 p = c * (ψ (outside start (bitsOf (n + m) p)) * φ (inside start (bitsOf (n + m) p))) := by
  obtain ⟨R, hR, h1, h2, h3⟩ := compose_spec (reaches_holds hT) (reaches_holds hS) hs
  obtain ⟨c, hc, hv⟩ := quantumState_spec h1 hph h2 (norm2_ne.2 h3)
  rw [norm2_joined hs] at hc
  exact ⟨R, hR, c, hc, hv⟩

/-! ### Taking apart -/

/-- The test leaves the state alone. -/
theorem canDecompose_keeps {T G : Tab n} {len : ℕ} {b : Bool} (h : canDecompose T start len = some (b, G)) (hT : Inv T) :
    Inv G ∧ ∀ ψ, Stabilises G ψ ↔ Stabilises T ψ := by
  have key : G = T ∨ G = (gaussian T).1 := by
    unfold canDecompose at h
    dsimp only at h
    split_ifs at h <;> simp only [Option.some.injEq, Prod.mk.injEq] at h
    · exact Or.inl h.2.symm
    all_goals exact Or.inr h.2.symm
  rcases key with rfl | rfl
  · exact ⟨hT, fun ψ => Iff.rfl⟩
  · exact ⟨inv_gaussian hT, fun ψ => ⟨unstab_gaussian hT, stab_gaussian⟩⟩

/-- Outside the register the test, and `Decompose`, throw. -/
theorem decompose_throws (T : Tab (n + m)) (D : Tab m) (hs : n < start) :
    canDecompose T start m = none ∧ decompose T start D = none := by
  have : badRange start m (n + m) = true := by simp only [badRange, decide_eq_true_eq]; omega
  unfold canDecompose decompose
  rw [if_pos this, if_pos this]
  exact ⟨rfl, rfl⟩

/-- Two states with one tableau are proportional. -/
theorem holds_unique {T : Tab n} {ψ φ : State n} (h : Holds T ψ) (h' : Holds T φ) : ∃ c : ℂ, c ≠ 0 ∧ ∀ f, ψ f = c * φ f := by
  have hph : normSq (1 : ℂ) = 1 := map_one _
  obtain ⟨c, hc, hv⟩ := quantumState_spec h.1 hph h.2.1 (norm2_ne.2 h.2.2)
  obtain ⟨d, hd, hw⟩ := quantumState_spec h.1 hph h'.2.1 (norm2_ne.2 h'.2.2)
  have hc0 : c ≠ 0 := fun h0 => by rw [h0, map_zero, zero_mul] at hc; exact zero_ne_one hc
  have hd0 : d ≠ 0 := fun h0 => by rw [h0, map_zero, zero_mul] at hd; exact zero_ne_one hd
  refine ⟨c⁻¹ * d, mul_ne_zero (inv_ne_zero hc0) hd0, fun f => ?_⟩
  have e := (hv (basisPerm (bRow f)) (perm_lt _)).symm.trans (hw _ (perm_lt _))
  rw [perm_bits] at e
  have e' : c * ψ f = d * φ f := e
  field_simp
  linear_combination e'

/-- When the test says yes, the state is a product, and `Decompose` leaves the one factor and hands over the other. (What is
missing: for products the test may say no, and `Decompose` then goes wrong; `canDecompose_misses`, `decompose_wrong`.) -/
theorem decompose_partial {T G : Tab (n + m)} {ψ : State (n + m)} (hT : Holds T ψ) (h : canDecompose T start m = some (true, G))
    (hm : m ≠ 0) (D : Tab m) : ∃ A B χ φ, decompose T start D = some (A, B) ∧ decompose G start D = some (A, B) ∧ Holds A χ ∧ Holds B φ ∧
      ψ = joined start χ φ := by
  obtain ⟨A, B, hd, hM, -⟩ := made_decompose h hm D
  have hi := hM.inv.1 (inv_gaussian hT.1)
  have hph : normSq (1 : ℂ) = 1 := map_one _
  obtain ⟨χ, hχ, hχ1, -⟩ := quantumState_stabilised hi.1 hph
  obtain ⟨φ, hφ, hφ1, -⟩ := quantumState_stabilised hi.2 hph
  have hχ0 : χ ≠ 0 := norm2_ne.1 (by rw [hχ1]; exact one_ne_zero)
  have hφ0 : φ ≠ 0 := norm2_ne.1 (by rw [hφ1]; exact one_ne_zero)
  have hj : Holds T (joined start χ φ) := ⟨hT.1, unstab_gaussian hT.1 (hM.stabilises hχ hφ), (joined_ne hM.le).2 ⟨hχ0, hφ0⟩⟩
  obtain ⟨c, hc, he⟩ := holds_unique hT hj
  have hd' : decompose G start D = some (A, B) := by
    have key : (gaussian G).1 = (gaussian T).1 := by
      by_cases h1 : n + m = 1
      · have : G = T := by
          unfold canDecompose at h
          split_ifs at h with c1
          · simp only [Option.some.injEq, Prod.mk.injEq, true_and] at h; exact h.symm
        rw [this]
      · obtain ⟨-, hG, -⟩ := canDecompose_true h h1
        rw [hG, gaussian_reduced (reduced_gaussian hT.1)]
    rw [← hd]
    unfold decompose
    simp only [key, dif_neg hm]
  refine ⟨A, B, fun f => c * χ f, φ, hd, hd', ⟨hi.1, fun a ha ha' => ?_, ?_⟩, ⟨hi.2, hφ, hφ0⟩, ?_⟩
  · funext f
    have := congrFun (hχ a ha ha') f
    rw [op_apply] at this ⊢
    rw [← this]; ring
  · intro h0
    apply hχ0
    funext f
    have := congrFun h0 f
    exact (mul_eq_zero.1 this).resolve_left hc
  · funext f
    rw [he f]
    unfold joined
    ring

/-- In particular the test is right whenever it says yes. -/
theorem canDecompose_product {T G : Tab (n + m)} {ψ : State (n + m)} (hT : Reaches T ψ) (h : canDecompose T start m = some (true, G))
    (hm : m ≠ 0) : ∃ (χ : State n) (φ : State m), ψ = joined start χ φ := by
  obtain ⟨-, -, χ, φ, -, -, -, -, he⟩ := decompose_partial (reaches_holds hT) h hm (fun _ => idRow m)
  exact ⟨χ, φ, he⟩

end Verif.Stab
