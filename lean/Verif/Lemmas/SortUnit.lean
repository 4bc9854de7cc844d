import Verif.Model.SortUnit
import Mathlib.Logic.Equiv.Basic
import Mathlib.Tactic.Common

/-!
Facts about the quicksort of `SortUnit`.
-/

namespace Verif.Units

theorem exch_eq (v : ℕ → ℕ) (i j : ℕ) : exch v i j = v ∘ Equiv.swap i j := by
  funext k
  unfold exch
  simp only [Function.comp, Equiv.swap_apply_def]
  split_ifs <;> rfl

/-- The exchanges, one after the other. -/
def exchs : List (ℕ × ℕ) → (ℕ → ℕ) → ℕ → ℕ
  | [], v => v
  | p :: l, v => exchs l (exch v p.1 p.2)

theorem exchs_append (l l' : List (ℕ × ℕ)) (v : ℕ → ℕ) : exchs (l ++ l') v = exchs l' (exchs l v) := by
  induction l generalizing v with
  | nil => rfl
  | cons p l ih => exact ih _

/-- Every exchange is between two different places from `low` to `high`. -/
def Within (low high : ℕ) (l : List (ℕ × ℕ)) : Prop := ∀ p ∈ l, low ≤ p.1 ∧ p.1 < p.2 ∧ p.2 ≤ high

theorem Within.append {low high : ℕ} {l l' : List (ℕ × ℕ)} (h : Within low high l) (h' : Within low high l') : Within low high (l ++ l') := by
  intro p hp
  rcases List.mem_append.1 hp with hp | hp
  · exact h p hp
  · exact h' p hp

theorem Within.mono {low high low' high' : ℕ} {l : List (ℕ × ℕ)} (h : Within low high l) (h1 : low' ≤ low) (h2 : high ≤ high') :
    Within low' high' l := by
  intro p hp
  have := h p hp
  omega

/-- Exchanges within a range leave the rest alone, and what holds for every value in the range holds afterwards. -/
theorem exchs_outside {low high : ℕ} {l : List (ℕ × ℕ)} (h : Within low high l) (v : ℕ → ℕ) :
    (∀ k, k < low ∨ high < k → exchs l v k = v k) ∧
    ∀ P : ℕ → Prop, (∀ k, low ≤ k → k ≤ high → P (v k)) → ∀ k, low ≤ k → k ≤ high → P (exchs l v k) := by
  induction l generalizing v with
  | nil => exact ⟨fun _ _ => rfl, fun P hP => hP⟩
  | cons p l ih =>
    have hp := h p List.mem_cons_self
    obtain ⟨i1, i2⟩ := ih (fun q hq => h q (List.mem_cons_of_mem _ hq)) (exch v p.1 p.2)
    refine ⟨fun k hk => ?_, fun P hP k hk hk' => ?_⟩
    · show exchs l (exch v p.1 p.2) k = v k
      rw [i1 k hk]
      unfold exch
      rw [if_neg (by omega), if_neg (by omega)]
    · refine i2 P (fun k hk hk' => ?_) k hk hk'
      unfold exch
      split_ifs
      · exact hP _ (by omega) (by omega)
      · exact hP _ (by omega) (by omega)
      · exact hP _ hk hk'

theorem scanUp_spec {v : ℕ → ℕ} {len pivot : ℕ} {s : ℕ} (hs : s < len) (hv : pivot ≤ v s) :
    ∀ (fuel i : ℕ), i ≤ s → s < fuel + i → ∃ i', scanUp v len pivot fuel i = some i' ∧ i ≤ i' ∧ i' ≤ s ∧ pivot ≤ v i' ∧
      ∀ k, i ≤ k → k < i' → v k < pivot := by
  intro fuel
  induction fuel with
  | zero => intro i h1 h2; omega
  | succ fuel ih =>
    intro i h1 h2
    unfold scanUp
    rw [if_pos (by omega)]
    by_cases hlt : v i < pivot
    · rw [if_pos hlt]
      have hne : i ≠ s := fun he => by subst he; omega
      obtain ⟨i', e, a, b, c, d⟩ := ih (i + 1) (by omega) (by omega)
      refine ⟨i', e, by omega, b, c, fun k hk hk' => ?_⟩
      rcases Nat.eq_or_lt_of_le hk with rfl | hk
      · exact hlt
      · exact d k hk hk'
    · rw [if_neg hlt]
      exact ⟨i, rfl, le_refl _, h1, by omega, fun k _ _ => by omega⟩

theorem scanDown_spec {v : ℕ → ℕ} {len pivot : ℕ} {s : ℕ} (hv : v s ≤ pivot) :
    ∀ j, s ≤ j → j < len → ∃ j', scanDown v len pivot j = some j' ∧ j' ≤ j ∧ s ≤ j' ∧ v j' ≤ pivot ∧
      ∀ k, j' < k → k ≤ j → pivot < v k := by
  intro j
  induction j with
  | zero =>
    intro h1 h2
    have : s = 0 := by omega
    subst this
    unfold scanDown
    rw [if_pos h2, if_neg (by omega)]
    exact ⟨0, rfl, le_refl _, h1, hv, fun k _ _ => by omega⟩
  | succ j ih =>
    intro h1 h2
    unfold scanDown
    rw [if_pos h2]
    by_cases hlt : pivot < v (j + 1)
    · rw [if_pos hlt]
      have hne : s ≠ j + 1 := fun he => by subst he; omega
      obtain ⟨j', e, a, b, c, d⟩ := ih (by omega) (by omega)
      refine ⟨j', e, by omega, b, c, fun k hk hk' => ?_⟩
      rcases Nat.eq_or_lt_of_le hk' with rfl | hk'
      · exact hlt
      · exact d k hk (by omega)
    · rw [if_neg hlt]
      exact ⟨j + 1, rfl, le_refl _, h1, by omega, fun k _ _ => by omega⟩

/-- What the loop leaves: everything before `i` is at most the pivot, everything after `j` at least. -/
theorem partLoop_spec {len pivot low high : ℕ} (hlen : high < len) :
    ∀ (fuel : ℕ) (v : ℕ → ℕ) (sw : List (ℕ × ℕ)) (i j : ℕ), j + 1 < fuel + i → i ≤ j + 1 →
      (∀ k, low ≤ k → k < i → v k ≤ pivot) → (∀ k, j < k → k ≤ high → pivot ≤ v k) → Within low high sw →
      ((low < i ∧ j < high) ∨ (i = low ∧ j = high ∧ ∃ m, low < m ∧ m < high ∧ v m = pivot)) →
      ∃ v' sw' i' j', partLoop len pivot fuel v sw i j = some (v', sw ++ sw', i', j') ∧ v' = exchs sw' v ∧ Within low high sw' ∧
        j' < i' ∧ low < i' ∧ j' < high ∧ (∀ k, low ≤ k → k < i' → v' k ≤ pivot) ∧ ∀ k, j' < k → k ≤ high → pivot ≤ v' k := by
  intro fuel
  induction fuel with
  | zero => intro v sw i j h1 h2; omega
  | succ fuel ih =>
    intro v sw i j hf hij hlo hhi hsw hcase
    unfold partLoop
    by_cases hle : i ≤ j
    · rw [if_pos hle]
      have hbound : low ≤ i ∧ j ≤ high := by rcases hcase with h | h <;> omega
      obtain ⟨s1, hs1, hs1', hs1v, hs1m⟩ : ∃ s, i ≤ s ∧ s ≤ high ∧ pivot ≤ v s ∧ (s ≤ j ∨ s = j + 1) := by
        rcases hcase with ⟨h1, h2⟩ | ⟨h1, h2, m, hm1, hm2, hm⟩
        · exact ⟨j + 1, by omega, by omega, hhi _ (by omega) (by omega), Or.inr rfl⟩
        · exact ⟨m, by omega, by omega, by omega, Or.inl (by omega)⟩
      obtain ⟨s2, hs2, hs2', hs2v⟩ : ∃ s, low ≤ s ∧ s ≤ j ∧ v s ≤ pivot := by
        rcases hcase with ⟨h1, h2⟩ | ⟨h1, h2, m, hm1, hm2, hm⟩
        · exact ⟨i - 1, by omega, by omega, hlo _ (by omega) (by omega)⟩
        · exact ⟨m, by omega, by omega, by omega⟩
      obtain ⟨i', ei, a1, a2, a3, a4⟩ := scanUp_spec (v := v) (pivot := pivot) (by omega : s1 < len) hs1v (len + 1) i hs1 (by omega)
      obtain ⟨j', ej, b1, b2, b3, b4⟩ := scanDown_spec (v := v) (len := len) hs2v j hs2' (by omega)
      rw [ei]
      simp only [Option.bind_some]
      rw [ej]
      simp only [Option.bind_some]
      have hlo' : ∀ k, low ≤ k → k < i' → v k ≤ pivot := by
        intro k hk hk'
        rcases Nat.lt_or_ge k i with h | h
        · exact hlo k hk h
        · exact Nat.le_of_lt (a4 k h hk')
      have hhi' : ∀ k, j' < k → k ≤ high → pivot ≤ v k := by
        intro k hk hk'
        rcases Nat.lt_or_ge j k with h | h
        · exact hhi k h hk'
        · exact Nat.le_of_lt (b4 k hk h)
      by_cases h1 : i' < j'
      · rw [if_pos h1]
        have hw : Within low high [(i', j')] := by
          intro p hp
          rw [List.mem_singleton] at hp
          subst hp
          exact ⟨by omega, h1, by omega⟩
        obtain ⟨v', sw', i'', j'', e, f1, f2, f3⟩ := ih (exch v i' j') (sw ++ [(i', j')]) (i' + 1) (j' - 1) (by omega) (by omega)
          (fun k hk hk' => by
            unfold exch
            rcases Nat.lt_or_ge k i' with h | h
            · rw [if_neg (by omega), if_neg (by omega)]; exact hlo' k hk h
            · rw [if_pos (by omega)]; exact b3)
          (fun k hk hk' => by
            unfold exch
            rcases Nat.lt_or_ge j' k with h | h
            · rw [if_neg (by omega), if_neg (by omega)]; exact hhi' k h hk'
            · rw [if_neg (by omega), if_pos (by omega)]; exact a3)
          (hsw.append hw) (Or.inl ⟨by omega, by omega⟩)
        refine ⟨v', (i', j') :: sw', i'', j'', ?_, f1, ?_, f3⟩
        · rw [e, List.append_assoc]; rfl
        · exact hw.append f2
      · rw [if_neg h1]
        by_cases h2 : i' = j'
        · rw [if_pos h2]
          have hj0 : j' ≠ 0 := by
            intro h0
            rcases hcase with ⟨c1, c2⟩ | ⟨c1, c2, m, hm1, hm2, hm⟩
            · omega
            · have := b4 m (by omega) (by omega)
              omega
          rw [if_neg hj0]
          have hlast : ∃ f', fuel = f' + 1 := ⟨fuel - 1, by omega⟩
          obtain ⟨f', rfl⟩ := hlast
          unfold partLoop
          rw [if_neg (by omega)]
          have hjh : j' < high ∨ j' = high := by omega
          refine ⟨v, [], i' + 1, j' - 1, by rw [List.append_nil], rfl, fun p hp => absurd hp (by simp), by omega, by omega, by omega, ?_, ?_⟩
          · intro k hk hk'
            rcases Nat.lt_or_ge k i' with h | h
            · exact hlo' k hk h
            · have : k = j' := by omega
              rw [this]; exact b3
          · intro k hk hk'
            rcases Nat.lt_or_ge j' k with h | h
            · exact hhi' k h hk'
            · have : k = i' := by omega
              rw [this]; exact a3
        · rw [if_neg h2]
          have hfirst : low < i ∧ j < high := by
            rcases hcase with h | ⟨c1, c2, m, hm1, hm2, hm⟩
            · exact h
            · have hm' : i' ≤ m := by
                by_contra hc
                have := a4 m (by omega) (by omega)
                omega
              have hm'' : m ≤ j' := by
                by_contra hc
                have := b4 m (by omega) (by omega)
                omega
              omega
          exact ⟨v, [], i', j', by rw [List.append_nil], rfl, fun p hp => absurd hp (by simp), by omega, by omega, by omega, hlo', hhi'⟩
    · rw [if_neg hle]
      refine ⟨v, [], i, j, by rw [List.append_nil], rfl, fun p hp => absurd hp (by simp), by omega, ?_, ?_, hlo, hhi⟩ <;>
        rcases hcase with h | h <;> omega

/-- `SortUnit` ends, reads nothing outside the array, and sorts. -/
theorem sortUnit_sorts {len : ℕ} : ∀ (fuel : ℕ) (v : ℕ → ℕ) (low high : ℕ), low < high → high < len → high - low ≤ fuel →
    ∃ v' sw, sortUnit len fuel v low high = some (v', sw) ∧ v' = exchs sw v ∧ Within low high sw ∧
      ∀ a b, low ≤ a → a ≤ b → b ≤ high → v' a ≤ v' b := by
  intro fuel
  induction fuel with
  | zero => intro v low high h1 h2 h3; omega
  | succ fuel ih =>
    intro v low high h1 h2 h3
    unfold sortUnit
    by_cases hpair : low + 1 = high
    · rw [if_pos hpair]
      split_ifs with hlt
      · refine ⟨_, _, rfl, rfl, ?_, fun a b ha hab hb => ?_⟩
        · intro p hp
          rw [List.mem_singleton] at hp
          subst hp
          exact ⟨le_refl _, h1, le_refl _⟩
        · rcases Nat.eq_or_lt_of_le hab with rfl | hab
          · exact le_refl _
          · have ha' : a = low := by omega
            have hb' : b = high := by omega
            subst ha' hb'
            unfold exch
            rw [if_pos rfl, if_neg (by omega), if_pos rfl]
            omega
      · refine ⟨_, _, rfl, rfl, fun p hp => absurd hp (by simp), fun a b ha hab hb => ?_⟩
        rcases Nat.eq_or_lt_of_le hab with rfl | hab
        · exact le_refl _
        · have ha' : a = low := by omega
          have hb' : b = high := by omega
          subst ha' hb'
          omega
    · rw [if_neg hpair]
      obtain ⟨v1, sw1, i, j, e1, rfl, w1, c1, c2, c3, c4, c5⟩ := partLoop_spec (low := low) h2 (high + 3) v [] low high (by omega) (by omega)
        (fun k _ _ => by omega) (fun k _ _ => by omega) (fun p hp => absurd hp (by simp))
        (Or.inr ⟨rfl, rfl, (low + high) / 2, by omega, by omega, rfl⟩)
      rw [e1]
      simp only [Option.bind_some, List.nil_append]
      obtain ⟨v2, sw2, e2, rfl, w2, s2⟩ : ∃ v2 sw2, (if low < j then sortUnit len fuel (exchs sw1 v) low j else some (exchs sw1 v, [])) = some (v2, sw2) ∧
          v2 = exchs sw2 (exchs sw1 v) ∧ Within low j sw2 ∧ ∀ a b, low ≤ a → a ≤ b → b ≤ j → v2 a ≤ v2 b := by
        split_ifs with hj
        · exact ih _ low j hj (by omega) (by omega)
        · refine ⟨_, _, rfl, rfl, fun p hp => absurd hp (by simp), fun a b ha hab hb => ?_⟩
          have : a = b := by omega
          rw [this]
      rw [e2]
      simp only [Option.bind_some]
      obtain ⟨v3, sw3, e3, rfl, w3, s3⟩ : ∃ v3 sw3, (if i < high then sortUnit len fuel (exchs sw2 (exchs sw1 v)) i high
            else some (exchs sw2 (exchs sw1 v), [])) = some (v3, sw3) ∧
          v3 = exchs sw3 (exchs sw2 (exchs sw1 v)) ∧ Within i high sw3 ∧ ∀ a b, i ≤ a → a ≤ b → b ≤ high → v3 a ≤ v3 b := by
        split_ifs with hi
        · exact ih _ i high hi h2 (by omega)
        · refine ⟨_, _, rfl, rfl, fun p hp => absurd hp (by simp), fun a b ha hab hb => ?_⟩
          have : a = b := by omega
          rw [this]
      rw [e3]
      obtain ⟨o2, k2⟩ := exchs_outside w2 (exchs sw1 v)
      obtain ⟨o3, k3⟩ := exchs_outside w3 (exchs sw2 (exchs sw1 v))
      refine ⟨_, _, rfl, by rw [exchs_append, exchs_append], ?_, ?_⟩
      · exact (w1.append (w2.mono (le_refl _) (by omega))).append (w3.mono (by omega) (le_refl _))
      · -- everything before `i` is at most the pivot, everything after `j` at least
        have lo2 : ∀ k, low ≤ k → k < i → exchs sw2 (exchs sw1 v) k ≤ v ((low + high) / 2) := by
          intro k hk hk'
          rcases Nat.lt_or_ge j k with h | h
          · rw [o2 k (Or.inr h)]; exact c4 k hk hk'
          · exact k2 (· ≤ v ((low + high) / 2)) (fun k hk hk' => c4 k hk (by omega)) k hk h
        have hi2 : ∀ k, j < k → k ≤ high → v ((low + high) / 2) ≤ exchs sw2 (exchs sw1 v) k := by
          intro k hk hk'
          rw [o2 k (Or.inr hk)]
          exact c5 k hk hk'
        have lo3 : ∀ k, low ≤ k → k < i → exchs sw3 (exchs sw2 (exchs sw1 v)) k ≤ v ((low + high) / 2) := by
          intro k hk hk'
          rw [o3 k (Or.inl hk')]
          exact lo2 k hk hk'
        have hi3 : ∀ k, j < k → k ≤ high → v ((low + high) / 2) ≤ exchs sw3 (exchs sw2 (exchs sw1 v)) k := by
          intro k hk hk'
          rcases Nat.lt_or_ge k i with h | h
          · rw [o3 k (Or.inl h)]; exact hi2 k hk hk'
          · exact k3 (v ((low + high) / 2) ≤ ·) (fun k hk hk' => hi2 k (by omega) hk') k h hk'
        intro a b ha hab hb
        rcases Nat.lt_or_ge j b with hjb | hjb
        · rcases Nat.lt_or_ge a i with hai | hai
          · exact le_trans (lo3 a ha hai) (hi3 b hjb hb)
          · exact s3 a b hai hab hb
        · dsimp only
          rw [o3 a (Or.inl (by omega)), o3 b (Or.inl (by omega))]
          exact s2 a b ha hab hjb

end Verif.Units
