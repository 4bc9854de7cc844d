import Verif.Model.UnitDetach
import Mathlib.Data.List.Nodup
import Mathlib.Tactic.Linarith
import Mathlib.Tactic.SplitIfs

/-!
# C88: taking a qubit out of a `QUnit` leaves every other qubit where it was

The specification is in terms of `read`: which qubit a shard refers to. After `Dispose(q, 1)` or `Decompose(q, dest)` with a destination
of one qubit, the shard of each remaining index must refer to the qubit that had that index before, with the indices behind `q` moved
down by one, and the destination must refer to the qubit `q`.
-/

namespace Verif.Detach

/-- Shards and units agree: every place of a unit in use belongs to exactly one shard. -/
structure Valid (R : Reg) : Prop where
  lt : ∀ j < R.n, ∀ u, (R.sh j).unit = some u → (R.sh j).pos < (R.un u).length
  inj : ∀ j < R.n, ∀ k < R.n, ∀ u, (R.sh j).unit = some u → (R.sh k).unit = some u → (R.sh j).pos = (R.sh k).pos → j = k
  surj : ∀ j < R.n, ∀ u, (R.sh j).unit = some u → ∀ p < (R.un u).length, ∃ k < R.n, (R.sh k).unit = some u ∧ (R.sh k).pos = p

/-- Where a remaining qubit was before the qubit `q` was taken out. -/
def was (q j : ℕ) : ℕ := if j < q then j else j + 1

theorem was_ne (q j : ℕ) : was q j ≠ q := by unfold was; split_ifs <;> omega

theorem was_lt {q j n : ℕ} (hj : j < n - 1) : was q j < n := by unfold was; split_ifs <;> omega

theorem subCount_one (R : Reg) (q u : ℕ) : subCount R q 1 u = if (R.sh q).unit = some u then 1 else 0 := by
  unfold subCount
  by_cases h : (R.sh q).unit = some u <;> simp [List.range_succ, h]

theorem detach_one_eq (hasDest : Bool) (R : Reg) (q fresh : ℕ) (hq : q < R.n) :
    ∃ s : St, s = detachStep R.n (subCount R q 1) hasDest q fresh
        ⟨R.sh, R.un, fun _ => none, fun i => if (R.sh (q + i)).unit = none then R.sh (q + i) else ⟨none, 0, 0⟩⟩ 0 ∧
      detach hasDest R q 1 fresh = some (⟨R.n - 1, fun j => closeUp (subCount R q 1) s (was q j), s.un⟩, reindex s.dest) := by
  refine ⟨_, rfl, ?_⟩
  unfold detach
  rw [if_neg (by omega)]
  simp [List.range_succ, was]

theorem get_rest (L : List ℕ) {m p : ℕ} (hm : m < L.length) (hp : p ≠ m) :
    (L.take m ++ L.drop (m + 1))[if m < p then p - 1 else p]? = L[p]? := by
  rw [List.getElem?_append, List.length_take, Nat.min_eq_left hm.le]
  by_cases h : m < p
  · rw [if_pos h, if_neg (by omega), List.getElem?_drop]
    congr 1; omega
  · rw [if_neg h, if_pos (by omega), List.getElem?_take, if_pos (by omega)]

theorem closeUp_keeps {R : Reg} (hv : Valid R) {q u k : ℕ} (hq : q < R.n) (hk : k < R.n) (hne : k ≠ q) (hu : (R.sh q).unit = some u)
    {s : St} (hun : ∀ v, (R.sh k).unit = some v →
      s.un v = if v = u then (R.un u).take (R.sh q).pos ++ (R.un u).drop ((R.sh q).pos + 1) else R.un v)
    (hun0 : s.un u = (R.un u).take (R.sh q).pos ++ (R.un u).drop ((R.sh q).pos + 1))
    (hdec : s.dec u = some q) (hp : (s.sh q).pos = (R.sh q).pos ∨ ((s.sh q).pos = 0 ∧ (R.sh q).pos ≤ 1))
    (hsh : s.sh k = R.sh k ∨ (s.sh k = cached s.un u ∧ (R.sh k).unit = some u ∧ (R.un u).length = 2)) :
    read s.un (closeUp (subCount R q 1) s k) = read R.un (R.sh k) := by
  have hm := hv.lt q hq u hu
  rcases hsh with hsh | ⟨hsh, hku, hl⟩
  · unfold closeUp
    rw [hsh]
    cases hkv : (R.sh k).unit with
    | none => simp [read, hkv]
    | some v =>
      dsimp only
      by_cases hvu : v = u
      · subst hvu
        have hkp : (R.sh k).pos ≠ (R.sh q).pos := fun h => hne (hv.inj k hk q hq v hkv hu h)
        have hg := get_rest (R.un v) hm hkp
        rw [subCount_one, if_pos hu, if_pos one_ne_zero, hdec]
        simp only [Option.map_some, Option.getD_some]
        by_cases hc : (R.sh q).pos < (R.sh k).pos
        · rw [if_pos hc] at hg
          rw [if_pos (by rcases hp with hp | hp <;> omega)]
          simp only [read, hkv, hun0, hg]
        · rw [if_neg hc] at hg
          rw [if_neg (by rcases hp with hp | hp <;> omega)]
          simp only [read, hkv, hun0, hg]
      · have huv : ¬(R.sh q).unit = some v := by rw [hu]; intro h; exact hvu (Option.some.inj h).symm
        rw [subCount_one, if_neg huv, if_neg (by simp)]
        have := hun v hkv
        rw [if_neg hvu] at this
        simp only [read, hkv, this]
  · have hkl := hv.lt k hk u hku
    have hkp : (R.sh k).pos ≠ (R.sh q).pos := fun h => hne (hv.inj k hk q hq u hku hu h)
    have hg := get_rest (R.un u) hm hkp
    have h0 : (if (R.sh q).pos < (R.sh k).pos then (R.sh k).pos - 1 else (R.sh k).pos) = 0 := by split_ifs <;> omega
    rw [h0] at hg
    unfold closeUp
    rw [hsh]
    simp only [read, cached, hku, hun0, hg, List.getElem?_eq_getElem hkl, Option.getD_some]

/-- The single pass of the loop for a qubit of a larger unit that goes to a destination. -/
theorem dest_step {R : Reg} {q u fresh : ℕ} (hu : (R.sh q).unit = some u) (h1 : ¬1 = (R.un u).length) (hfu : u ≠ fresh)
    (hm : (R.sh q).pos < (R.un u).length) (d : ℕ → Sh) {s : St}
    (hs : s = detachStep R.n (subCount R q 1) true q fresh ⟨R.sh, R.un, fun _ => none, d⟩ 0) :
    s.un = Function.update (Function.update R.un u ((R.un u).take (R.sh q).pos ++ (R.un u).drop ((R.sh q).pos + 1))) fresh
        (((R.un u).drop (R.sh q).pos).take 1) ∧
      s.dec u = some q ∧ s.sh q = ⟨none, 0, (R.un u)[(R.sh q).pos]⟩ ∧ s.dest 0 = ⟨none, 0, (R.un u)[(R.sh q).pos]⟩ ∧
      ∀ k, k ≠ q → s.sh k = R.sh k ∨ (s.sh k = cached s.un u ∧ (R.sh k).unit = some u ∧ (R.un u).length = 2) := by
  have ht : (((R.un u).drop (R.sh q).pos).take 1)[0]?.getD 0 = (R.un u)[(R.sh q).pos] := by
    rw [List.getElem?_take, if_pos one_pos, List.getElem?_drop, add_zero, List.getElem?_eq_getElem hm, Option.getD_some]
  simp only [detachStep, hu, subCount_one, add_zero, if_true, ne_eq, h1, not_false_eq_true, and_self, cached,
    Function.update_self, Function.update_idem, ht] at hs
  by_cases h2 : 1 = (R.un u).length - 1
  · rw [if_pos h2] at hs
    split at hs
    · rename_i j hfind
      have hj := List.find?_some hfind
      simp only [decide_eq_true_eq] at hj
      have hjq : j ≠ q := by
        rintro rfl
        simp at hj
      rw [Function.update_of_ne hjq] at hj
      subst hs
      refine ⟨rfl, by simp, by simp [Function.update_of_ne hjq.symm], by simp [Function.update_of_ne hjq.symm], fun k hk => ?_⟩
      by_cases hkj : k = j
      · subst hkj
        exact Or.inr ⟨by simp [cached], hj.1, by omega⟩
      · exact Or.inl (by simp [hkj, hk])
    · subst hs
      exact ⟨rfl, by simp, by simp, by simp, fun k hk => Or.inl (by simp [hk])⟩
  · rw [if_neg h2] at hs
    subst hs
    exact ⟨rfl, by simp, by simp, by simp, fun k hk => Or.inl (by simp [hk])⟩

/-- The other qubits, with or without a destination. -/
theorem others_kept {R : Reg} (hv : Valid R) {q k : ℕ} (hq : q < R.n) (hk : k < R.n) (hne : k ≠ q) (hasDest : Bool) {fresh : ℕ}
    (hf : ∀ j < R.n, (R.sh j).unit ≠ some fresh)
    (hD : hasDest = true → ∀ u, (R.sh q).unit = some u → (R.sh q).pos ≤ 1) (d : ℕ → Sh) {s : St}
    (hs : s = detachStep R.n (subCount R q 1) hasDest q fresh ⟨R.sh, R.un, fun _ => none, d⟩ 0) :
    read s.un (closeUp (subCount R q 1) s k) = read R.un (R.sh k) := by
  cases hu : (R.sh q).unit with
  | none =>
    have hs' : s.sh = R.sh ∧ s.un = R.un := by rw [hs]; simp [detachStep, hu]
    unfold closeUp
    rw [hs'.1, hs'.2]
    cases hk : (R.sh k).unit <;> simp [subCount_one, hu]
  | some u =>
    have hm := hv.lt q hq u hu
    by_cases h1 : 1 = (R.un u).length
    · have hs' : s.sh = R.sh ∧ s.un = R.un := by
        rw [hs]; cases hasDest <;> simp [detachStep, hu, subCount_one, ← h1]
      have hku : (R.sh k).unit ≠ some u := fun h =>
        hne (hv.inj k hk q hq u h hu (by have := hv.lt k hk u h; omega))
      unfold closeUp
      rw [hs'.1, hs'.2]
      cases hk : (R.sh k).unit with
      | none => rfl
      | some v =>
        have : u ≠ v := by rintro rfl; exact hku hk
        simp [subCount_one, hu, this]
    · have hfu : u ≠ fresh := fun h => hf q hq (h ▸ hu)
      have hfk : ∀ v, (R.sh k).unit = some v → v ≠ fresh := fun v hv' h => hf k hk (h ▸ hv')
      cases hasDest with
      | false =>
        by_cases h2 : 1 = (R.un u).length - 1
        · cases hfind : (List.range R.n).find? fun j => (R.sh j).unit = some u ∧
              (R.sh j).pos = if (R.sh q).pos = 0 then (R.sh q).pos + 1 else 0 with
          | none =>
            simp only [detachStep, hu, subCount_one, add_zero, if_true, ne_eq, h1, not_false_eq_true, ← h2, hfind, if_false,
              Bool.false_eq_true, and_false] at hs
            subst hs
            exact closeUp_keeps hv hq hk hne hu (fun v _ => by simp [Function.update_apply]) (by simp) (by simp) (Or.inl rfl)
              (Or.inl rfl)
          | some j =>
            have hj := List.find?_some hfind
            simp only [decide_eq_true_eq] at hj
            have hjq : j ≠ q := by
              rintro rfl
              have := hj.2
              split_ifs at this <;> omega
            simp only [detachStep, hu, subCount_one, add_zero, if_true, ne_eq, h1, not_false_eq_true, ← h2, hfind, if_false,
              Bool.false_eq_true, and_false] at hs
            subst hs
            refine closeUp_keeps hv hq hk hne hu (fun v _ => by simp [Function.update_apply]) (by simp) (by simp) (Or.inl ?_) ?_
            · simp [Function.update_of_ne hjq.symm]
            · by_cases hkj : k = j
              · subst hkj
                exact Or.inr ⟨by simp, hj.1, by omega⟩
              · exact Or.inl (by simp [hkj])
        · simp only [detachStep, hu, subCount_one, add_zero, if_true, ne_eq, h1, not_false_eq_true, h2, if_false,
            Bool.false_eq_true, and_false] at hs
          subst hs
          exact closeUp_keeps hv hq hk hne hu (fun v _ => by simp [Function.update_apply]) (by simp) (by simp) (Or.inl rfl)
            (Or.inl rfl)
      | true =>
        obtain ⟨g1, g2, g3, -, g5⟩ := dest_step hu h1 hfu hm d hs
        refine closeUp_keeps hv hq hk hne hu (fun v hv' => ?_) ?_ g2 (Or.inr ⟨by rw [g3], hD rfl u hu⟩) (g5 k hne)
        · rw [g1, Function.update_of_ne (hfk v hv'), Function.update_apply]
        · rw [g1, Function.update_of_ne hfu, Function.update_self]

/-- `Dispose` of one qubit, whatever its unit: the others are kept. -/
theorem dispose_one {R : Reg} (hv : Valid R) {q : ℕ} (hq : q < R.n) {fresh : ℕ} (hf : ∀ j < R.n, (R.sh j).unit ≠ some fresh) :
    ∃ R' d, detach false R q 1 fresh = some (R', d) ∧ R'.n = R.n - 1 ∧
      ∀ j < R'.n, read R'.un (R'.sh j) = read R.un (R.sh (was q j)) := by
  obtain ⟨s, hs, he⟩ := detach_one_eq false R q fresh hq
  exact ⟨_, _, he, rfl, fun j hj => others_kept hv hq (was_lt hj) (was_ne q j) false hf (by simp) _ hs⟩

/-- The destination of one qubit refers to the qubit that was taken out, whatever its unit. -/
theorem decompose_one_dest {R : Reg} (hv : Valid R) {q : ℕ} (hq : q < R.n) {fresh : ℕ} (hf : ∀ j < R.n, (R.sh j).unit ≠ some fresh) :
    ∃ R' d, detach true R q 1 fresh = some (R', d) ∧ R'.n = R.n - 1 ∧ read R'.un (d 0) = read R.un (R.sh q) := by
  obtain ⟨s, hs, he⟩ := detach_one_eq true R q fresh hq
  refine ⟨_, _, he, rfl, ?_⟩
  cases hu : (R.sh q).unit with
  | none =>
    rw [hs]
    simp [detachStep, hu, reindex, read]
  | some u =>
    have hm := hv.lt q hq u hu
    by_cases h1 : 1 = (R.un u).length
    · have h0 : (R.sh q).pos = 0 := by omega
      rw [hs]
      simp [detachStep, hu, subCount_one, ← h1, reindex, read, h0]
    · obtain ⟨-, -, -, g4, -⟩ := dest_step hu h1 (fun h : u = fresh => hf q hq (h ▸ hu)) hm _ hs
      simp only [reindex, g4, read, hu, List.getElem?_eq_getElem hm]

/-- `Decompose` of one qubit: right for the others if the qubit is at one of the first two places of its unit (or has no unit).

Partial: without the bound on the place it is wrong, see `decompose_one_wrong`. -/
theorem decompose_one_partial {R : Reg} (hv : Valid R) {q : ℕ} (hq : q < R.n) {fresh : ℕ}
    (hf : ∀ j < R.n, (R.sh j).unit ≠ some fresh) (hD : ∀ u, (R.sh q).unit = some u → (R.sh q).pos ≤ 1) :
    ∃ R' d, detach true R q 1 fresh = some (R', d) ∧ R'.n = R.n - 1 ∧ read R'.un (d 0) = read R.un (R.sh q) ∧
      ∀ j < R'.n, read R'.un (R'.sh j) = read R.un (R.sh (was q j)) := by
  obtain ⟨R', d, h1, h2, h3⟩ := decompose_one_dest hv hq hf
  obtain ⟨s, hs, he⟩ := detach_one_eq true R q fresh hq
  have hR : R' = ⟨R.n - 1, fun j => closeUp (subCount R q 1) s (was q j), s.un⟩ := by
    rw [he] at h1; exact (Prod.mk.inj (Option.some.inj h1)).1.symm
  refine ⟨R', d, h1, h2, h3, ?_⟩
  subst hR
  exact fun j hj => others_kept hv hq (was_lt hj) (was_ne q j) true hf (fun _ => hD) _ hs

theorem was_surj {q k n : ℕ} (hk : k < n) (hq : q < n) (hne : k ≠ q) : ∃ j < n - 1, was q j = k := by
  by_cases h : k < q
  · exact ⟨k, by omega, by simp [was, h]⟩
  · exact ⟨k - 1, by omega, by unfold was; rw [if_neg (by omega)]; omega⟩

/-- `Decompose` of one qubit at a later place of its unit always makes another qubit refer to the wrong place: the shard of the detached
qubit has its `mapped` set to 0 before the loop over the rest compares with it. -/
theorem decompose_one_wrong {R : Reg} (hv : Valid R) {q u : ℕ} (hq : q < R.n) {fresh : ℕ} (hf : ∀ j < R.n, (R.sh j).unit ≠ some fresh)
    (hu : (R.sh q).unit = some u) (hp : 2 ≤ (R.sh q).pos) (hnd : (R.un u).Nodup) :
    ∃ R' d, detach true R q 1 fresh = some (R', d) ∧ ∃ j < R'.n, read R'.un (R'.sh j) ≠ read R.un (R.sh (was q j)) := by
  obtain ⟨s, hs, he⟩ := detach_one_eq true R q fresh hq
  have hm := hv.lt q hq u hu
  have hfu : u ≠ fresh := fun h => hf q hq (h ▸ hu)
  obtain ⟨g1, g2, g3, -, g5⟩ := dest_step hu (by omega) hfu hm _ hs
  obtain ⟨k, hk, hku, hkp⟩ := hv.surj q hq u hu 1 (by omega)
  have hne : k ≠ q := by rintro rfl; omega
  obtain ⟨j, hj, hjk⟩ := was_surj hk hq hne
  refine ⟨_, _, he, j, hj, ?_⟩
  dsimp only
  rw [hjk]
  have hsk : s.sh k = R.sh k := (g5 k hne).resolve_right (by rintro ⟨-, -, h⟩; omega)
  have hsu : s.un u = (R.un u).take (R.sh q).pos ++ (R.un u).drop ((R.sh q).pos + 1) := by
    rw [g1, Function.update_of_ne hfu, Function.update_self]
  have hg : (s.un u)[0]? = (R.un u)[0]? := by
    have := get_rest (R.un u) hm (p := 0) (by omega)
    rwa [if_neg (by omega), ← hsu] at this
  simp only [closeUp, hsk, hku, subCount_one, hu, if_true, g2, g3, Option.map_some, Option.getD_some, hkp, read, ne_eq, one_ne_zero,
    not_false_eq_true, zero_add, le_refl, Nat.sub_self, hg]
  rw [List.getElem?_eq_getElem (by omega), List.getElem?_eq_getElem (by omega)]
  intro h
  have := (List.Nodup.getElem_inj_iff hnd).1 (Option.some.inj h)
  omega

/-- For a range of any length that has been taken out of a unit, and a first shard that still has its place: a shard of the unit outside of
the range refers to the same qubit after the places behind the range have moved down. -/
theorem closeUp_range {sub : ℕ → ℕ} {s : St} {un : ℕ → List ℕ} {u f k : ℕ} (hk : (s.sh k).unit = some u) (h0 : sub u ≠ 0)
    (hdec : s.dec u = some f) (hm : (s.sh f).pos + sub u ≤ (un u).length)
    (hs : s.un u = (un u).take (s.sh f).pos ++ (un u).drop ((s.sh f).pos + sub u))
    (hout : (s.sh k).pos < (s.sh f).pos ∨ (s.sh f).pos + sub u ≤ (s.sh k).pos) :
    read s.un (closeUp sub s k) = read un (s.sh k) := by
  simp only [closeUp, hk, if_pos h0, hdec, Option.map_some, Option.getD_some]
  by_cases h : (s.sh f).pos + sub u ≤ (s.sh k).pos
  · rw [if_pos h]
    simp only [read, hk, hs]
    rw [List.getElem?_append, List.length_take, Nat.min_eq_left (by omega), if_neg (by omega), List.getElem?_drop]
    congr 1; omega
  · rw [if_neg h]
    simp only [read, hk, hs]
    rw [List.getElem?_append, List.length_take, Nat.min_eq_left (by omega), if_pos (by omega), List.getElem?_take, if_pos (by omega)]

/-- A unit of three qubits and a qubit of its own. -/
def three : Reg := ⟨4, fun j => if j = 1 then ⟨none, 0, 20⟩ else ⟨some 0, if j = 0 then 1 else if j = 2 then 0 else 2, 0⟩,
  fun u => if u = 0 then [10, 11, 12] else []⟩

theorem three_valid : Valid three where
  lt := by
    intro j hj u h
    have : j = 0 ∨ j = 1 ∨ j = 2 ∨ j = 3 := by simp only [three] at hj; omega
    rcases this with rfl | rfl | rfl | rfl <;> simp [three] at h <;> subst h <;> simp [three]
  inj := by
    intro j hj k hk u h h' hp
    have h1 : j = 0 ∨ j = 1 ∨ j = 2 ∨ j = 3 := by simp only [three] at hj; omega
    have h2 : k = 0 ∨ k = 1 ∨ k = 2 ∨ k = 3 := by simp only [three] at hk; omega
    rcases h1 with rfl | rfl | rfl | rfl <;> rcases h2 with rfl | rfl | rfl | rfl <;> simp [three] at h h' hp ⊢
  surj := by
    intro j hj u h p hp
    have hu : u = 0 := by
      by_contra hne
      simp [three, hne] at hp
    subst hu
    have : p = 0 ∨ p = 1 ∨ p = 2 := by simp [three] at hp; omega
    rcases this with rfl | rfl | rfl
    · exact ⟨2, by simp [three], by simp [three], by simp [three]⟩
    · exact ⟨0, by simp [three], by simp [three], by simp [three]⟩
    · exact ⟨3, by simp [three], by simp [three], by simp [three]⟩

theorem three_fresh : ∀ j < three.n, (three.sh j).unit ≠ some 7 := by
  intro j hj
  have : j = 0 ∨ j = 1 ∨ j = 2 ∨ j = 3 := by simp only [three] at hj; omega
  rcases this with rfl | rfl | rfl | rfl <;> simp [three]

/-- The readings of the remaining shards. -/
def readings (r : Option (Reg × (ℕ → Sh))) : Option (List (Option ℕ)) :=
  r.map fun r => (List.range r.1.n).map fun j => read r.1.un (r.1.sh j)

example : (List.range 4).map (fun j => read three.un (three.sh j)) = [some 11, some 20, some 10, some 12] := by decide +kernel
example : readings (detach false three 3 1 7) = some [some 11, some 20, some 10] := by decide +kernel
example : readings (detach false three 0 1 7) = some [some 20, some 10, some 12] := by decide +kernel
example : readings (detach true three 0 1 7) = some [some 20, some 10, some 12] := by decide +kernel
/-- The qubit 0 is lost: its shard refers to the qubit 2. -/
example : readings (detach true three 3 1 7) = some [some 10, some 20, some 10] := by decide +kernel
/-- A range of more than one qubit is right here, with and without a destination. -/
example : readings (detach true three 2 2 7) = some [some 11, some 20] := by decide +kernel
example : readings (detach false three 2 2 7) = some [some 11, some 20] := by decide +kernel
example : (detach true three 2 2 7).map (fun r => (List.range 2).map fun i => read r.1.un (r.2 i)) = some [some 10, some 12] := by
  decide +kernel
/-- So is a range that meets the unit in one qubit, which is at its second place after the unit was put in order. -/
example : readings (detach true three 1 2 7) = some [some 11, some 12] := by decide +kernel
example : readings (detach true three 1 3 7) = some [some 11] := by decide +kernel

/-- One unit of five qubits, in order. -/
def five : Reg := ⟨5, fun j => ⟨some 0, j, 0⟩, fun u => if u = 0 then [10, 11, 12, 13, 14] else []⟩

example : readings (detach true five 1 2 7) = some [some 10, some 13, some 14] := by decide +kernel
example : readings (detach false five 1 3 7) = some [some 10, some 14] := by decide +kernel
example : read (fun _ => [10, 13, 14]) (closeUp (fun _ => 2) ⟨five.sh, fun _ => [10, 13, 14], fun _ => some 1, five.sh⟩ 4) =
    read five.un (five.sh 4) :=
  closeUp_range (sub := fun _ => 2) (s := ⟨five.sh, fun _ => [10, 13, 14], fun _ => some 1, five.sh⟩) (un := five.un) (u := 0) (k := 4) (f := 1)
    rfl (by simp) rfl (by simp [five]) (by simp [five]) (by simp [five])

example : ∃ R' d, detach false three 3 1 7 = some (R', d) ∧ R'.n = 3 ∧ ∀ j < R'.n, read R'.un (R'.sh j) = read three.un (three.sh (was 3 j)) :=
  dispose_one three_valid (by simp [three]) three_fresh
example : ∃ R' d, detach true three 0 1 7 = some (R', d) ∧ R'.n = 3 ∧ read R'.un (d 0) = read three.un (three.sh 0) ∧
    ∀ j < R'.n, read R'.un (R'.sh j) = read three.un (three.sh (was 0 j)) :=
  decompose_one_partial three_valid (by simp [three]) three_fresh (by simp [three])
example : ∃ R' d, detach true three 3 1 7 = some (R', d) ∧ ∃ j < R'.n, read R'.un (R'.sh j) ≠ read three.un (three.sh (was 3 j)) :=
  decompose_one_wrong three_valid (u := 0) (by simp [three]) three_fresh (by simp [three]) (by simp [three]) (by simp [three])

end Verif.Detach
