import Verif.Model.UnitMulti
import Mathlib.Algebra.BigOperators.Group.List.Basic
import Mathlib.Tactic.SplitIfs

/-!
# C92: `QUnitMulti` finds the device of a unit, and keeps the load of every device within its limit

The specification: `onDevice`, that an index refers to the device with the id that the unit reports (the default device for a negative
id); the loads that are counted do not exceed the limits, and add up to the sizes of the units that were placed.
-/

namespace Verif.UMulti

/-- The index refers to the device of the unit. -/
def onDevice (C : Cfg) (u : U) (i : ℕ) : Prop := ∃ d, C.devs[i]? = some d ∧ (d.id : ℤ) = if u.dev < 0 then (C.dflt : ℤ) else u.dev

theorem sizeT_of_pos {d : ℤ} (h : 0 < d) (h2 : d < 2 ^ 64) : sizeT d ≠ 0 := by
  unfold sizeT
  rw [Int.emod_eq_of_lt (by omega) h2]
  omega

/-- A unit on the device 0, when that is the default: the search runs off the end, whatever the devices. -/
theorem deviceIndex_zero_wrong {C : Cfg} {u : U} (hd : C.dflt = 0) (hu : u.dev = 0) :
    deviceIndex C u = C.devs.length ∧ ¬onDevice C u (deviceIndex C u) := by
  have h : deviceIndex C u = C.devs.length := by
    unfold deviceIndex
    rw [List.findIdx_eq_length]
    intro di _
    simp [isDevice, hd, hu, sizeT]
  refine ⟨h, ?_⟩
  rintro ⟨d, h1, -⟩
  rw [h] at h1
  simp at h1

/-- A unit on another device, with the default device 0: the index of the first device with an id other than 0, whichever it is. -/
theorem deviceIndex_eq {C : Cfg} {u : U} (hd : C.dflt = 0) (hu : 0 < u.dev) (h2 : u.dev < 2 ^ 64) :
    deviceIndex C u = C.devs.findIdx fun d => decide (d.id ≠ 0) := by
  unfold deviceIndex
  congr 1
  funext di
  have := sizeT_of_pos hu h2
  unfold isDevice
  have hn : ¬u.dev < 0 := by omega
  rw [if_neg hn, hd]
  by_cases h : di.id = 0 <;> simp [h, this]

/-- So it is right if that is the device of the unit, as with two devices 0 and 1.

Partial: see `deviceIndex_zero_wrong` and `deviceIndex_third_wrong` for the other cases. -/
theorem deviceIndex_partial {C : Cfg} {u : U} (hd : C.dflt = 0) (hu : 0 < u.dev) (h2 : u.dev < 2 ^ 64) {d : Dev}
    (hf : C.devs.find? (fun d => decide (d.id ≠ 0)) = some d) : onDevice C u (deviceIndex C u) ↔ (d.id : ℤ) = u.dev := by
  have hi : C.devs[C.devs.findIdx fun d => decide (d.id ≠ 0)]? = some d := by
    rw [← List.find?_eq_getElem?_findIdx]
    exact hf
  unfold onDevice
  have hn : ¬u.dev < 0 := by omega
  rw [deviceIndex_eq hd hu h2, hi, if_neg hn]
  constructor
  · rintro ⟨d', h1, h3⟩
    rw [Option.some.inj h1]; exact h3
  · exact fun h => ⟨d, rfl, h⟩

/-- With three devices a unit on the last one is taken to be on the second. -/
theorem deviceIndex_third_wrong {C : Cfg} {u : U} {a b c : Dev} (hd : C.dflt = 0) (hl : C.devs = [a, b, c]) (ha : a.id = 0)
    (hb : b.id ≠ 0) (hbc : b.id ≠ c.id) (hu : u.dev = c.id) (h0 : 0 < u.dev) (h2 : u.dev < 2 ^ 64) :
    deviceIndex C u = 1 ∧ ¬onDevice C u (deviceIndex C u) := by
  have h1 : deviceIndex C u = 1 := by
    rw [deviceIndex_eq hd h0 h2, hl]
    simp [List.findIdx_cons, ha, hb]
  refine ⟨h1, ?_⟩
  rw [deviceIndex_partial hd h0 h2 (d := b) (by rw [hl]; simp [ha, hb]), hu]
  exact_mod_cast hbc

/-- The loads stay within the limits. -/
def Within (C : Cfg) (sizes : List ℕ) : Prop := ∀ (j : ℕ) (d : Dev) (s : ℕ), C.devs[j]? = some d → sizes[j]? = some s → s ≤ d.maxSize

theorem place_spec {C : Cfg} {sizes : List ℕ} {u : U} {r : List ℕ × ℤ} (h : place C sizes u = .ok r) (hw : Within C sizes) :
    Within C r.1 ∧ (r = (sizes, u.dev) ∨
      ∃ i s, sizes[i]? = some s ∧ i < C.devs.length ∧ r.1 = sizes.set i (s + 2 ^ u.qbc)) := by
  unfold place at h
  dsimp only at h
  split_ifs at h with h1 h2
  · cases h
    exact ⟨hw, Or.inl rfl⟩
  · split at h
    · cases h
    · rename_i sz hsz
      generalize (if sz ≠ 0 then choose C sizes u (deviceIndex C u) sz else (u.dev, deviceIndex C u)) = c at h
      split at h
      · rename_i d s hd hs
        split_ifs at h with h3
        cases h
        refine ⟨?_, Or.inr ⟨_, s, hs, (List.getElem?_eq_some_iff.1 hd).1, rfl⟩⟩
        intro j d' s' hj hs'
        rw [List.getElem?_set] at hs'
        split_ifs at hs' with h4 h5
        · subst h4
          rw [hd] at hj
          cases hj
          cases hs'
          exact not_lt.1 h3
        · exact hw j d' s' hj hs'
      · cases h

/-- Whatever the indices are, a distribution that ends without an error keeps every device within its limit. -/
theorem redistribute_within {C : Cfg} {us : List U} {sizes : List ℕ} (h : redistribute C us = .ok sizes) : Within C sizes := by
  have key : ∀ (us : List U) (s0 : List ℕ), Within C s0 → placeAll C us s0 = .ok sizes → Within C sizes := by
    intro us
    induction us with
    | nil => intro s0 h0 h; cases h; exact h0
    | cons u us ih =>
      intro s0 h0 h
      unfold placeAll at h
      split at h
      · cases h
      · rename_i r hr
        exact ih r.1 (place_spec hr h0).1 h
  unfold redistribute at h
  split_ifs at h
  · cases h
    intro j d s _ hs
    simp at hs
  · refine key us _ ?_ h
    intro j d s _ hs
    rw [List.getElem?_replicate] at hs
    split_ifs at hs
    cases hs
    exact Nat.zero_le _

theorem sum_set : ∀ (l : List ℕ) (i s x : ℕ), l[i]? = some s → (l.set i (s + x)).sum = l.sum + x := by
  intro l
  induction l with
  | nil => intro i s x h; simp at h
  | cons a l ih =>
    intro i s x h
    cases i with
    | zero =>
      simp at h
      subst h
      simp [List.set]
      omega
    | succ i =>
      simp at h
      simp [List.set, ih i s x h]
      omega

/-- A device that can take the unit. -/
def Fits (C : Cfg) (sizes : List ℕ) (u : U) (j : ℕ) : Prop :=
  sizes.getD j 0 + 2 ^ u.qbc ≤ (C.devs.map Dev.maxSize).getD j 0 ∧ u.qbc ≤ C.qbList.getD (j % C.qbList.length) 0

/-- The device that is chosen for a unit has no more load than any other that can take it, nor than the one where the unit was, and the id
that is set is that of the index that is counted. -/
theorem choose_least {C : Cfg} {sizes : List ℕ} {u : U} {i : ℕ} :
    (∀ j < C.devs.length, Fits C sizes u j → sizes.getD (choose C sizes u i (sizes.getD i 0)).2 0 ≤ sizes.getD j 0) ∧
      sizes.getD (choose C sizes u i (sizes.getD i 0)).2 0 ≤ sizes.getD i 0 ∧
      (choose C sizes u i (sizes.getD i 0) = (u.dev, i) ∨
        (choose C sizes u i (sizes.getD i 0)).1 = ((C.devs.map Dev.id).getD (choose C sizes u i (sizes.getD i 0)).2 0 : ℕ)) := by
  have key : ∀ (m : ℕ) (s0 : ℤ × ℕ × ℕ), s0.2.2 = sizes.getD s0.2.1 0 → s0.2.2 ≤ sizes.getD i 0 →
      ((s0.1, s0.2.1) = (u.dev, i) ∨ s0.1 = ((C.devs.map Dev.id).getD s0.2.1 0 : ℕ)) →
      ∀ s, s = (List.range m).foldl (fun (s : ℤ × ℕ × ℕ) j =>
        if sizes.getD j 0 < s.2.2 ∧ sizes.getD j 0 + 2 ^ u.qbc ≤ (C.devs.map Dev.maxSize).getD j 0 ∧
            u.qbc ≤ C.qbList.getD (j % C.qbList.length) 0
        then (((C.devs.map Dev.id).getD j 0 : ℕ), j, sizes.getD j 0) else s) s0 →
      (s.2.2 = sizes.getD s.2.1 0 ∧ s.2.2 ≤ sizes.getD i 0 ∧
        ((s.1, s.2.1) = (u.dev, i) ∨ s.1 = ((C.devs.map Dev.id).getD s.2.1 0 : ℕ))) ∧
        ∀ j < m, Fits C sizes u j → s.2.2 ≤ sizes.getD j 0 := by
    intro m
    induction m with
    | zero => rintro s0 h1 h2 h3 s rfl; exact ⟨⟨h1, h2, h3⟩, fun j hj => absurd hj (Nat.not_lt_zero j)⟩
    | succ m ih =>
      intro s0 h1 h2 h3 s hs
      rw [List.range_succ, List.foldl_append, List.foldl_cons, List.foldl_nil] at hs
      generalize ht : (List.range m).foldl _ s0 = t at hs
      obtain ⟨⟨g1, g2, g3⟩, g4⟩ := ih s0 h1 h2 h3 t ht.symm
      split_ifs at hs with hc
      · subst hs
        refine ⟨⟨rfl, hc.1.le.trans g2, Or.inr rfl⟩, fun j hj hf => ?_⟩
        rcases Nat.lt_succ_iff_lt_or_eq.1 hj with h | rfl
        · exact hc.1.le.trans (g4 j h hf)
        · exact le_rfl
      · subst hs
        refine ⟨⟨g1, g2, g3⟩, fun j hj hf => ?_⟩
        rcases Nat.lt_succ_iff_lt_or_eq.1 hj with h | rfl
        · exact g4 j h hf
        · by_contra hlt
          exact hc ⟨not_le.1 hlt, hf.1, hf.2⟩
  have h0 := key C.devs.length
    (if sizes.getD 0 0 < sizes.getD i 0 ∧ u.qbc ≤ C.qbList.getD 0 0 then (((C.devs.map Dev.id).getD 0 0 : ℕ), 0, sizes.getD 0 0)
      else (u.dev, i, sizes.getD i 0))
    (by split_ifs <;> rfl) (by split_ifs with h; exacts [h.1.le, le_rfl]) (by split_ifs; exacts [Or.inr rfl, Or.inl rfl]) _ rfl
  unfold choose
  dsimp only
  obtain ⟨⟨g1, g2, g3⟩, g4⟩ := h0
  refine ⟨fun j hj hf => ?_, ?_, g3⟩
  · rw [← g1]; exact g4 j hj hf
  · rw [← g1]; exact g2

/-- What a unit adds to the loads is its size, unless it is left alone. -/
theorem place_load {C : Cfg} {sizes : List ℕ} {u : U} {r : List ℕ × ℤ} (h : place C sizes u = .ok r) (hw : Within C sizes) :
    r.1.length = sizes.length ∧ (r.1.sum = sizes.sum ∨ r.1.sum = sizes.sum + 2 ^ u.qbc) := by
  rcases (place_spec h hw).2 with h | ⟨i, s, hs, -, h⟩
  · rw [h]; exact ⟨rfl, Or.inl rfl⟩
  · rw [h]
    exact ⟨List.length_set, Or.inr (sum_set _ _ _ _ hs)⟩

/-- With two devices or more, the first unit that is not left alone makes the distribution read outside of the list of loads if it is on
the device 0 and that is the default. -/
theorem redistribute_zero_wrong {C : Cfg} {u : U} {us : List U} (h2 : 2 ≤ C.devs.length) (hd : C.dflt = 0) (hu : u.dev = 0)
    (hs : ∀ q ∈ C.qbList, skips C u q = false) : redistribute C (u :: us) = .error .ub := by
  have hp : place C (List.replicate C.devs.length 0) u = .error .ub := by
    unfold place
    dsimp only
    by_cases hq : C.qbList = []
    · rw [if_pos hq]
    · rw [if_neg hq]
      have hlen : 0 < C.qbList.length := List.length_pos_iff.2 hq
      have hm : C.qbList.getD (deviceIndex C u % C.qbList.length) 0 ∈ C.qbList := by
        have hlt := Nat.mod_lt (deviceIndex C u) hlen
        rw [List.getD_eq_getElem?_getD, List.getElem?_eq_getElem hlt, Option.getD_some]
        exact List.getElem_mem hlt
      rw [hs _ hm, if_neg (by simp), (deviceIndex_zero_wrong hd hu).1]
      simp
  unfold redistribute
  rw [if_neg (by omega)]
  unfold placeAll
  rw [hp]

/-- Three devices; the environment asks for redistribution. -/
def three : Cfg := ⟨[⟨0, 1000⟩, ⟨1, 1000⟩, ⟨2, 1000⟩], [255], 0, true, false, 0⟩

example : deviceIndex three ⟨2, 5, false⟩ = 1 ∧ ¬onDevice three ⟨2, 5, false⟩ (deviceIndex three ⟨2, 5, false⟩) :=
  deviceIndex_third_wrong (a := ⟨0, 1000⟩) (b := ⟨1, 1000⟩) (c := ⟨2, 1000⟩) rfl rfl rfl (by decide) (by decide) rfl (by decide) (by decide)
example : onDevice three ⟨1, 5, false⟩ (deviceIndex three ⟨1, 5, false⟩) :=
  (deviceIndex_partial (d := ⟨1, 1000⟩) rfl (by decide) (by decide) rfl).2 rfl
example : redistribute three [⟨0, 5, false⟩] = .error .ub :=
  redistribute_zero_wrong (by decide) rfl rfl (by intro q _; simp [skips, three])
/-- Three units that all say they are on device 1: one stays, the others are moved to the devices with the lowest load. -/
example : redistribute three [⟨1, 5, false⟩, ⟨1, 4, false⟩, ⟨1, 3, false⟩] = .ok [16, 32, 8] := by rfl
example : place three [0, 32, 0] ⟨1, 4, false⟩ = .ok ([16, 32, 0], 0) := by rfl
example : [16, 32, 0].getD (choose three [16, 32, 0] ⟨1, 3, false⟩ 1 ([16, 32, 0].getD 1 0)).2 0 ≤ [16, 32, 0].getD 0 0 :=
  (choose_least (i := 1)).1 0 (by decide) (by constructor <;> decide)
example : Within three [16, 32, 8] :=
  redistribute_within (us := [⟨1, 5, false⟩, ⟨1, 4, false⟩, ⟨1, 3, false⟩]) (by rfl)
example : redistribute three [⟨1, 11, false⟩] = .error .badAlloc := by rfl

end Verif.UMulti
