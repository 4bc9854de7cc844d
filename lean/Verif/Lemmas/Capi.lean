import Verif.Model.Capi
import Mathlib.Logic.Equiv.Basic
import Mathlib.Data.Finset.Card
import Mathlib.Data.Finset.Range
import Mathlib.Order.Interval.Finset.Nat
import Mathlib.Data.List.Forall2

/-!
Helper lemmas for qubit ids.
-/

namespace Verif.Capi

/-- Ids with positions: every id once, every position once, and `own` is the qubit an id stands for. -/
structure Tracks (s : Sim) (own : ℕ → Option ℕ) : Prop where
  keys : (s.sh.map (·.1)).Nodup
  small : ∀ e ∈ s.sh, e.1 < 256
  vals : (s.sh.map (·.2)).Perm (List.range s.reg.length)
  toks : s.reg.Nodup
  own : ∀ q t, own q = some t ↔ ∃ p, (q, p) ∈ s.sh ∧ s.reg[p]? = some t

theorem key_unique {m : Shards} (h : (m.map (·.1)).Nodup) {k v v' : ℕ} (h1 : (k, v) ∈ m) (h2 : (k, v') ∈ m) : v = v' := by
  have := List.inj_on_of_nodup_map h h1 h2 rfl
  simpa using this

theorem val_unique {m : Shards} (h : (m.map (·.2)).Nodup) {k k' v : ℕ} (h1 : (k, v) ∈ m) (h2 : (k', v) ∈ m) : k = k' := by
  have := List.inj_on_of_nodup_map h h1 h2 rfl
  simpa using this

theorem mget_iff {m : Shards} (h : (m.map (·.1)).Nodup) (k v : ℕ) : mget m k = some v ↔ (k, v) ∈ m := by
  unfold mget
  constructor
  · intro h1
    rw [Option.map_eq_some_iff] at h1
    obtain ⟨⟨k', v'⟩, h2, h3⟩ := h1
    have h4 := List.find?_some h2
    have h5 := List.mem_of_find?_eq_some h2
    simp only [decide_eq_true_eq] at h4 h3
    subst h4 h3; exact h5
  · intro h1
    cases h2 : m.find? fun e => decide (e.1 = k) with
    | none =>
      rw [List.find?_eq_none] at h2
      exact absurd (h2 _ h1) (by simp)
    | some e =>
      obtain ⟨k', v'⟩ := e
      have h4 := List.find?_some h2
      have h5 := List.mem_of_find?_eq_some h2
      simp only [decide_eq_true_eq] at h4
      subst h4
      rw [key_unique h h5 h1]; rfl

theorem findValue_iff {m : Shards} (h : (m.map (·.2)).Nodup) (k v : ℕ) : findValue m v = some k ↔ (k, v) ∈ m := by
  unfold findValue
  constructor
  · intro h1
    rw [Option.map_eq_some_iff] at h1
    obtain ⟨⟨k', v'⟩, h2, h3⟩ := h1
    have h4 := List.find?_some h2
    have h5 := List.mem_of_find?_eq_some h2
    simp only [decide_eq_true_eq] at h4 h3
    subst h4 h3; exact h5
  · intro h1
    cases h2 : m.find? fun e => decide (e.2 = v) with
    | none =>
      rw [List.find?_eq_none] at h2
      exact absurd (h2 _ h1) (by simp)
    | some e =>
      obtain ⟨k', v'⟩ := e
      have h4 := List.find?_some h2
      have h5 := List.mem_of_find?_eq_some h2
      simp only [decide_eq_true_eq] at h4
      subst h4
      rw [val_unique h h5 h1]; rfl

theorem Tracks.vnodup {s : Sim} {own : ℕ → Option ℕ} (h : Tracks s own) : (s.sh.map (·.2)).Nodup :=
  h.vals.nodup_iff.mpr List.nodup_range

theorem Tracks.mem_lt {s : Sim} {own : ℕ → Option ℕ} (h : Tracks s own) {k v : ℕ} (hm : (k, v) ∈ s.sh) :
    v < s.reg.length :=
  List.mem_range.mp (h.vals.subset (List.mem_map.mpr ⟨(k, v), hm, rfl⟩))

theorem Tracks.exists_key {s : Sim} {own : ℕ → Option ℕ} (h : Tracks s own) {v : ℕ} (hv : v < s.reg.length) :
    ∃ k, (k, v) ∈ s.sh := by
  obtain ⟨⟨k, v'⟩, h1, h2⟩ := List.mem_map.mp (h.vals.symm.subset (List.mem_range.mpr hv))
  exact ⟨k, by rw [← h2]; exact h1⟩

theorem Tracks.addr {s : Sim} {own : ℕ → Option ℕ} (h : Tracks s own) {q p : ℕ} (hm : (q, p) ∈ s.sh) :
    Capi.addr s q = some p := by
  unfold Capi.addr
  rw [Nat.mod_eq_of_lt (h.small _ hm), mget_iff h.keys]; exact hm

theorem Tracks.live {s : Sim} {own : ℕ → Option ℕ} (h : Tracks s own) {q : ℕ} (hq : own q ≠ none) : ∃ p, (q, p) ∈ s.sh := by
  obtain ⟨t, ht⟩ := Option.ne_none_iff_exists'.mp hq
  obtain ⟨p, hp, -⟩ := (h.own q t).mp ht
  exact ⟨p, hp⟩

theorem Tracks.dead {s : Sim} {own : ℕ → Option ℕ} (h : Tracks s own) {q p : ℕ} (hm : (q, p) ∈ s.sh) : own q ≠ none := by
  have hp := h.mem_lt hm
  rw [(h.own q s.reg[p]).mpr ⟨p, hm, List.getElem?_eq_getElem hp⟩]
  simp

theorem swap_lt {a b n i : ℕ} (ha : a < n) (hb : b < n) (hi : i < n) : Equiv.swap a b i < n := by
  rw [Equiv.swap_apply_def]; split_ifs <;> assumption

theorem swapReg_get {r r' : List ℕ} {a b : ℕ} (h : swapReg r a b = some r') :
    a < r.length ∧ b < r.length ∧ r'.length = r.length ∧ ∀ i, r'[i]? = r[Equiv.swap a b i]? := by
  unfold swapReg at h
  split at h
  case h_2 => cases h
  rename_i x y hx hy
  obtain ⟨ha, hx⟩ := List.getElem?_eq_some_iff.mp hx
  obtain ⟨hb, hy⟩ := List.getElem?_eq_some_iff.mp hy
  rw [Option.some.injEq] at h
  subst h
  refine ⟨ha, hb, by simp, fun i => ?_⟩
  rw [Equiv.swap_apply_def]
  simp only [List.getElem?_set, List.length_set]
  split_ifs <;> subst_vars <;> simp_all

theorem swapReg_valid (r : List ℕ) {a b : ℕ} (ha : a < r.length) (hb : b < r.length) : ∃ r', swapReg r a b = some r' := by
  unfold swapReg
  rw [List.getElem?_eq_getElem ha, List.getElem?_eq_getElem hb]
  exact ⟨_, rfl⟩

theorem swapValues_eq {s : Sim} {own : ℕ → Option ℕ} (h : Tracks s own) {a b : ℕ} (ha : a < s.reg.length)
    (hb : b < s.reg.length) : swapValues s.sh a b = some (s.sh.map fun e => (e.1, Equiv.swap a b e.2)) := by
  obtain ⟨k1, h1⟩ := h.exists_key ha
  obtain ⟨k2, h2⟩ := h.exists_key hb
  unfold swapValues
  rw [(findValue_iff h.vnodup k1 a).mpr h1, (findValue_iff h.vnodup k2 b).mpr h2]
  simp only [Option.some.injEq]
  refine List.map_congr_left fun e he => ?_
  obtain ⟨k, v⟩ := e
  simp only
  by_cases e1 : k = k1
  · subst e1; rw [if_pos rfl, key_unique h.keys he h1, Equiv.swap_apply_left]
  by_cases e2 : k = k2
  · subst e2; rw [if_neg e1, if_pos rfl, key_unique h.keys he h2, Equiv.swap_apply_right]
  · rw [if_neg e1, if_neg e2, Equiv.swap_apply_of_ne_of_ne]
    · rintro rfl; exact e1 (val_unique h.vnodup he h1)
    · rintro rfl; exact e2 (val_unique h.vnodup he h2)

theorem relocate_tracks {s : Sim} {own : ℕ → Option ℕ} (h : Tracks s own) {a b : ℕ} (ha : a < s.reg.length)
    (hb : b < s.reg.length) : ∃ s', relocate s a b = some s' ∧ Tracks s' own ∧ s'.reg.length = s.reg.length ∧
      ∀ q p, (q, p) ∈ s'.sh ↔ (q, Equiv.swap a b p) ∈ s.sh := by
  obtain ⟨r, hr⟩ := swapReg_valid s.reg ha hb
  obtain ⟨-, -, hl, hg⟩ := swapReg_get hr
  have hmem : ∀ q p, (q, p) ∈ (s.sh.map fun e => (e.1, Equiv.swap a b e.2)) ↔ (q, Equiv.swap a b p) ∈ s.sh := by
    intro q p
    simp only [List.mem_map, Prod.mk.injEq]
    constructor
    · rintro ⟨⟨k, v⟩, h1, rfl, rfl⟩; rw [Equiv.swap_apply_self]; exact h1
    · intro h1; exact ⟨_, h1, rfl, Equiv.swap_apply_self a b p⟩
  refine ⟨⟨r, s.sh.map fun e => (e.1, Equiv.swap a b e.2)⟩, ?_, ⟨?_, ?_, ?_, ?_, ?_⟩, hl, hmem⟩
  · unfold relocate; rw [hr, swapValues_eq h ha hb]; rfl
  · simpa [List.map_map, Function.comp_def] using h.keys
  · rintro ⟨k, v⟩ he
    have := h.small _ ((hmem k v).mp he)
    exact this
  · rw [hl]
    have : ((s.sh.map fun e => (e.1, Equiv.swap a b e.2)).map (·.2)) = (s.sh.map (·.2)).map (Equiv.swap a b) := by
      simp [List.map_map, Function.comp_def]
    rw [this]
    refine (h.vals.map _).trans ?_
    rw [List.perm_ext_iff_of_nodup (List.Nodup.map (Equiv.swap a b).injective List.nodup_range) List.nodup_range]
    intro x
    simp only [List.mem_map, List.mem_range]
    constructor
    · rintro ⟨y, hy, rfl⟩; exact swap_lt ha hb hy
    · intro hx; exact ⟨Equiv.swap a b x, swap_lt ha hb hx, Equiv.swap_apply_self a b x⟩
  · rw [List.nodup_iff_injective_getElem] at *
    intro i j hij
    have hlen : ∀ i : Fin r.length, Equiv.swap a b i < s.reg.length := fun i => swap_lt ha hb (by have := i.2; omega)
    have e : ∀ i : Fin r.length, r[(i : ℕ)] = s.reg[Equiv.swap a b i]'(hlen i) := by
      intro i
      have := hg i
      rw [List.getElem?_eq_getElem i.2, List.getElem?_eq_getElem (hlen i), Option.some.injEq] at this
      exact this
    have h1 := h.toks
    rw [List.nodup_iff_injective_getElem] at h1
    have h2 := @h1 ⟨_, hlen i⟩ ⟨_, hlen j⟩ (by
      have := hij
      simp only at this ⊢
      rw [e i, e j] at this
      exact this)
    simp only [Fin.mk.injEq, EmbeddingLike.apply_eq_iff_eq] at h2
    exact Fin.ext h2
  · intro q t
    rw [h.own]
    constructor
    · rintro ⟨p, h1, h2⟩
      refine ⟨Equiv.swap a b p, (hmem _ _).mpr (by rwa [Equiv.swap_apply_self]), ?_⟩
      rw [hg, Equiv.swap_apply_self]; exact h2
    · rintro ⟨p, h1, h2⟩
      exact ⟨_, (hmem _ _).mp h1, by rw [← hg]; exact h2⟩

theorem positions_mem {s : Sim} {own : ℕ → Option ℕ} (h : Tracks s own) (qs : List ℕ) (hq : ∀ q ∈ qs, own q ≠ none) :
    ∃ ps, positions s qs = some ps ∧ List.Forall₂ (fun q p => (q, p) ∈ s.sh) qs ps := by
  induction qs with
  | nil => exact ⟨[], rfl, .nil⟩
  | cons q qs ih =>
    obtain ⟨ps, h1, h2⟩ := ih fun q hq' => hq q (List.mem_cons_of_mem _ hq')
    obtain ⟨p, hp⟩ := h.live (hq q List.mem_cons_self)
    refine ⟨p :: ps, ?_, .cons hp h2⟩
    rw [positions, h.addr hp, h1]; rfl

theorem forall2_lt {s : Sim} {own : ℕ → Option ℕ} (h : Tracks s own) {qs ps : List ℕ}
    (hf : List.Forall₂ (fun q p => (q, p) ∈ s.sh) qs ps) : ∀ p ∈ ps, p < s.reg.length := by
  induction hf with
  | nil => simp
  | cons h1 _ ih =>
    intro p hp
    rcases List.mem_cons.mp hp with rfl | hp
    · exact h.mem_lt h1
    · exact ih p hp

theorem forall2_nodup {s : Sim} {own : ℕ → Option ℕ} (h : Tracks s own) {qs ps : List ℕ}
    (hf : List.Forall₂ (fun q p => (q, p) ∈ s.sh) qs ps) (hn : qs.Nodup) : ps.Nodup := by
  induction hf with
  | nil => exact List.nodup_nil
  | @cons q p qs ps h1 h2 ih =>
    rw [List.nodup_cons] at hn ⊢
    refine ⟨fun hp => hn.1 ?_, ih hn.2⟩
    obtain ⟨i, hi, rfl⟩ := List.getElem_of_mem hp
    have hl := h2.length_eq
    have := (List.forall₂_iff_get.mp h2).2 i (by omega) hi
    simp only [List.get_eq_getElem] at this
    rw [val_unique h.vnodup h1 this]
    exact List.getElem_mem _

/-- The relocation loop keeps ids and qubits together. -/
theorem place_tracks {own : ℕ → Option ℕ} (start : ℕ) (bs : List ℕ) : ∀ (s : Sim) (i : ℕ), Tracks s own →
    (∀ b ∈ bs, b < s.reg.length) → start + i + bs.length ≤ s.reg.length →
    ∃ s', place s start i bs = some s' ∧ Tracks s' own ∧ s'.reg.length = s.reg.length := by
  induction bs with
  | nil => intro s i h _ _; exact ⟨s, rfl, h, rfl⟩
  | cons b bs ih =>
    intro s i h hb hlen
    rw [List.length_cons] at hlen
    obtain ⟨s1, e1, h1, l1, -⟩ := relocate_tracks h (a := start + i) (b := b) (by omega) (hb b List.mem_cons_self)
    obtain ⟨s', e2, h2, l2⟩ := ih s1 (i + 1) h1 (fun b hb' => by rw [l1]; exact hb b (List.mem_cons_of_mem _ hb'))
      (by omega)
    exact ⟨s', by rw [place, e1]; exact e2, h2, l2.trans l1⟩

/-- If no listed position is an earlier destination, each listed qubit ends at its destination, and ids elsewhere stay. -/
theorem place_pos {own : ℕ → Option ℕ} (start : ℕ) (bs : List ℕ) : ∀ (s s' : Sim) (i : ℕ) (qs : List ℕ), Tracks s own →
    List.Forall₂ (fun q p => (q, p) ∈ s.sh) qs bs → bs.Nodup →
    (∀ k (hk : k < bs.length), ∀ j < k, bs[k] ≠ start + i + j) → start + i + bs.length ≤ s.reg.length →
    place s start i bs = some s' →
    (∀ j (hj : j < qs.length), (qs[j], start + i + j) ∈ s'.sh) ∧
    (∀ q p, (q, p) ∈ s.sh → p ∉ bs → (∀ j < bs.length, p ≠ start + i + j) → (q, p) ∈ s'.sh) := by
  induction bs with
  | nil =>
    intro s s' i qs h hf _ _ _ hp
    cases hf
    rw [place, Option.some.injEq] at hp
    subst hp
    exact ⟨fun j hj => absurd hj (by simp), fun q p h _ _ => h⟩
  | cons b bs ih =>
    intro s s' i qs h hf hn hc hlen hp
    cases hf with
    | @cons q _ qs _ hq hf =>
    rw [List.length_cons] at hlen
    rw [List.nodup_cons] at hn
    obtain ⟨s1, e1, h1, l1, hm⟩ := relocate_tracks h (a := start + i) (b := b) (by omega) (h.mem_lt hq)
    rw [place, e1] at hp
    have hp : place s1 start (i + 1) bs = some s' := hp
    have hfix : ∀ k (hk : k < bs.length), Equiv.swap (start + i) b bs[k] = bs[k] := by
      intro k hk
      refine Equiv.swap_apply_of_ne_of_ne ?_ ?_
      · have := hc (k + 1) (by simpa using hk) 0 (by omega)
        simpa using this
      · intro e; exact hn.1 (e ▸ List.getElem_mem _)
    have hf1 : List.Forall₂ (fun q p => (q, p) ∈ s1.sh) qs bs := by
      rw [List.forall₂_iff_get] at hf ⊢
      refine ⟨hf.1, fun k hk hk' => ?_⟩
      have := hf.2 k hk hk'
      simp only [List.get_eq_getElem] at this ⊢
      rw [hm, hfix k hk']; exact this
    obtain ⟨a1, a2⟩ := ih s1 s' (i + 1) qs h1 hf1 hn.2 (fun k hk j hj => by
      have := hc (k + 1) (by simpa using hk) (j + 1) (by omega)
      simp only [List.getElem_cons_succ] at this
      intro e; exact this (by omega)) (by omega) hp
    constructor
    · intro j hj
      cases j with
      | zero =>
        simp only [List.getElem_cons_zero, Nat.add_zero]
        refine a2 q (start + i) ((hm _ _).mpr (by rw [Equiv.swap_apply_left]; exact hq)) ?_ ?_
        · intro hmem
          obtain ⟨k, hk, e⟩ := List.getElem_of_mem hmem
          exact hc (k + 1) (by simpa using hk) 0 (by omega) (by simpa using e)
        · intro j _; omega
      | succ j =>
        have := a1 j (by simpa using hj)
        simp only [List.getElem_cons_succ]
        rwa [show start + i + (j + 1) = start + (i + 1) + j by omega]
    · intro q' p' hq' hp' hd
      rw [List.mem_cons, not_or] at hp'
      refine a2 q' p' ((hm _ _).mpr ?_) hp'.2 fun j hj => ?_
      · rw [Equiv.swap_apply_of_ne_of_ne (by simpa using hd 0 (by simp)) hp'.1]; exact hq'
      · have := hd (j + 1) (by simpa using hj); omega

theorem least_spec {ps : List ℕ} (h : ps ≠ []) : ∃ m, least ps = some m ∧ m ∈ ps ∧ ∀ p ∈ ps, m ≤ p := by
  cases ps with
  | nil => exact absurd rfl h
  | cons p ps =>
    have : ∀ (ps : List ℕ) (a : ℕ), (ps.foldl min a = a ∨ ps.foldl min a ∈ ps) ∧ ps.foldl min a ≤ a ∧
        ∀ x ∈ ps, ps.foldl min a ≤ x := by
      intro ps
      induction ps with
      | nil => intro a; simp
      | cons b bs ih =>
        intro a
        obtain ⟨h1, h2, h3⟩ := ih (min a b)
        rw [List.foldl_cons]
        refine ⟨?_, h2.trans (min_le_left _ _), ?_⟩
        · rcases h1 with h1 | h1
          · rw [h1]
            rcases min_choice a b with e | e <;> rw [e]
            · exact Or.inl rfl
            · exact Or.inr List.mem_cons_self
          · exact Or.inr (List.mem_cons_of_mem _ h1)
        · intro x hx
          rcases List.mem_cons.mp hx with rfl | hx
          · exact h2.trans (min_le_right _ _)
          · exact h3 x hx
    obtain ⟨h1, h2, h3⟩ := this ps p
    refine ⟨_, rfl, ?_, ?_⟩
    · rcases h1 with h1 | h1
      · rw [h1]; exact List.mem_cons_self
      · exact List.mem_cons_of_mem _ h1
    · intro x hx
      rcases List.mem_cons.mp hx with rfl | hx
      · exact h2
      · exact h3 x hx

/-- Different numbers between `a` and `n` are at most `n - a` many. -/
theorem pigeon {l : List ℕ} (hn : l.Nodup) {a n : ℕ} (h : ∀ x ∈ l, a ≤ x ∧ x < n) (hne : l ≠ []) : a + l.length ≤ n := by
  have h1 : l.toFinset ⊆ Finset.Ico a n := by
    intro x hx
    rw [List.mem_toFinset] at hx
    exact Finset.mem_Ico.mpr (h x hx)
  have h2 := Finset.card_le_card h1
  rw [List.toFinset_card_of_nodup hn, Nat.card_Ico] at h2
  obtain ⟨x, hx⟩ := List.exists_mem_of_ne_nil l hne
  have := h x hx
  omega

theorem mset_perm {m : Shards} {k : ℕ} (v : ℕ) (h : k ∉ m.map (·.1)) : (mset m k v).Perm ((k, v) :: m) := by
  unfold mset
  rw [if_neg h]
  refine List.perm_middle.trans ?_
  rw [List.takeWhile_append_dropWhile]

/-- A new qubit with a new id at the end. -/
theorem allocate_tracks {s : Sim} {own : ℕ → Option ℕ} (h : Tracks s own) {q tok : ℕ} (hq : q < 256) (hf : own q = none)
    (ht : tok ∉ s.reg) : Tracks (allocate s q tok) (Function.update own q (some tok)) := by
  have hk : q ∉ s.sh.map (·.1) := by
    intro hm
    obtain ⟨⟨k, v⟩, h1, rfl⟩ := List.mem_map.mp hm
    exact h.dead h1 hf
  have hp := mset_perm s.reg.length hk
  have hs : (allocate s q tok).sh = mset s.sh q s.reg.length := by simp [allocate]
  have hr : (allocate s q tok).reg = s.reg ++ [tok] := rfl
  have hmem : ∀ e, e ∈ (allocate s q tok).sh ↔ e = (q, s.reg.length) ∨ e ∈ s.sh := by
    intro e; rw [hs, hp.mem_iff, List.mem_cons]
  constructor
  · rw [hs, (hp.map _).nodup_iff]
    exact List.nodup_cons.mpr ⟨hk, h.keys⟩
  · intro e he
    rcases (hmem e).mp he with rfl | he
    · exact hq
    · exact h.small e he
  · rw [hs, hr]
    refine (hp.map _).trans ?_
    simp only [List.map_cons, List.length_append, List.length_cons, List.length_nil, Nat.zero_add]
    rw [List.range_succ]
    exact (h.vals.cons _).trans (List.perm_append_singleton _ _).symm
  · rw [hr]
    exact List.nodup_append.mpr ⟨h.toks, List.nodup_singleton _, fun a ha b hb => by
      rintro rfl; rw [List.mem_singleton] at hb; exact ht (hb ▸ ha)⟩
  · intro q' t
    rw [Function.update_apply]
    split_ifs with he
    · subst he
      rw [Option.some.injEq]
      constructor
      · rintro rfl; exact ⟨s.reg.length, (hmem _).mpr (Or.inl rfl), by rw [hr]; simp⟩
      · rintro ⟨p, h1, h2⟩
        rcases (hmem _).mp h1 with e | e
        · rw [Prod.mk.injEq] at e
          rw [e.2, hr] at h2
          simpa using h2
        · exact absurd (List.mem_map.mpr ⟨_, e, rfl⟩) hk
    · rw [h.own]
      constructor
      · rintro ⟨p, h1, h2⟩
        refine ⟨p, (hmem _).mpr (Or.inr h1), ?_⟩
        rw [hr, List.getElem?_append_left (h.mem_lt h1)]; exact h2
      · rintro ⟨p, h1, h2⟩
        rcases (hmem _).mp h1 with e | e
        · rw [Prod.mk.injEq] at e; exact absurd e.1 he
        · refine ⟨p, e, ?_⟩
          rw [hr, List.getElem?_append_left (h.mem_lt e)] at h2; exact h2

/-- Where a position goes when position `p` is removed. -/
def down (p v : ℕ) : ℕ := if p < v then v - 1 else v

theorem closeGap_eq {m : Shards} (hk : (m.map (·.1)).Nodup) {q p : ℕ} (hm : (q, p) ∈ m) :
    closeGap m q = merase (m.map fun e => (e.1, down p e.2)) q := by
  have hmem : q ∈ m.map (·.1) := List.mem_map.mpr ⟨_, hm, rfl⟩
  unfold closeGap
  simp only [if_pos hmem, (mget_iff hk q p).mpr hm, Option.getD_some]
  congr 1
  refine List.map_congr_left fun e _ => ?_
  unfold down
  split_ifs <;> rfl

theorem closeGap_mem {m : Shards} (hk : (m.map (·.1)).Nodup) {q p : ℕ} (hm : (q, p) ∈ m) (k v : ℕ) :
    (k, v) ∈ closeGap m q ↔ k ≠ q ∧ ∃ v0, (k, v0) ∈ m ∧ v = down p v0 := by
  rw [closeGap_eq hk hm]
  unfold merase
  rw [List.mem_filter]
  simp only [List.mem_map, Prod.mk.injEq, ne_eq, decide_not, Bool.not_eq_true', decide_eq_false_iff_not, Prod.exists]
  constructor
  · rintro ⟨⟨a, b, h1, rfl, rfl⟩, h2⟩; exact ⟨h2, b, h1, rfl⟩
  · rintro ⟨h2, b, h1, rfl⟩; exact ⟨⟨k, b, h1, rfl, rfl⟩, h2⟩

/-- Removing a qubit with its id and closing the gap. -/
theorem erase_tracks {s : Sim} {own : ℕ → Option ℕ} (h : Tracks s own) {q p : ℕ} (hm : (q, p) ∈ s.sh) :
    Tracks ⟨s.reg.eraseIdx p, closeGap s.sh q⟩ (Function.update own q none) := by
  have hp := h.mem_lt hm
  have hmem := closeGap_mem h.keys hm
  have hkeys : ((closeGap s.sh q).map (·.1)).Nodup := by
    rw [closeGap_eq h.keys hm]
    unfold merase
    have h1 : ((s.sh.map fun e => (e.1, down p e.2)).map (·.1)).Nodup := by
      simpa [List.map_map, Function.comp_def] using h.keys
    exact h1.sublist (List.Sublist.map _ List.filter_sublist)
  have hne : ∀ k v0, (k, v0) ∈ s.sh → k ≠ q → v0 ≠ p := by
    rintro k v0 h1 h2 rfl; exact h2 (val_unique h.vnodup h1 hm)
  refine ⟨hkeys, ?_, ?_, ?_, ?_⟩
  · rintro ⟨k, v⟩ he
    obtain ⟨-, v0, h1, -⟩ := (hmem k v).mp he
    exact h.small (k, v0) h1
  · have hnd : ((closeGap s.sh q).map (·.2)).Nodup := by
      refine List.Nodup.map_on ?_ (List.Nodup.of_map _ hkeys)
      rintro ⟨k, v⟩ h1 ⟨k', v'⟩ h2 he
      simp only at he
      subst he
      obtain ⟨n1, v1, m1, e1⟩ := (hmem k v).mp h1
      obtain ⟨n2, v2, m2, e2⟩ := (hmem k' v).mp h2
      have a1 := hne k v1 m1 n1
      have a2 := hne k' v2 m2 n2
      have : v1 = v2 := by unfold down at e1 e2; split_ifs at e1 e2 <;> omega
      subst this
      rw [val_unique h.vnodup m1 m2]
    rw [List.perm_ext_iff_of_nodup hnd List.nodup_range]
    intro v
    simp only [List.mem_map, List.mem_range, Prod.exists, List.length_eraseIdx_of_lt hp]
    constructor
    · rintro ⟨k, v', h1, rfl⟩
      obtain ⟨n1, v1, m1, e1⟩ := (hmem k v').mp h1
      have a1 := hne k v1 m1 n1
      have a2 := h.mem_lt m1
      unfold down at e1; split_ifs at e1 <;> omega
    · intro hv
      have hex : ∃ v0, v0 < s.reg.length ∧ v0 ≠ p ∧ v = down p v0 := by
        by_cases hvp : v < p
        · exact ⟨v, by omega, by omega, by unfold down; rw [if_neg (by omega)]⟩
        · exact ⟨v + 1, by omega, by omega, by unfold down; rw [if_pos (by omega)]; omega⟩
      obtain ⟨v0, b1, b2, b3⟩ := hex
      obtain ⟨k, hk⟩ := h.exists_key b1
      refine ⟨k, v, (hmem k v).mpr ⟨?_, v0, hk, b3⟩, rfl⟩
      rintro rfl; exact b2 (key_unique h.keys hk hm)
  · exact h.toks.sublist (List.eraseIdx_sublist _ _)
  · intro q' t
    rw [Function.update_apply]
    have hget : ∀ v0, v0 ≠ p → (s.reg.eraseIdx p)[down p v0]? = s.reg[v0]? := by
      intro v0 hv
      rw [List.getElem?_eraseIdx]
      unfold down
      split_ifs with h1 h2 h2
      · omega
      · congr 1; omega
      · rfl
      · omega
    split_ifs with he
    · subst he
      constructor
      · intro h; cases h
      · rintro ⟨v, h1, -⟩; exact absurd rfl ((hmem _ _).mp h1).1
    · rw [h.own]
      constructor
      · rintro ⟨v0, h1, h2⟩
        exact ⟨down p v0, (hmem _ _).mpr ⟨he, v0, h1, rfl⟩, by rw [← h2]; exact hget v0 (hne _ _ h1 he)⟩
      · rintro ⟨v, h1, h2⟩
        obtain ⟨-, v0, m1, rfl⟩ := (hmem _ _).mp h1
        exact ⟨v0, m1, by rw [← h2]; exact (hget v0 (hne _ _ m1 he)).symm⟩

end Verif.Capi
