import Verif.Model.PairShots
import Mathlib.Data.List.Perm.Basic
import Mathlib.Data.Nat.Bitwise

/-!
# Lemmas for C73

Maps from values to counts as lists of shots.
-/

namespace Verif.Units

/-- Keys increase, counts are positive. -/
def Hist.WF (h : Hist) : Prop := h.Pairwise (fun a b => a.1 < b.1) ∧ ∀ e ∈ h, 0 < e.2

theorem expand_nil : Hist.expand [] = [] := rfl

theorem expand_cons (k c : ℕ) (h : Hist) : Hist.expand ((k, c) :: h) = List.replicate c k ++ Hist.expand h := rfl

theorem mem_expand {h : Hist} (hh : h.WF) {k : ℕ} : k ∈ h.expand ↔ k ∈ h.map Prod.fst := by
  unfold Hist.expand
  rw [List.mem_flatMap, List.mem_map]
  constructor
  · rintro ⟨e, he, hk⟩
    exact ⟨e, he, (List.eq_of_mem_replicate hk).symm⟩
  · rintro ⟨e, he, rfl⟩
    exact ⟨e, he, List.mem_replicate.2 ⟨by have := hh.2 e he; omega, rfl⟩⟩

theorem wf_tail {e : ℕ × ℕ} {h : Hist} (hh : Hist.WF (e :: h)) : h.WF :=
  ⟨(List.pairwise_cons.1 hh.1).2, fun f hf => hh.2 f (List.mem_cons_of_mem _ hf)⟩

theorem bump_expand (k : ℕ) : ∀ h : Hist, (h.bump k).expand.Perm (k :: h.expand)
  | [] => List.Perm.refl _
  | (a, c) :: l => by
    unfold Hist.bump
    split_ifs with h1 h2
    · rfl
    · subst h2
      rw [expand_cons, expand_cons, List.replicate_succ]
      rfl
    · rw [expand_cons, expand_cons]
      exact ((bump_expand k l).append_left _).trans List.perm_middle

theorem bump_keys (k : ℕ) : ∀ h : Hist, ∀ e ∈ h.bump k, e.1 = k ∨ ∃ f ∈ h, f.1 = e.1
  | [] => fun e he => Or.inl (by rw [List.mem_singleton.1 he])
  | (a, c) :: l => by
    intro e he
    unfold Hist.bump at he
    split_ifs at he with h1 h2
    · rcases List.mem_cons.1 he with rfl | he
      · exact Or.inl rfl
      · exact Or.inr ⟨e, he, rfl⟩
    · rcases List.mem_cons.1 he with rfl | he
      · exact Or.inl h2.symm
      · exact Or.inr ⟨e, List.mem_cons_of_mem _ he, rfl⟩
    · rcases List.mem_cons.1 he with rfl | he
      · exact Or.inr ⟨_, List.mem_cons_self, rfl⟩
      · rcases bump_keys k l e he with h | ⟨f, hf, h⟩
        · exact Or.inl h
        · exact Or.inr ⟨f, List.mem_cons_of_mem _ hf, h⟩

theorem bump_wf (k : ℕ) : ∀ h : Hist, h.WF → (h.bump k).WF
  | [] => fun _ => ⟨List.pairwise_singleton _ _, by intro e he; rw [List.mem_singleton.1 he]; exact Nat.one_pos⟩
  | (a, c) :: l => by
    intro hh
    have ht := wf_tail hh
    have ha := (List.pairwise_cons.1 hh.1).1
    unfold Hist.bump
    split_ifs with h1 h2
    · refine ⟨List.pairwise_cons.2 ⟨fun e he => ?_, hh.1⟩, fun e he => ?_⟩
      · rcases List.mem_cons.1 he with rfl | he
        · exact h1
        · exact h1.trans (ha e he)
      · rcases List.mem_cons.1 he with rfl | he
        · exact Nat.one_pos
        · exact hh.2 e he
    · refine ⟨List.pairwise_cons.2 ⟨fun e he => ha e he, ht.1⟩, fun e he => ?_⟩
      rcases List.mem_cons.1 he with rfl | he
      · exact Nat.succ_pos _
      · exact ht.2 e he
    · have hb := bump_wf k l ht
      refine ⟨List.pairwise_cons.2 ⟨fun e he => ?_, hb.1⟩, fun e he => ?_⟩
      · rcases bump_keys k l e he with h | ⟨f, hf, h⟩
        · rw [h]; show a < k; omega
        · rw [← h]; exact ha f hf
      · rcases List.mem_cons.1 he with rfl | he
        · exact hh.2 _ List.mem_cons_self
        · exact hb.2 e he

theorem put_mem {k v : ℕ} : ∀ {h : Hist}, k ∉ h.map Prod.fst → ∀ e, e ∈ h.put k v ↔ e = (k, v) ∨ e ∈ h
  | [], _, e => by simp [Hist.put]
  | (a, c) :: l, hk, e => by
    rw [List.map_cons, List.mem_cons, not_or] at hk
    unfold Hist.put
    rw [if_neg (show ¬ k = a from hk.1)]
    split_ifs with h1
    · rw [List.mem_cons]
    · rw [List.mem_cons, put_mem hk.2, List.mem_cons]
      tauto

theorem put_expand {k v : ℕ} : ∀ {h : Hist}, k ∉ h.map Prod.fst → (h.put k v).expand.Perm (List.replicate v k ++ h.expand)
  | [], _ => List.Perm.refl _
  | (a, c) :: l, hk => by
    rw [List.map_cons, List.mem_cons, not_or] at hk
    unfold Hist.put
    rw [if_neg (show ¬ k = a from hk.1)]
    split_ifs with h1
    · rfl
    · rw [expand_cons, expand_cons]
      exact ((put_expand hk.2).append_left _).trans (List.perm_append_comm_assoc _ _ _)

theorem put_wf {k v : ℕ} (hv : 0 < v) : ∀ {h : Hist}, k ∉ h.map Prod.fst → h.WF → (h.put k v).WF
  | [], _, _ => ⟨List.pairwise_singleton _ _, by intro e he; rw [List.mem_singleton.1 he]; exact hv⟩
  | (a, c) :: l, hk, hh => by
    rw [List.map_cons, List.mem_cons, not_or] at hk
    have ha := (List.pairwise_cons.1 hh.1).1
    have hk1 : ¬ k = a := hk.1
    unfold Hist.put
    rw [if_neg hk1]
    split_ifs with h1
    · refine ⟨List.pairwise_cons.2 ⟨fun e he => ?_, hh.1⟩, fun e he => ?_⟩
      · rcases List.mem_cons.1 he with rfl | he
        · exact h1
        · exact h1.trans (ha e he)
      · rcases List.mem_cons.1 he with rfl | he
        · exact hv
        · exact hh.2 e he
    · have hb := put_wf hv hk.2 (wf_tail hh)
      refine ⟨List.pairwise_cons.2 ⟨fun e he => ?_, hb.1⟩, fun e he => ?_⟩
      · rcases (put_mem hk.2 e).1 he with rfl | h
        · show a < k; omega
        · exact ha e h
      · rcases List.mem_cons.1 he with rfl | he
        · exact hh.2 _ List.mem_cons_self
        · exact hb.2 e he

/-- Keys of a map are sent to other keys, one to one. -/
theorem fold_put (f : ℕ → ℕ) : ∀ (l : Hist) (m : Hist), l.WF → m.WF → (∀ a ∈ l, ∀ b ∈ l, f a.1 = f b.1 → a.1 = b.1) →
    (∀ a ∈ l, f a.1 ∉ m.map Prod.fst) →
    Hist.WF (l.foldl (fun m e => Hist.put (f e.1) e.2 m) m) ∧
      (Hist.expand (l.foldl (fun m e => Hist.put (f e.1) e.2 m) m)).Perm (m.expand ++ l.expand.map f)
  | [], m, _, hm, _, _ => ⟨hm, by rw [expand_nil, List.map_nil, List.append_nil]; rfl⟩
  | (a, c) :: l, m, hl, hm, hf, hn => by
    have ha := (List.pairwise_cons.1 hl.1).1
    have hna : f a ∉ m.map Prod.fst := hn _ List.mem_cons_self
    have hc : 0 < c := hl.2 _ List.mem_cons_self
    obtain ⟨h1, h2⟩ := fold_put f l (m.put (f a) c) (wf_tail hl) (put_wf hc hna hm)
      (fun x hx y hy => hf x (List.mem_cons_of_mem _ hx) y (List.mem_cons_of_mem _ hy)) (by
        intro x hx hmem
        rw [List.mem_map] at hmem
        obtain ⟨e, he, hex⟩ := hmem
        rcases (put_mem hna e).1 he with rfl | he
        · have := hf (a, c) List.mem_cons_self x (List.mem_cons_of_mem _ hx) hex
          have := ha x hx
          dsimp only at *
          omega
        · exact hn x (List.mem_cons_of_mem _ hx) (List.mem_map.2 ⟨e, he, hex⟩))
    refine ⟨h1, h2.trans ?_⟩
    rw [expand_cons, List.map_append, List.map_replicate]
    refine ((put_expand hna).append_right _).trans ?_
    rw [List.append_assoc]
    exact List.perm_append_comm_assoc _ _ _

/-- A draw below the number of shots takes one of them. -/
theorem take_spec (pick : ℕ) : ∀ (h : Hist) (acc : ℕ), h.WF → pick < acc + h.expand.length →
    (h ≠ []) → ∃ k h', h.take pick acc = some (k, h') ∧ h.expand.Perm (k :: h'.expand) ∧ h'.WF ∧ ∀ e ∈ h', ∃ f ∈ h, f.1 = e.1
  | [], _, _, _, h => absurd rfl h
  | (k, c) :: l, acc, hh, hp, _ => by
    have hc : 0 < c := hh.2 _ List.mem_cons_self
    unfold Hist.take
    rw [expand_cons, List.length_append, List.length_replicate] at hp
    split_ifs with h1 h2 h3
    · have hl : l ≠ [] := by
        rintro rfl
        rw [expand_nil, List.length_nil] at hp
        omega
      obtain ⟨k', h', e, hperm, hw, hk⟩ := take_spec pick l (acc + c) (wf_tail hh) (by omega) hl
      refine ⟨k', (k, c) :: h', by rw [e]; rfl, ?_, ⟨List.pairwise_cons.2 ⟨fun e he => ?_, hw.1⟩, fun e he => ?_⟩, fun e he => ?_⟩
      · rw [expand_cons, expand_cons]
        exact (hperm.append_left _).trans List.perm_middle
      · obtain ⟨f, hf, hfe⟩ := hk e he
        rw [← hfe]
        exact (List.pairwise_cons.1 hh.1).1 f hf
      · rcases List.mem_cons.1 he with rfl | he
        · exact hc
        · exact hw.2 e he
      · rcases List.mem_cons.1 he with rfl | he
        · exact ⟨_, List.mem_cons_self, rfl⟩
        · obtain ⟨f, hf, hfe⟩ := hk e he
          exact ⟨f, List.mem_cons_of_mem _ hf, hfe⟩
    · omega
    · subst h3
      exact ⟨k, l, rfl, List.Perm.refl _, wf_tail hh, fun e he => ⟨e, List.mem_cons_of_mem _ he, rfl⟩⟩
    · obtain ⟨c', rfl⟩ : ∃ c', c = c' + 1 := ⟨c - 1, by omega⟩
      refine ⟨k, _, rfl, ?_, ⟨List.pairwise_cons.2 ⟨fun e he => (List.pairwise_cons.1 hh.1).1 e he, (wf_tail hh).1⟩, fun e he => ?_⟩, fun e he => ?_⟩
      · rw [expand_cons, expand_cons, List.replicate_succ]
        rfl
      · rcases List.mem_cons.1 he with rfl | he
        · show 0 < c' + 1 - 1
          omega
        · exact (wf_tail hh).2 e he
      · rcases List.mem_cons.1 he with rfl | he
        · exact ⟨_, List.mem_cons_self, rfl⟩
        · exact ⟨e, List.mem_cons_of_mem _ he, rfl⟩

/-- The pairing uses every shot of both sides once. -/
theorem pair_fold (picks : ℕ → ℕ) : ∀ (K : List ℕ) (s : PairSt), s.top.WF → s.res.WF → s.left = K.length → s.top.expand.length = K.length →
    ∃ s' B, K.foldlM (pairStep picks) s = some s' ∧ B.Perm s.top.expand ∧ B.length = K.length ∧ s'.res.WF ∧
      s'.res.expand.Perm (s.res.expand ++ List.zipWith (fun a b => a ||| b) K B)
  | [], s, _, hr, _, hs => by
    refine ⟨s, [], rfl, ?_, rfl, hr, by simp⟩
    rw [List.eq_nil_of_length_eq_zero hs]
  | a :: K, s, ht, hr, hl, hs => by
    rw [List.length_cons] at hl hs
    obtain ⟨b, top', e, hperm, hw, -⟩ := take_spec (if s.left ≤ picks s.left then s.left - 1 else picks s.left) s.top 0 ht (by
      split_ifs <;> omega) (by rintro h0; rw [h0, expand_nil, List.length_nil] at hs; omega)
    have hlen : top'.expand.length = K.length := by
      have := hperm.length_eq
      rw [List.length_cons] at this
      omega
    obtain ⟨s', B, e', hB, hBl, hw', hres⟩ := pair_fold picks K { left := s.left - 1, top := top', res := s.res.bump (a ||| b) } hw
      (bump_wf _ _ hr) (by dsimp only; omega) hlen
    refine ⟨s', b :: B, ?_, (hB.cons b).trans hperm.symm, by simp [hBl], hw', hres.trans ?_⟩
    · rw [List.foldlM_cons]
      unfold pairStep
      rw [e]
      exact e'
    · rw [List.zipWith_cons_cons]
      refine ((bump_expand _ _).append_right _).trans ?_
      exact (List.perm_middle).symm

theorem head_all {h : Hist} (hh : h.WF) {shots : ℕ} (hs : h.expand.length = shots) {k : ℕ} (hk : h.head? = some (k, shots)) : h = [(k, shots)] := by
  cases h with
  | nil => simp at hk
  | cons e l =>
    rw [List.head?_cons, Option.some_inj] at hk
    subst hk
    rw [expand_cons, List.length_append, List.length_replicate] at hs
    cases l with
    | nil => rfl
    | cons f l =>
      exfalso
      have hf : 0 < f.2 := hh.2 f (by simp)
      obtain ⟨f1, f2⟩ := f
      rw [expand_cons, List.length_append, List.length_replicate] at hs
      dsimp only at hf
      omega

theorem expand_one (k c : ℕ) : Hist.expand [(k, c)] = List.replicate c k := by rw [expand_cons, expand_nil, List.append_nil]

theorem or_inj {a b c : ℕ} (ha : a &&& c = 0) (hb : b &&& c = 0) (h : a ||| c = b ||| c) : a = b := by
  refine Nat.eq_of_testBit_eq fun i => ?_
  have h1 := congrArg (fun x => x.testBit i) ha
  have h2 := congrArg (fun x => x.testBit i) hb
  have h3 := congrArg (fun x => x.testBit i) h
  simp only [Nat.testBit_and, Nat.testBit_or, Nat.zero_testBit] at h1 h2 h3
  revert h1 h2 h3
  cases a.testBit i <;> cases b.testBit i <;> cases c.testBit i <;> simp

/-- Counts of one more unit: the result is a pairing of the shots of both. -/
theorem combine_spec {shots : ℕ} (hpos : 0 < shots) (picks : ℕ → ℕ) {c t : Hist} (hc : c.WF) (ht : t.WF) (hcs : c.expand.length = shots)
    (hts : t.expand.length = shots) (hd : ∀ a ∈ c.expand, ∀ b ∈ t.expand, a &&& b = 0) :
    ∃ r, combine shots picks c t = some r ∧ r.WF ∧ ∃ pairs : List (ℕ × ℕ), (pairs.map Prod.fst).Perm c.expand ∧
      (pairs.map Prod.snd).Perm t.expand ∧ r.expand.Perm (pairs.map fun p => p.1 ||| p.2) := by
  have key : ∀ (c t : Hist), c.WF → t.WF → c.expand.length = shots → t.expand.length = shots →
      (∀ a ∈ c.expand, ∀ b ∈ t.expand, a &&& b = 0) →
      ∃ r, pairMaps shots picks c t = some r ∧ r.WF ∧
      ∃ pairs : List (ℕ × ℕ), (pairs.map Prod.fst).Perm c.expand ∧
        (pairs.map Prod.snd).Perm t.expand ∧ r.expand.Perm (pairs.map fun p => p.1 ||| p.2) := by
    intro c t hc ht hcs hts hd
    have general : ∃ r, (c.expand.foldlM (pairStep picks) { left := shots, top := t, res := [] }).map PairSt.res = some r ∧ r.WF ∧
        ∃ pairs : List (ℕ × ℕ), (pairs.map Prod.fst).Perm c.expand ∧
          (pairs.map Prod.snd).Perm t.expand ∧ r.expand.Perm (pairs.map fun p => p.1 ||| p.2) := by
      obtain ⟨s', B, e, hB, hBl, hw, hres⟩ := pair_fold picks c.expand { left := shots, top := t, res := [] } ht
        ⟨List.Pairwise.nil, by simp⟩ hcs.symm (by rw [hcs]; exact hts)
      refine ⟨s'.res, by rw [e]; rfl, hw, c.expand.zip B, ?_, ?_, ?_⟩
      · rw [List.map_fst_zip (by omega)]
      · rw [List.map_snd_zip (by omega)]; exact hB
      · refine hres.trans ?_
        rw [expand_nil, List.nil_append, List.zip, List.map_zipWith]
    match t, general with
    | [], g => exact g
    | [e], _ =>
      obtain ⟨k, v⟩ := e
      rw [expand_one, List.length_replicate] at hts
      subst hts
      have hk : ∀ a ∈ c, a.1 &&& k = 0 := fun a ha => hd a.1 ((mem_expand hc).2 (List.mem_map_of_mem ha)) k
        (by rw [expand_one]; exact List.mem_replicate.2 ⟨by omega, rfl⟩)
      obtain ⟨h1, h2⟩ := fold_put (fun a => a ||| k) c [] hc ⟨List.Pairwise.nil, by simp⟩
        (fun a ha b hb h => or_inj (hk a ha) (hk b hb) h) (by simp)
      refine ⟨_, rfl, h1, c.expand.map fun a => (a, k), ?_, ?_, ?_⟩
      · rw [List.map_map]
        exact (List.map_id _).symm ▸ List.Perm.refl _
      · rw [List.map_map, expand_one]
        have : (Prod.snd ∘ fun a : ℕ => (a, k)) = fun _ => k := rfl
        rw [this, List.map_const', hcs]
      · rw [List.map_map]
        exact h2
    | e :: f :: l, g => exact g
  unfold combine
  rw [if_neg (by rintro rfl; rw [expand_nil, List.length_nil] at hts; omega)]
  split_ifs with h1 h2 hlt
  · have := head_all ht hts h1
    subst this
    refine ⟨c, rfl, hc, c.expand.map fun a => (a, 0), ?_, ?_, ?_⟩
    · rw [List.map_map]
      exact (List.map_id _).symm ▸ List.Perm.refl _
    · rw [List.map_map, expand_one]
      have : (Prod.snd ∘ fun a : ℕ => (a, 0)) = fun _ => 0 := rfl
      rw [this, List.map_const', hcs]
    · rw [List.map_map]
      have : ((fun p : ℕ × ℕ => p.1 ||| p.2) ∘ fun a : ℕ => (a, 0)) = id := by funext a; simp
      rw [this, List.map_id]
  · have := head_all hc hcs h2
    subst this
    refine ⟨t, rfl, ht, t.expand.map fun a => (0, a), ?_, ?_, ?_⟩
    · rw [List.map_map, expand_one]
      have : (Prod.fst ∘ fun a : ℕ => (0, a)) = fun _ => 0 := rfl
      rw [this, List.map_const', hts]
    · rw [List.map_map]
      exact (List.map_id _).symm ▸ List.Perm.refl _
    · rw [List.map_map]
      have : ((fun p : ℕ × ℕ => p.1 ||| p.2) ∘ fun a : ℕ => (0, a)) = id := by funext a; simp
      rw [this, List.map_id]
  · obtain ⟨r, e, hw, pairs, p1, p2, p3⟩ := key t c ht hc hts hcs (fun a ha b hb => by rw [Nat.and_comm]; exact hd b hb a ha)
    refine ⟨r, e, hw, pairs.map Prod.swap, ?_, ?_, ?_⟩
    · rw [List.map_map]; exact p2
    · rw [List.map_map]; exact p1
    · rw [List.map_map]
      refine p3.trans (List.Perm.of_eq (List.map_congr_left fun p _ => ?_))
      exact Nat.or_comm _ _
  · exact key c t hc ht hcs hts hd

/-! ### Spreading a value over positions -/

open Classical in
theorem spread_testBit (pos : List ℕ) (v i : ℕ) : (spread pos v).testBit i = decide (∃ j, pos[j]? = some i ∧ v.testBit j = true) := by
  unfold spread
  have gen : ∀ (l : List (ℕ × ℕ)) (m : ℕ), (l.foldl (fun m p => if v.testBit p.2 = true then m ||| 2 ^ p.1 else m) m).testBit i =
      (m.testBit i || decide (∃ p ∈ l, p.1 = i ∧ v.testBit p.2 = true)) := by
    intro l
    induction l with
    | nil => intro m; simp
    | cons p l ih =>
      intro m
      rw [List.foldl_cons, ih]
      by_cases hv : v.testBit p.2 = true
      · rw [if_pos hv, Nat.testBit_or, Nat.testBit_two_pow]
        by_cases hp : p.1 = i
        · simp [hp, hv]
        · simp [hp]
      · rw [if_neg hv]
        simp [hv]
  rw [gen, Nat.zero_testBit, Bool.false_or]
  congr 1
  refine propext ⟨?_, ?_⟩
  · rintro ⟨p, hp, h1, h2⟩
    refine ⟨p.2, ?_, h2⟩
    rw [List.mem_zipIdx_iff_getElem?] at hp
    rw [hp, h1]
  · rintro ⟨j, h1, h2⟩
    exact ⟨(i, j), List.mem_zipIdx_iff_getElem?.2 h1, rfl, h2⟩

/-- The bits of `k` at the positions. -/
def gather (pos : List ℕ) (k : ℕ) : ℕ := (List.range pos.length).foldl (fun a j => if k.testBit (pos.getD j 0) = true then a ||| 2 ^ j else a) 0

theorem gather_testBit (pos : List ℕ) (k j : ℕ) : (gather pos k).testBit j = (decide (j < pos.length) && k.testBit (pos.getD j 0)) := by
  unfold gather
  have gen : ∀ (l : List ℕ) (m : ℕ), (l.foldl (fun a j => if k.testBit (pos.getD j 0) = true then a ||| 2 ^ j else a) m).testBit j =
      (m.testBit j || (decide (j ∈ l) && k.testBit (pos.getD j 0))) := by
    intro l
    induction l with
    | nil => intro m; simp
    | cons p l ih =>
      intro m
      rw [List.foldl_cons, ih]
      by_cases hj : j = p
      · subst hj
        cases hk : k.testBit (pos.getD j 0) <;> simp [hk]
      · have h1 : (if k.testBit (pos.getD p 0) = true then m ||| 2 ^ p else m).testBit j = m.testBit j := by
          split_ifs
          · rw [Nat.testBit_or, Nat.testBit_two_pow]
            rw [decide_eq_false (fun h : p = j => hj h.symm), Bool.or_false]
          · rfl
        rw [h1]
        simp [hj]
  rw [gen, Nat.zero_testBit, Bool.false_or]
  simp

open Classical in
/-- What was spread can be gathered, even if bits at other positions are added. -/
theorem gather_spread {pos : List ℕ} (hn : pos.Nodup) {v : ℕ} (hv : v < 2 ^ pos.length) {b : ℕ} (hb : ∀ p ∈ pos, b.testBit p = false) :
    gather pos (b ||| spread pos v) = v := by
  refine Nat.eq_of_testBit_eq fun j => ?_
  rw [gather_testBit]
  by_cases hj : j < pos.length
  · have hg : pos.getD j 0 = pos[j] := by simp [hj]
    rw [hg, Nat.testBit_or, hb _ (List.getElem_mem hj), Bool.false_or, spread_testBit, decide_eq_true hj, Bool.true_and]
    rw [Bool.eq_iff_iff, decide_eq_true_iff]
    constructor
    · rintro ⟨i, h1, h2⟩
      obtain ⟨hi, h1⟩ := List.getElem?_eq_some_iff.1 h1
      rw [(List.Nodup.getElem_inj_iff hn).1 h1] at h2
      exact h2
    · exact fun h => ⟨j, List.getElem?_eq_getElem hj, h⟩
  · rw [decide_eq_false hj, Bool.false_and]
    exact (Nat.testBit_lt_two_pow (lt_of_lt_of_le hv (Nat.pow_le_pow_right (by norm_num) (by omega)))).symm

open Classical in
theorem spread_off {pos : List ℕ} {v i : ℕ} (hi : i ∉ pos) : (spread pos v).testBit i = false := by
  rw [spread_testBit, decide_eq_false_iff_not]
  rintro ⟨j, h1, -⟩
  exact hi (List.mem_of_getElem? h1)

theorem gather_or {pos : List ℕ} {a b : ℕ} (hb : ∀ p ∈ pos, b.testBit p = false) : gather pos (a ||| b) = gather pos a := by
  refine Nat.eq_of_testBit_eq fun j => ?_
  rw [gather_testBit, gather_testBit, Nat.testBit_or]
  by_cases hj : j < pos.length
  · have hg : pos.getD j 0 = pos[j] := by simp [hj]
    rw [hg, hb _ (List.getElem_mem hj), Bool.or_false]
  · rw [decide_eq_false hj, Bool.false_and, Bool.false_and]

theorem topLevel_spec {pos : List ℕ} (hn : pos.Nodup) {h : Hist} (hh : h.WF) (hk : ∀ v ∈ h.expand, v < 2 ^ pos.length) :
    (topLevel pos h).WF ∧ (topLevel pos h).expand.Perm (h.expand.map (spread pos)) := by
  have hv : ∀ a ∈ h, a.1 < 2 ^ pos.length := fun a ha => hk a.1 ((mem_expand hh).2 (List.mem_map_of_mem ha))
  obtain ⟨h1, h2⟩ := fold_put (spread pos) h [] hh ⟨List.Pairwise.nil, by simp⟩ (by
    intro a ha b hb he
    have h1 := gather_spread hn (hv a ha) (b := 0) (by simp)
    have h2 := gather_spread hn (hv b hb) (b := 0) (by simp)
    rw [← h1, ← h2, he]) (by simp)
  exact ⟨h1, h2⟩

end Verif.Units
