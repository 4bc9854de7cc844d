import Verif.Lemmas.PairShots
import Verif.Lemmas.UnitCliffordOps

/-!
# C73: many shots over several units

`MultiShotMeasureMask` of `QUnitClifford` and `QUnit` asks every unit for its shots and puts the answers together. Whatever is drawn, no
shot is lost or used twice: the result has the number of shots asked for, and the shots restricted to the qubits of a unit are those that
the unit returned. But shots of different units are not paired at random: a draw stops one place too early, so that the pairs depend on the
order of the values, and for two shots do not depend on the draws at all.
-/

namespace Verif.Units

open Verif.Stab

variable {n : ℕ}

/-- The loop over the units, with what is already there. -/
theorem pairUnits_spec {shots : ℕ} (hpos : 0 < shots) : ∀ (us : List (List ℕ × Hist × (ℕ → ℕ))) (h : Hist) (P : ℕ → Prop), h.WF → h.expand.length = shots →
    (∀ k ∈ h.expand, ∀ i, k.testBit i = true → P i) → (∀ u ∈ us, u.1.Nodup ∧ (∀ i ∈ u.1, ¬ P i) ∧ u.2.1.WF ∧ u.2.1.expand.length = shots ∧
      ∀ v ∈ u.2.1.expand, v < 2 ^ u.1.length) → us.Pairwise (fun u w => ∀ i ∈ u.1, i ∉ w.1) →
    ∃ r, pairUnits shots us h = some r ∧ r.WF ∧ r.expand.length = shots ∧
      (∀ u ∈ us, (r.expand.map (gather u.1)).Perm u.2.1.expand) ∧
      ∀ pos : List ℕ, (∀ i ∈ pos, P i) → (r.expand.map (gather pos)).Perm (h.expand.map (gather pos))
  | [], h, P, hh, hs, _, _, _ => ⟨h, rfl, hh, hs, by simp, fun _ _ => List.Perm.refl _⟩
  | (pos, H, picks) :: us, h, P, hh, hs, hP, hus, hpw => by
    obtain ⟨hn, hoff, hHw, hHs, hHk⟩ := hus _ List.mem_cons_self
    dsimp only at hn hoff hHw hHs hHk
    obtain ⟨hpw1, hpw2⟩ := List.pairwise_cons.1 hpw
    obtain ⟨tw, tp⟩ := topLevel_spec hn hHw hHk
    have htop : ∀ b ∈ (topLevel pos H).expand, ∃ v ∈ H.expand, spread pos v = b := fun b hb => List.mem_map.1 (tp.mem_iff.1 hb)
    obtain ⟨r1, e1, w1, pairs, p1, p2, p3⟩ := combine_spec hpos picks hh tw hs (by rw [tp.length_eq, List.length_map, hHs]) (by
      intro a ha b hb
      obtain ⟨v, -, rfl⟩ := htop b hb
      refine Nat.eq_of_testBit_eq fun i => ?_
      rw [Nat.testBit_and, Nat.zero_testBit]
      by_cases hi : i ∈ pos
      · have : a.testBit i = false := by
          by_contra hne
          exact hoff i hi (hP a ha i (by simpa using hne))
        rw [this, Bool.false_and]
      · rw [spread_off hi, Bool.and_false])
    have hl1 : r1.expand.length = shots := by
      rw [p3.length_eq, List.length_map, ← List.length_map Prod.fst, p1.length_eq, hs]
    have hfst : ∀ p ∈ pairs, p.1 ∈ h.expand := fun p hp => p1.mem_iff.1 (List.mem_map_of_mem hp)
    have hsnd : ∀ p ∈ pairs, ∃ v ∈ H.expand, spread pos v = p.2 := fun p hp => htop _ (p2.mem_iff.1 (List.mem_map_of_mem hp))
    have hp1off : ∀ p ∈ pairs, ∀ i ∈ pos, p.1.testBit i = false := by
      intro p hp i hi
      by_contra hne
      exact hoff i hi (hP _ (hfst p hp) i (by simpa using hne))
    have hself : (r1.expand.map (gather pos)).Perm H.expand := by
      refine (p3.map _).trans ?_
      rw [List.map_map]
      have e : pairs.map (gather pos ∘ fun p => p.1 ||| p.2) = (pairs.map Prod.snd).map (gather pos) := by
        rw [List.map_map]
        refine List.map_congr_left fun p hp => ?_
        show gather pos (p.1 ||| p.2) = gather pos p.2
        rw [Nat.or_comm, gather_or (hp1off p hp)]
      rw [e]
      refine (p2.map _).trans ((tp.map _).trans ?_)
      rw [List.map_map]
      refine List.Perm.of_eq ((List.map_congr_left fun v hv => ?_).trans (List.map_id _))
      have := gather_spread hn (hHk v hv) (b := 0) (by simp)
      rwa [Nat.zero_or] at this
    have hold : ∀ pos' : List ℕ, (∀ i ∈ pos', P i) → (r1.expand.map (gather pos')).Perm (h.expand.map (gather pos')) := by
      intro pos' hpos'
      refine (p3.map _).trans ?_
      rw [List.map_map]
      have e : pairs.map (gather pos' ∘ fun p => p.1 ||| p.2) = (pairs.map Prod.fst).map (gather pos') := by
        rw [List.map_map]
        refine List.map_congr_left fun p hp => ?_
        show gather pos' (p.1 ||| p.2) = gather pos' p.1
        refine gather_or fun i hi => ?_
        obtain ⟨v, -, hv⟩ := hsnd p hp
        rw [← hv]
        exact spread_off fun hmem => hoff i hmem (hpos' i hi)
      rw [e]
      exact p1.map _
    obtain ⟨r, e, w, hl, hu, hk⟩ := pairUnits_spec hpos us r1 (fun i => P i ∨ i ∈ pos) w1 hl1 (by
        intro k hk i hi
        obtain ⟨p, hp, rfl⟩ := List.mem_map.1 (p3.mem_iff.1 hk)
        rw [Nat.testBit_or, Bool.or_eq_true] at hi
        rcases hi with hi | hi
        · exact Or.inl (hP _ (hfst p hp) i hi)
        · obtain ⟨v, -, hv⟩ := hsnd p hp
          by_contra hne
          push Not at hne
          rw [← hv, spread_off hne.2] at hi
          simp at hi) (by
        intro u hu
        obtain ⟨a1, a2, a3⟩ := hus u (List.mem_cons_of_mem _ hu)
        refine ⟨a1, fun i hi hor => ?_, a3⟩
        rcases hor with h1 | h1
        · exact a2 i hi h1
        · exact hpw1 u hu i h1 hi) hpw2
    refine ⟨r, ?_, w, hl, ?_, fun pos' hpos' => (hk pos' fun i hi => Or.inl (hpos' i hi)).trans (hold pos' hpos')⟩
    · unfold pairUnits
      rw [e1]
      exact e
    · intro u hu'
      rcases List.mem_cons.1 hu' with rfl | hu'
      · exact (hk pos fun i hi => Or.inr hi).trans hself
      · exact hu u hu'

theorem group_length (Q : QUC n) (qs : List (Fin n)) (u : ℕ) : (Q.group qs u).1.length = (Q.group qs u).2.length := by
  unfold QUC.group; simp

/-- Whatever the draws, `MultiShotMeasureMask` returns as many shots as asked for, and restricted to the qubits of a unit they are the
shots the unit returned. -/
theorem multiShot_spec (Q : QUC n) {qs : List (Fin n)} (hqs : qs.Nodup) {shots : ℕ} (hpos : 0 < shots) {results : ℕ → List ℕ → Hist}
    (picks : ℕ → ℕ → ℕ) (hres : ∀ u l, (results u l).WF ∧ (results u l).expand.length = shots ∧ ∀ v ∈ (results u l).expand, v < 2 ^ l.length) :
    ∃ r, Q.multiShot qs shots results picks = some r ∧ r.WF ∧ r.expand.length = shots ∧
      ∀ q ∈ qs, (r.expand.map (gather (Q.group qs (Q.unit q)).1)).Perm (results (Q.unit q) (Q.group qs (Q.unit q)).2).expand := by
  obtain ⟨hnd, hmem, -, -⟩ := uniq_spec (qs.map Q.unit)
  obtain ⟨r, e, w, hl, hu, -⟩ := pairUnits_spec hpos
    ((uniq (qs.map Q.unit)).map fun u => ((Q.group qs u).1, results u (Q.group qs u).2, picks u)) [(0, shots)] (fun _ => False)
    ⟨List.pairwise_singleton _ _, by intro e he; rw [List.mem_singleton.1 he]; exact hpos⟩ (by rw [expand_one, List.length_replicate]) (by
      intro k hk i hi
      rw [expand_one] at hk
      rw [List.eq_of_mem_replicate hk, Nat.zero_testBit] at hi
      simp at hi) (by
      intro u hu
      obtain ⟨u', -, rfl⟩ := List.mem_map.1 hu
      obtain ⟨h1, h2, h3⟩ := hres u' (Q.group qs u').2
      refine ⟨?_, by simp, h1, h2, fun v hv => by rw [group_length]; exact h3 v hv⟩
      show ((qs.zipIdx.filter fun p => Q.unit p.1 = u').map fun p => p.2).Nodup
      have hsub : ((qs.zipIdx.filter fun p => Q.unit p.1 = u').map fun p => p.2).Sublist (qs.zipIdx.map fun p => p.2) :=
        List.filter_sublist.map _
      refine hsub.nodup ?_
      have : qs.zipIdx.map (fun p => p.2) = List.range' 0 qs.length := List.zipIdx_map_snd 0 qs
      rw [this]
      exact List.nodup_range') (by
      rw [List.pairwise_map]
      refine hnd.imp fun {u w} hne => ?_
      intro i hi hi'
      obtain ⟨p, hp, rfl⟩ := List.mem_map.1 hi
      obtain ⟨p', hp', he⟩ := List.mem_map.1 hi'
      rw [List.mem_filter] at hp hp'
      have h1 := List.mem_zipIdx_iff_getElem?.1 hp.1
      have h2 := List.mem_zipIdx_iff_getElem?.1 hp'.1
      rw [he, h1, Option.some_inj] at h2
      have h3 : Q.unit p.1 = u := by simpa using hp.2
      have h4 : Q.unit p'.1 = w := by simpa using hp'.2
      rw [← h2, h3] at h4
      exact hne h4)
  refine ⟨r, ?_, w, hl, fun q hq => ?_⟩
  · unfold QUC.multiShot
    rw [if_neg (by omega), if_pos hqs]
    exact e
  · exact hu _ (List.mem_map.2 ⟨Q.unit q, (hmem _).2 (List.mem_map_of_mem hq), rfl⟩)

/-- No shots, and a qubit named twice. -/
theorem multiShot_edge (Q : QUC n) (qs : List (Fin n)) (shots : ℕ) (results : ℕ → List ℕ → Hist) (picks : ℕ → ℕ → ℕ) :
    Q.multiShot qs 0 results picks = some [] ∧ (0 < shots → ¬ qs.Nodup → Q.multiShot qs shots results picks = none) := by
  refine ⟨if_pos rfl, fun h1 h2 => ?_⟩
  unfold QUC.multiShot
  rw [if_neg (by omega), if_neg h2]

/-! ### The pairing is not random -/

/-- A draw is below the number of shots, so that each value should be taken for as many draws as it has shots. The least value is taken for
one more. -/
theorem take_first_biased {k c : ℕ} {l : Hist} (hh : Hist.WF ((k, c) :: l)) (hl : l ≠ []) :
    ((List.range (Hist.expand ((k, c) :: l)).length).filter fun p => (Hist.take p 0 ((k, c) :: l)).map Prod.fst = some k).length = c + 1 := by
  have hc : 0 < c := hh.2 _ List.mem_cons_self
  obtain ⟨f, l', rfl⟩ := List.exists_cons_of_ne_nil hl
  have hf : 0 < f.2 := hh.2 f (by simp)
  have hlen : c + 1 ≤ (Hist.expand ((k, c) :: f :: l')).length := by
    obtain ⟨f1, f2⟩ := f
    rw [expand_cons, expand_cons, List.length_append, List.length_append, List.length_replicate, List.length_replicate]
    dsimp only at hf
    omega
  have hiff : ∀ p, p < (Hist.expand ((k, c) :: f :: l')).length →
      (decide ((Hist.take p 0 ((k, c) :: f :: l')).map Prod.fst = some k) = decide (p < c + 1)) := by
    intro p hp
    rw [Bool.eq_iff_iff, decide_eq_true_iff, decide_eq_true_iff]
    unfold Hist.take
    rw [Nat.zero_add]
    by_cases hpc : c < p
    · rw [if_pos hpc]
      rw [expand_cons, List.length_append, List.length_replicate] at hp
      obtain ⟨k', h', e, hperm, -, -⟩ := take_spec p (f :: l') c (wf_tail hh) (by omega) (by simp)
      rw [e]
      refine ⟨fun h => ?_, fun h => by omega⟩
      have hk : k' = k := by simpa using h
      have hm : k' ∈ Hist.expand (f :: l') := hperm.mem_iff.2 List.mem_cons_self
      rw [mem_expand (wf_tail hh), List.mem_map] at hm
      obtain ⟨g, hg, hgk⟩ := hm
      have := (List.pairwise_cons.1 hh.1).1 g hg
      dsimp only at this
      omega
    · rw [if_neg hpc, if_neg (by omega)]
      exact ⟨fun _ => by omega, fun _ => rfl⟩
  generalize (Hist.expand ((k, c) :: f :: l')).length = N at *
  rw [List.filter_congr fun p hp => hiff p (List.mem_range.1 hp)]
  obtain ⟨d, rfl⟩ : ∃ d, N = (c + 1) + d := ⟨N - (c + 1), by omega⟩
  rw [List.range_add, List.filter_append, List.length_append, List.filter_eq_self.2, List.filter_eq_nil_iff.2]
  · simp
  · intro p hp
    obtain ⟨x, -, rfl⟩ := List.mem_map.1 hp
    simp only [decide_eq_true_eq]
    omega
  · intro p hp
    rw [List.mem_range] at hp
    simpa using hp

/-- The greatest value, if it has one shot, is never taken while there is another. -/
theorem take_last_never {k : ℕ} : ∀ {l : Hist} (acc p : ℕ), Hist.WF (l ++ [(k, 1)]) → l ≠ [] → p < acc + (Hist.expand (l ++ [(k, 1)])).length →
    (Hist.take p acc (l ++ [(k, 1)])).map Prod.fst ≠ some k
  | [], _, _, _, h, _ => absurd rfl h
  | (a, c) :: l, acc, p, hh, _, hp => by
    rw [List.cons_append] at hh hp ⊢
    have hc : 0 < c := hh.2 _ List.mem_cons_self
    have ha : a < k := (List.pairwise_cons.1 hh.1).1 (k, 1) (by simp)
    rw [expand_cons, List.length_append, List.length_replicate] at hp
    unfold Hist.take
    by_cases h1 : acc + c < p
    · rw [if_pos h1]
      by_cases hl : l = []
      · subst hl
        rw [List.nil_append, expand_one, List.length_replicate] at hp
        omega
      · have := take_last_never (acc + c) p (wf_tail hh) hl (by omega)
        rw [Option.map_map]
        exact this
    · rw [if_neg h1, if_neg (by omega)]
      intro h
      have : a = k := by simpa using h
      omega

/-- Two units that each saw 0 and 1 once in two shots: always the zeros and the ones are paired. -/
theorem pair_fixed {a b : ℕ} (ha : 0 < a) (picks : ℕ → ℕ) :
    pairMaps 2 picks [(0, 1), (a, 1)] [(0, 1), (b, 1)] = some [(0, 1), (a ||| b, 1)] := by
  have hab : 0 < a ||| b := lt_of_lt_of_le ha Nat.left_le_or
  have t1 : ∀ p, p ≤ 1 → Hist.take p 0 [(0, 1), (b, 1)] = some (0, [(b, 1)]) := by
    intro p hp
    unfold Hist.take
    rw [if_neg (by omega)]
    rfl
  have t2 : ∀ p, p ≤ 1 → Hist.take p 0 [(b, 1)] = some (b, []) := by
    intro p hp
    unfold Hist.take
    rw [if_neg (by omega)]
    rfl
  have e : Hist.expand [(0, 1), (a, 1)] = [0, a] := rfl
  unfold pairMaps
  dsimp only
  have s1 : pairStep picks { left := 2, top := [(0, 1), (b, 1)], res := [] } 0 = some { left := 1, top := [(b, 1)], res := [(0, 1)] } := by
    unfold pairStep
    dsimp only
    rw [t1 _ (by split_ifs <;> omega)]
    simp [Hist.bump]
  have s2 : pairStep picks { left := 1, top := [(b, 1)], res := [(0, 1)] } a = some { left := 0, top := [], res := [(0, 1), (a ||| b, 1)] } := by
    unfold pairStep
    dsimp only
    rw [t2 _ (by split_ifs <;> omega)]
    have : ¬ a = 0 := by omega
    simp [Hist.bump, this]
  rw [e, List.foldlM_cons, s1]
  simp only [Option.bind_eq_bind, Option.bind_some]
  rw [List.foldlM_cons, s2]
  rfl

/-- Two qubits in units of their own, two shots, each qubit seen once as 0 and once as 1: `MultiShotMeasureMask` returns 00 and 11 for all
draws, and never 01 and 10, though the qubits are independent. -/
theorem multiShot_paired (perm : ℕ) (picks : ℕ → ℕ → ℕ) :
    (setPerm 2 perm).multiShot [0, 1] 2 (fun _ _ => [(0, 1), (1, 1)]) picks = some [(0, 1), (3, 1)] := by
  have e : (uniq (([0, 1] : List (Fin 2)).map (setPerm 2 perm).unit)).map
      (fun u => (((setPerm 2 perm).group [0, 1] u).1, ([(0, 1), (1, 1)] : Hist), picks u)) =
      [([0], [(0, 1), (1, 1)], picks 0), ([1], [(0, 1), (1, 1)], picks 1)] := rfl
  unfold QUC.multiShot
  rw [if_neg (by norm_num), if_pos (by decide), e]
  unfold pairUnits
  dsimp only
  have e1 : combine 2 (picks 0) [(0, 2)] (topLevel [0] [(0, 1), (1, 1)]) = some [(0, 1), (1, 1)] := by
    have : topLevel [0] [(0, 1), (1, 1)] = [(0, 1), (1, 1)] := by decide
    rw [this]
    rfl
  rw [e1, Option.bind_some]
  unfold pairUnits
  dsimp only
  have e2 : combine 2 (picks 1) [(0, 1), (1, 1)] (topLevel [1] [(0, 1), (1, 1)]) = some [(0, 1), (3, 1)] := by
    have : topLevel [1] [(0, 1), (1, 1)] = [(0, 1), (2, 1)] := by decide
    rw [this]
    exact pair_fixed (a := 1) (b := 2) Nat.one_pos (picks 1)
  rw [e2]
  rfl

/-! ### Bits that are in no unit -/

/-- Whether a bit of probability `prob` is seen as 1 with the draw `r`. -/
def hit (prob r : ℝ) : Prop := prob = 1 ∨ (prob ≠ 0 ∧ r ≤ prob)

theorem fold_bump {α : Type} (f : α → ℕ) : ∀ (l : List α) (m : Hist), m.WF →
    Hist.WF (l.foldl (fun m s => Hist.bump (f s) m) m) ∧ (Hist.expand (l.foldl (fun m s => Hist.bump (f s) m) m)).Perm (m.expand ++ l.map f)
  | [], m, hm => ⟨hm, by simp⟩
  | s :: l, m, hm => by
    obtain ⟨h1, h2⟩ := fold_bump f l (m.bump (f s)) (bump_wf _ _ hm)
    refine ⟨h1, h2.trans ?_⟩
    rw [List.map_cons]
    exact ((bump_expand _ _).append_right _).trans List.perm_middle.symm

open Classical in
/-- One bit: shot `i` gets it if its draw says so. -/
theorem singles_one {pos : ℕ} {prob : ℝ} {rand : ℕ → ℝ} {l : List (ℕ × ℝ × (ℕ → ℝ))} {h : Hist} (hh : h.WF)
    (hoff : ∀ k ∈ h.expand, k.testBit pos = false) : ∃ h', singles ((pos, prob, rand) :: l) h = singles l h' ∧ h'.WF ∧
      h'.expand.Perm (h.expand.zipIdx.map fun s => if hit prob (rand s.2) then s.1 ||| 2 ^ pos else s.1) := by
  rw [singles]
  by_cases h0 : prob = 0
  · rw [if_pos h0]
    refine ⟨h, rfl, hh, List.Perm.of_eq ?_⟩
    have : ∀ r, ¬ hit prob r := by
      rintro r (h1 | h1)
      · rw [h0] at h1; norm_num at h1
      · exact h1.1 h0
    simp only [if_neg (this _)]
    exact (List.zipIdx_map_fst 0 h.expand).symm
  rw [if_neg h0]
  by_cases h1 : prob = 1
  · rw [if_pos h1]
    have hk : ∀ a ∈ h, a.1 &&& 2 ^ pos = 0 := by
      intro a ha
      have := hoff a.1 ((mem_expand hh).2 (List.mem_map_of_mem ha))
      refine Nat.eq_of_testBit_eq fun i => ?_
      rw [Nat.testBit_and, Nat.testBit_two_pow, Nat.zero_testBit]
      by_cases hi : pos = i
      · rw [← hi, this, Bool.false_and]
      · rw [decide_eq_false hi, Bool.and_false]
    obtain ⟨w, p⟩ := fold_put (fun k => k ||| 2 ^ pos) h [] hh ⟨List.Pairwise.nil, by simp⟩
      (fun a ha b hb he => or_inj (hk a ha) (hk b hb) he) (by simp)
    refine ⟨_, rfl, w, p.trans (List.Perm.of_eq ?_)⟩
    rw [expand_nil, List.nil_append]
    have : ∀ r, hit prob r := fun r => Or.inl h1
    simp only [if_pos (this _)]
    conv_lhs => rw [← List.zipIdx_map_fst 0 h.expand]
    rw [List.map_map]
    rfl
  · rw [if_neg h1]
    obtain ⟨w, p⟩ := fold_bump (fun s : ℕ × ℕ => if prob < rand s.2 then s.1 else s.1 ||| 2 ^ pos) h.expand.zipIdx [] ⟨List.Pairwise.nil, by simp⟩
    refine ⟨_, rfl, w, p.trans (List.Perm.of_eq ?_)⟩
    rw [expand_nil, List.nil_append]
    refine List.map_congr_left fun s _ => ?_
    by_cases hs : prob < rand s.2
    · rw [if_pos hs, if_neg]
      rintro (h2 | h2)
      · exact h1 h2
      · exact absurd h2.2 (not_le.2 hs)
    · rw [if_neg hs, if_pos (show hit prob (rand s.2) from Or.inr ⟨h0, not_lt.1 hs⟩)]

open Classical in
/-- All of them: the other bits are left, and each bit is 1 in as many shots as its draws say. -/
theorem singles_spec : ∀ (l : List (ℕ × ℝ × (ℕ → ℝ))) {h : Hist}, h.WF → (l.map Prod.fst).Nodup →
    (∀ b ∈ l, ∀ k ∈ h.expand, k.testBit b.1 = false) →
    (singles l h).WF ∧ (singles l h).expand.length = h.expand.length ∧
      (∀ pos : List ℕ, (∀ b ∈ l, b.1 ∉ pos) → ((singles l h).expand.map (gather pos)).Perm (h.expand.map (gather pos))) ∧
      ∀ b ∈ l, (singles l h).expand.countP (fun k => k.testBit b.1) = (List.range h.expand.length).countP (fun i => hit b.2.1 (b.2.2 i))
  | [], h, hh, _, _ => ⟨hh, rfl, fun _ _ => List.Perm.refl _, by simp⟩
  | (pos, prob, rand) :: l, h, hh, hn, hoff => by
    rw [List.map_cons, List.nodup_cons] at hn
    obtain ⟨h', e, w, p⟩ := singles_one (prob := prob) (rand := rand) (l := l) hh (hoff _ List.mem_cons_self)
    have hother : ∀ i, i ≠ pos → ∀ x : ℕ, ((if hit prob (rand x) then (2 : ℕ) ^ pos else 0) : ℕ).testBit i = false := by
      intro i hi x
      split_ifs
      · rw [Nat.testBit_two_pow]; simp [Ne.symm hi]
      · simp
    have hform : h.expand.zipIdx.map (fun s => if hit prob (rand s.2) then s.1 ||| 2 ^ pos else s.1) =
        h.expand.zipIdx.map (fun s => s.1 ||| if hit prob (rand s.2) then 2 ^ pos else 0) := by
      refine List.map_congr_left fun s _ => ?_
      split_ifs <;> simp
    rw [hform] at p
    obtain ⟨w', hl', hg', hc'⟩ := singles_spec l w hn.2 (by
      intro b hb k hk
      obtain ⟨s, hs, rfl⟩ := List.mem_map.1 (p.mem_iff.1 hk)
      have hb1 : b.1 ≠ pos := fun he => hn.1 (List.mem_map.2 ⟨b, hb, he⟩)
      rw [Nat.testBit_or, hother _ hb1, Bool.or_false]
      exact hoff b (List.mem_cons_of_mem _ hb) _ (List.fst_mem_of_mem_zipIdx hs))
    rw [e]
    have hlen : h'.expand.length = h.expand.length := by rw [p.length_eq, List.length_map, List.length_zipIdx]
    refine ⟨w', hl'.trans hlen, fun pos' hp' => ?_, fun b hb => ?_⟩
    · refine (hg' pos' fun b hb => hp' b (List.mem_cons_of_mem _ hb)).trans ((p.map _).trans (List.Perm.of_eq ?_))
      rw [List.map_map]
      conv_rhs => rw [← List.zipIdx_map_fst 0 h.expand, List.map_map]
      refine List.map_congr_left fun s _ => ?_
      exact gather_or fun i hi => hother i (fun he => hp' _ List.mem_cons_self (he ▸ hi)) s.2
    · rcases List.mem_cons.1 hb with rfl | hb
      · have hk := hg' [pos] (by
          intro b hb hmem
          exact hn.1 (List.mem_map.2 ⟨b, hb, List.mem_singleton.1 hmem⟩))
        have hcount : ∀ L : List ℕ, L.countP (fun k => k.testBit pos) = (L.map (gather [pos])).countP (fun k => k.testBit 0) := by
          intro L
          rw [List.countP_map]
          refine List.countP_congr fun k _ => ?_
          show _ ↔ (gather [pos] k).testBit 0 = true
          rw [gather_testBit]
          simp
        show ((singles l h').expand.countP fun k => k.testBit pos) = _
        rw [hcount, hk.countP_eq, ← hcount, p.countP_eq, List.countP_map]
        have h2 : (List.range h.expand.length) = h.expand.zipIdx.map Prod.snd := by
          rw [List.zipIdx_map_snd, List.range_eq_range']
        rw [h2, List.countP_map]
        refine List.countP_congr fun s hs => ?_
        show ((s.1 ||| if hit prob (rand s.2) then 2 ^ pos else 0).testBit pos = true) ↔ (decide (hit prob (rand s.2)) = true)
        have := hoff _ List.mem_cons_self s.1 (List.fst_mem_of_mem_zipIdx hs)
        rw [Nat.testBit_or, this, Bool.false_or]
        by_cases hx : hit prob (rand s.2)
        · rw [if_pos hx, Nat.testBit_two_pow]; simp [hx]
        · rw [if_neg hx]; simp [hx]
      · rw [hc' b hb, hlen]

/-! ### Examples -/

/-- Three units, of three qubits in all, five shots. -/
example : pairUnits 5 [([0], [(0, 2), (1, 3)], fun k => k - 1), ([2], [(0, 4), (1, 1)], fun _ => 0), ([1], [(1, 5)], fun _ => 0)] [(0, 5)] =
    some [(2, 2), (3, 2), (7, 1)] := by decide +kernel

/-- The hypotheses of `multiShot_spec`. -/
example : Hist.WF [(0, 2), (1, 3)] ∧ (Hist.expand [(0, 2), (1, 3)]).length = 5 := ⟨⟨by simp, by simp⟩, rfl⟩

end Verif.Units
