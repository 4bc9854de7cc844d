import Verif.Lemmas.Defaults

/-!
The transformation of the default uniformly controlled gate.
-/

namespace Verif.Defaults

open Verif.Engine Verif.Spec Verif.Bits Verif.Utils Complex Classical

theorem sem_xWhere_cmask (cs : List ℕ) (d : ℕ) (s : ℕ → ℂ) :
    sem (xWhere true cs d) s = fun i => s (i ^^^ cmask cs cs.length d) := by
  have key : ∀ m, m ≤ cs.length → sem ((List.range m).flatMap fun i =>
      if d.testBit i = true then x (cs.getD i 0) else []) s = fun i => s (i ^^^ cmask cs m d) := by
    intro m
    induction m with
    | zero => intro _; simp [sem_nil, cmask]
    | succ m ih =>
      intro hm
      rw [List.range_succ, List.flatMap_append, sem_append, ih (by omega), cmask_succ]
      by_cases hd : d.testBit m = true
      · simp only [List.flatMap_cons, List.flatMap_nil, List.append_nil, if_pos hd, sem_x]
        funext i; unfold flipBit; congr 1; ac_rfl
      · simp [hd, sem_nil]
  exact key cs.length le_rfl

theorem foldr_flip_all {cs : List ℕ} (hnd : cs.Nodup) (i : ℕ) :
    cs.foldr (fun q i => flipBit q i) i = i ^^^ cmask cs cs.length (2 ^ cs.length - 1) := by
  apply Nat.eq_of_testBit_eq
  intro k
  have h : ∀ l : List ℕ, l.Nodup → (l.foldr (fun q i => flipBit q i) i).testBit k = (i.testBit k ^^ decide (k ∈ l)) := by
    intro l
    induction l with
    | nil => intro _; simp
    | cons q l ih =>
      intro hl
      rw [List.foldr_cons, testBit_flip, ih (List.nodup_cons.1 hl).2]
      by_cases hk : k = q
      · subst hk
        have := (List.nodup_cons.1 hl).1
        simp [this]
      · have hk' : ¬ q = k := fun h => hk h.symm
        simp [hk, hk']
  rw [h cs hnd, Nat.testBit_xor]
  congr 1
  by_cases hk : k ∈ cs
  · obtain ⟨j, hj, rfl⟩ := List.getElem_of_mem hk
    rw [cmask_testBit hnd _ _ le_rfl j hj, Nat.testBit_two_pow_sub_one]
    simp [hj]
  · rw [cmask_testBit_notMem _ k hk _ le_rfl]; simp [hk]

theorem sem_uniform {cs : List ℕ} {t : ℕ} (hnd : (cs ++ [t]).Nodup) (ms : ℕ → M2) {ps : List ℕ} (hps : ps.Pairwise (· < ·))
    (hw : cs.length + ps.length ≤ 128) (val : ℕ) (s : ℕ → ℂ) {i v ix : ℕ} (hv : IsCtrlValue cs i v)
    (hix : IsMatrixIndex ps val v ix) :
    sem (uniform cs t ms (ps.map Engine.pow2) val) s i = gate (fun _ => True) t (ms ix).a (ms ix).b (ms ix).c (ms ix).d s i := by
  have hcn := (List.nodup_append.1 hnd).1
  have htc : t ∉ cs := fun h => (List.nodup_append.1 hnd).2.2 t h t (by simp) rfl
  set k := cs.length with hk
  set full := 2 ^ k - 1 with hfull
  have hpk : 0 < 2 ^ k := by positivity
  let idx : ℕ → ℕ := fun v => pushApart 128 v (ps.map Engine.pow2) ||| val
  let cv : ℕ → ℕ := ctrlOffset cs
  have hcv : ∀ i, IsCtrlValue cs i (cv i) := ctrlOffset_isCtrlValue cs
  let G : ℕ → ℂ := fun j => gate (fun _ => True) t (ms (idx (cv j))).a (ms (idx (cv j))).b
    (ms (idx (cv j))).c (ms (idx (cv j))).d s j
  let S : ℕ → ℕ → ℂ := fun L j => if cv j < L then G j else s j
  let M : ℕ → ℕ := fun L => cmask cs k (L ^^^ full)
  have hfl2 : full < 2 ^ k := by omega
  have hMt : ∀ L, (M L).testBit t = false := fun L => cmask_testBit_notMem _ t htc _ le_rfl
  have hcvx : ∀ L i, L < 2 ^ k → cv (i ^^^ M L) = cv i ^^^ (L ^^^ full) := by
    intro L i hL
    exact (hcv _).unique (isCtrlValue_xor hcn (hcv i) (Nat.xor_lt_two_pow hL hfl2))
  have hcvf : ∀ i, cv (flipBit t i) = cv i := by
    intro i
    refine (hcv _).unique ⟨(hcv i).1, fun j hj => ?_⟩
    rw [(hcv i).2 j hj, testBit_flip]
    have : cs[j] ≠ t := fun h' => htc (h' ▸ List.getElem_mem hj)
    simp [this]
  have hgate : ∀ (L : ℕ), L < 2 ^ k →
      (Prim.mc cs (ms (idx L)) t).sem (fun i => S L (i ^^^ M L)) = fun i => S (L + 1) (i ^^^ M L) := by
    intro L hL
    funext i
    rw [Prim.sem]
    set j := i ^^^ M L with hj
    have hall : AllAre true cs i ↔ cv j = L := by
      rw [hj, hcvx L i hL]
      have e1 : cv i = full ↔ AllAre true cs i := by
        constructor
        · intro h c hc
          obtain ⟨q, hq, rfl⟩ := List.getElem_of_mem hc
          rw [← (hcv i).2 q hq, h, hfull, Nat.testBit_two_pow_sub_one]
          simpa using hq
        · intro h
          refine (hcv i).unique ⟨hfl2, fun q hq => ?_⟩
          rw [h _ (List.getElem_mem hq), hfull, Nat.testBit_two_pow_sub_one]
          simpa using hq
      rw [← e1]
      constructor
      · intro h; rw [h]
        rw [Nat.xor_comm L, ← Nat.xor_assoc]; simp
      · intro h
        have := congrArg (· ^^^ (L ^^^ full)) h
        simp only [Nat.xor_assoc, Nat.xor_self, Nat.xor_zero] at this
        rw [this, ← Nat.xor_assoc]; simp
    have hfj : flipBit t i ^^^ M L = flipBit t j := by
      rw [hj]; unfold flipBit; ac_rfl
    have hjt : j.testBit t = i.testBit t := by
      rw [hj, Nat.testBit_xor, hMt]; simp
    unfold gate
    simp only [hfj, ← hj]
    by_cases hc : cv j = L
    · rw [if_pos (hall.2 hc)]
      have s1 : S L j = s j := by simp [S, hc]
      have s2 : S L (flipBit t j) = s (flipBit t j) := by simp [S, hcvf, hc]
      have s3 : S (L + 1) j = G j := by simp [S, hc]
      rw [s1, s2, s3]
      simp only [G, gate, if_true, hc, hjt]
    · rw [if_neg (fun h => hc (hall.1 h))]
      simp only [S]
      have : (cv j < L + 1) ↔ cv j < L := by omega
      simp only [this]
  have hloop : ∀ L ≤ full, sem ((List.range L).flatMap fun lcv =>
      .mc cs (ms (idx lcv)) t :: xWhere true cs (lcv ^^^ (lcv + 1))) (fun i => S 0 (i ^^^ M 0)) = fun i => S L (i ^^^ M L) := by
    intro L
    induction L with
    | zero => intro _; rfl
    | succ L ih =>
      intro hL
      rw [List.range_succ, List.flatMap_append, sem_append, ih (by omega)]
      simp only [List.flatMap_cons, List.flatMap_nil, List.append_nil]
      rw [sem_cons, hgate L (by omega), sem_xWhere_cmask]
      funext i
      congr 1
      rw [Nat.xor_assoc]
      congr 1
      simp only [M]
      rw [← cmask_xor]
      congr 1
      rw [Nat.xor_comm L (L + 1), Nat.xor_assoc, ← Nat.xor_assoc L L]; simp
  have h0 : sem (cs.flatMap x) s = fun i => S 0 (i ^^^ M 0) := by
    rw [sem_flatMap_x]
    funext i
    rw [foldr_flip_all hcn]
    simp only [S, M, Nat.zero_xor, Nat.not_lt_zero, if_false]
    rfl
  unfold uniform
  dsimp only
  rw [sem_append, sem_append, h0]
  have := hloop full le_rfl
  simp only [idx] at this
  rw [this, sem_cons, sem_nil]
  have hg := hgate full hfl2
  simp only [idx] at hg
  rw [hg]
  have hM : M full = 0 := by
    simp only [M, Nat.xor_self]
    apply Nat.eq_of_testBit_eq
    intro q
    by_cases hq : q ∈ cs
    · obtain ⟨j, hj, rfl⟩ := List.getElem_of_mem hq
      rw [cmask_testBit hcn _ _ le_rfl j hj]; simp
    · rw [cmask_testBit_notMem _ q hq _ le_rfl]; simp
  simp only [hM, Nat.xor_zero]
  have h1 : cv i < full + 1 := by have := (hcv i).1; rw [← hk] at this; omega
  simp only [S, h1, if_true, G]
  have h2 := (hcv i).unique hv
  have h3 : idx v = ix := (pushApart_isMatrixIndex hps hv.1 (val := val) hw).unique hix
  rw [h2, h3]

end Verif.Defaults
