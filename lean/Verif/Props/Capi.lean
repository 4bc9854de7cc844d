import Verif.Lemmas.Capi
import Mathlib.Tactic.FinCases

/-!
# C43, C44: qubit ids and register relocation in the C API

Specification: `own` says which qubit an id stands for; it changes only when an id is given out or given back. An id is right when
the position the API computes for it holds its qubit.
-/

namespace Verif.Capi

/-! ### C44 -/

/-- Relocation never separates an id from its qubit, whichever qubits are listed. -/
theorem mapArithmetic_tracks {s : Sim} {own : ℕ → Option ℕ} (h : Tracks s own) {qs : List ℕ} (hne : qs ≠ []) (hnd : qs.Nodup)
    (hl : ∀ q ∈ qs, own q ≠ none) :
    ∃ start s', mapArithmetic s qs = some (start, s') ∧ Tracks s' own ∧ s'.reg.length = s.reg.length ∧
      start + qs.length ≤ s.reg.length := by
  obtain ⟨ps, h1, h2⟩ := positions_mem h qs hl
  have hlen := h2.length_eq
  have hpne : ps ≠ [] := by rintro rfl; exact hne (List.length_eq_zero_iff.mp hlen)
  obtain ⟨m, e1, -, e3⟩ := least_spec hpne
  have hpg := pigeon (forall2_nodup h h2 hnd) (fun x hx => ⟨e3 x hx, forall2_lt h h2 x hx⟩) hpne
  obtain ⟨s', f1, f2, f3⟩ := place_tracks (own := own) m ps s 0 h (forall2_lt h h2) (by omega)
  refine ⟨m, s', ?_, f2, f3, by omega⟩
  unfold mapArithmetic
  rw [h1]; simp only [Option.bind_some]
  rw [e1]; simp only [Option.bind_some]
  rw [f1]; rfl

/-- `MapArithmetic` puts the `i`-th listed qubit at `start + i`, if no listed qubit sits at the destination of an earlier one.
The full claim has no such condition; `mapArithmetic_wrong` shows that it is needed. -/
theorem mapArithmetic_partial {s : Sim} {own : ℕ → Option ℕ} (h : Tracks s own) {qs ps : List ℕ} (hne : qs ≠ [])
    (hnd : qs.Nodup) (hl : ∀ q ∈ qs, own q ≠ none) (hps : positions s qs = some ps) {start : ℕ} {s' : Sim}
    (hr : mapArithmetic s qs = some (start, s'))
    (hc : ∀ k (hk : k < ps.length), ∀ j < k, ps[k] ≠ start + j) :
    ∀ i (hi : i < qs.length), addr s' qs[i] = some (start + i) ∧ s'.reg[start + i]? = own qs[i] := by
  obtain ⟨ps', h1, h2⟩ := positions_mem h qs hl
  rw [hps, Option.some.injEq] at h1
  subst h1
  have hlen := h2.length_eq
  have hpne : ps ≠ [] := by rintro rfl; exact hne (List.length_eq_zero_iff.mp hlen)
  obtain ⟨m, e1, -, e3⟩ := least_spec hpne
  have hpg := pigeon (forall2_nodup h h2 hnd) (fun x hx => ⟨e3 x hx, forall2_lt h h2 x hx⟩) hpne
  obtain ⟨s2, f1, f2, -⟩ := place_tracks (own := own) m ps s 0 h (forall2_lt h h2) (by omega)
  unfold mapArithmetic at hr
  rw [hps] at hr; simp only [Option.bind_some] at hr
  rw [e1] at hr; simp only [Option.bind_some] at hr
  rw [f1] at hr
  simp only [Option.map_some, Option.some.injEq, Prod.mk.injEq] at hr
  obtain ⟨rfl, rfl⟩ := hr
  obtain ⟨a1, -⟩ := place_pos m ps s s2 0 qs h h2 (forall2_nodup h h2 hnd) (by simpa using hc) (by omega) f1
  intro i hi
  have hmem := a1 i hi
  rw [Nat.add_zero] at hmem
  refine ⟨f2.addr hmem, ?_⟩
  have hlt := f2.mem_lt hmem
  rw [List.getElem?_eq_getElem hlt]
  exact ((f2.own _ _).mpr ⟨_, hmem, List.getElem?_eq_getElem hlt⟩).symm

/-- The condition holds when the listed qubits are at increasing positions. -/
theorem increasing_ok {ps : List ℕ} {start : ℕ} (hs : ps.Pairwise (· < ·)) (hmin : ∀ p ∈ ps, start ≤ p) :
    ∀ k (hk : k < ps.length), ∀ j < k, ps[k] ≠ start + j := by
  have hle : ∀ k (hk : k < ps.length), start + k ≤ ps[k] := by
    intro k
    induction k with
    | zero => intro hk; exact hmin _ (List.getElem_mem _)
    | succ k ih =>
      intro hk
      have h1 := ih (by omega)
      have h2 := List.pairwise_iff_getElem.mp hs k (k + 1) (by omega) hk (by omega)
      omega
  intro k hk j hj
  have := hle k hk
  omega

/-- The claim fails for two qubits listed in the opposite order of their positions. -/
theorem mapArithmetic_wrong : ∃ s' : Sim, mapArithmetic (fill [100, 101]) [1, 0] = some (0, s') ∧
    addr s' 1 = some 1 ∧ addr s' 0 = some 0 := by
  refine ⟨⟨[100, 101], [(0, 0), (1, 1)]⟩, ?_, ?_, ?_⟩ <;> decide

theorem placeTwo_tracks {s : Sim} {own : ℕ → Option ℕ} (h : Tracks s own) {q1 q2 ps1 ps2 : List ℕ}
    (h1 : List.Forall₂ (fun q p => (q, p) ∈ s.sh) q1 ps1) (h2 : List.Forall₂ (fun q p => (q, p) ∈ s.sh) q2 ps2)
    (hnd : (q1 ++ q2).Nodup) (n1 : q1 ≠ []) (n2 : q2 ≠ []) {st1 st2 : ℕ} (m1 : ∀ p ∈ ps1, st1 ≤ p) (m2 : ∀ p ∈ ps2, st2 ≤ p)
    (hle : st1 ≤ st2) :
    ∃ st2' s', placeTwo s st1 ps1 st2 ps2 = some (st1, st2', s') ∧ Tracks s' own ∧ s'.reg.length = s.reg.length ∧
      st1 + q1.length ≤ st2' ∧ st2' + q2.length ≤ s.reg.length ∧
      ((∀ k (hk : k < ps1.length), ∀ j < k, ps1[k] ≠ st1 + j) → (∀ p ∈ ps2, ∀ j < q1.length, p ≠ st1 + j) →
        (∀ k (hk : k < ps2.length), ∀ j < k, ps2[k] ≠ st2' + j) →
        (∀ i (hi : i < q1.length), (q1[i], st1 + i) ∈ s'.sh) ∧ ∀ i (hi : i < q2.length), (q2[i], st2' + i) ∈ s'.sh) := by
  have l1 := h1.length_eq
  have l2 := h2.length_eq
  have p1 : ps1 ≠ [] := by rintro rfl; exact n1 (List.length_eq_zero_iff.mp l1)
  have p2 : ps2 ≠ [] := by rintro rfl; exact n2 (List.length_eq_zero_iff.mp l2)
  have h12 := List.rel_append (R := fun q p => (q, p) ∈ s.sh) h1 h2
  have nd12 := forall2_nodup h h12 hnd
  have lt12 := forall2_lt h h12
  have g1 := pigeon (forall2_nodup h h1 (List.nodup_append.mp hnd).1)
    (fun x hx => ⟨m1 x hx, forall2_lt h h1 x hx⟩) p1
  have g2 := pigeon (forall2_nodup h h2 (List.nodup_append.mp hnd).2.1)
    (fun x hx => ⟨m2 x hx, forall2_lt h h2 x hx⟩) p2
  have g12 := pigeon nd12 (a := st1) (n := s.reg.length) (fun x hx => ⟨by
    rcases List.mem_append.mp hx with hx | hx
    · exact m1 x hx
    · exact hle.trans (m2 x hx), lt12 x hx⟩) (by simp [p1])
  rw [List.length_append] at g12
  obtain ⟨s1, f1, f2, f3⟩ := place_tracks (own := own) st1 ps1 s 0 h (forall2_lt h h1) (by omega)
  set st2' := if st1 + ps1.length > st2 then st1 + ps1.length else st2 with hst
  have b1 : st1 + ps1.length ≤ st2' := by rw [hst]; split_ifs <;> omega
  have b2 : st2' + ps2.length ≤ s.reg.length := by rw [hst]; split_ifs <;> omega
  obtain ⟨s2, f4, f5, f6⟩ := place_tracks (own := own) st2' ps2 s1 0 f2 (by rw [f3]; exact forall2_lt h h2) (by omega)
  refine ⟨st2', s2, ?_, f5, f6.trans f3, by omega, by omega, ?_⟩
  · unfold placeTwo
    rw [f1]
    simp only [Option.bind_some]
    rw [← hst, f4]; rfl
  · intro c1 c2 c3
    obtain ⟨a1, a2⟩ := place_pos st1 ps1 s s1 0 q1 h h1 (forall2_nodup h h1 (List.nodup_append.mp hnd).1)
      (by simpa using c1) (by omega) f1
    have h2' : List.Forall₂ (fun q p => (q, p) ∈ s1.sh) q2 ps2 := by
      have h2g := List.forall₂_iff_get.mp h2
      rw [List.forall₂_iff_get]
      refine ⟨h2g.1, fun i hi hi' => a2 _ _ (h2g.2 i hi hi') ?_ ?_⟩
      · intro hm
        exact (List.nodup_append.mp nd12).2.2 _ hm _ (List.getElem_mem hi') rfl
      · intro j hj
        rw [Nat.add_zero]
        exact c2 _ (List.getElem_mem _) j (by omega)
    obtain ⟨a3, a4⟩ := place_pos st2' ps2 s1 s2 0 q2 f2 h2' (forall2_nodup f2 h2' (List.nodup_append.mp hnd).2.1)
      (by simpa using c3) (by omega) f4
    refine ⟨fun i hi => ?_, fun i hi => by simpa using a3 i hi⟩
    refine a4 _ _ (by simpa using a1 i hi) ?_ ?_
    · intro hm; exact c2 _ hm i hi rfl
    · intro j _; omega

theorem mapArithmetic3_tracks {s : Sim} {own : ℕ → Option ℕ} (h : Tracks s own) {q1 q2 : List ℕ} (n1 : q1 ≠ []) (n2 : q2 ≠ [])
    (hnd : (q1 ++ q2).Nodup) (hl : ∀ q ∈ q1 ++ q2, own q ≠ none) :
    ∃ st1 st2 s', mapArithmetic3 s q1 q2 = some (st1, st2, s') ∧ Tracks s' own ∧ s'.reg.length = s.reg.length ∧
      (st1 + q1.length ≤ st2 ∨ st2 + q2.length ≤ st1) ∧ st1 + q1.length ≤ s.reg.length ∧ st2 + q2.length ≤ s.reg.length := by
  obtain ⟨ps1, e1, h1⟩ := positions_mem h q1 fun q hq => hl q (List.mem_append_left _ hq)
  obtain ⟨ps2, e2, h2⟩ := positions_mem h q2 fun q hq => hl q (List.mem_append_right _ hq)
  have p1 : ps1 ≠ [] := by rintro rfl; exact n1 (List.length_eq_zero_iff.mp h1.length_eq)
  have p2 : ps2 ≠ [] := by rintro rfl; exact n2 (List.length_eq_zero_iff.mp h2.length_eq)
  obtain ⟨m1, c1, -, d1⟩ := least_spec p1
  obtain ⟨m2, c2, -, d2⟩ := least_spec p2
  unfold mapArithmetic3
  rw [e1, e2]
  simp only [Option.bind_some, c1, c2]
  by_cases hlt : m2 < m1
  · rw [if_pos hlt]
    obtain ⟨st, s', g1, g2, g3, g4, g5, -⟩ := placeTwo_tracks h h2 h1 (List.nodup_append_comm.mp hnd) n2 n1 d2 d1 (by omega)
    exact ⟨st, m2, s', by rw [g1]; rfl, g2, g3, Or.inr g4, g5, by omega⟩
  · rw [if_neg hlt]
    obtain ⟨st, s', g1, g2, g3, g4, g5, -⟩ := placeTwo_tracks h h1 h2 hnd n1 n2 d1 d2 (by omega)
    exact ⟨m1, st, s', g1, g2, g3, Or.inl g4, by omega, g5⟩

/-- `MapArithmetic2` and `MapArithmetic3`, lower register first: both registers end in the listed order, if no listed qubit
sits at the destination of an earlier one. -/
theorem mapArithmetic3_partial {s : Sim} {own : ℕ → Option ℕ} (h : Tracks s own) {q1 q2 ps1 ps2 : List ℕ} (n1 : q1 ≠ [])
    (n2 : q2 ≠ []) (hnd : (q1 ++ q2).Nodup) (hl : ∀ q ∈ q1 ++ q2, own q ≠ none) (e1 : positions s q1 = some ps1)
    (e2 : positions s q2 = some ps2) {st1 st2 : ℕ} {s' : Sim} (hr : mapArithmetic3 s q1 q2 = some (st1, st2, s'))
    (hlow : ∃ p ∈ ps1, ∀ p' ∈ ps2, p < p')
    (c1 : ∀ k (hk : k < ps1.length), ∀ j < k, ps1[k] ≠ st1 + j) (c2 : ∀ p ∈ ps2, ∀ j < q1.length, p ≠ st1 + j)
    (c3 : ∀ k (hk : k < ps2.length), ∀ j < k, ps2[k] ≠ st2 + j) :
    (∀ i (hi : i < q1.length), addr s' q1[i] = some (st1 + i)) ∧ ∀ i (hi : i < q2.length), addr s' q2[i] = some (st2 + i) := by
  obtain ⟨ps1', e1', h1⟩ := positions_mem h q1 fun q hq => hl q (List.mem_append_left _ hq)
  obtain ⟨ps2', e2', h2⟩ := positions_mem h q2 fun q hq => hl q (List.mem_append_right _ hq)
  rw [e1, Option.some.injEq] at e1'
  rw [e2, Option.some.injEq] at e2'
  subst e1' e2'
  have p1 : ps1 ≠ [] := by rintro rfl; exact n1 (List.length_eq_zero_iff.mp h1.length_eq)
  have p2 : ps2 ≠ [] := by rintro rfl; exact n2 (List.length_eq_zero_iff.mp h2.length_eq)
  obtain ⟨m1, b1, -, d1⟩ := least_spec p1
  obtain ⟨m2, b2, b3, d2⟩ := least_spec p2
  unfold mapArithmetic3 at hr
  rw [e1, e2] at hr
  simp only [Option.bind_some, b1, b2] at hr
  have hlt : ¬m2 < m1 := by
    obtain ⟨p, hp, hp'⟩ := hlow
    have := d1 p hp
    have := hp' m2 b3
    omega
  rw [if_neg hlt] at hr
  obtain ⟨st, s'', g1, g2, -, -, -, g6⟩ := placeTwo_tracks h h1 h2 hnd n1 n2 d1 d2 (by omega)
  rw [hr] at g1
  simp only [Option.some.injEq, Prod.mk.injEq] at g1
  obtain ⟨rfl, rfl, rfl⟩ := g1
  obtain ⟨r1, r2⟩ := g6 c1 c2 c3
  exact ⟨fun i hi => g2.addr (r1 i hi), fun i hi => g2.addr (r2 i hi)⟩

/-- The claim fails for the interleaved registers `[0, 2]` and `[1, 3]`: the second listed qubit of the first register and the
first of the second register end in each other's place. -/
theorem mapArithmetic3_wrong : ∃ s' : Sim, mapArithmetic3 (fill [100, 101, 102, 103]) [0, 2] [1, 3] = some (0, 2, s') ∧
    addr s' 1 ≠ some 2 := by
  refine ⟨⟨[100, 101, 102, 103], [(0, 0), (1, 1), (2, 2), (3, 3)]⟩, ?_, ?_⟩ <;> decide

/-- Qubits 1 and 3 of four: they end at positions 1 and 2, although qubit 2 was in the way. -/
example : ∃ s', mapArithmetic (fill [100, 101, 102, 103]) [1, 3] = some (1, s') ∧ addr s' 1 = some 1 ∧ addr s' 3 = some 2 ∧
    addr s' 2 = some 3 := ⟨⟨[100, 101, 103, 102], [(0, 0), (1, 1), (2, 3), (3, 2)]⟩, by decide, by decide, by decide, by decide⟩

example : positions (fill [100, 101, 102, 103]) [1, 3] = some [1, 3] ∧ ([1, 3] : List ℕ).Pairwise (· < ·) := by decide

example : ∃ s', mapArithmetic3 (fill [100, 101, 102, 103, 104]) [0, 1] [2, 4] = some (0, 2, s') ∧ addr s' 4 = some 3 :=
  ⟨⟨[100, 101, 102, 104, 103], [(0, 0), (1, 1), (2, 2), (3, 4), (4, 3)]⟩, by decide, by decide⟩

/-! ### C43 -/

/-- The qubit an id stands for after a call. -/
def ownStep (own : ℕ → Option ℕ) : Call → ℕ → Option ℕ
  | .alloc q tok => Function.update own q (some tok)
  | .release q => Function.update own q none
  | .arith _ => own
  | .arith3 _ _ => own
  | .dispose qs => fun q => if q ∈ qs then none else own q
  | .compose qs toks => fun q => (((qs.zip toks).find? fun e => e.1 = q).map (·.2)).or (own q)

/-- Calls the theorem speaks about: ids below 256, new ones unused; released and listed ids in use and listed once; for `Dispose`
and `Decompose` the listed qubits are already at the end of the register, in order. -/
def Valid (st : Option Sim) (own : ℕ → Option ℕ) : Call → Prop
  | .alloc q tok => q < 256 ∧ own q = none ∧ ∀ q', own q' ≠ some tok
  | .release q => own q ≠ none
  | .arith qs => qs ≠ [] ∧ qs.Nodup ∧ ∀ q ∈ qs, own q ≠ none
  | .arith3 q1 q2 => q1 ≠ [] ∧ q2 ≠ [] ∧ (q1 ++ q2).Nodup ∧ ∀ q ∈ q1 ++ q2, own q ≠ none
  | .dispose qs => ∃ s, st = some s ∧ qs.Nodup ∧ qs.length ≤ s.reg.length ∧
      ∀ i (hi : i < qs.length), own qs[i] ≠ none ∧ addr s qs[i] = some (s.reg.length - qs.length + i)
  | .compose qs toks => st ≠ none ∧ qs.length = toks.length ∧ qs.Nodup ∧ toks.Nodup ∧ (∀ q ∈ qs, q < 256 ∧ own q = none) ∧
      ∀ t ∈ toks, ∀ q', own q' ≠ some t

/-- Every call of the history is valid when it is made. -/
def ValidRun : Option Sim → (ℕ → Option ℕ) → List Call → Prop
  | _, _, [] => True
  | st, own, c :: cs => Valid st own c ∧ ∀ st', c.run st = some st' → ValidRun st' (ownStep own c) cs

/-- Every id stands for its qubit; a null simulator has no qubits. -/
def TracksO (st : Option Sim) (own : ℕ → Option ℕ) : Prop :=
  match st with
  | none => ∀ q, own q = none
  | some s => Tracks s own

theorem fresh_tok {s : Sim} {own : ℕ → Option ℕ} (h : Tracks s own) {t : ℕ} (ht : ∀ q, own q ≠ some t) : t ∉ s.reg := by
  intro hm
  obtain ⟨i, hi, rfl⟩ := List.mem_iff_getElem.mp hm
  obtain ⟨k, hk⟩ := h.exists_key hi
  exact ht k ((h.own _ _).mpr ⟨i, hk, List.getElem?_eq_getElem hi⟩)

theorem allocateFirst_tracks {own : ℕ → Option ℕ} (ho : ∀ q, own q = none) {q tok : ℕ} (hq : q < 256) :
    Tracks (allocateFirst q tok) (Function.update own q (some tok)) := by
  have h0 : Tracks ⟨[], []⟩ own := by
    refine ⟨by simp, by simp, by simp, by simp, fun q t => ?_⟩
    rw [ho q]; simp
  have := allocate_tracks h0 hq (ho q) (tok := tok) (by simp)
  exact this

theorem compose_eq (toks : List ℕ) : ∀ (s : Sim) (qs : List ℕ), qs.length = toks.length →
    compose s qs toks = (qs.zip toks).foldl (fun s e => allocate s e.1 e.2) s := by
  have key : ∀ (toks qs r : List ℕ) (m : Shards) (b k : ℕ), qs.length = toks.length → r.length = b + k →
      (⟨r ++ toks, ((List.range' k toks.length).zip qs).foldl (fun m e => mset m e.2 (b + e.1)) m⟩ : Sim) =
        (qs.zip toks).foldl (fun s e => allocate s e.1 e.2) ⟨r, m⟩ := by
    intro toks
    induction toks with
    | nil => intro qs r m b k hl hr; rw [List.length_eq_zero_iff.mp hl]; simp
    | cons t toks ih =>
      intro qs r m b k hl hr
      cases qs with
      | nil => simp at hl
      | cons q qs =>
        rw [List.length_cons, List.range'_succ, List.zip_cons_cons, List.zip_cons_cons, List.foldl_cons, List.foldl_cons]
        have := ih qs (r ++ [t]) (mset m q (b + k)) b (k + 1) (by simpa using hl) (by simp; omega)
        rw [List.append_assoc, List.singleton_append] at this
        rw [this]
        congr 1
        simp [allocate, hr]
  intro s qs hl
  have := key toks qs s.reg s.sh s.reg.length 0 hl rfl
  rw [← this]
  simp only [compose, List.range_eq_range']

theorem compose_tracks (toks : List ℕ) : ∀ (s : Sim) (own : ℕ → Option ℕ) (qs : List ℕ), Tracks s own →
    qs.length = toks.length → qs.Nodup → toks.Nodup → (∀ q ∈ qs, q < 256 ∧ own q = none) →
    (∀ t ∈ toks, ∀ q', own q' ≠ some t) → Tracks (compose s qs toks) (ownStep own (.compose qs toks)) := by
  induction toks with
  | nil =>
    intro s own qs h hl _ _ _ _
    rw [List.length_eq_zero_iff.mp hl]
    simpa [compose, ownStep] using h
  | cons t toks ih =>
    intro s own qs h hl hq ht h1 h2
    cases qs with
    | nil => simp at hl
    | cons q qs =>
      rw [compose_eq _ _ _ hl, List.zip_cons_cons, List.foldl_cons, ← compose_eq toks _ qs (by simpa using hl)]
      obtain ⟨hq1, hq2⟩ := List.nodup_cons.mp hq
      obtain ⟨ht1, ht2⟩ := List.nodup_cons.mp ht
      have ha := allocate_tracks h (h1 q List.mem_cons_self).1 (h1 q List.mem_cons_self).2
        (fresh_tok h (h2 t List.mem_cons_self))
      have hb := ih _ _ qs ha (by simpa using hl) hq2 ht2 (by
          intro q' hq'
          refine ⟨(h1 q' (List.mem_cons_of_mem _ hq')).1, ?_⟩
          rw [Function.update_of_ne (by rintro rfl; exact hq1 hq')]
          exact (h1 q' (List.mem_cons_of_mem _ hq')).2) (by
          intro t' ht' q'
          rw [Function.update_apply]
          split_ifs
          · rw [ne_eq, Option.some.injEq]; rintro rfl; exact ht1 ht'
          · exact h2 t' (List.mem_cons_of_mem _ ht') q')
      convert hb using 1
      funext q'
      simp only [ownStep, List.zip_cons_cons, List.find?_cons]
      by_cases he : q = q'
      · subst he
        have : ((qs.zip toks).find? fun e => e.1 = q) = none := by
          rw [List.find?_eq_none]
          rintro ⟨a, b⟩ hab
          simp only [decide_eq_true_eq]
          rintro rfl
          exact hq1 (List.of_mem_zip hab).1
        rw [this]
        simp
      · rw [Function.update_of_ne (Ne.symm he)]
        simp [he]

theorem swapReg_self {r : List ℕ} {p : ℕ} (hp : p < r.length) : swapReg r p p = some r := by
  unfold swapReg
  rw [List.getElem?_eq_getElem hp]
  simp

theorem moveToEnd_id (qs : List ℕ) : ∀ (s : Sim) (idx i : ℕ),
    (∀ j (hj : j < qs.length), addr s qs[j] = some (idx + i + j)) → idx + i + qs.length ≤ s.reg.length →
    moveToEnd s idx i qs = some s := by
  induction qs with
  | nil => intro s idx i _ _; rfl
  | cons q qs ih =>
    intro s idx i h hl
    have h0 := h 0 (by simp)
    simp only [List.getElem_cons_zero, Nat.add_zero] at h0
    rw [List.length_cons] at hl
    rw [moveToEnd, h0, Option.bind_some, Nat.add_comm i idx, swapReg_self (by omega), Option.bind_some]
    refine ih s idx (i + 1) (fun j hj => ?_) (by omega)
    have := h (j + 1) (by simpa using hj)
    rw [List.getElem_cons_succ] at this
    rw [this]; congr 1; omega

theorem closeGaps_tracks (qs : List ℕ) : ∀ (s : Sim) (own : ℕ → Option ℕ) (idx : ℕ), Tracks s own →
    s.reg.length = idx + qs.length → qs.Nodup → (∀ j (hj : j < qs.length), (qs[j], idx + j) ∈ s.sh) →
    Tracks ⟨s.reg.take idx, qs.foldl closeGap s.sh⟩ (fun q => if q ∈ qs then none else own q) := by
  induction qs with
  | nil =>
    intro s own idx h hl _ _
    simp only [List.foldl_nil, List.not_mem_nil, if_false]
    rw [List.take_of_length_le (by simp at hl; omega)]
    exact h
  | cons q qs ih =>
    intro s own idx h hl hn hp
    obtain ⟨hn1, hn2⟩ := List.nodup_cons.mp hn
    rw [List.length_cons] at hl
    have h0 := hp 0 (by simp)
    simp only [List.getElem_cons_zero, Nat.add_zero] at h0
    have ha := erase_tracks h h0
    have hb := ih _ _ idx ha (by simp only [List.length_eraseIdx_of_lt (h.mem_lt h0)]; omega) hn2 (by
      intro j hj
      rw [closeGap_mem h.keys h0]
      have := hp (j + 1) (by simpa using hj)
      rw [List.getElem_cons_succ] at this
      refine ⟨?_, idx + (j + 1), this, ?_⟩
      · intro he; exact hn1 (he ▸ List.getElem_mem _)
      · unfold down; rw [if_pos (by omega)]; omega)
    rw [List.foldl_cons]
    have ht : (s.reg.eraseIdx idx).take idx = s.reg.take idx := by
      rw [List.eraseIdx_eq_take_drop_succ, List.take_append_of_le_length (by rw [List.length_take]; have := h.mem_lt h0; omega),
        List.take_take, Nat.min_self]
    simp only [ht] at hb
    convert hb using 1
    funext q'
    by_cases he : q' = q
    · subst he; simp [hn1]
    · simp [he, Function.update_of_ne he]

/-- One valid call keeps every id with its qubit. -/
theorem call_tracks {st : Option Sim} {own : ℕ → Option ℕ} (h : TracksO st own) (c : Call) (hv : Valid st own c) :
    ∃ st', c.run st = some st' ∧ TracksO st' (ownStep own c) := by
  cases st with
  | none =>
    cases c with
    | alloc q tok => exact ⟨_, rfl, allocateFirst_tracks h hv.1⟩
    | release q => exact absurd (h q) hv
    | arith qs => exact ⟨_, rfl, h⟩
    | arith3 q1 q2 => exact ⟨_, rfl, h⟩
    | dispose qs => obtain ⟨s, hs, -⟩ := hv; cases hs
    | compose qs toks => exact absurd rfl hv.1
  | some s =>
    have h : Tracks s own := h
    cases c with
    | alloc q tok => exact ⟨_, rfl, allocate_tracks h hv.1 hv.2.1 (fresh_tok h hv.2.2)⟩
    | release q =>
      obtain ⟨p, hp⟩ := h.live hv
      simp only [Call.run, release, h.addr hp]
      by_cases hl : s.reg.length = 1
      · rw [if_pos hl]
        refine ⟨_, rfl, fun q' => ?_⟩
        simp only [ownStep, Function.update_apply]
        split_ifs with he
        · rfl
        · by_contra hn
          obtain ⟨p', hp'⟩ := h.live hn
          have e1 := h.mem_lt hp
          have e2 := h.mem_lt hp'
          have e3 : p' = p := by omega
          subst e3
          exact he (val_unique h.vnodup hp' hp)
      · rw [if_neg hl, (mget_iff h.keys q p).mpr hp]
        exact ⟨_, rfl, erase_tracks h hp⟩
    | arith qs =>
      obtain ⟨a, s', e, ht, -⟩ := mapArithmetic_tracks h hv.1 hv.2.1 hv.2.2
      exact ⟨some s', by simp only [Call.run, e]; rfl, ht⟩
    | arith3 q1 q2 =>
      obtain ⟨a, b, s', e, ht, -⟩ := mapArithmetic3_tracks h hv.1 hv.2.1 hv.2.2.1 hv.2.2.2
      exact ⟨some s', by simp only [Call.run, e]; rfl, ht⟩
    | dispose qs =>
      obtain ⟨s1, hs, hn, hl, hp⟩ := hv
      rw [Option.some.injEq] at hs
      subst hs
      refine ⟨some ⟨s.reg.take (s.reg.length - qs.length), qs.foldl closeGap s.sh⟩, ?_,
        closeGaps_tracks qs s own (s.reg.length - qs.length) h (by omega) hn fun j hj => ?_⟩
      · simp only [Call.run, dispose]
        rw [moveToEnd_id qs s _ 0 (fun j hj => by rw [Nat.add_zero]; exact (hp j hj).2) (by omega)]
        rfl
      · obtain ⟨p, hm⟩ := h.live (hp j hj).1
        have := (h.addr hm).symm.trans (hp j hj).2
        rw [Option.some.injEq] at this
        rw [← this]; exact hm
    | compose qs toks =>
      exact ⟨_, rfl, compose_tracks toks s own qs h hv.2.1 hv.2.2.1 hv.2.2.2.1 hv.2.2.2.2.1 hv.2.2.2.2.2⟩

/-- For every history of valid calls, each live id addresses the position of its own qubit and distinct live ids address distinct
positions. The full claim also has `Dispose` and `Decompose` of qubits anywhere in the register and ids from 256 on;
`dispose_wrong` and `alias_wrong` show that it is false there. -/
theorem history_partial (cs : List Call) : ∀ (st : Option Sim) (own : ℕ → Option ℕ), TracksO st own → ValidRun st own cs →
    ∃ st', runCalls st cs = some st' ∧
      (∀ q t, cs.foldl ownStep own q = some t → ∃ s p, st' = some s ∧ addr s q = some p ∧ s.reg[p]? = some t) ∧
      (∀ q q' t t' s, cs.foldl ownStep own q = some t → cs.foldl ownStep own q' = some t' → q ≠ q' → st' = some s →
        addr s q ≠ addr s q') := by
  induction cs with
  | nil =>
    intro st own h _
    refine ⟨st, rfl, fun q t hq => ?_, fun q q' t t' s hq hq' hne hs he => ?_⟩
    · cases st with
      | none => rw [List.foldl_nil, h q] at hq; cases hq
      | some s =>
        obtain ⟨p, h1, h2⟩ := (Tracks.own h q t).mp hq
        exact ⟨s, p, rfl, Tracks.addr h h1, h2⟩
    · subst hs
      have h : Tracks s own := h
      obtain ⟨p, h1, -⟩ := (h.own q t).mp hq
      obtain ⟨p', h1', -⟩ := (h.own q' t').mp hq'
      rw [h.addr h1, h.addr h1', Option.some.injEq] at he
      subst he
      exact hne (val_unique h.vnodup h1 h1')
  | cons c cs ih =>
    intro st own h hv
    obtain ⟨st1, e1, h1⟩ := call_tracks h c hv.1
    obtain ⟨st2, e2, h2⟩ := ih st1 _ h1 (hv.2 st1 e1)
    refine ⟨st2, ?_, h2⟩
    rw [runCalls, e1, Option.bind_some, e2]

/-- The initial map of `init_count` and `init_clone`. -/
theorem fill_tracks {toks : List ℕ} (hn : toks.Nodup) (hl : toks.length ≤ 256) : Tracks (fill toks) (fun q => toks[q]?) := by
  refine ⟨?_, ?_, ?_, hn, fun q t => ?_⟩
  · simp only [fill, List.map_map, Function.comp_def, List.map_id']
    exact List.nodup_range
  · simp only [fill, List.mem_map, List.mem_range]
    rintro e ⟨i, hi, rfl⟩
    simp only; omega
  · simp only [fill, List.map_map, Function.comp_def, List.map_id']
    exact List.Perm.refl _
  · simp only [fill, List.mem_map, List.mem_range, Prod.mk.injEq]
    constructor
    · intro h
      obtain ⟨hq, -⟩ := List.getElem?_eq_some_iff.mp h
      exact ⟨q, ⟨q, hq, rfl, rfl⟩, h⟩
    · rintro ⟨p, ⟨i, -, rfl, rfl⟩, h⟩; exact h

/-- Disposing of the first of three qubits leaves ids 1 and 2 exchanged. -/
theorem dispose_wrong : ∃ s, dispose (fill [100, 101, 102]) [0] = some s ∧
    (addr s 1).bind (s.reg[·]?) = some 102 ∧ (addr s 2).bind (s.reg[·]?) = some 101 :=
  ⟨⟨[102, 101], [(1, 0), (2, 1)]⟩, by decide, by decide, by decide⟩

/-- Ids 0 and 256 address the same qubit. -/
theorem alias_wrong : addr (allocate (allocateFirst 0 100) 256 101) 256 = addr (allocate (allocateFirst 0 100) 256 101) 0 := by
  decide

example : ∃ st, runCalls none [.alloc 7 100, .alloc 3 101, .alloc 9 102, .arith [3, 9], .release 7, .compose [4, 5] [103, 104],
    .dispose [4, 5]] = some st ∧ st = some ⟨[101, 102], [(3, 0), (9, 1)]⟩ := by
  refine ⟨_, ?_, rfl⟩; decide

/-- `init_clone` (`src/pinvoke_api.cpp:850-901`) fills the id map of the clone afresh: after a relocation the ids of the clone are
not those of the original. -/
theorem clone_wrong : ∃ s, mapArithmetic (fill [100, 101, 102]) [0, 2] = some (0, s) ∧
    (addr s 1).bind (s.reg[·]?) = some 101 ∧ (addr (fill s.reg) 1).bind ((fill s.reg).reg[·]?) = some 102 :=
  ⟨⟨[100, 102, 101], [(0, 0), (1, 2), (2, 1)]⟩, by decide, by decide, by decide⟩

/-- A history that meets the hypotheses: two allocations, an arithmetic call that lists the qubits in order, a release. -/
example : ValidRun none (fun _ => none) [.alloc 7 100, .alloc 3 101, .arith [7, 3], .release 7] := by
  refine ⟨⟨by decide, rfl, fun _ => by simp⟩, fun st' _ => ⟨⟨by decide, rfl, fun q' => ?_⟩, fun st' _ => ⟨⟨by decide, by decide, ?_⟩,
    fun st' _ => ⟨?_, fun _ _ => trivial⟩⟩⟩⟩
  · simp only [ownStep, Function.update_apply]; split_ifs <;> simp
  · intro q hq
    simp only [ownStep, Function.update_apply]
    fin_cases hq <;> simp
  · show ownStep _ _ 7 ≠ none
    simp [ownStep, Function.update_apply]

end Verif.Capi
