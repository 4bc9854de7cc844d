import Verif.Lemmas.PagerJoin

/-!
Helper lemmas for splitting paged registers.
-/

namespace Verif.Pager

open Verif.Engine Verif.ParFor Verif.Bits Verif.Spec Verif.Circ Classical

theorem disposePerm_page {σ : List ℕ → List ℕ} (hσ : IsSched σ) (fresh : ℕ → ℂ) {q : ℕ} {e : Eng} {s : ℕ → ℂ}
    (h : PageIs q e s) {start length perm : ℕ} (hs : start + length ≤ q) (hl : length < q) (hp : perm < 2 ^ length) :
    ∃ e', Engine.disposePerm σ fresh e start length perm = some e' ∧
      PageIs (q - length) e' (fun i => s (insertAt start length perm i)) := by
  have hd : e.doNorm = true → e.rn = 1 := by rw [h.doNorm]; simp
  obtain ⟨r, h1, h2, h3⟩ := disposePerm_keeps_partial hσ fresh (e := e) (start := start) (length := length) (perm := perm)
    (by rw [h.n]; exact hs) (by rw [h.n]; exact hl) hp hd
  have hfr : r.doNorm = e.doNorm ∧ r.rgp = e.rgp := by
    unfold Engine.disposePerm at h1
    rw [if_neg (by rw [h.n]; omega)] at h1
    by_cases h0 : length = 0
    · rw [if_pos h0] at h1
      rw [← Option.some.inj h1]
      exact ⟨rfl, rfl⟩
    · rw [if_neg h0] at h1
      simp only [] at h1
      rw [normIf_ready hd] at h1
      rw [← Option.some.inj h1]
      exact ⟨rfl, rfl⟩
  refine ⟨r, h1, by rw [h2, h.n], by rw [hfr.1, h.doNorm], by rw [hfr.2, h.rgp], fun i hi => ?_⟩
  rw [h3 i (by rw [h.n]; exact hi), h.amp]
  exact insertAt_lt hp hs hi

/-- Taking a range out of every page takes it out of the register. -/
theorem insertAt_page {q start length : ℕ} (hs : start + length ≤ q) (perm k : ℕ) (y : ℕ) :
    insertAt start length perm (2 ^ (q - length) * k + y) = 2 ^ q * k + insertAt start length perm y := by
  unfold insertAt
  have e1 : 2 ^ (q - length) = 2 ^ start * 2 ^ (q - length - start) := by rw [← pow_add]; congr 1; omega
  have e2 : 2 ^ q = 2 ^ (start + length) * 2 ^ (q - length - start) := by rw [← pow_add]; congr 1; omega
  rw [e1, e2, Nat.mul_assoc, Nat.mul_add_div (by positivity), Nat.mul_add_mod]
  ring

/-- The loop over the pages of `Dispose`. -/
theorem disposePages {thr : ℕ} (ht : 1 ≤ thr) {p : Pager} {q : ℕ} {s s' : ℕ → ℂ} (h : Holds p q s) {length : ℕ}
    (hl : length < q) {g : Eng → Option Eng}
    (hg : ∀ k < 2 ^ (p.n - q), ∃ e', g (p.page k) = some e' ∧ PageIs (q - length) e' (fun y => s' (2 ^ (q - length) * k + y))) :
    ∃ p', (((List.range p.count).foldlM (fun p i => onPage p i g) p).bind fun p =>
        regroup thr (setQubitCount thr p (p.n - length))) = some p' ∧ p'.n = p.n - length ∧ Based thr p' ∧
      Holds p' p'.base s' := by
  have hqn := h.le
  obtain ⟨p1, h1, h2, h3, h4, h5⟩ := allPages (fun _ => g)
    (fun k e => PageIs (q - length) e (fun y => s' (2 ^ (q - length) * k + y))) p (fun k hk => hg k (by rw [← h.count]; exact hk))
  have H : Holds { p1 with n := p.n - length, base := 1 } (q - length) s' := by
    refine ⟨by omega, by show q - length ≤ p.n - length; omega, ?_, le_rfl, by show 1 ≤ q - length; omega, ?_, ?_⟩
    · show p.n - length ≤ 64
      have := h.word; omega
    · show p1.count = 2 ^ (p.n - length - (q - length))
      rw [h4, h.count]; congr 1; omega
    · intro k hk
      have hk : k < 2 ^ (p.n - length - (q - length)) := hk
      rw [show p.n - length - (q - length) = p.n - q by omega] at hk
      exact h5 k (by rw [h.count]; exact hk)
  obtain ⟨p', k1, k2, k3, k4⟩ := regroup_holds ht H
  refine ⟨p', ?_, k2, k3, k4⟩
  rw [h1, Option.bind_some, h2]
  exact k1

/-- `Dispose` of a range that fits in a page. -/
theorem disposeIn {thr : ℕ} {σ : List ℕ → List ℕ} (ht : 1 ≤ thr) {p : Pager} {q : ℕ} {s s' : ℕ → ℂ} (h : Holds p q s)
    {length start fuel : ℕ} (hl : length < p.n) (hs : start + length ≤ max q (length + 1)) {f : ℕ → Eng → Option Eng}
    (hf : ∀ p1 q1, combineEngines p (length + 1) = some p1 → p1.n = p.n → q1 = max q (length + 1) → Holds p1 q1 s →
      ∀ k < 2 ^ (p.n - q1), ∃ e', f start (p1.page k) = some e' ∧
        PageIs (q1 - length) e' (fun y => s' (2 ^ (q1 - length) * k + y))) :
    ∃ p', disposeWith thr σ length f (fuel + 1) p start = some p' ∧ p'.n = p.n - length ∧ Based thr p' ∧
      Holds p' p'.base s' := by
  obtain ⟨p1, q1, k1, k2, k3, k4, k5⟩ := combine_holds h (length + 1)
  have hq1 : q1 = max q (length + 1) := by omega
  unfold disposeWith
  rw [k1, Option.bind_some, k4.qpp, if_neg (by omega)]
  rw [show p.n - length = p1.n - length by omega]
  exact disposePages ht k4 (by omega) (fun k hk => hf p1 q1 k1 k2 hq1 k4 k (by rw [← k2]; exact hk))

theorem insertAt_zero (l v i : ℕ) : insertAt 0 l v i = 2 ^ l * i + v := by
  unfold insertAt
  simp [Nat.mod_one]

/-- Rotating the range to the bottom, disposing it there, and rotating back. -/
theorem rotate_insert {n length start perm : ℕ} (hs : start + length ≤ n) (hl : length < n) (hp : perm < 2 ^ length)
    {s s1 s3 : ℕ → ℂ} (h1 : ∀ i, s1 (act (ror start 0 n) i) = s i)
    (h3 : ∀ i, s3 (act (rol start 0 (n - length)) i) = s1 (insertAt 0 length perm i)) :
    SameOn (n - length) s3 (fun i => s (insertAt start length perm i)) := by
  intro j hj
  have hr := ror_all (n := n - length) (sh := start) (i := j) (by omega) hj (by omega)
  have e := h3 (act (ror start 0 (n - length)) j)
  rw [(ror_rol_cancel start 0 (n - length) j).2] at e
  rw [e, hr, insertAt_zero]
  have hX := insertAt_lt (n := n) hp hs hj
  have hx := ror_all (n := n) (sh := start) (by omega) hX (by omega)
  show _ = s (insertAt start length perm j)
  rw [← h1, hx]
  congr 1
  unfold insertAt
  have e1 : (2 ^ (start + length) * (j / 2 ^ start) + 2 ^ start * perm + j % 2 ^ start) =
      2 ^ start * (2 ^ length * (j / 2 ^ start) + perm) + j % 2 ^ start := by rw [pow_add]; ring
  have hm : j % 2 ^ start < 2 ^ start := Nat.mod_lt _ (by positivity)
  rw [e1, Nat.mul_add_div (by positivity), Nat.div_eq_of_lt hm, Nat.mul_add_mod, Nat.mod_mod]
  have e2 : 2 ^ (n - start) = 2 ^ length * 2 ^ (n - length - start) := by rw [← pow_add]; congr 1; omega
  rw [e2]
  ring

/-- `Dispose(start, length, disposedPerm)`. -/
theorem disposePerm_holds {thr : ℕ} {σ : List ℕ → List ℕ} (hσ : IsSched σ) (fresh : ℕ → ℂ) (ht : 1 ≤ thr) {p : Pager} {q : ℕ}
    {s : ℕ → ℂ} (h : Holds p q s) (hb : Based thr p) {start length perm : ℕ} (hl : length < p.n) (hs : start + length ≤ p.n)
    (hp : perm < 2 ^ length) (h8 : max q (length + 1) < start + length → p.n ≤ thr + 8) :
    ∃ p' q', disposePerm thr σ fresh 2 p start length perm = some p' ∧ p'.n = p.n - length ∧ Based thr p' ∧
      Holds p' q' (fun i => s (insertAt start length perm i)) := by
  have inpage : ∀ {p : Pager} {q : ℕ} {s : ℕ → ℂ}, Holds p q s → ∀ {start fuel : ℕ}, length < p.n →
      start + length ≤ max q (length + 1) → ∃ p', disposePerm thr σ fresh (fuel + 1) p start length perm = some p' ∧
        p'.n = p.n - length ∧ Based thr p' ∧ Holds p' p'.base (fun i => s (insertAt start length perm i)) := by
    intro p q s h start fuel hl hs
    refine disposeIn ht h hl hs fun p1 q1 _ k2 k3 k4 k hk => ?_
    obtain ⟨e', l1, l2⟩ := disposePerm_page hσ fresh (k4.pages k (by rw [k2]; exact hk)) (start := start) (length := length)
      (perm := perm) (by omega) (by omega) hp
    refine ⟨e', l1, l2.congr fun y hy => ?_⟩
    simp only
    rw [insertAt_page (by omega)]
  by_cases hin : start + length ≤ max q (length + 1)
  · obtain ⟨p', k1, k2, k3, k4⟩ := inpage h (fuel := 1) hl hin
    exact ⟨p', _, k1, k2, k3, k4⟩
  · have h8 := h8 (by omega)
    obtain ⟨p1, q1, k1, k2, k3, k4, k5⟩ := combine_holds h (length + 1)
    have hbase : p.base = min thr p.n := sizes hb
    obtain ⟨p2, q2, s2, l1, l2, l3, l4, l5⟩ := runSwaps_holds hσ (ror start 0 p1.n) k4
      (ror_swaps (by rw [k2, k3]; omega) (by omega))
    obtain ⟨p3, m1, m2, m3, m4⟩ := inpage (start := 0) (fuel := 0) l4 (by omega) (by omega)
    have hbase3 := sizes m3
    obtain ⟨p4, q4, s4, r1, r2, r3, r4, r5⟩ := runSwaps_holds hσ (rol start 0 p3.n) m4
      (rol_swaps (by omega) (by omega))
    have hn3 : p3.n = p.n - length := by omega
    refine ⟨p4, q4, ?_, by omega, ?_, r4.congr ?_⟩
    · unfold disposePerm disposeWith
      rw [k1, Option.bind_some, k4.qpp, if_pos (by omega), l1, Option.bind_some]
      unfold disposePerm at m1
      rw [m1, Option.bind_some]
      exact r1
    · unfold Based; rw [r3, r2]; exact m3
    · rw [r2, hn3]
      refine rotate_insert hs hl hp (s1 := s2) (fun i => ?_) (fun i => ?_)
      · rw [← k2]; exact l5 i
      · have := r5 i
        rw [hn3] at this
        exact this

end Verif.Pager
