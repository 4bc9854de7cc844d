import Verif.Lemmas.Pager

/-!
Helper lemmas for the paged register: the loops as gates on the whole register.
-/

namespace Verif.Pager

open Verif.Engine Verif.ParFor Verif.Bits Verif.Spec Classical

/-- The pages of `p` have `q` qubits each and hold the state `s`: amplitude `2 ^ q * k + a` is amplitude `a` of page `k`. -/
structure Holds (p : Pager) (q : ℕ) (s : ℕ → ℂ) : Prop where
  pos : 1 ≤ q
  le : q ≤ p.n
  word : p.n ≤ 64
  base1 : 1 ≤ p.base
  base : p.base ≤ q
  count : p.count = 2 ^ (p.n - q)
  pages : ∀ k < 2 ^ (p.n - q), PageIs q (p.page k) (fun a => s (2 ^ q * k + a))

theorem log2Ocl_pow (q : ℕ) : Verif.Utils.log2Ocl (2 ^ q) = q := by
  obtain ⟨h1, h2⟩ := Verif.Utils.log2Ocl_floor (n := 2 ^ q) (by positivity)
  have a := (Nat.pow_le_pow_iff_right (a := 2) (by norm_num)).1 h1
  have b := (Nat.pow_lt_pow_iff_right (a := 2) (by norm_num)).1 h2
  omega

theorem Holds.pageMax {p : Pager} {q : ℕ} {s : ℕ → ℂ} (h : Holds p q s) : p.pageMax = 2 ^ q := by
  unfold Pager.pageMax
  rw [h.count, Nat.pow_div (Nat.sub_le _ _) (by norm_num)]
  congr 1
  have := h.le
  omega

theorem Holds.qpp {p : Pager} {q : ℕ} {s : ℕ → ℂ} (h : Holds p q s) : p.qpp = q := by
  unfold Pager.qpp
  rw [h.pageMax, log2Ocl_pow]

theorem Holds.word' {p : Pager} {q : ℕ} {s : ℕ → ℂ} (h : Holds p q s) : q ≤ 64 := h.le.trans h.word

theorem Holds.update {p p' : Pager} {q : ℕ} {s s' : ℕ → ℂ} (h : Holds p q s) (h1 : p'.n = p.n) (h2 : p'.base = p.base)
    (h3 : p'.count = p.count) (h4 : ∀ k < 2 ^ (p.n - q), PageIs q (p'.page k) (fun a => s' (2 ^ q * k + a))) :
    Holds p' q s' :=
  ⟨h.pos, by rw [h1]; exact h.le, by rw [h1]; exact h.word, by rw [h2]; exact h.base1, by rw [h2]; exact h.base,
    by rw [h3, h1]; exact h.count, by rw [h1]; exact h4⟩

theorem Holds.congr {p : Pager} {q : ℕ} {s s' : ℕ → ℂ} (h : Holds p q s) (hs : SameOn p.n s s') : Holds p q s' :=
  h.update rfl rfl rfl fun k hk => (h.pages k hk).congr fun a ha => hs _ (at_lt h.le hk ha)

theorem shift_pow {r l : ℕ} (h : l ≤ r) : 2 ^ r >>> l = 2 ^ (r - l) := by
  rw [Nat.shiftRight_eq_div_pow, Nat.pow_div h (by norm_num)]

theorem gate_at_lo {q t : ℕ} (ht : t < q) {P : ℕ → Prop} [DecidablePred P] (a b c d : ℂ) (s : ℕ → ℂ) (k : ℕ) {x : ℕ}
    (hx : x < 2 ^ q) : gate P t a b c d s (2 ^ q * k + x) =
      gate (fun y => P (2 ^ q * k + y)) t a b c d (fun y => s (2 ^ q * k + y)) x := by
  unfold gate
  rw [testBit_at hx, if_pos ht, flip_at_lo hx ht]

theorem gate_at_hi {q t : ℕ} (ht : q ≤ t) {P : ℕ → Prop} [DecidablePred P] (a b c d : ℂ) (s : ℕ → ℂ) (k : ℕ) {x : ℕ}
    (hx : x < 2 ^ q) : gate P t a b c d s (2 ^ q * k + x) =
      if P (2 ^ q * k + x) then
        if k.testBit (t - q) then c * s (2 ^ q * flipBit (t - q) k + x) + d * s (2 ^ q * k + x)
        else a * s (2 ^ q * k + x) + b * s (2 ^ q * flipBit (t - q) k + x)
      else s (2 ^ q * k + x) := by
  unfold gate
  have e : (2 ^ q * k + x).testBit t = k.testBit (t - q) := by rw [testBit_at hx, if_neg (not_lt.2 ht)]
  rw [e, flip_at_hi hx ht]

/-- What an operation on a pair of pages must do for a gate on the qubit that tells them apart. -/
def PairActs (q : ℕ) (f : Eng → Eng → Option (Eng × Eng)) (Q : ℕ → Prop) (a b c d : ℂ) : Prop :=
  ∀ e1 e2 s1 s2, PageIs q e1 s1 → PageIs q e2 s2 → ∃ r, f e1 e2 = some r ∧
    PageIs q r.1 (fun i => if Q i then a * s1 i + b * s2 i else s1 i) ∧
    PageIs q r.2 (fun i => if Q i then c * s1 i + d * s2 i else s2 i)

/-- Loop over pairs of pages: a gate whose target is a page qubit. `ds` are the page positions of the paged controls. -/
theorem pairs_gate {p : Pager} {q : ℕ} {s : ℕ → ℂ} (h : Holds p q s) {t : ℕ} (ht : q ≤ t) (htn : t < p.n)
    {ds : List ℕ} (hnd : (ds ++ [t - q]).Nodup) (hb : ∀ x ∈ ds, x < p.n - q) {perm : ℕ}
    {P Q : ℕ → Prop} [DecidablePred P] (a b c d : ℂ)
    (hPQ : ∀ k x, x < 2 ^ q → (P (2 ^ q * k + x) ↔ Matches perm ds k ∧ Q x))
    {f : Eng → Eng → Option (Eng × Eng)} (hf : PairActs q f Q a b c d) {l : List ℕ}
    (hl : l.Perm (List.range (2 ^ (p.n - q - (ds.length + 1))))) (A B : ℕ → ℕ)
    (hA : ∀ i, A i = insAll ((ds ++ [t - q]).mergeSort (· ≤ ·)) i ||| permMask perm 0 ds)
    (hB : ∀ i, B i = A i ||| 2 ^ (t - q)) :
    ∃ p', l.foldlM (fun p i => onPair p (A i) (B i) f) p = some p' ∧ p'.n = p.n ∧ p'.base = p.base ∧
      Holds p' q (gate P t a b c d s) := by
  have hds : ds.Nodup := (List.nodup_append.1 hnd).1
  have htd : t - q ∉ ds := fun hm => (List.nodup_append.1 hnd).2.2 _ hm _ (by simp) rfl
  set τ := t - q with hτ
  set o := permMask perm 0 ds with ho
  set ps := (ds ++ [τ]).mergeSort (· ≤ ·) with hps
  have hmem : ∀ x, x ∈ ps ↔ x ∈ ds ∨ x = τ := fun x => by rw [hps, mem_sort]; simp
  have hsub : Sub ds o := permMask_sub perm ds
  have hoτ : o.testBit τ = false := by
    by_contra hc
    exact htd (hsub τ (by simpa using hc))
  have s1 : Sub ps o := fun k hk => (hmem k).2 (Or.inl (hsub k hk))
  have s2 : Sub ps (o ||| 2 ^ τ) := by
    intro k hk
    rw [Nat.testBit_or, Nat.testBit_two_pow, Bool.or_eq_true] at hk
    rcases hk with hk | hk
    · exact s1 k hk
    · exact (hmem k).2 (Or.inr (by simpa using Eq.symm (by simpa using hk)))
  have hxor : o ^^^ (o ||| 2 ^ τ) = 2 ^ τ := by
    apply Nat.eq_of_testBit_eq
    intro k
    rw [Nat.testBit_xor, Nat.testBit_or, Nat.testBit_two_pow]
    by_cases hk : τ = k
    · subst hk; simp [hoτ]
    · simp [hk]
  have hne : o ≠ o ||| 2 ^ τ := by
    intro hc
    rw [← hc, Nat.xor_self] at hxor
    have : 0 < 2 ^ τ := by positivity
    omega
  have hlen : ps.length = ds.length + 1 := by
    rw [hps, List.length_mergeSort]; simp
  have pat1 : ∀ k, Pat ps o k ↔ Matches perm ds k ∧ k.testBit τ = false := by
    intro k
    rw [← permMask_pat hds]
    constructor
    · intro hk
      exact ⟨fun x hx => hk x ((hmem x).2 (Or.inl hx)), by rw [hk τ ((hmem τ).2 (Or.inr rfl)), hoτ]⟩
    · rintro ⟨h1, h2⟩ x hx
      rcases (hmem x).1 hx with hx | rfl
      · exact h1 x hx
      · rw [h2, hoτ]
  have pat2 : ∀ k, Pat ps (o ||| 2 ^ τ) k ↔ Matches perm ds k ∧ k.testBit τ = true := by
    intro k
    rw [← permMask_pat hds]
    have hbit : ∀ x ∈ ds, (o ||| 2 ^ τ).testBit x = o.testBit x := by
      intro x hx
      rw [Nat.testBit_or, Nat.testBit_two_pow]
      have : τ ≠ x := fun hc => htd (hc ▸ hx)
      simp [this]
    constructor
    · intro hk
      refine ⟨fun x hx => by rw [hk x ((hmem x).2 (Or.inl hx)), hbit x hx], ?_⟩
      rw [hk τ ((hmem τ).2 (Or.inr rfl)), Nat.testBit_or, Nat.testBit_two_pow]; simp
    · rintro ⟨h1, h2⟩ x hx
      rcases (hmem x).1 hx with hx | rfl
      · rw [hbit x hx]; exact h1 x hx
      · rw [h2, Nat.testBit_or, Nat.testBit_two_pow]; simp
  have hM : ∀ k, Matches perm ds (k ^^^ 2 ^ τ) ↔ Matches perm ds k := by
    intro k
    unfold Matches
    refine forall₂_congr fun j hj => ?_
    have : (k ^^^ 2 ^ τ).testBit ds[j] = k.testBit ds[j] := by
      rw [Nat.testBit_xor, Nat.testBit_two_pow]
      have : τ ≠ ds[j] := fun hc => htd (hc ▸ List.getElem_mem hj)
      simp [this]
    rw [this]
  have hτlt : 2 ^ τ < 2 ^ (p.n - q) := Nat.pow_lt_pow_right (by norm_num) (by omega)
  obtain ⟨p', h1, h2, h3, h4, h5⟩ := pairLoop (r := p.n - q) (ps := ps) (o1 := o) (o2 := o ||| 2 ^ τ)
    (sorted_lt_of_nodup hnd)
    (fun x hx => by
      rcases (hmem x).1 hx with hx | rfl
      · exact hb x hx
      · omega)
    s1 s2 hne (l := l) (by rw [hlen]; exact hl) A B hA (fun i => by rw [hB, hA, Nat.or_assoc]) f (p := p) h.count
    (fun k e => PageIs q e (fun x => gate P t a b c d s (2 ^ q * k + x)))
    (by
      intro k hk hpat
      rw [hxor]
      obtain ⟨hm, hkt⟩ := (pat1 k).1 hpat
      have hk' : k ^^^ 2 ^ τ < 2 ^ (p.n - q) := Nat.xor_lt_two_pow hk hτlt
      obtain ⟨r, g1, g2, g3⟩ := hf _ _ _ _ (h.pages k hk) (h.pages _ hk')
      refine ⟨r, g1, g2.congr fun x hx => ?_, g3.congr fun x hx => ?_⟩
      · rw [gate_at_hi ht _ _ _ _ _ _ hx]
        simp only [hPQ k x hx, hm, true_and, flipBit, ← hτ, hkt, Bool.false_eq_true, if_false]
      · rw [gate_at_hi ht _ _ _ _ _ _ hx]
        have hb' : (k ^^^ 2 ^ τ).testBit τ = true := by
          rw [Nat.testBit_xor, Nat.testBit_two_pow]; simp [hkt]
        have hff : k ^^^ 2 ^ τ ^^^ 2 ^ τ = k := by rw [Nat.xor_assoc, Nat.xor_self, Nat.xor_zero]
        simp only [hPQ _ x hx, hM, hm, true_and, flipBit, ← hτ, hb', if_true, hff])
    (by
      intro k hk n1 n2
      refine (h.pages k hk).congr fun x hx => ?_
      rw [gate_at_hi ht _ _ _ _ _ _ hx, if_neg]
      rw [hPQ k x hx]
      rintro ⟨hm, -⟩
      by_cases hkt : k.testBit τ = true
      · exact n2 ((pat2 k).2 ⟨hm, hkt⟩)
      · exact n1 ((pat1 k).2 ⟨hm, by simpa using hkt⟩))
  exact ⟨p', h1, h2, h3, h.update h2 h3 h4 h5⟩

/-- Loop over all pages: a gate whose target is inside of the pages, without paged controls. -/
theorem pages_gate {p : Pager} {q : ℕ} {s : ℕ → ℂ} (h : Holds p q s) {t : ℕ} (ht : t < q)
    {P Q : ℕ → Prop} [DecidablePred P] [DecidablePred Q] (a b c d : ℂ)
    (hPQ : ∀ k x, x < 2 ^ q → (P (2 ^ q * k + x) ↔ Q x)) {f : Eng → Option Eng} (hf : Acts q f (gate Q t a b c d)) :
    ∃ p', (List.range p.count).foldlM (fun p i => onPage p i f) p = some p' ∧ p'.n = p.n ∧ p'.base = p.base ∧
      Holds p' q (gate P t a b c d s) := by
  obtain ⟨p', h1, h2, h3, h4, h5⟩ := allPages (fun _ => f)
    (fun k e => PageIs q e (fun x => gate P t a b c d s (2 ^ q * k + x))) p (fun k hk => by
      rw [h.count] at hk
      obtain ⟨r, g1, g2⟩ := hf _ _ (h.pages k hk)
      refine ⟨r, g1, g2.congr fun x hx => ?_⟩
      rw [gate_at_lo ht _ _ _ _ _ _ hx]
      exact gate_iff (hPQ k x hx).symm)
  exact ⟨p', h1, h2, h3, h.update h2 h3 h4 (fun k hk => h5 k (by rw [h.count]; exact hk))⟩

/-- Loop over the pages selected by paged controls: a gate whose target is inside of the pages. -/
theorem semi_gate {p : Pager} {q : ℕ} {s : ℕ → ℂ} (h : Holds p q s) {t : ℕ} (ht : t < q)
    {ds : List ℕ} (hds : ds.Nodup) (hb : ∀ x ∈ ds, x < p.n - q) {perm : ℕ}
    {P Q : ℕ → Prop} [DecidablePred P] [DecidablePred Q] (a b c d : ℂ)
    (hPQ : ∀ k x, x < 2 ^ q → (P (2 ^ q * k + x) ↔ Matches perm ds k ∧ Q x)) {f : Eng → Option Eng}
    (hf : Acts q f (gate Q t a b c d)) (A : ℕ → ℕ)
    (hA : ∀ i, A i = insAll (ds.mergeSort (· ≤ ·)) i ||| permMask perm 0 ds) :
    ∃ p', (List.range (2 ^ (p.n - q - ds.length))).foldlM (fun p i => onPage p (A i) f) p = some p' ∧ p'.n = p.n ∧
      p'.base = p.base ∧ Holds p' q (gate P t a b c d s) := by
  set o := permMask perm 0 ds with ho
  set ps := ds.mergeSort (· ≤ ·) with hps
  have hmem : ∀ x, x ∈ ps ↔ x ∈ ds := fun x => by rw [hps, mem_sort]
  have hsub : Sub ds o := permMask_sub perm ds
  have hlen : ps.length = ds.length := by rw [hps, List.length_mergeSort]
  have pat : ∀ k, Pat ps o k ↔ Matches perm ds k := by
    intro k
    rw [← permMask_pat hds]
    exact ⟨fun hk x hx => hk x ((hmem x).2 hx), fun hk x hx => hk x ((hmem x).1 hx)⟩
  obtain ⟨p', h1, h2, h3, h4, h5⟩ := pageLoop (r := p.n - q) (ps := ps) (o := o) (sorted_lt_of_nodup hds)
    (fun x hx => hb x ((hmem x).1 hx)) (fun k hk => (hmem k).2 (hsub k hk)) A hA f (p := p) h.count
    (fun k e => PageIs q e (fun x => gate P t a b c d s (2 ^ q * k + x)))
    (by
      intro k hk hpat
      obtain ⟨r, g1, g2⟩ := hf _ _ (h.pages k hk)
      refine ⟨r, g1, g2.congr fun x hx => ?_⟩
      rw [gate_at_lo ht _ _ _ _ _ _ hx]
      refine gate_iff ?_
      rw [hPQ k x hx]
      exact ⟨fun hq => ⟨(pat k).1 hpat, hq⟩, fun hq => hq.2⟩)
    (by
      intro k hk n1
      refine (h.pages k hk).congr fun x hx => ?_
      rw [gate_at_lo ht _ _ _ _ _ _ hx]
      unfold gate
      rw [if_neg]
      show ¬ P (2 ^ q * k + x)
      rw [hPQ k x hx]
      exact fun hm => n1 ((pat k).2 hm.1))
  rw [hlen] at h1
  exact ⟨p', h1, h2, h3, h.update h2 h3 h4 h5⟩

end Verif.Pager
