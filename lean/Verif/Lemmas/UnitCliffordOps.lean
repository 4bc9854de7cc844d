import Verif.Lemmas.UnitClifford
import Verif.Lemmas.SortUnit

/-!
The steps of `QUnitClifford` on a register that stands for a state.
-/

namespace Verif.Units

open Verif.Stab Verif.Pauli

variable {n : ℕ}

/-! ### Measuring a tableau -/

theorem force_holds {T T' : Tab n} {ψ : State n} (hT : Holds T ψ) {t : ℕ} (ht : t < n) {result doForce rnd v : Bool}
    (e : Stab.forceM T t result doForce true rnd = some (v, T')) : Holds T' (proj ⟨t, ht⟩ v ψ) := by
  obtain ⟨h1, h2, h3⟩ := hT
  obtain ⟨b, hb⟩ := sepZ_some T ht
  cases b
  · obtain ⟨-, T'', e', hi, hs⟩ := measure_random h1 ht hb h2 result doForce rnd
    rw [e, Option.some.injEq, Prod.mk.injEq] at e'
    obtain ⟨rfl, rfl⟩ := e'
    exact ⟨hi, hs, random_possible ht hb h2 h3 _⟩
  · obtain ⟨u, hu, hm, hf, hn⟩ := measure_determined h1 ht hb
    have key : v = u ∧ ∀ i, i < 2 * n → T' i = T i := by
      cases doForce
      · obtain ⟨T'', e', hrow⟩ := hm result true rnd
        rw [e, Option.some.injEq, Prod.mk.injEq] at e'
        obtain ⟨rfl, rfl⟩ := e'
        exact ⟨rfl, hrow⟩
      · by_cases hru : result = u
        · subst hru
          obtain ⟨T'', e', hrow⟩ := hf rnd
          rw [e, Option.some.injEq, Prod.mk.injEq] at e'
          obtain ⟨rfl, rfl⟩ := e'
          exact ⟨rfl, hrow⟩
        · have : result = !u := by cases result <;> cases u <;> simp_all
          rw [this, hn rnd] at e
          exact absurd e (by simp)
    obtain ⟨rfl, hrow⟩ := key
    have hp : proj ⟨t, ht⟩ v ψ = ψ := by
      funext f
      unfold proj
      split_ifs with hf
      · rfl
      · exact (hu ψ h2 f hf).symm
    rw [hp]
    refine ⟨forceM_inv h1 e, fun i hi hi' => ?_, h3⟩
    rw [hrow i hi']; exact h2 i hi hi'

theorem look_holds {T T' : Tab n} {ψ : State n} (hT : Holds T ψ) {t : ℕ} {result doForce rnd v : Bool}
    (e : Stab.forceM T t result doForce false rnd = some (v, T')) : Holds T' ψ := by
  refine ⟨forceM_inv hT.1 e, fun i hi hi' => ?_, hT.2.2⟩
  rw [measure_look e i hi']; exact hT.2.1 i hi hi'

/-- `Prob` on a tableau: 0 and 2 (halves) are definite values, otherwise there is none. -/
theorem probT_cases {T : Tab n} {ψ : State n} (hT : Holds T ψ) {t : ℕ} (ht : t < n) (rnd : Bool) :
    ∃ k T', probT T t rnd = some (k, T') ∧ Holds T' ψ ∧
      ((k = 0 ∧ ∀ f, f ⟨t, ht⟩ = true → ψ f = 0) ∨ (k = 2 ∧ ∀ f, f ⟨t, ht⟩ = false → ψ f = 0) ∨
        (k = 1 ∧ isSeparableZ T t = some false ∧ ¬ Definite ⟨t, ht⟩ ψ)) := by
  obtain ⟨b, hb⟩ := sepZ_some T ht
  cases b
  · refine ⟨1, T, by unfold probT; rw [hb], hT, Or.inr (Or.inr ⟨rfl, hb, fun hd => ?_⟩)⟩
    exact absurd ((sepZ_iff hT ht hb).2 hd) (by simp)
  · obtain ⟨v, hv, hm, -, -⟩ := measure_determined hT.1 ht hb
    obtain ⟨T', hT', hrow⟩ := hm false true rnd
    refine ⟨if v then 2 else 0, T', by unfold probT; rw [hb]; simp only [hT', Option.map_some], ?_, ?_⟩
    · refine ⟨forceM_inv hT.1 hT', fun i hi hi' => ?_, hT.2.2⟩
      rw [hrow i hi']; exact hT.2.1 i hi hi'
    · cases v
      · exact Or.inl ⟨rfl, fun f hf => hv ψ hT.2.1 f (by rw [hf]; simp)⟩
      · exact Or.inr (Or.inl ⟨rfl, fun f hf => hv ψ hT.2.1 f (by rw [hf]; simp)⟩)

/-! ### The steps -/

/-- Replacing the object of a unit by another of the same state. -/
theorem rep_same {Q : QUC n} {Ψ : State n} (h : Rep Q Ψ) (t : Fin n) {T' : Tab (Q.heap (Q.unit t)).size}
    (hT : ∀ ψ, Holds (Q.heap (Q.unit t)).tab ψ → Holds T' ψ) : Rep (Q.setUnit (Q.unit t) ⟨_, T'⟩) Ψ := by
  obtain ⟨R, ψ, hψ, hΨ, -, hset⟩ := rep_view h t
  have := hset T' ψ (hT ψ hψ)
  rw [show (fun b => R b * ψ (subF Q b (Q.unit t) _)) = Ψ from (funext hΨ).symm] at this
  exact this

theorem prob_rep {Q : QUC n} {Ψ : State n} (h : Rep Q Ψ) (t : Fin n) :
    ∃ k Q', Q.prob t = some (k, Q') ∧ Rep Q' Ψ ∧ Q'.mapped = Q.mapped ∧ Q'.unit = Q.unit ∧
      ((k = 0 ∧ ∀ f, f t = true → Ψ f = 0) ∨ (k = 2 ∧ ∀ f, f t = false → Ψ f = 0) ∨ (k = 1 ∧ ¬ Definite t Ψ)) := by
  obtain ⟨R, ψ, hψ, hΨ, hR, hset⟩ := rep_view h t
  have hm := h.1.lt t
  obtain ⟨k, T', e, hT', hc⟩ := probT_cases hψ hm false
  refine ⟨k, Q.setUnit (Q.unit t) ⟨_, T'⟩, ?_, ?_, rfl, rfl, ?_⟩
  · unfold QUC.prob
    rw [dif_pos t.isLt, e]; rfl
  · have := hset T' ψ hT'
    rw [show (fun b => R b * ψ (subF Q b (Q.unit t) _)) = Ψ from (funext hΨ).symm] at this
    exact this
  · rcases hc with ⟨hk, hz⟩ | ⟨hk, hz⟩ | ⟨hk, -, hz⟩
    · refine Or.inl ⟨hk, fun f hf => ?_⟩
      rw [hΨ, hz _ (by rw [subF_at h.1 f t hm]; exact hf), mul_zero]
    · refine Or.inr (Or.inl ⟨hk, fun f hf => ?_⟩)
      rw [hΨ, hz _ (by rw [subF_at h.1 f t hm]; exact hf), mul_zero]
    · refine Or.inr (Or.inr ⟨hk, fun ⟨v, hv⟩ => hz ⟨v, definite_unit h t hv hψ⟩⟩)

theorem sepZ_rep {Q : QUC n} {Ψ : State n} (h : Rep Q Ψ) (t : Fin n) :
    ∃ b, Q.sepZ t = some b ∧ (b = true ↔ Definite t Ψ) := by
  obtain ⟨R, ψ, hψ, hΨ, hR, hset⟩ := rep_view h t
  have hm := h.1.lt t
  obtain ⟨b, hb⟩ := sepZ_some (Q.heap (Q.unit t)).tab hm
  refine ⟨b, ?_, ?_⟩
  · unfold QUC.sepZ
    rw [dif_pos t.isLt]; exact hb
  · rw [sepZ_iff hψ hm hb]
    constructor
    · rintro ⟨v, hv⟩
      refine ⟨v, fun f hf => ?_⟩
      rw [hΨ, hv _ (by rw [subF_at h.1 f t hm]; exact hf), mul_zero]
    · rintro ⟨v, hv⟩
      exact ⟨v, definite_unit h t hv hψ⟩

theorem gate1_rep {Q : QUC n} {Ψ : State n} (h : Rep Q Ψ) (t : Fin n) {g : ℕ → Gate}
    (hg : g = .h ∨ g = .x ∨ g = .y ∨ g = .z ∨ g = .s ∨ g = .is) :
    ∃ Q', Q.gate1 g t = some Q' ∧ Rep Q' ((g t).U n Ψ) ∧ Q'.mapped = Q.mapped ∧ Q'.unit = Q.unit := by
  obtain ⟨o, e, ho⟩ := pull_one h t hg
  refine ⟨_, ?_, ho, rfl, rfl⟩
  unfold QUC.gate1
  rw [dif_pos t.isLt, e]; rfl

/-! ### Composing the units of several qubits -/

theorem pairs_rep : ∀ (k : ℕ) (l : List ℕ), l.length ≤ k → ∀ {Q : QUC n} {Ψ : State n}, Rep Q Ψ → l.Nodup → (∀ u ∈ l, u ∈ used Q) →
    ∃ l' Q', pairs l Q = some (l', Q') ∧ Rep Q' Ψ ∧ l'.Nodup ∧ (∀ u ∈ l', u ∈ l) ∧ l'.head? = l.head? ∧ l'.length = (l.length + 1) / 2 ∧
      (∀ u ∈ l', u ∈ used Q') ∧ (∀ i, Q.unit i ∈ l → Q'.unit i ∈ l') ∧ ∀ i, Q.unit i ∉ l → Q'.unit i = Q.unit i := by
  intro k
  induction k with
  | zero =>
    intro l hl Q Ψ h hn hu
    obtain rfl : l = [] := by cases l <;> simp_all
    exact ⟨[], Q, rfl, h, hn, fun u hu => hu, rfl, rfl, hu, fun i hi => hi, fun i _ => rfl⟩
  | succ k ih =>
    intro l hl Q Ψ h hn hu
    match l, hl, hn, hu with
    | [], _, hn, hu => exact ⟨[], Q, rfl, h, hn, fun u hu => hu, rfl, rfl, hu, fun i hi => hi, fun i _ => rfl⟩
    | [r], _, hn, hu => exact ⟨[r], Q, rfl, h, hn, fun u hu => hu, rfl, by simp, hu, fun i hi => hi, fun i _ => rfl⟩
    | r :: c :: l, hl, hn, hu =>
      rw [List.nodup_cons, List.nodup_cons, List.mem_cons, not_or] at hn
      obtain ⟨⟨hrc, hrl⟩, hcl, hn⟩ := hn
      obtain ⟨Q1, e1, h1, hu1⟩ := consume_rep h (hu r (by simp)) (hu c (by simp)) hrc
      have hused : ∀ u ∈ used Q, u ≠ c → u ∈ used Q1 := by
        intro u hu huc
        obtain ⟨i, hi⟩ := of_used hu
        have := mem_used (Q := Q1) i
        rwa [hu1, hi, if_neg huc] at this
      have hl' : l.length ≤ k := by simp only [List.length_cons] at hl; omega
      obtain ⟨l', Q', e, h', hn', hsub, hhd, hlen, hused', hin, hout⟩ := ih l hl' h1 hn
        (fun u hul => hused u (hu u (by simp [hul])) (fun he => hcl (he ▸ hul)))
      have hr' : r ∉ l' := fun hr => hrl (hsub r hr)
      have hrQ : ∀ i, Q1.unit i = r → Q'.unit i = r := fun i hi => by
        rw [hout i (by rw [hi]; exact hrl), hi]
      refine ⟨r :: l', Q', ?_, h', List.nodup_cons.2 ⟨hr', hn'⟩, ?_, rfl, ?_, ?_, ?_, ?_⟩
      · show ((Q.consume r c).bind fun Q => (pairs l Q).map fun s => (r :: s.1, s.2)) = _
        rw [e1]
        show ((pairs l Q1).map fun s => (r :: s.1, s.2)) = _
        rw [e]; rfl
      · intro u hu
        rcases List.mem_cons.1 hu with rfl | hu
        · simp
        · simp [hsub u hu]
      · simp only [List.length_cons, hlen]; omega
      · intro u hul
        rcases List.mem_cons.1 hul with rfl | hul
        · obtain ⟨i, hi⟩ := of_used (hu u (by simp))
          have h2 : Q1.unit i = u := by rw [hu1, hi, if_neg hrc]
          have := mem_used (Q := Q') i
          rwa [hrQ i h2] at this
        · exact hused' u hul
      · intro i hi
        by_cases hir : Q1.unit i = r
        · rw [hrQ i hir]; simp
        · rw [hu1] at hir
          split_ifs at hir with hc
          · exact absurd rfl hir
          · have : Q.unit i ∈ l := by
              rcases List.mem_cons.1 hi with hi | hi
              · exact absurd hi hir
              · rcases List.mem_cons.1 hi with hi | hi
                · exact absurd hi hc
                · exact hi
            exact List.mem_cons_of_mem _ (hin i (by rw [hu1, if_neg hc]; exact this))
      · intro i hi
        simp only [List.mem_cons, not_or] at hi
        have h2 : Q1.unit i = Q.unit i := by rw [hu1, if_neg hi.2.1]
        rw [hout i (by rw [h2]; exact hi.2.2), h2]

theorem collapse_rep : ∀ (fuel : ℕ) (l : List ℕ) (u : ℕ), l.head? = some u → l.length < fuel → ∀ {Q : QUC n} {Ψ : State n}, Rep Q Ψ →
    l.Nodup → (∀ u ∈ l, u ∈ used Q) → ∃ Q', collapseUnits fuel l Q = some Q' ∧ Rep Q' Ψ ∧
      (∀ i, Q.unit i ∈ l → Q'.unit i = u) ∧ ∀ i, Q.unit i ∉ l → Q'.unit i = Q.unit i := by
  intro fuel
  induction fuel with
  | zero => intro l u _ hl; omega
  | succ fuel ih =>
    intro l u hu hl Q Ψ h hn hus
    unfold collapseUnits
    by_cases hs : l.length ≤ 1
    · rw [if_pos hs]
      refine ⟨Q, rfl, h, fun i hi => ?_, fun i _ => rfl⟩
      match l, hu, hs with
      | [r], hu, _ => simp only [List.head?_cons, Option.some.injEq] at hu; simp only [List.mem_singleton] at hi; rw [hi, hu]
    · rw [if_neg hs]
      match l, hu, hs, hl, hn, hus with
      | [r], _, hs, _, _, _ => exact absurd (by simp) hs
      | r :: c :: l, hu, hs, hl, hn, hus =>
        obtain rfl : r = u := by simpa using hu
        dsimp only
        by_cases hodd : (r :: c :: l).length % 2 = 1
        · rw [if_pos hodd]
          have hn0 := hn
          rw [List.nodup_cons, List.nodup_cons, List.mem_cons, not_or] at hn
          obtain ⟨⟨hrc, hrl⟩, hcl, hn⟩ := hn
          obtain ⟨Q1, e1, h1, hu1⟩ := consume_rep h (hus r (by simp)) (hus c (by simp)) hrc
          have hused : ∀ u ∈ used Q, u ≠ c → u ∈ used Q1 := by
            intro u hu huc
            obtain ⟨i, hi⟩ := of_used hu
            have := mem_used (Q := Q1) i
            rwa [hu1, hi, if_neg huc] at this
          obtain ⟨l', Q2, e2, h2, hn2, hsub2, hhd2, hlen2, hused2, hin2, hout2⟩ := pairs_rep _ (r :: l) le_rfl h1
            (List.nodup_cons.2 ⟨hrl, hn⟩) (by
              intro u hul
              rcases List.mem_cons.1 hul with rfl | hul
              · exact hused _ (hus _ (by simp)) hrc
              · exact hused u (hus u (by simp [hul])) (fun he => hcl (he ▸ hul)))
          obtain ⟨Q', e, h', hin, hout⟩ := ih l' r (by rw [hhd2]; rfl)
            (by rw [hlen2]; simp only [List.length_cons] at hl ⊢; omega) h2 hn2 hused2
          refine ⟨Q', ?_, h', ?_, ?_⟩
          · rw [e1]
            show ((pairs (r :: l) Q1).bind fun s => collapseUnits fuel s.1 s.2) = _
            rw [e2]; exact e
          · intro i hi
            refine hin i (hin2 i ?_)
            rw [hu1]
            split_ifs with hc
            · simp
            · rcases List.mem_cons.1 hi with hi | hi
              · simp [hi]
              · rcases List.mem_cons.1 hi with hi | hi
                · exact absurd hi hc
                · simp [hi]
          · intro i hi
            simp only [List.mem_cons, not_or] at hi
            have h3 : Q1.unit i = Q.unit i := by rw [hu1, if_neg hi.2.1]
            have h4 : Q2.unit i = Q.unit i := by
              rw [hout2 i (by rw [h3]; simp [hi.1, hi.2.2]), h3]
            rw [hout i (fun hm => ?_), h4]
            have := hsub2 _ hm
            rw [h4] at this
            simp [hi.1, hi.2.2] at this
        · rw [if_neg hodd]
          obtain ⟨l', Q2, e2, h2, hn2, hsub2, hhd2, hlen2, hused2, hin2, hout2⟩ := pairs_rep _ _ le_rfl h hn hus
          obtain ⟨Q', e, h', hin, hout⟩ := ih l' r (by rw [hhd2]; rfl)
            (by rw [hlen2]; simp only [List.length_cons] at hl ⊢; omega) h2 hn2 hused2
          refine ⟨Q', ?_, h', fun i hi => hin i (hin2 i hi), fun i hi => ?_⟩
          · rw [e2]; exact e
          · rw [hout i (fun hm => hi ?_), hout2 i hi]
            rw [hout2 i hi] at hm
            exact hsub2 _ hm

theorem uniq_go (l : List ℕ) : ∀ acc : List ℕ, acc.Nodup →
    (l.foldl (fun acc u => if u ∈ acc then acc else acc ++ [u]) acc).Nodup ∧
    (∀ u, u ∈ l.foldl (fun acc u => if u ∈ acc then acc else acc ++ [u]) acc ↔ u ∈ acc ∨ u ∈ l) ∧
    (l.foldl (fun acc u => if u ∈ acc then acc else acc ++ [u]) acc).length ≤ acc.length + l.length ∧
    (∀ a, acc.head? = some a → (l.foldl (fun acc u => if u ∈ acc then acc else acc ++ [u]) acc).head? = some a) := by
  induction l with
  | nil => intro acc h; exact ⟨h, by simp, by simp, fun a ha => ha⟩
  | cons x l ih =>
    intro acc h
    rw [List.foldl_cons]
    by_cases hx : x ∈ acc
    · rw [if_pos hx]
      obtain ⟨h1, h2, h3, h4⟩ := ih acc h
      refine ⟨h1, fun u => ?_, by simp only [List.length_cons]; omega, h4⟩
      rw [h2, List.mem_cons]
      constructor
      · rintro (h | h) <;> simp [h]
      · rintro (h | rfl | h)
        · exact Or.inl h
        · exact Or.inl hx
        · exact Or.inr h
    · rw [if_neg hx]
      obtain ⟨h1, h2, h3, h4⟩ := ih (acc ++ [x]) (List.nodup_append.2 ⟨h, by simp, by
        intro a ha b hb
        rw [List.mem_singleton] at hb
        rintro rfl
        exact hx (hb ▸ ha)⟩)
      refine ⟨h1, fun u => ?_, ?_, fun a ha => h4 a ?_⟩
      · rw [h2, List.mem_append, List.mem_singleton, List.mem_cons, or_assoc]
      · simp only [List.length_append, List.length_cons, List.length_nil] at h3 ⊢; omega
      · rw [List.head?_append, ha]; rfl

theorem uniq_spec (l : List ℕ) : (uniq l).Nodup ∧ (∀ u, u ∈ uniq l ↔ u ∈ l) ∧ (uniq l).length ≤ l.length ∧ (uniq l).head? = l.head? := by
  obtain ⟨h1, h2, h3, -⟩ := uniq_go l [] List.nodup_nil
  refine ⟨h1, fun u => by have := h2 u; simpa [uniq] using this, by simpa [uniq] using h3, ?_⟩
  cases l with
  | nil => rfl
  | cons x l =>
    have := (uniq_go l [x] (by simp)).2.2.2 x rfl
    simpa [uniq] using this

/-- After `EntangleInCurrentBasis` the listed qubits are in the unit of the first of them, and the state is the same. -/
theorem entangle_rep {Q : QUC n} {Ψ : State n} (h : Rep Q Ψ) (a : Fin n) (bits : List (Fin n)) :
    ∃ Q', Q.entangle (a :: bits) = some Q' ∧ Rep Q' Ψ ∧ (∀ i ∈ a :: bits, Q'.unit i = Q.unit a) := by
  obtain ⟨h1, h2, h3, h4⟩ := uniq_spec ((a :: bits).map Q.unit)
  obtain ⟨Q', e, h', hin, -⟩ := collapse_rep ((a :: bits).length + 1) (uniq ((a :: bits).map Q.unit)) (Q.unit a) (by rw [h4]; rfl)
    (by rw [List.length_map] at h3; omega) h h1 (fun u hu => by
      rw [h2, List.mem_map] at hu
      obtain ⟨i, -, rfl⟩ := hu
      exact mem_used (Q := Q) i)
  exact ⟨Q', e, h', fun i hi => hin i ((h2 _).2 (List.mem_map.2 ⟨i, hi, rfl⟩))⟩

/-! ### Separating a qubit -/

theorem split_of_cut {Q : QUC n} {Ψ : State n} (h : Rep Q Ψ) (q : Fin n) {G : Tab (Q.heap (Q.unit q)).size}
    (hs : ¬ (Q.heap (Q.unit q)).size ≤ 1) (e : trySeparate1 (Q.heap (Q.unit q)).tab (Q.mapped q) = some (true, G)) :
    ∃ o1 o2, Obj.decompose ⟨_, G⟩ (Q.mapped q) 1 = some (o1, o2) ∧ o1.size + 1 = (Q.heap (Q.unit q)).size ∧ o2.size = 1 ∧
      ∀ f, ObjHolds (Q.heap (Q.unit q)) f → ∃ A B, ObjHolds o1 A ∧ ObjHolds o2 B ∧
        ∀ b, f b = A (fun p => b (if p < Q.mapped q then p else p + 1)) * B (fun p => b (Q.mapped q + p)) := by
  obtain ⟨R, ψ, hψ, -, -, -⟩ := rep_view h q
  have hm := h.1.lt q
  generalize Q.mapped q = m at *
  generalize Q.heap (Q.unit q) = o at *
  obtain ⟨s, T⟩ := o
  dsimp only at *
  obtain ⟨a, rfl⟩ : ∃ a, s = a + 1 := ⟨s - 1, by omega⟩
  obtain ⟨A, B, e', hAB⟩ := cut_one hψ e
  refine ⟨⟨a, A⟩, ⟨1, B⟩, e', rfl, rfl, ?_⟩
  rintro f ⟨φ, hφ, hf⟩
  obtain ⟨χ, ξ, hχ, hξ, hj⟩ := hAB φ hφ
  refine ⟨fun b => χ fun p => b p.val, fun b => ξ fun p => b p.val, ⟨χ, hχ, fun _ => rfl⟩, ⟨ξ, hξ, fun _ => rfl⟩, fun b => ?_⟩
  rw [hf, hj]
  unfold joined
  congr 1
  congr 1
  funext p
  unfold inside
  rw [dif_pos (by omega)]


theorem canDecompose_some {m : ℕ} (T : Tab m) (q : ℕ) (h : q + 1 ≤ m) : ∃ s, trySeparate1 T q = some s := by
  unfold trySeparate1 canDecompose
  rw [if_neg (by unfold badRange; simpa using h)]
  dsimp only
  split_ifs <;> exact ⟨_, rfl⟩

theorem trySeparate_rep {Q : QUC n} {Ψ : State n} (h : Rep Q Ψ) (q : Fin n) : ∃ s, Q.trySeparate q = some s ∧ Rep s.2 Ψ := by
  unfold QUC.trySeparate
  by_cases hs : (Q.heap (Q.unit q)).size ≤ 1
  · rw [if_pos hs]; exact ⟨_, rfl, h⟩
  · rw [if_neg hs]
    obtain ⟨R, ψ, hψ, -, -, -⟩ := rep_view h q
    have hm := h.1.lt q
    obtain ⟨s, e⟩ : ∃ s, trySeparate1 (Q.heap (Q.unit q)).tab (Q.mapped q) = some s := canDecompose_some _ _ (by omega)
    obtain ⟨b, G⟩ := s
    rw [e, Option.bind_some]
    dsimp only
    cases b
    · rw [if_neg (by simp)]
      refine ⟨_, rfl, rep_same h q fun ψ hψ => canDecompose_holds hψ e⟩
    · rw [if_pos rfl]
      obtain ⟨o1, o2, e', hs1, hs2, hsp⟩ := split_of_cut h q hs e
      rw [e', Option.map_some]
      exact ⟨_, rfl, split_rep h q o1 o2 hs1 hs2 (by omega) hsp⟩

theorem separate2_rep {Q : QUC n} {Ψ : State n} (h : Rep Q Ψ) (c t : Fin n) : ∃ Q', Q.separate2 c t = some Q' ∧ Rep Q' Ψ := by
  obtain ⟨s, e, hs⟩ := trySeparate_rep h c
  obtain ⟨s', e', hs'⟩ := trySeparate_rep hs t
  exact ⟨s'.2, by unfold QUC.separate2; rw [e, Option.bind_some, e']; rfl, hs'⟩

theorem joint_rep {Q : QUC n} {Ψ : State n} (h : Rep Q Ψ) (c t : Fin n) (hct : c ≠ t) {g : ℕ → ℕ → Gate}
    (hg : g = .cnot ∨ g = .antiCnot ∨ g = .cy ∨ g = .antiCy ∨ g = .cz ∨ g = .antiCz ∨ g = .swap ∨ g = .iswap ∨ g = .iiswap) :
    ∃ Q', Q.joint c t g = some Q' ∧ Rep Q' ((g c t).U n Ψ) := by
  obtain ⟨Q1, e1, h1, hu⟩ := entangle_rep h c [t]
  obtain ⟨o, e2, h2⟩ := pull_two h1 c t hct ((hu c (by simp)).trans (hu t (by simp)).symm) hg
  obtain ⟨Q3, e3, h3⟩ := separate2_rep h2 c t
  refine ⟨Q3, ?_, h3⟩
  unfold QUC.joint
  rw [e1, Option.bind_some, e2, Option.bind_some, e3]

end Verif.Units
