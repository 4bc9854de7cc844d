import Verif.Spec.Shards

/-!
Facts about the shards of a `QUnitClifford`.
-/

namespace Verif.Units

open Verif.Stab Verif.Pauli

variable {n : ℕ}

theorem mem_used {Q : QUC n} (i : Fin n) : Q.unit i ∈ used Q := Finset.mem_image_of_mem _ (Finset.mem_univ i)

theorem of_used {Q : QUC n} {u : ℕ} (h : u ∈ used Q) : ∃ i, Q.unit i = u := by
  unfold used at h
  obtain ⟨i, -, hi⟩ := Finset.mem_image.1 h
  exact ⟨i, hi⟩

theorem sub_self {Q : QUC n} (hQ : WF Q) (b : Bits n) (i : Fin n) : sub Q b (Q.unit i) (Q.mapped i) = b i := by
  unfold sub
  cases hb : b i
  · rw [decide_eq_false_iff_not]
    rintro ⟨j, h1, h2, h3⟩
    rw [hQ.inj j i h1 h2, hb] at h3
    exact absurd h3 (by simp)
  · rw [decide_eq_true_iff]
    exact ⟨i, rfl, rfl, hb⟩

theorem sub_outside {Q : QUC n} {b b' : Bits n} {u : ℕ} (h : ∀ i, Q.unit i = u → b i = b' i) : sub Q b u = sub Q b' u := by
  funext p
  unfold sub
  refine decide_eq_decide.2 ⟨?_, ?_⟩
  · rintro ⟨i, h1, h2, h3⟩; exact ⟨i, h1, h2, by rw [← h i h1]; exact h3⟩
  · rintro ⟨i, h1, h2, h3⟩; exact ⟨i, h1, h2, by rw [h i h1]; exact h3⟩

/-- The bits of a unit as bits of its object. -/
def subF (Q : QUC n) (b : Bits n) (u s : ℕ) : Bits s := fun p => sub Q b u p.val

theorem subF_at {Q : QUC n} (hQ : WF Q) (b : Bits n) (t : Fin n) {s : ℕ} (h : Q.mapped t < s) :
    subF Q b (Q.unit t) s ⟨Q.mapped t, h⟩ = b t := sub_self hQ b t

theorem subF_at' {Q : QUC n} (hQ : WF Q) (b : Bits n) {u : ℕ} (t : Fin n) (hu : Q.unit t = u) {s : ℕ} (h : Q.mapped t < s) :
    subF Q b u s ⟨Q.mapped t, h⟩ = b t := by subst hu; exact sub_self hQ b t

theorem sub_comp {Q : QUC n} (hQ : WF Q) {u : ℕ} {p : ℕ} (i : Fin n) (hu : Q.unit i = u) (hp : Q.mapped i = p) (b : Bits n) :
    sub Q b u p = b i := by subst hu; subst hp; exact sub_self hQ b i

theorem subF_update {Q : QUC n} (hQ : WF Q) (b : Bits n) {u : ℕ} (t : Fin n) (hu : Q.unit t = u) (v : Bool) {s : ℕ} (h : Q.mapped t < s)
    (hs : s = (Q.heap u).size) : subF Q (Function.update b t v) u s = Function.update (subF Q b u s) ⟨Q.mapped t, h⟩ v := by
  funext p
  obtain ⟨j, hj, hjp⟩ := hQ.surj t p.val (by rw [hu, ← hs]; exact p.isLt)
  rw [hu] at hj
  have e1 : subF Q (Function.update b t v) u s p = Function.update b t v j := sub_comp hQ j hj hjp _
  have e2 : subF Q b u s p = b j := sub_comp hQ j hj hjp _
  rw [e1]
  by_cases hjt : j = t
  · subst hjt
    have : p = ⟨Q.mapped j, h⟩ := Fin.ext hjp.symm
    rw [this, Function.update_self, Function.update_self]
  · have : p ≠ ⟨Q.mapped t, h⟩ := by
      intro he
      rw [he] at hjp
      exact hjt (hQ.inj j t (by rw [hj, hu]) hjp)
    rw [Function.update_of_ne hjt, Function.update_of_ne this, e2]

theorem subF_swap {Q : QUC n} (hQ : WF Q) (b : Bits n) {u : ℕ} (c t : Fin n) (hc : Q.unit c = u) (ht : Q.unit t = u) {s : ℕ}
    (h : Q.mapped c < s) (h' : Q.mapped t < s) (hs : s = (Q.heap u).size) :
    subF Q (b ∘ Equiv.swap c t) u s = subF Q b u s ∘ Equiv.swap ⟨Q.mapped c, h⟩ ⟨Q.mapped t, h'⟩ := by
  funext p
  obtain ⟨j, hj, hjp⟩ := hQ.surj t p.val (by rw [ht, ← hs]; exact p.isLt)
  rw [ht] at hj
  have e1 : subF Q (b ∘ Equiv.swap c t) u s p = b (Equiv.swap c t j) := sub_comp hQ j hj hjp _
  rw [e1]
  simp only [Function.comp]
  by_cases hjc : j = c
  · subst hjc
    have : p = ⟨Q.mapped j, h⟩ := Fin.ext hjp.symm
    rw [this, Equiv.swap_apply_left, Equiv.swap_apply_left]
    exact (sub_comp hQ t ht rfl b).symm
  · by_cases hjt : j = t
    · subst hjt
      have : p = ⟨Q.mapped j, h'⟩ := Fin.ext hjp.symm
      rw [this, Equiv.swap_apply_right, Equiv.swap_apply_right]
      exact (sub_comp hQ c hc rfl b).symm
    · have hpc : p ≠ ⟨Q.mapped c, h⟩ := by
        intro he; rw [he] at hjp; exact hjc (hQ.inj j c (by rw [hj, hc]) hjp)
      have hpt : p ≠ ⟨Q.mapped t, h'⟩ := by
        intro he; rw [he] at hjp; exact hjt (hQ.inj j t (by rw [hj, ht]) hjp)
      rw [Equiv.swap_apply_of_ne_of_ne hjc hjt, Equiv.swap_apply_of_ne_of_ne hpc hpt]
      exact (sub_comp hQ j hj hjp b).symm

/-! ### One unit seen from the register -/

theorem wf_setUnit {Q : QUC n} (hQ : WF Q) {u : ℕ} {o : Obj} (hs : o.size = (Q.heap u).size) : WF (Q.setUnit u o) := by
  have key : ∀ i, ((Q.setUnit u o).heap (Q.unit i)).size = (Q.heap (Q.unit i)).size := by
    intro i
    show (Function.update Q.heap u o (Q.unit i)).size = _
    by_cases h : Q.unit i = u
    · rw [h, Function.update_self, hs]
    · rw [Function.update_of_ne h]
  exact ⟨hQ.inj, fun i => by rw [show (Q.setUnit u o).unit i = Q.unit i from rfl, key]; exact hQ.lt i,
    fun i p hp => hQ.surj i p (by rw [show (Q.setUnit u o).unit i = Q.unit i from rfl, key] at hp; exact hp), hQ.fresh⟩

/-- A register seen from one of its units: the state is a product of a part that does not depend on the qubits of the unit and a state
of the unit; and if the object is replaced, only that state changes. -/
theorem rep_view {Q : QUC n} {Ψ : State n} (h : Rep Q Ψ) (t : Fin n) :
    ∃ (R : Bits n → ℂ) (ψ : State (Q.heap (Q.unit t)).size), Holds (Q.heap (Q.unit t)).tab ψ ∧
      (∀ b, Ψ b = R b * ψ (subF Q b (Q.unit t) _)) ∧
      (∀ b b', (∀ i, Q.unit i ≠ Q.unit t → b i = b' i) → R b = R b') ∧
      ∀ (T' : Tab (Q.heap (Q.unit t)).size) (ψ' : State (Q.heap (Q.unit t)).size), Holds T' ψ' →
        Rep (Q.setUnit (Q.unit t) ⟨_, T'⟩) (fun b => R b * ψ' (subF Q b (Q.unit t) _)) := by
  obtain ⟨hQ, k, F, hk, hF, hΨ⟩ := h
  obtain ⟨ψ, hψ, hFψ⟩ := hF t
  have split : ∀ (G : ℕ → ℂ), ∏ u ∈ used Q, G u = G (Q.unit t) * ∏ u ∈ (used Q).erase (Q.unit t), G u := by
    intro G; exact (Finset.mul_prod_erase _ _ (mem_used t)).symm
  refine ⟨fun b => k * ∏ u ∈ (used Q).erase (Q.unit t), F u (sub Q b u), ψ, hψ, fun b => ?_, fun b b' hb => ?_, fun T' ψ' h' => ?_⟩
  · rw [hΨ, split, hFψ]
    show _ = _ * ψ (fun p => sub Q b (Q.unit t) p.val)
    ring
  · dsimp only
    congr 1
    refine Finset.prod_congr rfl fun u hu => ?_
    rw [sub_outside fun i hi => hb i (by rw [hi]; exact (Finset.mem_erase.1 hu).1)]
  · refine ⟨wf_setUnit hQ rfl, k, Function.update F (Q.unit t) (fun b => ψ' fun p => b p.val), hk, fun i => ?_, fun b => ?_⟩
    · show ObjHolds (Function.update Q.heap (Q.unit t) ⟨_, T'⟩ (Q.unit i)) (Function.update F (Q.unit t) _ (Q.unit i))
      by_cases hi : Q.unit i = Q.unit t
      · rw [hi, Function.update_self, Function.update_self]
        exact ⟨ψ', h', fun b => rfl⟩
      · rw [Function.update_of_ne hi, Function.update_of_ne hi]
        exact hF i
    · show _ = k * ∏ u ∈ used Q, Function.update F (Q.unit t) _ u (sub Q b u)
      rw [split, Function.update_self]
      have : ∏ u ∈ (used Q).erase (Q.unit t), Function.update F (Q.unit t) (fun b => ψ' fun p => b p.val) u (sub Q b u) =
          ∏ u ∈ (used Q).erase (Q.unit t), F u (sub Q b u) := by
        refine Finset.prod_congr rfl fun u hu => ?_
        rw [Function.update_of_ne (Finset.mem_erase.1 hu).1]
      rw [this]
      show _ * ψ' (fun p => sub Q b (Q.unit t) p.val) = _
      ring

section Pull

variable {Q : QUC n} (hQ : WF Q) {u s : ℕ} (hs : s = (Q.heap u).size) {R : Bits n → ℂ}
  (hR : ∀ b b', (∀ i, Q.unit i ≠ u → b i = b' i) → R b = R b') (ψ : State s)

include hQ hs hR

theorem pull_gate1 (t : Fin n) (ht : Q.unit t = u) (hm : Q.mapped t < s) (a b c d : ℂ) :
    gate1 t a b c d (fun f => R f * ψ (subF Q f u s)) = fun f => R f * gate1 ⟨Q.mapped t, hm⟩ a b c d ψ (subF Q f u s) := by
  funext f
  unfold gate1
  dsimp only
  rw [subF_at' hQ f t ht hm, subF_update hQ f t ht _ hm hs, subF_update hQ f t ht _ hm hs,
    hR (Function.update f t false) f (fun i hi => Function.update_of_ne (fun he => hi (by rw [he, ht])) _ _),
    hR (Function.update f t true) f (fun i hi => Function.update_of_ne (fun he => hi (by rw [he, ht])) _ _)]
  split_ifs <;> ring

theorem pull_ctrl (v : Bool) (c t : Fin n) (hc : Q.unit c = u) (ht : Q.unit t = u) (hmc : Q.mapped c < s) (hm : Q.mapped t < s)
    (p q r w : ℂ) : ctrl v c (gate1 t p q r w) (fun f => R f * ψ (subF Q f u s)) =
      fun f => R f * ctrl v ⟨Q.mapped c, hmc⟩ (gate1 ⟨Q.mapped t, hm⟩ p q r w) ψ (subF Q f u s) := by
  funext f
  unfold ctrl
  rw [pull_gate1 hQ hs hR ψ t ht hm, subF_at' hQ f c hc hmc]
  split_ifs <;> rfl

theorem pull_swap (w : ℂ) (c t : Fin n) (hc : Q.unit c = u) (ht : Q.unit t = u) (hmc : Q.mapped c < s) (hm : Q.mapped t < s) :
    swapOp c t w (fun f => R f * ψ (subF Q f u s)) =
      fun f => R f * swapOp ⟨Q.mapped c, hmc⟩ ⟨Q.mapped t, hm⟩ w ψ (subF Q f u s) := by
  funext f
  unfold swapOp
  dsimp only
  rw [subF_swap hQ f c t hc ht hmc hm hs, subF_at' hQ f c hc hmc, subF_at' hQ f t ht hm, hR (f ∘ Equiv.swap c t) f]
  · ring
  · intro i hi
    simp only [Function.comp]
    rw [Equiv.swap_apply_of_ne_of_ne (fun he => hi (by rw [he, hc])) (fun he => hi (by rw [he, ht]))]

end Pull

/-- A gate on a unit, at the places of its qubits, is the gate on the register. -/
theorem pull_two {Q : QUC n} {Ψ : State n} (h : Rep Q Ψ) (c t : Fin n) (hct : c ≠ t) (hu : Q.unit c = Q.unit t) {g : ℕ → ℕ → Gate}
    (hg : g = .cnot ∨ g = .antiCnot ∨ g = .cy ∨ g = .antiCy ∨ g = .cz ∨ g = .antiCz ∨ g = .swap ∨ g = .iswap ∨ g = .iiswap) :
    ∃ o, (Q.heap (Q.unit c)).gate (g (Q.mapped c) (Q.mapped t)) = some o ∧ Rep (Q.setUnit (Q.unit c) o) ((g c t).U n Ψ) := by
  obtain ⟨R, ψ, hψ, hΨ, hR, hset⟩ := rep_view h c
  have hmc := h.1.lt c
  have hmt : Q.mapped t < (Q.heap (Q.unit c)).size := by rw [hu]; exact h.1.lt t
  have hne : Q.mapped c ≠ Q.mapped t := fun he => hct (h.1.inj c t hu he)
  have hΨ' : Ψ = fun b => R b * ψ (subF Q b (Q.unit c) _) := funext hΨ
  have hb : c.val < n ∧ t.val < n := ⟨c.isLt, t.isLt⟩
  have hb' : Q.mapped c < (Q.heap (Q.unit c)).size ∧ Q.mapped t < (Q.heap (Q.unit c)).size := ⟨hmc, hmt⟩
  have key : (g (Q.mapped c) (Q.mapped t)).Valid (Q.heap (Q.unit c)).size →
      (g c t).U n (fun b => R b * ψ (subF Q b (Q.unit c) _)) = (fun b => R b * (g (Q.mapped c) (Q.mapped t)).U (Q.heap (Q.unit c)).size ψ (subF Q b (Q.unit c) _)) →
      ∃ o, (Q.heap (Q.unit c)).gate (g (Q.mapped c) (Q.mapped t)) = some o ∧ Rep (Q.setUnit (Q.unit c) o) ((g c t).U n Ψ) := by
    intro hv hU
    obtain ⟨T', e, hT'⟩ := gate_holds hψ (idRow _) hv
    refine ⟨⟨_, T'⟩, ?_, ?_⟩
    · unfold Obj.gate
      rw [e]; rfl
    · rw [hΨ', hU]
      exact hset T' _ hT'
  have pc := fun v (p q r w : ℂ) => pull_ctrl h.1 rfl hR ψ v c t rfl hu.symm hmc hmt p q r w
  have ps := fun (w : ℂ) => pull_swap h.1 rfl hR ψ w c t rfl hu.symm hmc hmt
  rcases hg with rfl | rfl | rfl | rfl | rfl | rfl | rfl | rfl | rfl
  all_goals refine key ⟨hmc, hmt, hne⟩ ?_
  all_goals simp only [Gate.U, dif_pos hb, dif_pos hb']
  · exact pc true _ _ _ _
  · exact pc false _ _ _ _
  · exact pc true _ _ _ _
  · exact pc false _ _ _ _
  · exact pc true _ _ _ _
  · exact pc false _ _ _ _
  · exact ps _
  · exact ps _
  · exact ps _

theorem pull_one {Q : QUC n} {Ψ : State n} (h : Rep Q Ψ) (t : Fin n) {g : ℕ → Gate}
    (hg : g = .h ∨ g = .x ∨ g = .y ∨ g = .z ∨ g = .s ∨ g = .is) :
    ∃ o, (Q.heap (Q.unit t)).gate (g (Q.mapped t)) = some o ∧ Rep (Q.setUnit (Q.unit t) o) ((g t).U n Ψ) := by
  obtain ⟨R, ψ, hψ, hΨ, hR, hset⟩ := rep_view h t
  have hmt := h.1.lt t
  have hΨ' : Ψ = fun b => R b * ψ (subF Q b (Q.unit t) _) := funext hΨ
  have hb : t.val < n := t.isLt
  have key : (g (Q.mapped t)).Valid (Q.heap (Q.unit t)).size →
      (g t).U n (fun b => R b * ψ (subF Q b (Q.unit t) _)) = (fun b => R b * (g (Q.mapped t)).U (Q.heap (Q.unit t)).size ψ (subF Q b (Q.unit t) _)) →
      ∃ o, (Q.heap (Q.unit t)).gate (g (Q.mapped t)) = some o ∧ Rep (Q.setUnit (Q.unit t) o) ((g t).U n Ψ) := by
    intro hv hU
    obtain ⟨T', e, hT'⟩ := gate_holds hψ (idRow _) hv
    refine ⟨⟨_, T'⟩, ?_, ?_⟩
    · unfold Obj.gate
      rw [e]; rfl
    · rw [hΨ', hU]
      exact hset T' _ hT'
  have pg := fun (p q r w : ℂ) => pull_gate1 h.1 rfl hR ψ t rfl hmt p q r w
  rcases hg with rfl | rfl | rfl | rfl | rfl | rfl
  all_goals refine key hmt ?_
  all_goals simp only [Gate.U, dif_pos hb, dif_pos hmt]
  all_goals exact pg _ _ _ _

/-! ### Exchanging shards -/

theorem rep_swap {Q : QUC n} {Ψ : State n} (h : Rep Q Ψ) (c t : Fin n) :
    Rep { Q with mapped := Q.mapped ∘ Equiv.swap c t, unit := Q.unit ∘ Equiv.swap c t } (swapOp c t 1 Ψ) := by
  obtain ⟨hQ, k, F, hk, hF, hΨ⟩ := h
  have hu : used { Q with mapped := Q.mapped ∘ Equiv.swap c t, unit := Q.unit ∘ Equiv.swap c t } = used Q := by
    unfold used
    ext u
    simp only [Finset.mem_image, Finset.mem_univ, true_and, Function.comp]
    exact ⟨fun ⟨i, hi⟩ => ⟨_, hi⟩, fun ⟨i, hi⟩ => ⟨Equiv.swap c t i, by rw [Equiv.swap_apply_self]; exact hi⟩⟩
  refine ⟨⟨fun i j h1 h2 => ?_, fun i => hQ.lt _, fun i p hp => ?_, fun i => hQ.fresh _⟩, k, F, hk, fun i => hF _, fun b => ?_⟩
  · exact (Equiv.swap c t).injective (hQ.inj _ _ h1 h2)
  · obtain ⟨j, h1, h2⟩ := hQ.surj (Equiv.swap c t i) p hp
    exact ⟨Equiv.swap c t j, by simp only [Function.comp, Equiv.swap_apply_self]; exact h1,
      by simp only [Function.comp, Equiv.swap_apply_self]; exact h2⟩
  · unfold swapOp
    rw [hΨ, ite_self, one_mul, hu]
    congr 1
    refine Finset.prod_congr rfl fun u _ => ?_
    congr 1
    funext p
    unfold sub
    refine decide_eq_decide.2 ⟨?_, ?_⟩
    · rintro ⟨i, h1, h2, h3⟩
      exact ⟨Equiv.swap c t i, by simp only [Function.comp, Equiv.swap_apply_self]; exact h1,
        by simp only [Function.comp, Equiv.swap_apply_self]; exact h2, h3⟩
    · rintro ⟨i, h1, h2, h3⟩
      exact ⟨Equiv.swap c t i, h1, h2, by simp only [Function.comp, Equiv.swap_apply_self]; exact h3⟩

/-! ### Composing units -/

theorem consume_rep {Q : QUC n} {Ψ : State n} (h : Rep Q Ψ) {r c : ℕ} (hr : r ∈ used Q) (hc : c ∈ used Q) (hrc : r ≠ c) :
    ∃ Q', Q.consume r c = some Q' ∧ Rep Q' Ψ ∧ (∀ i, Q'.unit i = if Q.unit i = c then r else Q.unit i) := by
  obtain ⟨hQ, k, F, hk, hF, hΨ⟩ := h
  obtain ⟨ir, hir⟩ := of_used hr
  obtain ⟨ic, hic⟩ := of_used hc
  have hFr := hF ir
  have hFc := hF ic
  rw [hir] at hFr
  rw [hic] at hFc
  obtain ⟨ψ, hψ, hFr⟩ := hFr
  obtain ⟨φ, hφ, hFc⟩ := hFc
  obtain ⟨T, hT, hH⟩ := compose_spec hψ hφ (le_refl _)
  refine ⟨Q.moved r c ⟨(Q.heap r).size + (Q.heap c).size, T⟩, ?_, ?_, fun i => rfl⟩
  · unfold QUC.consume Obj.compose
    rw [hT]; rfl
  generalize hQ' : Q.moved r c ⟨(Q.heap r).size + (Q.heap c).size, T⟩ = Q'
  have hheap : Q'.heap = Function.update Q.heap r ⟨(Q.heap r).size + (Q.heap c).size, T⟩ := by rw [← hQ']; rfl
  have hunit : ∀ i, Q'.unit i = if Q.unit i = c then r else Q.unit i := by intro i; rw [← hQ']; rfl
  have hmap : ∀ i, Q'.mapped i = if Q.unit i = c then Q.mapped i + (Q.heap r).size else Q.mapped i := by intro i; rw [← hQ']; rfl
  have hfr : Q'.fresh = Q.fresh := by rw [← hQ']; rfl
  clear hQ'
  have un : ∀ i, Q.unit i ≠ c → Q'.unit i = Q.unit i := fun i hi => by rw [hunit, if_neg hi]
  have mn : ∀ i, Q.unit i ≠ c → Q'.mapped i = Q.mapped i := fun i hi => by rw [hmap, if_neg hi]
  have usize : ∀ i, Q.unit i = c ∨ Q.unit i = r → (Q'.heap (Q'.unit i)).size = (Q.heap r).size + (Q.heap c).size := by
    intro i hi
    have : Q'.unit i = r := by
      rw [hunit]
      rcases hi with hi | hi
      · rw [if_pos hi]
      · rw [if_neg (by rw [hi]; exact hrc)]; exact hi
    rw [this, hheap, Function.update_self]
  have uother : ∀ i, Q.unit i ≠ c → Q.unit i ≠ r → Q'.unit i = Q.unit i ∧ Q'.mapped i = Q.mapped i ∧ Q'.heap (Q'.unit i) = Q.heap (Q.unit i) := by
    intro i h1 h2
    refine ⟨un i h1, mn i h1, ?_⟩
    rw [un i h1, hheap, Function.update_of_ne h2]
  have uc : ∀ i, Q.unit i = c → Q'.unit i = r ∧ Q'.mapped i = Q.mapped i + (Q.heap r).size := fun i hi => ⟨by rw [hunit, if_pos hi], by rw [hmap, if_pos hi]⟩
  have ur : ∀ i, Q.unit i = r → Q'.unit i = r ∧ Q'.mapped i = Q.mapped i := by
    intro i hi
    have : Q.unit i ≠ c := by rw [hi]; exact hrc
    exact ⟨(un i this).trans hi, mn i this⟩
  have ltr : ∀ i, Q.unit i = r → Q.mapped i < (Q.heap r).size := fun i hi => hi ▸ hQ.lt i
  have ltc : ∀ i, Q.unit i = c → Q.mapped i < (Q.heap c).size := fun i hi => hi ▸ hQ.lt i
  have hwf : WF Q' := by
    refine ⟨fun i j h1 h2 => ?_, fun i => ?_, fun i p hp => ?_, fun i => ?_⟩
    · rcases eq_or_ne (Q.unit i) c with hi | hi <;> rcases eq_or_ne (Q.unit j) c with hj | hj
      · rw [(uc i hi).2, (uc j hj).2] at h2
        exact hQ.inj i j (hi.trans hj.symm) (by omega)
      · have hjr : Q.unit j = r := by
          have : Q'.unit j = Q.unit j := un j hj
          rw [← this, ← h1, (uc i hi).1]
        rw [(uc i hi).2, (ur j hjr).2] at h2
        have := ltr j hjr
        omega
      · have hir' : Q.unit i = r := by
          have : Q'.unit i = Q.unit i := un i hi
          rw [← this, h1, (uc j hj).1]
        rw [(uc j hj).2, (ur i hir').2] at h2
        have := ltr i hir'
        omega
      · have e1 : Q'.unit i = Q.unit i := un i hi
        have e2 : Q'.unit j = Q.unit j := un j hj
        have e3 : Q'.mapped i = Q.mapped i := mn i hi
        have e4 : Q'.mapped j = Q.mapped j := mn j hj
        exact hQ.inj i j (by rw [← e1, ← e2, h1]) (by rw [← e3, ← e4, h2])
    · rcases eq_or_ne (Q.unit i) c with hi | hi
      · rw [usize i (Or.inl hi), (uc i hi).2]; have := ltc i hi; omega
      · rcases eq_or_ne (Q.unit i) r with hi' | hi'
        · rw [usize i (Or.inr hi'), (ur i hi').2]; have := ltr i hi'; omega
        · obtain ⟨-, e2, e3⟩ := uother i hi hi'
          rw [e2, e3]; exact hQ.lt i
    · by_cases hi : Q.unit i = c ∨ Q.unit i = r
      · rw [usize i hi] at hp
        have hui : Q'.unit i = r := by rcases hi with hi | hi; exact (uc i hi).1; exact (ur i hi).1
        by_cases hlt : p < (Q.heap r).size
        · obtain ⟨j, h1, h2⟩ := hQ.surj ir p (by rw [hir]; exact hlt)
          rw [hir] at h1
          exact ⟨j, by rw [hui]; exact (ur j h1).1, by rw [(ur j h1).2]; exact h2⟩
        · obtain ⟨j, h1, h2⟩ := hQ.surj ic (p - (Q.heap r).size) (by rw [hic]; omega)
          rw [hic] at h1
          exact ⟨j, by rw [hui]; exact (uc j h1).1, by rw [(uc j h1).2, h2]; omega⟩
      · push Not at hi
        obtain ⟨e1, e2, e3⟩ := uother i hi.1 hi.2
        rw [e3] at hp
        obtain ⟨j, h1, h2⟩ := hQ.surj i p hp
        obtain ⟨f1, f2, -⟩ := uother j (by rw [h1]; exact hi.1) (by rw [h1]; exact hi.2)
        exact ⟨j, by rw [e1, f1, h1], by rw [f2, h2]⟩
    · rw [hunit, hfr]
      split_ifs
      · rw [← hir]; exact hQ.fresh ir
      · exact hQ.fresh i
  have hused : used Q' = (used Q).erase c := by
    unfold used
    ext u
    simp only [Finset.mem_image, Finset.mem_univ, true_and, Finset.mem_erase]
    constructor
    · rintro ⟨i, hi⟩
      rcases eq_or_ne (Q.unit i) c with h1 | h1
      · rw [(uc i h1).1] at hi; subst hi; exact ⟨hrc, ir, hir⟩
      · have e1 : Q'.unit i = Q.unit i := un i h1
        rw [e1] at hi; subst hi; exact ⟨h1, i, rfl⟩
    · rintro ⟨hne, i, rfl⟩
      exact ⟨i, un i hne⟩
  -- the bits of the units afterwards
  have sub_r : ∀ b p, p < (Q.heap r).size → sub Q' b r p = sub Q b r p := by
    intro b p hp
    obtain ⟨j, h1, h2⟩ := hQ.surj ir p (by rw [hir]; exact hp)
    rw [hir] at h1
    rw [sub_comp hQ j h1 h2, sub_comp hwf j (ur j h1).1 ((ur j h1).2.trans h2)]
  have sub_c : ∀ b p, p < (Q.heap c).size → sub Q' b r ((Q.heap r).size + p) = sub Q b c p := by
    intro b p hp
    obtain ⟨j, h1, h2⟩ := hQ.surj ic p (by rw [hic]; exact hp)
    rw [hic] at h1
    rw [sub_comp hQ j h1 h2, sub_comp hwf j (uc j h1).1 (by rw [(uc j h1).2, h2, Nat.add_comm])]
  have sub_o : ∀ b u, u ≠ r → u ≠ c → sub Q' b u = sub Q b u := by
    intro b u h1 h2
    funext p
    unfold sub
    refine decide_eq_decide.2 ⟨?_, ?_⟩
    · rintro ⟨i, a1, a2, a3⟩
      have hic' : Q.unit i ≠ c := fun he => h1 (by rw [← a1, (uc i he).1])
      have e1 : Q'.unit i = Q.unit i := un i hic'
      have e2 : Q'.mapped i = Q.mapped i := mn i hic'
      exact ⟨i, by rw [← e1]; exact a1, by rw [← e2]; exact a2, a3⟩
    · rintro ⟨i, a1, a2, a3⟩
      obtain ⟨e1, e2, -⟩ := uother i (by rw [a1]; exact h2) (by rw [a1]; exact h1)
      exact ⟨i, by rw [e1]; exact a1, by rw [e2]; exact a2, a3⟩
  refine ⟨hwf, k, Function.update F r (fun b => joined (Q.heap r).size ψ φ fun p => b p.val), hk, fun i => ?_, fun b => ?_⟩
  · by_cases hi : Q'.unit i = r
    · rw [hi]
      rw [hheap, Function.update_self, Function.update_self]
      exact ⟨_, hH, fun b => rfl⟩
    · have hic' : Q.unit i ≠ c := fun he => hi (uc i he).1
      have e1 : Q'.unit i = Q.unit i := un i hic'
      have hir' : Q.unit i ≠ r := by rw [← e1]; exact hi
      rw [(uother i hic' hir').2.2, e1, Function.update_of_ne hir']
      exact hF i
  · rw [hΨ, hused]
    have hrm : r ∈ (used Q).erase c := Finset.mem_erase.2 ⟨hrc, hr⟩
    rw [← Finset.mul_prod_erase _ _ hc, ← Finset.mul_prod_erase _ _ hrm, ← Finset.mul_prod_erase _ _ hrm, Function.update_self]
    have e : ∏ u ∈ ((used Q).erase c).erase r, Function.update F r (fun b => joined (Q.heap r).size ψ φ fun p => b p.val) u (sub Q' b u) =
        ∏ u ∈ ((used Q).erase c).erase r, F u (sub Q b u) := by
      refine Finset.prod_congr rfl fun u hu => ?_
      have h1 := (Finset.mem_erase.1 hu).1
      have h2 := (Finset.mem_erase.1 (Finset.mem_erase.1 hu).2).1
      rw [Function.update_of_ne h1, sub_o b u h1 h2]
    rw [e]
    unfold joined
    have ea : outside (m := (Q.heap c).size) (Q.heap r).size (fun p : Fin ((Q.heap r).size + (Q.heap c).size) => sub Q' b r p.val) =
        fun p => sub Q b r p.val := by
      funext p
      unfold outside
      dsimp only
      rw [if_pos p.isLt, sub_r b _ p.isLt]
    have eb : inside (n := (Q.heap r).size) (Q.heap r).size (fun p : Fin ((Q.heap r).size + (Q.heap c).size) => sub Q' b r p.val) =
        fun p => sub Q b c p.val := by
      funext p
      unfold inside
      rw [dif_pos (by have := p.isLt; omega)]
      exact sub_c b _ p.isLt
    rw [ea, eb, hFr, hFc]
    ring

/-! ### Taking a qubit out of its unit -/

/-- If every state of a unit is a product of states of the two objects, the qubit can be given the second one for itself. -/
theorem split_rep {Q : QUC n} {Ψ : State n} (h : Rep Q Ψ) (q : Fin n) (o1 o2 : Obj) (hs1 : o1.size + 1 = (Q.heap (Q.unit q)).size)
    (hs2 : o2.size = 1) (h0 : 1 ≤ o1.size)
    (hsplit : ∀ f, ObjHolds (Q.heap (Q.unit q)) f → ∃ A B, ObjHolds o1 A ∧ ObjHolds o2 B ∧
        ∀ b, f b = A (fun p => b (if p < Q.mapped q then p else p + 1)) * B (fun p => b (Q.mapped q + p))) : Rep (Q.split q o1 o2) Ψ := by
  obtain ⟨hQ, k, F, hk, hF, hΨ⟩ := h
  obtain ⟨A, B, hA, hB, hAB⟩ := hsplit _ (hF q)
  generalize hu : Q.unit q = u at hAB hs1
  have hqm : Q.mapped q < (Q.heap u).size := hu ▸ hQ.lt q
  have hfru : u < Q.fresh := hu ▸ hQ.fresh q
  generalize hQ' : Q.split q o1 o2 = Q'
  have hmq : Q'.mapped q = 0 := by rw [← hQ']; exact if_pos rfl
  have huq : Q'.unit q = Q.fresh := by rw [← hQ']; exact Function.update_self _ _ _
  have huo : ∀ i, i ≠ q → Q'.unit i = Q.unit i := by intro i hi; rw [← hQ']; exact Function.update_of_ne hi _ _
  have hmo : ∀ i, i ≠ q → Q'.mapped i = if Q.unit i = u ∧ Q.mapped q < Q.mapped i then Q.mapped i - 1 else Q.mapped i := by
    intro i hi; rw [← hQ', ← hu]; exact if_neg hi
  have hh : Q'.heap = Function.update (Function.update Q.heap u o1) Q.fresh o2 := by rw [← hQ', ← hu]; rfl
  have hfr : Q'.fresh = Q.fresh + 1 := by rw [← hQ']; rfl
  clear hQ'
  have hne : ∀ i, Q.unit i ≠ Q.fresh := fun i => Nat.ne_of_lt (hQ.fresh i)
  have hune : u ≠ Q.fresh := Nat.ne_of_lt hfru
  have heapq : Q'.heap Q.fresh = o2 := by rw [hh, Function.update_self]
  have heapu : Q'.heap u = o1 := by rw [hh, Function.update_of_ne hune, Function.update_self]
  have heapo : ∀ i, Q.unit i ≠ u → Q'.heap (Q.unit i) = Q.heap (Q.unit i) := by
    intro i hi; rw [hh, Function.update_of_ne (hne i), Function.update_of_ne hi]
  have mne : ∀ i, i ≠ q → Q.unit i = u → Q.mapped i ≠ Q.mapped q := fun i hi h1 h2 => hi (hQ.inj i q (h1.trans hu.symm) h2)
  have mlt : ∀ i, Q.unit i = u → Q.mapped i < (Q.heap u).size := fun i hi => hi ▸ hQ.lt i
  have hwf : WF Q' := by
    refine ⟨fun i j h1 h2 => ?_, fun i => ?_, fun i p hp => ?_, fun i => ?_⟩
    · by_cases hi : i = q <;> by_cases hj : j = q
      · rw [hi, hj]
      · subst hi; rw [huq, huo j hj] at h1; exact absurd h1.symm (hne j)
      · subst hj; rw [huq, huo i hi] at h1; exact absurd h1 (hne i)
      · rw [huo i hi, huo j hj] at h1
        rw [hmo i hi, hmo j hj] at h2
        refine hQ.inj i j h1 ?_
        by_cases hiu : Q.unit i = u
        · have a := mne i hi hiu
          have b := mne j hj (h1 ▸ hiu)
          have hju : Q.unit j = u := h1 ▸ hiu
          simp only [hiu, hju, true_and] at h2
          split_ifs at h2 <;> omega
        · have hju : Q.unit j ≠ u := h1 ▸ hiu
          simp only [hiu, hju, false_and, if_false] at h2
          exact h2
    · by_cases hi : i = q
      · subst hi; rw [hmq, huq, heapq, hs2]; exact Nat.one_pos
      · rw [huo i hi, hmo i hi]
        by_cases hiu : Q.unit i = u
        · have a := mne i hi hiu
          have b := mlt i hiu
          rw [hiu, heapu]
          simp only [true_and]
          split_ifs <;> omega
        · rw [heapo i hiu]
          simp only [hiu, false_and, if_false]
          exact hQ.lt i
    · by_cases hi : i = q
      · subst hi
        rw [huq, heapq, hs2] at hp
        exact ⟨i, rfl, by rw [hmq]; omega⟩
      · rw [huo i hi] at hp ⊢
        by_cases hiu : Q.unit i = u
        · rw [hiu, heapu] at hp
          obtain ⟨j, h1, h2⟩ := hQ.surj i (if p < Q.mapped q then p else p + 1) (by rw [hiu]; split_ifs <;> omega)
          have hjq : j ≠ q := by rintro rfl; split_ifs at h2 <;> omega
          refine ⟨j, by rw [huo j hjq, h1], ?_⟩
          rw [hmo j hjq]
          have hju : Q.unit j = u := h1.trans hiu
          simp only [hju, true_and]
          split_ifs at h2 ⊢ <;> omega
        · rw [heapo i hiu] at hp
          obtain ⟨j, h1, h2⟩ := hQ.surj i p hp
          have hju : Q.unit j ≠ u := by rw [h1]; exact hiu
          have hjq : j ≠ q := by rintro rfl; exact hju hu
          refine ⟨j, by rw [huo j hjq, h1], ?_⟩
          rw [hmo j hjq]
          simp only [hju, false_and, if_false]
          exact h2
    · by_cases hi : i = q
      · subst hi; rw [huq, hfr]; exact Nat.lt_succ_self _
      · rw [huo i hi, hfr]; exact Nat.lt_succ_of_lt (hQ.fresh i)
  obtain ⟨w, hwq, hwu⟩ : ∃ w, w ≠ q ∧ Q.unit w = u := by
    obtain ⟨j, h1, h2⟩ := hQ.surj q (if Q.mapped q = 0 then 1 else 0) (by rw [hu]; split_ifs <;> omega)
    exact ⟨j, by rintro rfl; split_ifs at h2 <;> omega, h1.trans hu⟩
  have hused : used Q' = insert Q.fresh (used Q) := by
    unfold used
    ext v
    simp only [Finset.mem_image, Finset.mem_univ, true_and, Finset.mem_insert]
    constructor
    · rintro ⟨i, hi⟩
      by_cases hiq : i = q
      · subst hiq; exact Or.inl (hi.symm.trans huq)
      · exact Or.inr ⟨i, by rw [← huo i hiq]; exact hi⟩
    · rintro (rfl | ⟨i, hi⟩)
      · exact ⟨q, huq⟩
      · by_cases hiq : i = q
        · subst hiq; exact ⟨w, by rw [huo w hwq, hwu, ← hi, hu]⟩
        · exact ⟨i, by rw [huo i hiq]; exact hi⟩
  have hnf : Q.fresh ∉ used Q := fun hc => by
    obtain ⟨i, hi⟩ := of_used hc
    exact hne i hi
  have sub_u : ∀ b p, p < o1.size → sub Q' b u p = sub Q b u (if p < Q.mapped q then p else p + 1) := by
    intro b p hp
    obtain ⟨j, h1, h2⟩ := hQ.surj q (if p < Q.mapped q then p else p + 1) (by rw [hu]; split_ifs <;> omega)
    rw [hu] at h1
    have hjq : j ≠ q := by rintro rfl; split_ifs at h2 <;> omega
    rw [sub_comp hQ j h1 h2, sub_comp hwf j ((huo j hjq).trans h1)]
    rw [hmo j hjq]
    simp only [h1, true_and]
    split_ifs at h2 ⊢ <;> omega
  have sub_q : ∀ b, sub Q' b Q.fresh 0 = sub Q b u (Q.mapped q) := by
    intro b
    rw [sub_comp hwf q huq hmq, sub_comp hQ q hu rfl]
  have sub_o : ∀ b v, v ≠ u → v ≠ Q.fresh → sub Q' b v = sub Q b v := by
    intro b v h1 h2
    funext p
    unfold sub
    refine decide_eq_decide.2 ⟨?_, ?_⟩
    · rintro ⟨i, a1, a2, a3⟩
      have hiq : i ≠ q := by rintro rfl; exact h2 (by rw [← a1, huq])
      rw [huo i hiq] at a1
      rw [hmo i hiq] at a2
      have : Q.unit i ≠ u := by rw [a1]; exact h1
      simp only [this, false_and, if_false] at a2
      exact ⟨i, a1, a2, a3⟩
    · rintro ⟨i, a1, a2, a3⟩
      have hiu : Q.unit i ≠ u := by rw [a1]; exact h1
      have hiq : i ≠ q := by rintro rfl; exact hiu hu
      refine ⟨i, by rw [huo i hiq]; exact a1, ?_, a3⟩
      rw [hmo i hiq]
      simp only [hiu, false_and, if_false]
      exact a2
  obtain ⟨χ, hχ, hAχ⟩ := hA
  obtain ⟨φ, hφ, hBφ⟩ := hB
  refine ⟨hwf, k, Function.update (Function.update F u A) Q.fresh B, hk, fun i => ?_, fun b => ?_⟩
  · by_cases hi : i = q
    · subst hi
      rw [huq, heapq, Function.update_self]
      exact ⟨φ, hφ, hBφ⟩
    · rw [huo i hi, Function.update_of_ne (hne i)]
      by_cases hiu : Q.unit i = u
      · rw [hiu, heapu, Function.update_self]
        exact ⟨χ, hχ, hAχ⟩
      · rw [heapo i hiu, Function.update_of_ne hiu]
        exact hF i
  · rw [hΨ, hused, Finset.prod_insert hnf, Function.update_self]
    have hum : u ∈ used Q := hu ▸ mem_used q
    rw [← Finset.mul_prod_erase _ _ hum, ← Finset.mul_prod_erase _ _ hum, Function.update_of_ne hune, Function.update_self]
    have e : ∏ v ∈ (used Q).erase u, Function.update (Function.update F u A) Q.fresh B v (sub Q' b v) =
        ∏ v ∈ (used Q).erase u, F v (sub Q b v) := by
      refine Finset.prod_congr rfl fun v hv => ?_
      have h1 := (Finset.mem_erase.1 hv).1
      have h2 : v ≠ Q.fresh := fun hc => hnf (hc ▸ (Finset.mem_erase.1 hv).2)
      rw [Function.update_of_ne h2, Function.update_of_ne h1, sub_o b v h1 h2]
    rw [e, hAB]
    have e1 : A (sub Q' b u) = A (fun p => sub Q b u (if p < Q.mapped q then p else p + 1)) := by
      rw [hAχ, hAχ]
      congr 1
      funext p
      exact sub_u b _ p.isLt
    have e2 : B (sub Q' b Q.fresh) = B (fun p => sub Q b u (Q.mapped q + p)) := by
      rw [hBφ, hBφ]
      congr 1
      funext p
      have : p.val = 0 := by have := p.isLt; omega
      rw [this, sub_q, Nat.add_zero]
    rw [e1, e2]
    ring

/-- Taking one qubit out of an object. -/
theorem cut_one {a : ℕ} {T G : Tab (a + 1)} {m : ℕ} {ψ : State (a + 1)} (hT : Holds T ψ) (h : trySeparate1 T m = some (true, G)) :
    ∃ A B, Obj.decompose ⟨a + 1, G⟩ m 1 = some (⟨a, A⟩, ⟨1, B⟩) ∧ ∀ ψ, Holds T ψ → ∃ χ φ, Holds A χ ∧ Holds B φ ∧ ψ = joined m χ φ := by
  obtain ⟨A, B, χ, φ, -, e, -⟩ := decompose_partial hT h one_ne_zero (setPermutation 1 (idRow 1) 0)
  refine ⟨A, B, ?_, fun ψ hψ => ?_⟩
  · unfold Obj.decompose
    rw [dif_pos (by show 1 ≤ a + 1; omega)]
    show ((Stab.decompose G m (setPermutation 1 (idRow 1) 0)).map fun s => ((⟨a, s.1⟩ : Obj), (⟨1, s.2⟩ : Obj))) = _
    rw [e]; rfl
  · obtain ⟨A', B', χ, φ, -, e', h1, h2, h3⟩ := decompose_partial hψ h one_ne_zero (setPermutation 1 (idRow 1) 0)
    rw [e, Option.some.injEq, Prod.mk.injEq] at e'
    rw [← e'.1] at h1
    rw [← e'.2] at h2
    exact ⟨χ, φ, h1, h2, h3⟩

theorem obj_unique {o : Obj} {f f' : (ℕ → Bool) → ℂ} (h : ObjHolds o f) (h' : ObjHolds o f') : ∃ c : ℂ, c ≠ 0 ∧ ∀ b, f b = c * f' b := by
  obtain ⟨ψ, h1, h2⟩ := h
  obtain ⟨ψ', h1', h2'⟩ := h'
  obtain ⟨c, hc, he⟩ := holds_unique h1 h1'
  exact ⟨c, hc, fun b => by rw [h2, h2', he]⟩

theorem holds_smul {T : Tab n} {ψ : State n} (h : Holds T ψ) {c : ℂ} (hc : c ≠ 0) : Holds T (fun f => c * ψ f) := by
  refine ⟨h.1, fun i h1 h2 => ?_, fun h0 => h.2.2 ?_⟩
  · funext f
    have := congrFun (h.2.1 i h1 h2) f
    rw [op_apply] at this ⊢
    linear_combination c * this
  · funext f
    have := congrFun h0 f
    exact (mul_eq_zero.1 this).resolve_left hc

/-! ### No register stands for the zero vector -/

theorem rep_ne {Q : QUC n} {Ψ : State n} (h : Rep Q Ψ) : Ψ ≠ 0 := by
  obtain ⟨hQ, k, F, hk, hF, hΨ⟩ := h
  have hex : ∀ i, ∃ g : ℕ → Bool, F (Q.unit i) g ≠ 0 := by
    intro i
    obtain ⟨ψ, hψ, he⟩ := hF i
    by_contra hc
    push Not at hc
    refine hψ.2.2 (funext fun f => ?_)
    have := hc (fun p => if hp : p < (Q.heap (Q.unit i)).size then f ⟨p, hp⟩ else false)
    rw [he] at this
    refine Eq.trans (congrArg ψ (funext fun p => ?_)) this
    rw [dif_pos p.isLt]
  have hex' : ∀ u, ∃ g : ℕ → Bool, u ∈ used Q → F u g ≠ 0 := by
    intro u
    by_cases hu : u ∈ used Q
    · obtain ⟨i, rfl⟩ := of_used hu
      obtain ⟨g, hg⟩ := hex i
      exact ⟨g, fun _ => hg⟩
    · exact ⟨fun _ => false, fun hc => absurd hc hu⟩
  choose g hg using hex'
  intro h0
  have := congrFun h0 (fun i => g (Q.unit i) (Q.mapped i))
  rw [hΨ, Pi.zero_apply, mul_eq_zero, Finset.prod_eq_zero_iff] at this
  rcases this with h | ⟨u, hu, h⟩
  · exact hk h
  · obtain ⟨i, rfl⟩ := of_used hu
    refine hg _ hu ?_
    obtain ⟨ψ, hψ, he⟩ := hF i
    rw [he] at h ⊢
    rw [← h]
    congr 1
    funext p
    obtain ⟨j, h1, h2⟩ := hQ.surj i p.val p.isLt
    rw [sub_comp hQ j h1 h2, h1, h2]

/-- A definite qubit of the register is definite in its unit. -/
theorem definite_unit {Q : QUC n} {Ψ : State n} (h : Rep Q Ψ) (t : Fin n) {v : Bool} (hv : ∀ b, b t ≠ v → Ψ b = 0)
    {ψ : State (Q.heap (Q.unit t)).size} (hψ : Holds (Q.heap (Q.unit t)).tab ψ) :
    ∀ f, f ⟨Q.mapped t, h.1.lt t⟩ ≠ v → ψ f = 0 := by
  intro f hf
  obtain ⟨R, ψ', hψ', hΨ, hR, -⟩ := rep_view h t
  obtain ⟨c, hc, he⟩ := holds_unique hψ hψ'
  have hne := rep_ne h
  obtain ⟨b0, hb0⟩ : ∃ b, Ψ b ≠ 0 := by
    by_contra hcon
    push Not at hcon
    exact hne (funext hcon)
  have hR0 : R b0 ≠ 0 := fun h0 => hb0 (by rw [hΨ, h0, zero_mul])
  let b : Bits n := fun i => if hi : Q.unit i = Q.unit t then f ⟨Q.mapped i, hi ▸ h.1.lt i⟩ else b0 i
  have hRb : R b = R b0 := hR b b0 fun i hi => dif_neg hi
  have hsub : subF Q b (Q.unit t) _ = f := by
    funext p
    obtain ⟨j, h1, h2⟩ := h.1.surj t p.val p.isLt
    have : subF Q b (Q.unit t) _ p = b j := sub_comp h.1 j h1 h2 b
    rw [this]
    show (if hi : Q.unit j = Q.unit t then _ else _) = _
    rw [dif_pos h1]
    congr 1
    exact Fin.ext h2
  have hbt : b t ≠ v := by
    show (if hi : Q.unit t = Q.unit t then _ else _) ≠ v
    rw [dif_pos rfl]; exact hf
  have := hv b hbt
  rw [hΨ, hsub, hRb, mul_eq_zero] at this
  rw [he, this.resolve_left hR0, mul_zero]

end Verif.Units
