import Verif.Lemmas.QCircuit

/-! Lemmas about gates passing each other, and about `AppendGate`. -/

namespace Verif.QCirc

open Verif.Matrix2 Verif.Spec.Circuit

variable {Q : Type} [LinearOrder Q]

/-- The factor by which a phase gate multiplies an amplitude. -/
noncomputable def Gate.fac (g : Gate Q) (b : Q → Bool) : ℂ :=
  match g.payloads.get (key g.controls b) with
  | none => 1
  | some m => if b g.target then m.m3 else m.m0

theorem phase_act {g : Gate Q} (h : g.isPhase = true) (ψ : St Q) (b : Q → Bool) : g.act ψ b = g.fac b * ψ b := by
  rw [act_apply]
  unfold Gate.fac
  cases hm : g.payloads.get (key g.controls b) with
  | none => simp
  | some m =>
    unfold Gate.isPhase at h
    simp only [List.all_eq_true, decide_eq_true_eq] at h
    obtain ⟨h1, h2⟩ := h _ (get_mem hm)
    dsimp only at h1 h2
    simp only [onQubit, h1, h2, zero_mul, add_zero, zero_add]
    cases hb : b g.target
    · simp only [Bool.false_eq_true, if_false]; rw [← hb, Function.update_eq_self]
    · simp only [if_true]; rw [← hb, Function.update_eq_self]

theorem fac_update {g : Gate Q} {t : Q} (h1 : t ∉ g.controls) (h2 : t ≠ g.target) (b : Q → Bool) (v : Bool) :
    g.fac (Function.update b t v) = g.fac b := by
  unfold Gate.fac
  rw [key_update h1, Function.update_of_ne h2.symm]

/-- A phase gate passes every gate whose target it does not touch. -/
theorem phase_comm {n g : Gate Q} (hn : n.isPhase = true) (h1 : g.target ∉ n.controls) (h2 : g.target ≠ n.target)
    (ψ : St Q) : n.act (g.act ψ) = g.act (n.act ψ) := by
  funext b
  rw [phase_act hn, act_apply, act_apply]
  cases hm : g.payloads.get (key g.controls b) with
  | none => simp only; rw [phase_act hn]
  | some m =>
    simp only [onQubit]
    rw [phase_act hn, phase_act hn, fac_update h1 h2, fac_update h1 h2]
    cases hb : b g.target <;> simp only [if_true, Bool.false_eq_true, if_false] <;> ring

theorem phase_phase_comm {n g : Gate Q} (hn : n.isPhase = true) (hg : g.isPhase = true)
    (ψ : St Q) : n.act (g.act ψ) = g.act (n.act ψ) := by
  funext b
  rw [phase_act hn, phase_act hg, phase_act hg, phase_act hn]; ring

theorem act_none {g : Gate Q} {b : Q → Bool} (h : g.payloads.get (key g.controls b) = none) (ψ : St Q) : g.act ψ b = ψ b := by
  rw [act_apply, h]

theorem act_some {g : Gate Q} {b : Q → Bool} {m : Mtrx} (h : g.payloads.get (key g.controls b) = some m) (ψ : St Q) :
    g.act ψ b = onQubit g.target m ψ b := by
  rw [act_apply, h]

theorem disjoint_comm {n g : Gate Q} (h1 : g.target ∉ n.controls) (h2 : n.target ∉ g.controls) (h3 : g.target ≠ n.target)
    (ψ : St Q) : n.act (g.act ψ) = g.act (n.act ψ) := by
  funext b
  have kg : ∀ v, key g.controls (Function.update b n.target v) = key g.controls b := key_update h2 b
  have kn : ∀ v, key n.controls (Function.update b g.target v) = key n.controls b := key_update h1 b
  cases hm : g.payloads.get (key g.controls b) with
  | none =>
    have eg : ∀ v, g.act ψ (Function.update b n.target v) = ψ (Function.update b n.target v) :=
      fun v => act_none (by rw [kg, hm]) ψ
    rw [act_none hm]
    cases hk : n.payloads.get (key n.controls b) with
    | none => rw [act_none hk, act_none hk, act_none hm]
    | some k => rw [act_some hk, act_some hk]; simp only [onQubit, eg]
  | some m =>
    have eg : ∀ v, g.act ψ (Function.update b n.target v) = onQubit g.target m ψ (Function.update b n.target v) :=
      fun v => act_some (by rw [kg, hm]) ψ
    rw [act_some hm]
    cases hk : n.payloads.get (key n.controls b) with
    | none =>
      have en : ∀ v, n.act ψ (Function.update b g.target v) = ψ (Function.update b g.target v) :=
        fun v => act_none (by rw [kn, hk]) ψ
      rw [act_none hk, act_some hm]; simp only [onQubit, en]
    | some k =>
      have en : ∀ v, n.act ψ (Function.update b g.target v) = onQubit n.target k ψ (Function.update b g.target v) :=
        fun v => act_some (by rw [kn, hk]) ψ
      rw [act_some hk]
      simp only [onQubit, en, eg, Function.update_of_ne h3, Function.update_of_ne h3.symm]
      have c1 : ∀ u v, Function.update (Function.update b n.target u) g.target v =
          Function.update (Function.update b g.target v) n.target u := fun u v => Function.update_comm h3.symm u v b
      simp only [c1]
      cases hb : b g.target <;> cases hb' : b n.target <;> simp only [if_true, Bool.false_eq_true, if_false] <;> ring

/-! ### The phase-inversion case -/

theorem get_iff {m : PMap} (hm : m.Ok) (k : ℕ) (v : Mtrx) : m.get k = some v ↔ (k, v) ∈ m :=
  ⟨get_mem, fun h => mem_get hm h⟩

theorem ok_reverse {m : PMap} (hm : m.Ok) : PMap.Ok m.reverse := by
  unfold PMap.Ok at *
  rw [List.map_reverse, List.nodup_reverse]; exact hm

theorem get_reverse {m : PMap} (hm : m.Ok) (k : ℕ) : PMap.get m.reverse k = m.get k := by
  apply Option.ext
  intro v
  rw [get_iff (ok_reverse hm), get_iff hm, List.mem_reverse]

theorem get_foldl_set (l acc : PMap) (k : ℕ) : (l.foldl PMap.set acc).get k = (PMap.get l.reverse k).or (acc.get k) := by
  induction l generalizing acc with
  | nil => simp [get_nil]
  | cons e l ih =>
    rw [List.foldl_cons, ih, get_set, List.reverse_cons, get_append, get_cons, get_nil, Option.or_assoc]
    by_cases h : e.1 = k <;> simp [h]

theorem ok_foldl_set (l : PMap) {acc : PMap} (h : acc.Ok) : (l.foldl PMap.set acc).Ok := by
  induction l generalizing acc with
  | nil => exact h
  | cons e l ih => exact ih (ok_set h e)

theorem foldl_set_ne_nil {l acc : PMap} (h : acc ≠ [] ∨ l ≠ []) : l.foldl PMap.set acc ≠ [] := by
  induction l generalizing acc with
  | nil => simpa using h
  | cons e l ih => exact ih (Or.inl (set_ne_nil acc e))

/-- Storing every entry under another key, the new keys being given by an involution. -/
theorem get_rekey {m : PMap} (hm : m.Ok) (f : ℕ → ℕ) (hf : ∀ k, f (f k) = k) (k : ℕ) :
    (m.foldl (fun acc e => PMap.set acc (f e.1, e.2)) []).get k = m.get (f k) := by
  have h1 : m.foldl (fun acc e => PMap.set acc (f e.1, e.2)) [] = (m.map (fun e => (f e.1, e.2))).foldl PMap.set [] := by
    rw [List.foldl_map]
  have hinj : Function.Injective f := fun a b h => by rw [← hf a, h, hf]
  have hok : PMap.Ok (m.map (fun e => (f e.1, e.2))) := by
    unfold PMap.Ok
    rw [List.map_map]
    have : (Prod.fst ∘ fun e : ℕ × Mtrx => (f e.1, e.2)) = f ∘ Prod.fst := rfl
    rw [this, ← List.map_map]
    exact List.Nodup.map hinj hm
  rw [h1, get_foldl_set, get_nil, Option.or_none, get_reverse hok]
  apply Option.ext
  intro v
  rw [get_iff hok, get_iff hm, List.mem_map]
  constructor
  · rintro ⟨⟨a, w⟩, hx, he⟩
    simp only [Prod.mk.injEq] at he
    obtain ⟨rfl, rfl⟩ := he
    rw [hf]; exact hx
  · intro hx
    exact ⟨(f k, v), hx, by simp [hf]⟩

theorem key_testBit_idxOf {cs : List Q} {c : Q} (h : c ∈ cs) (b : Q → Bool) : (key cs b).testBit (cs.idxOf c) = b c := by
  rw [key_testBit, List.getElem?_idxOf h]; rfl

theorem pickKey_key {gc oc : List Q} (h : gc ⊆ oc) (b : Q → Bool) : pickKey oc (key oc b) gc = key gc b := by
  induction gc with
  | nil => rfl
  | cons c gc ih =>
    simp only [pickKey, key]
    rw [key_testBit_idxOf (h (by simp)), ih (fun x hx => h (List.mem_cons_of_mem _ hx))]

theorem pickKey_xor {gc oc : List Q} {t : Q} (ht : t ∉ gc) (hg : gc ⊆ oc) (k : ℕ) :
    pickKey oc (k ^^^ 2 ^ oc.idxOf t) gc = pickKey oc k gc := by
  induction gc with
  | nil => rfl
  | cons c gc ih =>
    simp only [pickKey]
    rw [ih (fun h => ht (List.mem_cons_of_mem _ h)) (fun x hx => hg (List.mem_cons_of_mem _ hx)), Nat.testBit_xor,
      Nat.testBit_two_pow]
    have : oc.idxOf t ≠ oc.idxOf c := by
      intro h
      have hc : c ∈ oc := hg (by simp)
      have : t = c := ((List.idxOf_inj hc).1 h.symm).symm
      exact ht (by simp [this])
    simp [this]

theorem key_flip {cs : List Q} (hcs : cs.Nodup) {t : Q} (ht : t ∈ cs) (b : Q → Bool) :
    key cs (Function.update b t (!b t)) = key cs b ^^^ 2 ^ cs.idxOf t := by
  apply Nat.eq_of_testBit_eq
  intro i
  rw [Nat.testBit_xor, Nat.testBit_two_pow, key_testBit, key_testBit]
  by_cases hi : i < cs.length
  · rw [List.getElem?_eq_getElem hi]
    simp only [Option.map_some, Option.getD_some]
    by_cases hit : cs.idxOf t = i
    · subst hit
      simp
    · have hne : cs[i] ≠ t := by
        intro h
        apply hit
        rw [← h]
        exact hcs.idxOf_getElem i hi
      rw [Function.update_of_ne hne]
      simp [hit]
  · have : cs.idxOf t ≠ i := by
      have := List.idxOf_lt_length_of_mem ht
      omega
    rw [List.getElem?_eq_none (by omega)]
    simp [this]

theorem passKey_invol {g o : Gate Q} (hg : g.target ∉ g.controls) (hs : g.controls ⊆ o.controls) (k : ℕ) :
    passKey g o (passKey g o k) = k := by
  have aux : ∀ k, passKey g o k = k ∨ (passKey g o k = k ^^^ 2 ^ o.controls.idxOf g.target) := by
    intro k
    unfold passKey
    cases g.payloads.get (pickKey o.controls k g.controls) with
    | none => exact Or.inl rfl
    | some m =>
      simp only
      by_cases h : m.m0 ≠ 0
      · rw [if_pos h]; exact Or.inl rfl
      · rw [if_neg h]; exact Or.inr rfl
  rcases aux k with h | h
  · rw [h, h]
  · rw [h]
    unfold passKey at h ⊢
    rw [pickKey_xor hg hs]
    cases hm : g.payloads.get (pickKey o.controls k g.controls) with
    | none =>
      rw [hm] at h
      simp only at h ⊢
      exact h.symm
    | some m =>
      rw [hm] at h
      simp only at h ⊢
      by_cases h0 : m.m0 ≠ 0
      · rw [if_pos h0] at h ⊢; exact h.symm
      · rw [if_neg h0, Nat.xor_assoc, Nat.xor_self, Nat.xor_zero]

theorem passKey_lt {g o : Gate Q} (ht : g.target ∈ o.controls) {k : ℕ} (h : k < 2 ^ o.controls.length) :
    passKey g o k < 2 ^ o.controls.length := by
  unfold passKey
  cases g.payloads.get (pickKey o.controls k g.controls) with
  | none => exact h
  | some m =>
    simp only
    by_cases h0 : m.m0 ≠ 0
    · rw [if_pos h0]; exact h
    · rw [if_neg h0]
      exact Nat.xor_lt_two_pow h (Nat.pow_lt_pow_right (by omega) (List.idxOf_lt_length_of_mem ht))

/-- The case of `CanPass` that moves the other gate's payloads. -/
theorem invert_pass {g n : Gate Q} (hg : g.Wf) (hn : n.Wf) (h1 : g.target ∈ n.controls) (h2 : n.target ∉ g.controls)
    (h3 : g.isPhaseInvert = true) (h4 : g.controls ⊆ n.controls) :
    let n' : Gate Q := ⟨n.target, n.controls, n.payloads.foldl (fun acc e => PMap.set acc (passKey g n e.1, e.2)) []⟩
    n'.Wf ∧ ∀ ψ, n.act (g.act ψ) = g.act (n'.act ψ) := by
  intro n'
  have hinv := passKey_invol (o := n) hg.notMem h4
  have hget : ∀ k, n'.payloads.get k = n.payloads.get (passKey g n k) := fun k => get_rekey hn.ok _ hinv k
  have hne : g.target ≠ n.target := fun h => hn.notMem (h ▸ h1)
  constructor
  · refine ⟨hn.notMem, hn.sorted, ?_, ?_, ?_⟩
    · show PMap.Ok (n.payloads.foldl (fun acc e => PMap.set acc (passKey g n e.1, e.2)) [])
      have : n.payloads.foldl (fun acc e => PMap.set acc (passKey g n e.1, e.2)) [] =
          (n.payloads.map (fun e => (passKey g n e.1, e.2))).foldl PMap.set [] := by rw [List.foldl_map]
      rw [this]; exact ok_foldl_set _ (by simp [PMap.Ok])
    · show n.payloads.foldl (fun acc e => PMap.set acc (passKey g n e.1, e.2)) [] ≠ []
      have : n.payloads.foldl (fun acc e => PMap.set acc (passKey g n e.1, e.2)) [] =
          (n.payloads.map (fun e => (passKey g n e.1, e.2))).foldl PMap.set [] := by rw [List.foldl_map]
      rw [this]; exact foldl_set_ne_nil (Or.inr (fun h => hn.nonempty (List.map_eq_nil_iff.1 h)))
    · intro k v hkv
      rw [hget] at hkv
      obtain ⟨a, c⟩ := hn.entries _ _ hkv
      refine ⟨?_, c⟩
      have := passKey_lt h1 a
      rwa [hinv] at this
  · intro ψ
    funext b
    -- the entry of `g` is the same wherever the target of `n` is changed
    have hkg : ∀ v, key g.controls (Function.update b n.target v) = key g.controls b := key_update h2 b
    have hkg' : ∀ v, key g.controls (Function.update b g.target v) = key g.controls b := key_update hg.notMem b
    have hkn' : ∀ c, n'.payloads.get (key n.controls c) = n.payloads.get (passKey g n (key n.controls c)) :=
      fun c => hget _
    have hpk : ∀ c, pickKey n.controls (key n.controls c) g.controls = key g.controls c := pickKey_key h4
    have htn : n'.target = n.target := rfl
    cases hm : g.payloads.get (key g.controls b) with
    | none =>
      have e1 : ∀ v, g.act ψ (Function.update b n.target v) = ψ (Function.update b n.target v) := by
        intro v; rw [act_apply, hkg, hm]
      have e2 : passKey g n (key n.controls b) = key n.controls b := by unfold passKey; rw [hpk, hm]
      have hn' : n'.payloads.get (key n'.controls b) = n.payloads.get (key n.controls b) := by
        rw [show n'.controls = n.controls from rfl, hkn', e2]
      rw [act_none hm (n'.act ψ)]
      cases hk : n.payloads.get (key n.controls b) with
      | none => rw [act_none hk, act_none hm, act_none (hn'.trans hk)]
      | some k => rw [act_some hk, act_some (hn'.trans hk)]; simp only [onQubit, e1, htn]
    | some m =>
      have hu := (hg.entries _ _ hm).2
      have hpi : ¬ ((m.m0 ≠ 0 ∨ m.m3 ≠ 0) ∧ (m.m1 ≠ 0 ∨ m.m2 ≠ 0)) := by
        unfold Gate.isPhaseInvert at h3
        simp only [List.all_eq_true, Bool.not_eq_true', Bool.and_eq_false_iff, decide_eq_false_iff_not] at h3
        have := h3 _ (get_mem hm)
        rintro ⟨ha, hb⟩
        rcases this with h | h
        · exact h ha
        · exact h hb
      by_cases h0 : m.m0 ≠ 0
      · -- a phase payload
        have hz : m.m1 = 0 ∧ m.m2 = 0 := by
          constructor
          · by_contra h; exact hpi ⟨Or.inl h0, Or.inl h⟩
          · by_contra h; exact hpi ⟨Or.inl h0, Or.inr h⟩
        have eg : ∀ φ : St Q, ∀ c, key g.controls c = key g.controls b →
            g.act φ c = (if c g.target then m.m3 else m.m0) * φ c := by
          intro φ c hc
          rw [act_apply, hc, hm]
          simp only [onQubit, hz.1, hz.2, zero_mul, add_zero, zero_add]
          cases hb : c g.target
          · simp only [Bool.false_eq_true, if_false]; rw [← hb, Function.update_eq_self]
          · simp only [if_true]; rw [← hb, Function.update_eq_self]
        have e2 : passKey g n (key n.controls b) = key n.controls b := by
          unfold passKey; rw [hpk, hm]; simp only; rw [if_pos h0]
        have hn' : n'.payloads.get (key n'.controls b) = n.payloads.get (key n.controls b) := by
          rw [show n'.controls = n.controls from rfl, hkn', e2]
        rw [eg (n'.act ψ) b rfl]
        cases hk : n.payloads.get (key n.controls b) with
        | none => rw [act_none hk, eg _ b rfl, act_none (hn'.trans hk)]
        | some k =>
          rw [act_some hk, act_some (hn'.trans hk)]
          simp only [onQubit, htn]
          rw [eg _ _ (hkg _), eg _ _ (hkg _), Function.update_of_ne hne, Function.update_of_ne hne]
          cases hb' : b n.target <;> simp only [if_true, Bool.false_eq_true, if_false] <;> ring
      · -- an inverting payload
        push Not at h0
        have hm2 : m.m2 ≠ 0 := by
          intro h
          have := hu.1
          rw [h0, h] at this
          simp at this
        have h30 : m.m3 = 0 := by
          by_contra h; exact hpi ⟨Or.inr h, Or.inr hm2⟩
        have eg : ∀ φ : St Q, ∀ c, key g.controls c = key g.controls b →
            g.act φ c = (if c g.target then m.m2 else m.m1) * φ (Function.update c g.target (!c g.target)) := by
          intro φ c hc
          rw [act_apply, hc, hm]
          simp only [onQubit, h0, h30, zero_mul, add_zero, zero_add]
          cases hb : c g.target
          · simp only [Bool.false_eq_true, if_false, Bool.not_false]
          · simp only [if_true, Bool.not_true]
        rw [eg (n'.act ψ) b rfl]
        have e2 : passKey g n (key n.controls (Function.update b g.target (!b g.target))) = key n.controls b := by
          unfold passKey
          rw [hpk, hkg', hm]
          simp only
          rw [if_neg (by simp [h0]), key_flip (nodup_of_lt hn.sorted) h1, Nat.xor_assoc, Nat.xor_self, Nat.xor_zero]
        have hn' : n'.payloads.get (key n'.controls (Function.update b g.target (!b g.target))) =
            n.payloads.get (key n.controls b) := by
          rw [show n'.controls = n.controls from rfl, hkn', e2]
        cases hk : n.payloads.get (key n.controls b) with
        | none => rw [act_none hk, eg _ b rfl, act_none (hn'.trans hk)]
        | some k =>
          rw [act_some hk, act_some (hn'.trans hk)]
          simp only [onQubit, htn]
          rw [eg _ _ (hkg _), eg _ _ (hkg _)]
          simp only [Function.update_of_ne hne, Function.update_of_ne hne.symm]
          have c1 : ∀ u v, Function.update (Function.update b n.target u) g.target v =
              Function.update (Function.update b g.target v) n.target u := fun u v => Function.update_comm hne.symm u v b
          simp only [c1]
          cases hb' : b n.target <;> simp only [if_true, Bool.false_eq_true, if_false] <;> ring

/-- A gate that may pass: first the moved gate, then the other one, has the effect of the original order. -/
theorem canPass_spec {g n n' : Gate Q} (hg : g.Wf) (hn : n.Wf) (h : g.canPass n = some n') :
    n'.Wf ∧ ∀ ψ, n.act (g.act ψ) = g.act (n'.act ψ) := by
  unfold Gate.canPass at h
  by_cases h1 : g.target ∉ n.controls
  · rw [if_pos h1] at h
    by_cases h2 : n.target ∈ g.controls
    · rw [if_pos h2] at h
      by_cases h3 : n.isPhase = true
      · rw [if_pos h3, Option.some.injEq] at h
        subst h
        exact ⟨hn, phase_comm h3 h1 (fun h0 => hg.notMem (h0 ▸ h2))⟩
      · rw [if_neg h3] at h; cases h
    · rw [if_neg h2] at h
      by_cases h3 : g.target ≠ n.target ∨ (g.isPhase = true ∧ n.isPhase = true)
      · rw [if_pos h3, Option.some.injEq] at h
        subst h
        refine ⟨hn, ?_⟩
        rcases h3 with h3 | ⟨h3, h4⟩
        · exact disjoint_comm h1 h2 h3
        · exact phase_phase_comm h4 h3
      · rw [if_neg h3] at h; cases h
  · rw [if_neg h1] at h
    push Not at h1
    by_cases h2 : n.target ∈ g.controls
    · rw [if_pos h2] at h
      by_cases h3 : g.isPhase = true ∧ n.isPhase = true
      · rw [if_pos h3, Option.some.injEq] at h
        subst h
        exact ⟨hn, phase_phase_comm h3.2 h3.1⟩
      · rw [if_neg h3] at h; cases h
    · rw [if_neg h2] at h
      by_cases h3 : g.isPhase = true
      · rw [if_pos h3, Option.some.injEq] at h
        subst h
        exact ⟨hn, fun ψ => (phase_comm h3 h2 (fun h0 => hn.notMem (h0 ▸ h1)) ψ).symm⟩
      · rw [if_neg h3] at h
        by_cases h4 : ¬ g.isPhaseInvert = true ∨ ¬ (g.controls ⊆ n.controls)
        · rw [if_pos h4] at h; cases h
        · rw [if_neg h4, Option.some.injEq] at h
          push Not at h4
          subst h
          exact invert_pass hg hn h1 h2 h4.1 h4.2

/-! ### The walk -/

/-- Two circuits with the same effect up to one phase. -/
def RayEq (gs hs : List (Gate Q)) : Prop :=
  ∃ z : ℂ, z * (starRingEnd ℂ) z = 1 ∧ ∀ ψ, run gs ψ = fun b => z * run hs ψ b

theorem RayEq.refl (gs : List (Gate Q)) : RayEq gs gs := ⟨1, by simp, fun ψ => by simp⟩

theorem RayEq.of_eq {gs hs : List (Gate Q)} (h : ∀ ψ, run gs ψ = run hs ψ) : RayEq gs hs :=
  ⟨1, by simp, fun ψ => by simp [h]⟩

theorem RayEq.trans {a b c : List (Gate Q)} (h1 : RayEq a b) (h2 : RayEq b c) : RayEq a c := by
  obtain ⟨z, hz, h1⟩ := h1
  obtain ⟨w, hw, h2⟩ := h2
  refine ⟨z * w, ?_, fun ψ => ?_⟩
  · rw [map_mul]; linear_combination w * (starRingEnd ℂ) w * hz + hw
  · rw [h1, h2]; funext x; ring

theorem RayEq.append {a b : List (Gate Q)} (h : RayEq a b) (c : List (Gate Q)) : RayEq (a ++ c) (b ++ c) := by
  obtain ⟨z, hz, h⟩ := h
  refine ⟨z, hz, fun ψ => ?_⟩
  rw [run_append, run_append, h, run_smul]

/-- What the walk of `AppendGate` leaves. -/
theorem walk_spec (cl : Bool) (nq : Finset Q) (rev : List (Gate Q)) (n : Gate Q) (newer : List (Gate Q)) (did : Bool)
    (hrev : ∀ g ∈ rev, g.Wf) (hn : n.Wf) (hnew : ∀ g ∈ newer, g.Wf) :
    match walk cl nq rev n newer did with
    | .placed gs _ => (∀ g ∈ gs, g.Wf) ∧ gs.length ≤ rev.length + newer.length + 1 ∧
        ∀ ψ, run gs ψ = run (rev.reverse ++ n :: newer) ψ
    | .cancelled older nw _ => (∀ g ∈ older, g.Wf) ∧ (∀ g ∈ nw, g.Wf) ∧
        older.length + nw.length + 1 ≤ rev.length + newer.length ∧ RayEq (older ++ nw) (rev.reverse ++ n :: newer) := by
  induction rev generalizing n newer did with
  | nil =>
    simp only [walk]
    refine ⟨?_, by simp, fun ψ => rfl⟩
    intro g hg
    rcases List.mem_cons.1 hg with rfl | hg
    · exact hn
    · exact hnew g hg
  | cons g rev ih =>
    have hgw : g.Wf := hrev g (by simp)
    have hrw : ∀ g ∈ rev, g.Wf := fun x hx => hrev x (List.mem_cons_of_mem _ hx)
    rw [walk]
    unfold Gate.tryCombine
    by_cases hc : g.canCombine n cl = true
    · rw [if_pos hc]
      obtain ⟨cw, ca⟩ := combine_spec hgw hn hc
      simp only
      by_cases hi : (g.combine n).isIdentity = true
      · rw [if_pos hi]
        simp only
        refine ⟨fun x hx => hrw x (by simpa using hx), hnew, by simp only [List.length_reverse, List.length_cons]; omega, ?_⟩
        obtain ⟨z, hz, hid⟩ := isIdentity_spec cw hi
        refine ⟨(starRingEnd ℂ) z, by rw [Complex.conj_conj, mul_comm]; exact hz, fun ψ => ?_⟩
        rw [List.reverse_cons, List.append_assoc, run_append, run_append]
        simp only [List.singleton_append, run_cons]
        rw [← ca, hid, run_smul]
        funext b
        rw [← mul_assoc, mul_comm ((starRingEnd ℂ) z), hz, one_mul]
      · rw [if_neg hi]
        simp only
        refine ⟨?_, by simp; omega, fun ψ => ?_⟩
        · intro x hx
          rw [List.mem_append, List.mem_cons, List.mem_reverse] at hx
          rcases hx with hx | rfl | hx
          · exact hrw x hx
          · exact cw
          · exact hnew x hx
        · rw [List.reverse_cons, List.append_assoc, run_append, run_append]
          simp only [List.singleton_append, run_cons]
          rw [ca]
    · rw [if_neg hc]
      simp only
      cases hp : g.canPass n with
      | none =>
        simp only
        refine ⟨?_, by simp; omega, fun ψ => ?_⟩
        · intro x hx
          rw [List.mem_append, List.mem_cons, List.mem_cons, List.mem_reverse] at hx
          rcases hx with hx | rfl | rfl | hx
          · exact hrw x hx
          · exact hgw
          · exact hn
          · exact hnew x hx
        · rw [List.reverse_cons, List.append_assoc]; rfl
      | some n' =>
        simp only
        obtain ⟨pw, pa⟩ := canPass_spec hgw hn hp
        have hnew' : ∀ x ∈ g :: newer, x.Wf := by
          intro x hx
          rcases List.mem_cons.1 hx with rfl | hx
          · exact hgw
          · exact hnew x hx
        have := ih n' (g :: newer) (did || decide (¬ Disjoint nq g.qubits)) hrw pw hnew'
        have hrun : ∀ ψ, run (rev.reverse ++ n' :: g :: newer) ψ = run ((g :: rev).reverse ++ n :: newer) ψ := by
          intro ψ
          rw [List.reverse_cons, List.append_assoc, run_append, run_append]
          simp only [List.singleton_append, run_cons]
          rw [pa]
        revert this
        cases walk cl nq rev n' (g :: newer) (did || decide (¬ Disjoint nq g.qubits)) with
        | placed gs r =>
          simp only
          rintro ⟨i1, i2, i3⟩
          refine ⟨i1, by simp at i2 ⊢; omega, fun ψ => (i3 ψ).trans (hrun ψ)⟩
        | cancelled older nw gq =>
          simp only
          rintro ⟨i1, i2, i3, i4⟩
          exact ⟨i1, i2, by simp at i3 ⊢; omega, i4.trans (RayEq.of_eq hrun)⟩

/-- `AppendGate` works on lists shorter than `N`. -/
def AppendOk (append : List (Gate Q) → Gate Q → Option (List (Gate Q) × Bool)) (N : ℕ) : Prop :=
  ∀ gates n, (∀ g ∈ gates, g.Wf) → n.Wf → gates.length < N →
    ∃ gs r, append gates n = some (gs, r) ∧ (∀ g ∈ gs, g.Wf) ∧ gs.length ≤ gates.length + 1 ∧ RayEq gs (gates ++ [n])

theorem reappend_spec {append : List (Gate Q) → Gate Q → Option (List (Gate Q) × Bool)} {N : ℕ} (ha : AppendOk append N)
    (gates head : List (Gate Q)) (gq : Finset Q) (hg : ∀ g ∈ gates, g.Wf) (hh : ∀ g ∈ head, g.Wf)
    (hl : gates.length + head.length ≤ N) :
    ∃ gs, reappend append gates head gq = some gs ∧ (∀ g ∈ gs, g.Wf) ∧ gs.length ≤ gates.length + head.length ∧
      RayEq gs (gates ++ head) := by
  induction head generalizing gates gq with
  | nil => exact ⟨gates, rfl, hg, by simp, by rw [List.append_nil]; exact RayEq.refl _⟩
  | cons h head ih =>
    have hhw := hh h (by simp)
    have hhs : ∀ g ∈ head, g.Wf := fun x hx => hh x (List.mem_cons_of_mem _ hx)
    rw [reappend]
    by_cases hq : gq = ∅
    · rw [if_pos hq]
      refine ⟨_, rfl, ?_, by simp, RayEq.refl _⟩
      intro x hx
      rcases List.mem_append.1 hx with hx | hx
      · exact hg x hx
      · exact hh x hx
    · rw [if_neg hq]
      rw [List.length_cons] at hl
      by_cases hd : Disjoint h.qubits gq
      · rw [if_pos hd]
        have hgw : ∀ x ∈ gates ++ [h], x.Wf := by
          intro x hx
          rcases List.mem_append.1 hx with hx | hx
          · exact hg x hx
          · rw [List.mem_singleton.1 hx]; exact hhw
        obtain ⟨gs, e1, e2, e3, e4⟩ := ih (gates ++ [h]) gq hgw hhs (by simp; omega)
        refine ⟨gs, e1, e2, by simp at e3 ⊢; omega, ?_⟩
        rwa [List.append_assoc] at e4
      · rw [if_neg hd]
        obtain ⟨gs, r, e1, e2, e3, e4⟩ := ha gates h hg hhw (by omega)
        rw [e1]
        have e5 : RayEq (gs ++ head) (gates ++ h :: head) := by
          have := e4.append head
          rwa [List.append_assoc] at this
        cases r with
        | true =>
          simp only
          obtain ⟨gs', i1, i2, i3, i4⟩ := ih gs (gq ∪ h.qubits) e2 hhs (by omega)
          exact ⟨gs', i1, i2, by simp; omega, i4.trans e5⟩
        | false =>
          simp only
          obtain ⟨gs', i1, i2, i3, i4⟩ := ih gs (gq \ h.qubits) e2 hhs (by omega)
          exact ⟨gs', i1, i2, by simp; omega, i4.trans e5⟩

theorem appendGate_ok (cl : Bool) (N : ℕ) : AppendOk (appendGate (Q := Q) cl N) N := by
  induction N with
  | zero => intro gates n _ _ h; omega
  | succ N ih =>
    intro gates n hg hn hl
    rw [appendGate]
    by_cases hi : n.isIdentity = true
    · rw [if_pos hi]
      refine ⟨gates, true, rfl, hg, by omega, ?_⟩
      obtain ⟨z, hz, hid⟩ := isIdentity_spec hn hi
      refine ⟨(starRingEnd ℂ) z, by rw [Complex.conj_conj, mul_comm]; exact hz, fun ψ => ?_⟩
      rw [run_append, run_cons, run_nil, hid]
      funext b
      rw [← mul_assoc, mul_comm ((starRingEnd ℂ) z), hz, one_mul]
    · rw [if_neg hi]
      have := walk_spec cl n.qubits gates.reverse n [] false (fun x hx => hg x (by simpa using hx)) hn (by simp)
      revert this
      cases walk cl n.qubits gates.reverse n [] false with
      | placed gs r =>
        simp only
        rintro ⟨i1, i2, i3⟩
        refine ⟨gs, r, rfl, i1, by simpa using i2, RayEq.of_eq fun ψ => ?_⟩
        have := i3 ψ
        rwa [List.reverse_reverse] at this
      | cancelled older nw gq =>
        simp only
        rintro ⟨i1, i2, i3, i4⟩
        simp only [List.length_reverse, List.length_nil, Nat.add_zero] at i3
        obtain ⟨gs, j1, j2, j3, j4⟩ := reappend_spec ih older nw gq i1 i2 (by omega)
        refine ⟨gs, true, by rw [j1]; rfl, j2, by omega, j4.trans ?_⟩
        rwa [List.reverse_reverse] at i4

end Verif.QCirc
