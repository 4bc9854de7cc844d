import Verif.Model.QCircuitInc
import Verif.Props.QCircuit
import Verif.Lemmas.GateCode

/-!
# C84: the addition that `QCircuit` appends
-/

namespace Verif.QCirc

open Verif.Spec.Circuit Verif.Spec Verif.Matrix2

/-- The basis state with `toAdd` added to the number in the qubits `[s, s + l)`, modulo `2^l`. -/
def added (toAdd s l : ℕ) (b : ℕ → Bool) : ℕ → Bool := fun q =>
  if s ≤ q ∧ q < s + l then (key ((List.range l).map (s + ·)) b + toAdd).testBit (q - s) else b q

/-- What a gate of the addition does to a basis state. -/
def flips (t : ℕ) (cs : List ℕ) (b : ℕ → Bool) : ℕ → Bool := if ∀ c ∈ cs, b c = false then Function.update b t (!b t) else b

theorem key_zero : ∀ (cs : List ℕ) (b : ℕ → Bool), key cs b = 0 ↔ ∀ c ∈ cs, b c = false
  | [], b => by simp [key]
  | c :: cs, b => by
    have ih := key_zero cs b
    simp only [key, List.forall_mem_cons, ← ih]
    cases b c <;> simp

theorem flip_gate (t : ℕ) (cs : List ℕ) (ψ : St ℕ) (b : ℕ → Bool) :
    multiplex t cs (PMap.get [(0, incX)]) ψ b = ψ (flips t cs b) := by
  unfold multiplex flips
  rw [get_cons, get_nil]
  by_cases h : key cs b = 0
  · have h' := (key_zero cs b).1 h
    rw [if_pos (show ((0, incX) : ℕ × Mtrx).1 = key cs b from h.symm), if_pos h']
    simp only [onQubit, incX]
    cases b t <;> simp
  · have h' : ¬ ∀ c ∈ cs, b c = false := fun h1 => h ((key_zero cs b).2 h1)
    rw [if_neg (show ¬ ((0, incX) : ℕ × Mtrx).1 = key cs b from fun h1 => h h1.symm), if_neg h']

theorem flips_flips {t : ℕ} {cs : List ℕ} (h : t ∉ cs) (b : ℕ → Bool) : flips t cs (flips t cs b) = b := by
  unfold flips
  by_cases h1 : ∀ c ∈ cs, b c = false
  · rw [if_pos h1, if_pos]
    · simp
    · intro c hc
      rw [Function.update_of_ne (fun e => h (by rw [← e]; exact hc))]
      exact h1 c hc
  · rw [if_neg h1, if_neg h1]

/-- The gates for the calls of the ripple increment. -/
def ofOp : Circ.Op → Gate ℕ
  | .x t => ⟨t, [], [(0, incX)]⟩
  | .macx cs t => ⟨t, cs, [(0, incX)]⟩
  | _ => ⟨0, [], []⟩

/-- The basis state reached, gate by gate. -/
def moves (gs : List (Gate ℕ)) (b : ℕ → Bool) : ℕ → Bool := gs.foldl (fun b g => flips g.target g.controls b) b

theorem incGates_eq (toAdd start l : ℕ) : incGates toAdd start l = (Circ.inc toAdd start l).map ofOp := by
  unfold incGates Circ.inc
  split_ifs <;> simp only [List.map_nil, List.map_cons, List.map_flatMap, ofOp]
  congr 1
  funext i
  split_ifs <;> simp [ofOp, Function.comp_def]

theorem inc_kind {toAdd start l : ℕ} {o : Circ.Op} (h : o ∈ Circ.inc toAdd start l) : (∃ t, o = .x t) ∨
    ∃ s m t, o = .macx ((List.range m).map (s + ·)) t := by
  unfold Circ.inc at h
  split_ifs at h with h1 h2 h3
  · simp at h
  · simp only [List.mem_singleton] at h; exact Or.inl ⟨_, h⟩
  · simp at h
  · rw [List.mem_flatMap] at h
    obtain ⟨i, -, hi⟩ := h
    split_ifs at hi
    · simp at hi
    · rw [List.mem_cons, List.mem_map] at hi
      rcases hi with hi | ⟨j, -, hj⟩
      · exact Or.inl ⟨_, hi⟩
      · exact Or.inr ⟨_, _, _, hj.symm⟩

theorem ux : Unitary incX := by simp [Unitary, incX]

theorem incGates_wf (toAdd start l : ℕ) : ∀ g ∈ incGates toAdd start l, g.Wf ∧ g.payloads = [(0, incX)] := by
  intro g hg
  rw [incGates_eq, List.mem_map] at hg
  obtain ⟨o, ho, rfl⟩ := hg
  have hok := Circ.inc_ok (n := start + l) le_rfl o ho
  rcases inc_kind ho with ⟨t, rfl⟩ | ⟨s, m, t, rfl⟩
  · exact ⟨single_wf (by simp) (by simp) (by simp) ux, rfl⟩
  · refine ⟨single_wf ?_ ?_ (by positivity) ux, rfl⟩
    · have := hok.1
      rw [List.nodup_append] at this
      intro h
      exact this.2.2 t h t (by simp) rfl
    · rw [List.pairwise_map]
      exact List.pairwise_lt_range.imp fun h => by omega

theorem sim_op {N : ℕ} {o : Circ.Op} (hok : o.Ok N) (hk : (∃ t, o = .x t) ∨ ∃ cs t, o = .macx cs t) {b : ℕ → Bool} {i : ℕ}
    (h : ∀ q < N, b q = i.testBit q) :
    (∀ q < N, flips (ofOp o).target (ofOp o).controls b q = (o.act i).testBit q) ∧
      ∀ q, N ≤ q → flips (ofOp o).target (ofOp o).controls b q = b q := by
  have upd : ∀ t < N, (∀ q < N, Function.update b t (!b t) q = (flipBit t i).testBit q) ∧
      ∀ q, N ≤ q → Function.update b t (!b t) q = b q := by
    intro t ht
    refine ⟨fun q hq => ?_, fun q hq => Function.update_of_ne (by omega) _ _⟩
    unfold flipBit
    rw [Nat.testBit_xor, Nat.testBit_two_pow]
    by_cases e : q = t
    · subst e; rw [Function.update_self, h q hq]; simp
    · rw [Function.update_of_ne e, h q hq]; simp [Ne.symm e]
  rcases hk with ⟨t, rfl⟩ | ⟨cs, t, rfl⟩
  · have : flips t [] b = Function.update b t (!b t) := by simp [flips]
    change (∀ q < N, flips t [] b q = (flipBit t i).testBit q) ∧ ∀ q, N ≤ q → flips t [] b q = b q
    rw [this]
    exact upd t hok
  · have hc : ∀ c ∈ cs, c < N := fun c hc => hok.2 c (by simp [hc])
    have ht : t < N := hok.2 t (by simp)
    change (∀ q < N, flips t cs b q = (if AllAre false cs i then flipBit t i else i).testBit q) ∧ ∀ q, N ≤ q → flips t cs b q = b q
    unfold flips
    by_cases h1 : ∀ c ∈ cs, b c = false
    · have h2 : AllAre false cs i := fun c hc' => by rw [← h c (hc c hc')]; exact h1 c hc'
      rw [if_pos h1, if_pos h2]
      exact upd t ht
    · have h2 : ¬ AllAre false cs i := fun h3 => h1 fun c hc' => by rw [h c (hc c hc')]; exact h3 c hc'
      rw [if_neg h1, if_neg h2]
      exact ⟨h, fun _ _ => rfl⟩

theorem sim {N : ℕ} : ∀ (l : List Circ.Op), (∀ o ∈ l, o.Ok N ∧ ((∃ t, o = .x t) ∨ ∃ cs t, o = .macx cs t)) → ∀ (b : ℕ → Bool) (i : ℕ),
    (∀ q < N, b q = i.testBit q) → (∀ q < N, moves (l.map ofOp) b q = (Circ.act l i).testBit q) ∧ ∀ q, N ≤ q → moves (l.map ofOp) b q = b q
  | [], _, b, i, h => ⟨h, fun _ _ => rfl⟩
  | o :: l, hl, b, i, h => by
    obtain ⟨h1, h2⟩ := sim_op (hl o (by simp)).1 (hl o (by simp)).2 h
    obtain ⟨h3, h4⟩ := sim l (fun o ho => hl o (by simp [ho])) _ (o.act i) h1
    exact ⟨h3, fun q hq => (h4 q hq).trans (h2 q hq)⟩

theorem moves_inc (toAdd s l : ℕ) (b : ℕ → Bool) : moves (incGates toAdd s l) b = added toAdd s l b := by
  have hi : ∀ q < s + l, b q = (Nat.ofBits fun k : Fin (s + l) => b k).testBit q := fun q hq => by rw [Nat.testBit_ofBits_lt _ _ hq]
  have hl : (Nat.ofBits fun k : Fin (s + l) => b k) < 2 ^ (s + l) := Nat.ofBits_lt_two_pow _
  generalize (Nat.ofBits fun k : Fin (s + l) => b k) = i at hi hl
  obtain ⟨h1, h2⟩ := sim (N := s + l) (Circ.inc toAdd s l) (fun o ho => ⟨Circ.inc_ok le_rfl o ho, by
    rcases inc_kind ho with h | ⟨a, m, t, h⟩
    · exact Or.inl h
    · exact Or.inr ⟨_, t, h⟩⟩) b i hi
  have hf : field s l i = key ((List.range l).map (s + ·)) b := by
    apply Nat.eq_of_testBit_eq
    intro k
    rw [testBit_field, key_testBit]
    by_cases hk : k < l
    · simp [hk, hi (s + k) (by omega)]
    · simp [hk]
  funext q
  rw [incGates_eq]
  unfold added
  by_cases hq : q < s + l
  · rw [h1 q hq, Circ.act_inc, testBit_setField, hf]
    by_cases hs : q < s
    · rw [if_pos hs, if_neg (by omega), hi q hq]
    · rw [if_neg hs, if_pos hq, if_pos ⟨by omega, hq⟩]
  · rw [h2 q (by omega), if_neg (fun h => hq h.2)]

theorem fold_moves : ∀ (gs : List (Gate ℕ)), (∀ g ∈ gs, g.Wf ∧ g.payloads = [(0, incX)]) → ∀ (ψ : St ℕ) (b : ℕ → Bool),
    gs.foldl (fun φ n => multiplex n.target n.controls n.payloads.get φ) ψ (moves gs b) = ψ b
  | [], _, ψ, b => rfl
  | g :: gs, h, ψ, b => by
    have hg := h g (by simp)
    change gs.foldl _ (multiplex g.target g.controls g.payloads.get ψ) (moves gs (flips g.target g.controls b)) = ψ b
    rw [fold_moves gs (fun g hg => h g (by simp [hg])), hg.2, flip_gate, flips_flips hg.1.notMem]

/-- **C84.** `INC` appended to a circuit with any history, in either merging mode: `Run` does what the history does and then adds, up to a
phase, whatever the appended gates have been merged with. -/
theorem inc_adds_partial (clifford : Bool) (ns : List (Gate ℕ)) (hns : ∀ n ∈ ns, n.Wf) (toAdd start l : ℕ) :
    ∃ c c' ops, (Circuit.mk true clifford 0 []).appendAll ns = some c ∧ c.inc toAdd start l = some c' ∧ runOps c'.gates = some ops ∧
      (∀ o ∈ ops, ∀ q ∈ o.qubits, q < c'.qubitCount) ∧
      ∀ ψ, ∃ z : ℂ, z * (starRingEnd ℂ) z = 1 ∧ ∀ b, opsAct ops ψ (added toAdd start l b) =
        z * ns.foldl (fun φ n => multiplex n.target n.controls n.payloads.get φ) ψ b := by
  have split : ∀ (ms : List (Gate ℕ)) (c : Circuit ℕ) (ks : List (Gate ℕ)), c.appendAll (ms ++ ks) = (c.appendAll ms).bind (·.appendAll ks) := by
    intro ms
    induction ms with
    | nil => intro c ks; rfl
    | cons m ms ih =>
      intro c ks
      rw [List.cons_append, Circuit.appendAll, Circuit.appendAll]
      cases c.append m with
      | none => rfl
      | some c' => exact ih c' ks
  obtain ⟨c', ops, h1, h2, h3, h4⟩ := append_history_partial clifford (ns ++ incGates toAdd start l) (by
    intro n hn
    rw [List.mem_append] at hn
    rcases hn with hn | hn
    · exact hns n hn
    · exact (incGates_wf _ _ _ n hn).1)
  rw [split] at h1
  obtain ⟨c, h5, h6⟩ := Option.bind_eq_some_iff.1 h1
  refine ⟨c, c', ops, h5, h6, h2, h3, fun ψ => ?_⟩
  obtain ⟨z, hz, h7⟩ := h4 ψ
  refine ⟨z, hz, fun b => ?_⟩
  rw [h7, List.foldl_append, ← moves_inc, fold_moves _ (incGates_wf _ _ _)]

/-- A circuit that does not merge gates. -/
theorem inc_uncollapsed (c : Circuit ℕ) (h : c.isCollapsed = false) (toAdd start l : ℕ) :
    c.inc toAdd start l = some { c with gates := c.gates ++ incGates toAdd start l } ∧
      ∀ (ψ : St ℕ) (b : ℕ → Bool), (incGates toAdd start l).foldl (fun φ n => multiplex n.target n.controls n.payloads.get φ) ψ
        (added toAdd start l b) = ψ b :=
  ⟨append_uncollapsed _ _ h, fun ψ b => by rw [← moves_inc, fold_moves _ (incGates_wf _ _ _)]⟩

/-- Adding 3 to the register `[1, 4)` that holds 6, after an `X` and a controlled `X` have been appended. -/
example : (∀ n ∈ [Gate.mk 1 [] [(0, xM)], Gate.mk 2 [1] [(1, xM)]], Gate.Wf n) ∧ (incGates 3 1 3).length = 5 ∧
    (List.range 5).map (added 3 1 3 fun q => decide (q = 2 ∨ q = 3 ∨ q = 4)) = [false, true, false, false, true] := by
  refine ⟨fun n hn => ?_, by decide, by decide⟩
  simp only [List.mem_cons, List.not_mem_nil, or_false] at hn
  rcases hn with rfl | rfl <;> exact single_wf (by simp) (by simp) (by simp) (by simp [Unitary, xM])

end Verif.QCirc
