import Verif.Lemmas.Stream
import Mathlib.Data.List.GetD
import Verif.Lemmas.StabInv
import Verif.Props.StabHistory

/-!
# C66: what is saved is loaded again
-/

namespace Verif.Stream

open Verif.Matrix2 Verif.QCirc Verif.Stab

/-! ## Integers -/

/-- A `bitCapInt` is read from its decimal notation. -/
theorem bitCapInt_read {n : ℕ} (h : n < 2 ^ 128) (s : List Tok) : getBci (.word (dec n) :: s) = some (n, s) := getBci_num h s

example : getBci [.word ['4', '0', '7']] = some (407, []) := by
  have : (['4', '0', '7'] : List Char) = dec 407 := by simp [dec]; decide
  rw [this]; exact bitCapInt_read (by norm_num) []

/-- Writing a nonzero `bitCapInt` never ends: however many turns the loop gets, it does not come to its end. -/
theorem bitCapInt_print_hangs {b : ℕ} (h : b ≠ 0) (fuel : ℕ) : putBci b fuel = none := by
  unfold putBci
  rw [if_neg h]
  have : ∀ fuel b' ds, digitLoop b fuel b' ds = none := by
    intro fuel
    induction fuel with
    | zero => intro b' ds; rfl
    | succ k ih => intro b' ds; rw [digitLoop, if_pos h, ih]
  rw [this]; rfl

/-- Zero is written. Missing for the full claim: every other number. -/
theorem bitCapInt_print_partial (fuel : ℕ) : putBci 0 fuel = some (dec 0) := rfl

/-! ## Circuits -/

/-- Gates as the constructors make them: qubits fit into `bitLenInt`, the set of controls ascends, keys are distinct; keys fit into 64 bits. -/
structure GateOk (g : Gate ℕ) : Prop where
  target : g.target < 256
  sorted : g.controls.Pairwise (· < ·)
  controls : ∀ c ∈ g.controls, c < 256
  keys : (g.payloads.map Prod.fst).Nodup
  keysLt : ∀ e ∈ g.payloads, e.1 < 2 ^ 64
  count : g.payloads.length < 2 ^ 64

theorem sorted_length {l : List ℕ} (h : l.Pairwise (· < ·)) (hb : ∀ c ∈ l, c < 256) : l.length ≤ 256 := by
  have hn : l.Nodup := h.imp fun h => Nat.ne_of_lt h
  have : l.toFinset ⊆ Finset.range 256 := fun c hc => Finset.mem_range.2 (hb c (List.mem_toFinset.1 hc))
  have := Finset.card_le_card this
  rwa [List.toFinset_card_of_nodup hn, Finset.card_range] at this

theorem getGate_put {g : Gate ℕ} (h : GateOk g) (s : List Tok) : getGate (putGate g ++ s) = some (g, s) := by
  have hl := sorted_length h.sorted h.controls
  unfold getGate putGate
  simp only [List.cons_append, List.append_assoc]
  rw [bind_of (getSize_num (by have := h.target; omega) _), bind_of (getSize_num (by omega) _),
    bind_of (rep_map (put := num) (f := id) (fun c hc s => getSize_num (by have := h.controls c hc; omega) s) _),
    bind_of (getSize_num h.count _),
    bind_of (rep_of (f := id) (fun e he s => ?_) s)]
  · rw [List.map_id, List.map_id, Nat.mod_eq_of_lt h.target]
    have e : g.controls.foldl (fun l c => insertSet l (c % 256)) [] = g.controls := by
      have : g.controls.foldl (fun l c => insertSet l (c % 256)) [] = g.controls.foldl insertSet [] :=
        List.foldl_ext _ _ _ fun l c hc => by rw [Nat.mod_eq_of_lt (h.controls c hc)]
      rw [this, insert_sorted h.sorted (by simp)]; rfl
    rw [e, set_nodup (by simpa using h.keys)]
    rfl
  · have hk := h.keysLt e he
    rw [List.cons_append, bind_of (getBci_num (by omega) _), bind_of (getMtrx_put _ _), Nat.mod_eq_of_lt hk]
    rfl

/-- A circuit whose control permutations fit into 64 bits is loaded as it was saved; the two flags stay those of the object that it is loaded
into. Missing for the full claim: larger keys (`circuit_key_wrong`). -/
theorem circuit_saved_partial {c : Circuit ℕ} (hn : c.qubitCount < 256) (hg : ∀ g ∈ c.gates, GateOk g) (hk : c.gates.length < 2 ^ 64) (c' : Circuit ℕ)
    (s : List Tok) :
    getCircuit c' (putCircuit c ++ s) = some (⟨c'.isCollapsed, c'.isNearClifford, c.qubitCount, c.gates⟩, s) := by
  unfold getCircuit putCircuit
  rw [List.cons_append, List.cons_append, bind_of (getSize_num (by omega) _), bind_of (getSize_num hk _),
    bind_of (rep_of (f := id) (fun g h s => getGate_put (hg g h) s) s), List.map_id, Nat.mod_eq_of_lt hn]
  rfl

/-- A controlled gate that is met by the theorem. -/
def someGate : Gate ℕ := ⟨5, [1, 7], [(0, ⟨0, 1, 1, 0⟩), (3, ⟨1, 0, 0, Complex.I⟩)]⟩

example (s : List Tok) : getCircuit ⟨true, false, 0, []⟩ (putCircuit ⟨false, true, 8, [someGate, swapGate 0 1]⟩ ++ s) =
    some (⟨true, false, 8, [someGate, swapGate 0 1]⟩, s) :=
  circuit_saved_partial (by norm_num) (by
    intro g hg
    rcases List.mem_cons.1 hg with rfl | hg
    · exact ⟨by decide, by decide, by decide, by decide, by simp [someGate], by simp [someGate]⟩
    · obtain rfl := List.mem_singleton.1 hg
      exact ⟨by decide, by decide, by decide, by decide, by simp [swapGate], by simp [swapGate]⟩) (by simp) _ s

/-- The gate with the matrix `A` where 65 controls are clear, and `B` where the last of them alone is set. -/
def wideGate (A B : Mtrx) : Gate ℕ := ⟨70, List.range 65, [(0, A), (2 ^ 64, B)]⟩

/-- It is loaded with `B` where all controls are clear, and nothing else. -/
theorem circuit_key_wrong (A B : Mtrx) (s : List Tok) :
    getGate (putGate (wideGate A B) ++ s) = some (⟨70, List.range 65, [(0, B)]⟩, s) ∧ (wideGate A B).payloads ≠ [(0, B)] := by
  refine ⟨?_, by simp [wideGate]⟩
  unfold getGate putGate wideGate
  dsimp only
  simp only [List.cons_append, List.append_assoc]
  rw [bind_of (getSize_num (by norm_num) _), bind_of (getSize_num (by simp) _),
    bind_of (rep_map (put := num) (f := id) (fun c hc s => getSize_num (by have := List.mem_range.1 hc; omega) s) _),
    bind_of (getSize_num (by norm_num) _),
    bind_of (rep_of (f := fun e => (e.1 % 2 ^ 64, e.2)) (fun e he s => ?_) s)]
  · have e : (List.range 65).foldl (fun l c => insertSet l (c % 256)) [] = List.range 65 := by
      have : (List.range 65).foldl (fun l c => insertSet l (c % 256)) [] = (List.range 65).foldl insertSet [] :=
        List.foldl_ext _ _ _ fun l c hc => by rw [Nat.mod_eq_of_lt (by have := List.mem_range.1 hc; omega)]
      rw [this, insert_sorted List.pairwise_lt_range (by simp)]; rfl
    rw [List.map_id, e]
    simp [PMap.set, PMap.get, Rd.pure]
  · rw [List.cons_append, bind_of (getBci_num (by omega) _), bind_of (getMtrx_put _ _)]
    rfl

/-! ## Stabilizer simulators -/

theorem getRow_put {n : ℕ} {w : Row n} (h : w.r < 256) (s : List Tok) : getRow n (putRow w ++ s) = some (w, s) := by
  unfold getRow putRow
  rw [List.append_assoc, List.append_assoc]
  have l : n = (List.finRange n).length := (List.length_finRange).symm
  have e1 : ∀ (f : Fin n → Bool) s, Rd.rep getBool n ((List.finRange n).map (fun j => putBool (f j)) ++ s) = some ((List.finRange n).map f, s) := by
    intro f s
    conv_lhs => arg 2; rw [l]
    exact rep_map (fun j _ s => getBool_put (f j) s) s
  rw [bind_of (e1 w.x _), bind_of (e1 w.z _), List.singleton_append, bind_of (getSize_num (by omega) _), Nat.mod_eq_of_lt h]
  have e2 : ∀ f : Fin n → Bool, (fun j : Fin n => ((List.finRange n).map f).getD j false) = f := by
    intro f; funext j
    rw [List.getD_eq_getElem _ _ (by simp)]
    simp
  rw [e2, e2]; rfl

/-- A tableau is loaded with the rows of the reduced tableau. -/
theorem getTab_put {n : ℕ} (hn : n < 2 ^ 64) {T : Tab n} (h : Inv T) (s : List Tok) :
    getTab (putTab T ++ s) = some (⟨n, fun i => if i < 2 * n then (gaussian T).1 i else idRow n⟩, s) := by
  have hg := inv_gaussian h
  unfold getTab putTab
  rw [List.cons_append, bind_of (getSize_num hn _)]
  have e : Rd.rep (getRow n) (2 * n) ((List.range (2 * n)).flatMap (fun i => putRow ((gaussian T).1 i)) ++ s) =
      some ((List.range (2 * n)).map (gaussian T).1, s) := by
    have := rep_of (a := getRow n) (put := fun i => putRow ((gaussian T).1 i)) (f := (gaussian T).1) (l := List.range (2 * n)) (fun i hi s =>
      getRow_put (by rcases hg.herm i (List.mem_range.1 hi) with h | h <;> omega) s) s
    rwa [List.length_range] at this
  rw [bind_of e]
  unfold Rd.pure
  congr 3
  funext i
  split_ifs with hi
  · rw [List.getD_eq_getElem _ _ (by simpa using hi)]; simp
  · rw [List.getD_eq_default _ _ (by simpa using hi)]

/-- A stabilizer simulator is loaded with a tableau that describes the same states. -/
theorem tableau_saved {n : ℕ} (hn : n < 2 ^ 64) {T : Tab n} (h : Inv T) (s : List Tok) :
    ∃ T' : Tab n, getTab (putTab T ++ s) = some (⟨n, T'⟩, s) ∧ Inv T' ∧ ∀ ψ, Stabilises T ψ → Stabilises T' ψ := by
  have hg := inv_gaussian h
  refine ⟨_, getTab_put hn h s, ⟨fun i hi => ?_, fun i j hi hj => ?_⟩, fun ψ hψ i h1 h2 => ?_⟩
  · rw [if_pos hi]; exact hg.herm i hi
  · rw [if_pos hi, if_pos hj]; exact hg.comm i j hi hj
  · dsimp only
    rw [if_pos h2]; exact stab_gaussian hψ i h1 h2

example (s : List Tok) : ∃ T' : Tab 3, getTab (putTab (setPermutation 3 (idRow 3) 5) ++ s) = some (⟨3, T'⟩, s) ∧ Inv T' ∧
    ∀ ψ, Stabilises (setPermutation 3 (idRow 3) 5) ψ → Stabilises T' ψ := tableau_saved (by norm_num) (setPermutation_inv _ _) s

/-! ## Units of stabilizer simulators -/

/-- Units whose tableaux are valid, at most 256 qubits, and every unit in use once in the order of addresses. -/
structure UnitsOk (order : List ℕ) (s : Units) : Prop where
  nodup : order.Nodup
  mem : ∀ u, u ∈ order ↔ u ∈ s.shards.map Prod.fst
  count : s.shards.length ≤ 256
  mapped : ∀ e ∈ s.shards, e.2 < 256
  inv : ∀ u ∈ order, (s.unit u).1 < 2 ^ 64 ∧ Inv (s.unit u).2

theorem mem_index {s : Units} {u : ℕ} {p : ℕ × ℕ} : p ∈ s.index u ↔ s.shards[p.1]? = some (u, p.2) := by
  unfold Units.index
  rw [List.mem_filterMap]
  constructor
  · rintro ⟨⟨⟨a, b⟩, i⟩, h, e⟩
    have := List.mem_zipIdx_iff_getElem?.1 h
    dsimp only at e this
    split_ifs at e with hu
    obtain rfl := Option.some.inj e
    subst hu
    simpa using this
  · intro h
    exact ⟨((u, p.2), p.1), List.mem_zipIdx_iff_getElem?.2 h, by simp⟩

theorem getUnit_put {order : List ℕ} {s : Units} (h : UnitsOk order s) {u : ℕ} (hu : u ∈ order) (t : List Tok) :
    getUnit (num (s.index u).length :: (s.index u).flatMap (fun p => [num p.1, num p.2]) ++ putTab (s.unit u).2 ++ t) =
      some ((s.index u, ⟨(s.unit u).1, fun i => if i < 2 * (s.unit u).1 then (gaussian (s.unit u).2).1 i else idRow _⟩), t) := by
  have hlen : (s.index u).length ≤ 256 := by
    unfold Units.index
    exact (List.length_filterMap_le _ _).trans (by simpa using h.count)
  have hb : ∀ p ∈ s.index u, p.1 < 256 ∧ p.2 < 256 := fun p hp => by
    have := mem_index.1 hp
    obtain ⟨hlt, he⟩ := List.getElem?_eq_some_iff.1 this
    exact ⟨lt_of_lt_of_le hlt h.count, by have := h.mapped _ (List.mem_of_getElem he); exact this⟩
  unfold getUnit
  simp only [List.cons_append, List.append_assoc]
  rw [bind_of (getSize_num (by omega) _), bind_of (rep_of (f := id) (fun p hp t => ?_) _), List.map_id, bind_of (getTab_put (h.inv u hu).1 (h.inv u hu).2 t)]
  · rfl
  · obtain ⟨h1, h2⟩ := hb p hp
    rw [List.cons_append, bind_of (getSize_num (by omega) _), List.singleton_append, bind_of (getSize_num (by omega) _), Nat.mod_eq_of_lt h1,
      Nat.mod_eq_of_lt h2]
    rfl

theorem foldl_set_length (f : ℕ → ℕ × ℕ) (ix : List (ℕ × ℕ)) (l : List (ℕ × ℕ)) :
    (ix.foldl (fun l p => l.set p.1 (f p.2)) l).length = l.length := by
  induction ix generalizing l with
  | nil => rfl
  | cons p ix ih => rw [List.foldl_cons, ih, List.length_set]

theorem foldl_set_other (f : ℕ → ℕ × ℕ) {ix : List (ℕ × ℕ)} {i : ℕ} (h : i ∉ ix.map Prod.fst) (l : List (ℕ × ℕ)) :
    (ix.foldl (fun l p => l.set p.1 (f p.2)) l)[i]? = l[i]? := by
  induction ix generalizing l with
  | nil => rfl
  | cons p ix ih =>
    rw [List.map_cons, List.mem_cons, not_or] at h
    rw [List.foldl_cons, ih h.2, List.getElem?_set_ne (Ne.symm h.1)]

theorem foldl_set_one (f : ℕ → ℕ × ℕ) {ix : List (ℕ × ℕ)} (hn : (ix.map Prod.fst).Nodup) {i m : ℕ} (h : (i, m) ∈ ix) {l : List (ℕ × ℕ)}
    (hi : i < l.length) : (ix.foldl (fun l p => l.set p.1 (f p.2)) l)[i]? = some (f m) := by
  induction ix generalizing l with
  | nil => simp at h
  | cons p ix ih =>
    rw [List.map_cons, List.nodup_cons] at hn
    rw [List.foldl_cons]
    rcases List.mem_cons.1 h with rfl | h
    · rw [foldl_set_other f hn.1, List.getElem?_set_self hi]
    · exact ih hn.2 h (by rwa [List.length_set])

theorem index_nodup (s : Units) (u : ℕ) : ((s.index u).map Prod.fst).Nodup := by
  unfold Units.index
  have : ((s.shards.zipIdx.filterMap fun e => if e.1.1 = u then some (e.2, e.1.2) else none).map Prod.fst).Sublist
      (s.shards.zipIdx.map Prod.snd) := by
    generalize s.shards.zipIdx = l
    induction l with
    | nil => simp
    | cons e l ih =>
      rw [List.filterMap_cons]
      split_ifs
      · exact ih.cons₂ _
      · exact ih.cons _
  refine this.nodup ?_
  rw [List.zipIdx_map_snd]
  exact List.nodup_range'

/-- Writing the units one after another leaves every shard at the unit that holds it. -/
theorem shards_read {s : Units} (g : ℕ → Σ n, Tab n) (order : List ℕ) (hn : order.Nodup) (k : ℕ) {l : List (ℕ × ℕ)} (hl : l.length = s.shards.length) {i u m : ℕ}
    (hi : s.shards[i]? = some (u, m)) :
    let r := ((order.map fun u => (s.index u, g u)).zipIdx k).foldl
      (fun l (e : (List (ℕ × ℕ) × Σ n, Tab n) × ℕ) => e.1.1.foldl (fun l p => l.set p.1 (e.2, p.2)) l) l
    r.length = l.length ∧ (u ∉ order → r[i]? = l[i]?) ∧ ∀ j, order[j]? = some u → r[i]? = some (k + j, m) := by
  induction order generalizing k l with
  | nil => simp
  | cons v order ih =>
    rw [List.nodup_cons] at hn
    rw [List.map_cons, List.zipIdx_cons, List.foldl_cons]
    have hlen := foldl_set_length (fun p => (k, p)) (s.index v) l
    obtain ⟨h1, h2, h3⟩ := ih hn.2 (k + 1) (l := (s.index v).foldl (fun l p => l.set p.1 (k, p.2)) l) (hlen.trans hl)
    have hlt : i < l.length := by rw [hl]; exact (List.getElem?_eq_some_iff.1 hi).1
    refine ⟨h1.trans hlen, fun hu => ?_, fun j hj => ?_⟩
    · rw [List.mem_cons, not_or] at hu
      rw [h2 hu.2]
      refine foldl_set_other (fun p => (k, p)) (fun hm => ?_) l
      obtain ⟨p, hp, rfl⟩ := List.mem_map.1 hm
      have := mem_index.1 hp
      rw [hi, Option.some.injEq, Prod.mk.injEq] at this
      exact hu.1 this.1
    · rcases j with _ | j
      · obtain rfl : v = u := by simpa using hj
        rw [h2 hn.1]
        exact foldl_set_one (fun p => (k, p)) (index_nodup s v) (mem_index.2 hi) hlt
      · rw [h3 j (by simpa using hj)]; congr 2; omega

/-- Units are loaded as they were saved: every qubit is the same qubit of a unit whose tableau describes the same states, and two qubits share a
unit if and only if they did. -/
theorem units_saved {order : List ℕ} {s : Units} (h : UnitsOk order s) (fresh : ℕ → ℕ × ℕ) (rest : ℕ → Σ n, Tab n) (t : List Tok) :
    ∃ s' : Units, getUnits fresh rest (putUnits order s ++ t) = some (s', t) ∧ s'.shards.length = s.shards.length ∧
      (∀ i u m : ℕ, s.shards[i]? = some (u, m) → ∃ u' : ℕ, s'.shards[i]? = some (u', m) ∧
        ∃ T : Tab (s.unit u).1, s'.unit u' = ⟨(s.unit u).1, T⟩ ∧ Inv T ∧ ∀ ψ, Stabilises (s.unit u).2 ψ → Stabilises T ψ) ∧
      ∀ i j u m v k u' m' v' k' : ℕ, s.shards[i]? = some (u, m) → s.shards[j]? = some (v, k) → s'.shards[i]? = some (u', m') →
        s'.shards[j]? = some (v', k') → (u' = v' ↔ u = v) := by
  let g : ℕ → Σ n, Tab n := fun u => ⟨(s.unit u).1, fun i => if i < 2 * (s.unit u).1 then (gaussian (s.unit u).2).1 i else idRow _⟩
  have hol : order.length ≤ 256 := by
    refine le_trans ?_ h.count
    have h1 : order ⊆ s.shards.map Prod.fst := fun u hu => (h.mem u).1 hu
    have := (List.subperm_of_subset h.nodup h1).length_le
    simpa using this
  have hread : Rd.rep getUnit order.length (order.flatMap (fun u => num (s.index u).length :: (s.index u).flatMap (fun p => [num p.1, num p.2]) ++
      putTab (s.unit u).2) ++ t) = some (order.map fun u => (s.index u, g u), t) :=
    rep_of (fun u hu t => getUnit_put h hu t) t
  have hall : ((order.map fun u => (s.index u, g u)).flatMap fun u => u.1.map Prod.fst).all (· < s.shards.length) = true := by
    rw [List.all_eq_true]
    intro i hi
    obtain ⟨e, he, hi⟩ := List.mem_flatMap.1 hi
    obtain ⟨u, -, rfl⟩ := List.mem_map.1 he
    obtain ⟨p, hp, rfl⟩ := List.mem_map.1 hi
    exact decide_eq_true (List.getElem?_eq_some_iff.1 (mem_index.1 hp)).1
  have hget : getUnits fresh rest (putUnits order s ++ t) =
      some (⟨(order.map fun u => (s.index u, g u)).zipIdx.foldl (fun l u => u.1.1.foldl (fun l p => l.set p.1 (u.2, p.2)) l)
        ((List.range s.shards.length).map fresh), fun i => (((order.map fun u => (s.index u, g u))[i]?).map Prod.snd).getD (rest i)⟩, t) := by
    unfold getUnits putUnits
    rw [List.cons_append, List.cons_append]
    rw [bind_of (getSize_num (by have := h.count; omega) _), bind_of (getSize_num (by omega) _), bind_of hread, if_pos hall]
  have hl : ((List.range s.shards.length).map fresh).length = s.shards.length := by simp
  have key : ∀ i u m : ℕ, s.shards[i]? = some (u, m) → ∃ j, order[j]? = some u ∧
      ((order.map fun u => (s.index u, g u)).zipIdx.foldl (fun l u => u.1.1.foldl (fun l p => l.set p.1 (u.2, p.2)) l)
        ((List.range s.shards.length).map fresh))[i]? = some (j, m) := by
    intro i u m hi
    have hu : u ∈ order := (h.mem u).2 (List.mem_map.2 ⟨(u, m), List.mem_of_getElem? hi, rfl⟩)
    obtain ⟨j, hj⟩ := List.mem_iff_getElem?.1 hu
    have := (shards_read g order h.nodup 0 hl hi).2.2 j hj
    rw [Nat.zero_add] at this
    exact ⟨j, hj, this⟩
  refine ⟨_, hget, ?_, fun i u m hi => ?_, fun i j u m v k u' m' v' k' hi hj hi' hj' => ?_⟩
  · rcases hs : s.shards with _ | ⟨e, l⟩
    · have : order = [] := by
        rw [List.eq_nil_iff_forall_not_mem]
        intro u hu
        have := (h.mem u).1 hu
        simp [hs] at this
      simp [this]
    · have := (shards_read g order h.nodup 0 hl (i := 0) (u := e.1) (m := e.2) (by simp [hs])).1
      rw [← hs]; exact this.trans hl
  · obtain ⟨j, hj, hr⟩ := key i u m hi
    refine ⟨j, hr, (g u).2, ?_, ?_, ?_⟩
    · dsimp only
      rw [List.getElem?_map, hj]; rfl
    · have hu : u ∈ order := List.mem_of_getElem? hj
      have hg := inv_gaussian (h.inv u hu).2
      refine ⟨fun i hi => ?_, fun i j hi hj => ?_⟩
      · have e : (g u).2 i = (gaussian (s.unit u).2).1 i := if_pos hi
        rw [e]; exact hg.herm i hi
      · show sp (if _ then _ else _) (if _ then _ else _) = _
        rw [if_pos hi, if_pos hj]; exact hg.comm i j hi hj
    · intro ψ hψ i h1 h2
      show ((if _ then _ else _ : Row _)).op ψ = ψ
      rw [if_pos h2]; exact stab_gaussian hψ i h1 h2
  · obtain ⟨a, ha, hra⟩ := key i u m hi
    obtain ⟨b, hb, hrb⟩ := key j v k hj
    dsimp only at hi' hj'
    rw [hra, Option.some.injEq, Prod.mk.injEq] at hi'
    rw [hrb, Option.some.injEq, Prod.mk.injEq] at hj'
    obtain ⟨rfl, -⟩ := hi'
    obtain ⟨rfl, -⟩ := hj'
    constructor
    · rintro rfl
      exact Option.some.inj (ha.symm.trans hb)
    · rintro rfl
      obtain ⟨h1, h2⟩ := List.getElem?_eq_some_iff.1 ha
      obtain ⟨h3, h4⟩ := List.getElem?_eq_some_iff.1 hb
      exact (List.Nodup.getElem_inj_iff h.nodup).1 (h2.trans h4.symm)

/-- Two units, the first of two qubits whose shards are not neighbours. -/
def twoUnits : Units where
  shards := [(9, 1), (4, 0), (9, 0)]
  unit u := if u = 9 then ⟨2, setPermutation 2 (idRow 2) 1⟩ else ⟨1, setPermutation 1 (idRow 1) 1⟩

theorem twoUnits_ok : UnitsOk [9, 4] twoUnits where
  nodup := by decide
  mem u := by simp [twoUnits]; tauto
  count := by simp [twoUnits]
  mapped := by simp [twoUnits]
  inv u hu := by
    simp only [List.mem_cons, List.not_mem_nil, or_false] at hu
    rcases hu with rfl | rfl
    · exact ⟨by simp [twoUnits], by simpa [twoUnits] using setPermutation_inv _ _⟩
    · exact ⟨by simp [twoUnits], by simpa [twoUnits] using setPermutation_inv _ _⟩

example (t : List Tok) : ∃ s', getUnits (fun i => (i, 0)) (fun _ => ⟨1, initTab 1 (idRow 1)⟩) (putUnits [9, 4] twoUnits ++ t) = some (s', t) :=
  let ⟨s', h, _⟩ := units_saved twoUnits_ok _ _ t
  ⟨s', h⟩

/-! ## `QStabilizerHybrid` -/

theorem counts_foldl (sep : ℕ → Bool) (l : List ℕ) (k : ℕ) (h : l.length ≤ k) :
    l.foldl (fun l i => if sep i then l - 1 else l) k + l.countP sep = k := by
  induction l generalizing k with
  | nil => simp
  | cons i l ih =>
    rw [List.foldl_cons, List.countP_cons]
    rw [List.length_cons] at h
    by_cases hi : sep i = true
    · rw [if_pos hi, if_pos hi]
      have := ih (k - 1) (by omega)
      omega
    · rw [if_neg hi, if_neg hi]
      have := ih k (by omega)
      omega

/-- The number of ancillae is that of the remaining qubits beyond the register if and only if no ancilla was separable; then the counts are right.
Missing for the full claim: registers with separable ancillae (`hybrid_counts_wrong`). -/
theorem hybrid_counts_partial {qbCount size : ℕ} (h : qbCount ≤ size) (sep : ℕ → Bool) :
    qbCount + (hybridCounts qbCount size sep).1 = (hybridCounts qbCount size sep).2 ↔ ∀ i, qbCount ≤ i → i < size → sep i = false := by
  have := counts_foldl sep (List.range' qbCount (size - qbCount)).reverse size (by simp)
  unfold hybridCounts
  dsimp only
  rw [List.countP_reverse] at this
  have e : (List.range' qbCount (size - qbCount)).countP sep = 0 ↔ ∀ i, qbCount ≤ i → i < size → sep i = false := by
    rw [List.countP_eq_zero]
    constructor
    · intro h i h1 h2
      have := h i (by rw [List.mem_range'_1]; omega)
      simpa using this
    · intro h i hi
      rw [List.mem_range'_1] at hi
      simp [h i hi.1 (by omega)]
  rw [← e]
  omega

/-- One register qubit with one ancilla that separates: loaded with one qubit, but with the count of one ancilla. -/
theorem hybrid_counts_wrong : hybridCounts 1 2 (fun _ => true) = (1, 1) := rfl

end Verif.Stream
