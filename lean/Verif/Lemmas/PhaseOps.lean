import Verif.Model.PhaseShard
import Mathlib.Data.List.Perm.Basic
import Mathlib.Tactic.Ring
import Mathlib.Tactic.LinearCombination

/-!
The meaning of the buffers, and the algebra of the gates they stand for.
-/

namespace Verif.Phase

open Verif.Matrix2 Verif.Spec.Circuit

variable {Q : Type} [DecidableEq Q]

/-! ### The meaning -/

/-- The gate that a buffer at `k` stands for: its matrix on the target where the control has the value that fires. -/
def op (k : Key Q) (b : PhaseShard) : St Q → St Q :=
  onWhen (fun s => s k.ctrl == !k.anti) k.tgt (bufMtrx k.anti b)

/-- The same, with nothing to do when there is no buffer. -/
def opO (k : Key Q) : Option PhaseShard → St Q → St Q
  | none => fun ψ => ψ
  | some b => op k b

/-- All places where a buffer can be. -/
def keys (ord : List Q) : List (Key Q) :=
  ord.flatMap fun c => ord.flatMap fun t => [⟨false, c, t⟩, ⟨true, c, t⟩]

/-- All buffered gates, applied to `ψ`. -/
def pending (ord : List Q) (m : Bufs Q) (ψ : St Q) : St Q := (keys ord).foldl (fun ψ k => opO k (m k) ψ) ψ

/-- The state that a `QUnit` stands for. -/
def state (ord : List Q) (u : QUnit Q) : St Q := pending ord u.bufs u.base

/-! ### `onWhen` -/

/-- `p` does not look at `t`. -/
def Indep (p : (Q → Bool) → Bool) (t : Q) : Prop := ∀ b v, p (Function.update b t v) = p b

theorem indep_ctrl {k : Key Q} (h : k.ctrl ≠ k.tgt) : Indep (fun s => s k.ctrl == !k.anti) k.tgt := by
  intro b v; simp [Function.update_of_ne h]

theorem indep_key {k : Key Q} {t : Q} (h : k.ctrl ≠ t) : Indep (fun s => s k.ctrl == !k.anti) t := by
  intro b v; simp [Function.update_of_ne h]

theorem onQubit_true {t : Q} {m : Mtrx} {ψ : St Q} {b : Q → Bool} (h : b t = true) :
    onQubit t m ψ b = m.m2 * ψ (Function.update b t false) + m.m3 * ψ b := by
  unfold onQubit
  rw [if_pos h]
  have : Function.update b t true = b := by rw [← h]; exact Function.update_eq_self t b
  rw [this]

theorem onQubit_false {t : Q} {m : Mtrx} {ψ : St Q} {b : Q → Bool} (h : b t = false) :
    onQubit t m ψ b = m.m0 * ψ b + m.m1 * ψ (Function.update b t true) := by
  unfold onQubit
  rw [if_neg (by simp [h])]
  have : Function.update b t false = b := by rw [← h]; exact Function.update_eq_self t b
  rw [this]

theorem onWhen_true (t : Q) (m : Mtrx) (ψ : St Q) : onWhen (fun _ => true) t m ψ = onQubit t m ψ := by
  funext b; simp [onWhen]

/-- Product of matrices. -/
def mmul (a b : Mtrx) : Mtrx :=
  ⟨a.m0 * b.m0 + a.m1 * b.m2, a.m0 * b.m1 + a.m1 * b.m3, a.m2 * b.m0 + a.m3 * b.m2, a.m2 * b.m1 + a.m3 * b.m3⟩

theorem onWhen_mul {p : (Q → Bool) → Bool} {t : Q} (hp : Indep p t) (a b : Mtrx) (ψ : St Q) :
    onWhen p t a (onWhen p t b ψ) = onWhen p t (mmul a b) ψ := by
  funext s
  unfold onWhen
  by_cases h : p s = true
  · simp only [h, if_true, onQubit, hp s, Function.update_self, Function.update_idem, mmul, if_false,
      Bool.false_eq_true]
    split <;> ring
  · simp [h]

/-- Gates on different qubits whose conditions do not look at the other's target commute. -/
theorem onWhen_comm {p p' : (Q → Bool) → Bool} {t t' : Q} (ht : t ≠ t') (h1 : Indep p t') (h2 : Indep p' t)
    (a a' : Mtrx) (ψ : St Q) :
    onWhen p t a (onWhen p' t' a' ψ) = onWhen p' t' a' (onWhen p t a ψ) := by
  funext s
  unfold onWhen onQubit
  simp only [h1 s, h2 s, Function.update_of_ne ht, Function.update_of_ne ht.symm]
  by_cases hp : p s = true <;> by_cases hp' : p' s = true <;> simp only [hp, hp', if_true, Bool.false_eq_true,
    if_false, Function.update_comm ht]
  split <;> split <;> ring

/-- Multiplication of each amplitude by a factor that does not depend on `t` commutes with a gate on `t`. -/
theorem onWhen_diag {p : (Q → Bool) → Bool} {t : Q} {f : (Q → Bool) → ℂ} (hf : ∀ b v, f (Function.update b t v) = f b)
    (a : Mtrx) (ψ : St Q) :
    onWhen p t a (fun b => f b * ψ b) = fun b => f b * onWhen p t a ψ b := by
  funext s
  unfold onWhen onQubit
  simp only [hf]
  split
  · split <;> ring
  · rfl

/-! ### Buffers without inversion are diagonal -/

/-- The factor by which a buffer without inversion multiplies an amplitude. -/
def coef (k : Key Q) (b : PhaseShard) (s : Q → Bool) : ℂ :=
  if s k.ctrl = !k.anti then (if s k.tgt = !k.anti then b.same else b.diff) else 1

theorem op_phase {k : Key Q} {b : PhaseShard} (h : b.inv = false) (ψ : St Q) :
    op k b ψ = fun s => coef k b s * ψ s := by
  funext s
  unfold op onWhen coef bufMtrx
  rw [h]
  by_cases hc : s k.ctrl = !k.anti
  · rw [if_pos hc, if_pos (by simp [hc])]
    rcases Bool.eq_false_or_eq_true (s k.tgt) with ht | ht <;> cases ha : k.anti <;>
      simp [ht, onQubit_true, onQubit_false]
  · rw [if_neg hc, if_neg (by simpa using hc)]; ring

theorem coef_update {k : Key Q} {b : PhaseShard} {t : Q} (h1 : k.ctrl ≠ t) (h2 : k.tgt ≠ t) (s : Q → Bool) (v : Bool) :
    coef k b (Function.update s t v) = coef k b s := by
  simp [coef, Function.update_of_ne h1, Function.update_of_ne h2]

theorem op_phase_phase {k k' : Key Q} {b b' : PhaseShard} (h : b.inv = false) (h' : b'.inv = false) (ψ : St Q) :
    op k b (op k' b' ψ) = op k' b' (op k b ψ) := by
  simp only [op_phase h, op_phase h']
  funext s; ring

/-- A gate on `t`, under any condition, commutes with a diagonal buffer that does not involve `t`. -/
theorem onWhen_op_phase {k : Key Q} {b : PhaseShard} (h : b.inv = false) {p : (Q → Bool) → Bool} {t : Q}
    (h1 : k.ctrl ≠ t) (h2 : k.tgt ≠ t) (a : Mtrx) (ψ : St Q) :
    onWhen p t a (op k b ψ) = op k b (onWhen p t a ψ) := by
  simp only [op_phase h]
  exact onWhen_diag (coef_update h1 h2) a ψ

/-- A gate on `t` whose condition does not look at the target commutes with a buffer that does not involve `t`. -/
theorem onWhen_op {k : Key Q} {b : PhaseShard} {p : (Q → Bool) → Bool} {t : Q}
    (h1 : k.ctrl ≠ t) (h2 : k.tgt ≠ t) (hp : b.inv = true → Indep p k.tgt) (a : Mtrx) (ψ : St Q) :
    onWhen p t a (op k b ψ) = op k b (onWhen p t a ψ) := by
  cases h : b.inv
  · exact onWhen_op_phase h h1 h2 a ψ
  · exact onWhen_comm h2.symm (hp h) (indep_key h1) _ _ ψ

/-- A diagonal gate, under a condition, commutes with a buffer whose target it does not flip nor look at. -/
theorem onWhen_diagonal_op {k : Key Q} {b : PhaseShard} {p : (Q → Bool) → Bool} {t : Q} {x y : ℂ}
    (hp : b.inv = true → Indep p k.tgt ∧ k.tgt ≠ t) (ψ : St Q) :
    onWhen p t ⟨x, 0, 0, y⟩ (op k b ψ) = op k b (onWhen p t ⟨x, 0, 0, y⟩ ψ) := by
  have e : ∀ ψ : St Q, onWhen p t ⟨x, 0, 0, y⟩ ψ = fun s => (if p s then (if s t then y else x) else 1) * ψ s := by
    intro ψ; funext s
    unfold onWhen
    split
    · rcases Bool.eq_false_or_eq_true (s t) with h | h <;> simp [h, onQubit_true, onQubit_false]
    · simp
  simp only [e]
  cases h : b.inv
  · simp only [op_phase h]; funext s; ring
  · obtain ⟨h1, h2⟩ := hp h
    refine (onWhen_diag (f := fun s => if p s then (if s t then y else x) else 1) ?_ _ ψ).symm
    intro s v
    rw [h1, Function.update_of_ne h2.symm]

/-! ### The invariant -/

/-- What `QUnit` maintains: a buffer joins two different qubits; its entries have modulus one; the target of an inverting
buffer takes part in no other buffer. -/
structure Inv (m : Bufs Q) : Prop where
  ne : ∀ k b, m k = some b → k.ctrl ≠ k.tgt
  unit : ∀ k b, m k = some b → ‖b.diff‖ = 1 ∧ ‖b.same‖ = 1
  alone : ∀ k b, m k = some b → b.inv = true → ∀ k' b', m k' = some b' → k' ≠ k → k'.ctrl ≠ k.tgt ∧ k'.tgt ≠ k.tgt

theorem Inv.comm {m : Bufs Q} (h : Inv m) {k k' : Key Q} (hk : k ≠ k') (ψ : St Q) :
    opO k (m k) (opO k' (m k') ψ) = opO k' (m k') (opO k (m k) ψ) := by
  cases e : m k with
  | none => rfl
  | some b =>
    cases e' : m k' with
    | none => rfl
    | some b' =>
      show op k b (op k' b' ψ) = op k' b' (op k b ψ)
      cases hi : b.inv
      · cases hi' : b'.inv
        · exact op_phase_phase hi hi' ψ
        · obtain ⟨h1, h2⟩ := h.alone k' b' e' hi' k b e hk
          exact (onWhen_op_phase hi h1 h2 _ ψ).symm
      · obtain ⟨h1, h2⟩ := h.alone k b e hi k' b' e' hk.symm
        refine onWhen_op h1 h2 (fun hi' => ?_) _ ψ
        exact indep_key (h.alone k' b' e' hi' k b e hk).1

/-! ### Folding over the places -/

theorem fold_keys_perm {m : Bufs Q} (h : Inv m) {l l' : List (Key Q)} (hl : l.Perm l') (ψ : St Q) :
    l.foldl (fun ψ k => opO k (m k) ψ) ψ = l'.foldl (fun ψ k => opO k (m k) ψ) ψ := by
  refine List.Perm.foldl_eq' hl (fun x _ y _ z => ?_) ψ
  by_cases e : x = y
  · rw [e]
  · exact (h.comm e z).symm

/-- `ord` lists every qubit once. -/
structure Order (ord : List Q) : Prop where
  nodup : ord.Nodup
  all : ∀ q, q ∈ ord

theorem Order.mem_keys {ord : List Q} (h : Order ord) (k : Key Q) : k ∈ keys ord := by
  unfold keys
  simp only [List.mem_flatMap]
  refine ⟨k.ctrl, h.all _, k.tgt, h.all _, ?_⟩
  rcases k with ⟨a, c, t⟩
  cases a <;> simp

theorem Order.nodup_keys {ord : List Q} (h : Order ord) : (keys ord).Nodup := by
  unfold keys
  rw [List.nodup_flatMap]
  refine ⟨fun c _ => ?_, ?_⟩
  · rw [List.nodup_flatMap]
    refine ⟨fun t _ => by simp, ?_⟩
    refine h.nodup.imp ?_
    intro a b hab x hx hy
    simp only [List.mem_cons, List.not_mem_nil, or_false] at hx hy
    apply hab
    rcases hx with rfl | rfl <;> simp at hy <;> exact hy
  · refine h.nodup.imp ?_
    intro a b hab x hx hy
    simp only [List.mem_flatMap, List.mem_cons, List.not_mem_nil, or_false] at hx hy
    obtain ⟨t, _, hx⟩ := hx
    obtain ⟨t', _, hy⟩ := hy
    apply hab
    rcases hx with rfl | rfl <;> simp at hy <;> exact hy.1

theorem fold_congr {m m' : Bufs Q} {l : List (Key Q)} (h : ∀ k ∈ l, m k = m' k) (ψ : St Q) :
    l.foldl (fun ψ k => opO k (m k) ψ) ψ = l.foldl (fun ψ k => opO k (m' k) ψ) ψ := by
  induction l generalizing ψ with
  | nil => rfl
  | cons x l ih =>
    rw [List.foldl_cons, List.foldl_cons, h x (by simp), ih fun k hk => h k (by simp [hk])]

variable {ord : List Q}

theorem pending_split (ho : Order ord) {m : Bufs Q} (h : Inv m) (k : Key Q) (ψ : St Q) :
    pending ord m ψ = ((keys ord).erase k).foldl (fun ψ k => opO k (m k) ψ) (opO k (m k) ψ) := by
  unfold pending
  rw [fold_keys_perm h (List.perm_cons_erase (ho.mem_keys k)), List.foldl_cons]

theorem pending_split' (ho : Order ord) {m : Bufs Q} (h : Inv m) (k : Key Q) (ψ : St Q) :
    pending ord m ψ = opO k (m k) (((keys ord).erase k).foldl (fun ψ k => opO k (m k) ψ) ψ) := by
  unfold pending
  have : (keys ord).Perm ((keys ord).erase k ++ [k]) :=
    (List.perm_cons_erase (ho.mem_keys k)).trans (List.perm_append_singleton _ _).symm
  rw [fold_keys_perm h this, List.foldl_append]
  rfl

theorem rest_eq (ho : Order ord) (m : Bufs Q) (k : Key Q) (x : Option PhaseShard) (ψ : St Q) :
    ((keys ord).erase k).foldl (fun ψ k' => opO k' (Function.update m k x k') ψ) ψ =
      ((keys ord).erase k).foldl (fun ψ k' => opO k' (m k') ψ) ψ := by
  refine fold_congr (fun k' hk' => ?_) ψ
  have : k' ≠ k := by
    rintro rfl
    exact ho.nodup_keys.not_mem_erase hk'
  rw [Function.update_of_ne this]

/-- The buffers away from `k`. -/
def rest (ord : List Q) (m : Bufs Q) (k : Key Q) (ψ : St Q) : St Q :=
  ((keys ord).erase k).foldl (fun ψ k' => opO k' (m k') ψ) ψ

theorem pending_outer (ho : Order ord) {m : Bufs Q} (h : Inv m) (k : Key Q) (ψ : St Q) :
    pending ord m ψ = opO k (m k) (rest ord m k ψ) := pending_split' ho h k ψ

theorem pending_inner (ho : Order ord) {m : Bufs Q} (h : Inv m) (k : Key Q) (ψ : St Q) :
    pending ord m ψ = rest ord m k (opO k (m k) ψ) := pending_split ho h k ψ

theorem pending_update (ho : Order ord) {m : Bufs Q} {k : Key Q} {x : Option PhaseShard}
    (h : Inv (Function.update m k x)) (ψ : St Q) :
    pending ord (Function.update m k x) ψ = opO k x (rest ord m k ψ) := by
  rw [pending_outer ho h k, Function.update_self]
  congr 1
  exact rest_eq ho m k x ψ

theorem pending_update_inner (ho : Order ord) {m : Bufs Q} {k : Key Q} {x : Option PhaseShard}
    (h : Inv (Function.update m k x)) (ψ : St Q) :
    pending ord (Function.update m k x) ψ = rest ord m k (opO k x ψ) := by
  rw [pending_inner ho h k, Function.update_self]
  exact rest_eq ho m k x _

theorem Inv.remove {m : Bufs Q} (h : Inv m) (k : Key Q) : Inv (remove m k) := by
  have e : ∀ {k' b}, Phase.remove m k k' = some b → m k' = some b := by
    intro k' b
    unfold Phase.remove
    by_cases hk : k' = k
    · rw [hk, Function.update_self]; simp
    · rw [Function.update_of_ne hk]; exact id
  exact ⟨fun k' b hb => h.ne k' b (e hb), fun k' b hb => h.unit k' b (e hb),
    fun k' b hb hi k'' b'' hb'' => h.alone k' b (e hb) hi k'' b'' (e hb'')⟩

theorem pending_remove (ho : Order ord) {m : Bufs Q} (h : Inv m) (k : Key Q) (ψ : St Q) :
    pending ord m ψ = opO k (m k) (pending ord (remove m k) ψ) := by
  rw [pending_outer ho h k, show Phase.remove m k = Function.update m k none from rfl,
    pending_update ho (h.remove k)]
  rfl

theorem pending_remove_inner (ho : Order ord) {m : Bufs Q} (h : Inv m) (k : Key Q) (ψ : St Q) :
    pending ord m ψ = pending ord (remove m k) (opO k (m k) ψ) := by
  rw [pending_inner ho h k, show Phase.remove m k = Function.update m k none from rfl,
    pending_update_inner ho (h.remove k)]
  rfl

/-- Conjugation: when a gate turns the buffer at `k` into the buffer of `m'` at `σ k`, it can be taken through all. -/
theorem pending_conj (ho : Order ord) {m m' : Bufs Q} (h' : Inv m') (σ : Key Q → Key Q) (hσ : Function.Injective σ)
    (hσ' : Function.Surjective σ)
    (G : St Q → St Q) (hG : ∀ k ψ, opO (σ k) (m' (σ k)) (G ψ) = G (opO k (m k) ψ)) (ψ : St Q) :
    pending ord m' (G ψ) = G (pending ord m ψ) := by
  have hperm : ((keys ord).map σ).Perm (keys ord) := by
    refine (List.perm_ext_iff_of_nodup (ho.nodup_keys.map hσ) ho.nodup_keys).mpr fun k => ?_
    constructor
    · intro _; exact ho.mem_keys k
    · intro _
      obtain ⟨j, rfl⟩ := hσ' k
      exact List.mem_map_of_mem (ho.mem_keys j)
  unfold pending
  rw [← fold_keys_perm h' hperm]
  clear hperm ho
  induction keys ord generalizing ψ with
  | nil => rfl
  | cons x l ih => rw [List.map_cons, List.foldl_cons, List.foldl_cons, hG, ih]

theorem pending_through (ho : Order ord) {m : Bufs Q} (h : Inv m)
    (G : St Q → St Q) (hG : ∀ k b, m k = some b → ∀ ψ, op k b (G ψ) = G (op k b ψ)) (ψ : St Q) :
    pending ord m (G ψ) = G (pending ord m ψ) := by
  refine pending_conj ho h id Function.injective_id Function.surjective_id G (fun k ψ => ?_) ψ
  cases e : m k with
  | none => simp only [id, e]; rfl
  | some b => simp only [id, e]; exact hG k b e ψ

theorem pending_none {m : Bufs Q} (h : ∀ k, m k = none) (ψ : St Q) : pending ord m ψ = ψ := by
  unfold pending
  induction keys ord with
  | nil => rfl
  | cons x l ih => rw [List.foldl_cons, h x]; exact ih

end Verif.Phase
