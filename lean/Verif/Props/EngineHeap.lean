import Verif.Model.EngineHeap
import Verif.Model.EngineArith

/-!
# C25: clones are independent
-/

namespace Verif.Engine

open Classical

/-- No two objects share an array. -/
structure World.Separate (w : World) : Prop where
  allocated : ∀ x p, (w.objs x).ptr = some p → p < w.next
  exist : ∀ x, w.count ≤ x → (w.objs x).ptr = none
  alone : ∀ x y p, (w.objs x).ptr = some p → (w.objs y).ptr = some p → x = y

/-- The objects given to an operation. -/
def Op.args : Op → List ℕ
  | .inPlace x _ => [x]
  | .fresh x _ => [x]
  | .zero x => [x]
  | .inPlaceFrom x y _ => [x, y]
  | .shuffle x y _ => [x, y]
  | .compose x y _ => [x, y]
  | .decompose x y _ => [x, y]
  | .decomposeAll x y => [x, y]
  | .cloneEmpty x => [x]
  | .clone x => [x]
  | .copy x => [x]

/-- The objects an operation may change. -/
def Op.changes : Op → List ℕ
  | .inPlaceFrom x _ _ => [x]
  | .cloneEmpty _ => []
  | .clone _ => []
  | .copy _ => []
  | op => op.args

def Op.isCopy : Op → Prop
  | .copy _ => True
  | _ => False

/-- A history in which every operation is given existing objects, and `Copy` is not used. -/
def World.Possible : World → List Op → Prop
  | _, [] => True
  | w, op :: ops => (∀ x ∈ op.args, x < w.count) ∧ ¬ op.isCopy ∧ (w.run op).Possible ops

theorem putFresh_separate {w : World} (hw : w.Separate) {x : ℕ} (hx : x < w.count) (e : Eng) :
    (w.putFresh x e).Separate := by
  unfold World.putFresh
  refine ⟨?_, ?_, ?_⟩
  · intro y p hp
    simp only [] at hp ⊢
    by_cases h : y = x
    · subst h; rw [Function.update_self] at hp
      simp only [Eng.obj, Option.some.injEq] at hp; omega
    · rw [Function.update_of_ne h] at hp
      have := hw.allocated y p hp; omega
  · intro y hy
    have hy : w.count ≤ y := hy
    simp only []
    rw [Function.update_of_ne (by omega)]
    exact hw.exist y hy
  · intro y z p hy hz
    simp only [] at hy hz
    by_cases h : y = x
    · by_cases h' : z = x
      · rw [h, h']
      · subst h
        rw [Function.update_self] at hy; rw [Function.update_of_ne h'] at hz
        simp only [Eng.obj, Option.some.injEq] at hy
        have := hw.allocated z p hz; omega
    · by_cases h' : z = x
      · subst h'
        rw [Function.update_self] at hz; rw [Function.update_of_ne h] at hy
        simp only [Eng.obj, Option.some.injEq] at hz
        have := hw.allocated y p hy; omega
      · rw [Function.update_of_ne h] at hy; rw [Function.update_of_ne h'] at hz
        exact hw.alone y z p hy hz

theorem setObj_separate {w : World} (hw : w.Separate) {x : ℕ} (hx : x < w.count) (o : Obj) (heap : ℕ → ℕ → ℂ)
    (ho : o.ptr = (w.objs x).ptr ∨ o.ptr = none) :
    ({ w with heap := heap, objs := Function.update w.objs x o } : World).Separate := by
  have key : ∀ y p, (Function.update w.objs x o y).ptr = some p → (w.objs y).ptr = some p := by
    intro y p hp
    by_cases h : y = x
    · subst h; rw [Function.update_self] at hp
      rcases ho with ho | ho
      · rw [← ho, hp]
      · rw [ho] at hp; cases hp
    · rwa [Function.update_of_ne h] at hp
  refine ⟨fun y p hp => hw.allocated y p (key y p hp), ?_, fun y z p hy hz => hw.alone y z p (key y p hy) (key z p hz)⟩
  intro y hy
  have hy : w.count ≤ y := hy
  show (Function.update w.objs x o y).ptr = none
  rw [Function.update_of_ne (by omega)]
  exact hw.exist y hy

theorem put_separate {w : World} (hw : w.Separate) {x : ℕ} (hx : x < w.count) (e : Eng) : (w.put x e).Separate := by
  unfold World.put
  split
  · exact putFresh_separate hw hx e
  · rename_i p hp
    exact setObj_separate hw hx _ _ (Or.inl (by rw [hp]; rfl))

theorem put_count (w : World) (x : ℕ) (e : Eng) : (w.put x e).count = w.count := by
  unfold World.put World.putFresh
  split <;> rfl

/-- Storing a result does not change what is seen through another object. -/
theorem seen_putFresh {w : World} (hw : w.Separate) {x y : ℕ} (hxy : y ≠ x) (e : Eng) :
    (w.putFresh x e).seen y = w.seen y := by
  unfold World.putFresh World.seen
  simp only []
  rw [Function.update_of_ne hxy]
  cases hp : (w.objs y).ptr with
  | none => rfl
  | some p =>
    have := hw.allocated y p hp
    simp only []
    rw [Function.update_of_ne (by omega)]

theorem seen_put {w : World} (hw : w.Separate) {x y : ℕ} (hxy : y ≠ x) (e : Eng) : (w.put x e).seen y = w.seen y := by
  unfold World.put
  split
  · exact seen_putFresh hw hxy e
  · rename_i p hp
    unfold World.seen
    simp only []
    rw [Function.update_of_ne hxy]
    cases hq : (w.objs y).ptr with
    | none => rfl
    | some q =>
      have : q ≠ p := fun h => hxy (hw.alone y x p (by rw [hq, h]) hp)
      simp only []
      rw [Function.update_of_ne this]

theorem seen_setObj {w : World} {x y : ℕ} (hxy : y ≠ x) (o : Obj) (n : ℕ) :
    ({ w with objs := Function.update w.objs x o, count := n } : World).seen y = w.seen y := by
  unfold World.seen
  simp only []
  rw [Function.update_of_ne hxy]

theorem addObj_separate {w : World} (hw : w.Separate) (o : Obj) (ho : o.ptr = none) :
    ({ w with objs := Function.update w.objs w.count o, count := w.count + 1 } : World).Separate := by
  have key : ∀ y p, (Function.update w.objs w.count o y).ptr = some p → (w.objs y).ptr = some p := by
    intro y p hp
    by_cases h : y = w.count
    · subst h; rw [Function.update_self, ho] at hp; cases hp
    · rwa [Function.update_of_ne h] at hp
  refine ⟨fun y p hp => hw.allocated y p (key y p hp), ?_, fun y z p hy hz => hw.alone y z p (key y p hy) (key z p hz)⟩
  intro y hy
  have hy : w.count + 1 ≤ y := hy
  show (Function.update w.objs w.count o y).ptr = none
  rw [Function.update_of_ne (by omega)]
  exact hw.exist y (by omega)

theorem clone_separate {w : World} (hw : w.Separate) (x : ℕ) : (w.clone x).Separate := by
  unfold World.clone
  split
  · exact addObj_separate hw _ rfl
  · have hw' : ({ w with count := w.count + 1 } : World).Separate :=
      ⟨hw.allocated, fun y hy => hw.exist y (by have : w.count + 1 ≤ y := hy; omega), hw.alone⟩
    exact putFresh_separate hw' (x := w.count) (Nat.lt_succ_self _) (w.seen x)

/-- C25. Every operation except `Copy` keeps the arrays of the objects separate. -/
theorem run_separate {w : World} (hw : w.Separate) {op : Op} (ha : ∀ x ∈ op.args, x < w.count) (hc : ¬ op.isCopy) :
    (w.run op).Separate ∧ w.count ≤ (w.run op).count := by
  cases op with
  | inPlace x F =>
    unfold World.run; simp only []
    cases F (w.seen x) with
    | none => exact ⟨hw, le_rfl⟩
    | some e => exact ⟨put_separate hw (ha x (by simp [Op.args])) e, (put_count _ _ _).ge⟩
  | fresh x F =>
    unfold World.run; simp only []
    cases F (w.seen x) with
    | none => exact ⟨hw, le_rfl⟩
    | some e => exact ⟨putFresh_separate hw (ha x (by simp [Op.args])) e, le_rfl⟩
  | zero x => exact ⟨setObj_separate hw (ha x (by simp [Op.args])) _ _ (Or.inr rfl), le_rfl⟩
  | inPlaceFrom x y F =>
    unfold World.run; simp only []
    cases F (w.seen x) (w.seen y) with
    | none => exact ⟨hw, le_rfl⟩
    | some e => exact ⟨put_separate hw (ha x (by simp [Op.args])) e, (put_count _ _ _).ge⟩
  | shuffle x y F =>
    unfold World.run; simp only []
    cases F (w.seen x) (w.seen y) with
    | none => exact ⟨hw, le_rfl⟩
    | some r =>
      refine ⟨put_separate (put_separate hw (ha x (by simp [Op.args])) r.1) ?_ r.2, ?_⟩
      · rw [put_count]; exact ha y (by simp [Op.args])
      · show w.count ≤ (World.put _ _ _).count
        rw [put_count, put_count]
  | compose x y F =>
    unfold World.run; simp only []
    cases F (w.seen x) (w.seen y) with
    | none => exact ⟨hw, le_rfl⟩
    | some r =>
      refine ⟨putFresh_separate (put_separate hw (ha y (by simp [Op.args])) r.2) ?_ r.1, ?_⟩
      · rw [put_count]; exact ha x (by simp [Op.args])
      · show w.count ≤ (w.put y r.2).count
        rw [put_count]
  | decompose x y F =>
    unfold World.run; simp only []
    cases F (w.seen x) (w.seen y) with
    | none => exact ⟨hw, le_rfl⟩
    | some r =>
      refine ⟨putFresh_separate (put_separate hw (ha y (by simp [Op.args])) r.2) ?_ r.1, ?_⟩
      · rw [put_count]; exact ha x (by simp [Op.args])
      · show w.count ≤ (w.put y r.2).count
        rw [put_count]
  | decomposeAll x y =>
    have hx := ha x (by simp [Op.args])
    have hy := ha y (by simp [Op.args])
    refine ⟨?_, le_rfl⟩
    unfold World.run; simp only []
    have key : ∀ z p, (Function.update (Function.update w.objs y { w.objs y with ptr := (w.objs x).ptr }) x
        { Function.update w.objs y { w.objs y with ptr := (w.objs x).ptr } x with n := 0, ptr := none } z).ptr = some p →
        (w.objs (if z = y then x else z)).ptr = some p ∧ z ≠ x := by
      intro z p hp
      by_cases h : z = x
      · subst h; rw [Function.update_self] at hp; cases hp
      · rw [Function.update_of_ne h] at hp
        by_cases h' : z = y
        · subst h'; rw [Function.update_self] at hp
          rw [if_pos rfl]; exact ⟨hp, h⟩
        · rw [Function.update_of_ne h'] at hp
          rw [if_neg h']; exact ⟨hp, h⟩
    refine ⟨fun z p hp => hw.allocated _ p (key z p hp).1, ?_, ?_⟩
    · intro z hz
      have hz : w.count ≤ z := hz
      show (Function.update (Function.update w.objs y _) x _ z).ptr = none
      rw [Function.update_of_ne (by omega), Function.update_of_ne (by omega)]
      exact hw.exist z hz
    · intro z z' p hz hz'
      have k1 := key z p hz
      have k2 := key z' p hz'
      have := hw.alone _ _ p k1.1 k2.1
      by_cases h : z = y <;> by_cases h' : z' = y
      · rw [h, h']
      · rw [if_pos h, if_neg h'] at this; exact absurd this.symm k2.2
      · rw [if_neg h, if_pos h'] at this; exact absurd this k1.2
      · rwa [if_neg h, if_neg h'] at this
  | cloneEmpty x => exact ⟨addObj_separate hw _ rfl, Nat.le_succ _⟩
  | clone x =>
    refine ⟨clone_separate hw x, ?_⟩
    show w.count ≤ (w.clone x).count
    unfold World.clone
    split <;> exact Nat.le_succ _
  | copy x => exact absurd trivial hc

/-- C25. An operation changes nothing seen through an object it is not allowed to change. -/
theorem run_other {w : World} (hw : w.Separate) {op : Op} (ha : ∀ x ∈ op.args, x < w.count) (hc : ¬ op.isCopy) {z : ℕ}
    (hz : z < w.count) (hn : z ∉ op.changes) : (w.run op).seen z = w.seen z := by
  cases op with
  | inPlace x F =>
    unfold World.run; simp only []
    cases F (w.seen x) with
    | none => rfl
    | some e => exact seen_put hw (by simpa [Op.changes, Op.args] using hn) e
  | fresh x F =>
    unfold World.run; simp only []
    cases F (w.seen x) with
    | none => rfl
    | some e => exact seen_putFresh hw (by simpa [Op.changes, Op.args] using hn) e
  | zero x => exact seen_setObj (by simpa [Op.changes, Op.args] using hn) _ _
  | inPlaceFrom x y F =>
    unfold World.run; simp only []
    cases F (w.seen x) (w.seen y) with
    | none => rfl
    | some e => exact seen_put hw (by simpa [Op.changes, Op.args] using hn) e
  | shuffle x y F =>
    have hn : ¬ (z = x ∨ z = y) := by simpa [Op.changes, Op.args] using hn
    push Not at hn
    unfold World.run; simp only []
    cases F (w.seen x) (w.seen y) with
    | none => rfl
    | some r =>
      show (World.put (w.put x r.1) y r.2).seen z = _
      rw [seen_put (put_separate hw (ha x (by simp [Op.args])) r.1) hn.2, seen_put hw hn.1]
  | compose x y F =>
    have hn : ¬ (z = x ∨ z = y) := by simpa [Op.changes, Op.args] using hn
    push Not at hn
    unfold World.run; simp only []
    cases F (w.seen x) (w.seen y) with
    | none => rfl
    | some r =>
      show (World.putFresh (w.put y r.2) x r.1).seen z = _
      rw [seen_putFresh (put_separate hw (ha y (by simp [Op.args])) r.2) hn.1, seen_put hw hn.2]
  | decompose x y F =>
    have hn : ¬ (z = x ∨ z = y) := by simpa [Op.changes, Op.args] using hn
    push Not at hn
    unfold World.run; simp only []
    cases F (w.seen x) (w.seen y) with
    | none => rfl
    | some r =>
      show (World.putFresh (w.put y r.2) x r.1).seen z = _
      rw [seen_putFresh (put_separate hw (ha y (by simp [Op.args])) r.2) hn.1, seen_put hw hn.2]
  | decomposeAll x y =>
    have hn : ¬ (z = x ∨ z = y) := by simpa [Op.changes, Op.args] using hn
    push Not at hn
    unfold World.run World.seen; simp only []
    rw [Function.update_of_ne hn.1, Function.update_of_ne hn.2]
  | cloneEmpty x => exact seen_setObj (by omega) _ _
  | clone x =>
    unfold World.run World.clone; simp only []
    split
    · exact seen_setObj (by omega) _ _
    · exact seen_putFresh hw (by omega) (w.seen x)
  | copy x => exact absurd trivial hc

/-- C25. A whole history changes nothing seen through an object none of its operations is allowed to change. -/
theorem history_other : ∀ (ops : List Op) (w : World), w.Separate → w.Possible ops → ∀ z, z < w.count →
    (∀ op ∈ ops, z ∉ op.changes) → (ops.foldl World.run w).seen z = w.seen z
  | [], _, _, _, _, _, _ => rfl
  | op :: ops, w, hw, hp, z, hz, hn => by
    obtain ⟨h1, h2⟩ := run_separate hw hp.1 hp.2.1
    rw [List.foldl_cons, history_other ops _ h1 hp.2.2 z (lt_of_lt_of_le hz h2) (fun o ho => hn o (by simp [ho])),
      run_other hw hp.1 hp.2.1 hz (hn op (by simp))]

/-- C25. The clone shows the same state as the original (including the running norm when there is an array). -/
theorem clone_same {w : World} (x : ℕ) :
    ((w.clone x).seen w.count).n = (w.seen x).n ∧ ((w.clone x).seen w.count).amp = (w.seen x).amp ∧
    ((w.objs x).ptr ≠ none → (w.clone x).seen w.count = w.seen x) := by
  unfold World.clone
  split
  · rename_i hp
    unfold World.cloneEmpty World.seen
    simp only [Function.update_self]
    refine ⟨trivial, by rw [hp], fun h => absurd hp h⟩
  · rename_i p hp
    have : ({ w.putFresh w.count (w.seen x) with count := w.count + 1 } : World).seen w.count = w.seen x := by
      unfold World.putFresh World.seen Eng.obj
      simp only [Function.update_self]
    rw [this]
    exact ⟨rfl, rfl, fun _ => rfl⟩

/-- C25. After a clone, no history of operations on the original changes what is seen through the clone, and no history of
operations on the clone changes what is seen through the original. -/
theorem clone_independent {w : World} (hw : w.Separate) {x : ℕ} (hx : x < w.count) (ops : List Op)
    (hp : (w.clone x).Possible ops) :
    ((∀ op ∈ ops, w.count ∉ op.changes) → (ops.foldl World.run (w.clone x)).seen w.count = (w.clone x).seen w.count) ∧
    ((∀ op ∈ ops, x ∉ op.changes) → (ops.foldl World.run (w.clone x)).seen x = w.seen x) := by
  have hcount : (w.clone x).count = w.count + 1 := by
    unfold World.clone; split <;> rfl
  constructor
  · intro h
    exact history_other ops _ (clone_separate hw x) hp _ (by omega) h
  · intro h
    rw [history_other ops _ (clone_separate hw x) hp x (by omega) h]
    exact run_other hw (op := .clone x) (by simpa [Op.args] using hx) (by simp [Op.isCopy]) hx (by simp [Op.changes])

/-- Against C25 for `Copy`: whatever is then done in place to the original happens to the copy as well. -/
theorem copy_aliases (w : World) {x : ℕ} (hx : x < w.count) {p : ℕ} (hp : (w.objs x).ptr = some p) (F : Eng → Option Eng)
    {e : Eng} (hF : F (w.seen x) = some e) :
    ((w.copy x).seen w.count).amp = (w.seen x).amp ∧
    (((w.copy x).run (.inPlace x F)).seen w.count).amp = e.amp := by
  have h1 : (w.copy x).objs x = w.objs x := by
    unfold World.copy World.cloneEmpty
    simp only []
    rw [Function.update_of_ne (by omega), Function.update_of_ne (by omega)]
  have h2 : ((w.copy x).objs w.count).ptr = some p := by
    unfold World.copy World.cloneEmpty
    simp only [Function.update_self]
    exact hp
  have hheap : (w.copy x).heap = w.heap := rfl
  have hseen : (w.copy x).seen x = w.seen x := by
    unfold World.seen; rw [h1, hheap]
  constructor
  · unfold World.seen
    simp only []
    rw [h2, hp, hheap]
  · unfold World.run
    simp only []
    rw [hseen, hF]
    simp only []
    unfold World.put
    rw [h1, hp]
    unfold World.seen
    simp only []
    rw [Function.update_of_ne (by omega), h2]
    simp only []
    rw [Function.update_self]

/-- Beyond C25. The copy has running norm zero, so with automatic normalisation its next operation loses the state. -/
theorem copy_norm_wrong (w : World) (x : ℕ) (σ : List ℕ → List ℕ) (hd : (w.objs x).doNorm = true) :
    ((w.copy x).seen w.count).rn = 0 ∧ (normIf σ ((w.copy x).seen w.count)).amp = fun _ => 0 := by
  have hr : ((w.copy x).seen w.count).rn = 0 := by
    unfold World.seen World.copy World.cloneEmpty
    simp only [Function.update_self]
  have hd' : ((w.copy x).seen w.count).doNorm = true := by
    unfold World.seen World.copy World.cloneEmpty
    simp only [Function.update_self]
    exact hd
  refine ⟨hr, ?_⟩
  unfold normIf
  rw [if_pos hd']
  unfold normalizeState
  have : ¬ ((w.copy x).seen w.count).rn = defaultArg := by rw [hr]; unfold defaultArg; norm_num
  simp only [this, if_false]
  rw [if_pos hr.le]

/-! ### Examples -/

/-- One engine of two qubits in the state `(3/5, 0, 0, 4/5)`. -/
noncomputable def exWorld : World where
  heap := fun p i => if p = 0 then (if i = 0 then 3 / 5 else if i = 3 then 4 / 5 else 0) else 0
  next := 1
  objs := fun x => { n := 2, ptr := if x = 0 then some 0 else none, rn := 1, doNorm := false, rgp := false, floor := 0 }
  count := 1

theorem exWorld_separate : exWorld.Separate := by
  refine ⟨?_, ?_, ?_⟩
  · intro x p hp
    by_cases h : x = 0
    · simp [exWorld, h] at hp; simp [exWorld]; omega
    · simp [exWorld, h] at hp
  · intro x hx
    have hx : 1 ≤ x := hx
    simp [exWorld, show x ≠ 0 by omega]
  · intro x y p hx hy
    by_cases h : x = 0 <;> by_cases h' : y = 0
    · rw [h, h']
    · simp [exWorld, h'] at hy
    · simp [exWorld, h] at hx
    · simp [exWorld, h] at hx

/-- Clone, then an X gate in place, an increment into a new array, and a clone of the clone: the first clone still shows the
old state. -/
example : let w := exWorld.clone 0
    let ops := [Op.inPlace 0 (fun e => mtrx id e ⟨0, 1, 1, 0⟩ 1), Op.fresh 0 (fun e => incE id (fun _ => 0) e 1 0 2), Op.clone 1, Op.zero 2]
    (ops.foldl World.run w).seen 1 = exWorld.seen 0 := by
  intro w ops
  have hp : w.Possible ops := by
    have hc : w.count = 2 := by
      show (exWorld.clone 0).count = 2
      unfold World.clone; split <;> rfl
    refine ⟨by simp [Op.args, hc], by simp [Op.isCopy], ?_⟩
    have h1 : (w.run (Op.inPlace 0 (fun e => mtrx id e ⟨0, 1, 1, 0⟩ 1))).count = 2 := by
      unfold World.run; simp only []
      split
      · exact hc
      · rw [put_count]; exact hc
    refine ⟨by simp [Op.args, h1], by simp [Op.isCopy], ?_⟩
    have h2 : ((w.run (Op.inPlace 0 (fun e => mtrx id e ⟨0, 1, 1, 0⟩ 1))).run
        (Op.fresh 0 (fun e => incE id (fun _ => 0) e 1 0 2))).count = 2 := by
      unfold World.run; simp only []
      split
      · exact h1
      · exact h1
    refine ⟨by simp [Op.args, h2], by simp [Op.isCopy], ?_⟩
    refine ⟨?_, by simp [Op.isCopy], trivial⟩
    intro y hy
    have hy : y = 2 := by simpa [Op.args] using hy
    subst hy
    have h3 : ∀ w' : World, w'.count = 2 → (w'.run (Op.clone 1)).count = 3 := by
      intro w' h
      show (w'.clone 1).count = 3
      unfold World.clone
      split
      · show w'.count + 1 = 3; omega
      · show w'.count + 1 = 3; omega
    rw [h3 _ h2]; norm_num
  have := (clone_independent exWorld_separate (x := 0) (by simp [exWorld]) ops hp).1
    (by simp [ops, Op.changes, Op.args, exWorld])
  refine Eq.trans this ?_
  exact (clone_same 0).2.2 (by simp [exWorld])

end Verif.Engine
