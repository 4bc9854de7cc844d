import Verif.Model.Race
import Verif.Lemmas.Engine
import Mathlib.Logic.Relation

/-!
Helper lemmas: programs without data races give the same result in every interleaving.
-/

namespace Verif.Race

open Verif.Engine Verif.ParFor Classical

variable {α V : Type} [DecidableEq α]

/-- The program can write the cell. -/
inductive Prog.Writes : Prog α V → α → Prop
  | here (i : α) (v : V) (p : Prog α V) : Prog.Writes (.write i v p) i
  | write (i j : α) (v : V) (p : Prog α V) : Prog.Writes p j → Prog.Writes (.write i v p) j
  | read (i j : α) (k : V → Prog α V) (v : V) : Prog.Writes (k v) j → Prog.Writes (.read i k) j

/-- The program can read the cell. -/
inductive Prog.Reads : Prog α V → α → Prop
  | here (i : α) (k : V → Prog α V) : Prog.Reads (.read i k) i
  | write (i j : α) (v : V) (p : Prog α V) : Prog.Reads p j → Prog.Reads (.write i v p) j
  | read (i j : α) (k : V → Prog α V) (v : V) : Prog.Reads (k v) j → Prog.Reads (.read i k) j

/-- No cell that one of the programs writes is read or written by the other. -/
def Apart (p q : Prog α V) : Prop :=
  ∀ i, (p.Writes i → ¬ q.Writes i ∧ ¬ q.Reads i) ∧ (q.Writes i → ¬ p.Reads i)

/-- No two of the programs race. -/
def RaceFree (l : List (Prog α V)) : Prop := l.Pairwise Apart

theorem Apart.symm {p q : Prog α V} (h : Apart p q) : Apart q p :=
  fun i => ⟨fun hw => ⟨fun hp => ((h i).1 hp).1 hw, (h i).2 hw⟩, fun hw => ((h i).1 hw).2⟩

theorem run_off {p : Prog α V} {i : α} (h : ¬ p.Writes i) (s : α → V) : p.run s i = s i := by
  induction p generalizing s with
  | done => rfl
  | read j k ih =>
    rw [Prog.run]
    exact ih _ (fun hw => h (.read _ _ _ _ hw)) s
  | write j v p ih =>
    rw [Prog.run, ih (fun hw => h (.write _ _ _ _ hw)), Function.update_of_ne]
    rintro rfl
    exact h (.here _ _ _)

theorem run_update {p : Prog α V} {i : α} (hw : ¬ p.Writes i) (hr : ¬ p.Reads i) (s : α → V) (v : V) :
    p.run (Function.update s i v) = Function.update (p.run s) i v := by
  induction p generalizing s with
  | done => rfl
  | read j k ih =>
    have hne : j ≠ i := by rintro rfl; exact hr (.here _ _)
    rw [Prog.run, Prog.run, Function.update_of_ne hne]
    exact ih _ (fun h => hw (.read _ _ _ _ h)) (fun h => hr (.read _ _ _ _ h)) s
  | write j u p ih =>
    have hne : j ≠ i := by rintro rfl; exact hw (.here _ _ _)
    rw [Prog.run, Prog.run, ← ih (fun h => hw (.write _ _ _ _ h)) (fun h => hr (.write _ _ _ _ h)),
      Function.update_comm hne]

/-- One after the other. -/
noncomputable def runAll (s : α → V) (l : List (Prog α V)) : α → V := l.foldl (fun s p => p.run s) s

theorem runAll_off {l : List (Prog α V)} {i : α} (h : ∀ p ∈ l, ¬ p.Writes i) (s : α → V) : runAll s l i = s i := by
  induction l generalizing s with
  | nil => rfl
  | cons p l ih => rw [runAll, List.foldl_cons, ← runAll, ih (fun q hq => h q (by simp [hq])), run_off (h p (by simp))]

theorem runAll_update {l : List (Prog α V)} {i : α} (hw : ∀ p ∈ l, ¬ p.Writes i) (hr : ∀ p ∈ l, ¬ p.Reads i) (s : α → V) (v : V) :
    runAll (Function.update s i v) l = Function.update (runAll s l) i v := by
  induction l generalizing s with
  | nil => rfl
  | cons p l ih =>
    rw [runAll, List.foldl_cons, ← runAll, run_update (hw p (by simp)) (hr p (by simp)),
      ih (fun q hq => hw q (by simp [hq])) (fun q hq => hr q (by simp [hq]))]
    rfl

theorem runAll_append (s : α → V) (l l' : List (Prog α V)) : runAll s (l ++ l') = runAll (runAll s l) l' := List.foldl_append ..

theorem act_writes {s s' : α → V} {p p' : Prog α V} (h : Act s p s' p') {i : α} (hw : p'.Writes i) : p.Writes i := by
  cases h with
  | read i k => exact .read _ _ _ _ hw
  | write i v => exact .write _ _ _ _ hw

theorem act_reads {s s' : α → V} {p p' : Prog α V} (h : Act s p s' p') {i : α} (hw : p'.Reads i) : p.Reads i := by
  cases h with
  | read i k => exact .read _ _ _ _ hw
  | write i v => exact .write _ _ _ _ hw

theorem step_keeps {x y : (α → V) × List (Prog α V)} (h : Step x y) (hr : RaceFree x.2) :
    RaceFree y.2 ∧ runAll y.1 y.2 = runAll x.1 x.2 := by
  obtain ⟨l, l', h⟩ := h
  rename_i s s' p p'
  dsimp only at hr ⊢
  unfold RaceFree at hr ⊢
  rw [List.pairwise_append, List.pairwise_cons] at hr ⊢
  obtain ⟨h1, ⟨h2, h3⟩, h4⟩ := hr
  have hap : ∀ q, Apart p q → Apart p' q := fun q ha i =>
    ⟨fun hw => (ha i).1 (act_writes h hw), fun hw hr => (ha i).2 hw (act_reads h hr)⟩
  refine ⟨⟨h1, ⟨fun q hq => hap q (h2 q hq), h3⟩, fun q hq q' hq' => ?_⟩, ?_⟩
  · rcases List.mem_cons.1 hq' with rfl | hq'
    · exact (hap q (h4 q hq p (by simp)).symm).symm
    · exact h4 q hq q' (by simp [hq'])
  · rw [runAll_append, runAll_append, runAll, List.foldl_cons, ← runAll, runAll.eq_def (runAll s l), List.foldl_cons, ← runAll]
    congr 1
    have h4 : ∀ q ∈ l, Apart q p := fun q hq => h4 q hq p (by simp)
    cases h with
    | read i k =>
      rw [Prog.run, runAll_off fun q hq hw => (h4 q hq i).1 hw |>.2 (.here _ _)]
    | write i v =>
      rw [Prog.run, runAll_update (fun q hq hw => ((h4 q hq i).1 hw).1 (.here _ _ _))
        (fun q hq hw => (h4 q hq i).2 (.here _ _ _) hw)]

theorem runAll_done {s : α → V} {l : List (Prog α V)} (h : ∀ p ∈ l, p = .done) : runAll s l = s := by
  induction l with
  | nil => rfl
  | cons p l ih =>
    rw [runAll, List.foldl_cons, h p (by simp), ← runAll]
    exact ih fun q hq => h q (by simp [hq])

/-- Without races, every interleaving ends as the sequential execution. -/
theorem pool_eq {s s' : α → V} {l : List (Prog α V)} (hr : RaceFree l) (h : Pool s l s') : s' = runAll s l := by
  obtain ⟨l', h, hd⟩ := h
  have key : ∀ y, Relation.ReflTransGen Step (s, l) y → RaceFree y.2 ∧ runAll y.1 y.2 = runAll s l := by
    intro y hy
    induction hy with
    | refl => exact ⟨hr, rfl⟩
    | tail _ hs ih =>
      obtain ⟨a, b⟩ := step_keeps hs ih.1
      exact ⟨a, b.trans ih.2⟩
  have := (key _ h).2
  rw [← this]
  exact (runAll_done hd).symm

theorem run_steps (p : Prog α V) (s : α → V) (l l' : List (Prog α V)) :
    Relation.ReflTransGen Step (s, l ++ p :: l') (p.run s, l ++ .done :: l') := by
  induction p generalizing s with
  | done => exact .refl
  | read i k ih => exact .head (.mk l l' (.read s i k)) (ih _ s)
  | write i v p ih => exact .head (.mk l l' (.write s i v p)) (ih _)

/-- The sequential execution is one of the interleavings. -/
theorem pool_seq (s : α → V) (l : List (Prog α V)) : Pool s l (runAll s l) := by
  have key : ∀ (l d : List (Prog α V)) (s : α → V), Relation.ReflTransGen Step (s, d ++ l)
      (runAll s l, d ++ l.map fun _ => .done) := by
    intro l
    induction l with
    | nil => intro d s; exact .refl
    | cons p l ih =>
      intro d s
      have h1 := run_steps p s d l
      have h2 := ih (d ++ [.done]) (p.run s)
      rw [List.append_assoc, List.append_assoc] at h2
      exact h1.trans h2
  refine ⟨l.map fun _ => .done, key l [] s, ?_⟩
  intro p hp
  obtain ⟨_, _, rfl⟩ := List.mem_map.1 hp
  rfl

/-- Programs that touch only their own cells, apart from cells nobody writes. -/
theorem raceFree_map {ι : Type} {l : List ι} (hnd : l.Nodup) {f : ι → Prog α V} (own : ι → α → Prop)
    (hw : ∀ x ∈ l, ∀ i, (f x).Writes i → own x i) (hr : ∀ x ∈ l, ∀ y ∈ l, ∀ i, (f x).Reads i → (f y).Writes i → own x i)
    (hd : ∀ x ∈ l, ∀ y ∈ l, ∀ i, own x i → own y i → x = y) : RaceFree (l.map f) := by
  unfold RaceFree
  rw [List.pairwise_map]
  refine List.Pairwise.imp_of_mem ?_ hnd
  intro x y hx hy hne i
  refine ⟨fun h => ⟨fun h' => hne (hd x hx y hy i (hw x hx i h) (hw y hy i h')),
    fun h' => hne (hd x hx y hy i (hw x hx i h) (hr y hy x hx i h' h))⟩,
    fun h h' => hne (hd x hx y hy i (hr x hx y hy i h' h) (hw y hy i h))⟩

theorem runAll_map {ι : Type} (l : List ι) (f : ι → Prog α V) (g : (α → V) → ι → α → V) (h : ∀ x s, (f x).run s = g s x)
    (s : α → V) : runAll s (l.map f) = l.foldl g s := by
  unfold runAll
  rw [List.foldl_map]
  congr 1
  funext s x
  exact h x s

/-- The programs that read two cells and write the same cells. -/
theorem pair_touch {a b : ℕ} {K : ℂ → ℂ → ℂ × ℂ} {i : ℕ}
    (h : (Prog.read a fun y0 => .read b fun y1 => .write a (K y0 y1).1 (.write b (K y0 y1).2 .done)).Writes i ∨
      (Prog.read a fun y0 => .read b fun y1 => .write a (K y0 y1).1 (.write b (K y0 y1).2 .done)).Reads i) :
    i = a ∨ i = b := by
  rcases h with h | h
  · rcases h with _ | _ | ⟨_, _, _, _, h⟩
    rcases h with _ | _ | ⟨_, _, _, _, h⟩
    rcases h with _ | ⟨_, _, _, _, h⟩
    · exact Or.inl rfl
    rcases h with _ | ⟨_, _, _, _, h⟩
    · exact Or.inr rfl
    cases h
  · rcases h with _ | _ | ⟨_, _, _, _, h⟩
    · exact Or.inl rfl
    rcases h with _ | _ | ⟨_, _, _, _, h⟩
    · exact Or.inr rfl
    rcases h with _ | ⟨_, _, _, _, h⟩
    rcases h with _ | ⟨_, _, _, _, h⟩
    cases h

end Verif.Race
