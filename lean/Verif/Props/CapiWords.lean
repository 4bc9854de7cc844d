import Verif.Model.Capi
import Verif.Props.BigInt

/-!
# C47: big integer arguments of the C API

Specification: `wordsValue a = Σ aᵢ 2^(64 i)`.
-/

namespace Verif.Capi

open BigInt Limbs

/-- The number an array of 64-bit words stands for. -/
def wordsValue : List ℕ → ℕ
  | [] => 0
  | w :: ws => w + 2 ^ 64 * wordsValue ws

/-- With 128-bit native integers every array of one or two words runs into a shift by the full width. -/
theorem combineA_native_undefined {a : List ℕ} (h0 : a ≠ []) (h2 : a.length ≤ 2) : combineANative a = none := by
  have hs : ∀ t, shl128 t 128 = none := fun t => by simp [shl128]
  unfold combineANative
  rw [if_neg (by omega)]
  have hr : a.reverse ≠ [] := by simpa using h0
  obtain ⟨w, ws, h⟩ := List.exists_cons_of_ne_nil hr
  rw [h, List.foldlM_cons, hs]
  rfl

/-- Longer arrays are refused, with the error set. -/
theorem combineA_native_refused {a : List ℕ} (h : 2 < a.length) : combineANative a = some (0, true) := by
  unfold combineANative; rw [if_pos h]

theorem combineA_big_refused {N : ℕ} {a : List ℕ} (h : N < a.length) : (combineABig N a).map (·.2) = some true := by
  unfold combineABig; rw [if_pos (by omega)]; rfl

theorem lshift_all {N : ℕ} (hN : N < 64) {L : Limbs} (h : WF (2 ^ 64) N L) :
    ∃ S, biLshiftIp 64 N L (N * 64) = some S ∧ ∀ i < N, S i = 0 := by
  have hq : N * 64 / 64 = N := by omega
  obtain ⟨S, h1, h2⟩ := biLshiftIp_eq (wb := 64) (N := N) (r := N * 64) L (Or.inr ⟨by omega, by omega, by omega⟩)
  refine ⟨S, h1, fun i hi => ?_⟩
  have hv := shl_correct (wb := 64) (N := N) (r := N * 64) (by norm_num) h
  rw [Nat.mul_comm N 64, Nat.mul_mod_left] at hv
  have hz : WF (2 ^ 64) N (fun _ => 0) := fun i _ => by norm_num
  rw [h2 i hi]
  exact val_inj (opShl_wf h _) hz (by rw [Nat.mul_comm N 64, hv, val_zero_fn]) i hi

/-- With a `BigInteger` of `N` words the result is the first word: the other words are shifted out. -/
theorem combineA_big_first {N : ℕ} (hN : N < 64) {w : ℕ} {ws : List ℕ} (hw : ∀ x ∈ w :: ws, x < 2 ^ 64)
    (hl : (w :: ws).length ≤ N) :
    ∃ t, combineABig N (w :: ws) = some (t, false) ∧ val (2 ^ 64) N t = w := by
  have hstep : ∀ (t : Limbs) (x : ℕ), WF (2 ^ 64) N t → x < 2 ^ 64 →
      ∃ t', ((biLshiftIp 64 N t (N * 64)).map fun t' => biOr t' (fun i => if i = 0 then x else 0)) = some t' ∧
        WF (2 ^ 64) N t' ∧ ∀ i < N, t' i = if i = 0 then x else 0 := by
    intro t x ht hx
    obtain ⟨S, h1, h2⟩ := lshift_all hN ht
    have hv : ∀ i < N, biOr S (fun i => if i = 0 then x else 0) i = if i = 0 then x else 0 := by
      intro i hi; simp [biOr, h2 i hi]
    refine ⟨_, by rw [h1]; rfl, fun i hi => ?_, hv⟩
    rw [hv i hi]; split_ifs
    · exact hx
    · norm_num
  have hfold : ∀ (l : List ℕ) (t : Limbs), WF (2 ^ 64) N t → (∀ x ∈ l, x < 2 ^ 64) →
      ∃ t', l.foldlM (fun t w => (biLshiftIp 64 N t (N * 64)).map fun t' => biOr t' (fun i => if i = 0 then w else 0)) t
        = some t' ∧ WF (2 ^ 64) N t' := by
    intro l
    induction l with
    | nil => intro t ht _; exact ⟨t, rfl, ht⟩
    | cons x l ih =>
      intro t ht hx
      obtain ⟨t1, e1, w1, -⟩ := hstep t x ht (hx x List.mem_cons_self)
      obtain ⟨t2, e2, w2⟩ := ih t1 w1 fun y hy => hx y (List.mem_cons_of_mem _ hy)
      refine ⟨t2, ?_, w2⟩
      rw [List.foldlM_cons, e1]
      exact e2
  obtain ⟨t1, e1, w1⟩ := hfold ws.reverse (fun _ => 0) (fun i _ => by norm_num)
    fun x hx => hw x (List.mem_cons_of_mem _ (List.mem_reverse.mp hx))
  obtain ⟨t2, e2, -, v2⟩ := hstep t1 w w1 (hw w List.mem_cons_self)
  refine ⟨t2, ?_, ?_⟩
  · unfold combineABig
    rw [if_neg (by omega), List.reverse_cons, List.foldlM_append, e1]
    simp only [Option.bind_eq_bind, Option.bind_some, List.foldlM_cons, List.foldlM_nil, e2]
    rfl
  · obtain ⟨n, rfl⟩ : ∃ n, N = n + 1 := ⟨N - 1, by simp at hl; omega⟩
    rw [val_congr v2, val_succ']
    simp [val]

/-- What is right: with the `BigInteger` build, arrays whose higher words are zero. The full claim is
`val (2 ^ 64) N t = wordsValue (w :: ws)` for all words, and for native integers too; it is false by
`combineA_big_wrong` and `combineA_native_undefined`. -/
theorem combineA_partial {N : ℕ} (hN : N < 64) {w : ℕ} {ws : List ℕ} (hw : w < 2 ^ 64) (hz : ∀ x ∈ ws, x = 0)
    (hl : (w :: ws).length ≤ N) :
    ∃ t, combineABig N (w :: ws) = some (t, false) ∧ val (2 ^ 64) N t = wordsValue (w :: ws) := by
  obtain ⟨t, h1, h2⟩ := combineA_big_first hN (w := w) (ws := ws) (by
    intro x hx
    rcases List.mem_cons.mp hx with rfl | hx
    · exact hw
    · rw [hz x hx]; norm_num) hl
  refine ⟨t, h1, ?_⟩
  have : ∀ l : List ℕ, (∀ x ∈ l, x = 0) → wordsValue l = 0 := by
    intro l
    induction l with
    | nil => intro _; rfl
    | cons x l ih =>
      intro h
      rw [wordsValue, h x List.mem_cons_self, ih fun y hy => h y (List.mem_cons_of_mem _ hy), Nat.mul_zero]
  rw [h2, wordsValue, this ws hz, Nat.mul_zero, Nat.add_zero]

/-- Whenever a higher word is not zero, the result is wrong. -/
theorem combineA_big_wrong {N : ℕ} (hN : N < 64) {w : ℕ} {ws : List ℕ} (hw : ∀ x ∈ w :: ws, x < 2 ^ 64)
    (hz : ∃ x ∈ ws, x ≠ 0) (hl : (w :: ws).length ≤ N) :
    ∃ t, combineABig N (w :: ws) = some (t, false) ∧ val (2 ^ 64) N t ≠ wordsValue (w :: ws) := by
  obtain ⟨t, h1, h2⟩ := combineA_big_first hN hw hl
  refine ⟨t, h1, ?_⟩
  have : ∀ l : List ℕ, (∃ x ∈ l, x ≠ 0) → 0 < wordsValue l := by
    intro l
    induction l with
    | nil => rintro ⟨x, hx, -⟩; cases hx
    | cons x l ih =>
      rintro ⟨y, hy, hne⟩
      rw [wordsValue]
      rcases List.mem_cons.mp hy with rfl | hy
      · omega
      · have := ih ⟨y, hy, hne⟩; positivity
  have := this ws hz
  rw [h2, wordsValue]
  omega

example : wordsValue [5, 1] = 2 ^ 64 + 5 := by decide
example : ∀ x ∈ [5, 1], x < 2 ^ 64 := by decide

end Verif.Capi
