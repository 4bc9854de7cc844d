import Mathlib.Data.Complex.Basic
import Mathlib.Data.Nat.Bitwise
import Mathlib.Algebra.BigOperators.Group.Finset.Basic

/-!
# Specification of gates on state vectors

A register of `n` qubits is a function on basis states `i < 2^n`, qubit `q` being bit `q` of `i`.
Nothing here refers to the model of the code.
-/

namespace Verif.Spec

/-- The basis state with qubit `t` flipped. -/
def flipBit (t i : ℕ) : ℕ := i ^^^ 2 ^ t

/-- The basis state with qubit `t` flipped when `b` holds. -/
def flipIf (b : Bool) (t i : ℕ) : ℕ := if b then flipBit t i else i

/-- The single-qubit operator with matrix `[[a, b], [c, d]]` on qubit `t`, tensored with the
identity, conditioned on the predicate `p` of the basis state (which must not look at `t`). -/
def gate (p : ℕ → Prop) [DecidablePred p] (t : ℕ) (a b c d : ℂ) (s : ℕ → ℂ) (i : ℕ) : ℂ :=
  if p i then
    if i.testBit t then c * s (flipBit t i) + d * s i else a * s i + b * s (flipBit t i)
  else s i

/-- All listed qubits have value `v`. -/
def AllAre (v : Bool) (cs : List ℕ) (i : ℕ) : Prop := ∀ c ∈ cs, i.testBit c = v

instance (v : Bool) (cs : List ℕ) : DecidablePred (AllAre v cs) :=
  fun i => inferInstanceAs (Decidable (∀ c ∈ cs, i.testBit c = v))

/-- The `k`-th listed qubit has the value of bit `k` of `perm`. -/
def Matches (perm : ℕ) (cs : List ℕ) (i : ℕ) : Prop :=
  ∀ k (h : k < cs.length), i.testBit cs[k] = perm.testBit k

instance (perm : ℕ) (cs : List ℕ) : DecidablePred (Matches perm cs) :=
  fun i => inferInstanceAs (Decidable (∀ k (h : k < cs.length), i.testBit cs[k] = perm.testBit k))

/-- The basis state with qubits `q1` and `q2` exchanged. -/
def swapBits (q1 q2 i : ℕ) : ℕ :=
  if i.testBit q1 = i.testBit q2 then i else i ^^^ (2 ^ q1 ^^^ 2 ^ q2)

/-- The two-qubit operator that is the identity on `|00⟩`, `|11⟩` and symmetric `[[u, v], [v, u]]` on
`|01⟩`, `|10⟩`, conditioned on `p`. -/
def exchange (p : ℕ → Prop) [DecidablePred p] (q1 q2 : ℕ) (u v : ℂ) (s : ℕ → ℂ) (i : ℕ) : ℂ :=
  if p i ∧ i.testBit q1 ≠ i.testBit q2 then u * s i + v * s (swapBits q1 q2 i) else s i

/-- Number of qubits below `n` that are set both in the mask and in the basis state. -/
def maskCount (n mask i : ℕ) : ℕ :=
  ((Finset.range n).filter fun k => mask.testBit k = true ∧ i.testBit k = true).card

/-- Total probability of an `n`-qubit state. -/
noncomputable def totalProb (n : ℕ) (s : ℕ → ℂ) : ℝ :=
  ∑ i ∈ Finset.range (2 ^ n), Complex.normSq (s i)

/-- Inner product of two `n`-qubit states. -/
noncomputable def inner (n : ℕ) (s s' : ℕ → ℂ) : ℂ :=
  ∑ i ∈ Finset.range (2 ^ n), (starRingEnd ℂ) (s i) * s' i

/-- Two states agree on the `n`-qubit register. -/
def SameOn (n : ℕ) (s s' : ℕ → ℂ) : Prop := ∀ i < 2 ^ n, s i = s' i

end Verif.Spec
