import Verif.Spec.Gate

/-!
# Specification of measurement

Probabilities of events of an `n`-qubit state, and projection on an event. Nothing here refers to the
model of the code.
-/

namespace Verif.Spec

open Classical in
/-- The probability of the event `p`: the sum of the squared magnitudes of the amplitudes in `p`. -/
noncomputable def probIf (n : ℕ) (p : ℕ → Prop) (s : ℕ → ℂ) : ℝ :=
  ∑ i ∈ Finset.range (2 ^ n), if p i then Complex.normSq (s i) else 0

/-- The state `s'` is what remains of `s` after the event `p` was observed: everything outside of `p`
is gone, inside `p` all amplitudes are multiplied by the same factor, and the total probability is
one. -/
def Collapsed (n : ℕ) (p : ℕ → Prop) (s s' : ℕ → ℂ) : Prop :=
  ∃ k : ℂ, (∀ i < 2 ^ n, p i → s' i = k * s i) ∧ (∀ i < 2 ^ n, ¬ p i → s' i = 0) ∧ totalProb n s' = 1

/-- The value of the listed qubits: bit `k` is the `k`-th listed qubit. -/
def valueOf (bits : List ℕ) (i : ℕ) : ℕ :=
  match bits with
  | [] => 0
  | b :: bs => (if i.testBit b then 1 else 0) + 2 * valueOf bs i

/-- The average of the observable that has value `f i` on the basis state `i`. -/
noncomputable def mean (n : ℕ) (f : ℕ → ℝ) (s : ℕ → ℂ) : ℝ := ∑ i ∈ Finset.range (2 ^ n), f i * Complex.normSq (s i)

/-- The mean squared deviation from the average. -/
noncomputable def variance (n : ℕ) (f : ℕ → ℝ) (s : ℕ → ℂ) : ℝ :=
  ∑ i ∈ Finset.range (2 ^ n), (f i - mean n f s) ^ 2 * Complex.normSq (s i)

/-- The sum over the listed qubits of the weight that belongs to the value of the qubit: first component for 0, second
for 1. -/
def weightOf {α : Type} [Zero α] [Add α] : List ℕ → List (α × α) → ℕ → α
  | b :: bs, w :: ws, i => (if i.testBit b then w.2 else w.1) + weightOf bs ws i
  | _, _, _ => 0

/-- Pairs written one after the other. -/
def flat {α : Type} : List (α × α) → List α
  | [] => []
  | w :: ws => w.1 :: w.2 :: flat ws

/-- The Pauli operators. -/
inductive PauliName | I | X | Y | Z
  deriving DecidableEq

/-- The Pauli operator on qubit `q`. -/
noncomputable def pauliGate (P : PauliName) (q : ℕ) (s : ℕ → ℂ) : ℕ → ℂ :=
  match P with
  | .I => s
  | .X => gate (fun _ => True) q 0 1 1 0 s
  | .Y => gate (fun _ => True) q 0 (-Complex.I) Complex.I 0 s
  | .Z => gate (fun _ => True) q 1 0 0 (-1) s

/-- The tensor product of the listed Pauli operators on the listed qubits. -/
noncomputable def pauliProduct : List ℕ → List PauliName → (ℕ → ℂ) → ℕ → ℂ
  | q :: qs, P :: Ps, s => pauliGate P q (pauliProduct qs Ps s)
  | _, _, s => s

end Verif.Spec
