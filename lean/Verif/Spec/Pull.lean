import Verif.Spec.Field
import Mathlib.Data.Complex.Basic

/-!
# Specification of operations on registers of qubits

Nothing here refers to the model of the code.
-/

namespace Verif.Spec

/-- The operation on the registers `rs` (first qubit and length) after which the amplitude of a basis state in which the registers hold
`vs` is `w vs` times what it was where they held `g vs`, and which does nothing where `p` does not hold. -/
noncomputable def pull (p : ℕ → Prop) [DecidablePred p] (rs : List (ℕ × ℕ)) (g : List ℕ → List ℕ) (w : List ℕ → ℂ) (s : ℕ → ℂ) (i : ℕ) : ℂ :=
  let vs := rs.map fun r => field r.1 r.2 i
  if p i then w vs * s ((rs.zip (g vs)).foldl (fun j r => setField r.1.1 r.1.2 r.2 j) i) else s i

/-- The value from which adding `a` leads to `v`, in a register of `l` qubits. -/
def before (l a : ℕ) (vs : List ℕ) : List ℕ := vs.map fun v => (v + (2 ^ l - a % 2 ^ l)) % 2 ^ l

end Verif.Spec
