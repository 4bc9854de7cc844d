import Mathlib.Data.Complex.Basic
import Mathlib.Data.Complex.BigOperators
import Mathlib.Data.Finset.Range

/-!
# Model of `QUnit::SumSqrDiff`

`src/qunit.cpp:3779-3850`. A `QUnit` is its number of qubits, its state (of the whole register, in the permutation basis: joining all
units is C82), and which of its qubits have a cached value. The comparison of the joined units is that of the engine, proved in C56 to be
one minus the squared modulus of the inner product.
-/

namespace Verif.UDiff

structure Unit where
  n : ℕ
  amp : ℕ → ℂ
  known : ℕ → Option Bool

/-- `CheckBitsPermutation(0, qubitCount)`, `src/qunit.cpp:898-912`. -/
def checkPerm (U : Unit) : Bool := (List.range U.n).all fun q => (U.known q).isSome

/-- `GetCachedPermutation(0, qubitCount)`, `src/qunit.cpp:915-924`. -/
def cachedPerm (U : Unit) : ℕ := (List.range U.n).foldl (fun r q => if U.known q = some true then r ||| 2 ^ q else r) 0

/-- What `SumSqrDiff` of the engine returns for states of norm one, `src/qengine/state.cpp:1655` (C56). -/
noncomputable def engineDiff (a b : Unit) : ℝ :=
  1 - Complex.normSq (∑ k ∈ Finset.range (2 ^ a.n), (starRingEnd ℂ) (a.amp k) * b.amp k)

/-- `QUnit::SumSqrDiff`, `src/qunit.cpp:3779-3850`, of two different objects. -/
noncomputable def sumSqrDiff (a b : Unit) : ℝ :=
  if a.n ≠ b.n then 1
  else if a.n = 1 then Complex.normSq (a.amp 0 - b.amp 0) + Complex.normSq (a.amp 1 - b.amp 1)
  else if checkPerm a && checkPerm b then (if cachedPerm a = cachedPerm b then 0 else 1)
  else engineDiff a b

end Verif.UDiff
