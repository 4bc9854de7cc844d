import Verif.Model.UnitClifford

/-!
# Read-out of `QUnitClifford`

`src/qunitclifford.cpp`. The functions that go over the units of the register do so in the order of the addresses of the units, which is
left to chance; here it is the order of first use, and the theorems are about sums and products that do not depend on it. `ph u` is
`phaseOffset` of unit `u`, and `ph0` that of the register, which are arbitrary when `randGlobalPhase` is set. The units are different objects, so that
what one call leaves in a unit's tableau is not seen by the next.
-/

namespace Verif.Units

open Verif.Stab

variable {n : ℕ}

/-- The units of the register: the keys of the map filled at `src/qunitclifford.cpp:456-465`. -/
def QUC.units (Q : QUC n) : List ℕ := uniq ((List.finRange n).map Q.unit)

/-- The bits of `perm` that belong to unit `u`, at their places; `src/qunitclifford.cpp:456-465` (and `:480-488`,
`:499-507`, `:165-169`). -/
def QUC.unitPerm (Q : QUC n) (u perm : ℕ) : ℕ :=
  (List.finRange n).foldl (fun a i => if Q.unit i = u ∧ perm.testBit i.val = true then a ||| 2 ^ Q.mapped i else a) 0

/-- The loop of `GetAmplitude` over the units, `src/qunitclifford.cpp:468-473`. -/
noncomputable def ampLoop (ph : ℕ → ℂ) (Q : QUC n) (perm : ℕ) : List ℕ → ℂ → ℂ
  | [], r => r
  | u :: l, r =>
    let r := r * (Stab.getAmplitude (ph u) (Q.heap u).tab (Q.unitPerm u perm)).2
    if Complex.normSq r ≤ 0 then r else ampLoop ph Q perm l r

/-- `GetAmplitude`, `src/qunitclifford.cpp:450-476`. -/
noncomputable def QUC.getAmplitude (ph0 : ℂ) (ph : ℕ → ℂ) (Q : QUC n) (perm : ℕ) : Option ℂ :=
  if 2 ^ n ≤ perm then none else some (ampLoop ph Q perm Q.units ph0)

/-- `GetQuantumState(complex*)`, `src/qunitclifford.cpp:404-409`, for at least one qubit: the vector that the unit of all
qubits returns; `ph` is that unit's `phaseOffset`. -/
noncomputable def QUC.getQuantumState (ph : ℂ) (Q : QUC (n + 1)) : Option (ℕ → ℂ) :=
  Q.entangleAll.map fun Q => (Stab.getQuantumState ph (Q.heap (Q.unit 0)).tab).2

/-- `ProbMask`, `src/qunitclifford.cpp:153-179`: the sum of the units' probabilities. A bit of the mask outside the register reads
past the shards: `none`. -/
noncomputable def QUC.probMask (ph : ℕ → ℂ) (Q : QUC n) (mask perm : ℕ) : Option ℝ :=
  if 2 ^ n ≤ mask then none
  else
    some (((Q.units.filter fun u => Q.unitPerm u mask ≠ 0).map fun u =>
      (Stab.probMask (ph u) (Q.heap u).tab (Q.unitPerm u mask) (Q.unitPerm u (mask &&& perm))).2).sum)

/-- One listed qubit and its two weights, in the maps of `src/qunitclifford.cpp:58-65` and `:93-100`: its unit, its place, the weights. -/
structure Item (α : Type) where
  unit : ℕ
  place : ℕ
  w0 : α
  w1 : α

/-- The items of the listed qubits, `src/qunitclifford.cpp:59-65` and `:94-100`. -/
def QUC.items {α : Type} (Q : QUC n) (l : List (Fin n × α × α)) : List (Item α) :=
  l.map fun b => { unit := Q.unit b.1, place := Q.mapped b.1, w0 := b.2.1, w1 := b.2.2 }

/-- What unit `u` is called with, `src/qunitclifford.cpp:69` and `:104`. -/
def itemsOf {α : Type} (l : List (Item α)) (u : ℕ) : List ℕ × List α :=
  let l := l.filter fun i => i.unit = u
  (l.map Item.place, l.flatMap fun i => [i.w0, i.w1])

/-- The sum over the units of what `f` gives, `src/qunitclifford.cpp:67-76` and `:102-111`; `none` if one of the calls throws. -/
noncomputable def sumUnits (f : ℕ → Option ℝ) : List ℕ → Option ℝ
  | [] => some 0
  | u :: l => (f u).bind fun a => (sumUnits f l).map fun b => a + b

/-- `ExpectationFloatsFactorized`, `src/qunitclifford.cpp:80-114`. The list gives the qubits and their weights; a qubit named twice
throws. -/
noncomputable def QUC.expFloats (ph : ℕ → ℂ) (Q : QUC n) (l : List (Fin n × ℝ × ℝ)) : Option ℝ :=
  if (l.map Prod.fst).Nodup then
    let it := Q.items l
    sumUnits (fun u => (expectationFloats (ph u) (Q.heap u).tab (itemsOf it u).1 (itemsOf it u).2).map Prod.snd) (uniq (it.map Item.unit))
  else none

/-- `ExpectationBitsFactorized`, `src/qunitclifford.cpp:46-78`: `offset` goes to every unit. -/
noncomputable def QUC.expBits (ph : ℕ → ℂ) (Q : QUC n) (l : List (Fin n × ℕ × ℕ)) (offset : ℕ) : Option ℝ :=
  if (l.map Prod.fst).Nodup then
    let it := Q.items l
    sumUnits (fun u => (expectationBits (ph u) (Q.heap u).tab (itemsOf it u).1 (itemsOf it u).2 offset).map Prod.snd)
      (uniq (it.map Item.unit))
  else none

end Verif.Units
