import Mathlib.Data.List.Range
import Mathlib.Logic.Function.Basic

/-!
# Model of `QUnit::Detach`

`src/qunit.cpp:280-409`, which `Decompose`, `Dispose` and `TryDecompose` of `QUnit` call (`include/qunit.hpp:209-236`).

As in `Verif/Model/Capi.lean` a qubit is a token, a unit is the list of the tokens at its places, and taking a range out of a unit takes
its tokens out: this is what `Decompose` and `Dispose` of the engine do to a state that is a product of the range and the rest (C24).
Units are numbered instead of being pointed at. A shard without a unit holds its qubit itself. The basis of the shards and their buffers
(`RevertBasis2Qb`) are not modelled, nor `isTry`; the shards are in the order of the qubits (`swapMap` is modelled for C48, and the
destination has not been permuted).
-/

namespace Verif.Detach

/-- `shard.unit`, `shard.mapped`, and for a shard without a unit its amplitudes, `include/qengineshard.hpp:55-70`. -/
structure Sh where
  unit : Option ℕ
  pos : ℕ
  tok : ℕ
  deriving DecidableEq

structure Reg where
  n : ℕ
  sh : ℕ → Sh
  un : ℕ → List ℕ

/-- The qubit that a shard refers to. -/
def read (un : ℕ → List ℕ) (s : Sh) : Option ℕ :=
  match s.unit with
  | none => some s.tok
  | some u => (un u)[s.pos]?

/-- What `QUnit::OrderContiguous`, `src/qunit.cpp:831-854`, leaves behind: the places of a unit in the order of the qubits (that the
exchanges of `SortUnit` get there is `order_keeps` of C86). -/
def orderUnit (R : Reg) (u : ℕ) : Reg where
  n := R.n
  sh j := if (R.sh j).unit = some u then { R.sh j with pos := ((List.range j).filter fun k => (R.sh k).unit = some u).length } else R.sh j
  un := Function.update R.un u ((List.range R.n).filterMap fun j => if (R.sh j).unit = some u then read R.un (R.sh j) else none)

/-- The number of detached qubits in a unit, `subunits`, `src/qunit.cpp:292-300`. -/
def subCount (R : Reg) (start length u : ℕ) : ℕ :=
  ((List.range length).filter fun i => (R.sh (start + i)).unit = some u).length

/-- The state of the loop of `src/qunit.cpp:315-389`: shards, units, `decomposedUnits`, and the shards of the destination. -/
structure St where
  sh : ℕ → Sh
  un : ℕ → List ℕ
  dec : ℕ → Option ℕ
  dest : ℕ → Sh

/-- A shard that takes over the amplitudes of its unit of one qubit, `src/qunit.cpp:344-354`, `:368-376`. -/
def cached (un : ℕ → List ℕ) (u : ℕ) : Sh := ⟨none, 0, ((un u)[0]?).getD 0⟩

/-- The body of the loop, `src/qunit.cpp:317-388`; `fresh` is the number of the unit that `MakeEngine` makes. -/
def detachStep (n : ℕ) (sub : ℕ → ℕ) (hasDest : Bool) (start fresh : ℕ) (s : St) (i : ℕ) : St :=
  match (s.sh (start + i)).unit with
  | none => s
  | some u =>
    let s1 : St :=
      match s.dec u with
      | none =>
        let s := { s with dec := Function.update s.dec u (some (start + i)) }
        let subLen := sub u
        let origLen := (s.un u).length
        if subLen ≠ origLen then
          let m := (s.sh (start + i)).pos
          let rest : List ℕ := (s.un u).take m ++ (s.un u).drop (m + subLen)
          let s : St :=
            if hasDest then
              let un : ℕ → List ℕ := Function.update (Function.update s.un u rest) (fresh + i) (((s.un u).drop m).take subLen)
              { s with un := un, sh := Function.update s.sh (start + i) { s.sh (start + i) with unit := some (fresh + i) } }
            else { s with un := Function.update s.un u rest }
          let s : St :=
            if subLen = 1 ∧ hasDest then { s with sh := Function.update s.sh (start + i) (cached s.un (fresh + i)) } else s
          if subLen = origLen - 1 then
            let mapped := (s.sh (start + i)).pos
            let mapped := if mapped = 0 then mapped + subLen else 0
            match (List.range n).find? fun j => (s.sh j).unit = some u ∧ (s.sh j).pos = mapped with
            | some j => { s with sh := Function.update s.sh j (cached s.un u) }
            | none => s
          else s
        else s
      | some f => { s with sh := Function.update s.sh (start + i) { s.sh (start + i) with unit := (s.sh f).unit } }
    if hasDest then { s1 with dest := Function.update s1.dest i (s1.sh (start + i)) } else s1

/-- `src/qunit.cpp:391-398`: the places behind the range move down. -/
def closeUp (sub : ℕ → ℕ) (s : St) (j : ℕ) : Sh :=
  match (s.sh j).unit with
  | none => s.sh j
  | some u =>
    if sub u ≠ 0 then
      let first := ((s.dec u).map fun f => (s.sh f).pos).getD 0
      if first + sub u ≤ (s.sh j).pos then { s.sh j with pos := (s.sh j).pos - sub u } else s.sh j
    else s.sh j

/-- `reindex`, `include/qengineshard.hpp:382-395`. -/
def reindex (d : ℕ → Sh) (i : ℕ) : Sh :=
  match (d i).unit with
  | none => { d i with pos := 0 }
  | some u => { d i with pos := ((List.range i).filter fun k => (d k).unit = some u).length }

/-- `QUnit::Detach`, `src/qunit.cpp:280-409`: this register and the shards of the destination (which share the units). `none` is the
exception of a range outside of the register. -/
def detach (hasDest : Bool) (R : Reg) (start length fresh : ℕ) : Option (Reg × (ℕ → Sh)) :=
  if R.n < start + length then none
  else
    let sub := subCount R start length
    let dest0 : ℕ → Sh := fun i => if (R.sh (start + i)).unit = none then R.sh (start + i) else ⟨none, 0, 0⟩
    let R1 := if 1 < length then ((List.range length).filterMap fun i => (R.sh (start + i)).unit).foldl orderUnit R else R
    let s := (List.range length).foldl (detachStep R.n sub hasDest start fresh) ⟨R1.sh, R1.un, fun _ => none, dest0⟩
    some (⟨R.n - length, fun j => closeUp sub s (if j < start then j else j + length), s.un⟩, reindex s.dest)

end Verif.Detach
