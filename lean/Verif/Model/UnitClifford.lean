import Verif.Model.SortUnit
import Verif.Model.StabCompose
import Verif.Model.StabRead
import Mathlib.Logic.Function.Basic

/-!
# `QUnitClifford`

`include/qunitclifford.hpp` and `src/qunitclifford.cpp`: a register of qubits that keeps separable parts in `QStabilizer` objects of
their own. Objects live in a heap under numbers that stand for pointers, so that shards share a unit by naming the same number. With
`randGlobalPhase` set; `phaseOffset` is not kept, and states are meant up to a factor. `none` is a thrown exception. Where a gate of
`QStabilizer` leaves something in the scratch row, that row is `idRow` (`Verif.Model.StabCompose` does the same).
-/

namespace Verif.Units

open Verif.Stab

/-- A `QStabilizer` (`include/qstabilizer.hpp:45-59`) and its number of qubits. -/
structure Obj where
  size : ℕ
  tab : Tab size

/-- `QUnitClifford`, `include/qunitclifford.hpp:42-45`: `shards[i].mapped`, `shards[i].unit`
(`include/qunitclifford.hpp:23-25`), the objects, and the next unused number. -/
structure QUC (n : ℕ) where
  mapped : Fin n → ℕ
  unit : Fin n → ℕ
  heap : ℕ → Obj
  fresh : ℕ

/-- A gate of `QStabilizer`, `src/qstabilizer.cpp:855-1346`. -/
def Obj.gate (o : Obj) (g : Gate) : Option Obj := (g.run (idRow o.size) o.tab).map fun T => ⟨o.size, T⟩

/-- `ComposeNoClone`, `include/qinterface.hpp:369`, which is `Compose` at the end, `src/qstabilizer.cpp:1551-1608`. -/
def Obj.compose (o p : Obj) : Option Obj := (Stab.compose o.tab p.tab o.size).map fun s => ⟨o.size + p.size, s.2⟩

/-- `QStabilizer::Decompose` of `len` qubits, `src/qstabilizer.cpp:1682-1760`, given that they are there. -/
def Obj.cut (o : Obj) (a len : ℕ) (e : o.size = a + len) (start : ℕ) : Option (Obj × Obj) :=
  (Stab.decompose (n := a) (m := len) (e ▸ o.tab) start (setPermutation len (idRow len) 0)).map fun s => (⟨a, s.1⟩, ⟨len, s.2⟩)

/-- `QStabilizer::Decompose(start, length)`, `src/qstabilizer.cpp:1609-1616`: what is left and what is taken out. -/
def Obj.decompose (o : Obj) (start len : ℕ) : Option (Obj × Obj) :=
  if h : len ≤ o.size then o.cut (o.size - len) len (by omega) start else none

variable {n : ℕ}

/-- The object that `shards[i].unit` points to (`include/qunitclifford.hpp:25`) is changed by a call. -/
def QUC.setUnit (Q : QUC n) (u : ℕ) (o : Obj) : QUC n := { Q with heap := Function.update Q.heap u o }

/-- `QUnitClifford::SetPermutation`, `src/qunitclifford.cpp:181-198`: a unit of one qubit for every qubit. -/
def setPerm (n perm : ℕ) : QUC n :=
  { mapped := fun _ => 0
    unit := fun i => i.val
    heap := fun u => ⟨1, setPermutation 1 (idRow 1) (if perm.testBit u then 1 else 0)⟩
    fresh := n }

/-- `H`, `S`, `IS`, `Z`, `X`, `Y`, `include/qunitclifford.hpp:366-411`: the gate on the unit, at `mapped`. -/
def QUC.gate1 (Q : QUC n) (g : ℕ → Gate) (t : ℕ) : Option (QUC n) :=
  if h : t < n then ((Q.heap (Q.unit ⟨t, h⟩)).gate (g (Q.mapped ⟨t, h⟩))).map (Q.setUnit (Q.unit ⟨t, h⟩)) else none

/-- `Swap`, `include/qunitclifford.hpp:413-424`. -/
def QUC.swap (Q : QUC n) (q1 q2 : ℕ) : Option (QUC n) :=
  if h : q1 < n ∧ q2 < n then
    if q1 = q2 then some Q
    else some { Q with mapped := Q.mapped ∘ Equiv.swap ⟨q1, h.1⟩ ⟨q2, h.2⟩, unit := Q.unit ∘ Equiv.swap ⟨q1, h.1⟩ ⟨q2, h.2⟩ }
  else none

/-- The shards of unit `c` are moved behind those of unit `r`, whose object is now `o`; `src/qunitclifford.cpp:294-299` and
`:315-321`. -/
def QUC.moved (Q : QUC n) (r c : ℕ) (o : Obj) : QUC n where
  mapped i := if Q.unit i = c then Q.mapped i + (Q.heap r).size else Q.mapped i
  unit i := if Q.unit i = c then r else Q.unit i
  heap := Function.update Q.heap r o
  fresh := Q.fresh

/-- One unit is composed onto another, and its shards are moved; `src/qunitclifford.cpp:290-299` and, for each pair,
`:307-321` (there all pairs are composed before the shards are moved). -/
def QUC.consume (Q : QUC n) (r c : ℕ) : Option (QUC n) := ((Q.heap r).compose (Q.heap c)).map (Q.moved r c)

/-- The different units in a list, `src/qunitclifford.cpp:278-284`. -/
def uniq (l : List ℕ) : List ℕ := l.foldl (fun acc u => if u ∈ acc then acc else acc ++ [u]) []

/-- The pairs of one round, `src/qunitclifford.cpp:302-323`: the retained units and the register. -/
def pairs : List ℕ → QUC n → Option (List ℕ × QUC n)
  | r :: c :: l, Q => (Q.consume r c).bind fun Q => (pairs l Q).map fun s => (r :: s.1, s.2)
  | l, Q => some (l, Q)

/-- `while (units.size() > 1U)`, `src/qunitclifford.cpp:286-324`. -/
def collapseUnits : ℕ → List ℕ → QUC n → Option (QUC n)
  | 0, _, _ => none
  | fuel + 1, units, Q =>
    if units.length ≤ 1 then some Q
    else
      match units with
      | r :: c :: l =>
        if units.length % 2 = 1 then
          (Q.consume r c).bind fun Q => (pairs (r :: l) Q).bind fun s => collapseUnits fuel s.1 s.2
        else (pairs units Q).bind fun s => collapseUnits fuel s.1 s.2
      | _ => none

/-- `EntangleInCurrentBasis`, `src/qunitclifford.cpp:269-332`. The callers read the new positions from `mapped`, and the unit
from any of the qubits. -/
def QUC.entangle (Q : QUC n) (bits : List (Fin n)) : Option (QUC n) :=
  collapseUnits (bits.length + 1) (uniq (bits.map Q.unit)) Q

/-- An exchange made by `SortUnit`, `src/qunitclifford.cpp:365-366` and `:382-383`, for entries that are qubits `i` and `j`. -/
def QUC.sortSwap (Q : QUC n) (u : ℕ) (i j : Fin n) : Option (QUC n) :=
  ((Q.heap u).gate (.swap (Q.mapped i) (Q.mapped j))).map fun o =>
    { (Q.setUnit u o) with mapped := Q.mapped ∘ Equiv.swap i j }

/-- The exchanges of `SortUnit`, `src/qunitclifford.cpp:359-402`, in order; `bits` are the qubits of the unit. -/
def sortSwaps (u : ℕ) (bits : List (Fin n)) : List (ℕ × ℕ) → QUC n → Option (QUC n)
  | [], Q => some Q
  | p :: l, Q =>
    match bits[p.1]?, bits[p.2]? with
    | some i, some j => (Q.sortSwap u i j).bind (sortSwaps u bits l)
    | _, _ => none

/-- The qubits of a unit, `src/qunitclifford.cpp:347-354`. -/
def QUC.bitsOf (Q : QUC n) (u : ℕ) : List (Fin n) := (List.finRange n).filter fun i => Q.unit i = u

/-- `OrderContiguous`, `src/qunitclifford.cpp:334-357`. A unit whose size is not the number of its shards is `none`. -/
def QUC.order (Q : QUC n) (u : ℕ) : Option (QUC n) :=
  if (Q.heap u).size = 1 then some Q
  else
    let bits := Q.bitsOf u
    if bits.length = (Q.heap u).size then
      (sortUnit bits.length bits.length (fun k => (bits[k]?.map Q.mapped).getD 0) 0 (bits.length - 1)).bind fun s =>
        sortSwaps u bits s.2 Q
    else none

/-- `EntangleAll`, `include/qunitclifford.hpp:79-95`, for at least one qubit. -/
def QUC.entangleAll (Q : QUC (n + 1)) : Option (QUC (n + 1)) :=
  (Q.entangle (List.finRange (n + 1))).bind fun Q => Q.order (Q.unit 0)

/-- `Prob`, `include/qunitclifford.hpp:617-622`: twice the probability. -/
def QUC.prob (Q : QUC n) (t : ℕ) : Option (ℕ × QUC n) :=
  if h : t < n then
    (probT (Q.heap (Q.unit ⟨t, h⟩)).tab (Q.mapped ⟨t, h⟩) false).map fun s => (s.1, Q.setUnit (Q.unit ⟨t, h⟩) ⟨_, s.2⟩)
  else none

/-- `IsSeparableZ`, `include/qunitclifford.hpp:477-482`. -/
def QUC.sepZ (Q : QUC n) (t : ℕ) : Option Bool :=
  if h : t < n then isSeparableZ (Q.heap (Q.unit ⟨t, h⟩)).tab (Q.mapped ⟨t, h⟩) else none

/-- Qubit `q` gets the object `o2` for itself, `o1` is left of its unit, and the shards above it move down;
`src/qunitclifford.cpp:826-834` and `:551-565`. -/
def QUC.split (Q : QUC n) (q : Fin n) (o1 o2 : Obj) : QUC n where
  mapped i :=
    if i = q then 0 else if Q.unit i = Q.unit q ∧ Q.mapped q < Q.mapped i then Q.mapped i - 1 else Q.mapped i
  unit := Function.update Q.unit q Q.fresh
  heap := Function.update (Function.update Q.heap (Q.unit q) o1) Q.fresh o2
  fresh := Q.fresh + 1

/-- `TrySeparate(qubit)`, `src/qunitclifford.cpp:811-837`. -/
def QUC.trySeparate (Q : QUC n) (q : Fin n) : Option (Bool × QUC n) :=
  if (Q.heap (Q.unit q)).size ≤ 1 then some (true, Q)
  else
    (trySeparate1 (Q.heap (Q.unit q)).tab (Q.mapped q)).bind fun s =>
      if s.1 then
        (Obj.decompose ⟨(Q.heap (Q.unit q)).size, s.2⟩ (Q.mapped q) 1).map fun p => (true, Q.split q p.1 p.2)
      else some (false, Q.setUnit (Q.unit q) ⟨_, s.2⟩)

/-- Both calls of `TrySeparate` at the end of the two-qubit gates, `include/qunitclifford.hpp:124-125` and `:141-142`. -/
def QUC.separate2 (Q : QUC n) (c t : Fin n) : Option (QUC n) :=
  (Q.trySeparate c).bind fun s => (s.2.trySeparate t).map Prod.snd

/-- The common end of `CGate` and `SwapGate`: the units are composed, the gate is applied to both qubits,
`include/qunitclifford.hpp:119-125` and `:136-142`. -/
def QUC.joint (Q : QUC n) (c t : Fin n) (g : ℕ → ℕ → Gate) : Option (QUC n) :=
  (Q.entangle [c, t]).bind fun Q =>
    ((Q.heap (Q.unit c)).gate (g (Q.mapped c) (Q.mapped t))).bind fun o => (Q.setUnit (Q.unit c) o).separate2 c t

/-- `CGate`, `include/qunitclifford.hpp:103-126`. Where the control has a definite value, the one-qubit gate is called on the
target's unit with the number `target`, not `shards[target].mapped` (`:109` and `:114`). -/
def QUC.cGate (Q : QUC n) (c t : ℕ) (cfn : ℕ → ℕ → Gate) (fn : ℕ → Gate) (isAnti : Bool) : Option (QUC n) :=
  if h : t < n then
    (Q.prob c).bind fun s =>
      let Q := s.2
      let direct := ((Q.heap (Q.unit ⟨t, h⟩)).gate (fn t)).map (Q.setUnit (Q.unit ⟨t, h⟩))
      if s.1 = 0 then (if isAnti then direct else some Q)
      else if s.1 = 2 then (if isAnti then some Q else direct)
      else if hc : c < n then Q.joint ⟨c, hc⟩ ⟨t, h⟩ cfn else none
  else none

/-- `SwapGate`, `include/qunitclifford.hpp:127-143`; `Phase` with equal entries does nothing to the tableau
(`src/qstabilizer.cpp:2018-2020`). -/
def QUC.swapGate (Q : QUC n) (c t : ℕ) (g : ℕ → ℕ → Gate) : Option (QUC n) :=
  (Q.prob c).bind fun a =>
    (a.2.prob t).bind fun b =>
      if (a.1 = 0 ∧ b.1 = 2) ∨ (b.1 = 0 ∧ a.1 = 2) then b.2.swap c t
      else if h : c < n ∧ t < n then b.2.joint ⟨c, h.1⟩ ⟨t, h.2⟩ g else none

/-- `CZ` and `AntiCZ`, `include/qunitclifford.hpp:313-323` and `:351-363`; `Phase(-1, 1, c)` is `Z` up to a factor
(`src/qstabilizer.cpp:2022-2025`). -/
def QUC.cz (Q : QUC n) (c t : ℕ) (isAnti : Bool) : Option (QUC n) :=
  (Q.prob t).bind fun s =>
    if s.1 = 2 then s.2.gate1 .z c else s.2.cGate c t (if isAnti then .antiCz else .cz) .z isAnti

/-- `CNOT` and `AntiCNOT`, `include/qunitclifford.hpp:289-303` and `:325-339`. -/
def QUC.cnot (Q : QUC n) (c t : ℕ) (isAnti : Bool) : Option (QUC n) :=
  (Q.gate1 .h t).bind fun Q =>
    (Q.sepZ t).bind fun z =>
      if z then (Q.cz c t isAnti).bind fun Q => Q.gate1 .h t
      else (Q.gate1 .h t).bind fun Q => Q.cGate c t (if isAnti then .antiCnot else .cnot) .x isAnti

/-- The gate methods, `include/qunitclifford.hpp:288-436`. -/
def QUC.run (Q : QUC n) : Gate → Option (QUC n)
  | .cnot c t => Q.cnot c t false
  | .antiCnot c t => Q.cnot c t true
  | .cy c t => Q.cGate c t .cy .y false
  | .antiCy c t => Q.cGate c t .antiCy .y true
  | .cz c t => Q.cz c t false
  | .antiCz c t => Q.cz c t true
  | .swap c t => Q.swap c t
  | .iswap c t => Q.swapGate c t .iswap
  | .iiswap c t => Q.swapGate c t .iiswap
  | .h t => Q.gate1 .h t
  | .x t => Q.gate1 .x t
  | .y t => Q.gate1 .y t
  | .z t => Q.gate1 .z t
  | .s t => Q.gate1 .s t
  | .is t => Q.gate1 .is t

/-- `SetBit` of a unit of one qubit, `include/qinterface.hpp:2823-2828`: `M`, and `X` if the result is not `value`. The qubit
has just been measured, so `M` draws nothing (`false` stands for the bit that is not used). -/
def Obj.setBit (o : Obj) (value : Bool) : Option Obj :=
  (forceM o.tab 0 false false true false).bind fun s =>
    if value != s.1 then Obj.gate ⟨o.size, s.2⟩ (.x 0) else some ⟨o.size, s.2⟩

/-- `SeparateBit`, `src/qunitclifford.cpp:533-568`. -/
def QUC.separateBit (Q : QUC n) (value : Bool) (q : Fin n) : Option (Bool × QUC n) :=
  if (Q.heap (Q.unit q)).size ≤ 1 then ((Q.heap (Q.unit q)).setBit value).map fun o => (true, Q.setUnit (Q.unit q) o)
  else
    (trySeparate1 (Q.heap (Q.unit q)).tab (Q.mapped q)).bind fun s =>
      if s.1 then
        (Obj.decompose ⟨(Q.heap (Q.unit q)).size, s.2⟩ (Q.mapped q) 1).map fun p =>
          (true, Q.split q p.1 ⟨1, setPermutation 1 (idRow 1) (if value then 1 else 0)⟩)
      else some (false, Q.setUnit (Q.unit q) ⟨_, s.2⟩)

/-- `ForceM`, `src/qunitclifford.cpp:571-592`, with the drawn bit `rnd`. -/
def QUC.forceM (Q : QUC n) (t : ℕ) (res doForce doApply rnd : Bool) : Option (Bool × QUC n) :=
  if h : t < n then
    (Stab.forceM (Q.heap (Q.unit ⟨t, h⟩)).tab (Q.mapped ⟨t, h⟩) res doForce doApply rnd).bind fun s =>
      let Q := Q.setUnit (Q.unit ⟨t, h⟩) ⟨_, s.2⟩
      if !doApply then some (s.1, Q) else (Q.separateBit s.1 ⟨t, h⟩).map fun p => (s.1, p.2)
  else none

end Verif.Units
