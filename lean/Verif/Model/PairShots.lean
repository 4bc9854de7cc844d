import Verif.Model.UnitRead

/-!
# Many shots over several units

`QUnitClifford::MultiShotMeasureMask`, `src/qunitclifford.cpp:594-699`, and the same loops in `QUnit::MultiShotMeasureMask`,
`src/qunit.cpp:1524-1669`: every unit returns how often it saw each of its values, and the counts of the units are put together. A
`std::map` from values to counts is the list of its entries in the order of the keys. The units are taken in the order of first use (the
code: in the order of their addresses). `picks k` is the draw `(int)(shotsLeft * Rand())` made when `k` shots are left; it may be any number.
-/

namespace Verif.Units

open Verif.Stab

variable {n : ℕ}

/-- `std::map<bitCapInt, int>`, `src/qunitclifford.cpp:623`. -/
abbrev Hist := List (ℕ × ℕ)

/-- `++(m[k])`, `src/qunitclifford.cpp:687`. -/
def Hist.bump (k : ℕ) : Hist → Hist
  | [] => [(k, 1)]
  | (a, c) :: l => if k < a then (k, 1) :: (a, c) :: l else if k = a then (a, c + 1) :: l else (a, c) :: Hist.bump k l

/-- `m[k] = v`, `src/qunitclifford.cpp:637,663`. -/
def Hist.put (k v : ℕ) : Hist → Hist
  | [] => [(k, v)]
  | (a, c) :: l => if k < a then (k, v) :: (a, c) :: l else if k = a then (a, v) :: l else (a, c) :: Hist.put k v l

/-- The shots of the map one by one, as the two loops of `src/qunitclifford.cpp:672-673` go over them. -/
def Hist.expand (h : Hist) : List ℕ := h.flatMap fun e => List.replicate e.2 e.1

/-- `while (pick > count)` from `begin()`, then the count of the entry is lowered and an empty entry erased,
`src/qunitclifford.cpp:680-692`: the key, and the map left. `acc` is the sum of the counts passed. Reading at `end()` is `none`, and
so is a count below zero. -/
def Hist.take (pick : ℕ) : ℕ → Hist → Option (ℕ × Hist)
  | _, [] => none
  | acc, (k, c) :: l =>
    if acc + c < pick then (Hist.take pick (acc + c) l).map fun s => (s.1, (k, c) :: s.2)
    else if c = 0 then none else some (k, if c = 1 then l else (k, c - 1) :: l)

/-- `shotsLeft`, `topLevelResults` and `nCombinedResults`, `src/qunitclifford.cpp:629,657,671`. -/
structure PairSt where
  left : ℕ
  top : Hist
  res : Hist

/-- One shot of the pairing, `src/qunitclifford.cpp:674-692`. -/
def pairStep (picks : ℕ → ℕ) (s : PairSt) (key : ℕ) : Option PairSt :=
  (s.top.take (if s.left ≤ picks s.left then s.left - 1 else picks s.left) 0).map fun p =>
    { left := s.left - 1, top := p.2, res := s.res.bump (key ||| p.1) }

/-- Every entry of the larger map with the only entry of the other, or the random pairing, `src/qunitclifford.cpp:657-695`. -/
def pairMaps (shots : ℕ) (picks : ℕ → ℕ) (combined top : Hist) : Option Hist :=
  match top with
  | [e] => some (combined.foldl (fun m f => m.put (f.1 ||| e.1) f.2) [])
  | _ => (combined.expand.foldlM (pairStep picks) { left := shots, top := top, res := [] }).map PairSt.res

/-- The counts of one more unit, `src/qunitclifford.cpp:642-695`. A unit that returns an empty map is `none` (`begin()` is read). -/
def combine (shots : ℕ) (picks : ℕ → ℕ) (combined top : Hist) : Option Hist :=
  if top = [] then none
  else if top.head? = some (0, shots) then some combined
  else if combined.head? = some (0, shots) then some top
  else if combined.length < top.length then pairMaps shots picks top combined
  else pairMaps shots picks combined top

/-- The mask of a unit's value, `src/qunitclifford.cpp:631-636`: bit `i` of the value goes to bit `pos[i]`. -/
def spread (pos : List ℕ) (v : ℕ) : ℕ :=
  pos.zipIdx.foldl (fun m p => if v.testBit p.2 = true then m ||| 2 ^ p.1 else m) 0

/-- `topLevelResults` from `unitResults`, `src/qunitclifford.cpp:629-638`. -/
def topLevel (pos : List ℕ) (h : Hist) : Hist := h.foldl (fun m f => m.put (spread pos f.1) f.2) []

/-- The loop over the units, `src/qunitclifford.cpp:626-696`: each with the positions of its qubits in the result, the map it returned, and
its draws. -/
def pairUnits (shots : ℕ) : List (List ℕ × Hist × (ℕ → ℕ)) → Hist → Option Hist
  | [], h => some h
  | u :: l, h => (combine shots u.2.2 h (topLevel u.1 u.2.1)).bind (pairUnits shots l)

/-- The qubits of unit `u` in the list: the positions in the list and the places in the unit, `src/qunitclifford.cpp:612-621`. -/
def QUC.group (Q : QUC n) (qs : List (Fin n)) (u : ℕ) : List ℕ × List ℕ :=
  let l := qs.zipIdx.filter fun p => Q.unit p.1 = u
  (l.map fun p => p.2, l.map fun p => Q.mapped p.1)

/-- `QUnitClifford::MultiShotMeasureMask`, `src/qunitclifford.cpp:594-699`, for the qubits `qs`. `results u l` is the map that unit `u` returns for its
places `l`. A qubit named twice throws (`:609-610`). -/
def QUC.multiShot (Q : QUC n) (qs : List (Fin n)) (shots : ℕ) (results : ℕ → List ℕ → Hist) (picks : ℕ → ℕ → ℕ) : Option Hist :=
  if shots = 0 then some []
  else if qs.Nodup then
    pairUnits shots ((uniq (qs.map Q.unit)).map fun u => ((Q.group qs u).1, results u (Q.group qs u).2, picks u)) [(0, shots)]
  else none

/-- The loop over the bits that are not in any unit, `src/qunit.cpp:1642-1669`: position, probability of 1, and the draws, which are numbered
by the shots before. -/
noncomputable def singles : List (ℕ × ℝ × (ℕ → ℝ)) → Hist → Hist
  | [], h => h
  | (pos, prob, rand) :: l, h =>
    if prob = 0 then singles l h
    else if prob = 1 then singles l (h.foldl (fun m f => m.put (f.1 ||| 2 ^ pos) f.2) [])
    else singles l (h.expand.zipIdx.foldl (fun m s => m.bump (if prob < rand s.2 then s.1 else s.1 ||| 2 ^ pos)) [])

end Verif.Units
