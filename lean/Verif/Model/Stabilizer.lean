import Verif.Spec.Pauli

/-!
# `QStabilizer`: the tableau

`src/qstabilizer.cpp` and `include/qstabilizer.hpp`. A row is one line of the members `x`, `z`, `r`
(`include/qstabilizer.hpp:52-59`); the tableau has `2n + 1` rows, numbered from zero. `Dispatch`
(`include/qstabilizer.hpp:63`) runs its argument at once. Modelled is the default mode, `randGlobalPhase` set
(`include/qstabilizer.hpp:100`), in which the scalar `phaseOffset` is not tracked. Row numbers are `bitLenInt`, eight bits by
default; that `2n + 1` fits is assumed.
-/

namespace Verif.Stab

/-- One row of the tableau; `r` is a `uint8_t`: 0 for +1, 1 for i, 2 for -1, 3 for -i. -/
@[ext] structure Row (n : ℕ) where
  x : Fin n → Bool
  z : Fin n → Bool
  r : ℕ

/-- `xi[q] = b`. -/
def Row.setX {n : ℕ} (w : Row n) (q : Fin n) (b : Bool) : Row n := { w with x := Function.update w.x q b }

/-- `zi[q] = b`. -/
def Row.setZ {n : ℕ} (w : Row n) (q : Fin n) (b : Bool) : Row n := { w with z := Function.update w.z q b }

/-- `ri = (ri + 2U) & 0x3U`. -/
def Row.neg {n : ℕ} (w : Row n) : Row n := { w with r := (w.r + 2) &&& 3 }

/-- `BoolVector::swap(xi[c], xi[t])` and `BoolVector::swap(zi[c], zi[t])`. -/
def Row.swapBits {n : ℕ} (w : Row n) (c t : Fin n) : Row n :=
  { w with
    x := Function.update (Function.update w.x c (w.x t)) t (w.x c)
    z := Function.update (Function.update w.z c (w.z t)) t (w.z c) }

/-- Row update of `QStabilizer::CNOT`, `src/qstabilizer.cpp:855-882`. -/
def rowCNOT {n : ℕ} (c t : Fin n) (w : Row n) : Row n :=
  let w := if w.x c then w.setX t (!w.x t) else w
  if w.z t then
    let w := w.setZ c (!w.z c)
    if w.x c && (w.x t == w.z c) then w.neg else w
  else w

/-- Row update of `QStabilizer::AntiCNOT`, `src/qstabilizer.cpp:885-912`. -/
def rowAntiCNOT {n : ℕ} (c t : Fin n) (w : Row n) : Row n :=
  let w := if w.x c then w.setX t (!w.x t) else w
  if w.z t then
    let w := w.setZ c (!w.z c)
    if !w.x c || (w.x t != w.z c) then w.neg else w
  else w

/-- Row update of `QStabilizer::CY`, `src/qstabilizer.cpp:915-946`. -/
def rowCY {n : ℕ} (c t : Fin n) (w : Row n) : Row n :=
  let w := w.setZ t (w.z t ^^ w.x t)
  let w := if w.x c then w.setX t (!w.x t) else w
  let w := if w.z t then
      let w := if w.x c && (w.x t == w.z c) then w.neg else w
      w.setZ c (!w.z c)
    else w
  w.setZ t (w.z t ^^ w.x t)

/-- Row update of `QStabilizer::AntiCY`, `src/qstabilizer.cpp:949-980`. -/
def rowAntiCY {n : ℕ} (c t : Fin n) (w : Row n) : Row n :=
  let w := w.setZ t (w.z t ^^ w.x t)
  let w := if w.x c then w.setX t (!w.x t) else w
  let w := if w.z t then
      let w := if !w.x c || (w.x t != w.z c) then w.neg else w
      w.setZ c (!w.z c)
    else w
  w.setZ t (w.z t ^^ w.x t)

/-- Row update of `QStabilizer::CZ`, `src/qstabilizer.cpp:983-1019`. -/
def rowCZ {n : ℕ} (c t : Fin n) (w : Row n) : Row n :=
  let w := if w.x t then
      let w := w.setZ c (!w.z c)
      if w.x c && (w.z t == w.z c) then w.neg else w
    else w
  if w.x c then w.setZ t (!w.z t) else w

/-- Row update of `QStabilizer::AntiCZ`, `src/qstabilizer.cpp:1022-1057`. -/
def rowAntiCZ {n : ℕ} (c t : Fin n) (w : Row n) : Row n :=
  let w := if w.x t then
      let w := w.setZ c (!w.z c)
      if !w.x c || (w.z t != w.z c) then w.neg else w
    else w
  if w.x c then w.setZ t (!w.z t) else w

/-- Row update of `QStabilizer::Swap`, `src/qstabilizer.cpp:1059-1077`. -/
def rowSwap {n : ℕ} (c t : Fin n) (w : Row n) : Row n := w.swapBits c t

/-- Row update of `QStabilizer::ISwap`, `src/qstabilizer.cpp:1079-1119`. -/
def rowISwap {n : ℕ} (c t : Fin n) (w : Row n) : Row n :=
  let w := w.swapBits c t
  let w := if w.x t then
      let w := w.setZ c (!w.z c)
      if !w.x c && w.z t then w.neg else w
    else w
  let w := if w.x c then
      let w := w.setZ t (!w.z t)
      if w.z c && !w.x t then w.neg else w
    else w
  let w := w.setZ c (w.z c ^^ w.x c)
  w.setZ t (w.z t ^^ w.x t)

/-- Row update of `QStabilizer::IISwap`, `src/qstabilizer.cpp:1121-1161`. -/
def rowIISwap {n : ℕ} (c t : Fin n) (w : Row n) : Row n :=
  let w := w.setZ c (w.z c ^^ w.x c)
  let w := w.setZ t (w.z t ^^ w.x t)
  let w := if w.x c then
      let w := w.setZ t (!w.z t)
      if w.z c && !w.x t then w.neg else w
    else w
  let w := if w.x t then
      let w := w.setZ c (!w.z c)
      if !w.x c && w.z t then w.neg else w
    else w
  w.swapBits c t

/-- Row update of `QStabilizer::H`, `src/qstabilizer.cpp:1164-1178`. -/
def rowH {n : ℕ} (t : Fin n) (w : Row n) : Row n :=
  let w : Row n := { w with x := Function.update w.x t (w.z t), z := Function.update w.z t (w.x t) }
  if w.x t && w.z t then w.neg else w

/-- Row update of `QStabilizer::X`, `src/qstabilizer.cpp:1220-1235`. -/
def rowX {n : ℕ} (t : Fin n) (w : Row n) : Row n := if w.z t then w.neg else w

/-- Row update of `QStabilizer::Y`, `src/qstabilizer.cpp:1238-1254`. -/
def rowY {n : ℕ} (t : Fin n) (w : Row n) : Row n := if w.z t ^^ w.x t then w.neg else w

/-- Row update of `QStabilizer::Z`, `src/qstabilizer.cpp:1257-1280`. -/
def rowZ {n : ℕ} (t : Fin n) (w : Row n) : Row n := if w.x t then w.neg else w

/-- Row update of `QStabilizer::S`, `src/qstabilizer.cpp:1283-1313`. -/
def rowS {n : ℕ} (t : Fin n) (w : Row n) : Row n :=
  let w := if w.x t && w.z t then w.neg else w
  w.setZ t (w.z t ^^ w.x t)

/-- Row update of `QStabilizer::IS`, `src/qstabilizer.cpp:1316-1346`. -/
def rowIS {n : ℕ} (t : Fin n) (w : Row n) : Row n :=
  let w := w.setZ t (w.z t ^^ w.x t)
  if w.x t && w.z t then w.neg else w

/-! ## Rows -/

/-- The tableau: row number to row. Rows `0 .. n-1` are the destabilisers, `n .. 2n-1` the stabilisers, row `2n` the
scratch row. -/
abbrev Tab (n : ℕ) := ℕ → Row n

/-- One qubit's contribution to `e` in `clifford`, `src/qstabilizer.cpp:139-163`: `e` is a `bitLenInt` (8 bits) and
wraps. -/
def cliffordStep (xi zi xk zk : Bool) (e : ℕ) : ℕ :=
  let e := if xk && !zk then (e + (xi && zi).toNat + (256 - (!xi && zi).toNat)) % 256 else e
  let e := if xk && zk then (e + (!xi && zi).toNat + (256 - (xi && !zi).toNat)) % 256 else e
  if !xk && zk then (e + (xi && !zi).toNat + (256 - (xi && zi).toNat)) % 256 else e

/-- `QStabilizer::clifford`, `src/qstabilizer.cpp:131-168`. -/
def clifford {n : ℕ} (i k : Row n) : ℕ :=
  ((List.finRange n).foldl (fun e j => cliffordStep (i.x j) (i.z j) (k.x j) (k.z j) e) 0 + i.r + k.r) &&& 3

/-- `QStabilizer::rowmult`, `include/qstabilizer.hpp:194-203`, on the two rows (`i ≠ k`). -/
def rowmult {n : ℕ} (i k : Row n) : Row n :=
  { x := fun j => i.x j ^^ k.x j, z := fun j => i.z j ^^ k.z j, r := clifford i k }

/-- `rowmult(i, k)` on the tableau; for `i = k` the loop reads bits it has just cleared, with the same result. -/
def rowmultT {n : ℕ} (T : Tab n) (i k : ℕ) : Tab n := Function.update T i (rowmult (T i) (T k))

/-- `QStabilizer::rowcopy`, `include/qstabilizer.hpp:156-165`. -/
def rowcopyT {n : ℕ} (T : Tab n) (i k : ℕ) : Tab n := if i = k then T else Function.update T i (T k)

/-- `QStabilizer::rowswap`, `include/qstabilizer.hpp:167-176`. -/
def rowswapT {n : ℕ} (T : Tab n) (i k : ℕ) : Tab n :=
  if i = k then T else Function.update (Function.update T k (T i)) i (T k)

/-- The observable `Z_t` with phase `r`: what `rowset(i, t + n)` (`include/qstabilizer.hpp:178-192`) followed by an
assignment of `r[i]` leaves in row `i`. -/
def zRow {n : ℕ} (t : Fin n) (r : ℕ) : Row n := { x := fun _ => false, z := fun j => decide (j = t), r := r }

/-- The observable `X_t`: `rowset(i, t)`, `include/qstabilizer.hpp:178-192`. -/
def xRow {n : ℕ} (t : Fin n) : Row n := { x := fun j => decide (j = t), z := fun _ => false, r := 0 }

/-- A row of `I`s: the scratch row after construction, `src/qstabilizer.cpp:46-48`. -/
def idRow (n : ℕ) : Row n := { x := fun _ => false, z := fun _ => false, r := 0 }

/-- `QStabilizer::ParFor`, `src/qstabilizer.cpp:57-71`: the gate's row update on the first `2n` rows; an index outside
the register throws. -/
def parFor {n : ℕ} (T : Tab n) (fn : Row n → Row n) : Tab n := fun i => if i < 2 * n then fn (T i) else T i

/-- One column of the elimination in `gaussian`, `src/qstabilizer.cpp:186-205` for the X columns and `:212-228` for the Z
columns; `sel` reads the column's bit of a row. -/
def elimStep (n : ℕ) (sel : Row n → Bool) (s : Tab n × ℕ) : Tab n × ℕ :=
  match (List.range' s.2 (2 * n - s.2)).find? (fun k => sel (s.1 k)) with
  | none => s
  | some k =>
    let T := rowswapT s.1 s.2 k
    let T := rowswapT T (s.2 - n) (k - n)
    let T := (List.range' (s.2 + 1) (2 * n - (s.2 + 1))).foldl
      (fun T k2 => if sel (T k2) then rowmultT (rowmultT T k2 s.2) (s.2 - n) (k2 - n) else T) T
    (T, s.2 + 1)

/-- `QStabilizer::gaussian`, `src/qstabilizer.cpp:176-232`: the new tableau and the returned `g`. -/
def gaussian {n : ℕ} (T : Tab n) : Tab n × ℕ :=
  let s := (List.finRange n).foldl (fun s j => elimStep n (fun w => w.x j) s) (T, n)
  let g := s.2 - n
  let s := (List.finRange n).foldl (fun s j => elimStep n (fun w => w.z j) s) s
  (s.1, g)

/-- What `GetAmplitude` (`src/qstabilizer.cpp:501-531`) does to the tableau: elimination, then only the scratch row is
written (by `seed` and `rowmult`); its final contents are the argument `scr`. -/
def getAmplitudeT {n : ℕ} (T : Tab n) (scr : Row n) : Tab n := Function.update (gaussian T).1 (2 * n) scr

/-- The gates of `QStabilizer`. -/
inductive Gate where
  | cnot (c t : ℕ) | antiCnot (c t : ℕ) | cy (c t : ℕ) | antiCy (c t : ℕ) | cz (c t : ℕ) | antiCz (c t : ℕ)
  | swap (c t : ℕ) | iswap (c t : ℕ) | iiswap (c t : ℕ)
  | h (t : ℕ) | x (t : ℕ) | y (t : ℕ) | z (t : ℕ) | s (t : ℕ) | is (t : ℕ)
  deriving DecidableEq

/-- Two-qubit gate with the bounds check of `ParFor`. -/
def run2 {n : ℕ} (f : Fin n → Fin n → Row n → Row n) (c t : ℕ) (T : Tab n) : Option (Tab n) :=
  if h : c < n ∧ t < n then some (parFor T (f ⟨c, h.1⟩ ⟨t, h.2⟩)) else none

/-- One-qubit gate with the bounds check of `ParFor`. -/
def run1 {n : ℕ} (f : Fin n → Row n → Row n) (t : ℕ) (T : Tab n) : Option (Tab n) :=
  if h : t < n then some (parFor T (f ⟨t, h⟩)) else none

/-- The gate methods, `src/qstabilizer.cpp:855-1346`, `randGlobalPhase` set; the swaps return early for equal
arguments (`:1061`, `:1081`, `:1123`), and `Z` ends with a call of `GetAmplitude` (`:1277-1279`), which leaves `scr` in the
scratch row. `none` is a thrown `std::domain_error`. -/
def Gate.run {n : ℕ} (scr : Row n) : Gate → Tab n → Option (Tab n)
  | .cnot c t, T => run2 rowCNOT c t T
  | .antiCnot c t, T => run2 rowAntiCNOT c t T
  | .cy c t, T => run2 rowCY c t T
  | .antiCy c t, T => run2 rowAntiCY c t T
  | .cz c t, T => run2 rowCZ c t T
  | .antiCz c t, T => run2 rowAntiCZ c t T
  | .swap c t, T => if c = t then some T else run2 rowSwap c t T
  | .iswap c t, T => if c = t then some T else run2 rowISwap c t T
  | .iiswap c t, T => if c = t then some T else run2 rowIISwap c t T
  | .h t, T => run1 rowH t T
  | .x t, T => run1 rowX t T
  | .y t, T => run1 rowY t T
  | .z t, T => (run1 rowZ t T).map (getAmplitudeT · scr)
  | .s t, T => run1 rowS t T
  | .is t, T => run1 rowIS t T

/-- The rows `SetPermutation` writes before applying X gates, `src/qstabilizer.cpp:101-117`. -/
def initTab (n : ℕ) (scratch : Row n) : Tab n := fun i =>
  if h : i < n then xRow ⟨i, h⟩
  else if h : i - n < n then zRow ⟨i - n, h⟩ 0
  else { scratch with r := 0 }

/-- `QStabilizer::SetPermutation`, `src/qstabilizer.cpp:89-128`: X on every qubit set in `perm`. -/
def setPermutation (n : ℕ) (scratch : Row n) (perm : ℕ) : Tab n :=
  (List.finRange n).foldl (fun T (j : Fin n) => if perm.testBit j.val then parFor T (rowX j) else T) (initTab n scratch)

/-! ## Measurement -/

/-- The multiplications `rowmult(i, p)` of `ForceM` over the row numbers `l`, `src/qstabilizer.cpp:1470-1481`. -/
def measMult {n : ℕ} (t : Fin n) (p : ℕ) (l : List ℕ) (T : Tab n) : Tab n :=
  l.foldl (fun T i => if (T i).x t then rowmultT T i p else T) T

/-- Collapse of an indeterminate qubit, `src/qstabilizer.cpp:1462-1481`, with pivot `p`. -/
def collapse {n : ℕ} (T : Tab n) (t : Fin n) (p : ℕ) (result : Bool) : Tab n :=
  let T := rowcopyT T p (p + n)
  let T := Function.update T (p + n) (zRow t (if result then 2 else 0))
  measMult t p (List.range' (p + 1) (2 * n - (p + 1))) (measMult t p (List.range p) T)

/-- The scratch row built for a determinate qubit, `src/qstabilizer.cpp:1536-1541`, with pivot `m`. -/
def scratchRow {n : ℕ} (T : Tab n) (t : Fin n) (m : ℕ) : Tab n :=
  let T := rowcopyT T (2 * n) (m + n)
  (List.range' (m + 1) (n - (m + 1))).foldl (fun T i => if (T i).x t then rowmultT T (2 * n) (i + n) else T) T

/-- First `p < n` for which `f` holds; the loops at `src/qstabilizer.cpp:1441-1447` and `:1523-1527`. -/
def findRow (n : ℕ) (f : ℕ → Bool) : Option ℕ := (List.range n).find? f

/-- `QStabilizer::ForceM`, `src/qstabilizer.cpp:1422-1548`, with the drawn bit `rnd`. `none` is a thrown exception. -/
def forceM {n : ℕ} (T : Tab n) (t : ℕ) (result doForce doApply rnd : Bool) : Option (Bool × Tab n) :=
  if h : t < n then
    if doForce && !doApply then some (result, T)
    else
      match findRow n (fun p => (T (p + n)).x ⟨t, h⟩) with
      | some p =>
        let result := if doForce then result else rnd
        if !doApply then some (result, T)
        else some (result, collapse T ⟨t, h⟩ p result)
      | none =>
        match findRow n (fun m => (T m).x ⟨t, h⟩) with
        | none => some (false, T)
        | some m =>
          let T' := scratchRow T ⟨t, h⟩ m
          let v := decide ((T' (2 * n)).r ≠ 0)
          if doForce && (result != v) then none else some (v, T')
  else none

/-- `QStabilizer::IsSeparableZ`, `src/qstabilizer.cpp:1351-1371`. -/
def isSeparableZ {n : ℕ} (T : Tab n) (t : ℕ) : Option Bool :=
  if h : t < n then some ((List.range n).all fun p => !(T (p + n)).x ⟨t, h⟩) else none

/-- `QStabilizer::Prob`, `src/qstabilizer.cpp:1881-1889`: twice the returned probability, and the tableau left behind (by
`M`, `include/qinterface.hpp:1013`, with the drawn bit `rnd`). -/
def probT {n : ℕ} (T : Tab n) (t : ℕ) (rnd : Bool) : Option (ℕ × Tab n) :=
  match isSeparableZ T t with
  | none => none
  | some true => (forceM T t false false true rnd).map fun s => (if s.1 then 2 else 0, s.2)
  | some false => some (1, T)

/-- One call on the simulator: a gate, a measurement, or a query that reduces the tableau (`GetAmplitude` and the other
read-outs). -/
inductive Call (n : ℕ) where
  | gate (g : Gate) (scr : Row n)
  | measure (t : ℕ) (result doForce doApply rnd : Bool)
  | query (scr : Row n)

/-- Running one call; `none` is a thrown exception. -/
def Call.run {n : ℕ} : Call n → Tab n → Option (Tab n)
  | .gate g scr, T => g.run scr T
  | .measure t result doForce doApply rnd, T => (forceM T t result doForce doApply rnd).map Prod.snd
  | .query scr, T => some (getAmplitudeT T scr)

/-- A history of calls. -/
def runCalls {n : ℕ} : List (Call n) → Tab n → Option (Tab n)
  | [], T => some T
  | c :: cs, T => (c.run T).bind (runCalls cs)

end Verif.Stab
