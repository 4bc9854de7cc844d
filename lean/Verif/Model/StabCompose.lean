import Verif.Model.Stabilizer

/-!
# `QStabilizer`: putting registers together and taking them apart

`src/qstabilizer.cpp:1376-1420`, `:1551-1760`, `:2372-2389` and `include/qstabilizer.hpp:490-506`, with `randGlobalPhase` set. The
members `x`, `z`, `r` are vectors whose elements with equal number are one `Row`; inserting into or erasing from the three vectors is
one operation on rows. Numbers of rows are `bitLenInt`, eight bits by default; that they fit is assumed.
-/

namespace Verif.Stab

/-- `std::vector::insert` of `len` elements `g` before position `pos`. -/
def insertAt {α : Type} (f : ℕ → α) (pos : ℕ) (g : ℕ → α) (len : ℕ) : ℕ → α := fun i =>
  if i < pos then f i else if i < pos + len then g (i - pos) else f (i - len)

/-- `std::vector::erase` of the elements from position `pos` to `fin - 1`. -/
def eraseAt {α : Type} (f : ℕ → α) (pos fin : ℕ) : ℕ → α := fun i => if i < pos then f i else f (i + (fin - pos))

/-- The elements of a bit vector, with `false` past its end. -/
def ext {n : ℕ} (b : Fin n → Bool) : ℕ → Bool := fun k => if h : k < n then b ⟨k, h⟩ else false

/-- A row of this register: `xi.insert(xi.begin() + start, length, false)` and the same for `zi`,
`src/qstabilizer.cpp:1574-1579`. -/
def padRow {n : ℕ} (m start : ℕ) (w : Row n) : Row (n + m) :=
  { x := fun j => insertAt (ext w.x) start (fun _ => false) m j
    z := fun j => insertAt (ext w.z) start (fun _ => false) m j
    r := w.r }

/-- A row of the other register: `start` bits `false` inserted at its beginning and `n - start` at its end,
`src/qstabilizer.cpp:1584-1592` and `:1597-1605`. -/
def insRow {m : ℕ} (n start : ℕ) (v : Row m) : Row (n + m) :=
  { x := fun j => insertAt (insertAt (ext v.x) 0 (fun _ => false) start) (start + m) (fun _ => false) (n - start) j
    z := fun j => insertAt (insertAt (ext v.z) 0 (fun _ => false) start) (start + m) (fun _ => false) (n - start) j
    r := v.r }

/-- `QStabilizer::Compose(toCopy, start)`, `src/qstabilizer.cpp:1551-1608`: the returned position and the tableau. `none` is a
thrown exception. -/
def compose {n m : ℕ} (T : Tab n) (S : Tab m) (start : ℕ) : Option (ℕ × Tab (n + m)) :=
  if n < start then none
  else
    let rows : Tab (n + m) := fun i => padRow m start (T i)
    let rows := insertAt rows (n + start) (fun i => insRow n start (S (m + i))) m
    let rows := insertAt rows start (fun i => insRow n start (S i)) m
    some (start, rows)

/-- Whether row `w` has a bit set in the columns from `a` to `b - 1`. -/
def bitsSet {n : ℕ} (w : Row n) (a b : ℕ) : Bool := (List.range' a (b - a)).any fun j => ext w.x j || ext w.z j

/-- `isBadBitRange`, `include/common/qrack_functions.hpp:170-173`, with `bitLenInt` sums that do not wrap. -/
def badRange (start length n : ℕ) : Bool := decide (n < start + length)

/-- `QStabilizer::CanDecomposeDispose`, `src/qstabilizer.cpp:1618-1680`: the answer, and the tableau left behind. -/
def canDecompose {n : ℕ} (T : Tab n) (start length : ℕ) : Option (Bool × Tab n) :=
  if badRange start length n then none
  else if n = 1 then some (true, T)
  else
    let G := (gaussian T).1
    let fin := start + length
    let bad := fun i a b => bitsSet (G i) a b || bitsSet (G (i + n)) a b
    if (List.range start).any (fun i => bad i start fin) then some (false, G)
    else if (List.range' fin (n - fin)).any (fun i => bad i start fin) then some (false, G)
    else if (List.range' start length).any (fun i => bad i 0 start || bad i fin n) then some (false, G)
    else some (true, G)

/-- `std::copy(xj.begin() + start, xj.begin() + end, dest->x[i].begin())`, the same for `z`, and the copy of `r`;
`src/qstabilizer.cpp:1713-1731`. -/
def cutRow {n : ℕ} (m start : ℕ) (w : Row n) : Row m :=
  { x := fun j => ext w.x (start + j), z := fun j => ext w.z (start + j), r := w.r }

/-- `xi.erase(xi.begin() + start, xi.begin() + end)` and the same for `zi`, `src/qstabilizer.cpp:1744-1749`. -/
def dropRow {n m : ℕ} (start : ℕ) (w : Row (n + m)) : Row n :=
  { x := fun j => eraseAt (ext w.x) start (start + m) j, z := fun j => eraseAt (ext w.z) start (start + m) j, r := w.r }

/-- `QStabilizer::DecomposeDispose`, `src/qstabilizer.cpp:1682-1760`, on a register of `n + m` qubits: what is left, of `n`
qubits, and the tableau of `dest`, of `m` qubits, which was `D` (for `Dispose` it is not used). Without qubits to remove nothing is
done. -/
def decompose {n m : ℕ} (T : Tab (n + m)) (start : ℕ) (D : Tab m) : Option (Tab n × Tab m) :=
  if badRange start m (n + m) then none
  else if hm : m = 0 then some (fun i => dropRow start (T i), D)
  else
    let G := (gaussian T).1
    let fin := start + m
    let dest : Tab m := fun i =>
      if i < m then cutRow m start (G (start + i))
      else if i < 2 * m then cutRow m start (G (n + m + start + (i - m)))
      else D i
    let rows := eraseAt G (n + m + start) (n + m + fin)
    let rows := eraseAt rows start fin
    some (fun i => dropRow start (rows i), dest)

/-- `QStabilizer::TrySeparate(qubit)`, `include/qstabilizer.hpp:491`. -/
def trySeparate1 {n : ℕ} (T : Tab n) (q : ℕ) : Option (Bool × Tab n) := canDecompose T q 1

/-- `QStabilizer::TrySeparate(qubit1, qubit2)`, `include/qstabilizer.hpp:492-506`. -/
def trySeparate2 {n : ℕ} (T : Tab n) (q1 q2 : ℕ) : Option (Bool × Tab n) :=
  let (q1, q2) := if q2 < q1 then (q2, q1) else (q1, q2)
  ((Gate.swap q1 0).run (idRow n) T).bind fun T =>
    ((Gate.swap q2 1).run (idRow n) T).bind fun T =>
      (canDecompose T 0 2).bind fun s =>
        ((Gate.swap q2 1).run (idRow n) s.2).bind fun T =>
          ((Gate.swap q1 0).run (idRow n) T).map fun T => (s.1, T)

/-- The exchanges of `TrySeparate(qubits)`, one after the other. -/
def swaps {n : ℕ} : List (ℕ × ℕ) → Tab n → Option (Tab n)
  | [], T => some T
  | p :: l, T => ((Gate.swap p.1 p.2).run (idRow n) T).bind (swaps l)

/-- `QStabilizer::TrySeparate(qubits, ignored)`, `src/qstabilizer.cpp:2372-2389`. -/
def trySeparateList {n : ℕ} (T : Tab n) (qubits : List ℕ) : Option (Bool × Tab n) :=
  let l := qubits.mergeSort.zipIdx
  (swaps l T).bind fun T =>
    (canDecompose T 0 qubits.length).bind fun s => (swaps l.reverse s.2).map fun T => (s.1, T)

/-- `QStabilizer::IsSeparableX`, `src/qstabilizer.cpp:1376-1383`: the answer and the tableau. -/
def isSeparableX {n : ℕ} (T : Tab n) (t : ℕ) : Option (Bool × Tab n) :=
  ((Gate.h t).run (idRow n) T).bind fun T =>
    (isSeparableZ T t).bind fun b => ((Gate.h t).run (idRow n) T).map fun T => (b, T)

/-- `QStabilizer::IsSeparableY`, `src/qstabilizer.cpp:1388-1395`. -/
def isSeparableY {n : ℕ} (T : Tab n) (t : ℕ) : Option (Bool × Tab n) :=
  ((Gate.is t).run (idRow n) T).bind fun T =>
    (isSeparableX T t).bind fun s => ((Gate.s t).run (idRow n) s.2).map fun T => (s.1, T)

/-- `QStabilizer::IsSeparable`, `src/qstabilizer.cpp:1404-1419`. -/
def isSeparable {n : ℕ} (T : Tab n) (t : ℕ) : Option (ℕ × Tab n) :=
  (isSeparableZ T t).bind fun z =>
    if z then some (1, T)
    else (isSeparableX T t).bind fun s =>
      if s.1 then some (2, s.2)
      else (isSeparableY s.2 t).bind fun u => if u.1 then some (3, u.2) else some (0, u.2)

end Verif.Stab
