import Verif.Model.QCircuit
import Verif.Model.Stabilizer
import Mathlib.Data.Nat.Digits.Lemmas

/-!
# Saving and loading

The stream operators of `src/common/functions.cpp`, `src/qcircuit.cpp`, `src/qstabilizer.cpp`, `src/qunitclifford.cpp` and
`src/qstabilizerhybrid.cpp`.

Simplifications. A stream is the list of its tokens: everything that is written is followed by a blank or a line break, and everything
that is read skips them. An integer is written as its decimal digits (`dec`), a complex number exactly: the callers ask for 36 digits
(`src/pinvoke_api.cpp:1011, 3826, 3844`), more than a `float` or `double` has. Reading fails (`none`) at the end of the stream, on
a token of the wrong kind, and for an integer that does not fit; the code does not look at the stream's state.
-/

namespace Verif.Stream

open Verif.Matrix2 Verif.QCirc Verif.Stab

/-- What is written between blanks: a word of characters, or a complex number. -/
inductive Tok where
  | word (w : List Char)
  | cx (z : ℂ)

/-- A digit, `std::to_string`. -/
def digit (d : ℕ) : Char := Char.ofNat (48 + d)

/-- The standard library's decimal notation. -/
def dec (n : ℕ) : List Char := if n = 0 then [digit 0] else (Nat.digits 10 n).reverse.map digit

/-- The standard library's `os << n` for an integer. -/
def num (n : ℕ) : Tok := .word (dec n)

/-- Something that reads. -/
abbrev Rd (α : Type) := List Tok → Option (α × List Tok)

/-- One after the other. -/
def Rd.bind {α β : Type} (a : Rd α) (f : α → Rd β) : Rd β := fun s => (a s).bind fun r => f r.1 r.2

/-- Nothing to read. -/
def Rd.pure {α : Type} (a : α) : Rd α := fun s => some (a, s)

/-- `count` times. -/
def Rd.rep {α : Type} (a : Rd α) : ℕ → Rd (List α)
  | 0 => Rd.pure []
  | k + 1 => a.bind fun x => (Rd.rep a k).bind fun xs => Rd.pure (x :: xs)

/-- The value of decimal digits, as the loop of `operator>>` builds it, without a bound. -/
def value (w : List Char) : ℕ := w.foldl (fun b c => b * 10 + (c.toNat - 48)) 0

/-- The standard library's `is >> n` for `size_t`. -/
def getSize : Rd ℕ
  | .word w :: s => if w ≠ [] ∧ (∀ c ∈ w, 48 ≤ c.toNat ∧ c.toNat < 58) ∧ value w < 2 ^ 64 then some (value w, s) else none
  | _ => none

/-- The standard library's `is >> b` for `bool`. -/
def getBool : Rd Bool := fun s => (getSize s).bind fun r => if r.1 = 0 then some (false, r.2) else if r.1 = 1 then some (true, r.2) else none

/-- The standard library's `is >> z` for a complex number. -/
def getCx : Rd ℂ
  | .cx z :: s => some (z, s)
  | _ => none

/-! ## `bitCapInt` -/

/-- `operator>>(is, bitCapInt)`, `src/common/functions.cpp:311-326`, modulo `2^128`. -/
def bci (w : List Char) : ℕ := w.foldl (fun b c => (b * 10 % 2 ^ 128 + (c.toNat + 4294967296 - 48) % 4294967296) % 2 ^ 128) 0

/-- Reading it from a stream. -/
def getBci : Rd ℕ
  | .word w :: s => some (bci w, s)
  | _ => none

/-- The loop of `operator<<(os, bitCapInt)` that collects the digits, `src/common/functions.cpp:289-299`, for at most `fuel` turns.
Its condition tests `b`, which never changes. -/
def digitLoop (b : ℕ) : ℕ → ℕ → List ℕ → Option (List ℕ)
  | 0, _, _ => none
  | fuel + 1, b', ds => if b ≠ 0 then digitLoop b fuel (b' / 10) (ds ++ [b' % 10]) else some ds

/-- `operator<<(os, bitCapInt)`, `src/common/functions.cpp:278-309`. -/
def putBci (b fuel : ℕ) : Option (List Char) :=
  if b = 0 then some [digit 0] else (digitLoop b fuel b []).map fun ds => ds.reverse.map digit

/-! ## Circuits -/

/-- The four numbers of a matrix. -/
def putMtrx (m : Mtrx) : List Tok := [.cx m.m0, .cx m.m1, .cx m.m2, .cx m.m3]

/-- Reading them. -/
def getMtrx : Rd Mtrx := getCx.bind fun a => getCx.bind fun b => getCx.bind fun c => getCx.bind fun d => Rd.pure ⟨a, b, c, d⟩

/-- `operator<<(os, QCircuitGatePtr)`, `src/qcircuit.cpp:17-36`. -/
def putGate (g : Gate ℕ) : List Tok :=
  num g.target :: num g.controls.length :: g.controls.map num ++
    num g.payloads.length :: g.payloads.flatMap fun e => num (e.1 % 2 ^ 64) :: putMtrx e.2

/-- `controls.insert`. -/
def insertSet (l : List ℕ) (c : ℕ) : List ℕ := if c ∈ l then l else l.orderedInsert (· ≤ ·) c

/-- `operator>>(is, QCircuitGatePtr)`, `src/qcircuit.cpp:38-66`, into a new gate (`src/qcircuit.cpp:92`). -/
def getGate : Rd (Gate ℕ) :=
  getSize.bind fun target =>
  getSize.bind fun cSize => (Rd.rep getSize cSize).bind fun cs =>
  getSize.bind fun pSize => (Rd.rep (getBci.bind fun k => getMtrx.bind fun m => Rd.pure (k, m)) pSize).bind fun ps =>
  Rd.pure ⟨target % 256, cs.foldl (fun l c => insertSet l (c % 256)) [], ps.foldl PMap.set []⟩

/-- `operator<<(os, QCircuitPtr)`, `src/qcircuit.cpp:68-79`. -/
def putCircuit (c : Circuit ℕ) : List Tok := num c.qubitCount :: num c.gates.length :: c.gates.flatMap putGate

/-- `operator>>(is, QCircuitPtr)`, `src/qcircuit.cpp:81-99`, into the circuit `c`. -/
def getCircuit (c : Circuit ℕ) : Rd (Circuit ℕ) :=
  getSize.bind fun n => getSize.bind fun k => (Rd.rep getGate k).bind fun gs =>
  Rd.pure { c with qubitCount := n % 256, gates := gs }

/-! ## Stabilizer tableaux -/

/-- The standard library's `os << b` for `bool`. -/
def putBool (b : Bool) : Tok := num (if b then 1 else 0)

/-- One row, `src/qstabilizer.cpp:2399-2409`. -/
def putRow {n : ℕ} (w : Row n) : List Tok :=
  (List.finRange n).map (fun j => putBool (w.x j)) ++ (List.finRange n).map (fun j => putBool (w.z j)) ++ [num w.r]

/-- `operator<<(os, QStabilizerPtr)`, `src/qstabilizer.cpp:2391-2413`. -/
def putTab {n : ℕ} (T : Tab n) : List Tok := num n :: (List.range (2 * n)).flatMap fun i => putRow ((gaussian T).1 i)

/-- One row, `src/qstabilizer.cpp:2426-2442`. -/
def getRow (n : ℕ) : Rd (Row n) :=
  (Rd.rep getBool n).bind fun xs => (Rd.rep getBool n).bind fun zs => getSize.bind fun r =>
  Rd.pure { x := fun j => xs.getD j false, z := fun j => zs.getD j false, r := r % 256 }

/-- `operator>>(is, QStabilizerPtr)`, `src/qstabilizer.cpp:2414-2446`. The qubit count is a `bitLenInt`; a larger number is not modelled. -/
def getTab : Rd (Σ n, Tab n) :=
  getSize.bind fun n => (Rd.rep (getRow n) (2 * n)).bind fun rows => Rd.pure ⟨n, fun i => rows.getD i (idRow n)⟩

/-! ## `QUnitClifford` -/

/-- A `QUnitClifford`: the shards as pairs of the index of a unit and the qubit in the unit (`CliffordShard`,
`include/qunitclifford.hpp:23-25`), and the units. -/
structure Units where
  shards : List (ℕ × ℕ)
  unit : ℕ → Σ n, Tab n

/-- The entries of `indexMap` for a unit, `src/qunitclifford.cpp:844-848`. -/
def Units.index (s : Units) (u : ℕ) : List (ℕ × ℕ) := s.shards.zipIdx.filterMap fun e => if e.1.1 = u then some (e.2, e.1.2) else none

/-- `operator<<(os, QUnitCliffordPtr)`, `src/qunitclifford.cpp:839-859`. The units come in the order of their addresses: `order`. -/
def putUnits (order : List ℕ) (s : Units) : List Tok :=
  num s.shards.length :: num order.length :: order.flatMap fun u =>
    num (s.index u).length :: (s.index u).flatMap (fun p => [num p.1, num p.2]) ++ putTab (s.unit u).2

/-- One unit, `src/qunitclifford.cpp:870-881`. -/
def getUnit : Rd (List (ℕ × ℕ) × Σ n, Tab n) :=
  getSize.bind fun k => (Rd.rep (getSize.bind fun t => getSize.bind fun m => Rd.pure (t % 256, m % 256)) k).bind fun ix =>
  getTab.bind fun T => Rd.pure (ix, T)

/-- `operator>>(is, QUnitCliffordPtr)`, `src/qunitclifford.cpp:860-889`. Unit `i` of the result is the `i`-th that was read; `fresh` are the
shards that `SetPermutation` left (one unit of one qubit each), and `none` is an index out of bounds. -/
def getUnits (fresh : ℕ → ℕ × ℕ) (rest : ℕ → Σ n, Tab n) : Rd Units :=
  getSize.bind fun n => getSize.bind fun k => (Rd.rep getUnit k).bind fun us => fun s =>
  if (us.flatMap fun u => u.1.map Prod.fst).all (· < n) then
    some (⟨us.zipIdx.foldl (fun l u => u.1.1.foldl (fun l p => l.set p.1 (u.2, p.2)) l) ((List.range n).map fresh),
      fun i => (us[i]?.map Prod.snd).getD (rest i)⟩, s)
  else none

/-! ## `QStabilizerHybrid` -/

/-- What `operator>>(is, QStabilizerHybridPtr)` does with the counts after the stabilizer of `size` qubits has been read,
`src/qstabilizerhybrid.cpp:2207-2228`: `ancillaCount`, and the qubits of the stabilizer (each with its buffer) that remain. `sep i` tells whether
`TrySeparate(i)` succeeded. -/
def hybridCounts (qbCount size : ℕ) (sep : ℕ → Bool) : ℕ × ℕ :=
  (size - qbCount, (List.range' qbCount (size - qbCount)).reverse.foldl (fun l i => if sep i then l - 1 else l) size)

end Verif.Stream
