import Verif.Model.Circ

/-!
# Gate-level routines of `QInterface`

`src/qinterface/logic.cpp`, `src/qinterface/arithmetic.cpp`, `src/qinterface/qinterface.cpp:294-397` and
`include/qinterface.hpp`. Each routine is the list of calls it makes. Qubit indices are assumed small
enough that `bitLenInt` (8 bits) arithmetic on them does not wrap.
-/

namespace Verif.Circ

/-- `CNOT`, `include/qinterface.hpp:709-713`. -/
def cnot (c t : ℕ) : Op := .mcx [c] t

/-- `CCNOT`, `include/qinterface.hpp:687-691`. -/
def ccnot (c1 c2 t : ℕ) : Op := .mcx [c1, c2] t

/-- `AntiCNOT`, `include/qinterface.hpp:720-724`. -/
def antiCnot (c t : ℕ) : Op := .macx [c] t

/-- `AntiCCNOT`, `include/qinterface.hpp:698-702`. -/
def antiCcnot (c1 c2 t : ℕ) : Op := .macx [c1, c2] t

/-! ## Logic gates -/

/-- What a logic routine does: a sequence of gates, a thrown `std::invalid_argument`, or (only `XOR`
with three equal arguments) a `SetBit(q, false)` followed by gates. -/
inductive Logic where
  | gates (p : List Op)
  | throws
  | reset (q : ℕ) (p : List Op)
  deriving DecidableEq

/-- Gates that follow. -/
def Logic.andThen : Logic → List Op → Logic
  | .gates p, q => .gates (p ++ q)
  | .throws, _ => .throws
  | .reset b p, q => .reset b (p ++ q)

/-- `QInterface::AND`, `src/qinterface/logic.cpp:18-34`. -/
def land (a b o : ℕ) : Logic :=
  if a = b ∧ b = o then .gates []
  else if a = o ∨ b = o then .throws
  else if a = b then .gates [cnot a o]
  else .gates [ccnot a b o]

/-- `QInterface::OR`, `src/qinterface/logic.cpp:36-53`. -/
def lor (a b o : ℕ) : Logic :=
  if a = b ∧ b = o then .gates []
  else if a = o ∨ b = o then .throws
  else if a = b then .gates [.x o, antiCnot a o]
  else .gates [.x o, antiCcnot a b o]

/-- `QInterface::XOR`, `src/qinterface/logic.cpp:55-69`. -/
def lxor (a b o : ℕ) : Logic :=
  if a = b ∧ b = o then .reset o []
  else if a = o then .gates [cnot b o]
  else if b = o then .gates [cnot a o]
  else .gates [cnot a o, cnot b o]

/-- `QInterface::NAND`, `src/qinterface/logic.cpp:71-75`. -/
def lnand (a b o : ℕ) : Logic := (land a b o).andThen [.x o]

/-- `QInterface::NOR`, `src/qinterface/logic.cpp:77-81`. -/
def lnor (a b o : ℕ) : Logic := (lor a b o).andThen [.x o]

/-- `QInterface::XNOR`, `src/qinterface/logic.cpp:83-87`. -/
def lxnor (a b o : ℕ) : Logic := (lxor a b o).andThen [.x o]

/-- `QInterface::CLAND`, `src/qinterface/logic.cpp:89-94`. -/
def cland (q : ℕ) (c : Bool) (o : ℕ) : List Op := if c ∧ q ≠ o then [cnot q o] else []

/-- `QInterface::CLOR`, `src/qinterface/logic.cpp:96-103`. -/
def clor (q : ℕ) (c : Bool) (o : ℕ) : List Op := if c then [.x o] else if q ≠ o then [cnot q o] else []

/-- `QInterface::CLXOR`, `src/qinterface/logic.cpp:105-115`. -/
def clxor (q : ℕ) (c : Bool) (o : ℕ) : List Op :=
  if q ≠ o then (if c then [.x o] else []) ++ [cnot q o] else if c then [.x o] else []

/-- `QInterface::CLNAND`, `src/qinterface/logic.cpp:117-121`. -/
def clnand (q : ℕ) (c : Bool) (o : ℕ) : List Op := cland q c o ++ [.x o]

/-- `QInterface::CLNOR`, `src/qinterface/logic.cpp:123-127`. -/
def clnor (q : ℕ) (c : Bool) (o : ℕ) : List Op := clor q c o ++ [.x o]

/-- `QInterface::CLXNOR`, `src/qinterface/logic.cpp:129-133`. -/
def clxnor (q : ℕ) (c : Bool) (o : ℕ) : List Op := clxor q c o ++ [.x o]

/-! ## Adders -/

/-- `QInterface::FullAdd`, `include/qinterface.hpp:2220-2230`. -/
def fullAdd (a b c o : ℕ) : List Op := [ccnot a b o, cnot a b, ccnot b c o, cnot b c, cnot a b]

/-- `QInterface::IFullAdd`, `include/qinterface.hpp:2237-2249`. -/
def iFullAdd (a b c o : ℕ) : List Op := [cnot a b, cnot b c, ccnot b c o, cnot a b, ccnot a b o]

/-- `QInterface::CFullAdd`, `src/qinterface/arithmetic.cpp:276-299`. -/
def cFullAdd (cs : List ℕ) (a b c o : ℕ) : List Op :=
  [.mcx (cs ++ [a, b]) o, .mcx (cs ++ [a]) b, .mcx (cs ++ [b, c]) o, .mcx (cs ++ [b]) c, .mcx (cs ++ [a]) b]

/-- `QInterface::CIFullAdd`, `src/qinterface/arithmetic.cpp:302-328`. -/
def ciFullAdd (cs : List ℕ) (a b c o : ℕ) : List Op :=
  [.mcx (cs ++ [a]) b, .mcx (cs ++ [b]) c, .mcx (cs ++ [b, c]) o, .mcx (cs ++ [a]) b, .mcx (cs ++ [a, b]) o]

/-- `QInterface::ADC`, `src/qinterface/arithmetic.cpp:330-348`. -/
def adc (in1 in2 out len carry : ℕ) : List Op :=
  if len = 0 then []
  else if len = 1 then fullAdd in1 in2 carry out ++ [.swap carry out]
  else
    fullAdd in1 in2 carry out ++
    (List.range' 1 (len - 1 - 1)).flatMap (fun i => fullAdd (in1 + i) (in2 + i) (out + i) (out + i + 1)) ++
    fullAdd (in1 + (len - 1)) (in2 + (len - 1)) (out + (len - 1)) carry

/-- `QInterface::IADC`, `src/qinterface/arithmetic.cpp:350-369`; the loop counts down from `end - 1`
to `1`. -/
def iadc (in1 in2 out len carry : ℕ) : List Op :=
  if len = 0 then []
  else if len = 1 then .swap carry out :: iFullAdd in1 in2 carry out
  else
    iFullAdd (in1 + (len - 1)) (in2 + (len - 1)) (out + (len - 1)) carry ++
    (List.range' 1 (len - 1 - 1)).reverse.flatMap
      (fun i => iFullAdd (in1 + i) (in2 + i) (out + i) (out + i + 1)) ++
    iFullAdd in1 in2 carry out

/-- `QInterface::CADC`, `src/qinterface/arithmetic.cpp:371-390`. -/
def cadc (cs : List ℕ) (in1 in2 out len carry : ℕ) : List Op :=
  if len = 0 then []
  else if len = 1 then cFullAdd cs in1 in2 carry out ++ [.cswap cs carry out]
  else
    cFullAdd cs in1 in2 carry out ++
    (List.range' 1 (len - 1 - 1)).flatMap (fun i => cFullAdd cs (in1 + i) (in2 + i) (out + i) (out + i + 1)) ++
    cFullAdd cs (in1 + (len - 1)) (in2 + (len - 1)) (out + (len - 1)) carry

/-- `QInterface::CIADC`, `src/qinterface/arithmetic.cpp:392-411`. -/
def ciadc (cs : List ℕ) (in1 in2 out len carry : ℕ) : List Op :=
  if len = 0 then []
  else if len = 1 then .cswap cs carry out :: ciFullAdd cs in1 in2 carry out
  else
    ciFullAdd cs (in1 + (len - 1)) (in2 + (len - 1)) (out + (len - 1)) carry ++
    (List.range' 1 (len - 1 - 1)).reverse.flatMap
      (fun i => ciFullAdd cs (in1 + i) (in2 + i) (out + i) (out + i + 1)) ++
    ciFullAdd cs in1 in2 carry out

/-! ## Ripple increments -/

/-- `QInterface::INC`, `src/qinterface/arithmetic.cpp:20-50`. -/
def inc (toAdd start len : ℕ) : List Op :=
  if len = 0 then []
  else if len = 1 then (if toAdd &&& 1 ≠ 0 then [.x start] else [])
  else (List.range len).flatMap fun i =>
    if (toAdd >>> i) &&& 1 = 0 then []
    else .x (start + i) :: (List.range (len - 1 - i)).map fun j =>
      .macx ((List.range (j + 1)).map (start + i + ·)) (start + ((i + j + 1) % len))

/-- `QInterface::DEC`, `include/qinterface.hpp:2134-2138`, and `QAlu::DEC`, `src/qalu.cpp:22-26`: the
addend `pow2(length) - toSub`, in 128-bit unsigned arithmetic. -/
def negAddend (toSub len : ℕ) : ℕ := (2 ^ 128 + 2 ^ len % 2 ^ 128 - toSub % 2 ^ 128) % 2 ^ 128

/-- `QInterface::DEC`, `include/qinterface.hpp:2134-2138`. -/
def dec (toSub start len : ℕ) : List Op := inc (negAddend toSub len) start len

/-- `QInterface::INCDECC`, `src/qinterface/arithmetic.cpp:53-76`. -/
def incdecc (toAdd start len carryIndex : ℕ) : List Op :=
  if len = 0 then []
  else (List.range len).flatMap fun i =>
    if (toAdd >>> i) &&& 1 = 0 then []
    else .x (start + i) :: (List.range (len - i)).map fun j =>
      .macx ((List.range (j + 1)).map fun k => if i + k = len then carryIndex else start + (i + k))
        (start + (if i + j + 1 = len then carryIndex else (i + j + 1) % len))

/-- `QInterface::CINC`, `src/qinterface/arithmetic.cpp:79-122`. -/
def cinc (toAdd start len : ℕ) (cs : List ℕ) : List Op :=
  if cs = [] then inc toAdd start len
  else if len = 0 then []
  else if len = 1 then (if toAdd &&& 1 ≠ 0 then [.mcx cs start] else [])
  else
    cs.map .x ++
    ((List.range len).flatMap fun i =>
      if (toAdd >>> i) &&& 1 = 0 then []
      else .macx cs (start + i) :: (List.range (len - 1 - i)).map fun j =>
        .macx (cs ++ (List.range (j + 1)).map (start + i + ·)) (start + ((i + j + 1) % len))) ++
    cs.map .x

/-- `QInterface::CDEC`, `include/qinterface.hpp:2174-2179`. -/
def cdec (toSub start len : ℕ) (cs : List ℕ) : List Op := cinc (negAddend toSub len) start len cs

/-- `QInterface::MULModNOut`, `src/qinterface/arithmetic.cpp:127-162`; `log2` is `Nat.log2` (argument
below `2^64`) and products are below `2^128`. -/
def mulModNOut (toMul modN inStart outStart len : ℕ) : List Op :=
  let isPow2 := decide (modN ≠ 0 ∧ modN &&& (modN - 1) = 0)
  let oLength := if isPow2 then Nat.log2 modN else Nat.log2 modN + 1
  let part := (List.range len).flatMap fun i =>
    let partMul := toMul * 2 ^ i % modN
    if partMul = 0 then [] else cinc partMul outStart oLength [inStart + i]
  if isPow2 then part
  else
    let diffPow := 2 ^ len / modN
    let c := inStart + len - (Nat.log2 diffPow + 1)
    part ++ (List.range diffPow).flatMap (fun _ =>
      dec modN inStart len ++ [.x c] ++ cdec modN outStart oLength [c] ++ [.x c]) ++
    (List.range diffPow).flatMap fun _ => inc modN inStart len

/-! ## Rotations and shifts -/

/-- `QInterface::Reverse`, `include/qinterface.hpp:2431-2438`. -/
def reverse (first last : ℕ) : List Op :=
  if 0 < last ∧ first < last - 1 then .swap first (last - 1) :: reverse (first + 1) (last - 1) else []
  termination_by last - first
  decreasing_by omega

/-- `QInterface::ROL`, `src/qinterface/qinterface.cpp:295-311`. -/
def rol (shift start len : ℕ) : List Op :=
  if len < 2 then []
  else if shift % len = 0 then []
  else reverse start (start + len) ++ reverse start (start + shift % len) ++
    reverse (start + shift % len) (start + len)

/-- `QInterface::ROR`, `src/qinterface/qinterface.cpp:314-330`. -/
def ror (shift start len : ℕ) : List Op :=
  if len < 2 then []
  else if shift % len = 0 then []
  else reverse (start + shift % len) (start + len) ++ reverse start (start + shift % len) ++
    reverse start (start + len)

/-- The calls of the shift routines: gates, and `SetReg(start, length, 0)`. -/
inductive ShiftOp where
  | gates (p : List Op)
  | clear (start len : ℕ)

/-- `QInterface::ASL`, `src/qinterface/qinterface.cpp:333-348`. -/
def asl (shift start len : ℕ) : List ShiftOp :=
  if len = 0 ∨ shift = 0 then []
  else if shift ≥ len then [.clear start len]
  else [.gates [.swap (start + len - 1) (start + len - 2)], .gates (rol shift start len),
    .clear start shift, .gates [.swap (start + len - 1) (start + len - 2)]]

/-- `QInterface::ASR`, `src/qinterface/qinterface.cpp:351-366`. -/
def asr (shift start len : ℕ) : List ShiftOp :=
  if len = 0 ∨ shift = 0 then []
  else if shift ≥ len then [.clear start len]
  else [.gates [.swap (start + len - 1) (start + len - 2)], .gates (ror shift start len),
    .clear (start + len - shift - 1) shift, .gates [.swap (start + len - 1) (start + len - 2)]]

/-- `QInterface::LSL`, `src/qinterface/qinterface.cpp:369-381`. -/
def lsl (shift start len : ℕ) : List ShiftOp :=
  if len = 0 ∨ shift = 0 then []
  else if shift ≥ len then [.clear start len]
  else [.gates (rol shift start len), .clear start shift]

/-- `QInterface::LSR`, `src/qinterface/qinterface.cpp:384-396`. -/
def lsr (shift start len : ℕ) : List ShiftOp :=
  if len = 0 ∨ shift = 0 then []
  else if shift ≥ len then [.clear start len]
  else [.clear start shift, .gates (ror shift start len)]

end Verif.Circ
