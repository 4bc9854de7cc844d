import Verif.Model.GateCode

/-!
# The default modular multiplications of `QInterface`

`src/qinterface/arithmetic.cpp:127-273`: `MULModNOut`, `IMULModNOut` and their controlled versions, as the lists of calls they make. They are
inherited by every simulator type that is not a `QAlu`. Simplifications as in `Verif/Model/GateCode.lean`; moduli are below `2^64` and
products below `2^128`.
-/

namespace Verif.Circ

/-- `log2`, `include/common/qrack_functions.hpp:88-113, 131-134`: with the intrinsics (the default) the argument zero is undefined. -/
def log2C (n : ℕ) : Option ℕ := if n = 0 then none else some (Nat.log2 n)

/-- `isPowerOfTwo`, `include/common/qrack_functions.hpp:162-168`, of the modulus. -/
def powTwo (modN : ℕ) : Bool := decide (modN ≠ 0 ∧ modN &&& (modN - 1) = 0)

/-- The length of the output register, `src/qinterface/arithmetic.cpp:130-131, 168-169, 204-205, 243-244`. -/
def outLen (modN : ℕ) : ℕ := if powTwo modN then Nat.log2 modN else Nat.log2 modN + 1

/-- The loop over the input qubits of `MULModNOut`, `src/qinterface/arithmetic.cpp:132-141`. -/
def addParts (toMul modN inStart outStart len : ℕ) : List Op :=
  (List.range len).flatMap fun i =>
    if toMul * 2 ^ i % modN = 0 then [] else cinc (toMul * 2 ^ i % modN) outStart (outLen modN) [inStart + i]

/-- `QInterface::MULModNOut`, `src/qinterface/arithmetic.cpp:127-161`; `none` is undefined behaviour. -/
def mulModN (toMul modN inStart outStart len : ℕ) : Option (List Op) :=
  if powTwo modN then some (addParts toMul modN inStart outStart len)
  else (log2C (2 ^ len / modN)).map fun lDiff =>
    let c := inStart + len - (lDiff + 1)
    addParts toMul modN inStart outStart len ++
    (List.range (2 ^ len / modN)).flatMap (fun _ =>
      dec modN inStart len ++ [.x c] ++ cdec modN outStart (outLen modN) [c] ++ [.x c]) ++
    (List.range (2 ^ len / modN)).flatMap fun _ => inc modN inStart len

/-- The loop over the input qubits of `IMULModNOut`, `src/qinterface/arithmetic.cpp:187-195`. -/
def subParts (toMul modN inStart outStart len : ℕ) : List Op :=
  (List.range len).flatMap fun i =>
    if toMul * 2 ^ i % modN = 0 then [] else cdec (toMul * 2 ^ i % modN) outStart (outLen modN) [inStart + i]

/-- `QInterface::IMULModNOut`, `src/qinterface/arithmetic.cpp:165-196`; the logarithm is taken for every modulus. -/
def iMulModN (toMul modN inStart outStart len : ℕ) : Option (List Op) :=
  (log2C (2 ^ len / modN)).map fun lDiff =>
    let c := inStart + len - (lDiff + 1)
    (if powTwo modN then []
     else
      (List.range (2 ^ len / modN)).flatMap (fun _ => dec modN inStart len) ++
      (List.range (2 ^ len / modN)).flatMap fun _ =>
        [.x c] ++ cinc modN outStart (outLen modN) [c] ++ [.x c] ++ inc modN inStart len) ++
    subParts toMul modN inStart outStart len

/-- The loop over the input qubits of `CMULModNOut`, `src/qinterface/arithmetic.cpp:206-216`. -/
def cAddParts (toMul modN inStart outStart len : ℕ) (cs : List ℕ) : List Op :=
  (List.range len).flatMap fun i =>
    if toMul * 2 ^ i % modN = 0 then [] else cinc (toMul * 2 ^ i % modN) outStart (outLen modN) (cs ++ [inStart + i])

/-- `QInterface::CMULModNOut`, `src/qinterface/arithmetic.cpp:201-234`. -/
def cMulModN (toMul modN inStart outStart len : ℕ) (cs : List ℕ) : Option (List Op) :=
  if powTwo modN then some (cAddParts toMul modN inStart outStart len cs)
  else (log2C (2 ^ len / modN)).map fun lDiff =>
    let c := inStart + len - (lDiff + 1)
    cAddParts toMul modN inStart outStart len cs ++
    (List.range (2 ^ len / modN)).flatMap (fun _ =>
      cdec modN inStart len cs ++ [.x c] ++ cdec modN outStart (outLen modN) (cs ++ [c]) ++ [.x c]) ++
    (List.range (2 ^ len / modN)).flatMap fun _ => cinc modN inStart len cs

/-- The loop over the input qubits of `CIMULModNOut`, `src/qinterface/arithmetic.cpp:264-272`. -/
def cSubParts (toMul modN inStart outStart len : ℕ) (cs : List ℕ) : List Op :=
  (List.range len).flatMap fun i =>
    if toMul * 2 ^ i % modN = 0 then [] else cdec (toMul * 2 ^ i % modN) outStart (outLen modN) (cs ++ [inStart + i])

/-- `QInterface::CIMULModNOut`, `src/qinterface/arithmetic.cpp:240-273`. -/
def cIMulModN (toMul modN inStart outStart len : ℕ) (cs : List ℕ) : Option (List Op) :=
  (log2C (2 ^ len / modN)).map fun lDiff =>
    let c := inStart + len - (lDiff + 1)
    (if powTwo modN then []
     else
      (List.range (2 ^ len / modN)).flatMap (fun _ => cdec modN inStart len cs) ++
      (List.range (2 ^ len / modN)).flatMap fun _ =>
        [.x c] ++ cinc modN outStart (outLen modN) (cs ++ [c]) ++ [.x c] ++ cinc modN inStart len cs) ++
    cSubParts toMul modN inStart outStart len cs

end Verif.Circ
