import Verif.Model.EngineMask
import Verif.Model.Matrix2
import Verif.Model.QFT
import Verif.Model.Utils

/-!
# The gates `QInterface` builds out of `Mtrx` and `MCMtrx`

`include/qinterface.hpp:173-184, 485-1376` and `src/qinterface/gates.cpp`, `src/qinterface/rotational.cpp`. Only `Mtrx` and `MCMtrx`
are pure virtual (`include/qinterface.hpp:485, 490`); every other gate has a default body that a simulator type inherits unless it
overrides it. A default body is modelled as the list of calls to the two pure virtual gates that it makes, in order.

Simplifications:
* amplitudes and matrices are exact, `IS_NORM_0` tests for zero, `REAL1_EPSILON` is zero;
* a default body that calls another overridable gate calls that gate's default body;
* `std::pow(-ONE_CMPLX, x)` is `exp(s * i * pi * x)` for a sign `s`, see `Verif/Model/QFT.lean`;
* qubit indices are natural numbers.
-/

namespace Verif.Defaults

open Verif.Engine Complex Classical

/-- A call of one of the two pure virtual gates, `include/qinterface.hpp:485, 490`. -/
inductive Prim where
  | mtrx (m : M2) (t : ℕ)
  | mc (cs : List ℕ) (m : M2) (t : ℕ)

/-- A simulator type as the default bodies see it: its two gates and `randGlobalPhase` (`include/qinterface.hpp:141`); `none` is an
exception. -/
structure Backend (S : Type) where
  rgp : S → Bool
  mtrx : S → M2 → ℕ → Option S
  mcMtrx : S → List ℕ → M2 → ℕ → Option S

/-- The calls made one after another. -/
def exec {S : Type} (B : Backend S) : List Prim → S → Option S
  | [], s => some s
  | .mtrx m t :: p, s => (B.mtrx s m t).bind (exec B p)
  | .mc cs m t :: p, s => (B.mcMtrx s cs m t).bind (exec B p)

/-! ## Phase and inversion, with and without controls -/

/-- `Phase`, `include/qinterface.hpp:516-524`. -/
noncomputable def phase (r : Bool) (tl br : ℂ) (q : ℕ) : List Prim :=
  if (r = true ∨ 1 - tl = 0) ∧ tl - br = 0 then [] else [.mtrx ⟨tl, 0, 0, br⟩ q]

/-- `Invert`, `include/qinterface.hpp:529-533`. -/
def invert (tr bl : ℂ) (q : ℕ) : List Prim := [.mtrx ⟨0, tr, bl, 0⟩ q]

/-- `MCPhase`, `include/qinterface.hpp:538-547`. -/
noncomputable def mcPhase (cs : List ℕ) (tl br : ℂ) (t : ℕ) : List Prim :=
  if 1 - tl = 0 ∧ 1 - br = 0 then [] else [.mc cs ⟨tl, 0, 0, br⟩ t]

/-- `MCInvert`, `include/qinterface.hpp:553-558`. -/
def mcInvert (cs : List ℕ) (tr bl : ℂ) (t : ℕ) : List Prim := [.mc cs ⟨0, tr, bl, 0⟩ t]

/-- `X`, `Y`, `Z`, `include/qinterface.hpp:1084, 1101, 1117`. -/
def x (q : ℕ) : List Prim := invert 1 1 q
noncomputable def y (q : ℕ) : List Prim := invert (-I) I q
noncomputable def z (r : Bool) (q : ℕ) : List Prim := phase r 1 (-1) q

/-- `XMask`, `src/qinterface/gates.cpp:101-110`. -/
def xMask (mask : ℕ) : List Prim := (maskQubits mask).flatMap x

/-- The mask of the controls, `include/qinterface.hpp:175-178` and `src/qinterface/gates.cpp:272-275`. -/
def ctrlMask (cs : List ℕ) : ℕ := cs.foldl (fun m c => m ||| 2 ^ c) 0

/-- `MACWrapper`, `include/qinterface.hpp:173-184`. -/
def macWrapper (cs : List ℕ) (fn : List ℕ → List Prim) : List Prim :=
  xMask (ctrlMask cs) ++ fn cs ++ xMask (ctrlMask cs)

/-- `MACPhase`, `include/qinterface.hpp:563-573`. -/
noncomputable def macPhase (cs : List ℕ) (tl br : ℂ) (t : ℕ) : List Prim :=
  if 1 - tl = 0 ∧ 1 - br = 0 then [] else macWrapper cs fun lc => mcPhase lc tl br t

/-- `MACInvert`, `include/qinterface.hpp:579-585`. -/
def macInvert (cs : List ℕ) (tr bl : ℂ) (t : ℕ) : List Prim := macWrapper cs fun lc => mcInvert lc tr bl t

/-- `MACMtrx`, `include/qinterface.hpp:495-504`. -/
noncomputable def macMtrx (cs : List ℕ) (m : M2) (t : ℕ) : List Prim :=
  if m.b = 0 ∧ m.c = 0 then macPhase cs m.a m.d t
  else if m.a = 0 ∧ m.d = 0 then macInvert cs m.b m.c t
  else macWrapper cs fun lc => [.mc lc m t]

/-- The loops of `UCMtrx` that apply `X` to the controls whose bit of `perm` is `v`, `src/qinterface/gates.cpp:33-38, 39-44, 49-53,
55-59`. -/
def xWhere (v : Bool) (cs : List ℕ) (perm : ℕ) : List Prim :=
  (List.range cs.length).flatMap fun i => if perm.testBit i = v then x (cs.getD i 0) else []

/-- `UCMtrx`, `src/qinterface/gates.cpp:23-60`. -/
noncomputable def ucMtrx (cs : List ℕ) (m : M2) (t perm : ℕ) : List Prim :=
  let setCount := ((List.range cs.length).filter fun i => perm.testBit i).length
  if setCount <<< 1 > cs.length then xWhere false cs perm ++ [.mc cs m t] ++ xWhere false cs perm
  else xWhere true cs perm ++ macMtrx cs m t ++ xWhere true cs perm

/-- `UCPhase`, `include/qinterface.hpp:591-600`. -/
noncomputable def ucPhase (cs : List ℕ) (tl br : ℂ) (t perm : ℕ) : List Prim :=
  if 1 - tl = 0 ∧ 1 - br = 0 then [] else ucMtrx cs ⟨tl, 0, 0, br⟩ t perm

/-- `UCInvert`, `include/qinterface.hpp:606-611`. -/
noncomputable def ucInvert (cs : List ℕ) (tr bl : ℂ) (t perm : ℕ) : List Prim := ucMtrx cs ⟨0, tr, bl, 0⟩ t perm

/-- `UniformlyControlledSingleBit`, `src/qinterface/gates.cpp:62-82`. -/
noncomputable def uniform (cs : List ℕ) (t : ℕ) (ms : ℕ → M2) (skipPowers : List ℕ) (skipVal : ℕ) : List Prim :=
  let maxI := 2 ^ cs.length - 1
  cs.flatMap x ++
  ((List.range maxI).flatMap fun lcv =>
    .mc cs (ms (Utils.pushApart 128 lcv skipPowers ||| skipVal)) t :: xWhere true cs (lcv ^^^ (lcv + 1))) ++
  [.mc cs (ms (Utils.pushApart 128 maxI skipPowers ||| skipVal)) t]

/-- `ZeroPhaseFlip`, `src/qinterface/gates.cpp:84-99`. -/
noncomputable def zeroPhaseFlip (r : Bool) (start length : ℕ) : List Prim :=
  if length = 0 then []
  else if length = 1 then phase r (-1) 1 start
  else macPhase ((List.range (length - 1)).map (start + ·)) (-1) 1 (start + (length - 1))

/-! ## Named gates -/

/-- `SQRT1_2_R1`, `SQRT2_R1` (`include/common/qrack_types.hpp`). -/
noncomputable def s12 : ℝ := Real.sqrt (1 / 2)
noncomputable def s2 : ℝ := Real.sqrt 2

/-- The matrix in `H`, `include/qinterface.hpp:913-919`; also `had` of `src/qinterface/gates.cpp:299, 350` and of `CH`. -/
noncomputable def hM : M2 := ⟨s12, s12, s12, -s12⟩

/-- `SqrtH`, `include/qinterface.hpp:926-936`. -/
noncomputable def sqrtHM : M2 :=
  ⟨⟨(1 + s2) / (2 * s2), (-1 + s2) / (2 * s2)⟩, ⟨s12 / 2, -s12 / 2⟩, ⟨s12 / 2, -s12 / 2⟩, ⟨(-1 + s2) / (2 * s2), (1 + s2) / (2 * s2)⟩⟩

/-- `SH`, `include/qinterface.hpp:943-950`. -/
noncomputable def shM : M2 := ⟨s12, s12, ⟨0, s12⟩, ⟨0, -s12⟩⟩

/-- `HIS`, `include/qinterface.hpp:957-964`. -/
noncomputable def hisM : M2 := ⟨s12, ⟨0, -s12⟩, s12, ⟨0, s12⟩⟩

/-- `SqrtX`, `ISqrtX`, `include/qinterface.hpp:1133-1153`. -/
noncomputable def sqrtXM : M2 := ⟨⟨1 / 2, 1 / 2⟩, ⟨1 / 2, -1 / 2⟩, ⟨1 / 2, -1 / 2⟩, ⟨1 / 2, 1 / 2⟩⟩
noncomputable def isqrtXM : M2 := ⟨⟨1 / 2, -1 / 2⟩, ⟨1 / 2, 1 / 2⟩, ⟨1 / 2, 1 / 2⟩, ⟨1 / 2, -1 / 2⟩⟩

/-- `SqrtY`, `ISqrtY`, `include/qinterface.hpp:1162-1183`. -/
noncomputable def sqrtYM : M2 := ⟨⟨1 / 2, 1 / 2⟩, ⟨-1 / 2, -1 / 2⟩, ⟨1 / 2, 1 / 2⟩, ⟨1 / 2, 1 / 2⟩⟩
noncomputable def isqrtYM : M2 := ⟨⟨1 / 2, -1 / 2⟩, ⟨1 / 2, -1 / 2⟩, ⟨-1 / 2, 1 / 2⟩, ⟨1 / 2, -1 / 2⟩⟩

/-- `SqrtW`, `ISqrtW`, `include/qinterface.hpp:1190-1211`. -/
noncomputable def sqrtWM : M2 := ⟨⟨s12, 0⟩, ⟨-1 / 2, -1 / 2⟩, ⟨1 / 2, -1 / 2⟩, ⟨s12, 0⟩⟩
noncomputable def isqrtWM : M2 := ⟨⟨s12, 0⟩, ⟨1 / 2, 1 / 2⟩, ⟨-1 / 2, 1 / 2⟩, ⟨s12, 0⟩⟩

/-- `H`, `SqrtH`, `SH`, `HIS`, `SqrtX` and the others: one call of `Mtrx`, at the lines of their matrices. -/
noncomputable def h (q : ℕ) : List Prim := [.mtrx hM q]
noncomputable def sqrtH (q : ℕ) : List Prim := [.mtrx sqrtHM q]
noncomputable def sh (q : ℕ) : List Prim := [.mtrx shM q]
noncomputable def his (q : ℕ) : List Prim := [.mtrx hisM q]
noncomputable def sqrtX (q : ℕ) : List Prim := [.mtrx sqrtXM q]
noncomputable def isqrtX (q : ℕ) : List Prim := [.mtrx isqrtXM q]
noncomputable def sqrtY (q : ℕ) : List Prim := [.mtrx sqrtYM q]
noncomputable def isqrtY (q : ℕ) : List Prim := [.mtrx isqrtYM q]
noncomputable def sqrtW (q : ℕ) : List Prim := [.mtrx sqrtWM q]
noncomputable def isqrtW (q : ℕ) : List Prim := [.mtrx isqrtWM q]

/-- The phase of `T`, `complex(SQRT1_2_R1, SQRT1_2_R1)` (`C_SQRT_I` of `src/qinterface/gates.cpp:18`), and of `IT`
(`C_SQRT_N_I`, line 19). -/
noncomputable def sqrtI : ℂ := ⟨s12, s12⟩
noncomputable def sqrtNI : ℂ := ⟨s12, -s12⟩

/-- `S`, `IS`, `T`, `IT`, `include/qinterface.hpp:1027, 1034, 1041, 1048`. -/
noncomputable def s (r : Bool) (q : ℕ) : List Prim := phase r 1 I q
noncomputable def is (r : Bool) (q : ℕ) : List Prim := phase r 1 (-I) q
noncomputable def t (r : Bool) (q : ℕ) : List Prim := phase r 1 sqrtI q
noncomputable def it (r : Bool) (q : ℕ) : List Prim := phase r 1 sqrtNI q

/-- `PhaseRootN`, `include/qinterface.hpp:1055-1062`. -/
noncomputable def phaseRootN (sg : ℤ) (r : Bool) (n q : ℕ) : List Prim := if n = 0 then [] else phase r 1 (rootN sg n) q

/-- `CNOT`, `AntiCNOT`, `CCNOT`, `AntiCCNOT`, `include/qinterface.hpp:687-724`. -/
def cnot (c q : ℕ) : List Prim := mcInvert [c] 1 1 q
def antiCnot (c q : ℕ) : List Prim := macInvert [c] 1 1 q
def ccnot (c1 c2 q : ℕ) : List Prim := mcInvert [c1, c2] 1 1 q
def antiCcnot (c1 c2 q : ℕ) : List Prim := macInvert [c1, c2] 1 1 q

/-- `CY`, `AntiCY`, `CCY`, `AntiCCY`, `include/qinterface.hpp:732-770`. -/
noncomputable def cy (c q : ℕ) : List Prim := mcInvert [c] (-I) I q
noncomputable def antiCy (c q : ℕ) : List Prim := macInvert [c] (-I) I q
noncomputable def ccy (c1 c2 q : ℕ) : List Prim := mcInvert [c1, c2] (-I) I q
noncomputable def antiCcy (c1 c2 q : ℕ) : List Prim := macInvert [c1, c2] (-I) I q

/-- `CZ`, `AntiCZ`, `CCZ`, `AntiCCZ`, `include/qinterface.hpp:778-816`. -/
noncomputable def cz (c q : ℕ) : List Prim := mcPhase [c] 1 (-1) q
noncomputable def antiCz (c q : ℕ) : List Prim := macPhase [c] 1 (-1) q
noncomputable def ccz (c1 c2 q : ℕ) : List Prim := mcPhase [c1, c2] 1 (-1) q
noncomputable def antiCcz (c1 c2 q : ℕ) : List Prim := macPhase [c1, c2] 1 (-1) q

/-- `CH`, `AntiCH`, `include/qinterface.hpp:1219-1241`. -/
noncomputable def ch (c q : ℕ) : List Prim := [.mc [c] hM q]
noncomputable def antiCh (c q : ℕ) : List Prim := macMtrx [c] hM q

/-- `CS`, `AntiCS`, `CIS`, `AntiCIS`, `CT`, `CIT`, `include/qinterface.hpp:1249-1313`. -/
noncomputable def cs (c q : ℕ) : List Prim := mcPhase [c] 1 I q
noncomputable def antiCs (c q : ℕ) : List Prim := macPhase [c] 1 I q
noncomputable def cis (c q : ℕ) : List Prim := mcPhase [c] 1 (-I) q
noncomputable def antiCis (c q : ℕ) : List Prim := macPhase [c] 1 (-I) q
noncomputable def ct (c q : ℕ) : List Prim := mcPhase [c] 1 sqrtI q
noncomputable def cit (c q : ℕ) : List Prim := mcPhase [c] 1 sqrtNI q

/-- `CPhaseRootN`, `AntiCPhaseRootN`, `CIPhaseRootN`, `AntiCIPhaseRootN`, `include/qinterface.hpp:1321-1377`. -/
noncomputable def cPhaseRootN (sg : ℤ) (n c q : ℕ) : List Prim := if n = 0 then [] else mcPhase [c] 1 (rootN sg n) q
noncomputable def antiCPhaseRootN (sg : ℤ) (n c q : ℕ) : List Prim := if n = 0 then [] else macPhase [c] 1 (rootN sg n) q
noncomputable def ciPhaseRootN (sg : ℤ) (n c q : ℕ) : List Prim := if n = 0 then [] else mcPhase [c] 1 (irootN sg n) q
noncomputable def antiCIPhaseRootN (sg : ℤ) (n c q : ℕ) : List Prim := if n = 0 then [] else macPhase [c] 1 (irootN sg n) q

/-! ## Masks -/

/-- `ZMask`, `src/qinterface/gates.cpp:144-153`. -/
noncomputable def zMask (r : Bool) (mask : ℕ) : List Prim := (maskQubits mask).flatMap (z r)

/-- `PhaseRootNMask`, `src/qinterface/gates.cpp:155-164`. -/
noncomputable def phaseRootNMask (sg : ℤ) (r : Bool) (n mask : ℕ) : List Prim := (maskQubits mask).flatMap (phaseRootN sg r n)

/-- `PhaseFlip`, `include/qinterface.hpp:2341`. -/
noncomputable def phaseFlip (r : Bool) : List Prim := phase r (-1) (-1) 0

/-- `YMask`, `src/qinterface/gates.cpp:112-142`, for a mask that is not zero (`log2` of zero is not modelled). -/
noncomputable def yMask (r : Bool) (mask : ℕ) : List Prim :=
  if 2 ^ Nat.log2 mask = mask then y (Nat.log2 mask)
  else zMask r mask ++ xMask mask ++
    if r = true then []
    else if parity4 mask = 1 then phase r I I 0
    else if parity4 mask = 2 then phaseFlip r
    else if parity4 mask = 3 then phase r (-I) (-I) 0
    else []

/-- `PhaseParity`, `src/qinterface/gates.cpp:399-424`. -/
noncomputable def phaseParity (r : Bool) (radians : ℝ) (mask : ℕ) : List Prim :=
  if mask = 0 then []
  else
    let qs := maskQubits mask
    let last := qs.length - 1
    ((List.range last).flatMap fun i => cnot (qs.getD i 0) (qs.getD (i + 1) 0)) ++
    phase r ((Real.cos (radians / 2) : ℂ) - I * (Real.sin (radians / 2) : ℂ))
      ((Real.cos (radians / 2) : ℂ) + I * (Real.sin (radians / 2) : ℂ)) (qs.getD last 0) ++
    ((List.range last).flatMap fun i => cnot (qs.getD (last - (i + 1)) 0) (qs.getD (last - i) 0))

/-! ## Exchanges -/

/-- `Swap`, `src/qinterface/gates.cpp:166-175`. -/
def swap (q1 q2 : ℕ) : List Prim := if q1 = q2 then [] else cnot q1 q2 ++ cnot q2 q1 ++ cnot q1 q2

/-- `ISwap`, `src/qinterface/gates.cpp:177-187`. -/
noncomputable def iswap (r : Bool) (q1 q2 : ℕ) : List Prim :=
  if q1 = q2 then [] else swap q1 q2 ++ cz q1 q2 ++ s r q1 ++ s r q2

/-- `IISwap`, `src/qinterface/gates.cpp:189-199`. -/
noncomputable def iiswap (r : Bool) (q1 q2 : ℕ) : List Prim :=
  if q1 = q2 then [] else is r q2 ++ is r q1 ++ cz q1 q2 ++ swap q1 q2

/-- `SqrtSwap`, `src/qinterface/gates.cpp:201-222`. -/
noncomputable def sqrtSwap (r : Bool) (q1 q2 : ℕ) : List Prim :=
  if q1 = q2 then []
  else cnot q1 q2 ++ h q1 ++ it r q2 ++ t r q1 ++ h q2 ++ h q1 ++ cnot q1 q2 ++ h q1 ++ h q2 ++ it r q1 ++ h q1 ++ cnot q1 q2 ++
    is r q1 ++ s r q2

/-- `ISqrtSwap`, `src/qinterface/gates.cpp:224-245`. -/
noncomputable def isqrtSwap (r : Bool) (q1 q2 : ℕ) : List Prim :=
  if q1 = q2 then []
  else is r q2 ++ s r q1 ++ cnot q1 q2 ++ h q1 ++ t r q1 ++ h q2 ++ h q1 ++ cnot q1 q2 ++ h q1 ++ h q2 ++ it r q1 ++ t r q2 ++
    h q1 ++ cnot q1 q2

/-- `CSwap`, `src/qinterface/gates.cpp:247-268`. -/
def cswap (cs : List ℕ) (q1 q2 : ℕ) : List Prim :=
  if cs = [] then swap q1 q2
  else if q1 = q2 then []
  else mcInvert (cs ++ [q1]) 1 1 q2 ++ mcInvert (cs ++ [q2]) 1 1 q1 ++ mcInvert (cs ++ [q1]) 1 1 q2

/-- `AntiCSwap`, `src/qinterface/gates.cpp:270-280`. -/
def antiCswap (cs : List ℕ) (q1 q2 : ℕ) : List Prim := xMask (ctrlMask cs) ++ cswap cs q1 q2 ++ xMask (ctrlMask cs)

/-- `CSqrtSwap`, `src/qinterface/gates.cpp:282-329`. -/
noncomputable def csqrtSwap (r : Bool) (cs : List ℕ) (q1 q2 : ℕ) : List Prim :=
  if cs = [] then sqrtSwap r q1 q2
  else if q1 = q2 then []
  else
    [.mc (cs ++ [q1]) ⟨0, 1, 1, 0⟩ q2, .mc cs hM q1, .mc cs ⟨1, 0, 0, sqrtNI⟩ q2, .mc cs ⟨1, 0, 0, sqrtI⟩ q1, .mc cs hM q2,
      .mc cs hM q1, .mc (cs ++ [q1]) ⟨0, 1, 1, 0⟩ q2, .mc cs hM q1, .mc cs hM q2, .mc cs ⟨1, 0, 0, sqrtNI⟩ q1, .mc cs hM q1,
      .mc (cs ++ [q1]) ⟨0, 1, 1, 0⟩ q2, .mc cs ⟨1, 0, 0, -I⟩ q1, .mc cs ⟨1, 0, 0, I⟩ q2]

/-- `CISqrtSwap`, `src/qinterface/gates.cpp:331-373` (no shortcut for empty controls). -/
noncomputable def cisqrtSwap (cs : List ℕ) (q1 q2 : ℕ) : List Prim :=
  if q1 = q2 then []
  else
    [.mc cs ⟨1, 0, 0, -I⟩ q2, .mc cs ⟨1, 0, 0, I⟩ q1, .mc (cs ++ [q1]) ⟨0, 1, 1, 0⟩ q2, .mc cs hM q1, .mc cs ⟨1, 0, 0, sqrtI⟩ q1,
      .mc cs hM q2, .mc cs hM q1, .mc (cs ++ [q1]) ⟨0, 1, 1, 0⟩ q2, .mc cs hM q1, .mc cs hM q2, .mc cs ⟨1, 0, 0, sqrtNI⟩ q1,
      .mc cs ⟨1, 0, 0, sqrtI⟩ q2, .mc cs hM q1, .mc (cs ++ [q1]) ⟨0, 1, 1, 0⟩ q2]

/-- `AntiCSqrtSwap`, `src/qinterface/gates.cpp:375-385`. -/
noncomputable def antiCsqrtSwap (r : Bool) (cs : List ℕ) (q1 q2 : ℕ) : List Prim :=
  xMask (ctrlMask cs) ++ csqrtSwap r cs q1 q2 ++ xMask (ctrlMask cs)

/-- `AntiCISqrtSwap`, `src/qinterface/gates.cpp:387-397`. -/
noncomputable def antiCisqrtSwap (cs : List ℕ) (q1 q2 : ℕ) : List Prim :=
  xMask (ctrlMask cs) ++ cisqrtSwap cs q1 q2 ++ xMask (ctrlMask cs)

/-! ## Rotations -/

/-- The matrix of `U`, `CU`, `AntiCU`, `src/qinterface/rotational.cpp:18-50`. -/
noncomputable def uM (θ φ l : ℝ) : M2 :=
  ⟨⟨Real.cos (θ / 2), 0⟩, (Real.sin (θ / 2) : ℂ) * ⟨-Real.cos l, -Real.sin l⟩, (Real.sin (θ / 2) : ℂ) * ⟨Real.cos φ, Real.sin φ⟩,
    (Real.cos (θ / 2) : ℂ) * ⟨Real.cos (φ + l), Real.sin (φ + l)⟩⟩

/-- `U`, `src/qinterface/rotational.cpp:18-26`. -/
noncomputable def u (q : ℕ) (θ φ l : ℝ) : List Prim := [.mtrx (uM θ φ l) q]

/-- `CU`, `src/qinterface/rotational.cpp:29-38`. -/
noncomputable def cu (cs : List ℕ) (q : ℕ) (θ φ l : ℝ) : List Prim := [.mc cs (uM θ φ l) q]

/-- `AntiCU`, `src/qinterface/rotational.cpp:41-50`. -/
noncomputable def antiCu (cs : List ℕ) (q : ℕ) (θ φ l : ℝ) : List Prim := macMtrx cs (uM θ φ l) q

/-- `U2`, `include/qinterface.hpp:831`. -/
noncomputable def u2 (q : ℕ) (φ l : ℝ) : List Prim := u q (Real.pi / 2) φ l

/-- `IU2`, `include/qinterface.hpp:838-841`. -/
noncomputable def iu2 (q : ℕ) (φ l : ℝ) : List Prim := u q (Real.pi / 2) (-l - Real.pi) (-φ + Real.pi)

/-- The matrix of `AI` and of its relatives, `src/qinterface/rotational.cpp:55-59`. -/
noncomputable def aiM (az inc : ℝ) : M2 :=
  ⟨Real.cos (inc / 2), ⟨-Real.cos az, Real.sin az⟩ * (Real.sin (inc / 2) : ℂ), ⟨Real.cos az, Real.sin az⟩ * (Real.sin (inc / 2) : ℂ),
    Real.cos (inc / 2)⟩

/-- `inv2x2` on the same matrix, `src/qinterface/rotational.cpp:71-72` and `src/common/functions.cpp:204-211`. -/
noncomputable def inv (m : M2) : Option M2 := (Matrix2.inv2x2 ⟨m.a, m.b, m.c, m.d⟩).map fun o => ⟨o.m0, o.m1, o.m2, o.m3⟩

/-- `AI`, `src/qinterface/rotational.cpp:53-61`. -/
noncomputable def ai (q : ℕ) (az inc : ℝ) : List Prim := [.mtrx (aiM az inc) q]

/-- `IAI`, `src/qinterface/rotational.cpp:64-74`. -/
noncomputable def iai (q : ℕ) (az inc : ℝ) : Option (List Prim) := (inv (aiM az inc)).map fun m => [.mtrx m q]

/-- `CAI`, `AntiCAI`, `src/qinterface/rotational.cpp:77-86, 103-112`. -/
noncomputable def cai (c q : ℕ) (az inc : ℝ) : List Prim := [.mc [c] (aiM az inc) q]
noncomputable def antiCai (c q : ℕ) (az inc : ℝ) : List Prim := macMtrx [c] (aiM az inc) q

/-- `CIAI`, `AntiCIAI`, `src/qinterface/rotational.cpp:89-100, 115-126`. -/
noncomputable def ciai (c q : ℕ) (az inc : ℝ) : Option (List Prim) := (inv (aiM az inc)).map fun m => [.mc [c] m q]
noncomputable def antiCiai (c q : ℕ) (az inc : ℝ) : Option (List Prim) := (inv (aiM az inc)).map fun m => macMtrx [c] m q

/-- The matrix of `RX`, `src/qinterface/rotational.cpp:179-182`. -/
noncomputable def rxM (θ : ℝ) : M2 :=
  ⟨⟨Real.cos (θ / 2), 0⟩, ⟨0, -Real.sin (θ / 2)⟩, ⟨0, -Real.sin (θ / 2)⟩, ⟨Real.cos (θ / 2), 0⟩⟩

/-- The matrix of `RY`, `CRY`, `src/qinterface/rotational.cpp:189-191, 215-218`. -/
noncomputable def ryM (θ : ℝ) : M2 :=
  ⟨Real.cos (θ / 2), -Real.sin (θ / 2), Real.sin (θ / 2), Real.cos (θ / 2)⟩

/-- `RT`, `src/qinterface/rotational.cpp:171-174`. -/
noncomputable def rt (r : Bool) (θ : ℝ) (q : ℕ) : List Prim := phase r 1 ⟨Real.cos (θ / 2), Real.sin (θ / 2)⟩ q

/-- `RX`, `src/qinterface/rotational.cpp:177-184`. -/
noncomputable def rx (θ : ℝ) (q : ℕ) : List Prim := [.mtrx (rxM θ) q]

/-- `RY`, `src/qinterface/rotational.cpp:187-193`. -/
noncomputable def ry (θ : ℝ) (q : ℕ) : List Prim := [.mtrx (ryM θ) q]

/-- `RZ`, `src/qinterface/rotational.cpp:196-201`. -/
noncomputable def rz (r : Bool) (θ : ℝ) (q : ℕ) : List Prim :=
  phase r ⟨Real.cos (θ / 2), -Real.sin (θ / 2)⟩ ⟨Real.cos (θ / 2), Real.sin (θ / 2)⟩ q

/-- `CRZ`, `src/qinterface/rotational.cpp:204-210`. -/
noncomputable def crz (θ : ℝ) (c q : ℕ) : List Prim :=
  mcPhase [c] ⟨Real.cos (θ / 2), -Real.sin (θ / 2)⟩ ⟨Real.cos (θ / 2), Real.sin (θ / 2)⟩ q

/-- `CRY`, `src/qinterface/rotational.cpp:213-221`. -/
noncomputable def cry (θ : ℝ) (c q : ℕ) : List Prim := [.mc [c] (ryM θ) q]

/-- `UniformlyControlledRY`, `src/qinterface/rotational.cpp:130-147`. -/
noncomputable def uniformRY (cs : List ℕ) (q : ℕ) (angles : ℕ → ℝ) : List Prim := uniform cs q (fun i => ryM (angles i)) [] 0

/-- `UniformlyControlledRZ`, `src/qinterface/rotational.cpp:151-168`. -/
noncomputable def uniformRZ (cs : List ℕ) (q : ℕ) (angles : ℕ → ℝ) : List Prim :=
  uniform cs q (fun i => ⟨⟨Real.cos (angles i / 2), -Real.sin (angles i / 2)⟩, 0, 0,
    ⟨Real.cos (angles i / 2), Real.sin (angles i / 2)⟩⟩) [] 0

/-! With `ENABLE_ROT_API` only (off by default). -/

/-- `phaseFac` of the `Exp` family, `src/qinterface/rotational.cpp:227, 250, 257, 264`. -/
noncomputable def phaseFac (θ : ℝ) : ℂ := ⟨Real.cos θ, Real.sin θ⟩

/-- `Exp(radians, qubit)`, `src/qinterface/rotational.cpp:225-229`. -/
noncomputable def expI (r : Bool) (θ : ℝ) (q : ℕ) : List Prim := phase r (phaseFac θ) (phaseFac θ) q

/-- `ExpX`, `src/qinterface/rotational.cpp:248-252`. -/
noncomputable def expX (θ : ℝ) (q : ℕ) : List Prim := invert (phaseFac θ) (phaseFac θ) q

/-- `ExpY`, `src/qinterface/rotational.cpp:255-259`. -/
noncomputable def expY (θ : ℝ) (q : ℕ) : List Prim := invert (phaseFac θ * -I) (phaseFac θ * I) q

/-- `ExpZ`, `src/qinterface/rotational.cpp:262-266`. -/
noncomputable def expZ (r : Bool) (θ : ℝ) (q : ℕ) : List Prim := phase r (phaseFac θ) (-phaseFac θ) q

/-- `CRT`, `src/qinterface/rotational.cpp:269-273` (as meant: the call passes a pointer and a length that `MCPhase` no longer takes). -/
noncomputable def crt (θ : ℝ) (c q : ℕ) : List Prim := mcPhase [c] 1 ⟨Real.cos (θ / 2), Real.sin (θ / 2)⟩ q

/-- `CRX`, `src/qinterface/rotational.cpp:276-284` (as meant, see `crt`). -/
noncomputable def crx (θ : ℝ) (c q : ℕ) : List Prim :=
  [.mc [c] ⟨⟨Real.cos (θ / 2), 0⟩, ⟨0, Real.sin (θ / 2)⟩, ⟨0, Real.sin (θ / 2)⟩, ⟨Real.cos (θ / 2), 0⟩⟩ q]

/-! ## Time evolution -/

/-- `HamiltonianOp`, `include/hamiltonian.hpp:26-33`; `mats` is the array `matrix`, four entries at a time. -/
structure HamOp where
  target : ℕ
  anti : Bool
  uniform : Bool
  mats : ℕ → M2
  controls : List ℕ
  toggles : List Bool

/-- `exp2x2`, `src/common/functions.cpp:200`. -/
noncomputable def exp2 (m : M2) : Option M2 := (Matrix2.exp2x2 ⟨m.a, m.b, m.c, m.d⟩).map fun o => ⟨o.m0, o.m1, o.m2, o.m3⟩

/-- A matrix times a number, `src/qinterface/gates.cpp:447, 465`. -/
def smul (k : ℂ) (m : M2) : M2 := ⟨m.a * k, m.b * k, m.c * k, m.d * k⟩

/-- The loops over the toggles, `src/qinterface/gates.cpp:450-456, 477-483`; `none` when a toggle is missing (out of bounds). -/
noncomputable def toggleX (o : HamOp) : Option (List Prim) :=
  if o.toggles = [] then some []
  else if o.toggles.length < o.controls.length then none
  else some ((List.range o.controls.length).flatMap fun j =>
    if o.toggles.getD j false = true then x (o.controls.getD j 0) else [])

/-- One turn of the loop of `TimeEvolve`, `src/qinterface/gates.cpp:437-484`. -/
noncomputable def evolveOp (dt : ℝ) (o : HamOp) : Option (List Prim) :=
  (toggleX o).bind fun tg =>
  let mid : Option (List Prim) :=
    if o.uniform = true then
      if ∀ j < 2 ^ o.controls.length, (exp2 (smul (-dt) (o.mats j))).isSome then
        some (Defaults.uniform o.controls o.target (fun j => (exp2 (smul (-dt) (o.mats j))).getD ⟨0, 0, 0, 0⟩) [] 0)
      else none
    else
      (exp2 (smul I (smul (-dt) (o.mats 0)))).map fun m =>
        if o.controls = [] then [.mtrx m o.target]
        else if o.anti = true then macMtrx o.controls m o.target
        else [.mc o.controls m o.target]
  mid.map fun p => tg ++ p ++ tg

/-- `TimeEvolve`, `src/qinterface/gates.cpp:426-485`. -/
noncomputable def timeEvolve (dt : ℝ) (H : List HamOp) : Option (List Prim) :=
  if |dt| ≤ 0 then some []
  else H.foldr (fun o rest => (evolveOp dt o).bind fun p => rest.map (p ++ ·)) (some [])

end Verif.Defaults
