import Verif.Model.EngineMask
import Verif.Model.EngineMeas
import Verif.Model.Utils

/-!
# Model of the paged register

`src/qpager.cpp` and `include/qpager.hpp` (`QPager`): a register split in pages of equal size, every page a state vector
engine (`Verif/Model/Engine.lean`).

Simplifications, besides those of the engine:
* `doNormalize` and `randGlobalPhase` of a `QPager` and of its pages are `false`: both constructors pass `false, false` to
  `QEngine` (`src/qpager.cpp:36,71`) and `MakeEngine` does so for every page (`src/qpager.cpp:284-292`). The branches that
  test them are left out;
* `futures` (`std::async`): the pairs of pages are handled one after the other, in an arbitrary order `σ`; different
  iterations use different pages (proved, `Verif/Lemmas/Pager.lean`);
* devices, host memory and the choice of the page size in `Init` are left out: `base` is the result
  `baseQubitsPerPage`;
* shifts of page numbers do not overflow (there are at most `2 ^ 63` pages);
* `none` is an exception, or an access outside of `qPages`.
-/

namespace Verif.Pager

open Verif.Engine Verif.ParFor Classical
open Verif.Utils (log2Ocl)

/-- The fields of `QPager`, `include/qpager.hpp:33-48`: `qubitCount`, `baseQubitsPerPage`, `qPages.size()`, `qPages[i]`. -/
structure Pager where
  n : ℕ
  base : ℕ
  count : ℕ
  page : ℕ → Eng

/-- `pageMaxQPower`, `include/qpager.hpp:60-65`. -/
def Pager.pageMax (p : Pager) : ℕ := 2 ^ p.n / p.count

/-- `qubitsPerPage`, `include/qpager.hpp:67`. -/
def Pager.qpp (p : Pager) : ℕ := log2Ocl p.pageMax

/-- `MakeEngine`, `src/qpager.cpp:282-291`: an engine of `0` qubits whose qubit count is then set, so that it has no state
vector. -/
noncomputable def makeEngine (length : ℕ) : Eng := ⟨length, fun _ => 0, 1, false, false, 0⟩

/-- Use of one page, `qPages[j]`. -/
noncomputable def onPage (p : Pager) (j : ℕ) (f : Eng → Option Eng) : Option Pager :=
  if j < p.count then (f (p.page j)).map fun e => { p with page := Function.update p.page j e } else none

/-- Use of two pages, `qPages[j]` and `qPages[k]`. -/
noncomputable def onPair (p : Pager) (j k : ℕ) (f : Eng → Eng → Option (Eng × Eng)) : Option Pager :=
  if j < p.count ∧ k < p.count then
    (f (p.page j) (p.page k)).map fun r => { p with page := Function.update (Function.update p.page j r.1) k r.2 }
  else none

/-- `isBadPermRange`, `include/common/qrack_functions.hpp`. -/
def badPermRange (start length max : ℕ) : Prop := max < start + length

/-- `QEngineCPU::SetAmplitudePage`, `src/qengine/state.cpp:94-128`, with `copy_in` (`include/statevector.hpp:160-175`): the
range of `dst` from `dstOffset` becomes the range of `src` from `srcOffset`. -/
noncomputable def setAmplitudePage (dst src : Eng) (srcOffset dstOffset length : ℕ) : Option Eng :=
  if badPermRange dstOffset length (2 ^ dst.n) ∨ badPermRange srcOffset length (2 ^ src.n) then none
  else some { dst with
    amp := fun i => if dstOffset ≤ i ∧ i < dstOffset + length then src.amp (i - dstOffset + srcOffset) else dst.amp i
    rn := defaultArg }

/-- `CombineEngines`, `src/qpager.cpp:316-342`. -/
noncomputable def combineEngines (p : Pager) (bit : ℕ) : Option Pager :=
  let bit := if p.n < bit then p.n else bit
  if bit ≤ p.qpp then some p
  else
    let groupCount := pow2 (p.n - bit)
    let groupSize := p.count / groupCount
    let pagePower := p.pageMax
    ((List.range groupCount).mapM fun i => (List.range groupSize).foldlM (fun (engine : Eng) j =>
      let page := j + i * groupSize
      if page < p.count then setAmplitudePage engine (p.page page) 0 (j * pagePower) pagePower else none)
      (makeEngine bit)).map fun l => { p with count := l.length, page := fun i => l.getD i (makeEngine bit) }

/-- `SeparateEngines`, `src/qpager.cpp:344-367`. -/
noncomputable def separateEngines (p : Pager) (thresholdBits : ℕ) (noBaseFloor : Bool) : Option Pager :=
  let thresholdBits := if noBaseFloor = false ∧ thresholdBits < p.base then p.base else thresholdBits
  if p.qpp ≤ thresholdBits then some p
  else
    let pagesPer := pow2 (p.n - thresholdBits) / p.count
    let pageMaxQPower := pow2 thresholdBits
    ((List.range (p.count * pagesPer)).mapM fun x =>
      setAmplitudePage (makeEngine thresholdBits) (p.page (x / pagesPer)) (x % pagesPer * pageMaxQPower) 0 pageMaxQPower).map
      fun l => { p with count := l.length, page := fun i => l.getD i (makeEngine thresholdBits) }

/-- `QEngineCPU::ShuffleBuffers`, `src/qengine/state.cpp:129-158`, with `shuffle` (`include/statevector.hpp:197-205`): the
upper half of the first state vector is exchanged with the lower half of the second. -/
noncomputable def shuffleBuffers (e1 e2 : Eng) : Option (Eng × Eng) :=
  if e1.n ≠ e2.n then none
  else
    let offset := 2 ^ e1.n >>> 1
    some ({ e1 with
        amp := fun i => if offset ≤ i ∧ i < offset + offset then e2.amp (i - offset) else e1.amp i
        rn := defaultArg },
      { e2 with
        amp := fun i => if i < offset then e1.amp (i + offset) else e2.amp i
        rn := defaultArg })

/-- The body of the loops over pairs of pages, `src/qpager.cpp:424-431` and `538-545`. -/
noncomputable def shuffled (fn : Eng → ℕ → Option Eng) (sqi : ℕ) (isSqiCtrl isAnti : Bool) (e1 e2 : Eng) :
    Option (Eng × Eng) :=
  (shuffleBuffers e1 e2).bind fun (e1, e2) =>
  (if !isSqiCtrl || isAnti then fn e1 sqi else some e1).bind fun e1 =>
  (if !isSqiCtrl || !isAnti then fn e2 sqi else some e2).bind fun e2 =>
  shuffleBuffers e1 e2

/-- The index `j = i & mask; j |= (i ^ j) << 1`, `src/qpager.cpp:408-409`, `978-979`. -/
def spread (mask i : ℕ) : ℕ :=
  let j := i &&& mask
  j ||| ((i ^^^ j) <<< 1)

/-- `SingleBitGate`, `src/qpager.cpp:369-448`. -/
noncomputable def singleBitGate (σ : List ℕ → List ℕ) (p : Pager) (target : ℕ) (fn : Eng → ℕ → Option Eng)
    (isSqiCtrl isAnti : Bool) : Option Pager :=
  let qpp := p.qpp
  if target < qpp then (List.range p.count).foldlM (fun p i => onPage p i fun e => fn e target) p
  else
    let sqi := qpp - 1
    let target := target - qpp
    let targetPow := pow2 target
    let targetMask := targetPow - 1
    (σ (List.range (p.count >>> 1))).foldlM (fun p i =>
      let j := spread targetMask i
      onPair p j (j ||| targetPow) (shuffled fn sqi isSqiCtrl isAnti)) p

/-- The loop over `k`, `src/qpager.cpp:502-509` and `583-590`: the bits of `i` between the masked positions. -/
def expand (sortedMasks : List ℕ) (i : ℕ) : ℕ :=
  let r := sortedMasks.foldl (fun (r : ℕ × ℕ) m =>
    let jLo := r.1 &&& m
    ((r.1 ^^^ jLo) <<< 1, r.2 ||| jLo)) (i, 0)
  r.2 ||| r.1

/-- `controlMask`, `src/qpager.cpp:466-471`: powers of the controls, counted from the first paged qubit, whose bit of the
permutation is set. -/
def pageMask (qpp controlPerm : ℕ) (controls : List ℕ) : ℕ :=
  controls.zipIdx.foldl (fun m (c, i) => if (controlPerm >>> i) &&& 1 ≠ 0 then m ||| pow2 (c - qpp) else m) 0

/-- `MetaControlled`, `src/qpager.cpp:452-558`. -/
noncomputable def metaControlled (σ : List ℕ → List ℕ) (p : Pager) (controlPerm : ℕ) (controls : List ℕ) (target : ℕ)
    (fn : Eng → ℕ → Option Eng) (m : M2) (isSqiCtrl isIntraCtrled : Bool) : Option Pager :=
  let qpp := p.qpp
  let sqi := qpp - 1
  let target := target - qpp
  let targetPow := pow2 target
  let controlMask := pageMask qpp controlPerm controls
  let sortedMasks := (controls.map (fun c => pow2 (c - qpp) - 1) ++ [targetPow - 1]).mergeSort (· ≤ ·)
  let isDiag : Bool := !isSqiCtrl && !isIntraCtrled && decide (m.b = 0 ∧ m.c = 0)
  let isInvert : Bool := !isDiag && !isSqiCtrl && !isIntraCtrled && decide (m.a = 0 ∧ m.d = 0)
  let isSpecial : Bool := isDiag || isInvert
  let top := if isDiag then m.a else if isInvert then m.b else 0
  let bottom := if isDiag then m.d else if isInvert then m.c else 0
  let isAnti : Bool := (controlPerm >>> controls.length) &&& 1 == 0
  (σ (List.range (p.count >>> sortedMasks.length))).foldlM (fun p i =>
    let j := expand sortedMasks i ||| controlMask
    onPair p j (j ||| targetPow) fun e1 e2 =>
      let (e1, e2) := if isInvert then (e2, e1) else (e1, e2)
      if isSpecial then
        (if 1 - top ≠ 0 then phase σ e1 top top 0 else some e1).bind fun e1 =>
        (if 1 - bottom ≠ 0 then phase σ e2 bottom bottom 0 else some e2).map fun e2 => (e1, e2)
      else shuffled fn sqi isSqiCtrl isAnti e1 e2) p

/-- `sortedMasks` of `SemiMetaControlled`, `src/qpager.cpp:569-577`: a vector of `bitLenInt` (8 bits), so that the power is
truncated before it is used and before it is decremented. Returns the masks and `controlMask`. -/
def semiMasks (qpp controlPerm : ℕ) (controls : List ℕ) : List ℕ × ℕ :=
  (controls.map (fun c => (pow2 (c - qpp) % 256 + 255) % 256),
    controls.zipIdx.foldl (fun m (c, i) => if (controlPerm >>> i) &&& 1 ≠ 0 then m ||| (pow2 (c - qpp) % 256) else m) 0)

/-- `SemiMetaControlled`, `src/qpager.cpp:562-593`. -/
noncomputable def semiMetaControlled (p : Pager) (controlPerm : ℕ) (controls : List ℕ) (target : ℕ)
    (fn : Eng → ℕ → Option Eng) : Option Pager :=
  let r := semiMasks p.qpp controlPerm controls
  let sortedMasks := r.1.mergeSort (· ≤ ·)
  (List.range (p.count >>> sortedMasks.length)).foldlM (fun p i =>
    onPage p (expand sortedMasks i ||| r.2) fun e => fn e target) p

/-- `QInterface::Invert`, `include/qinterface.hpp:529-533`, of a page. -/
noncomputable def invert (σ : List ℕ → List ℕ) (e : Eng) (tr bl : ℂ) (q : ℕ) : Option Eng := mtrx σ e ⟨0, tr, bl, 0⟩ q

/-- `ApplySingleEither`, `src/qpager.cpp:950-992`. -/
noncomputable def applySingleEither (σ : List ℕ → List ℕ) (p : Pager) (isInvert : Bool) (top bottom : ℂ) (target : ℕ) :
    Option Pager :=
  let qpp := p.qpp
  if target < qpp then
    if isInvert then singleBitGate σ p target (fun e t => invert σ e top bottom t) false false
    else singleBitGate σ p target (fun e t => phase σ e top bottom t) false false
  else
    let target := target - qpp
    let targetPow := pow2 target
    let qMask := targetPow - 1
    (List.range (p.count >>> 1)).foldlM (fun p i =>
      let j := spread qMask i
      onPair p j (j ||| targetPow) fun e1 e2 =>
        let (e1, e2) := if isInvert then (e2, e1) else (e1, e2)
        (if 1 - top ≠ 0 then phase σ e1 top top 0 else some e1).bind fun e1 =>
        (if 1 - bottom ≠ 0 then phase σ e2 bottom bottom 0 else some e2).map fun e2 => (e1, e2)) p

/-- `QPager::Mtrx`, `src/qpager.cpp:937-948`; `Phase` and `Invert` are `ApplySingleEither`
(`include/qpager.hpp:344-351`). -/
noncomputable def pMtrx (σ : List ℕ → List ℕ) (p : Pager) (m : M2) (target : ℕ) : Option Pager :=
  if m.b = 0 ∧ m.c = 0 then applySingleEither σ p false m.a m.d target
  else if m.a = 0 ∧ m.d = 0 then applySingleEither σ p true m.b m.c target
  else singleBitGate σ p target (fun e t => mtrx σ e m t) false false

/-- The variables of the loop over the controls, `src/qpager.cpp:1002-1024`. -/
structure Split where
  metaCs : List ℕ := []
  intraCs : List ℕ := []
  isSqi : Bool := false
  sqiIndex : ℕ := 0
  intraPerm : ℕ := 0
  metaPerm : ℕ := 0

/-- One iteration, `src/qpager.cpp:1010-1023`. -/
def splitStep (qpp target cp : ℕ) (s : Split) (ci : ℕ × ℕ) : Split :=
  if qpp ≤ target ∧ ci.1 = qpp - 1 then { s with isSqi := true, sqiIndex := ci.2 }
  else if ci.1 < qpp then
    { s with
      intraPerm := s.intraPerm ||| (((cp >>> ci.2) &&& 1) <<< s.intraCs.length)
      intraCs := s.intraCs ++ [ci.1] }
  else
    { s with
      metaPerm := s.metaPerm ||| (((cp >>> ci.2) &&& 1) <<< s.metaCs.length)
      metaCs := s.metaCs ++ [ci.1] }

/-- `ApplyEitherControlledSingleBit`, `src/qpager.cpp:994-1040`. -/
noncomputable def applyEitherControlled (σ : List ℕ → List ℕ) (p : Pager) (controlPerm : ℕ) (controls : List ℕ)
    (target : ℕ) (m : M2) : Option Pager :=
  if controls = [] then pMtrx σ p m target
  else
    let s := controls.zipIdx.foldl (splitStep p.qpp target controlPerm) {}
    let isAnti : Bool := (controlPerm >>> s.sqiIndex) &&& 1 == 0
    let intraPerm := if s.isSqi && !isAnti then s.intraPerm ||| pow2 s.intraCs.length else s.intraPerm
    let metaPerm := if s.isSqi && !isAnti then s.metaPerm ||| pow2 s.metaCs.length else s.metaPerm
    let sg := fun (e : Eng) t => ucMtrx σ e s.intraCs m t intraPerm
    if s.metaCs = [] then singleBitGate σ p target sg s.isSqi isAnti
    else if target < p.qpp then semiMetaControlled p metaPerm s.metaCs target sg
    else metaControlled σ p metaPerm s.metaCs target sg m s.isSqi (s.intraCs.length != 0)

/-- `MCMtrx` (`anti = false`) and `MACMtrx` (`anti = true`), `include/qpager.hpp:352-367`. -/
noncomputable def pControlled (σ : List ℕ → List ℕ) (p : Pager) (anti : Bool) (controls : List ℕ) (m : M2) (target : ℕ) :
    Option Pager :=
  if p.count = 1 then onPage p 0 fun e => eitherMtrx σ e controls m target anti
  else applyEitherControlled σ p (if anti then 0 else pow2 controls.length - 1) controls target m

/-- `QInterface::X`, `include/qinterface.hpp:1084`, of the pager. -/
noncomputable def pX (σ : List ℕ → List ℕ) (p : Pager) (q : ℕ) : Option Pager := applySingleEither σ p true 1 1 q

/-- The loop over `interMask`, `src/qpager.cpp:1058-1064`: `v = interMask & (interMask - 1)`; the fuel is the number of
iterations still allowed. -/
noncomputable def xMaskLoop (σ : List ℕ → List ℕ) : ℕ → Pager → ℕ → Option Pager
  | 0, p, interMask => if interMask = 0 then some p else none
  | fuel + 1, p, interMask =>
    if interMask = 0 then some p
    else
      let v := interMask &&& (interMask - 1)
      (pX σ p (log2Ocl (interMask ^^^ v))).bind fun p => xMaskLoop σ fuel p v

/-- `QPager::XMask`, `src/qpager.cpp:1053-1070`. -/
noncomputable def pXMask (σ : List ℕ → List ℕ) (p : Pager) (mask : ℕ) : Option Pager :=
  let pageMask := p.pageMax - 1
  let intraMask := mask &&& pageMask
  let interMask := mask ^^^ intraMask
  (xMaskLoop σ 64 p interMask).bind fun p =>
    (List.range p.count).foldlM (fun p i => onPage p i fun e => xMask σ e intraMask) p

/-- `QPager::PhaseParity`, `src/qpager.cpp:1072-1098`. -/
noncomputable def pPhaseParity (σ : List ℕ → List ℕ) (p : Pager) (radians : ℝ) (mask : ℕ) : Option Pager :=
  let pageMask := p.pageMax - 1
  let intraMask := mask &&& pageMask
  let interMask := (mask ^^^ intraMask) >>> p.qpp
  let phaseFac := Complex.exp (((radians / 2 : ℝ) : ℂ) * Complex.I)
  let iPhaseFac := 1 / phaseFac
  (List.range p.count).foldlM (fun p i =>
    let v := parityBit (interMask &&& i)
    onPage p i fun e =>
      if intraMask ≠ 0 then phaseParity σ e (if v ≠ 0 then -radians else radians) intraMask
      else if v ≠ 0 then phase σ e phaseFac phaseFac 0
      else phase σ e iPhaseFac iPhaseFac 0) p

/-- `MetaSwap`, `src/qpager.cpp:1297-1333`. -/
noncomputable def metaSwap (σ : List ℕ → List ℕ) (p : Pager) (qubit1 qubit2 : ℕ) (isIPhaseFac isInverse : Bool) :
    Option Pager :=
  let qpp := p.qpp
  let q1 := min (qubit1 - qpp) (qubit2 - qpp)
  let q2 := max (qubit1 - qpp) (qubit2 - qpp)
  (List.range (p.count >>> 2)).foldlM (fun p i =>
    let j := i &&& (pow2 q1 - 1)
    let jHi := (i ^^^ j) <<< 1
    let jLo := jHi &&& (pow2 q2 - 1)
    let j := j ||| (jLo ||| ((jHi ^^^ jLo) <<< 1))
    onPair p (j ||| pow2 q1) (j ||| pow2 q2) fun e1 e2 =>
      let (e1, e2) := (e2, e1)
      if !isIPhaseFac then some (e1, e2)
      else
        let f := if isInverse then -Complex.I else Complex.I
        (phase σ e1 f f 0).bind fun e1 => (phase σ e2 f f 0).map fun e2 => (e1, e2)) p

/-- `QInterface::CNOT`, `include/qinterface.hpp:709-713`, of the pager. -/
noncomputable def pCNOT (σ : List ℕ → List ℕ) (p : Pager) (c t : ℕ) : Option Pager :=
  pControlled σ p false [c] ⟨0, 1, 1, 0⟩ t

/-- `QInterface::Swap`, `src/qinterface/gates.cpp:166-175`, of the pager. -/
noncomputable def pSwapDefault (σ : List ℕ → List ℕ) (p : Pager) (q1 q2 : ℕ) : Option Pager :=
  if q1 = q2 then some p
  else (pCNOT σ p q1 q2).bind fun p => (pCNOT σ p q2 q1).bind fun p => pCNOT σ p q1 q2

/-- `QPager::Swap`, `src/qpager.cpp:1335-1359`. -/
noncomputable def pSwap (σ : List ℕ → List ℕ) (p : Pager) (q1 q2 : ℕ) : Option Pager :=
  if q1 = q2 then some p
  else if p.base ≤ q1 ∧ p.base ≤ q2 then
    (separateEngines p p.base false).bind fun p => metaSwap σ p q1 q2 false false
  else if p.base ≤ q1 ∨ p.base ≤ q2 then
    (separateEngines p p.base false).bind fun p => pSwapDefault σ p q1 q2
  else (List.range p.count).foldlM (fun p i => onPage p i fun e => swapLike σ e pauliX q1 q2) p

/-- The loops of `EitherISwap` that multiply by the phase, `src/qpager.cpp:1379-1389` and `1394-1404`. -/
noncomputable def iswapPhases (σ : List ℕ → List ℕ) (p : Pager) (hi lo : ℕ) (phaseFac : ℂ) : Option Pager :=
  (List.range p.count).foldlM (fun p i => onPage p i fun e =>
    if (i >>> (hi - p.base)) &&& 1 ≠ 0 then phase σ e phaseFac 1 lo else phase σ e 1 phaseFac lo) p

/-- `EitherISwap`, `src/qpager.cpp:1360-1416`. -/
noncomputable def eitherISwap (σ : List ℕ → List ℕ) (p : Pager) (q1 q2 : ℕ) (isInverse : Bool) : Option Pager :=
  let phaseFac := if isInverse then -Complex.I else Complex.I
  if q1 = q2 then some p
  else if p.base ≤ q1 ∧ p.base ≤ q2 then
    (separateEngines p p.base false).bind fun p => metaSwap σ p q1 q2 true isInverse
  else if p.base ≤ q1 then
    (separateEngines p p.base false).bind fun p => (pSwapDefault σ p q1 q2).bind fun p => iswapPhases σ p q1 q2 phaseFac
  else if p.base ≤ q2 then
    (separateEngines p p.base false).bind fun p => (pSwapDefault σ p q1 q2).bind fun p => iswapPhases σ p q2 q1 phaseFac
  else (List.range p.count).foldlM (fun p i => onPage p i fun e =>
    swapLike σ e (if isInverse then iiswapM else iswapM) q1 q2) p

/-- `GetAmplitude`, `include/qpager.hpp:309-314`. -/
noncomputable def getAmplitude (p : Pager) (perm : ℕ) : Option ℂ :=
  if perm / p.pageMax < p.count then some ((p.page (perm / p.pageMax)).amp (perm % p.pageMax)) else none

/-- `QEngineCPU::SetPermutation` of a page, `src/qengine/state.cpp:222-250`, with the phase factor `phaseFac`. -/
noncomputable def pageSetPermutation (e : Eng) (perm : ℕ) (phaseFac : ℂ) : Eng :=
  { e with amp := fun i => if i = perm then phaseFac else 0, rn := 1 }

/-- `ZeroAmplitudes` of a page, `include/qengine_cpu.hpp:90-97`. -/
def zeroAmplitudes (e : Eng) : Eng := { e with amp := fun _ => 0, rn := 0 }

/-- `SetPermutation`, `src/qpager.cpp:918-935`. -/
noncomputable def setPermutation (p : Pager) (perm : ℕ) (phaseFac : ℂ) : Option Pager :=
  let pagePower := p.pageMax
  let permOcl := perm % 2 ^ 64 &&& (2 ^ p.n - 1)
  (List.range p.count).foldlM (fun p i =>
    let pagePerm := i * pagePower
    onPage p i fun e =>
      if pagePerm ≤ permOcl ∧ permOcl < pagePerm + pagePower then some (pageSetPermutation e (permOcl - pagePerm) phaseFac)
      else some (zeroAmplitudes e)) p

/-- The constructor, `src/qpager.cpp:32-65`; the parameter `_initState` is not used, `initState` is a new variable with the
value `maxQPower + 1` (`src/qpager.cpp:55`). `phaseFac` is the phase used by `SetPermutation` of a page. -/
noncomputable def construct (n base : ℕ) (_initState : ℕ) (phaseFac : ℂ) : Pager :=
  let initState := 2 ^ n + 1
  let basePageCount := 2 ^ (n - base)
  let basePageMaxQPower := 2 ^ base
  { n := n, base := base, count := basePageCount
    page := fun i =>
      let pagePerm := basePageMaxQPower * (i + 1)
      if initState < pagePerm then
        pageSetPermutation (makeEngine base) (initState - (pagePerm - basePageMaxQPower)) phaseFac
      else makeEngine base }

/-- `Prob`, `src/qpager.cpp:1449-1519`: page by page for a qubit inside of the pages, else the norms of the pages in which
the qubit is set. -/
noncomputable def pProb (P : Par) (p : Pager) (qubit : ℕ) : Option ℝ :=
  if p.count = 1 then (prob P (p.page 0) qubit).map (·.1)
  else
    let qpp := p.qpp
    if qubit < qpp then
      ((List.range p.count).foldlM (fun (acc : ℝ) i => (prob P (p.page i) qubit).map fun r => acc + r.1) 0).map clampProb
    else
      let qPower := pow2 (qubit - qpp)
      some (clampProb (((List.range (p.count >>> 1)).map fun i =>
        (updateRunningNorm (p.page (spread (qPower - 1) i ||| qPower))).rn).sum))

end Verif.Pager
