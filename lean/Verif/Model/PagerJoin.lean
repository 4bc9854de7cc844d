import Verif.Model.Pager
import Verif.Model.EngineIO
import Verif.Model.GateCode

/-!
# Model of joining, splitting, comparing and transferring paged registers

`src/qpager.cpp:294-314`, `616-916`, `1637-1681`, `include/qpager.hpp:52-58`, `216-240`, `308-342`, and the inherited
`Compose(toCopy, start)`, `src/qinterface/qinterface.cpp:398-411`.

Simplifications, besides those of `Verif/Model/Pager.lean`:
* `thr` is `thresholdQubitsPerPage`; both registers of a `Compose` have the same one;
* a released state vector is not told apart from zeros in `Eng`. `IsZeroAmplitude` is an arbitrary test `z` of pages; the
  theorems suppose that a page for which it answers `true` has only zeros;
* a newly allocated array holds arbitrary values `fresh`;
* the two limits of the number of qubits are the parameters `maxQb` (`QRACK_MAX_PAGING_QB`) and `maxCpu`
  (`QRACK_MAX_CPU_QB`).
-/

namespace Verif.Pager

open Verif.Engine Verif.ParFor Classical

/-- `SetQubitCount`, `include/qpager.hpp:52-58`. -/
def setQubitCount (thr : ℕ) (p : Pager) (n : ℕ) : Pager := { p with n := n, base := if n < thr then n else thr }

/-- `CombineEngines(thresholdQubitsPerPage); SeparateEngines();`, `src/qpager.cpp:707-708`, `748-749`. -/
noncomputable def regroup (thr : ℕ) (p : Pager) : Option Pager :=
  (combineEngines p thr).bind fun p => separateEngines p p.base false

/-- The calls of `Swap` that `Reverse`, `ROL` and `ROR` make (`Verif/Model/GateCode.lean`) on the paged register,
`src/qpager.cpp:1335-1359`. -/
noncomputable def runSwaps (σ : List ℕ → List ℕ) (ops : List Verif.Circ.Op) (p : Pager) : Option Pager :=
  ops.foldlM (fun p o => match o with | .swap a b => pSwap σ p a b | _ => none) p

/-! ### Compose -/

/-- One iteration of the release of the pages of `toCopy`, `src/qpager.cpp:655-659`: `oOffset` and the released pages. -/
def releaseStep (oPagePow tcqpp : ℕ) (st : ℕ × List ℕ) (i : ℕ) : ℕ × List ℕ :=
  if i = st.1 then
    let oOffset := st.1 - oPagePow
    (oOffset + (oPagePow <<< 1), (oOffset >>> tcqpp) :: st.2)
  else st

/-- The pages of `toCopy` that are released when amplitude `i` is read, `src/qpager.cpp:650-661`, `680`. The last amplitude
is read after the loop. -/
def released (oPagePow tcqpp maxI i : ℕ) : List ℕ :=
  ((List.range (min (i + 1) maxI)).foldl (releaseStep oPagePow tcqpp) (oPagePow, [])).2

/-- `toCopy->GetAmplitude(i)`, `src/qpager.cpp:661`, `680`: a released page is a null pointer. -/
noncomputable def readCopy (b : Pager) (willDestroy : Bool) (i : ℕ) : Option ℂ :=
  if willDestroy = true ∧ i / b.pageMax ∈ released b.pageMax b.qpp (2 ^ b.n - 1) i then none else getAmplitude b i

/-- The page number `page = i * qPages.size() + j` of the result, `src/qpager.cpp:663-678` and `684-701`. -/
noncomputable def newPage (σ : List ℕ → List ℕ) (z : Eng → Bool) (p b : Pager) (willDestroy : Bool) (page : ℕ) :
    Option Eng :=
  let i := page / p.count
  let j := page % p.count
  (readCopy b willDestroy i).bind fun amp =>
    if amp = 0 then some (makeEngine p.qpp)
    else if z (p.page j) then some (makeEngine p.qpp)
    else (setAmplitudePage (makeEngine p.qpp) (p.page j) 0 0 (2 ^ p.qpp)).bind fun e => phase σ e amp amp 0

/-- `ComposeEither` without the branch of lines 638-645, `src/qpager.cpp:616-711`: this register, the other one, and the
position. With `willDestroy` the pages of the other one are gone afterwards. -/
noncomputable def composeCore (maxQb maxCpu thr : ℕ) (σ : List ℕ → List ℕ) (z : Eng → Bool) (fresh : ℕ → ℂ) (p b : Pager)
    (willDestroy : Bool) : Option (Pager × Pager × ℕ) :=
  if b.n = 0 then some (p, b, p.n)
  else if maxQb < p.n + b.n then none
  else if p.n + b.n ≤ thr then
    (combineEngines p p.n).bind fun p' => (combineEngines b b.n).bind fun b' =>
      if p'.count = 0 ∨ b'.count = 0 then none
      else (Engine.compose maxCpu σ fresh (p'.page 0) (b'.page 0)).map fun (e, f, r) =>
        (setQubitCount thr { p' with page := Function.update p'.page 0 e } (p.n + b.n),
          { b' with page := Function.update b'.page 0 f }, r)
  else
    ((List.range (2 ^ b.n * p.count)).mapM (newPage σ z p b willDestroy)).bind fun l =>
      (regroup thr (setQubitCount thr { p with count := l.length, page := fun i => l.getD i (makeEngine p.qpp) }
        (p.n + b.n))).map fun p' => (p', b, p.n)

/-- The inherited `Compose(toCopy, start)`, `src/qinterface/qinterface.cpp:398-411`, around a `Compose`. -/
noncomputable def composeAround (σ : List ℕ → List ℕ) (comp : Pager → Option (Pager × Pager × ℕ)) (p : Pager) (start : ℕ) :
    Option (Pager × Pager × ℕ) :=
  if start = p.n then comp p
  else (runSwaps σ (Verif.Circ.rol (p.n - start) 0 p.n) p).bind fun p' => (comp p').bind fun (c, b, r) =>
    (runSwaps σ (Verif.Circ.ror (p.n - start) 0 c.n) c).map fun c => (c, b, r)

/-- `Compose` (`willDestroy = false`) and `ComposeNoClone`, `src/qpager.cpp:616-711`, `include/qpager.hpp:330-334`. In the
branch of lines 638-645 the smaller register is composed into a clone of the larger one (`Clone` separates the pages,
line 1604). -/
noncomputable def composeEither (maxQb maxCpu thr : ℕ) (σ : List ℕ → List ℕ) (z : Eng → Bool) (fresh : ℕ → ℂ) (p b : Pager)
    (willDestroy : Bool) : Option (Pager × Pager × ℕ) :=
  if b.n ≠ 0 ∧ p.n + b.n ≤ maxQb ∧ thr < p.n + b.n ∧ p.n < b.n then
    (if willDestroy then some b else separateEngines b b.base false).bind fun b' =>
      (composeAround σ (fun c => composeCore maxQb maxCpu thr σ z fresh c p false) b' 0).map fun (c, _, _) =>
        (setQubitCount thr { p with count := c.count, page := c.page } (p.n + b.n), b', p.n)
  else composeCore maxQb maxCpu thr σ z fresh p b willDestroy

/-- `Compose(toCopy, start)`, `include/qpager.hpp:329` (`using QEngine::Compose`). -/
noncomputable def composeAt (maxQb maxCpu thr : ℕ) (σ : List ℕ → List ℕ) (z : Eng → Bool) (fresh : ℕ → ℂ) (p b : Pager)
    (start : ℕ) : Option (Pager × Pager × ℕ) :=
  composeAround σ (fun c => composeEither maxQb maxCpu thr σ z fresh c b false) p start

/-- `Allocate(start, length)`, `src/qpager.cpp:797-808`: the new qubits are a register made by the constructor. -/
noncomputable def allocate (maxQb maxCpu thr : ℕ) (σ : List ℕ → List ℕ) (z : Eng → Bool) (fresh : ℕ → ℂ) (p : Pager)
    (start length : ℕ) : Option (Pager × ℕ) :=
  if length = 0 then some (p, start)
  else (composeAt maxQb maxCpu thr σ z fresh p (construct length (if length < thr then length else thr) 0 1) start).map
    fun (p, _, r) => (p, r)

/-! ### Dispose and Decompose -/

/-- The two `Dispose` functions, `src/qpager.cpp:752-769` and `771-788`, around what is done to a page. `fuel` bounds the
depth of the recursion; `none` with every fuel is an exception or an endless recursion. -/
noncomputable def disposeWith (thr : ℕ) (σ : List ℕ → List ℕ) (length : ℕ) (f : ℕ → Eng → Option Eng) :
    ℕ → Pager → ℕ → Option Pager
  | 0, _, _ => none
  | fuel + 1, p, start =>
    (combineEngines p (length + 1)).bind fun p =>
      if p.qpp < start + length then
        (runSwaps σ (Verif.Circ.ror start 0 p.n) p).bind fun p => (disposeWith thr σ length f fuel p 0).bind fun p =>
          runSwaps σ (Verif.Circ.rol start 0 p.n) p
      else
        ((List.range p.count).foldlM (fun p i => onPage p i (f start)) p).bind fun p =>
          regroup thr (setQubitCount thr p (p.n - length))

/-- `Dispose(start, length, disposedPerm)`, `src/qpager.cpp:771-788`. -/
noncomputable def disposePerm (thr : ℕ) (σ : List ℕ → List ℕ) (fresh : ℕ → ℂ) (fuel : ℕ) (p : Pager)
    (start length perm : ℕ) : Option Pager :=
  disposeWith thr σ length (fun start e => Engine.disposePerm σ fresh e start length perm) fuel p start

/-- `Dispose(start, length)`, `src/qpager.cpp:752-769`. -/
noncomputable def dispose (thr : ℕ) (σ : List ℕ → List ℕ) (fresh : ℕ → ℂ) (fuel : ℕ) (p : Pager) (start length : ℕ) :
    Option Pager :=
  disposeWith thr σ length (fun start e => Engine.dispose σ fresh e start length) fuel p start

/-- The loop over the pages in `Decompose(start, dest)`, `src/qpager.cpp:736-745`: the first page that is not zero gives the
state of `dest`, which is then normalised. The state is this register, the page of `dest` and `isDecomposed`. -/
noncomputable def decomposeStep (σ : List ℕ → List ℕ) (z : Eng → Bool) (fresh : ℕ → ℂ) (start length : ℕ)
    (st : Pager × Eng × Bool) (i : ℕ) : Option (Pager × Eng × Bool) :=
  if i < st.1.count then
    if st.2.2 = false ∧ z (st.1.page i) = false then
      (Engine.decompose σ fresh (st.1.page i) start st.2.1).map fun (e, d) =>
        ({ st.1 with page := Function.update st.1.page i e },
          normalizeState σ { d with rn := ∑ k ∈ Finset.range (2 ^ d.n), Complex.normSq (d.amp k) }, true)
    else (Engine.dispose σ fresh (st.1.page i) start length).map fun e =>
      ({ st.1 with page := Function.update st.1.page i e }, st.2.1, st.2.2)
  else none

/-- `Decompose(start, dest)`, `src/qpager.cpp:723-750`. -/
noncomputable def decompose (thr : ℕ) (σ : List ℕ → List ℕ) (z : Eng → Bool) (fresh : ℕ → ℂ) (dest : Pager) :
    ℕ → Pager → ℕ → Option (Pager × Pager)
  | 0, _, _ => none
  | fuel + 1, p, start =>
    let length := dest.n
    (combineEngines p (length + 1)).bind fun p =>
      if p.qpp < start + length then
        (runSwaps σ (Verif.Circ.ror start 0 p.n) p).bind fun p =>
          (decompose thr σ z fresh dest fuel p 0).bind fun (p, d) =>
            (runSwaps σ (Verif.Circ.rol start 0 p.n) p).map fun p => (p, d)
      else
        (combineEngines dest dest.n).bind fun dest =>
          if dest.count = 0 then none
          else ((List.range p.count).foldlM (decomposeStep σ z fresh start length) (p, dest.page 0, false)).bind
            fun (p, d, _) => (regroup thr (setQubitCount thr p (p.n - length))).map fun p =>
              (p, { dest with page := Function.update dest.page 0 d })

/-- `Decompose(start, length)`, `src/qpager.cpp:713-721`: the destination is made with `qubitCount` qubits. -/
noncomputable def decomposeNew (thr : ℕ) (σ : List ℕ → List ℕ) (z : Eng → Bool) (fresh : ℕ → ℂ) (fuel : ℕ) (p : Pager)
    (start _length : ℕ) : Option (Pager × Pager) :=
  decompose thr σ z fresh (construct p.n (if p.n < thr then p.n else thr) 0 1) fuel p start

/-! ### State transfer -/

/-- `SetQuantumState`, `src/qpager.cpp:810-845`: page `i` takes the amplitudes from `i * pageMaxQPower()`. -/
noncomputable def setQuantumState (p : Pager) (input : ℕ → ℂ) : Pager :=
  { p with page := fun i => { p.page i with amp := fun a => input (i * p.pageMax + a), rn := defaultArg } }

/-- The loop of `GetQuantumState` and `GetProbs`, `src/qpager.cpp:847-880`, `882-916`, on an array holding `out`. -/
noncomputable def output {α : Type} (f : ℂ → α) (p : Pager) (out : ℕ → α) : ℕ → α :=
  (List.range p.count).foldl (fun out i => fun x =>
    if i * p.pageMax ≤ x ∧ x < i * p.pageMax + 2 ^ (p.page i).n then f ((p.page i).amp (x - i * p.pageMax)) else out x) out

/-- `SetAmplitude`, `include/qpager.hpp:314-319`, for a page with an array. -/
noncomputable def setAmplitude (p : Pager) (perm : ℕ) (amp : ℂ) : Option Pager :=
  onPage p (perm / p.pageMax) fun e => some { e with amp := Function.update e.amp (perm % p.pageMax) amp }

/-- The range given to a page by `GetSetAmplitudePage`, `src/qpager.cpp:306-307`. -/
def partRange (p : Pager) (perm offset length : ℕ) : ℕ × ℕ :=
  (if perm < offset then offset - perm else 0, if length < p.pageMax then length else p.pageMax)

/-- `GetSetAmplitudePage`, `src/qpager.cpp:294-314`, as a loop over the pages: `act i (partOffset, partLength)` is what is
done to page `i`. `perm` is not changed by `continue`. -/
def pageCalls (p : Pager) (offset length : ℕ) : ℕ → ℕ → ℕ → List (ℕ × ℕ × ℕ)
  | 0, _, _ => []
  | k + 1, i, perm =>
    if perm + length < offset then pageCalls p offset length k (i + 1) perm
    else if offset + length ≤ perm then []
    else (i, partRange p perm offset length) :: pageCalls p offset length k (i + 1) (perm + p.pageMax)

/-- `SetAmplitudePage(pagePtr, offset, length)`, `include/qpager.hpp:220-223`: every page reads from the start of the
array. -/
noncomputable def setAmplitudeArray (p : Pager) (input : ℕ → ℂ) (offset length : ℕ) : Option Pager :=
  (pageCalls p offset length p.count 0 0).foldlM (fun p c => onPage p c.1 fun e =>
    if badPermRange c.2.1 c.2.2 (2 ^ e.n) then none
    else some { e with amp := fun x => if c.2.1 ≤ x ∧ x < c.2.1 + c.2.2 then input (x - c.2.1) else e.amp x }) p

/-- `GetAmplitudePage(pagePtr, offset, length)`, `include/qpager.hpp:216-219`, into an array holding `out`: every page writes
at the start of the array. -/
noncomputable def getAmplitudeArray (p : Pager) (out : ℕ → ℂ) (offset length : ℕ) : Option (ℕ → ℂ) :=
  (pageCalls p offset length p.count 0 0).foldlM (fun out c =>
    if p.count ≤ c.1 ∨ badPermRange c.2.1 c.2.2 (2 ^ (p.page c.1).n) then none
    else some fun x => if x < c.2.2 then (p.page c.1).amp (x + c.2.1) else out x) out

/-! ### Comparison -/

/-- `QEngineCPU::SumSqrDiff` of two pages, `src/qengine/state.cpp:1601-1657`, with the branches for released arrays. -/
noncomputable def pageDiff (P : Par) (z : Eng → Bool) (a b : Eng) : ℝ :=
  if a.n ≠ b.n then 1
  else if z a ∧ z b then 0
  else if z a then ∑ k ∈ Finset.range (2 ^ b.n), Complex.normSq (b.amp k)
  else if z b then ∑ k ∈ Finset.range (2 ^ a.n), Complex.normSq (a.amp k)
  else Engine.sumSqrDiff P a b

/-- `QPager::SumSqrDiff` of two different objects, `src/qpager.cpp:1637-1681`. -/
noncomputable def sumSqrDiff (P : Par) (z : Eng → Bool) (a b : Pager) : Option ℝ :=
  if a.n ≠ b.n then some 1
  else
    (separateEngines a b.qpp false).bind fun a => (separateEngines b a.qpp false).bind fun b =>
    (combineEngines a b.qpp).bind fun a => (combineEngines b a.qpp).bind fun b =>
      (List.range a.count).foldlM (fun (acc : ℝ) i =>
        if i < b.count then some (acc + pageDiff P z (a.page i) (b.page i)) else none) 0

/-- `ApproxCompare`, `include/qinterface.hpp:2836-2839`, with the tolerance `tol`. -/
noncomputable def approxCompare (P : Par) (z : Eng → Bool) (a b : Pager) (tol : ℝ) : Option Bool :=
  (sumSqrDiff P z a b).map fun d => decide (d ≤ tol)

end Verif.Pager
