import Verif.Model.Capi
import Verif.Model.CapiPauli
import Verif.Model.EngineIO

/-!
# The C API: reading a simulator, phases on listed qubits, and `Separate`

`src/pinvoke_api.cpp`. The calls that read are modelled over a `QEngineCPU`, as in `Verif/Model/CapiPauli.lean`: `pos` is
`GetSimShardId` on the ids of the call, and `none` is the exception that the call catches. The arrays of doubles are exact
(`FPPOW` 5 or 6, without the conversion). The variants `…Rdm` are not modelled. `Separate` is modelled over the register of
tokens of `Verif/Model/Capi.lean`: `Decompose` takes the tokens of its range out and `Compose` puts them at the end, which is
what they do to a state that is a product of the range and the rest (`Verif/Props/EngineCompose.lean`).
-/

namespace Verif.CapiRead

open Verif.Engine Verif.Spec Verif.ParFor

/-- `_PhaseMask`, `src/pinvoke_api.cpp:1189-1206`. -/
noncomputable def phaseMask (cpp20 : Bool) (σ : List ℕ → List ℕ) (pos : ℕ → ℕ) (e : Eng) (lambda : ℝ) (p : ℕ) (q : List ℕ)
    (isParity : Bool) : Option Eng :=
  let mask := q.foldl (fun mask x => mask ||| 2 ^ pos x) 0
  if isParity then phaseParity σ e lambda mask else phaseRootNMask cpp20 σ e (p % 256) mask

/-- Whether the listed positions are all of the positions in order, `src/pinvoke_api.cpp:2487-2497`. -/
def isOutProbs (n : ℕ) (_q : List ℕ) : Bool :=
  if _q.length = n then (_q.zipIdx).all fun x => x.1 = x.2 else false

/-- `ProbAll`, `src/pinvoke_api.cpp:2480-2521`: what it writes at each place of the caller's array `p`. -/
noncomputable def probAllApi (σ : List ℕ → List ℕ) (pos : ℕ → ℕ) (v : EngV) (q : List ℕ) (p : ℕ → ℝ) : ℕ → ℝ :=
  let _q := q.map pos
  if isOutProbs v.n _q then fun i => (getProbs σ v (fun i => (p i : ℂ)) i).re
  else fun i => if i < 2 ^ _q.length then probBitsAll v.eng _q i else p i

/-- `_PermutationProb`, `src/pinvoke_api.cpp:2534-2556`: the masks. -/
def permMask (pos : ℕ → ℕ) : List (ℕ × Bool) → ℕ × ℕ → ℕ × ℕ
  | [], mp => mp
  | (q, c) :: l, (mask, perm) =>
    let p := 2 ^ pos q
    permMask pos l (mask ||| p, if c then perm ||| p else perm)

/-- `_PermutationProb`, `src/pinvoke_api.cpp:2534-2556`. -/
noncomputable def permutationProb (P : Par) (pos : ℕ → ℕ) (e : Eng) (l : List (ℕ × Bool)) : Option (ℝ × Eng) :=
  let mp := permMask pos l (0, 0)
  probMask P e mp.1 mp.2

/-- `_PermutationExpVar`, `src/pinvoke_api.cpp:2577-2598`. -/
noncomputable def permutationExpVar (P : Par) (pos : ℕ → ℕ) (e : Eng) (q : List ℕ) (isExp : Bool) : Option (ℝ × Eng) :=
  expVarBitsAll P e isExp (q.map pos) 0

/-- The weights of `_FactorizedExpVar`, `src/pinvoke_api.cpp:2652-2660`: `m` words of the caller's array `c` for each, shifted in
one after the other into 128 bits. -/
def factorPerms (n m : ℕ) (c : ℕ → ℕ) : List ℕ :=
  (List.range (n <<< 1)).map fun i =>
    (List.range m).foldl (fun perm j => ((perm <<< 64) % 2 ^ 128) ||| c (i * m + j)) 0

/-- `_FactorizedExpVar`, `src/pinvoke_api.cpp:2634-2688`, given integers. -/
noncomputable def factorizedExpVar (P : Par) (pos : ℕ → ℕ) (e : Eng) (q : List ℕ) (m : ℕ) (c : ℕ → ℕ) (isExp : Bool) :
    Option (ℝ × Eng) :=
  if isExp then expectationBits P e (q.map pos) (factorPerms q.length m c) 0
  else varianceBits P e (q.map pos) (factorPerms q.length m c) 0

/-- `_FactorizedExpVar`, `src/pinvoke_api.cpp:2634-2688`, given reals. -/
noncomputable def factorizedFpExpVar (P : Par) (pos : ℕ → ℕ) (e : Eng) (q : List ℕ) (f : ℕ → ℝ) (isExp : Bool) :
    Option (ℝ × Eng) :=
  let _f := (List.range (q.length <<< 1)).map f
  if isExp then expectationFloats P e (q.map pos) _f else varianceFloats P e (q.map pos) _f

end Verif.CapiRead

namespace Verif.Capi

/-- A difference in `uintq` passed as `bitLenInt`, as `end - i` and `end - n`, `src/pinvoke_api.cpp:3338`, `:3342`. -/
def sub8 (a b : ℕ) : ℕ := if b ≤ a then (a - b) % 256 else (2 ^ 64 - (b - a) % 2 ^ 64) % 256

/-- The loops over `simulator->Swap(end - i, bitArray[i])`, `src/pinvoke_api.cpp:3337-3339`, `:3349-3351`; they are outside of the `try`. -/
def swapEnds (fin : ℕ) : ℕ → List ℕ → List ℕ → Option (List ℕ)
  | _, [], r => some r
  | i, b :: bs, r => (swapReg r (sub8 fin i) b).bind fun r => swapEnds fin (i + 1) bs r

/-- `Decompose(start, length)`, then `Compose`, `src/pinvoke_api.cpp:3342-3343`; `none` is the exception of a range outside of the
register. -/
def takeOutAppend (start length : ℕ) (r : List ℕ) : Option (List ℕ) :=
  if r.length < start + length then none
  else some (r.take start ++ r.drop (start + length) ++ (r.drop start).take length)

/-- `Separate`, `src/pinvoke_api.cpp:3327-3352`. `none` is an exception that leaves the call; the second component tells whether
the error of the simulator was set. -/
def separate (s : Sim) (q : List ℕ) : Option (Sim × Bool) :=
  (positions s q).bind fun bitArray =>
    let fin := sub8 s.reg.length 1
    (swapEnds fin 0 bitArray s.reg).bind fun r =>
      let t := takeOutAppend (sub8 fin q.length) q.length r
      (swapEnds fin 0 bitArray (t.getD r)).map fun r => (⟨r, s.sh⟩, t.isNone)

end Verif.Capi
