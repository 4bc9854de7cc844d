import Mathlib.Data.List.Basic
import Mathlib.Data.Int.Basic

/-!
# Model of the distribution of units over devices in `QUnitMulti`

`src/qunitmulti.cpp:193-274`. Units are given in the order of `std::sort` (`:212`). An access outside of a vector is the outcome `ub`.
Sizes are natural numbers (no wrap-around of `bitCapIntOcl`).
-/

namespace Verif.UMulti

/-- `DeviceInfo`, `include/qunitmulti.hpp:55-61`. -/
structure Dev where
  id : ℕ
  maxSize : ℕ

/-- What is asked of a unit: `GetDevice()`, `GetQubitCount()`, `isClifford()`. -/
structure U where
  dev : ℤ
  qbc : ℕ
  clifford : Bool

/-- The members of `QUnitMulti`; `dflt` is `QRACK_GPU_SINGLETON.GetDefaultDeviceID()`. -/
structure Cfg where
  devs : List Dev
  qbList : List ℕ
  dflt : ℕ
  redistributing : Bool
  isOcl : Bool
  threshold : ℕ

/-- `(size_t)` of an `int64_t`. -/
def sizeT (d : ℤ) : ℕ := (d % 2 ^ 64).toNat

/-- The lambda of `src/qunitmulti.cpp:203-206`: `di.id == (dev < 0) ? dflt : (size_t)dev`, in which the comparison binds more tightly than
the choice, converted to `bool`. -/
def isDevice (dflt : ℕ) (dev : ℤ) (di : Dev) : Bool :=
  if (if di.id = (if dev < 0 then 1 else 0) then dflt else sizeT dev) = 0 then false else true

/-- `deviceIndex`, `src/qunitmulti.cpp:202-206`: `std::distance` to the first match, or to the end. -/
def deviceIndex (C : Cfg) (u : U) : ℕ := C.devs.findIdx (isDevice C.dflt u.dev)

inductive Err where
  | ub
  | badAlloc
  deriving DecidableEq

/-- `src/qunitmulti.cpp:232-237`: units that stay where they are and are not counted. -/
def skips (C : Cfg) (u : U) (dqb : ℕ) : Bool :=
  !C.redistributing && u.qbc ≤ dqb && 2 < 2 ^ u.qbc && !u.clifford && (C.isOcl || C.threshold < u.qbc)

/-- The search for the device with the lowest load, `src/qunitmulti.cpp:246-262`: the device and its index. -/
def choose (C : Cfg) (sizes : List ℕ) (u : U) (i sz : ℕ) : ℤ × ℕ :=
  let s : ℤ × ℕ × ℕ :=
    if sizes.getD 0 0 < sz ∧ u.qbc ≤ C.qbList.getD 0 0 then (((C.devs.map Dev.id).getD 0 0 : ℕ), 0, sizes.getD 0 0) else (u.dev, i, sz)
  let s := (List.range C.devs.length).foldl (fun (s : ℤ × ℕ × ℕ) j =>
    if sizes.getD j 0 < s.2.2 ∧ sizes.getD j 0 + 2 ^ u.qbc ≤ (C.devs.map Dev.maxSize).getD j 0 ∧
        u.qbc ≤ C.qbList.getD (j % C.qbList.length) 0
    then (((C.devs.map Dev.id).getD j 0 : ℕ), j, sizes.getD j 0) else s) s
  (s.1, s.2.1)

/-- One pass of the loop of `RedistributeQEngines`, `src/qunitmulti.cpp:230-273`: the loads, and the device of the unit. -/
def place (C : Cfg) (sizes : List ℕ) (u : U) : Except Err (List ℕ × ℤ) :=
  let i := deviceIndex C u
  if C.qbList = [] then .error .ub
  else if skips C u (C.qbList.getD (i % C.qbList.length) 0) then .ok (sizes, u.dev)
  else
    match sizes[i]? with
    | none => .error .ub
    | some sz =>
      let c := if sz ≠ 0 then choose C sizes u i sz else (u.dev, i)
      match C.devs[c.2]?, sizes[c.2]? with
      | some d, some s => if d.maxSize < s + 2 ^ u.qbc then .error .badAlloc else .ok (sizes.set c.2 (s + 2 ^ u.qbc), c.1)
      | _, _ => .error .ub

/-- The loop over the units. -/
def placeAll (C : Cfg) : List U → List ℕ → Except Err (List ℕ)
  | [], sizes => .ok sizes
  | u :: us, sizes =>
    match place C sizes u with
    | .error e => .error e
    | .ok r => placeAll C us r.1

/-- `QUnitMulti::RedistributeQEngines`, `src/qunitmulti.cpp:217-274`: the loads (none for a single device). -/
def redistribute (C : Cfg) (us : List U) : Except Err (List ℕ) :=
  if C.devs.length ≤ 1 then .ok [] else placeAll C us (List.replicate C.devs.length 0)

end Verif.UMulti
