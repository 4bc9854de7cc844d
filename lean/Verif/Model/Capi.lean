import Mathlib.Data.List.Perm.Basic
import Mathlib.Data.List.Range
import Mathlib.Data.List.Nodup
import Verif.Model.BigInt

/-!
# The C API: qubit ids, register relocation, big integer arguments

`src/pinvoke_api.cpp`. One simulator is its register, the list of the qubits at positions `0, 1, …` (each qubit a token), and its
entry of `shards`, the map from qubit ids to positions. `none` is undefined behaviour or an exception. `bitLenInt` has eight
bits, `uintq` sixty-four (`include/pinvoke_api.hpp:25`); registers have fewer than 256 qubits.
-/

namespace Verif.Capi

/-- `std::map<uintq, bitLenInt>`: entries in order of their keys. -/
abbrev Shards := List (ℕ × ℕ)

/-- `find`. -/
def mget (m : Shards) (k : ℕ) : Option ℕ := (m.find? fun e => e.1 = k).map (·.2)

/-- `m[k] = v`. -/
def mset (m : Shards) (k v : ℕ) : Shards :=
  if k ∈ m.map (·.1) then m.map fun e => if e.1 = k then (k, v) else e
  else (m.takeWhile fun e => e.1 < k) ++ (k, v) :: m.dropWhile fun e => e.1 < k

/-- `erase(k)`. -/
def merase (m : Shards) (k : ℕ) : Shards := m.filter fun e => e.1 ≠ k

structure Sim where
  reg : List ℕ
  sh : Shards
  deriving DecidableEq

/-- `GetSimShardId`, `src/pinvoke_api.cpp:277-308`: the id is a `bitLenInt`. -/
def addr (s : Sim) (q : ℕ) : Option ℕ := mget s.sh (q % 256)

/-- `QInterface::Swap` on the tokens; a position outside the register throws. -/
def swapReg (r : List ℕ) (i j : ℕ) : Option (List ℕ) :=
  match r[i]?, r[j]? with
  | some x, some y => some ((r.set i y).set j x)
  | _, _ => none

/-- `FindShardValue`, `src/pinvoke_api.cpp:449-459`: the key found first, if any. -/
def findValue (m : Shards) (v : ℕ) : Option ℕ := (m.find? fun e => e.2 = v).map (·.1)

/-- `SwapShardValues`, `src/pinvoke_api.cpp:461-466`; dereferencing `end()` is undefined. -/
def swapValues (m : Shards) (v1 v2 : ℕ) : Option Shards :=
  match findValue m v1, findValue m v2 with
  | some k1, some k2 => some (m.map fun e => if e.1 = k1 then (e.1, v2) else if e.1 = k2 then (e.1, v1) else e)
  | _, _ => none

/-- `simulator->Swap(a, b)` and `SwapShardValues(a, b, …)`, e.g. `src/pinvoke_api.cpp:479-480`. -/
def relocate (s : Sim) (a b : ℕ) : Option Sim :=
  (swapReg s.reg a b).bind fun r => (swapValues s.sh a b).map fun m => ⟨r, m⟩

/-- The relocation loops: `start + i` is exchanged with the position recorded for the `i`-th listed qubit. -/
def place (s : Sim) (start : ℕ) : ℕ → List ℕ → Option Sim
  | _, [] => some s
  | i, b :: bs => (relocate s (start + i) b).bind fun s' => place s' start (i + 1) bs

/-- The positions recorded for a list of ids, `bitArray[i] = GetSimShardId(simulator, q[i])`. -/
def positions (s : Sim) : List ℕ → Option (List ℕ)
  | [] => some []
  | q :: qs => (addr s q).bind fun p => (positions s qs).map fun ps => p :: ps

/-- `start`: the smallest position; `q[0U]` is read first. -/
def least : List ℕ → Option ℕ
  | [] => none
  | p :: ps => some (ps.foldl min p)

/-- `MapArithmetic`, `src/pinvoke_api.cpp:468-484`. -/
def mapArithmetic (s : Sim) (q : List ℕ) : Option (ℕ × Sim) :=
  (positions s q).bind fun ps => (least ps).bind fun start => (place s start 0 ps).map fun s' => (start, s')

/-- The common part of `MapArithmetic2` and `MapArithmetic3` once the registers are in order,
`src/pinvoke_api.cpp:517-527`, `:558-568`. -/
def placeTwo (s : Sim) (st1 : ℕ) (ps1 : List ℕ) (st2 : ℕ) (ps2 : List ℕ) : Option (ℕ × ℕ × Sim) :=
  (place s st1 0 ps1).bind fun s1 =>
    let st2' := if st1 + ps1.length > st2 then st1 + ps1.length else st2
    (place s1 st2' 0 ps2).map fun s2 => (st1, st2', s2)

/-- `MapArithmetic3`, `src/pinvoke_api.cpp:534-573`; with lists of equal length also `MapArithmetic2`, `:496-532`. -/
def mapArithmetic3 (s : Sim) (q1 q2 : List ℕ) : Option (ℕ × ℕ × Sim) :=
  (positions s q1).bind fun ps1 => (positions s q2).bind fun ps2 =>
    (least ps1).bind fun st1 => (least ps2).bind fun st2 =>
      if st2 < st1 then (placeTwo s st2 ps2 st1 ps1).map fun r => (r.2.1, r.1, r.2.2)
      else placeTwo s st1 ps1 st2 ps2

/-- `allocateQubit` on an existing simulator, `src/pinvoke_api.cpp:1307-1320`; `tok` is the new qubit. -/
def allocate (s : Sim) (qid tok : ℕ) : Sim :=
  let r := s.reg ++ [tok]
  ⟨r, mset s.sh qid (r.length - 1)⟩

/-- `allocateQubit` when the simulator is still null, `src/pinvoke_api.cpp:1298-1304`. -/
def allocateFirst (qid tok : ℕ) : Sim := ⟨[tok], mset [] qid 0⟩

/-- `FillSimShards`, `src/pinvoke_api.cpp:310-317`. -/
def fill (toks : List ℕ) : Sim := ⟨toks, (List.range toks.length).map fun i => (i, i)⟩

/-- The loop that closes the gap, `src/pinvoke_api.cpp:1350-1355`, `:2291-2298`, `:2320-2327`: `simShards[q]` inserts zero for
an unknown id. -/
def closeGap (m : Shards) (q : ℕ) : Shards :=
  let m' := if q ∈ m.map (·.1) then m else mset m q 0
  let o := (mget m' q).getD 0
  merase (m'.map fun e => if o < e.2 then (e.1, e.2 - 1) else e) q

/-- `release`, `src/pinvoke_api.cpp:1326-1360`: `none` for the exception of `Prob` on a qubit that is not there; the inner
`none` is the null simulator left behind by the last qubit. -/
def release (s : Sim) (q : ℕ) : Option (Option Sim) :=
  match addr s q with
  | none => none
  | some _ =>
    if s.reg.length = 1 then some none
    else some (some ⟨s.reg.eraseIdx ((mget s.sh q).getD 0), closeGap s.sh q⟩)

/-- The loop `simulator->Swap(GetSimShardId(simulator, q[i]), i + nQubitIndex)`, `src/pinvoke_api.cpp:2278-2280`, `:2310-2312`. -/
def moveToEnd (s : Sim) (idx : ℕ) : ℕ → List ℕ → Option Sim
  | _, [] => some s
  | i, q :: qs => (addr s q).bind fun p => (swapReg s.reg p (i + idx)).bind fun r => moveToEnd ⟨r, s.sh⟩ idx (i + 1) qs

/-- `Dispose`, `src/pinvoke_api.cpp:2304-2330`, and what `Decompose`, `:2268-2302`, does to the simulator it takes from. -/
def dispose (s : Sim) (q : List ℕ) : Option Sim :=
  let idx := s.reg.length - q.length
  (moveToEnd s idx 0 q).map fun s' => ⟨s'.reg.take idx, q.foldl closeGap s'.sh⟩

/-- `Compose`, `src/pinvoke_api.cpp:2256-2266`: `q` names the qubits of the second simulator. -/
def compose (s : Sim) (q toks : List ℕ) : Sim :=
  ⟨s.reg ++ toks, ((List.range toks.length).zip q).foldl (fun m e => mset m e.2 (s.reg.length + e.1)) s.sh⟩

/-- The calls that change the register of one simulator; `tok` and `toks` are new qubits. -/
inductive Call
  | alloc (q tok : ℕ)
  | release (q : ℕ)
  | arith (qs : List ℕ)
  | arith3 (q1 q2 : List ℕ)
  | dispose (qs : List ℕ)
  | compose (qs toks : List ℕ)

/-- One call; the simulator may be null, and then all but `allocateQubit` and `release` return at once (the check in the lock
guards, `src/pinvoke_api.cpp:59-61`, and `:2226-2228`), while `release` dereferences it. -/
def Call.run : Option Sim → Call → Option (Option Sim)
  | none, .alloc q tok => some (some (allocateFirst q tok))
  | none, .release _ => none
  | none, _ => some none
  | some s, .alloc q tok => some (some (allocate s q tok))
  | some s, .release q => Capi.release s q
  | some s, .arith qs => (mapArithmetic s qs).map fun r => some r.2
  | some s, .arith3 q1 q2 => (mapArithmetic3 s q1 q2).map fun r => some r.2.2
  | some s, .dispose qs => (Capi.dispose s qs).map some
  | some s, .compose qs toks => some (some (Capi.compose s qs toks))

def runCalls : Option Sim → List Call → Option (Option Sim)
  | st, [] => some st
  | st, c :: cs => (c.run st).bind fun st' => runCalls st' cs

/-! ### Big integer arguments -/

/-- `<<=` of an `unsigned __int128`. -/
def shl128 (t s : ℕ) : Option ℕ := if 128 ≤ s then none else some (t <<< s % 2 ^ 128)

/-- `_combineA`, `src/pinvoke_api.cpp:585-605`, with 128 bits in `unsigned __int128`: `bi_lshift_ip` is `<<=`
(`include/common/qrack_functions.hpp:57`), undefined from 128 on. The second component is whether `metaError` was set. -/
def combineANative (a : List ℕ) : Option (ℕ × Bool) :=
  if a.length > 128 / 64 then some (0, true)
  else (a.reverse.foldlM (fun t w => (shl128 t 128).map fun t' => t' ||| w) 0).map fun t => (t, false)

open BigInt in
/-- `_combineA` with a `BigInteger` of `N` words of 64 bits. -/
def combineABig (N : ℕ) (a : List ℕ) : Option (Limbs × Bool) :=
  if a.length > N * 64 / 64 then some ((fun _ => 0), true)
  else (a.reverse.foldlM (fun t w => (biLshiftIp 64 N t (N * 64)).map fun t' => biOr t' (fun i => if i = 0 then w else 0))
    (fun _ => 0)).map fun t => (t, false)

end Verif.Capi
