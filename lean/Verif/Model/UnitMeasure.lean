import Verif.Model.UnitEntangle

/-!
# Model of how `QUnit` reads, measures and separates qubits

Registers as in `Verif/Model/UnitEntangle.lean`. What a unit answers is what has been proved of the engine: `Prob` (C22), `ForceM` (C20),
`ProbParity` (C22), `Dispose` with a known value (C24), multi-shot sampling (C53).
-/

namespace Verif.QUE

open Verif.Spec

/-- `unit->Prob(p)`: the probability that the qubit at place `p` of a unit of `m` qubits is set. -/
noncomputable def unitProb (m p : ℕ) (s : ℕ → ℂ) : ℝ := ∑ j ∈ Finset.range (2 ^ m), if j.testBit p then Complex.normSq (s j) else 0

/-- `QUnit::Prob` by way of `ProbBase`, `include/qunit.hpp:444-452`, `src/qunit.cpp:950-1015`. -/
noncomputable def Reg.prob (R : Reg) (q : ℕ) : ℝ := unitProb (R.size (R.unit q)) (R.pos q) (R.amp (R.unit q))

/-- A number for a unit that is not in use. -/
def Reg.fresh (R : Reg) : ℕ := ((List.range R.n).map R.unit).sum + 1

/-- `j` with a bit of value `v` put in at place `p`, the higher ones moved up: the amplitudes that `Dispose(p, 1, v)` keeps,
`src/qengine/state.cpp:1280-1320`. -/
def insBit (p : ℕ) (v : Bool) (j : ℕ) : ℕ := j % 2 ^ p + v.toNat * 2 ^ p + j / 2 ^ p * 2 ^ (p + 1)

/-- `QUnit::SeparateBit`, `src/qunit.cpp:1324-1375`: the qubit gets a shard of its own with value `v` and the phase of
`GetNonunitaryPhase`, and is disposed from its unit. A unit of one qubit is given up (here it stays without a qubit that refers to it).
The new norm is left out: the qubit has the value `v` for certain when this is called, so that the norm is that of the unit before. -/
noncomputable def Reg.separate (R : Reg) (phase : ℂ) (v : Bool) (q : ℕ) : Reg where
  n := R.n
  unit k := if k = q then R.fresh else R.unit k
  pos k := if k = q then 0 else if R.unit k = R.unit q ∧ R.pos q < R.pos k then R.pos k - 1 else R.pos k
  size := Function.update (Function.update R.size (R.unit q) (R.size (R.unit q) - 1)) R.fresh 1
  amp := Function.update (Function.update R.amp (R.unit q) fun j => R.amp (R.unit q) (insBit (R.pos q) v j)) R.fresh
    fun j => if j.testBit 0 = v then phase else 0

/-- The state of a unit after `ForceM` with outcome `v` (C20). -/
noncomputable def unitForce (m p : ℕ) (v : Bool) (s : ℕ → ℂ) (j : ℕ) : ℂ :=
  if j.testBit p = v then s j / Real.sqrt (if v then unitProb m p s else 1 - unitProb m p s) else 0

/-- `QUnit::ForceM` with `doApply`, outcome `v`, `src/qunit.cpp:1377-1449`. -/
noncomputable def Reg.forceM (R : Reg) (phase : ℂ) (v : Bool) (q : ℕ) : Reg :=
  (R.act (R.unit q) (unitForce (R.size (R.unit q)) (R.pos q) v)).separate phase v q

/-- The passes of `QUnit::MAll`, `src/qunit.cpp:1475-1522`, over the qubits below `k`; `v` are the outcomes. `M` of a qubit is `ForceM`. The
register is set to the outcome at the end. -/
noncomputable def Reg.measured (R : Reg) (phase : ℕ → ℂ) (v : ℕ → Bool) : ℕ → Reg
  | 0 => R
  | k + 1 => (R.measured phase v k).forceM (phase k) (v k) k

/-- `QUnit::TrySeparate(qubit)`, `src/qunit.cpp:671-753`, with a threshold of zero: nothing is done for a qubit in a unit of its own. Else
the inverse `IAI` is applied to the unit, and when the qubit is then `|0⟩` for certain, it is separated and `AI` applied to its shard; else
`AI` is applied to the unit. `ai` and `iai` are the matrices of `AI` and `IAI`. How the angles are found (`:690-733`, where the basis of the
shard is changed and changed back), and the return before `IAI` when the angles show that the qubit is not separable, do not matter for the
state. -/
noncomputable def Reg.trySeparate (R : Reg) (phase : ℂ) (ai iai : ℂ × ℂ × ℂ × ℂ) (q : ℕ) : Bool × Reg :=
  let on (m : ℂ × ℂ × ℂ × ℂ) (R : Reg) : Reg := R.act (R.unit q) (gate (fun _ => True) (R.pos q) m.1 m.2.1 m.2.2.1 m.2.2.2)
  let R1 := on iai R
  open Classical in
  if R.size (R.unit q) = 1 then (true, R)
  else if 2 * R1.prob q > 0 then (false, on ai R1) else (true, on ai (R1.separate phase false q))

/-- A gate with one control given to the joined unit, when memory suffices (`ApplyEitherControlled`, `src/qunit.cpp:2652-2694`). -/
noncomputable def Reg.controlled (R : Reg) (perm c t : ℕ) (m : ℂ × ℂ × ℂ × ℂ) : Reg :=
  let s := R.entangle ([c, t].mergeSort (· ≤ ·))
  s.1.act s.2.1 (gate (Matches perm [s.1.pos c]) (s.1.pos t) m.1 m.2.1 m.2.2.1 m.2.2.2)

/-- `QUnit::TrySeparate(qubit1, qubit2)` for two qubits in one unit, `src/qunit.cpp:785-829`. `ciai` and `cai` are the matrices of `CIAI` and
`CAI`, `aiai` and `aai` those of `AntiCIAI` and `AntiCAI`, `(ai, iai)` those of the separations of one qubit. The gates `CH`, `CS` and
`MCMtrx` in between (`:799-804`, `:809-814`) are each other's inverse and are left out. -/
noncomputable def Reg.trySeparatePair (R : Reg) (phase1 phase2 : ℂ) (cai ciai aai aiai ai1 iai1 ai2 iai2 : ℂ × ℂ × ℂ × ℂ) (q1 q2 : ℕ) :
    Bool × Reg :=
  let on (perm : ℕ) (m : ℂ × ℂ × ℂ × ℂ) (R : Reg) : Reg :=
    R.act (R.unit q2) (gate (Matches perm [R.pos q1]) (R.pos q2) m.1 m.2.1 m.2.2.1 m.2.2.2)
  let s1 := (on 0 aiai (on 1 ciai R)).trySeparate phase1 ai1 iai1 q1
  let s2 := s1.2.trySeparate phase2 ai2 iai2 q2
  (s1.1 && s2.1, (s2.2.controlled 0 q1 q2 aai).controlled 1 q1 q2 cai)

/-- `unit->ProbParity(mask)`. -/
noncomputable def unitParity (m mask : ℕ) (s : ℕ → ℂ) : ℝ :=
  ∑ j ∈ Finset.range (2 ^ m), if maskCount m mask j % 2 = 1 then Complex.normSq (s j) else 0

/-- `oddChance` with one more unit, `src/qunit.cpp:1129, 1144-1145`. -/
def odds (o p : ℝ) : ℝ := o * (1 - p) + (1 - o) * p

/-- `QUnit::ProbParity`, `src/qunit.cpp:1093-1149`. `none` stands for an exception. The units are taken in the order of first use (the
code: those of one shard first, the others in the order of their addresses). -/
noncomputable def Reg.probParity (R : Reg) (mask : ℕ) : Option ℝ :=
  if 2 ^ R.n ≤ mask then none
  else if mask = 0 then some 0
  else if (bitsOf R.n mask).length = 1 then some (R.prob ((bitsOf R.n mask).headD 0))
  else
    some ((uniq ((bitsOf R.n mask).map R.unit)).foldl (fun o u =>
      odds o (unitParity (R.size u) (maskOf (((bitsOf R.n mask).filter (R.unit · = u)).map R.pos)) (R.amp u))) 0)

/-- The power that `QUnit::MultiShotMeasureMask` (the version that fills an array) hands to the unit for one of the given powers,
`src/qunit.cpp:1716-1721, 1732-1737`: that of the first qubit `j` with `qPower >= pow2(j)`. -/
def Reg.mappedPower (R : Reg) (qPower : ℕ) : ℕ :=
  match (List.range R.n).find? (fun j => decide (2 ^ j ≤ qPower)) with
  | some j => 2 ^ R.pos j
  | none => 0

/-- The sample that the unit makes of its basis state `j` for a list of powers (C53). -/
def sample (powers : List ℕ) (j : ℕ) : ℕ := Nat.ofBits fun k : Fin powers.length => j.testBit (Nat.log2 powers[k])

/-- `QUnit::MultiShotMeasureMask(qPowers, shots, shotsArray)` when the listed qubits are not all qubits and are in one unit,
`src/qunit.cpp:1704-1747`: one shot, when the unit is found in its basis state `j`. -/
def Reg.shot (R : Reg) (qPowers : List ℕ) (j : ℕ) : ℕ := sample (qPowers.map R.mappedPower) j

end Verif.QUE
