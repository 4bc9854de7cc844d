import Verif.Model.Stabilizer

/-!
# `QStabilizer`: recognition of Clifford matrices

`src/qstabilizer.cpp:1891-2370`. The comparisons `IS_SAME`, `IS_NORM_0` (`include/common/qrack_types.hpp:25-26`) are taken with
tolerance zero, and matrix entries are exact. `SetPhaseOffset` does nothing here, `randGlobalPhase` being set. An outcome is the
tableau left behind together with whether an exception was thrown.
-/

namespace Verif.Stab

open Complex

/-- A sequence of gate calls; a throwing call ends it. -/
def runSeq {n : ℕ} (scr : Row n) : List Gate → Tab n → Tab n × Bool
  | [], T => (T, false)
  | g :: gs, T =>
    match g.run scr T with
    | none => (T, true)
    | some T' => runSeq scr gs T'

/-- `IsSeparableZ(target)` and, if so, `M(target)` followed by `k`, `src/qstabilizer.cpp:2037-2045`, `:2074-2081`; otherwise
the exception that ends `Phase` and `Invert`. -/
def onSeparable {n : ℕ} (T : Tab n) (t : ℕ) (rnd : Bool) (k : Bool → Tab n → Tab n × Bool) : Tab n × Bool :=
  match isSeparableZ T t with
  | none => (T, true)
  | some false => (T, true)
  | some true =>
    match forceM T t false false true rnd with
    | none => (T, true)
    | some (v, T') => k v T'

/-- `QStabilizer::Phase`, `src/qstabilizer.cpp:2016-2048`; the inner calls have two equal entries and only change the global
phase. -/
noncomputable def phaseG {n : ℕ} (scr : Row n) (a d : ℂ) (t : ℕ) (rnd : Bool) (T : Tab n) : Tab n × Bool :=
  if a = d then (T, false)
  else if a = -d then runSeq scr [.z t] T
  else if a = -I * d then runSeq scr [.s t] T
  else if a = I * d then runSeq scr [.is t] T
  else onSeparable T t rnd fun _ T' => (T', false)

/-- `QStabilizer::Invert`, `src/qstabilizer.cpp:2050-2085`; the inner calls have two equal entries and apply `X`. -/
noncomputable def invertG {n : ℕ} (scr : Row n) (b c : ℂ) (t : ℕ) (rnd : Bool) (T : Tab n) : Tab n × Bool :=
  if b = c then runSeq scr [.x t] T
  else if b = -c then runSeq scr [.y t] T
  else if b = -I * c then runSeq scr [.x t, .s t] T
  else if b = I * c then runSeq scr [.x t, .is t] T
  else onSeparable T t rnd fun _ T' => runSeq scr [.x t] T'

/-- `QStabilizer::Mtrx`, `src/qstabilizer.cpp:1891-2014`. -/
noncomputable def mtrxG {n : ℕ} (scr : Row n) (a b c d : ℂ) (t : ℕ) (rnd : Bool) (T : Tab n) : Tab n × Bool :=
  if b = 0 ∧ c = 0 then phaseG scr a d t rnd T
  else if a = 0 ∧ d = 0 then invertG scr b c t rnd T
  else if a = b ∧ a = c ∧ a = -d then runSeq scr [.h t] T
  else if a = b ∧ a = -c ∧ a = d then runSeq scr [.x t, .h t] T
  else if a = -b ∧ a = c ∧ a = d then runSeq scr [.h t, .x t] T
  else if a = -b ∧ a = -c ∧ a = -d then runSeq scr [.x t, .h t, .x t] T
  else if a = b ∧ a = -I * c ∧ a = I * d then runSeq scr [.h t, .s t] T
  else if a = b ∧ a = I * c ∧ a = -I * d then runSeq scr [.h t, .is t] T
  else if a = -b ∧ a = I * c ∧ a = I * d then runSeq scr [.h t, .x t, .is t] T
  else if a = -b ∧ a = -I * c ∧ a = -I * d then runSeq scr [.h t, .x t, .s t] T
  else if a = I * b ∧ a = c ∧ a = -I * d then runSeq scr [.is t, .h t] T
  else if a = -I * b ∧ a = c ∧ a = I * d then runSeq scr [.s t, .h t] T
  else if a = -I * b ∧ a = -c ∧ a = -I * d then runSeq scr [.is t, .h t, .x t, .z t] T
  else if a = I * b ∧ a = -c ∧ a = I * d then runSeq scr [.s t, .h t, .x t, .z t] T
  else if a = I * b ∧ a = I * c ∧ a = d then runSeq scr [.is t, .h t, .is t] T
  else if a = -I * b ∧ a = -I * c ∧ a = d then runSeq scr [.s t, .h t, .s t] T
  else if a = I * b ∧ a = -I * c ∧ a = -d then runSeq scr [.is t, .h t, .s t] T
  else if a = -I * b ∧ a = I * c ∧ a = -d then runSeq scr [.s t, .h t, .is t] T
  else (T, true)

/-- The gates of one control: with `v` set those of `MCPhase` and `MCInvert`, otherwise those of `MACPhase` and `MACInvert`. -/
def cX (v : Bool) (c t : ℕ) : Gate := if v then .cnot c t else .antiCnot c t
def cY (v : Bool) (c t : ℕ) : Gate := if v then .cy c t else .antiCy c t
def cZ (v : Bool) (c t : ℕ) : Gate := if v then .cz c t else .antiCz c t

/-- `QStabilizer::MCPhase` (`v` set), `src/qstabilizer.cpp:2087-2148`, and `QStabilizer::MACPhase`, `:2150-2221`. -/
noncomputable def mcPhaseG {n : ℕ} (v : Bool) (scr : Row n) (cs : List ℕ) (a d : ℂ) (t : ℕ) (rnd : Bool) (T : Tab n) :
    Tab n × Bool :=
  if a = 1 ∧ d = 1 then (T, false)
  else match cs with
    | [] => phaseG scr a d t rnd T
    | [c] =>
      if a = 1 then
        if d = 1 then (T, false)
        else if d = -1 then runSeq scr [cZ v c t] T
        else (T, true)
      else if a = -1 then
        if d = 1 then runSeq scr [cX v c t, cZ v c t, cX v c t] T
        else if d = -1 then runSeq scr [cZ v c t, cX v c t, cZ v c t, cX v c t] T
        else (T, true)
      else if a = I then
        if d = I then runSeq scr [cZ v c t, cY v c t, cX v c t] T
        else if d = -I then runSeq scr [cY v c t, cX v c t] T
        else (T, true)
      else if a = -I then
        if d = I then runSeq scr [cX v c t, cY v c t] T
        else if d = -I then runSeq scr [cY v c t, cZ v c t, cX v c t] T
        else (T, true)
      else (T, true)
    | _ :: _ :: _ => (T, true)

/-- `QStabilizer::MCInvert` (`v` set), `src/qstabilizer.cpp:2223-2287`, and `QStabilizer::MACInvert`, `:2289-2353`. -/
noncomputable def mcInvertG {n : ℕ} (v : Bool) (scr : Row n) (cs : List ℕ) (b c' : ℂ) (t : ℕ) (rnd : Bool) (T : Tab n) :
    Tab n × Bool :=
  match cs with
  | [] => invertG scr b c' t rnd T
  | [c] =>
    if b = 1 then
      if c' = 1 then runSeq scr [cX v c t] T
      else if c' = -1 then runSeq scr [cX v c t, cZ v c t] T
      else (T, true)
    else if b = -1 then
      if c' = 1 then runSeq scr [cZ v c t, cX v c t] T
      else if c' = -1 then runSeq scr [cZ v c t, cX v c t, cZ v c t] T
      else (T, true)
    else if b = I then
      if c' = I then runSeq scr [cZ v c t, cY v c t] T
      else if c' = -I then runSeq scr [cZ v c t, cY v c t, cZ v c t] T
      else (T, true)
    else if b = -I then
      if c' = I then runSeq scr [cY v c t] T
      else if c' = -I then runSeq scr [cY v c t, cZ v c t] T
      else (T, true)
    else (T, true)
  | _ :: _ :: _ => (T, true)

/-- `MCMtrx` (`v` set) and `MACMtrx`, `include/qstabilizer.hpp:464-488`. -/
noncomputable def mcMtrxG {n : ℕ} (v : Bool) (scr : Row n) (cs : List ℕ) (a b c d : ℂ) (t : ℕ) (rnd : Bool) (T : Tab n) :
    Tab n × Bool :=
  if b = 0 ∧ c = 0 then mcPhaseG v scr cs a d t rnd T
  else if a = 0 ∧ d = 0 then mcInvertG v scr cs b c t rnd T
  else (T, true)

end Verif.Stab
