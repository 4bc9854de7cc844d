import Verif.Model.StabRead
import Mathlib.Analysis.SpecialFunctions.Complex.Arg

/-!
# `QStabilizer`: comparing two states

`src/qstabilizer.cpp:1762-1862` and `include/qstabilizer.hpp:419-449`. `ph` and `ph'` are the factors `std::polar(ONE_R1, phaseOffset)` of
the two objects; arithmetic is exact. A null pointer (compares as 1) and an object compared with itself (0), `:1764-1770`, are left out.
-/

namespace Verif.Stab

open Complex

/-- `QInterface::clampProb`, `include/qinterface.hpp:158-168`. -/
noncomputable def clampProb (p : ℝ) : ℝ :=
  let p := if p < 0 then 0 else p
  if 1 < p then 1 else p

/-- One entry of the discrete comparison, `src/qstabilizer.cpp:1798-1803` and `:1811-1816`: the other tableau, `potential`, `proj`, and
whether the function returns here. The first entry starts from zero. -/
noncomputable def discEntry {n : ℕ} (ph' : ℂ) (pNrm tol : ℝ) (e : Entry) (d : Tab n × ℝ × ℂ × Bool) : Tab n × ℝ × ℂ × Bool :=
  let a := getAmplitude ph' d.1 e.permutation
  let potential := d.2.1 + pNrm
  let proj := d.2.2.1 + (starRingEnd ℂ) e.amplitude * a.2
  (a.1, potential, proj, decide (tol < potential - ‖proj‖))

/-- One round of its loop, `src/qstabilizer.cpp:1804-1817`. -/
noncomputable def discStep {n : ℕ} (ph ph' : ℂ) (nrm pNrm tol : ℝ) (g : ℕ) (s : Tab n × Tab n × ℝ × ℂ × Bool) (t : ℕ) :
    Tab n × Tab n × ℝ × ℂ × Bool :=
  if s.2.2.2.2 then s
  else (walkStep g s.1 t, discEntry ph' pNrm tol (getBasisAmp ph nrm (walkStep g s.1 t (2 * n))) s.2)

/-- The discrete comparison, `src/qstabilizer.cpp:1786-1820`: the two tableaux left behind and the result. -/
noncomputable def compareDiscrete {n : ℕ} (ph ph' : ℂ) (T S : Tab n) (tol : ℝ) : Tab n × Tab n × ℝ :=
  let s := prepare T
  let pNrm := 1 / ((2 ^ s.2 : ℕ) : ℝ)
  let d := (List.range (2 ^ s.2 - 1)).foldl (discStep ph ph' (readNrm s.2) pNrm tol s.2)
    (s.1, discEntry ph' pNrm tol (getBasisAmp ph (readNrm s.2) (s.1 (2 * n))) (S, 0, 0, false))
  (d.1, d.2.1, if d.2.2.2.2 then 1 else 1 - clampProb (normSq d.2.2.2.1))

/-- The comparison with a map of the other state, `src/qstabilizer.cpp:1822-1846`; `find` leaves out what the map does not hold. -/
noncomputable def compareMap {n : ℕ} (ph ph' : ℂ) (T S : Tab n) : Tab n × Tab n × ℝ :=
  let s := prepare T
  let c := getQuantumStateMap ph' S
  let w := walk ph (readNrm s.2) s.2
    (fun e proj => match c.2 e.permutation with
      | some a => proj + (starRingEnd ℂ) e.amplitude * a
      | none => proj) s.1 (0 : ℂ)
  (w.1, c.1, 1 - clampProb (normSq w.2))

/-- The comparison that asks the other state for each amplitude, `src/qstabilizer.cpp:1848-1861`. -/
noncomputable def compareAmps {n : ℕ} (ph ph' : ℂ) (T S : Tab n) : Tab n × Tab n × ℝ :=
  let s := prepare T
  let w := walk ph (readNrm s.2) s.2
    (fun e (d : Tab n × ℂ) =>
      let a := getAmplitude ph' d.1 e.permutation
      (a.1, d.2 + (starRingEnd ℂ) e.amplitude * a.2)) s.1 (S, (0 : ℂ))
  (w.1, w.2.1, 1 - clampProb (normSq w.2.2))

/-- `QStabilizer::ApproxCompareHelper`, `src/qstabilizer.cpp:1762-1862`, for another register of `m` qubits: the two tableaux left behind
and the result. `cache` is `maxStateMapCacheQubitCount`; `PermCount`, `include/qstabilizer.hpp:259`, eliminates. -/
noncomputable def compareHelper {n m : ℕ} (ph ph' : ℂ) (cache : ℕ) (T : Tab n) (S : Tab m) (tol : ℝ) (isDiscrete : Bool) :
    Tab n × Tab m × ℝ :=
  if h : m = n then by
    subst h
    exact
      if m = 0 then (T, S, 0)
      else if isDiscrete then compareDiscrete ph ph' T S tol
      else if 2 ^ (gaussian S).2 < 2 ^ cache then compareMap ph ph' T (gaussian S).1
      else compareAmps ph ph' T (gaussian S).1
  else (T, S, 1)

/-- `QStabilizer::SumSqrDiff`, `include/qstabilizer.hpp:419-422`; the tolerance is not used there. -/
noncomputable def sumSqrDiff {n m : ℕ} (ph ph' : ℂ) (cache : ℕ) (T : Tab n) (S : Tab m) : ℝ :=
  (compareHelper ph ph' cache T S 0 false).2.2

/-- `QStabilizer::ApproxCompare`, `include/qstabilizer.hpp:427-430`. -/
noncomputable def approxCompare {n m : ℕ} (ph ph' : ℂ) (cache : ℕ) (T : Tab n) (S : Tab m) (tol : ℝ) : Bool :=
  decide ((compareHelper ph ph' cache T S tol true).2.2 ≤ tol)

/-- `QStabilizer::GlobalPhaseCompare`, `include/qstabilizer.hpp:435-449`; `eps` is `FP_NORM_EPSILON`. `none` is the undefined shift of
`GetAnyAmplitude`. -/
noncomputable def globalPhaseCompare {n : ℕ} (ph ph' : ℂ) (cache : ℕ) (eps : ℝ) (T S : Tab n) (tol : ℝ) : Option Bool :=
  match getAnyAmplitude ph T with
  | none => none
  | some (T', e) =>
    let a := getAmplitude ph' S e.permutation
    let argDiff := |(arg e.amplitude - arg a.2) / (2 * Real.pi)|
    let argDiff := argDiff - (⌊argDiff⌋ : ℝ)
    let argDiff := if 1 / 2 < argDiff then argDiff - 1 else argDiff
    if |argDiff| ≤ eps then some false else some (approxCompare ph ph' cache T' a.1 tol)

end Verif.Stab
