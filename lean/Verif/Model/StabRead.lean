import Verif.Model.Stabilizer

/-!
# `QStabilizer`: reading the state out

`src/qstabilizer.cpp:234-851`. Every read-out runs `gaussian`, then `seed`, then walks over the basis states of nonzero
amplitude in the scratch row. The factor `std::polar(ONE_R1, phaseOffset)` of `getBasisAmp` is the argument `ph`. Arithmetic on
amplitudes and probabilities is exact; permutations are natural numbers, so that `2^n` is assumed to fit a `bitCapInt`.
-/

namespace Verif.Stab

/-- `AmplitudeEntry`, `include/qstabilizer.hpp:31-40`. -/
structure Entry where
  permutation : ℕ
  amplitude : ℂ

/-- The loop over the qubits in `seed`, `src/qstabilizer.cpp:255-262`, from the highest qubit down: the pair of `min` and
`f`. -/
def seedInner {n : ℕ} (zi xec : Fin n → Bool) (s : ℕ × ℕ) : ℕ × ℕ :=
  (List.finRange n).reverse.foldl
    (fun s j => if zi j then (j.val, if xec j then (s.2 + 2) &&& 3 else s.2) else s) s

/-- One round of `seed` for row `w`, `src/qstabilizer.cpp:253-269`: the bits `xec`, and `min`, which outlives the round. -/
def seedRound {n : ℕ} (w : Row n) (s : (Fin n → Bool) × ℕ) : (Fin n → Bool) × ℕ :=
  let m := seedInner w.z s.1 (s.2, w.r)
  if m.2 = 2 then (fun j => if j.val = m.1 then !s.1 j else s.1 j, m.1) else (s.1, m.1)

/-- The rounds of `seed`, over the rows from `2n - 1` down to `n + g`. -/
def seedBits {n : ℕ} (T : Tab n) (g : ℕ) : (Fin n → Bool) × ℕ :=
  (List.range' (n + g) (n - g)).reverse.foldl (fun s i => seedRound (T i) s) (fun _ => false, 0)

/-- `QStabilizer::seed`, `src/qstabilizer.cpp:239-270`. -/
def seed {n : ℕ} (T : Tab n) (g : ℕ) : Tab n :=
  Function.update T (2 * n) { x := (seedBits T g).1, z := fun _ => false, r := 0 }

/-- The phase exponent in `getBasisAmp`, `src/qstabilizer.cpp:276-285`. -/
def basisExp {n : ℕ} (w : Row n) : ℕ :=
  (List.finRange n).foldl (fun e j => if w.x j && w.z j then (e + 1) &&& 3 else e) w.r

/-- The permutation in `getBasisAmp`, `src/qstabilizer.cpp:296-301`. -/
def basisPerm {n : ℕ} (w : Row n) : ℕ :=
  (List.finRange n).foldl (fun p (j : Fin n) => if w.x j then p ||| 2 ^ j.val else p) 0

/-- `QStabilizer::getBasisAmp`, `src/qstabilizer.cpp:273-304`, of the scratch row `w`. -/
noncomputable def getBasisAmp {n : ℕ} (ph : ℂ) (nrm : ℝ) (w : Row n) : Entry :=
  let e := basisExp w
  let amp : ℂ := nrm
  let amp := if e.testBit 0 then amp * Complex.I else amp
  let amp := if e.testBit 1 then amp * -1 else amp
  { permutation := basisPerm w, amplitude := amp * ph }

/-- The multiplications between two basis states of the walk, `src/qstabilizer.cpp:404-409` (and the same lines in each
read-out). -/
def walkStep {n : ℕ} (g : ℕ) (T : Tab n) (t : ℕ) : Tab n :=
  (List.range g).foldl (fun T i => if (t ^^^ (t + 1)).testBit i then rowmultT T (2 * n) (n + i) else T) T

/-- The walk without early return: `f` is applied to the entry of the first basis state, then to the entries reached for
`t = 0 .. 2^g - 2`. -/
noncomputable def walk {n : ℕ} {β : Type} (ph : ℂ) (nrm : ℝ) (g : ℕ) (f : Entry → β → β) (T : Tab n) (b : β) : Tab n × β :=
  (List.range (2 ^ g - 1)).foldl
    (fun s t =>
      let T := walkStep g s.1 t
      (T, f (getBasisAmp ph nrm (T (2 * n))) s.2))
    (T, f (getBasisAmp ph nrm (T (2 * n))) b)

/-- One round of a walk with early return, `src/qstabilizer.cpp:517-528` (and `:612-622`): `f` says whether to return, and
what. -/
noncomputable def searchStep {n : ℕ} {β : Type} (ph : ℂ) (nrm : ℝ) (g : ℕ) (f : Entry → Option β) (s : Tab n × Option β) (t : ℕ) :
    Tab n × Option β :=
  if s.2.isSome then s else (walkStep g s.1 t, f (getBasisAmp ph nrm (walkStep g s.1 t (2 * n))))

/-- The walk with early return. -/
noncomputable def search {n : ℕ} {β : Type} (ph : ℂ) (nrm : ℝ) (g : ℕ) (f : Entry → Option β) (T : Tab n) : Tab n × Option β :=
  (List.range (2 ^ g - 1)).foldl (searchStep ph nrm g f) (T, f (getBasisAmp ph nrm (T (2 * n))))

/-- `nrm`, `sqrt(ONE_R1_F / (real1_f)bi_to_double(pow2(g)))`, `src/qstabilizer.cpp:395`. -/
noncomputable def readNrm (g : ℕ) : ℝ := Real.sqrt (1 / (2 ^ g : ℕ))

/-- The common beginning of the read-outs, `gaussian()` then `seed(g)`; `src/qstabilizer.cpp:391-397`. -/
def prepare {n : ℕ} (T : Tab n) : Tab n × ℕ :=
  let s := gaussian T
  (seed s.1 s.2, s.2)

/-- `QStabilizer::GetQuantumState(complex*)`, `src/qstabilizer.cpp:386-412`, with `setBasisState`, `:307-311`: the tableau
left behind and the vector. -/
noncomputable def getQuantumState {n : ℕ} (ph : ℂ) (T : Tab n) : Tab n × (ℕ → ℂ) :=
  let s := prepare T
  walk ph (readNrm s.2) s.2 (fun e v => Function.update v e.permutation e.amplitude) s.1 (fun _ => 0)

/-- `QStabilizer::GetQuantumState()`, `src/qstabilizer.cpp:444-470`, with `setBasisState`, `:321-325`: the map. -/
noncomputable def getQuantumStateMap {n : ℕ} (ph : ℂ) (T : Tab n) : Tab n × (ℕ → Option ℂ) :=
  let s := prepare T
  walk ph (readNrm s.2) s.2 (fun e v => Function.update v e.permutation (some e.amplitude)) s.1 (fun _ => none)

/-- `QStabilizer::GetProbs`, `src/qstabilizer.cpp:473-498`, with `setBasisProb`, `:328-332`. -/
noncomputable def getProbs {n : ℕ} (ph : ℂ) (T : Tab n) : Tab n × (ℕ → ℝ) :=
  let s := prepare T
  walk ph (readNrm s.2) s.2 (fun e v => Function.update v e.permutation (Complex.normSq e.amplitude)) s.1 (fun _ => 0)

/-- `QStabilizer::GetAmplitude`, `src/qstabilizer.cpp:501-531`. -/
noncomputable def getAmplitude {n : ℕ} (ph : ℂ) (T : Tab n) (perm : ℕ) : Tab n × ℂ :=
  let s := prepare T
  let a := search ph (readNrm s.2) s.2 (fun e => if e.permutation = perm then some e.amplitude else none) s.1
  (a.1, a.2.getD 0)

/-- The map `amps` of `GetAmplitudes` after one entry, `src/qstabilizer.cpp:550-552` and `:562-567`: the pairs held, the
latest first, and whether the walk has ended. -/
noncomputable def ampsStep (perms : List ℕ) (e : Entry) (amps : List (ℕ × ℂ)) : List (ℕ × ℂ) :=
  if e.permutation ∈ perms then (e.permutation, e.amplitude) :: amps.filter (fun q => q.1 ≠ e.permutation) else amps

/-- The walk of `GetAmplitudes`, `src/qstabilizer.cpp:549-569`; it stops once as many amplitudes are held as were asked
for. -/
noncomputable def ampsWalk {n : ℕ} (ph : ℂ) (nrm : ℝ) (g : ℕ) (perms : List ℕ) (T : Tab n) : Tab n × List (ℕ × ℂ) :=
  (List.range (2 ^ g - 1)).foldl
    (fun s t =>
      if perms.length ≤ s.2.length then s
      else
        let T := walkStep g s.1 t
        (T, ampsStep perms (getBasisAmp ph nrm (T (2 * n))) s.2))
    (T, ampsStep perms (getBasisAmp ph nrm (T (2 * n))) [])

/-- `QStabilizer::GetAmplitudes`, `src/qstabilizer.cpp:534-577`; a permutation that is not in the map reads as zero
(`:573`). -/
noncomputable def getAmplitudes {n : ℕ} (ph : ℂ) (T : Tab n) (perms : List ℕ) : Tab n × List ℂ :=
  let s := prepare T
  let a := ampsWalk ph (readNrm s.2) s.2 perms s.1
  (a.1, perms.map fun p => ((a.2.find? fun q => q.1 = p).map Prod.snd).getD 0)

/-- `QStabilizer::GetAnyAmplitude`, `src/qstabilizer.cpp:579-590`: here `nrm` uses `pow2Ocl`
(`include/common/qrack_functions.hpp:137`), which shifts a 64-bit one; a shift by 64 or more is undefined, `none`. -/
noncomputable def getAnyAmplitude {n : ℕ} (ph : ℂ) (T : Tab n) : Option (Tab n × Entry) :=
  let s := prepare T
  if s.2 < 64 then some (s.1, getBasisAmp ph (readNrm s.2) (s.1 (2 * n))) else none

/-- `QStabilizer::GetQubitAmplitude`, `src/qstabilizer.cpp:592-625`. -/
noncomputable def getQubitAmplitude {n : ℕ} (ph : ℂ) (T : Tab n) (t : ℕ) (m : Bool) : Tab n × Entry :=
  let s := prepare T
  let mPow := if m then 2 ^ t else 0
  let a := search ph (readNrm s.2) s.2 (fun e => if e.permutation &&& 2 ^ t = mPow then some e else none) s.1
  (a.1, a.2.getD { permutation := 0, amplitude := 0 })

/-- The weight in `getExpectation` and `getVariance` with real weights, `src/qstabilizer.cpp:350-354` and `:374-377`. -/
noncomputable def entryWeight (bits : List ℕ) (weights : List ℝ) (p : ℕ) : ℝ :=
  (List.range bits.length).foldl
    (fun w b => w + if p &&& 2 ^ bits.getD b 0 ≠ 0 then weights.getD (b <<< 1 ||| 1) 0 else weights.getD (b <<< 1) 0) 0

/-- The value in `getExpectation` and `getVariance` with integer weights, `src/qstabilizer.cpp:338-343` and `:361-366`;
`bitCapInt` sums wrap at `2^128`. -/
def entryIndex (bits : List ℕ) (perms : List ℕ) (offset : ℕ) (p : ℕ) : ℕ :=
  (offset + (List.range bits.length).foldl
    (fun w b => (w + if p &&& 2 ^ bits.getD b 0 ≠ 0 then perms.getD (b <<< 1 ||| 1) 0 else perms.getD (b <<< 1) 0) % 2 ^ 128) 0) %
    2 ^ 128

/-- The sum of `val permutation * norm(amplitude)` over the walk, `src/qstabilizer.cpp:650-662`, `:689-701`; `none` is a
thrown exception: too few weights, or a qubit outside the register or named twice (`ThrowIfQbIdArrayIsBad`,
`include/common/qrack_functions.hpp:178-193`). `count` is the number of weights. -/
noncomputable def expectationT {n : ℕ} (ph : ℂ) (T : Tab n) (bits : List ℕ) (count : ℕ) (val : ℕ → ℝ) : Option (Tab n × ℝ) :=
  if count < bits.length <<< 1 ∨ (∃ b ∈ bits, n ≤ b) ∨ ¬ bits.Nodup then none
  else
    let s := prepare T
    some (walk ph (readNrm s.2) s.2 (fun e v => v + val e.permutation * Complex.normSq e.amplitude) s.1 0)

/-- `QStabilizer::ExpectationBitsFactorized`, `src/qstabilizer.cpp:627-663`. -/
noncomputable def expectationBits {n : ℕ} (ph : ℂ) (T : Tab n) (bits perms : List ℕ) (offset : ℕ) : Option (Tab n × ℝ) :=
  expectationT ph T bits perms.length fun p => (entryIndex bits perms offset p : ℝ)

/-- `QStabilizer::ExpectationFloatsFactorized`, `src/qstabilizer.cpp:665-702`. -/
noncomputable def expectationFloats {n : ℕ} (ph : ℂ) (T : Tab n) (bits : List ℕ) (weights : List ℝ) : Option (Tab n × ℝ) :=
  expectationT ph T bits weights.length (entryWeight bits weights)

/-- The two variances, `src/qstabilizer.cpp:726-740` and `:765-779`: the mean is computed between `seed` and the walk, by a
call that itself eliminates, seeds and walks. -/
noncomputable def varianceT {n : ℕ} (ph : ℂ) (T : Tab n) (bits : List ℕ) (count : ℕ) (val : ℕ → ℝ) : Option (Tab n × ℝ) :=
  if count < bits.length <<< 1 ∨ (∃ b ∈ bits, n ≤ b) ∨ ¬ bits.Nodup then none
  else
    let s := prepare T
    match expectationT ph s.1 bits count val with
    | none => none
    | some (T, mean) =>
      some (walk ph (readNrm s.2) s.2
        (fun e v => v + (val e.permutation - mean) * (val e.permutation - mean) * Complex.normSq e.amplitude) T 0)

/-- `QStabilizer::VarianceBitsFactorized`, `src/qstabilizer.cpp:704-741`. -/
noncomputable def varianceBits {n : ℕ} (ph : ℂ) (T : Tab n) (bits perms : List ℕ) (offset : ℕ) : Option (Tab n × ℝ) :=
  varianceT ph T bits perms.length fun p => (entryIndex bits perms offset p : ℝ)

/-- `QStabilizer::VarianceFloatsFactorized`, `src/qstabilizer.cpp:743-780`. -/
noncomputable def varianceFloats {n : ℕ} (ph : ℂ) (T : Tab n) (bits : List ℕ) (weights : List ℝ) : Option (Tab n × ℝ) :=
  varianceT ph T bits weights.length (entryWeight bits weights)

/-- `QStabilizer::ProbMask`, `src/qstabilizer.cpp:824-851`. -/
noncomputable def probMask {n : ℕ} (ph : ℂ) (T : Tab n) (mask perm : ℕ) : Tab n × ℝ :=
  let s := prepare T
  walk ph (readNrm s.2) s.2
    (fun e v => v + if e.permutation &&& mask = perm then Complex.normSq e.amplitude else 0) s.1 0

/-- `QStabilizer::ProbPermRdm`, `src/qstabilizer.cpp:782-822`; for the whole register `ProbAll`,
`include/qinterface.hpp:2485-2488`. `none` is a thrown exception. -/
noncomputable def probPermRdm {n : ℕ} (ph : ℂ) (T : Tab n) (perm ancillaeStart : ℕ) : Option (Tab n × ℝ) :=
  if n < ancillaeStart then none
  else if ancillaeStart = n then
    let a := getAmplitude ph T perm
    some (a.1, min (max (Complex.normSq a.2) 0) 1)
  else some (probMask ph T (2 ^ ancillaeStart - 1) (perm &&& (2 ^ ancillaeStart - 1)))

end Verif.Stab
