# Design of the qrack model

The properties are listed in `properties.jsonl`. This file says, for each of them, what part of
the source is modelled, what is left out, and how the property is proved (or why it cannot be).
The status of each property (exact theorem names) is in `MANIFEST.json`.

## Trusted base

* Lean 4.33.0's kernel, and the Mathlib that ships with the sandbox.
* Axioms: every theorem listed in `MANIFEST.json` depends on at most `propext`,
  `Classical.choice` and `Quot.sound`. No `sorry`, no own axioms, no `native_decide`, no `bv_decide`.
* The reading of the C++ source: every definition cites the file and lines it stands for. The
  model was written by reading; the code was never compiled or run.

## What is modelled, and what is not (global conventions)

* Amplitudes are exact complex numbers (`Complex`). Rounding, `FP_NORM_EPSILON` and
  `REAL1_EPSILON` thresholds are not modelled: a threshold test is modelled at epsilon = 0
  (i.e. `IS_NORM_0(c)` is `c = 0`). A theorem therefore says nothing about accumulated
  floating-point error.
* Basis states are natural numbers whose bit `q` is the value of qubit `q` (engine files), or
  functions from qubit indices to `Bool` (circuit and stabilizer files); the two are connected by
  `Nat.testBit`.
* Machine words: where a property is about overflow the word size is explicit (`BitVec`, or
  `mod 2^w` with a parameter `w`); elsewhere indices are unbounded naturals with an explicit
  hypothesis that they are in range.
* C++ exceptions and undefined behaviour are distinct outcomes (`Option`/`Except`/an inductive
  outcome) wherever a modelled function can reach them.
* Threads: parallel loops are modelled by a small-step transition system over chunk claims; the
  asynchronous queue and the API locks are modelled as transition systems over shared state.
  The C++ memory model is not modelled (accesses are sequentially consistent).
* The OpenCL back end is modelled as host code and kernels with interleaved work-items (C59 to C62); events
  and queues are not (the host waits for each command). CUDA back end, half-precision, serialization to text, and build-system code are not modelled.
* Random numbers are an arbitrary argument (a theorem holds for each draw).

## Plan, property by property

| id | modelled code | method |
|----|---------------|--------|
| C01 | `par_for`, `par_for_inc` (chunk claim by atomic counter), `par_for_skip`, `par_for_mask` | transition system whose states are the shared counter and the per-worker progress; invariant: executed indices + pending indices = a permutation of the claimed prefix; every terminated run has executed each index exactly once |
| C02 | increment function of `par_for_mask`, `pushApartBits` | bit-level lemma: the increment inserts zero bits at the mask positions; bijection with the set of indices with masked bits clear |
| C03 | `Apply2x2` loop body, `MCMtrx`/`MACMtrx`/`UCMtrx` offsets | fold over any permutation of the visited indices equals the pointwise specification of the controlled gate |
| C04 | same | sum over pairs; unitarity of 2x2 matrices; `inv2x2` |
| C05 | same | pointwise computation with the specification |
| C06 | `Swap`, `ISwap`, `SqrtSwap`, ..., `FSim`, `CSwap` offsets and matrices | instance of C03-style loop theorem plus matrix algebra |
| C07 | `XMask`, `PhaseParity` loops of the engine, the gate-level ladders of the interface | loop theorem, induction on the mask |
| C08, C09 | engine `INC`, `CINC` | loop builds the new vector; the index map is a bijection; value-level specification by `(i / 2^start) % 2^length` |
| C10 | engine `INCDECC`, `QAlu::INCC/DECC` | same, with carry; the boundary cases where the code loses the carry are shown as counterexamples |
| C11 | `isOverflowAdd/Sub`, `INCS`, `DECS`, `INCSC`, `DECSC` | two's complement specification on integers, all word sizes |
| C12 | `MULDIV`, `ModNOut` | index maps; round trip; power overflow counterexample |
| C13 | `CMULDIV`, `CModNOut` | counterexamples (lost amplitude) and partial theorem |
| C14 | `IndexedLDA/ADC/SBC` | index maps; counterexample for `IndexedSBC` |
| C15 | `Hash` | permutation of amplitudes from a bijective table |
| C16 | `ROL`, `Reverse`-based `ROL`, `ASL/ASR/LSL/LSR` | bit-level induction; sign counterexample |
| C17 | `FullAdd`, `IFullAdd`, `ADC`, `IADC` | gate lists acting on bit assignments, induction on the length |
| C18 | `QInterface::INC` gate list | induction on the length, refinement to C08's specification |
| C19 | `QFT`, `IQFT`, `QFTR`, `IQFTR` gate loops | DFT by induction on the length; inverses by orthogonality of the closed formula |
| C20, C21 | `Prob`, `ForceM`, `ApplyM`, register measurement | finite sums |
| C22, C23 | `ProbReg`, `ProbMask`, expectation | finite sums; counterexamples for the wrong shift and for the "factorized" variance |
| C24 | engine `Compose` (three forms), `Decompose`, `Dispose` (both) | tensor product by inserting bits; marginals; phase sums; counterexample for wrapping phases |
| C25 | `Clone`, `Copy` | heap model with one cell per state vector |
| C26 | each gate's row update | Pauli operators as functions on states; conjugation |
| C27 | gate rows and `ForceM` row operations | symplectic form preserved; induction over histories |
| C28 | `ForceM`, `Prob` | anticommuting generator gives probability one half |
| C29 | `clifford`, `rowmult` | operator product, induction over qubits |
| C30 | decision tables | semantic equality per accepted entry |
| C31-C34 | `QCircuitGate`, `QCircuit` | denotational semantics of gates on states; rewriting preserves it |
| C35, C36 | `QPager` gates, regrouping, `SetPermutation`, `Prob`, `ForceM`, `ProbMask` | pages as a function of page index; refinement to the flat vector |
| C58 | loop bodies as programs of single reads and writes | disjoint footprints give one result for every interleaving; counterexample for `DecomposeDispose` |
| C37, C38, C57 | `QBdt`: tree gates with the iteration and its skips, swaps and anti-control wrappers, probabilities, `ForceM`, `MAll`, `SetQuantumState`, `Compose` | trees are values: the sharing of equal nodes by `Prune` is represented by equality of subtrees, since every writer clones before it writes; amplitudes by `GetAmplitude`; exact characterisation of where anti-controls and `ForceM` are right; counterexamples |
| C39 | `DispatchQueue` | transition system |
| C40 | `BigInteger` | little-endian limb lists, value function |
| C41 | bit utilities | `BitVec`/`Nat` |
| C42 | `mul2x2`, `inv2x2`, exponentials | matrix algebra, counterexample for `exp2x2` |
| C43-C47 | C API tables | abstract map from ids to positions, position to logical qubit; transition systems for locks |
| C48 | `QubitSwapMap` | bijection invariant |
| C49 | logic gates | gate lists on bit assignments |
| C50 | uniformly controlled gates | loop theorem |
| C51 | nothing: the pinned commit has only `StateVectorArray`, no sparse state vector | not applicable |
| C52 | `PhaseShard` buffers of `QUnit`: adding, commuting, optimising, flushing, measuring | a state is the buffers applied to the vector; every call refines its gate; invariant: an inverting buffer has its target to itself; history by induction |
| C53 | shots | index maps |
| C54 | `QTensorNetwork`: choice of the layer for a gate, `ForceM` with its two loops, `MakeLayerStack` with and without light cone, `Prob`, `GetAmplitude`, `SetPermutation` | the layers denote a state; every call refines direct execution up to a factor, which the Born rule does not see; histories by induction. The simulator that runs the layers is exact |
| C55 | amplitude pages, `SetAmplitude`, `SetPermutation`, `SetQuantumState`, `GetQuantumState`, `GetProbs` | a released array is told apart from zeros; pointwise specification |
| C56 | `SumSqrDiff`, `TryDecompose` | inner product as a sum; soundness from C24 and Cauchy-Schwarz |
| C59 | `FixWorkItemCount`, `FixGroupSize`, `SetDevice` sizes, `ParSum`; the strided kernel loops, `SUM_LOCAL`, `PUSH_APART_*` | sizes are powers of two; strided loops partition the range; interleavings are permutations; tree reduction by induction on the rounds |
| C60 | `QEngineOCL::Apply2x2` (argument buffers, kernel choice, all kernels of the family), `X`, `Z`, `Invert`, `Phase`, mask, parity and uniform gates, normalisation | refinement: with any left-over buffers, the launch computes the pair specification of C03 |
| C61 | `QEngineOCL`: probability kernels, `ApplyM`, the measurement calls of `QEngine` over them, `MAll`, `ForceMParity`, averages, `SetAmplitude`, `SetQuantumState`, `GetQuantumState`, `GetProbs`, `SumSqrDiff`, `Compose`, `Allocate`, `Dispose`, `DecomposeDispose` (with the interleaved runs of `decomposeprob`), `ShuffleBuffers` | reductions of C59 with the index maps; measurement by equality with the CPU engine; the run of `decomposeprob` is any interleaving of iterations, of which those in step are right |
| C62 | the kernels of `qheader_alu.cl` with their host code | index maps as for C08 to C17; counterexamples where host and kernel disagree |
| C63 | the bodies in `qinterface.hpp` and `gates.cpp` that a simulator type inherits, as lists of calls of `Mtrx` and `MCMtrx` | a simulator type is any pair of gates that act as their matrices; each body is the documented operator on amplitudes, by algebra on gates and induction over masks and controls; the CPU engine, OpenCL engine and decision diagram satisfy the hypothesis. A body that calls an overridable gate is taken with the inherited body of that gate (a `QBdt` overrides `MACMtrx`, see C37). Masks are below 2^64 for `log2` |
| C64 | the named gates of `qinterface.hpp` and `rotational.cpp` as lists of calls of `Mtrx` and `MCMtrx` | the specification is the matrix exponential of Mathlib and the Pauli matrices (`Spec/Rotation.lean`); each body is shown to act as the documented matrix for any lawful simulator type (C63). The gates behind `ENABLE_ROT_API` (off by default) are modelled too |
| C65 | `TimeEvolve` with toggles, anti-controls and uniform terms; `exp2x2` from C42 | induction over the list of terms; each term is compared with the matrix exponential. `REAL1_EPSILON` is 0 (exact arithmetic), so only time zero is skipped |
| C66 | the stream operators of integers, circuits, stabilizer simulators, stabilizer units, and the counts of a loaded `QStabilizerHybrid` | a stream is a list of tokens, integers are decimal digits; writing then reading is computed by induction over the lists; tableaux are compared through the states they stabilise (C27). Complex numbers are printed exactly (36 digits at all callers). `TrySeparate` of the hybrid is a parameter; its buffers are not modelled |
| C67 | `QNeuron` over any simulator type whose `Mtrx`, `MCMtrx`, `Prob` and `M` are right (C63; the CPU engine is shown to be) | the chance is the Born probability after the turn; a full evaluation of `LearnInternal`, then induction over the permutations. `erf` is a parameter, angles are real numbers |
| C68 | `gaussian`, `seed`, `getBasisAmp` and every read-out of `QStabilizer` except the one into another `QInterface`; exact amplitudes, `phaseOffset` any unit number | elimination leaves an echelon form; the walk visits each basis state of the coset once; the sum of what it visits is stabilised by every generator, and a stabilised state is unique up to a factor. A relation between tableaux and the states that calls describe is kept by every call |
| C69 | `Compose`, `CanDecomposeDispose`, `DecomposeDispose`, `TrySeparate`, `IsSeparable` on rows and columns; `randGlobalPhase` set | a padded row acts on its own factor of a product; if the range can be separated, the eliminated tableau is literally the composition of the two parts, so that uniqueness of the stabilised state makes the state a product. Converse refuted by a witness |
| C70 | `ApproxCompareHelper` with its three walks, the other object's tableau threaded through | the walk sums over the support; overlaps of stabilised states are one up to a phase or at most one half, because a generator of one either fixes, negates or anticommutes with a generator of the other |
| C71 | `QUnitClifford`: `mapped` and `unit` of every shard and the stabilizer tableau of every unit; the gates by name, merging, separating, measurement; global phase left out | the register stands for a state if the state is a constant times the product of the units' states, each read at its own qubits; every step keeps this, by splitting the product at the units touched. The controlled gates by the cases of the control's value |
| C72 | `SortUnit` on an array with the list of exchanges; `OrderContiguous`, `EntangleAll`; the read-outs as sums and products over units, each unit's own read-out as in C68 | induction on the length of the range, with the partition invariant; means over a product of normalised states are means over one factor; the sums for `ProbMask` and for the offset are refuted by witnesses |
| C73 | The loops over units, the pairing with its draws, the bits outside units; maps as lists of entries; what a unit returns is any map with the right number of shots | every step keeps the list of all shots up to order: pairing is a zip of one side with a permutation of the other. Bias by counting the draws that take the least value |
| C74 | The functions in src/qpager.cpp as they use pages, with the pages being the state vector engine of C24; released pages as missing reads; recursion with fuel | the pages of the result computed one by one and put together by the invariant of C35; rotations by the index map of C16; splitting page by page with the theorem of C24 |
| C75 | Both versions of `ExpVarUnitaryAll` and `VariancePauliAll` on the state vector engine, with `Mtrx`, `ExpectationFloatsFactorized` and `VarianceFloatsFactorized` of C03 and C23 | one-qubit matrices on a state vector with adjoints; turns of different qubits commute, so each qubit can be evaluated alone, or all together as a tensor product |
| C76 | The four inherited functions as lists of calls of `CINC`, `CDEC`, `INC`, `DEC` and `X`, on top of the gates of C18; the logarithm of zero is undefined | the loops over input qubits as a sum over the set bits by induction; undoing block by block |
| C77 | `SetBit`, `SetReg` (inherited by the engine), and the inherited `SetPermutation` and `ForceM` of a list, on the engine's `ForceM`, `ForceMReg`, `MAll` of C20 and C21 and its `X` | the flips turn the measured value of the register into the wanted one; measurements in a row compose as projections, by induction on the list |
| C78 | `DepolarizingChannelWeak1Qb`, `DepolarizingChannelStrong1Qb` on the engine (`H`, `Allocate` through `Compose`, `CRY`, `M`, `Dispose` of C03, C20, C24), and the gates listed by `QTensorNetwork::DepolarizingChannelWeak1Qb` | the state is followed as two halves, by the value of the ancilla; the result is two Kraus operators, and their effect on the Pauli expectation values is computed for pairs of basis states; the probabilities are the lengths of the sets of draws; the version of `QTensorNetwork` is integrated over its three draws |
| C79 | `TransformPauliBasis`, `RevertPauliBasis`, `removeIdentities`, `RHelper`, `MCRHelper`, `make_mask`, `_JointEnsembleProbabilityHelper`, `JointEnsembleProbability`, `Measure`, `Exp`, `MCExp` over the engine of C03, C07, C21, C22; the ids through a function to positions | the changes of basis are operators that commute with every gate on another qubit, so by induction over the list they carry the product of Z to P; the product of Z is the sign of the parity of the mask; projection, probability and exponential follow by linearity; the specification is cos φ + i sin φ P and (1 ± P)/2 |
| C80 | `QUnit::INT` with both of its loops, `INC`, `CINC`, `TrimControls`, `INCC`, `DECC`, `INTS`, `INTSCOptimize`, `CheckBitsPlus`, `GetCachedPermutation` on the joint state of all qubits. The caches are any function that answers what the code asks; calls of a unit have the effect proved in C08 to C11 (`unit_cinc` ties them to the engine). Entangling, marking caches dirty and flushing buffers are taken not to change the joint state | the loop invariant: what is left to be added, added to the state so far, is what was to be added to the first state; each step splits the register at a place where the carry out is the same for every basis state of the support; states are moved along maps of basis states, which need only agree on the support |
| C81 | The listed operations of `QUnit` on the joint state; caches as in C80; `SetReg` with the outcome of its measurement as an argument and without rescaling; calls of a unit as proved of the engine in C12 to C15 (`unit_mul` ties `MUL` to the engine). Three outcomes: a state, an exception, undefined behaviour. `IndexedLDA` with `resetValue` alone; `CDIV`, `CPOWModNOut` and the debug build (`ENABLE_VM6502Q_DEBUG`) are left out | both paths carry basis states along the same map on the support of the state |
| C82 | Units with a size and a state vector, shards as unit and place; the state of all qubits is the product of what the units hold (`Spec/Product.lean`). `Compose` as in C24, the operations of a unit as in C03, C06, C07; shards in the `PauliZ` basis without buffers (C52); a qubit kept in its shard is a unit of one qubit. The limit on the size of units in `ApplyEitherControlled` alone. `TrySeparate` afterwards is left out | invariant (places inside the unit, none twice) through the rounds of joining; a unit acts as one factor of the product |
| C83 | Registers as in C82; the answers of a unit as proved for the engine (C20, C22, C24, C53). A separated qubit is a unit of one qubit with a number not in use. Thresholds are zero; how `TrySeparate` finds its angles is left out (any unitary), for one qubit and for two | the sum over all basis states of a product over units is the product of sums; the invariant (places inside, none twice, none empty, units normalised) is kept by `ForceM`, so that `MAll` follows by induction |
| C84 | The list of gates that `INC` appends, on the circuits of C31 | the gates are those of the ripple increment of C18, carried over from numbers to basis states of any qubits; then C31 |
| C85 | `UniformlyControlledSingleBit` of `QUnit` over units and cached controls | product of units; index cut and put back |
| C86 | `EntangleRange`, `OrderContiguous`, `CMULEntangle`, the joining in `INT` | induction over joining and over the exchanges of the quicksort |
| C87 | `_PhaseMask`, `ProbAll`, `_PermutationProb`, `_PermutationExpVar`, `_FactorizedExpVar` over the engine of C07, C22, C23, C55, ids through a function to positions; `Separate` over the register of tokens of C43 (the tokens of the range taken out and put at the end, as `Decompose` and `Compose` do with a product state) | the masks bit by bit from the list; the two routes of `ProbAll` agree because the list is the identity; the words are joined as a sum of powers of 2^64; `Separate` of one qubit is a product of three exchanges. The variants `…Rdm` are not modelled |
| C88 | `QUnit::Detach` for a range of any length, with and without a destination, over shards (unit, place) and units as lists of tokens; `reindex` of the destination. Not `isTry`, nor the buffers of the shards; `OrderContiguous` by its result | for a range of one qubit: the single pass of the loop is computed, then each remaining shard is read in the shortened list. For ranges of more qubits only the last step (`closeUp_range`) is proved, the rest is tested by examples |
| C89 | the workers of `par_norm` and `par_norm_exact` as those of C01 with a private sum each; `UpdateRunningNorm` and `NormalizeState` of `QEngineCPU` with tolerance, floor, threshold, phase as real parameters. Exact reals: rounding is not modelled | every step of a worker of `par_norm` is a step of a worker of `par_for_inc`, and the private sums add up to the sum over its calls, which C01 counts; the rest is algebra of sums |
| C90 | `QUnit::SetQuantumState` for one qubit (all five branches), `CheckFidelity`, `RevertBasis1Qb`; the estimate of the fidelity instead of its logarithm | per branch: the second amplitude is a unit times the first, so the modulus of the first is one over the root of two. Reading back is proved at threshold zero; registers of several qubits hand the state to the engine (C55) |
| C91 | `QUnit::SumSqrDiff` with `CheckBitsPermutation` and `GetCachedPermutation`, over the state of the whole register and the cached values; the comparison of joined units is that of the engine (C56) | a register whose qubits are all known has one amplitude, of modulus one, at the cached permutation; for one qubit `2 - 2x ≥ 1 - x²` |
| C92 | `GetQInfos` (the lambda as C++ parses it) and `RedistributeQEngines`, with access outside of a vector as the outcome `ub`; the order of the units is given | the search evaluated for each sign of the device id; the limit is an invariant of the loop because the last test of each pass is against it |

## Disagreements found between the code and the properties

Every entry has a theorem (named in brackets) that shows the code, as modelled, breaking the property as stated; the
matching property is `partial` in `MANIFEST.json` and its `_partial` theorem covers the remaining cases.

| property | what the code does | theorem |
|----------|--------------------|---------|
| C03 | with `doNormalize`, `runningNorm` after a diagonal gate is not the total probability | `runningNorm_wrong` |
| C06 | `FSim(π, 0)` does nothing: only `sin θ` is tested | `fsim_pi_wrong` |
| C10 | `INCC(2^n - 1)`, `DECC(0)` with the carry set lose the carry; `QInterface::INCDECC` adds to the wrong target | `incc_wrong`, `decc_wrong`, `incdecc_default_wrong` |
| beyond C11 | `DECS` of the least number and `INCSC` with the carry fold before testing | `decs_min_wrong`, `incsc_carry_wrong` |
| C12 | `POWModNOut` wraps the power in a machine word; the gate-level `MULModNOut` is wrong | `powModNOut_wrong`, `mulModNOut_default_wrong` |
| C13 | `CMUL` by 0 ignores the controls; `CDIV` drops amplitudes | `cmul_zero_wrong`, `cdiv_wrong` |
| C14 | `IndexedSBC` skips the wrong number of bits | `indexedSBC_wrong` |
| C16 | `ASL`/`ASR` do not keep the sign | `shift_sign_wrong` |
| C17 | gate-level `ADC` is wrong from two bits on | `adc_wrong` |
| C21 | a one-element bit list is not forced; forced values ignore `doApply`; a draw of 0 returns all ones | `forceMBits_single_wrong`, `forceMBits_apply_wrong`, `forceMReg_zero_draw_wrong` |
| C22 | the default `ProbReg` shifts by the length instead of the start | `probRegDefault_wrong` |
| C22 | the inherited `CProb` and `ACProb` (as in `QPager`) return the probability of two joint events, not the conditional probability | `ctrlOrAntiProb_wrong` |
| C23 | variance of real weights, empty lists, Pauli products, identity letters | `varianceFloats_wrong`, `expectation_empty_wrong`, `expectationPauli_sum_wrong`, `expectationPauli_identity_wrong` |
| C31 | the swap constructor is dropped by `AppendGate`; an uncollapsed circuit does not count its qubits | `swap_constructor_dropped`, `uncollapsed_count_wrong` |
| C34 | a gate that loses its last payload becomes a swap or a null pointer; `DeletePhaseTarget` deletes controlled phases | `postSelect_swaps`, `postSelect_null`, `deletePhaseTarget_wrong` |
| C35 | a control eight or more qubits above the page size selects the wrong pages; an empty parity mask gives a phase | `control_eight_wrong`, `paged_controlled_wrong`, `phaseParity_zero_wrong` |
| beyond C35 | `ExpectationBitsAll`/`VarianceBitsAll` of every qubit throw as soon as there are two pages | `paged_expVar_wrong` |
| beyond C07 | `CUniformParityRZ` with a control inside of the mask takes the wrong parity | `cUniformParityRZ_wrong` |
| C36 | the constructor ignores the permutation: the state is empty | `construct_wrong` |
| C39 | `finish` after `dump` | `finish_after_dump` |
| C40 | `operator+`/`-` drop the top word; decrement does not borrow; word shifts overwrite; multiplication by 0 and overflow; division; decimal output diverges | `opAdd_wrong`, `opSub_wrong`, `decrement_wrong`, `lshiftIp_wrong`, `mul_zero_wrong`, `mul_overflow_wrong`, `div_wrong`, `print_diverges` |
| C41 | `popCountOcl`, `log2` of 128-bit values truncate | `popCount_wrong`, `log2_wrong` |
| C42 | `exp2x2`, `log2x2` exchange the eigenvalues | `exp2x2_wrong` |
| C43 | ids from 256 on alias; `Dispose`/`Decompose` leave stale ids; `init_clone` | `alias_wrong`, `dispose_wrong`, `clone_wrong` |
| C44 | `MapArithmetic` scrambles registers listed out of order or interleaved | `mapArithmetic_wrong`, `mapArithmetic3_wrong` |
| C47 | `_combineA` loses the higher words | `combineA_big_wrong` |
| C45 | `Compose` takes two locks in opposite orders | `compose_deadlock` |
| C46 | the id check is off by one | `size_wrong`, `destroy_wrong`, `getError_wrong` |
| C53 | the array versions keep 32 bits of every sample | `multiShotArray_wrong`, `multiShotDefaultArray_wrong` |
| C24 | `Decompose` averages phases in (-π, π]: it splits \|−−⟩ into \|++⟩; `Dispose` of all qubits with a permutation leaves one qubit | `decompose_wrong`, `disposePerm_all_wrong` |
| C25 | `Copy()` shares the array, and its running norm is zero | `copy_aliases`, `copy_norm_wrong` |
| C55 | `SetAmplitude` on a released array dereferences a null pointer | `setAmplitude_crash` |
| beyond C49 | `CLAND(q, false, q)` does nothing | `cland_alias_wrong` |
| beyond C50 | the running norm after a uniformly controlled gate | `uniformlyControlled_norm_wrong` |
| beyond C56 | `TryDecompose` refuses some separable states | `tryDecompose_incomplete` |
| C52 | `ForceM(q, r, doForce, doApply = false)` drops pending phase gates of `q`, so the state changes | `toPermBasisMeasure_loses` |
| beyond C52 | `CommutePhase` returns at the first phase buffer; inverting buffers behind it are not changed (`QUnit` never makes such maps) | `commutePhase_mixed` |
| C54 | `GetCircuit` looks only at measurements: a later gate can be recorded before an earlier one of a later layer that shares its qubits | `lateGate_wrong` |
| C54 | `ForceM` erases a circuit whose changed qubits are all measured in the layer, although what it did before the measurement matters | `collapse_wrong` |
| C54 | above the threshold, `MakeLayerStack(qubits)` drops gates on measured qubits outside the light cone but still forces their results; reading then throws | `coneMeasured_wrong` |
| C37 | a multiply anti-controlled gate on a `QBdt` that is neither diagonal nor antidiagonal is wrong exactly if its qubits other than the greatest one are not consecutive: a mismatched control makes the loop skip too many branches | `macMtrx_iff`, `macMtrx_gap_wrong` |
| C38 | `QBdt::ForceM` rescales every branch on its own: it collapses the state exactly if the qubit is independent of the qubits below it; measuring the second qubit of a Bell pair leaves it uncollapsed | `forceM_iff`, `forceM_bell_wrong` |
| C57 | `QBdt::Compose` before the end drops the qubits from the place on | `compose_inside`, `compose_inside_wrong` |
| C58 | the loops of `DecomposeDispose` add to `partStateAngle[k]` and `remainderStateAngle[k]` from all calls without synchronisation: a data race that can lose angles | `decompose_races`, `decompose_loses`, `decompose_wrong_interleaving` |
| C60 | the OpenCL kernels read the norm threshold at a place where the host does not write it: the threshold is ignored, and amplitudes below the amplitude floor are kept | `threshold_ignored`, `floor_ignored` |
| C60 | a pending normalisation is applied by the OpenCL engine in gates in which the CPU engine leaves it pending, so the amplitudes differ until the state is normalised | `pending_engines_differ` |
| C07 | `PhaseRootNMask(n, …)` shifts a 64-bit one by `n`: undefined behaviour for `n ≥ 64` | `phaseRootNMask_partial` (hypothesis `n < 64`) |
| C60 | `CUniformParityRZ` on an OpenCL register sets the running norm to one without scaling; `UniformParityRZ` does so when the norm is unknown | `cUniformParityRZ_norm_wrong`, `uniformParityRZ_unknown_wrong` |
| C61 | `ProbMask` with an empty mask, `ProbMaskAll` with the mask of all qubits, and so measuring the list of all qubits, make an OpenCL buffer of no bytes and throw | `probMask_none`, `probMaskAll_full`, `forceMBits_all_wrong` |
| C61 | `QEngineOCL::MAll` does not apply a pending normalisation (the CPU engine does): after `SetQuantumState` of `(1, 1)` it always gives 0 | `mAll_pending_wrong` |
| C61 | forcing a parity of probability zero is not refused; the state becomes zero | `forceMParity_impossible` |
| C61 | `ExpectationBitsAll` of one qubit ignores the offset | `expectationBitsAll_offset_wrong` |
| C61 | `SetAmplitude` subtracts the norm of the new amplitude instead of the old one: the running norm never changes | `setAmplitude_norm_wrong` |
| C61 | `Dispose` of every qubit drops the buffer; whatever is composed or allocated afterwards has all amplitudes zero | `dispose_all_then_zero` |
| C61 | the kernel `decomposeprob` adds to angles of other work-items and divides them without a barrier between its loops: run one after the other, two work-items get a wrong phase | `decompose_race_wrong` |
| C61 | `DecomposeDispose` derives the local size of its last launch from the wrong global size: if the remainder is smaller than the part and than a work-group, the launch is rejected | `decompose_rejected` |
| C62 | `INCDECSC` without an overflow flag does not reduce the addend to the register: an addend that does not fit changes qubits next to the register | `incdecsc_spills` |
| C62 | `PhaseFlipIfLess` on an OpenCL register visits only the lower half of the state vector | `phaseFlipIfLess_wrong` |
| C62 | `MUL`, `CMUL`, `CMULModNOut` and `CIMULModNOut` on an OpenCL register reduce the multiplier to the width of the register; `DIV` does not, so `DIV` does not undo `MUL` | `mul_wrong`, `mul_clears`, `cMulModNOut_wrong` |
| C62 | `CMUL`, `CDIV` and the controlled modular operations copy words after the end of the array of powers to the device and read the controls from there: with two or more controls, states with some but not all controls set are lost | `cmul_wrong` |
| C62 | `POWModNOut` wraps at 64 bits, and does nothing for the base 0 though `0^0 = 1` | `powModNOut_wraps`, `powModNOut_zero` |
| C62 | table entries with bit 31 set are read with their sign: the amplitudes are written outside of the state vector | `indexedLDA_wrong` |
| C62 | the kernel `indexedAdc` reads the amplitude of the loop counter instead of that of the state: a state with the highest qubit set is lost, unless the carry is the highest qubit | `indexedADC_wrong` |
| C63 | `YMask(0)` takes the logarithm of zero: undefined with intrinsics, and right only if the result happens to be harmless | hypothesis `mask ≠ 0` of `yMask_spec` |
| C64 | `RT` and `CRT` are documented as e^{-iθ/2} on the state 1 but apply e^{+iθ/2} | `rt_wrong`, `crt_wrong` |
| C64 | `CRX` turns by -θ; with `ENABLE_ROT_API` it and `CRT` would not compile, as they pass a pointer and a length | `crx_wrong` |
| C64 | `Exp` is documented as e^{-iθ} but applies e^{+iθ}; `ExpX`, `ExpY`, `ExpZ` are documented as e^{-iθσ} but apply e^{iθ}σ | `expI_wrong`, `expX_wrong`, `expY_wrong`, `expZ_wrong` |
| C65 | terms that are not diagonal evolve with the adjugate: under `X` backwards in time | `timeEvolve_backwards`, `timeEvolve_wrong` |
| C65 | uniformly controlled terms (every term that comes in through the C API) are exponentiated without the factor i: the state does not stay normalised | `uniform_wrong` |
| C66 | `operator<<` of `bitCapInt` (over 64 bits) tests the unchanged number in its loop: writing any number but zero never ends | `bitCapInt_print_hangs` |
| C66 | circuits write the control permutation cut to 64 bits: gates with more than 64 controls are loaded wrongly | `circuit_key_wrong` |
| C66 | a loaded `QStabilizerHybrid` does not reduce `ancillaCount` when it disposes separable ancillae | `hybrid_counts_wrong` |
| C67 | `clampAngle` after a success takes angles beyond a full turn to negative ones, which `ReLU` (and the other activation functions that are not the default) treat differently: `Learn` lowers the chance | `learn_wrong` |
| C67 | `LearnPermutation` compares the chance before the measurement of the inputs with chances after it: it takes an angle that is worse for the measured input | `learnPermutation_wrong` |
| C67 | `QNeuron::operator=` neither reallocates the angles nor copies `inputPower`: it writes past the end of the array, or leaves a neuron whose sizes disagree | `assign_partial` |
| C68 | `GetAnyAmplitude` normalises with `pow2Ocl(g)`, a 64-bit shift, where the other read-outs use `pow2(g)`: undefined for states with `2^64` or more nonzero amplitudes | `anyAmplitude_undefined` |
| C68 | The integer weights of `ExpectationBitsFactorized` are summed modulo `2^128` | `expectationBits_wraps` |
| C69 | Elimination sorts rows by type, not by qubit: `CanDecomposeDispose` is false for the product of |0> on qubit 0 and |+> on qubit 1, so `TrySeparate` misses it | `canDecompose_misses` |
| C69 | `Decompose` trusts row numbers to be qubit numbers: on the product of |1> and |+> it hands over a qubit that reads 0 and keeps one that always reads 0 | `decompose_wrong` |
| C70 | `GlobalPhaseCompare` returns false when the phases agree: its test is the wrong way round, so that an object never equals its copy | `globalPhaseCompare_copy` |
| C71 | `CGate` passes the logical number of the target to the unit where its place inside is meant, when the control certainly has the active value: the gate throws for a target in a unit of its own, or acts on another qubit | `cgate_throws`, `cgate_wrong_qubit` |
| C72 | `QUnitClifford::ProbMask` adds the probabilities of independent units instead of multiplying them: for two qubits set to 1 it returns 2 | `probMask_wrong` |
| C72 | `ExpVarBitsFactorized` gives the offset to every unit, so that it is counted once for each | `expBits_wrong` |
| C73 | The loop `while (pick > count)` stops one place too early: the least value is taken for one draw too many and the greatest for one too few; two shots of two independent units that each saw 0 and 1 are always paired 00 and 11 | `take_first_biased`, `take_last_never`, `multiShot_paired` |
| C74 | `Compose(toCopy, start)` returns the old number of qubits, not `start` | `composeAt_position_wrong` |
| C74 | `Allocate` composes with a register from the constructor, whose amplitudes are all zero (C36): the whole state becomes zero | `allocate_wrong` |
| C74 | `Dispose` of more qubits than a one-page register has calls itself without end instead of throwing | `dispose_endless` |
| C74 | `Decompose(start, length)` makes the destination with all qubits, and takes out all of them | `decomposeNew_wrong` |
| C74 | `SetAmplitudePage` and `GetAmplitudePage` do nothing when `offset > length`, and give every page the start of the array | `amplitudePage_skips`, `setAmplitudePage_wrong` |
| C74 | `SumSqrDiff` adds up the differences of the pages as if each page were normalised: equal states in k pages with arrays differ by at least k - 1 | `sumSqrDiff_equal_wrong`, `approxCompare_equal_wrong` |
| C75 | `ExpectationUnitaryAll` of several qubits is the sum of the single expectations, not that of the tensor product | `expectationUnitary_sum`, `expectationUnitary_product_wrong` |
| C75 | `VarianceUnitaryAll` of several qubits is the expectation of the tensor product, not a variance | `varianceUnitary_is_expectation`, `varianceUnitary_wrong` |
| C75 | With three angles the inverse of `U(θ, φ, λ)` is taken as `U(-θ, -φ, -λ)` (it is `U(-θ, -λ, -φ)`): the value belongs to another basis, and the state is changed | `expectationAngles_swapped`, `expectationAngles_value_wrong`, `expectationAngles_state_wrong` |
| C75 | `VariancePauliAll` is one for the identity, and for two operators the expectation of their product | `variancePauli_identity_wrong`, `variancePauli_wrong` |
| C76 | Modulo a number that is not a power of two the result is wrong (two times zero modulo three gives one) | `mulModN_wrong` |
| C76 | With a modulus beyond the input register the inverse takes the logarithm of zero, even for a power of two, where it is not needed | `iMulModN_undefined` |
| C77 | The inherited `ForceM(bits, {}, false)` returns the packed value, not the mask | `forceMDefault_packed_wrong` |
| C77 | The inherited `ForceM(bits, values, false)` accepts values that are impossible together | `forceMDefault_impossible_wrong` |
| C78 | The channel keeps the expectation value of X and multiplies those of Y and Z by √(1 - √λ): it is a damping of the minus state, not a depolarizing channel | `depolStrong_wrong`, `depolWeak_plus_wrong` |
| C78 | `QTensorNetwork` multiplies by (1 - 2λ/3)² where its comment says 1 - 4λ/3, and is a different channel from the one of `QInterface` | `depolPauli_wrong` |
| C79 | `Exp` and `MCExp` of two or more operators make the mask (and the controls) of the ids instead of the positions: after a release they act on other qubits, or throw in the changed basis | `exp_ids_wrong`, `exp_ids_rejected` |
| C79 | `MCR` and `MCExp` of the identity apply the phases e^{iφ/4} and e^{-iφ/2} instead of e^{-iφ/2} and e^{iφ}, which is observable on the controls | `mcrHelper_identity_wrong`, `mcExp_identity_wrong` |
| C80 | `INCC` of `QUnit` with the carry set and `toAdd + 1 = 0` modulo `2^length`, and `DECC` with the carry set and nothing to subtract, clear the carry and return | `incC_wrong`, `decC_wrong` |
| C81 | `DIV` by 0 of known registers divides by zero instead of throwing; a known value that is no multiple is kept, where a unit loses all amplitude | `div_zero_undefined`, `div_depends_on_caches` |
| C81 | `POWModNOut` of a known register wraps the power at 128 bits; `1` modulo `1` gives `1` | `powModNOut_wrong`, `powModNOut_one_wrong` |
| C81 | `CMUL` with a control known to be clear does not clear the carry register | `cMul_wrong` |
| C81 | table entries of five bytes or more are read with a shift of an `int` by 32 | `indexedLDA_undefined`, `hash_undefined` |
| C81 | `IndexedADC` of a known index loses the carry for an entry of all ones | `indexedADC_wrong` |
| C81 | `PhaseFlipIfLess` with a bound of `2^64` depends on whether the register is known | `phaseFlipIfLess_wrong` |
| C82 | `CUniformParityRZ` with a control and two masked qubits unknown takes the place of the control in its unit for a qubit, and rotates under the control of that one | `cUniformParityRZ_wrong` |
| C82 | a controlled gate whose units would be too large together is replaced by a guess | `either_wrong` |
| C82 | `ZMask` is `-i` times the product of the `Z` gates | `zMask_phase` |
| C83 | `MultiShotMeasureMask` with an array reads every listed qubit at the place of qubit 0, when the listed qubits share a unit and are not all qubits: all bits of a shot are equal | `shot_wrong` |
| C85 | `mtrxSkipPowers` and `mtrxSkipValueMask` are ignored by `QUnit::UniformlyControlledSingleBit` | `uniform_wrong` |
| C86 | `QUnit::INT` with controls joins units for a second part by the places of the controls, which `Entangle(ebits)` wrote over `allBits`: another qubit may control the addition | `cincParts_wrong` |
| C87 | `Separate` takes `[end - n, end)` out of the register where the listed qubits were moved to `[end - n + 1, end + 1)`, and puts it back at the end: one listed qubit is always exchanged with another, while the ids stay | `separate_one_wrong` |
| C87 | `Separate` of the whole register asks for a range that begins at 255 and reports an error | `separate_all_wrong` |
| C87 | a qubit listed twice with different values in `PermutationProb` counts as required to be one | `permutationProb_twice_wrong` |
| C87 | weights of three words or more lose the most significant words without an error | `factorPerms_long_wrong` |
| C88 | when one qubit of a larger unit goes to a destination, `mapped` of its shard is set to 0 (`:352`) before the loop over the rest compares with it (`:395`): the qubits of the unit at places from 1 on in front of it are moved down, so two qubits refer to one place | `decompose_one_wrong` |
| C89 | a threshold given to `NormalizeState` of a state of unknown norm is used to drop amplitudes, but the norm was taken with the floor of the engine (`:1684` calls `UpdateRunningNorm` without it): the state is recorded as normalised with a norm below one | `normalize_thresh_wrong` |
| C90 | `SetQuantumState` of (1, -i)/√2, up to a phase, computes the estimate from the distance to the opposite eigenstate (`:179` repeats the difference of `:174` instead of the sum): the estimate is 0, its logarithm minus infinity, and `CheckFidelity` throws | `setState_minusY_wrong`, `setState_branch_wrong` |
| C91 | for one qubit `SumSqrDiff` is the squared distance of the vectors, not one minus the overlap: it depends on the global phase (a state and its negative differ by 4), so `ApproxCompare` takes equal states for different | `sumSqrDiff_one_wrong` |
| C92 | in `GetQInfos` the comparison binds more tightly than the choice (`di.id == (dev < 0) ? a : b`): a unit on device 0 is not found when the default is 0, so the index is one behind the end and `devSizes[devIndex]` reads outside of the vector | `deviceIndex_zero_wrong`, `redistribute_zero_wrong` |
| C92 | for the same reason a unit on the third device is taken to be on the second | `deviceIndex_third_wrong` |
