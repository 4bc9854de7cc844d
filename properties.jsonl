{"id": "C01", "title": "Parallel loops run the body exactly once per index", "statement": "A parallel loop over [begin, end) (plain, bit-skipping or mask-skipping) runs its body exactly once for every index it is documented to visit and for no other index, whatever order the worker threads claim chunks in and however many threads and whatever stride are configured.", "quantifier": "every begin/end, every skip mask, every thread count and stride, every interleaving of worker threads", "why_tests_cant": "The number of thread schedules and index ranges is unbounded; a test sees one schedule of one range.", "anchors": ["src/common/parallel_for.cpp: ParallelFor::par_for, par_for_inc, par_for_skip, par_for_mask", "include/common/parallel_for.hpp"]}
{"id": "C02", "title": "Mask-skipping loops visit exactly the indices with all masked bits clear", "statement": "For any strictly increasing list of powers of two, the controlled-gate loop visits exactly the indices below the register size whose listed bits are all zero, each once; the two indices updated by distinct iterations never coincide, so iterations are independent.", "quantifier": "every register size, every sorted list of qubit powers", "why_tests_cant": "Off-by-one errors in the bit-insertion of a particular mask combination are invisible unless that combination is tried.", "anchors": ["src/common/parallel_for.cpp: par_for_mask", "src/common/functions.cpp: pushApartBits", "src/qengine/state.cpp: QEngineCPU::Apply2x2"]}
{"id": "C03", "title": "A controlled single-qubit gate acts as the tensor-extended operator", "statement": "Applying a 2x2 matrix to a target qubit under any set of distinct controls with any control permutation maps the amplitude of each basis state exactly as the mathematical controlled gate does: states whose controls do not match keep their amplitude, the others mix only with the state differing in the target bit.", "quantifier": "every qubit count, target, set and order of controls, control permutation, matrix, input state, and order of loop execution", "why_tests_cant": "There are infinitely many states and matrices and combinatorially many control sets.", "anchors": ["src/qengine/state.cpp: QEngineCPU::Apply2x2", "src/qengine/qengine.cpp: QEngine::Mtrx, MCMtrx, MACMtrx, UCMtrx, ApplyControlled2x2, ApplyAntiControlled2x2"]}
{"id": "C04", "title": "Unitary gates preserve total probability and inner products", "statement": "Applying any unitary 2x2 matrix (controlled or not) leaves the sum of squared amplitude magnitudes of the register unchanged, and applying the conjugate-transpose afterwards restores the original state exactly.", "quantifier": "every state, every unitary matrix, every target/control choice", "why_tests_cant": "Norm preservation over a continuum of states and matrices cannot be enumerated.", "anchors": ["src/qengine/state.cpp: QEngineCPU::Apply2x2", "src/common/functions.cpp: inv2x2"]}
{"id": "C05", "title": "Gates on disjoint qubits commute", "statement": "Two gates whose target qubits differ and neither of whose targets is among the other's controls can be applied in either order with the same resulting state.", "quantifier": "every pair of such gates, every state", "why_tests_cant": "Pairs of gates and states are infinite in number.", "anchors": ["src/qengine/state.cpp: QEngineCPU::Apply2x2", "src/qengine/qengine.cpp: QEngine::MCMtrx"]}
{"id": "C06", "title": "Swap-family gates act on the two named qubits only and satisfy their algebra", "statement": "Swap exchanges the values of two qubits; ISwap additionally multiplies the odd-parity subspace by i; SqrtSwap applied twice is Swap; the inverse-named gates undo the gates; FSim(theta,phi) has the documented 4x4 matrix; controlled swaps act only when every control is set (or clear for the anti-controlled form).", "quantifier": "every register, pair of qubits, control set and state", "why_tests_cant": "Requires all states and all qubit pairs; small-sample tests miss sign and phase errors on superpositions.", "anchors": ["src/qengine/qengine.cpp: QEngine::Swap, ISwap, IISwap, SqrtSwap, ISqrtSwap, FSim, CSwap, AntiCSwap, CSqrtSwap"]}
{"id": "C07", "title": "Mask gates equal the product of per-qubit gates", "statement": "XMask(mask) flips exactly the masked bits, ZMask(mask) multiplies by -1 to the parity of the masked bits, YMask(mask) equals applying Y to each masked qubit, and PhaseParity(theta, mask) multiplies by e^{+-i theta/2} according to parity of the masked bits.", "quantifier": "every mask, register width and state", "why_tests_cant": "2^n masks times infinitely many states.", "anchors": ["src/qengine/state.cpp: QEngineCPU::XMask, PhaseParity", "src/qinterface/gates.cpp: QInterface::YMask, XMask, ZMask, PhaseParity"]}
{"id": "C08", "title": "INC and DEC add modulo 2^length on every basis state and touch nothing else", "statement": "INC(k, start, length) sends the amplitude of each basis state to the basis state whose [start,start+length) field is increased by k modulo 2^length and whose other bits are equal; DEC(k) undoes INC(k); the whole operation permutes amplitudes.", "quantifier": "every start, length, addend (including those at least 2^length), register width and state", "why_tests_cant": "Every field position, width and addend must be right simultaneously; wrap-around cases are rare in samples.", "anchors": ["src/qengine/arithmetic.cpp: QEngineCPU::INC", "src/qinterface/arithmetic.cpp: QInterface::INC, DEC"]}
{"id": "C09", "title": "Controlled INC adds only when every control is set", "statement": "CINC adds modulo 2^length on exactly the basis states whose control bits are all set and is the identity on all others.", "quantifier": "every control set disjoint from the register, every addend, position, state", "why_tests_cant": "Combinatorially many control sets and positions.", "anchors": ["src/qengine/arithmetic.cpp: QEngineCPU::CINC", "src/qinterface/arithmetic.cpp: QInterface::CINC"]}
{"id": "C10", "title": "Add-with-carry and subtract-with-carry compute the (length+1)-bit result", "statement": "INCC/DECC read the carry qubit, add (subtract) with it, and leave the low length bits in the register and the carry-out in the carry qubit, for every basis state; the internal carry-add primitive is a permutation of basis states.", "quantifier": "every addend, register position, carry position, state", "why_tests_cant": "Boundary combinations (addend 2^n-1 with carry set) are easy to miss.", "anchors": ["src/qengine/arithmetic.cpp: QEngineCPU::INCDECC", "src/qalu.cpp: QAlu::INCC, DECC, INCDECC", "src/qinterface/arithmetic.cpp: QInterface::INCDECC"]}
{"id": "C11", "title": "Signed addition flips the overflow flag exactly on two's-complement overflow", "statement": "INCS (and the signed-carry variants) negate the phase (or flag) of a basis state exactly when the two's complement sum of the register value and the addend does not fit in length bits.", "quantifier": "every register length up to the word size, every operand pair", "why_tests_cant": "2^(2 length) operand pairs; sign-boundary cases are the ones that matter.", "anchors": ["src/common/functions.cpp: isOverflowAdd, isOverflowSub", "src/qengine/arithmetic.cpp: QEngineCPU::INCS, INCDECSC"]}
{"id": "C12", "title": "MUL/DIV and modular multiplication are inverse permutations with the documented product", "statement": "MUL sends |x>|0> to |low bits of x*k>|high bits of x*k> and DIV undoes it; MULModNOut sends |x>|0> to |x>|x*k mod N> and IMULModNOut undoes it; POWModNOut sends |x>|0> to |x>|k^x mod N>.", "quantifier": "every multiplicand, modulus, register placement, state supported on a cleared output register", "why_tests_cant": "Products and residues range over all inputs; overflow boundaries are input dependent.", "anchors": ["src/qengine/arithmetic.cpp: QEngineCPU::MULDIV, ModNOut, MULModNOut, IMULModNOut, POWModNOut", "src/qalu.cpp"]}
{"id": "C13", "title": "Controlled multiplication and division leave states with unset controls unchanged", "statement": "CMUL/CDIV/CMULModNOut act as their uncontrolled versions on basis states where every control is set, and do not change (or lose) any amplitude on basis states where some control is clear.", "quantifier": "every control set, multiplier (including 0), state", "why_tests_cant": "Loss of amplitude shows only for particular contents of the carry register under unset controls.", "anchors": ["src/qengine/arithmetic.cpp: QEngineCPU::CMUL, CDIV, CMULDIV, CModNOut"]}
{"id": "C14", "title": "Indexed load/add/subtract are per-index table operations", "statement": "IndexedLDA sends |i>|0> to |i>|table[i]>; IndexedADC and IndexedSBC send |i>|v>|c> to |i>|v +- table[i] +- carry mod 2^w> with the matching carry out; no amplitude is lost.", "quantifier": "every table, index/value placement, state", "why_tests_cant": "The table and the state are arbitrary; loss of amplitude depends on the carry qubit.", "anchors": ["src/qengine/arithmetic.cpp: QEngineCPU::IndexedLDA, IndexedADC, IndexedSBC"]}
{"id": "C15", "title": "Hash with a permutation table permutes basis states", "statement": "Hash(start,length,table) replaces the register value by table[value]; when the table is a bijection on [0,2^length) the operation permutes amplitudes and the inverse table undoes it.", "quantifier": "every bijective table, placement, state", "why_tests_cant": "There are (2^length)! tables.", "anchors": ["src/qengine/arithmetic.cpp: QEngineCPU::Hash"]}
{"id": "C16", "title": "Bit rotations and shifts move exactly the documented bits", "statement": "ROL(s)/ROR(s) rotate the register's bits by s modulo length and undo one another; the gate-level rotation by reversals equals the direct rotation; LSL/LSR drop the shifted-out bits and fill with zeros; ASL/ASR preserve the sign bit.", "quantifier": "every shift, register placement, basis state", "why_tests_cant": "All shifts and widths, including shift >= length.", "anchors": ["src/qengine/arithmetic.cpp: QEngineCPU::ROL", "src/qinterface/qinterface.cpp: QInterface::ROL, ROR, ASL, ASR, LSL, LSR", "include/qinterface.hpp: QInterface::Reverse"]}
{"id": "C17", "title": "Quantum full adder and its inverse", "statement": "FullAdd(a,b,carryIn/SumOut,carryOut) leaves the sum in the carry-in qubit and flips the carry-out by the majority; IFullAdd undoes it on every basis state; ADC chains give the binary sum of two registers and IADC undoes it.", "quantifier": "every basis state, every register length", "why_tests_cant": "Chains of arbitrary length are an induction, not an enumeration.", "anchors": ["src/qengine/arithmetic.cpp: QEngineCPU::FullAdd, IFullAdd", "include/qinterface.hpp: QInterface::FullAdd, IFullAdd", "src/qinterface/arithmetic.cpp: QInterface::ADC, IADC"]}
{"id": "C18", "title": "The gate-level ripple increment equals the direct increment", "statement": "The default INC built from controlled-NOT gates produces the same state as the direct permutation-based INC for all addends and lengths.", "quantifier": "every addend, length, start, state", "why_tests_cant": "Equivalence of two algorithms on all inputs.", "anchors": ["src/qinterface/arithmetic.cpp: QInterface::INC", "src/qengine/arithmetic.cpp: QEngineCPU::INC"]}
{"id": "C19", "title": "QFT and IQFT are mutually inverse and QFT is the discrete Fourier transform", "statement": "IQFT(start,length) after QFT(start,length) restores the state, in either order, and QFT sends basis value x to the superposition with phases e^{2 pi i x y / 2^length} up to the documented bit order.", "quantifier": "every length, start, state", "why_tests_cant": "All lengths; equality of exponential-size operators.", "anchors": ["src/qinterface/qinterface.cpp: QInterface::QFT, IQFT, QFTR, IQFTR"]}
{"id": "C20", "title": "Single-qubit measurement obeys the projection rule", "statement": "Prob(q) is the sum of squared magnitudes of amplitudes with bit q set; measuring q with result r removes exactly the amplitudes whose bit q differs from r and rescales the rest so that the total probability is one; measuring the same qubit again gives r with certainty.", "quantifier": "every normalised state, qubit and (positive-probability) result", "why_tests_cant": "Every state; random results.", "anchors": ["src/qengine/qengine.cpp: QEngine::ForceM", "src/qengine/state.cpp: QEngineCPU::Prob, ApplyM"]}
{"id": "C21", "title": "Measuring a set of qubits or a register returns the requested bits with Born-rule probability", "statement": "ForceM over a list of bits with given values, and register measurement, project on exactly those values; a sampled outcome always has positive probability; the returned integer carries the measured bits in the documented order.", "quantifier": "every list of qubits, values, state, and random draw in [0,1)", "why_tests_cant": "All draws, including boundary values of the generator.", "anchors": ["src/qengine/qengine.cpp: QEngine::ForceM(bits, values), ForceMReg", "src/qinterface/qinterface.cpp: QInterface::MAll, ForceMReg, M(bits)"]}
{"id": "C22", "title": "Marginal probabilities are consistent", "statement": "ProbAll/ProbReg/ProbMask are marginals of the full distribution: the probability of a register value is the sum over all basis states with that value in that register, and the probabilities of all values of a register add up to one.", "quantifier": "every register, mask, permutation, state", "why_tests_cant": "All masks times all states.", "anchors": ["src/qengine/state.cpp: QEngineCPU::ProbReg, ProbMask", "src/qinterface/qinterface.cpp: QInterface::ProbReg, ProbMask, ProbMaskAll"]}
{"id": "C23", "title": "Expectation and variance are those of the measured integer", "statement": "The expectation of a weighted or permutation observable is the probability-weighted average of the value associated with each outcome, and the variance is the probability-weighted mean squared deviation from it.", "quantifier": "every state, weights and qubit list", "why_tests_cant": "All states and weights.", "anchors": ["src/qinterface/qinterface.cpp: ExpectationBitsFactorized, VarianceBitsFactorized, ExpectationFloatsFactorized, VarianceFloatsFactorized"]}
{"id": "C24", "title": "Compose is the tensor product and Decompose undoes it", "statement": "Composing register B into A at position s yields the state whose amplitude is the product of the amplitudes of A and B on the respective bits, with B's qubits at [s, s+|B|); decomposing the same range of a product state returns factors whose product is the original state up to a global phase; disposing a range in a known permutation keeps the amplitudes of that permutation.", "quantifier": "every pair of states, insertion position, range", "why_tests_cant": "All sizes and positions.", "anchors": ["src/qengine/state.cpp: QEngineCPU::Compose, DecomposeDispose, Dispose", "src/qinterface/qinterface.cpp: QInterface::Compose"]}
{"id": "C25", "title": "Clones are independent", "statement": "After cloning a simulator, no operation on either copy changes the state observed through the other.", "quantifier": "every state and every later operation history on either copy", "why_tests_cant": "Aliasing shows only under particular later histories.", "anchors": ["src/qengine/state.cpp: QEngineCPU::Clone, Copy", "include/qengine_cpu.hpp", "include/statevector.hpp"]}
{"id": "C26", "title": "Stabilizer gates implement exact Clifford conjugation", "statement": "For every stabilizer-simulator gate (CNOT, AntiCNOT, CY, AntiCY, CZ, AntiCZ, Swap, ISwap, IISwap, H, X, Y, Z, S, IS), if the stored generators stabilise a state then after the gate the stored generators stabilise that state transformed by the gate's unitary, signs included.", "quantifier": "every generator row, qubit choice, state, register width", "why_tests_cant": "All Pauli rows on all widths; sign errors appear only for particular X/Z patterns.", "anchors": ["src/qstabilizer.cpp: QStabilizer::CNOT, AntiCNOT, CY, AntiCY, CZ, AntiCZ, Swap, ISwap, IISwap, H, X, Y, Z, S, IS"]}
{"id": "C27", "title": "Stabilizer tableau invariants hold after every operation history", "statement": "Throughout any sequence of gates and measurements the 2n rows keep the destabiliser/stabiliser commutation relations (row i anticommutes only with its partner), so the stabiliser generators remain independent and commuting.", "quantifier": "every history of gates and measurements, every width", "why_tests_cant": "Histories are unbounded.", "anchors": ["src/qstabilizer.cpp: QStabilizer::SetPermutation, gates, ForceM, rowmult, rowset, rowcopy"]}
{"id": "C28", "title": "Stabilizer measurement follows the Born rule", "statement": "If measurement of a qubit is reported as random then each outcome has probability one half and collapse projects on the reported outcome; if it is reported as determined then the reported value is the value every stabilised state has.", "quantifier": "every tableau satisfying the invariants, every qubit and outcome", "why_tests_cant": "All tableaux.", "anchors": ["src/qstabilizer.cpp: QStabilizer::ForceM, Prob, IsSeparableZ"]}
{"id": "C29", "title": "Stabilizer row multiplication tracks the Pauli product with its phase", "statement": "Multiplying two generator rows yields the row representing the operator product, including the power of i.", "quantifier": "every pair of rows on every width", "why_tests_cant": "16 cases per qubit, unbounded qubits.", "anchors": ["src/qstabilizer.cpp: QStabilizer::clifford, rowmult"]}
{"id": "C30", "title": "Clifford recognition applies an equivalent gate or refuses", "statement": "When the stabilizer simulator accepts a single-qubit, controlled-phase or controlled-invert matrix it performs exactly that gate up to global phase; otherwise it raises an error and leaves the state unchanged.", "quantifier": "every complex matrix, control list, qubit", "why_tests_cant": "Continuum of matrices.", "anchors": ["src/qstabilizer.cpp: QStabilizer::Mtrx, Phase, Invert, MCPhase, MACPhase, MCInvert, MACInvert"]}
{"id": "C31", "title": "Circuit optimisation preserves semantics for every append history", "statement": "Running a circuit built by any sequence of gate appends (with all the optimisations that merge, commute, cancel and drop gates) has the same effect on every state as applying the appended gates one by one, up to global phase.", "quantifier": "every sequence of appended gates, every input state", "why_tests_cant": "Histories are unbounded and the rewrite rules interact.", "anchors": ["src/qcircuit.cpp: QCircuit::AppendGate, Run", "include/qcircuit.hpp: QCircuitGate::TryCombine, Combine, CanPass, IsIdentity, AddControl, RemoveControl"]}
{"id": "C32", "title": "Inverse circuits undo circuits", "statement": "Running a circuit and then its inverse restores every state.", "quantifier": "every circuit of unitary gates, every state", "why_tests_cant": "Unbounded circuits.", "anchors": ["include/qcircuit.hpp: QCircuit::Inverse"]}
{"id": "C33", "title": "The past light cone determines the outcome statistics of the selected qubits", "statement": "Running only the past light cone of a set of qubits gives the same joint probabilities for those qubits as running the whole circuit.", "quantifier": "every circuit of unitary gates, every qubit set, every state", "why_tests_cant": "Unbounded circuits and qubit sets.", "anchors": ["include/qcircuit.hpp: QCircuit::PastLightCone"]}
{"id": "C34", "title": "Post-selecting a circuit control leaves a runnable circuit", "statement": "Replacing a control qubit by a known classical value, or deleting a phase target, gives a circuit whose effect equals the original circuit's effect restricted to that value.", "quantifier": "every circuit and control value", "why_tests_cant": "Depends on which payloads remain.", "anchors": ["include/qcircuit.hpp: QCircuitGate::PostSelectControl, QCircuit::DeletePhaseTarget"]}
{"id": "C35", "title": "Paged gates equal flat gates", "statement": "A register split in pages gives the same state as a single flat register after any sequence of single-qubit, controlled, swap and mask gates, wherever the page boundary lies; regrouping pages does not change amplitudes.", "quantifier": "every page size, qubit count, gate, target/control placement relative to the page boundary, state", "why_tests_cant": "The page boundary, targets and controls range independently.", "anchors": ["src/qpager.cpp: QPager::CombineEngines, SeparateEngines, SingleBitGate, MetaControlled, SemiMetaControlled, MetaSwap, ApplySingleEither, Swap"]}
{"id": "C36", "title": "A paged register starts in the requested basis state", "statement": "Constructing a paged register with initial permutation p yields amplitude of magnitude one at p and zero elsewhere.", "quantifier": "every page size and permutation", "why_tests_cant": "All permutations and page sizes.", "anchors": ["src/qpager.cpp: QPager::QPager, SetPermutation"]}
{"id": "C37", "title": "Decision-diagram controlled gates reach every matching branch", "statement": "A controlled or anti-controlled gate on the decision-diagram simulator updates every branch whose controls match and no other.", "quantifier": "every target, control set, polarity", "why_tests_cant": "Skip-ahead arithmetic fails only for particular control layouts.", "anchors": ["src/qbdt/tree.cpp: QBdt::ApplyControlledSingle, par_for_qbdt"]}
{"id": "C38", "title": "Decision-diagram measurement collapses the state", "statement": "After measuring a qubit of the decision-diagram simulator with result r, every basis state with that qubit different from r has amplitude zero and the remaining amplitudes keep their ratios.", "quantifier": "every tree (state), qubit and positive-probability result", "why_tests_cant": "All entangled states.", "anchors": ["src/qbdt/tree.cpp: QBdt::ForceM", "src/qbdt/node.cpp"]}
{"id": "C39", "title": "The dispatch queue runs every submitted task once, in order, and finish waits for all", "statement": "Tasks submitted to an engine's asynchronous queue run exactly once, in submission order, one at a time, and a call that waits for completion does not return before every previously submitted task has ended.", "quantifier": "every interleaving of submitting and worker threads", "why_tests_cant": "Schedules are unbounded.", "anchors": ["src/common/dispatchqueue.cpp: DispatchQueue::dispatch, finish, dump, dispatch_thread_handler"]}
{"id": "C40", "title": "Wide-integer arithmetic is arithmetic modulo 2^width", "statement": "Addition, subtraction, increment, decrement, shifts, comparison, multiplication and division of multi-word integers give the mathematical result modulo 2^width.", "quantifier": "every pair of values, every number of words", "why_tests_cant": "Carries across words need particular bit patterns (all-ones words).", "anchors": ["include/common/big_integer.hpp: bi_add, bi_add_ip, bi_sub_ip, bi_increment, bi_decrement, bi_compare, bi_lshift, bi_rshift, operator+, operator-", "src/common/big_integer.cpp: operator*, bi_div_mod"]}
{"id": "C41", "title": "Bit utilities compute their mathematical definitions", "statement": "log2 is the floor logarithm, popcount counts set bits, pow2Mask(n) is 2^n-1, integer power is exponentiation modulo the word size, and pushing bits apart inserts zero bits exactly at the given positions.", "quantifier": "every word value / every argument", "why_tests_cant": "2^64 inputs.", "anchors": ["include/common/qrack_functions.hpp: log2Ocl, popCountOcl, pow2, pow2Mask, isBadBitRange, ThrowIfQbIdArrayIsBad", "src/common/functions.cpp: intPow, pushApartBits"]}
{"id": "C42", "title": "2x2 matrix functions are what they are named", "statement": "The 2x2 product is the matrix product, the inverse routine inverts unitary matrices, and the exponential/logarithm routine computes the matrix exponential/logarithm.", "quantifier": "every complex 2x2 matrix in the routine's domain", "why_tests_cant": "Continuum of matrices.", "anchors": ["src/common/functions.cpp: mul2x2, inv2x2, _expLog2x2, exp2x2, log2x2"]}
{"id": "C43", "title": "External qubit ids always denote the same qubit", "statement": "Through the C API, for every history of qubit allocation, release, swap-based relocation, dispose and decompose, each live qubit id keeps addressing the same logical qubit and distinct live ids address distinct qubits.", "quantifier": "every history of API calls", "why_tests_cant": "Histories are unbounded; the bug needs a particular order of release/dispose.", "anchors": ["src/pinvoke_api.cpp: allocateQubit, release, Dispose, Decompose, Compose, GetSimShardId, SwapShardValues"]}
{"id": "C44", "title": "Arithmetic calls act on the qubits in the order given by the caller", "statement": "Before an ALU operation, the C API relocates the listed qubits so that the i-th listed qubit occupies position start+i of a contiguous register.", "quantifier": "every qubit list and every current id-to-position map", "why_tests_cant": "Fails only for particular overlaps between listed and destination positions.", "anchors": ["src/pinvoke_api.cpp: MapArithmetic, MapArithmetic2, MapArithmetic3"]}
{"id": "C45", "title": "Concurrent C API calls never deadlock", "statement": "No interleaving of concurrently issued C API calls on any simulators leaves a set of callers waiting for each other forever.", "quantifier": "every set of concurrent calls and schedule", "why_tests_cant": "Deadlock depends on the schedule.", "anchors": ["src/pinvoke_api.cpp: Compose, SIMULATOR_LOCK_GUARD, NEURON_LOCK_GUARD, META_LOCK_GUARD, init_clone, allocateQubit, release"]}
{"id": "C46", "title": "Invalid simulator ids are rejected", "statement": "A C API call with an id that was never issued reports an error and touches no memory outside the tables.", "quantifier": "every id and every history of simulator creation", "why_tests_cant": "Only the id equal to the table size is mishandled.", "anchors": ["src/pinvoke_api.cpp: SIMULATOR_LOCK_GUARD_VOID, SIMULATOR_LOCK_GUARD_TYPED, destroy, get_error"]}
{"id": "C47", "title": "Multi-word integer arguments of the C API are reassembled exactly", "statement": "A big integer passed as an array of machine words is interpreted as the sum of word_i * 2^(64 i).", "quantifier": "every word array", "why_tests_cant": "Needs more than one word.", "anchors": ["src/pinvoke_api.cpp: _combineA"]}
{"id": "C48", "title": "Logical qubit relabelling is a bijection", "statement": "The logical-to-physical qubit map stays a bijection under every history of swaps and map/inverse-map undo each other.", "quantifier": "every history of swaps", "why_tests_cant": "Histories are unbounded.", "anchors": ["include/qubitswapmap.hpp: QubitSwapMap::swap, map, inverseMap"]}
{"id": "C49", "title": "Logic gates write the Boolean function into the output qubit", "statement": "AND/OR/XOR/NAND/NOR/XNOR (and the variants with a classical operand) set an output qubit that starts in |0> to the Boolean function of the inputs, on every basis state, and leave the inputs unchanged.", "quantifier": "every choice of qubits allowed by the documentation, every state", "why_tests_cant": "All aliasing patterns of the qubit arguments and all states.", "anchors": ["src/qinterface/logic.cpp: QInterface::AND, OR, XOR, NAND, NOR, XNOR, CLAND, CLOR, CLXOR"]}
{"id": "C50", "title": "Uniformly controlled gates apply the matrix selected by the control value", "statement": "A uniformly controlled single-qubit gate applies, on each control-register value, the matrix listed for that value, including when some control qubits are skipped with a fixed value.", "quantifier": "every list of matrices, controls, skip set, state", "why_tests_cant": "2^k matrices times all states.", "anchors": ["src/qengine/state.cpp: QEngineCPU::UniformlyControlledSingleBit", "src/qinterface/gates.cpp: QInterface::UniformlyControlledSingleBit"]}
{"id": "C51", "title": "Sparse and dense state vectors are interchangeable", "statement": "The sparse state vector returns, for every history of reads and writes, the same amplitudes as the dense one.", "quantifier": "every history of writes, reads, copies and shuffles", "why_tests_cant": "Histories are unbounded.", "anchors": ["include/statevector.hpp: StateVectorSparse, StateVectorArray"]}
{"id": "C52", "title": "Buffered two-qubit phase gates are transparent", "statement": "Delaying controlled-phase and controlled-invert gates in per-qubit buffers, and rewriting those buffers when other gates commute past them, does not change the state that is eventually materialised.", "quantifier": "every buffer content and commuting gate", "why_tests_cant": "Buffer contents and gate orders are unbounded.", "anchors": ["src/qengineshard.cpp: QEngineShard::AddAngles, OptimizeBuffer, FlipPhaseAnti, CommutePhase, CommuteH, SwapTargetAnti", "src/qunit.cpp"]}
{"id": "C53", "title": "Multi-shot sampling maps each shot to the requested bits", "statement": "Sampling many shots of a list of qubit powers returns values whose i-th bit is the value of the i-th listed qubit in some basis state of positive probability, and does not change the state.", "quantifier": "every state, list of powers, random stream", "why_tests_cant": "Random streams are unbounded.", "anchors": ["src/qinterface/qinterface.cpp: QInterface::MultiShotMeasureMask, SampleClone", "src/qengine/qengine.cpp"]}
{"id": "C54", "title": "Deferred-circuit simulation equals immediate simulation", "statement": "A simulator that records gates and runs them lazily (splitting the record at each measurement) gives the same measurement statistics as running every gate immediately.", "quantifier": "every history of gates and measurements", "why_tests_cant": "Histories are unbounded.", "anchors": ["src/qtensornetwork.cpp, include/qtensornetwork.hpp"]}
{"id": "C55", "title": "Amplitudes are read back as they were written", "statement": "Setting a page of amplitudes, one amplitude, a basis state or the whole state changes exactly the addressed amplitudes; reading them back returns what was set (divided by its length when automatic normalisation is on); ranges outside of the register are rejected; probabilities are squared magnitudes.", "quantifier": "every state, page range, input array, release state of the array, parallel schedule", "why_tests_cant": "States and ranges are unbounded; released arrays and wrapping ranges are rarely reached.", "anchors": ["src/qengine/state.cpp: QEngineCPU::GetAmplitudePage, SetAmplitudePage, GetAmplitude, SetAmplitude, SetPermutation, SetQuantumState, GetQuantumState, GetProbs", "include/statevector.hpp: StateVectorArray"]}
{"id": "C56", "title": "Comparing states, and splitting only what is separable", "statement": "SumSqrDiff is one minus the squared magnitude of the inner product, so it lies between 0 and 1 and is 0 exactly for states equal up to a global phase; a successful TryDecompose leaves two factors whose product is the original state to within the tolerance, and a failing one leaves the register unchanged.", "quantifier": "every pair of states, range of qubits, tolerance, parallel schedule", "why_tests_cant": "States and tolerances are continuous.", "anchors": ["src/qengine/state.cpp: QEngineCPU::SumSqrDiff", "src/qinterface/qinterface.cpp: QInterface::TryDecompose", "include/qinterface.hpp: ApproxCompare"]}
{"id": "C57", "title": "Composing decision-diagram registers gives the tensor product", "statement": "Composing a decision-diagram register with another one, at the end or at a given place, gives the register whose amplitudes are the products of the amplitudes of both (up to a global phase), and returns the place of the new qubits.", "quantifier": "every pair of states (trees) and every place", "why_tests_cant": "Trees and places are unbounded.", "anchors": ["src/qbdt/tree.cpp: QBdt::Compose", "src/qbdt/node.cpp: QBdtNode::InsertAtDepth"]}
{"id": "C58", "title": "Parallel loop bodies have no data races", "statement": "Different calls of a parallel loop body never access the same array cell unless all of them only read it, so that every interleaving of their reads and writes leaves the same amplitudes as running the calls one after the other.", "quantifier": "every register size, qubits, masks, matrices, states and interleavings", "why_tests_cant": "A lost update needs an unlucky interleaving; tests of small registers do not even start the threads.", "anchors": ["src/qengine/state.cpp: QEngineCPU::Apply2x2, XMask, PhaseParity, UniformlyControlledSingleBit, ApplyM, DecomposeDispose", "src/qengine/arithmetic.cpp", "src/common/parallel_for.cpp: ParallelFor::par_for_inc"]}
{"id": "C59", "title": "OpenCL launches process every index once, and reductions are complete", "statement": "Whatever the device reports, every kernel launch over a power-of-two range has a work-group size that divides the number of work-items, every index of the range is processed by exactly one work-item exactly once, and the partial sums that the work-groups leave, added up by the host, are exactly the sum over the range.", "quantifier": "every device description, range, summand, interleaving of the work-items", "why_tests_cant": "Devices differ in their sizes and interleave work-items at will; a test sees one device.", "anchors": ["src/qengine/opencl.cpp: QEngineOCL::SetDevice, ParSum, WAIT_REAL1_SUM", "include/qengine_opencl.hpp: FixWorkItemCount, FixGroupSize", "src/common/qengine.cl: SUM_LOCAL, PUSH_APART_GEN, PUSH_APART_1, PUSH_APART_2", "include/common/oclengine.hpp: GetPreferredConcurrency"]}
{"id": "C60", "title": "OpenCL gates act as their matrices, whatever kernel is chosen", "statement": "A gate, controlled gate, swap-like gate or mask gate on an OpenCL register transforms the amplitudes exactly as the same call on a CPU register does, for every choice of specialised kernel and every left-over content of the argument buffers; pending normalisation is applied once, and the running norm is right afterwards.", "quantifier": "every device, register size, qubits, matrix, state, left-over buffer content, interleaving of the work-items", "why_tests_cant": "The kernel is chosen from the arguments, the device and the pending norm; stale buffers depend on the call history.", "anchors": ["src/qengine/opencl.cpp: QEngineOCL::Apply2x2, X, Z, Invert, Phase, XMask, PhaseParity, PhaseRootNMask, UniformlyControlledSingleBit, UniformParityRZ, CUniformParityRZ, NormalizeState, UpdateRunningNorm", "src/common/qengine.cl"]}
{"id": "C61", "title": "OpenCL probabilities, measurement and composition follow the Born rule", "statement": "Probabilities, expectation values and parity queries on an OpenCL register are the sums of squared magnitudes they stand for; measurement draws with these probabilities and collapse keeps exactly the measured amplitudes, rescaled; composition is the tensor product and splitting a product state gives back its factors; setting an amplitude keeps the running norm right.", "quantifier": "every device, register size, range, mask, state, interleaving of the work-items", "why_tests_cant": "States and ranges are unbounded.", "anchors": ["src/qengine/opencl.cpp: QEngineOCL::Prob, CtrlOrAntiProb, ProbReg, ProbRegAll, ProbMask, ProbMaskAll, ProbParity, ForceMParity, ExpectationBitsAll, GetExpectation, ApplyM, MAll, Compose, Allocate, DecomposeDispose, Dispose, SetAmplitude, SetQuantumState, GetQuantumState, GetProbs, SumSqrDiff, ShuffleBuffers", "src/qengine/qengine.cpp: QEngine::ForceM, ForceMReg", "src/common/qengine.cl"]}
{"id": "C62", "title": "OpenCL arithmetic agrees with integer arithmetic", "statement": "Addition, multiplication, division, modular and table-based arithmetic on an OpenCL register permute or map the basis states as the same operations on integers do, and agree with the CPU engine.", "quantifier": "every device, register size, ranges, addends and tables, states, interleaving of the work-items", "why_tests_cant": "Operands and tables are unbounded.", "anchors": ["src/qengine/opencl.cpp: QEngineOCL::ROx, INT, CINT, INTC, INTS, INTSC, MUL, DIV, MULModNOut, POWModNOut, FullAdx, CMUL, CDIV, IndexedLDA, OpIndexed, Hash, PhaseFlipIfLess, CPhaseFlipIfLess", "src/common/qheader_alu.cl"]}
{"id": "C63", "title": "Gates that a simulator type inherits act as documented", "statement": "If a simulator type's Mtrx and MCMtrx act as their matrices, then every gate whose body it inherits from QInterface acts as its documented operator: phase and inversion gates, anti-controlled gates, gates on a control permutation, uniformly controlled gates, mask gates, exchanges and their roots with and without controls; up to a global phase only if the simulator was asked for a random one.", "quantifier": "every simulator type with lawful Mtrx and MCMtrx, number of qubits, qubits, controls, permutations, masks, matrices, angles, states", "why_tests_cant": "The inherited bodies are shared by all simulator types, but most types override some of them, so a test of one type does not exercise them; control lists and masks are unbounded.", "anchors": ["include/qinterface.hpp: QInterface::MACWrapper, MACMtrx, Phase, Invert, MCPhase, MACPhase, MACInvert, UCPhase, UCInvert, ZeroPhaseFlip", "src/qinterface/gates.cpp: UCMtrx, UniformlyControlledSingleBit, XMask, YMask, ZMask, PhaseRootNMask, PhaseParity, Swap, ISwap, SqrtSwap, CSwap, CSqrtSwap, AntiCSwap"]}
{"id": "C64", "title": "Rotations and named gates are the matrices they are named after", "statement": "Every named gate that a simulator type inherits is its documented matrix: RX, RY and RZ are the exponentials of the Pauli matrices, U is the documented composition of rotations and together with a global phase reaches every one-qubit unitary, AI turns the axis and IAI undoes it, roots square to their gates and inverses undo them, phase roots turn by the documented fraction, and controlled and anti-controlled forms act exactly where the controls say.", "quantifier": "every simulator type with lawful Mtrx and MCMtrx, number of qubits, qubits, angles, root orders, states", "why_tests_cant": "Angles are continuous; a test compares probabilities of few angles, in which signs of phases do not show.", "anchors": ["include/qinterface.hpp: QInterface::U2, IU2, H, SqrtH, SH, HIS, S, IS, T, IT, PhaseRootN, IPhaseRootN, X, Y, Z, SqrtX, SqrtY, SqrtW, CNOT, AntiCNOT, CCNOT, CY, CZ, CH, CS, CT, CPhaseRootN", "src/qinterface/rotational.cpp: QInterface::U, CU, AI, IAI, CAI, CIAI, RT, RX, RY, RZ, CRT, CRX, CRY, CRZ, Exp, ExpX, ExpY, ExpZ, UniformlyControlledRY, UniformlyControlledRZ"]}
{"id": "C65", "title": "TimeEvolve applies the exponentials of the terms in order", "statement": "TimeEvolve multiplies the state by e^{-i H_j t} for the terms H_j of the Hamiltonian, first term first, each on the basis states where its controls (with toggles and anti-control) are active; the norm is kept and time zero does nothing.", "quantifier": "every simulator type with lawful Mtrx and MCMtrx, number of qubits, list of Hermitian terms, controls, toggles, times, states", "why_tests_cant": "Times and matrices are continuous; squared magnitudes do not show the direction of the evolution.", "anchors": ["src/qinterface/gates.cpp: QInterface::TimeEvolve", "include/hamiltonian.hpp", "src/common/functions.cpp: exp2x2"]}
{"id": "C66", "title": "What is saved is loaded again", "statement": "Writing a circuit, a stabilizer simulator or a register of stabilizer units to a stream and reading it back gives the same circuit, the same stabilizer state, and the same division into units; integers are read back from what was written, and the counts of a loaded simulator agree with its contents.", "quantifier": "every circuit, tableau, division into units, integer; whatever follows in the stream", "why_tests_cant": "Circuits and registers are unbounded; the keys that get lost need more than 64 controls.", "anchors": ["src/common/functions.cpp: operator<<, operator>>", "src/qcircuit.cpp: operator<<, operator>>", "src/qstabilizer.cpp: operator<<, operator>>", "src/qunitclifford.cpp: operator<<, operator>>", "src/qstabilizerhybrid.cpp: operator>>"]}
{"id": "C67", "title": "A quantum neuron predicts as documented, and learning does not make it worse", "statement": "QNeuron::Predict turns the output qubit by the angle that the inputs select and returns the chance of the expected category, one half for an untrained neuron; Unpredict takes that back. Learn and LearnPermutation leave the register as it was, and the trained neuron gives the expected category at least the chance it gave before; with rate one half an untrained neuron learns one training input at once. Copies of a neuron are equal to it.", "quantifier": "every simulator type whose gates, Prob and M are right; every state, set of inputs, angles, activation function, rate, tolerance", "why_tests_cant": "Angles and rates are real numbers and inputs superposed; the failures need angles beyond a full turn, superposed inputs, or neurons of different size.", "anchors": ["include/qneuron.hpp: Predict, Unpredict, Learn, LearnPermutation, LearnInternal, clampAngle, operator="]}
{"id": "C68", "title": "Every read-out of a stabilizer state agrees with the state the calls describe", "statement": "After any sequence of SetPermutation, gates, measurements and read-outs on a QStabilizer, GetQuantumState returns the normalised state those calls describe up to one global phase; GetAmplitude and GetAmplitudes return its entries; GetQuantumState() holds exactly the nonzero ones; GetProbs, ProbMask and ProbPermRdm return Born probabilities; the expectation values and variances are Born averages; GetAnyAmplitude and GetQubitAmplitude return a nonzero entry; and no read-out changes what a later one returns.", "quantifier": "every number of qubits, history of calls, permutation, list of permutations, mask, list of qubits and weights", "why_tests_cant": "The read-out eliminates, seeds and walks over up to 2^n basis states; tests sample a few small circuits, and the failure of GetAnyAmplitude needs 64 qubits.", "anchors": ["src/qstabilizer.cpp: gaussian, seed, getBasisAmp, GetQuantumState, GetProbs, GetAmplitude, GetAmplitudes, GetAnyAmplitude, GetQubitAmplitude, ExpectationBitsFactorized, VarianceFloatsFactorized, ProbMask, ProbPermRdm"]}
{"id": "C69", "title": "Composing stabilizer registers gives the product state, and separating undoes it", "statement": "Compose(toCopy, start) on QStabilizer returns start and leaves the product of the two states with the other register's qubits at positions start onwards; it throws for a position past the end. When CanDecomposeDispose says a range can be separated, the state is a product, and Decompose leaves the one factor and hands over the other; Dispose leaves the remaining factor. CanDecomposeDispose says so whenever the state is a product of that range and the rest, and TrySeparate and IsSeparable leave the state alone and answer likewise.", "quantifier": "every two numbers of qubits, position, range, and states that histories of calls reach", "why_tests_cant": "Rows and columns move to positions that depend on three sizes, and whether elimination aligns rows with qubits depends on the order of all earlier calls; tests compose and decompose a few small registers.", "anchors": ["src/qstabilizer.cpp: Compose, CanDecomposeDispose, DecomposeDispose, TrySeparate, IsSeparableX, IsSeparableY, IsSeparable", "include/qstabilizer.hpp: TrySeparate, Decompose, Dispose"]}
{"id": "C70", "title": "Comparing stabilizer states measures their fidelity", "statement": "SumSqrDiff between two QStabilizer objects is one minus the squared overlap of the normalised states the calls describe, whichever of its two ways it takes; ApproxCompare with a tolerance below one half is true exactly when the two states are equal up to a global phase; GlobalPhaseCompare is true for an object and its copy; a different number of qubits gives the greatest difference; and none of them changes what either object reads out afterwards.", "quantifier": "every number of qubits, tolerance, and two states that histories of calls reach", "why_tests_cant": "The walk stops early once the overlap falls behind, and every amplitude of the other state re-runs its elimination; tests compare a handful of states.", "anchors": ["src/qstabilizer.cpp: ApproxCompareHelper", "include/qstabilizer.hpp: SumSqrDiff, ApproxCompare, GlobalPhaseCompare"]}
{"id": "C71", "title": "A stabilizer register kept in separate units acts as one register", "statement": "SetPermutation, the Clifford gates and circuits of them, Swap, EntangleInCurrentBasis, TrySeparate, Prob and ForceM on QUnitClifford, which keeps each group of entangled qubits in its own QStabilizer and moves qubits between them, do to the state what the same call does on one register of all the qubits, up to a global phase: gates apply their unitary, merging and separating units change nothing, Prob is the Born probability, and ForceM collapses to its result or throws when the forced result is impossible.", "quantifier": "every number of qubits, state kept in any division into units, gate, circuit, qubit and measurement draw", "why_tests_cant": "Which qubits share a unit, and at which place inside it, depends on the whole history of calls; a gate that uses the wrong place agrees with the right one on every short history.", "anchors": ["include/qunitclifford.hpp: CGate, SwapGate, CNOT, CZ, CY, AntiCNOT, AntiCZ, AntiCY, H, S, IS, X, Y, Z, Swap, Prob, IsSeparableZ", "src/qunitclifford.cpp: SetPermutation, EntangleInCurrentBasis, SeparateBit, ForceM, TrySeparate"]}
{"id": "C72", "title": "Ordering units and reading out a register kept in separate units", "statement": "SortUnit sorts the qubits of a unit; OrderContiguous and EntangleAll leave the state, and after EntangleAll every qubit is at its own number in the only unit. On QUnitClifford, GetAmplitude and GetQuantumState return the amplitudes of the whole state up to one phase common to all; ProbMask returns the probability that the qubits of the mask have the given bits; ExpectationFloatsFactorized and ExpectationBitsFactorized return the mean of the weights of the qubits' values, the latter plus the offset.", "quantifier": "every number of qubits, state kept in any division into units, permutation, mask, list of qubits and weights", "why_tests_cant": "How a result is put together from units depends on how the qubits happen to be divided; with one unit, which is what small tests make, each formula is right.", "anchors": ["src/qunitclifford.cpp: SortUnit, OrderContiguous, GetAmplitude, GetQuantumState, ProbMask, ExpVarFloatsFactorized, ExpVarBitsFactorized", "src/qunit.cpp: SortUnit", "include/qunitclifford.hpp: EntangleAll"]}
{"id": "C73", "title": "Counts of many shots put together from several units", "statement": "MultiShotMeasureMask on QUnitClifford and QUnit, which ask each unit for its own counts and put them together, returns as many shots as asked for; restricted to the qubits of a unit, they are the shots the unit returned, and a bit of QUnit that is in no unit is 1 in as many shots as its own draws say; shots of different units are paired at random, every pairing being equally likely.", "quantifier": "every number of qubits, division into units, list of qubits, number of shots, counts the units return, and sequence of draws", "why_tests_cant": "The pairing is a loop over two maps with counts that run down, whose draws a test cannot fix; counts that are paired in a biased way still have the right totals.", "anchors": ["src/qunitclifford.cpp: MultiShotMeasureMask", "src/qunit.cpp: MultiShotMeasureMask"]}
{"id": "C74", "title": "Joining, splitting, comparing and transferring a paged register", "statement": "On a QPager register, Compose and ComposeNoClone append the other register and Compose(toCopy, start) inserts it at start, each returning the position of its first qubit; Allocate adds qubits in state |0>; Dispose and Decompose take out exactly the given range and leave the other factor, or reject a range that does not exist; SetQuantumState, GetQuantumState, GetProbs, SetAmplitude, SetAmplitudePage and GetAmplitudePage transfer exactly the amplitudes asked for; SumSqrDiff is one minus the squared magnitude of the inner product, so that ApproxCompare accepts an equal state.", "quantifier": "every number of qubits and pages, page size, threshold, state, range, schedule of the loops, and content of new arrays", "why_tests_cant": "The branches depend on how the pages are grouped at the moment of the call, which is an internal matter; small registers have a single page, in which most of the mistakes do not show.", "anchors": ["src/qpager.cpp: ComposeEither", "src/qpager.cpp: Decompose", "src/qpager.cpp: Dispose", "src/qpager.cpp: Allocate", "src/qpager.cpp: GetSetAmplitudePage", "src/qpager.cpp: SetQuantumState", "src/qpager.cpp: GetQuantumState", "src/qpager.cpp: SumSqrDiff", "src/qinterface/qinterface.cpp: Compose(toCopy, start)"]}
{"id": "C75", "title": "Expectation and variance in a basis given per qubit", "statement": "ExpectationUnitaryAll of a list of distinct qubits, one unitary basis (2x2 matrix or three angles of U) and two eigenvalues (by default +1 and -1) per qubit returns the expectation of the tensor product of the observables U diag(w0, w1) U+, VarianceUnitaryAll its variance, VariancePauliAll the variance of the tensor product of the Pauli operators; all of them leave the state as it was, up to a global phase.", "quantifier": "every number of qubits, state, list of distinct qubits, unitary matrices, angles, real eigenvalues, and schedule of the loops", "why_tests_cant": "The bases, angles and eigenvalues are continuous, and with one qubit, a real symmetric basis or equal angles the mistakes do not show.", "anchors": ["src/qinterface/qinterface.cpp: ExpVarUnitaryAll", "src/qinterface/qinterface.cpp: VariancePauliAll", "include/qinterface.hpp: ExpectationUnitaryAll", "include/qinterface.hpp: VarianceUnitaryAll"]}
{"id": "C76", "title": "Inherited modular multiplication", "statement": "On a simulator that inherits them, MULModNOut(toMul, N, in, out, length) puts toMul times the input register modulo N into the output register when it is zero, CMULModNOut does so if all controls are set and nothing otherwise, and IMULModNOut and CIMULModNOut are their inverses.", "quantifier": "every multiplier, modulus, pair of disjoint registers of any length, list of controls outside both, and basis state or superposition", "why_tests_cant": "The product depends on multiplier, modulus, input and output together, and the inverse is only tested for few moduli; a modulus beyond the input register is undefined behaviour that need not show.", "anchors": ["src/qinterface/arithmetic.cpp: QInterface::MULModNOut", "src/qinterface/arithmetic.cpp: QInterface::IMULModNOut", "src/qinterface/arithmetic.cpp: QInterface::CMULModNOut", "src/qinterface/arithmetic.cpp: QInterface::CIMULModNOut"]}
{"id": "C77", "title": "Setting qubits, and the inherited measurement of a list", "statement": "SetBit and SetReg measure the qubits and leave them in the value asked for, with the other qubits as the measurement left them; SetReg of all qubits and SetPermutation give the basis state. ForceM of a list of qubits projects on the values given, or on a possible outcome, and returns the mask of the qubits found in one, or throws if the values are impossible; without application it returns the same and leaves the state.", "quantifier": "every state, register, value, list of distinct qubits, outcome and draw, and schedule of the loops", "why_tests_cant": "A test of SetBit from a basis state does not see what happens to entangled qubits, and the returned mask agrees with the packed value when the qubits listed are the first ones.", "anchors": ["include/qinterface.hpp: SetBit", "src/qinterface/qinterface.cpp: QInterface::SetReg", "src/qinterface/qinterface.cpp: QInterface::SetPermutation", "src/qinterface/qinterface.cpp: QInterface::ForceM"]}
{"id": "C78", "title": "The noise channels", "statement": "DepolarizingChannelStrong1Qb and DepolarizingChannelWeak1Qb simulate a depolarizing channel of strength lambda on one qubit: the expectation values of X, Y and Z of the qubit are all multiplied by 1 - lambda, on the enlarged register (strong) or on average over the draws (weak). A strength of zero or less changes nothing.", "quantifier": "every state, qubit, strength in [0, 1], draw of the outcome and of the phase, and schedule of the loops", "why_tests_cant": "One noisy run gives one sample; the channel is only visible in averages over many runs and in all three bases, and a test of |0> in the computational basis cannot tell a dephasing in the X basis from a depolarizing channel.", "anchors": ["src/qinterface/gates.cpp: QInterface::DepolarizingChannelWeak1Qb", "src/qinterface/gates.cpp: QInterface::DepolarizingChannelStrong1Qb", "include/qtensornetwork.hpp: DepolarizingChannelWeak1Qb", "src/qengine/utility.cpp: QEngineCPU::Allocate"]}
{"id": "C79", "title": "Pauli operations of the C API", "statement": "Let P be the product of the listed Pauli operators on the listed qubits. JointEnsembleProbability returns the probability of the eigenvalue -1 of P and does not change the state; Measure returns 0 or 1 with positive probability and leaves the normalized projection on the eigenspace of that outcome; R, Exp (and MCR, MCExp under control) apply exp(-i phi P / 2) and exp(i phi P), also when qubits have been allocated and released before.", "quantifier": "every normalized state, list of operators on distinct qubits (identities among them), angle, draw, set of controls, assignment of ids to positions and schedule of the loops", "why_tests_cant": "The tests of the library call the simulators directly, not the C interface; the ids of a freshly initialised simulator equal its positions, so that a mask made of ids looks right; a global phase that becomes observable under control needs a test in superposition.", "anchors": ["src/pinvoke_api.cpp: JointEnsembleProbability", "src/pinvoke_api.cpp: Measure", "src/pinvoke_api.cpp: Exp", "src/pinvoke_api.cpp: MCExp", "src/pinvoke_api.cpp: RHelper", "src/pinvoke_api.cpp: MCRHelper", "src/pinvoke_api.cpp: make_mask"]}
{"id": "C80", "title": "QUnit's additions over cached qubits", "statement": "INC, CINC, INCC, DECC, INCS and the signed addition with carry of QUnit add exactly as the same operations on one state vector do: each basis state goes to the one whose register is increased modulo 2^length (on the states whose controls are all set), with the carry-out in the carry qubit and the amplitude negated on signed overflow, whatever the qubit caches happen to know about the register, the controls, the sign bit and the overflow qubit.", "quantifier": "every state of up to 63 qubits, addend, register, set of controls, carry and overflow qubit, and every answer of the caches (also one that changes from step to step), as long as an answer is true of the state at that time", "why_tests_cant": "Which of the shortcuts is taken depends on which qubits happen to be cached, on superposed qubits between known ones and on carries through them; the number of combinations grows exponentially with the length of the register.", "anchors": ["src/qunit.cpp: QUnit::INT", "src/qunit.cpp: QUnit::INTS", "src/qunit.cpp: QUnit::INTSCOptimize", "src/qunit.cpp: QUnit::CINC", "src/qunit.cpp: QUnit::TrimControls", "src/qunit.cpp: QUnit::INCC", "src/qunit.cpp: QUnit::DECC"]}
{"id": "C81", "title": "QUnit's products, tables and comparisons over cached qubits", "statement": "MUL, DIV, CMUL, POWModNOut, IndexedLDA, IndexedADC, IndexedSBC, Hash, PhaseFlipIfLess and CPhaseFlipIfLess of QUnit have the same effect whether the register that is read is known to the caches, so that the result is computed classically and written, or not, so that a unit is asked: the product, quotient, power, table entry or sign that the operation is documented to produce.", "quantifier": "every state of up to 63 qubits, multiplier, modulus, table, registers and controls, every outcome of the measurements on the way, and every true answer of the caches", "why_tests_cant": "The classical and the quantum path are different code with different word sizes; a test that passes on one says nothing about the other, and the differences show at widths and values that tests do not reach (33 qubits, powers beyond 128 bits, entries of all ones with the carry set).", "anchors": ["src/qunit.cpp: QUnit::MUL", "src/qunit.cpp: QUnit::DIV", "src/qunit.cpp: QUnit::CMUL", "src/qunit.cpp: QUnit::POWModNOut", "src/qunit.cpp: QUnit::IndexedLDA", "src/qunit.cpp: QUnit::IndexedADC", "src/qunit.cpp: QUnit::GetIndexedEigenstate", "src/qunit.cpp: QUnit::Hash", "src/qunit.cpp: QUnit::PhaseFlipIfLess"]}
{"id": "C82", "title": "QUnit brings qubits into one unit without changing the state, and parity operations on qubits in several units", "statement": "EntangleInCurrentBasis and Entangle leave the state of all qubits as it is, and afterwards the qubits share the returned unit at different places. A controlled gate or swap that is then given to the unit with places instead of qubits is the gate on the qubits. PhaseParity, CUniformParityRZ and ForceMParity of QUnit act on the parity of all masked qubits although they hand only those to a unit that the caches do not know; ZMask is the product of the Z gates.", "quantifier": "every division of the qubits into units and every state of these, every list of qubits, gate, mask and angle, and every true answer of the caches", "why_tests_cant": "The bookkeeping goes wrong only for particular ways in which the qubits are spread over units and places, which depend on the history of the register; tests see few of them.", "anchors": ["src/qunit.cpp: QUnit::EntangleInCurrentBasis", "src/qunit.cpp: QUnit::Entangle", "src/qunit.cpp: QUnit::ApplyEitherControlled", "src/qunit.cpp: QUnit::PhaseParity", "src/qunit.cpp: QUnit::CUniformParityRZ", "src/qunit.cpp: QUnit::ForceMParity", "include/qunit.hpp: QUnit::ZMask"]}
{"id": "C83", "title": "What QUnit reads off, measures in and separates from single units is right for the whole register", "statement": "Prob and ProbParity of QUnit are the probabilities in the state of all qubits, though each is computed from single units. ForceM projects the state of all qubits on the outcome and normalises it; MAll, which measures qubit by qubit, yields every joint outcome with the probability of Born's rule. SeparateBit of a qubit with a certain value and TrySeparate leave the state as it is up to a phase, and afterwards a separated qubit shares its unit with no other. Every shot of MultiShotMeasureMask is a joint outcome of the listed qubits.", "quantifier": "every division of the qubits into full units of normalised states, every qubit, mask, outcome, phase and list of qubits, and every angle that TrySeparate may find", "why_tests_cant": "The result depends on how the qubits are spread over units and places, and statistical errors of joint outcomes do not show in tests of single qubits; the array version of the shots is right for registers that have not been split.", "anchors": ["src/qunit.cpp: QUnit::ProbBase", "src/qunit.cpp: QUnit::ProbParity", "src/qunit.cpp: QUnit::SeparateBit", "src/qunit.cpp: QUnit::ForceM", "src/qunit.cpp: QUnit::MAll", "src/qunit.cpp: QUnit::TrySeparate", "src/qunit.cpp: QUnit::MultiShotMeasureMask"]}
{"id": "C84", "title": "An addition appended to a circuit adds", "statement": "QCircuit::INC appends gates such that Run of the circuit does what the earlier gates do and then adds the number to the register modulo two to its length, leaving all other qubits alone, up to a phase, whatever the appended gates are merged or cancelled with.", "quantifier": "every history of appended gates, both merging modes, every addend, start and length", "why_tests_cant": "The appended gates merge with those before them in ways that depend on the whole history; a test runs one circuit.", "anchors": ["src/arithmetic_qcircuit.cpp: QCircuit::INC", "src/qcircuit.cpp: QCircuit::AppendGate"]}
{"id": "C85", "title": "Uniformly controlled gates of QUnit select the matrix by all controls", "statement": "QUnit::UniformlyControlledSingleBit applies, on each value of the control register, the matrix listed for that value (taking the skipped positions of the index into account), whatever controls are cached as |0> or |1> and whatever units the qubits are in; bad arguments are refused.", "quantifier": "every shard layout, cache, control list, target, list of matrices, state", "why_tests_cant": "The cached controls are cut out of the index and put back as a mask; tests do not reach the mixtures of cached and uncached controls in many units.", "anchors": ["src/qunit.cpp: QUnit::UniformlyControlledSingleBit", "src/qunit.cpp: QUnit::CheckBitsPermutation", "src/qunit.cpp: QUnit::GetCachedPermutation"]}
{"id": "C86", "title": "Operations of QUnit on ranges act on the qubits of the ranges", "statement": "EntangleRange (one, two or three ranges) and OrderContiguous leave the state as it is and put the qubits of each range side by side and in order into one unit; an arithmetic operation of the unit given the place of the first qubit of each range is then the operation on the registers of qubits, with or without controls, in one part or several.", "quantifier": "every shard layout, ranges, controls, operation, state", "why_tests_cant": "Places depend on the whole history of joining; a wrong place acts on another qubit only for some layouts.", "anchors": ["src/qunit.cpp: QUnit::EntangleRange", "src/qunit.cpp: QUnit::OrderContiguous", "src/qunit.cpp: QUnit::SortUnit", "src/qunit.cpp: QUnit::CMULEntangle", "src/qunit.cpp: QUnit::INT", "src/qunit.cpp: QUnit::INCx"]}
{"id": "C87", "title": "The calls of the C API that read a simulator report the quantities of the listed qubits, and Separate moves nothing", "statement": "For ids in any order and at any positions: ProbAll writes the probability of each number held by the listed qubits (first listed least significant) whether or not it takes the short route for the whole register; PermutationProb is the probability that every listed qubit has its listed value; PermutationExpectation and Variance are the average and variance of that number; FactorizedExpectation, FactorizedVariance and FactorizedExpectationFp are the average and variance of the sum of the listed weights, integers being written in words with the most significant first; PhaseParity and PhaseRootN turn by the parity and by the number of the listed qubits that are set; Separate of qubits that are a product with the rest leaves every qubit at its position.", "quantifier": "all engine states with at most 64 qubits, all lists of ids, all positions, all weights; Separate: all registers below 256 qubits", "why_tests_cant": "The lists, positions and weights are unbounded; the tests of the C API are a handful of calls, none of them after a release, and Separate is never compared with the state before it.", "anchors": ["src/pinvoke_api.cpp:1189-1206", "src/pinvoke_api.cpp:2480-2688", "src/pinvoke_api.cpp:3327-3352"]}
{"id": "C88", "title": "Taking a qubit out of a QUnit leaves every other qubit where it was", "statement": "After Dispose of a qubit of a QUnit, or Decompose of it into a register of one qubit, the index of every remaining qubit (moved down by one behind the qubit taken out) still refers to the same qubit, whatever units the qubits are in and at whatever places, and the destination refers to the qubit taken out.", "quantifier": "all registers, all distributions of the qubits over units and places, all qubits", "why_tests_cant": "The places of qubits in units depend on the whole history of gates, joins and separations; the tests decompose ranges of registers that were never permuted inside a unit, and never a single qubit from behind the second place of a unit whose rest is then looked at.", "anchors": ["src/qunit.cpp:280-409", "include/qengineshard.hpp:364-395", "include/qunit.hpp:209-236"]}
{"id": "C89", "title": "The norm measured by threads is the norm of the amplitudes above the floor, and normalising leaves norm one", "statement": "For any number of cores, any stride and any schedule of the workers, par_norm returns the sum of the squared moduli of exactly those amplitudes that reach the threshold. NormalizeState without arguments, on a state whose norm is not known, either clears a state whose remaining norm is negligible or leaves a state whose total norm differs from one by at most the tolerance plus the floor for each amplitude; with a recorded or given norm the total is the norm of what was not dropped divided by that norm, and with any threshold the state recorded as normalised has norm one.", "quantifier": "all states, all register sizes, all thresholds, tolerances, phases, core counts, strides and interleavings", "why_tests_cant": "Interleavings are not controlled by tests, registers in the tests are too small for more than one thread per stride, and the floor is zero or tiny there.", "anchors": ["src/common/parallel_for.cpp:214-319", "src/qengine/state.cpp:1679-1749"]}
{"id": "C90", "title": "The state set in a QUnit of one qubit is the state that is read, with fidelity one", "statement": "After SetQuantumState with any normalised pair of amplitudes on a QUnit of one qubit, the amplitudes read back are those that were set, whatever basis the shard holds them in, the estimate of the fidelity is one (within the separability threshold for states near an eigenstate of a Pauli operator), and no exception is thrown.", "quantifier": "all normalised pairs of complex amplitudes, all separability thresholds and fidelity limits", "why_tests_cant": "The states form a continuum and the special cases are isolated points of it up to a phase; the tests set two states, neither of which is an eigenstate of Y.", "anchors": ["src/qunit.cpp:146-193", "include/qunit.hpp:83-92", "include/qunit.hpp:830-930"]}
{"id": "C91", "title": "The difference of two QUnits is one minus their squared overlap", "statement": "For two QUnits of the same number of qubits, SumSqrDiff is one minus the squared modulus of the inner product of their states, whether it is read from cached values, from two amplitudes, or from the joined units; in particular a global phase makes no difference, and states that are found close are close.", "quantifier": "all pairs of normalised states of any number of qubits, all sets of cached qubits that agree with the state", "why_tests_cant": "States form a continuum, and which route is taken depends on which qubits happen to have cached values; no test compares one-qubit registers that differ by a phase.", "anchors": ["src/qunit.cpp:3779-3850", "src/qunit.cpp:898-924"]}
{"id": "C92", "title": "QUnitMulti finds the device of a unit and keeps every device within its limit", "statement": "For any list of devices and any units, the index that QUnitMulti computes for a unit refers to the device that the unit reports (the default device for a negative id); redistribution never reads outside of its lists, counts the size of each unit that it places once, and leaves the load of every device within its limit, or reports that it can not.", "quantifier": "all device lists with any ids and limits, all units of any size on any device, all settings of the environment", "why_tests_cant": "It needs several OpenCL devices and units spread over them; an access behind the end of a vector usually goes unnoticed.", "anchors": ["src/qunitmulti.cpp:193-274"]}
