{
 "claims": [
  {
   "property": "C01",
   "status": "proved",
   "theorems": [
    "Verif.ParFor.parForInc_calls",
    "Verif.ParFor.parForInc_at_most_once",
    "Verif.ParFor.parForInc_progress",
    "Verif.ParFor.parForInc_terminates",
    "Verif.ParFor.parForSkip_visits"
   ],
   "note": "Interleaving model of ParallelFor::par_for_inc over an arbitrary number of workers; exceptions thrown by the callback are not modelled."
  },
  {
   "property": "C02",
   "status": "proved",
   "theorems": [
    "Verif.ParFor.parForMask_visits",
    "Verif.ParFor.parForMask_disjoint",
    "Verif.ParFor.parForMask_calls",
    "Verif.ParFor.parForSkip_visits"
   ],
   "note": "par_for_mask and par_for_skip index maps."
  },
  {
   "property": "C40",
   "status": "partial",
   "theorems": [
    "Verif.BigInt.compare_correct",
    "Verif.BigInt.compare0_correct",
    "Verif.BigInt.compare1_correct",
    "Verif.BigInt.addIp_correct",
    "Verif.BigInt.subIp_correct",
    "Verif.BigInt.increment_correct",
    "Verif.BigInt.sub_add_cancel",
    "Verif.BigInt.opAdd_partial",
    "Verif.BigInt.opAdd_wrong",
    "Verif.BigInt.opSub_partial",
    "Verif.BigInt.opSub_wrong",
    "Verif.BigInt.decrement_partial",
    "Verif.BigInt.decrement_wrong",
    "Verif.BigInt.shl_correct",
    "Verif.BigInt.shr_correct",
    "Verif.BigInt.rshiftIp_correct",
    "Verif.BigInt.rshiftIp_out_of_bounds",
    "Verif.BigInt.lshiftIp_partial",
    "Verif.BigInt.lshiftIp_wrong",
    "Verif.BigInt.log2_correct",
    "Verif.BigInt.and_correct",
    "Verif.BigInt.or_correct",
    "Verif.BigInt.xor_correct",
    "Verif.BigInt.not_correct",
    "Verif.BigInt.mulHalf_correct",
    "Verif.BigInt.mul_zero_wrong",
    "Verif.BigInt.mul_zero_ne",
    "Verif.BigInt.mul_partial",
    "Verif.BigInt.mul_overflow_wrong",
    "Verif.BigInt.divSmall_correct",
    "Verif.BigInt.div_partial",
    "Verif.BigInt.div_congruence_partial",
    "Verif.BigInt.div_wrong"
   ],
   "note": "Every word width and word count. The code violates the property for operator+, operator-, bi_decrement, bi_lshift_ip, operator*, bi_div_mod; the *_wrong theorems prove it and the *_partial theorems give the operands on which they are right."
  },
  {
   "property": "C03",
   "status": "partial",
   "theorems": [
    "Verif.Engine.mtrx_gate",
    "Verif.Engine.eitherMtrx_gate",
    "Verif.Engine.ucMtrx_gate",
    "Verif.Engine.ucMtrx_invalid",
    "Verif.Engine.eitherMtrx_invalid",
    "Verif.Engine.mtrx_gate_norm",
    "Verif.Engine.runningNorm_wrong"
   ],
   "note": "Amplitudes of Mtrx, MCMtrx/MACMtrx and UCMtrx are exactly those of the controlled gate for every schedule of the parallel loop, every control list and permutation; bad control lists throw. Partial because the running norm reported afterwards is wrong for (anti)diagonal gates when doNormalize is set (runningNorm_wrong). Exact complex arithmetic."
  },
  {
   "property": "C04",
   "status": "proved",
   "theorems": [
    "Verif.Engine.ucMtrx_unitary",
    "Verif.Engine.eitherMtrx_unitary",
    "Verif.Engine.mtrx_unitary",
    "Verif.Engine.ucMtrx_inverse",
    "Verif.Engine.mtrx_inverse"
   ],
   "note": "Exact complex arithmetic; inner products preserved and the adjoint matrix undoes the gate."
  },
  {
   "property": "C05",
   "status": "proved",
   "theorems": [
    "Verif.Engine.ucMtrx_comm",
    "Verif.Engine.mtrx_comm"
   ],
   "note": "Gates on disjoint qubits commute exactly on every amplitude."
  },
  {
   "property": "C06",
   "status": "partial",
   "theorems": [
    "Verif.Engine.swapLike_exchange",
    "Verif.Engine.cswapLike_exchange",
    "Verif.Engine.antiCswapLike_exchange",
    "Verif.Engine.swap_swaps",
    "Verif.Engine.iswap_phase",
    "Verif.Engine.sqrtSwap_twice",
    "Verif.Engine.swapLike_inverse",
    "Verif.Engine.fsim_matrix_partial",
    "Verif.Engine.fsim_pi_wrong"
   ],
   "note": "Full for Swap, ISwap, IISwap, SqrtSwap, ISqrtSwap and the controlled forms. FSim holds unless cos(theta) = -1, where the code drops the -1 (fsim_pi_wrong)."
  },
  {
   "property": "C07",
   "status": "proved",
   "theorems": [
    "Verif.Engine.xMask_flips",
    "Verif.Engine.xMaskDefault_flips",
    "Verif.Engine.zMask_signs",
    "Verif.Engine.yMask_ys",
    "Verif.Engine.phaseParity_factor",
    "Verif.Engine.mask_invalid",
    "Verif.Engine.uniformParityRZ_partial",
    "Verif.Engine.popCount_wrong",
    "Verif.Engine.phaseRootNMask_partial",
    "Verif.Engine.phaseParityDefault_acts",
    "Verif.Engine.cUniformParityRZ_partial",
    "Verif.Engine.cUniformParityRZ_wrong"
   ],
   "note": "QEngineCPU XMask/PhaseParity and the QInterface XMask/ZMask/YMask loops over it, every schedule. UniformParityRZ and PhaseRootNMask, beyond the property, are right only for masks below qubit 32 in the C++14 build (popCount_wrong). The generic gate-level PhaseParity is proved too. CUniformParityRZ, also beyond the property, is right for controls outside of the mask."
  },
  {
   "property": "C50",
   "status": "proved",
   "theorems": [
    "Verif.Engine.uniformlyControlled_gate",
    "Verif.Engine.uniformlyControlledDefault_gate",
    "Verif.Engine.uniformlyControlled_invalid",
    "Verif.Engine.uniformlyControlled_norm_wrong"
   ],
   "note": "Engine loop and generic gate sequence, every control list, matrix family, skip set and schedule. The engine form is stated for doNormalize off or runningNorm = 1; otherwise the running norm it reports is wrong (uniformlyControlled_norm_wrong)."
  },
  {
   "property": "C41",
   "status": "partial",
   "theorems": [
    "Verif.Utils.log2Ocl_floor",
    "Verif.Utils.log2OclIntrinsic_floor",
    "Verif.Utils.log2OclIntrinsic_zero",
    "Verif.Utils.log2_partial",
    "Verif.Utils.log2_wrong",
    "Verif.Utils.popLoop_count",
    "Verif.Utils.pow2Mask_bits",
    "Verif.Utils.pow2Mask_full",
    "Verif.Utils.bitRegMask_bits",
    "Verif.Utils.isPowerOfTwo_correct",
    "Verif.Utils.isBadBitRange_correct",
    "Verif.Utils.throwIfBad_correct",
    "Verif.Utils.intPow_correct",
    "Verif.Utils.pushApart_bits",
    "Verif.Utils.print_diverges",
    "Verif.Utils.parse_value",
    "Verif.Engine.popCount_wrong"
   ],
   "note": "Right: log2Ocl, the portable popcount, masks, intPow, pushApartBits, range checks, decimal input. Wrong in the code: log2 of a 128-bit bitCapInt (log2_wrong), popCountOcl before C++20 (popCount_wrong), decimal output, which never terminates (print_diverges)."
  },
  {
   "property": "C49",
   "status": "proved",
   "theorems": [
    "Verif.Circ.and_writes",
    "Verif.Circ.or_writes",
    "Verif.Circ.xor_writes",
    "Verif.Circ.xor_inplace",
    "Verif.Circ.nand_writes",
    "Verif.Circ.nor_writes",
    "Verif.Circ.xnor_writes",
    "Verif.Circ.and_or_alias",
    "Verif.Circ.xor_self",
    "Verif.Circ.classical_writes",
    "Verif.Circ.classical_negated",
    "Verif.Circ.cland_alias_wrong"
   ],
   "note": "Gate-level AND/OR/XOR/NAND/NOR/XNOR and the classical-input forms, run on the state vector engine, every placement of the qubits. In-place CLAND(q, false, q), outside the property, does not clear q (cland_alias_wrong)."
  },
  {
   "property": "C17",
   "status": "partial",
   "theorems": [
    "Verif.Circ.fullAdd_adds",
    "Verif.Circ.iFullAdd_undoes",
    "Verif.Circ.cFullAdd_adds",
    "Verif.Circ.ciFullAdd_undoes",
    "Verif.Circ.iadc_undoes",
    "Verif.Circ.ciadc_undoes",
    "Verif.Circ.adc_one_partial",
    "Verif.Circ.adc_low_bit",
    "Verif.Circ.adc_wrong",
    "Verif.Engine.fullAddE_adds",
    "Verif.Engine.iFullAddE_subtracts",
    "Verif.Engine.iFullAddE_undoes",
    "Verif.Engine.fullAddE_invalid"
   ],
   "note": "Gate-level and engine full adders and their inverses are right. ADC of registers of two or more qubits is wrong in the code (adc_wrong); IADC still undoes ADC."
  },
  {
   "property": "C18",
   "status": "proved",
   "theorems": [
    "Verif.Circ.inc_gates_add",
    "Verif.Circ.cinc_gates_add",
    "Verif.Circ.dec_gates_undo",
    "Verif.Engine.inc_gates_eq"
   ],
   "note": "The ripple-carry circuits of QInterface::INC, CINC and DEC add modulo 2^length on every basis state and every superposition."
  },
  {
   "property": "C08",
   "status": "proved",
   "theorems": [
    "Verif.Engine.inc_adds",
    "Verif.Engine.inc_permutes",
    "Verif.Engine.dec_subtracts",
    "Verif.Engine.dec_undoes_inc",
    "Verif.Engine.inc_invalid",
    "Verif.Engine.phaseFlipIfLess_flips"
   ],
   "note": "Engine INC/DEC add and subtract modulo 2^length for every register placement, addend and schedule; DEC undoes INC; bad ranges throw."
  },
  {
   "property": "C09",
   "status": "proved",
   "theorems": [
    "Verif.Engine.cinc_adds",
    "Verif.Engine.cdec_undoes_cinc",
    "Verif.Engine.cinc_invalid",
    "Verif.Engine.cPhaseFlipIfLess_flips",
    "Verif.Circ.cinc_gates_add",
    "Verif.Circ.cdec_gates_undo"
   ],
   "note": "Engine CINC/CDEC, every control list, plus the gate-level form."
  },
  {
   "property": "C10",
   "status": "partial",
   "theorems": [
    "Verif.Engine.incdecc_adds",
    "Verif.Engine.incdecc_injective",
    "Verif.Engine.incc_adds_partial",
    "Verif.Engine.incc_wrong",
    "Verif.Engine.decc_subtracts_partial",
    "Verif.Engine.decc_wrong",
    "Verif.Circ.incdecc_default_wrong",
    "Verif.Circ.incdecc_default_partial"
   ],
   "note": "The engine kernel adds with carry. INCC(2^n-1) and DECC(0) with the carry set lose the carry (incc_wrong, decc_wrong); the generic QInterface form writes its carry to the wrong place (incdecc_default_wrong)."
  },
  {
   "property": "C11",
   "status": "proved",
   "theorems": [
    "Verif.Engine.isOverflowAdd_correct",
    "Verif.Engine.isOverflowSub_correct",
    "Verif.Engine.incs_adds",
    "Verif.Engine.incdecsc_adds",
    "Verif.Engine.decs_min_wrong",
    "Verif.Engine.incsc_carry_wrong",
    "Verif.Engine.decs_subtracts_partial",
    "Verif.Engine.incsc_adds_partial",
    "Verif.Engine.decsc_subtracts_partial"
   ],
   "note": "Overflow tests agree with twos-complement overflow for every word size; INCS flips the phase exactly on overflow. DECS of the minimum and INCSC with a set carry and the maximum addend fall outside of the property and are shown wrong; the partial theorems give exactly the inputs on which DECS, INCSC and DECSC are right."
  },
  {
   "property": "C12",
   "status": "partial",
   "theorems": [
    "Verif.Engine.mul_product",
    "Verif.Engine.div_reads",
    "Verif.Engine.div_undoes_mul",
    "Verif.Engine.mul_large_collides",
    "Verif.Engine.mulModNOut_product",
    "Verif.Engine.iMulModNOut_undoes",
    "Verif.Engine.powModNOut_partial",
    "Verif.Engine.powModNOut_wrong",
    "Verif.Circ.mulModNOut_default_wrong"
   ],
   "note": "MUL, DIV, MULModNOut, IMULModNOut proved. POWModNOut is right only while the power fits 64 bits (powModNOut_wrong); the generic gate-level MULModNOut is wrong (mulModNOut_default_wrong)."
  },
  {
   "property": "C13",
   "status": "partial",
   "theorems": [
    "Verif.Engine.cmul_product",
    "Verif.Engine.cmul_zero_wrong",
    "Verif.Engine.cdiv_reads_partial",
    "Verif.Engine.cdiv_wrong",
    "Verif.Engine.cdiv_undoes_cmul",
    "Verif.Engine.cMulModNOut_product",
    "Verif.Engine.ciMulModNOut_undoes",
    "Verif.Engine.cPowModNOut_partial"
   ],
   "note": "CMUL by a nonzero factor, CDIV on clear carries, CMULModNOut and CIMULModNOut proved. CMUL by zero ignores its controls (cmul_zero_wrong); CDIV drops amplitudes with a nonzero carry and unset controls (cdiv_wrong)."
  },
  {
   "property": "C14",
   "status": "partial",
   "theorems": [
    "Verif.Engine.indexedLDA_loads",
    "Verif.Engine.indexedADC_adds",
    "Verif.Engine.indexedSBC_partial",
    "Verif.Engine.indexedSBC_wrong"
   ],
   "note": "LDA and ADC proved for every table. SBC skips valueLength bits at the carry instead of one and loses amplitudes (indexedSBC_wrong); the partial theorem gives the states on which it is right."
  },
  {
   "property": "C15",
   "status": "proved",
   "theorems": [
    "Verif.Engine.hash_looks_up",
    "Verif.Engine.hash_inverse"
   ],
   "note": "Hash moves every amplitude to the table entry and the inverse table undoes it."
  },
  {
   "property": "C16",
   "status": "partial",
   "theorems": [
    "Verif.Circ.rol_gates_rotate",
    "Verif.Circ.ror_gates_rotate",
    "Verif.Circ.ror_rol_cancel",
    "Verif.Circ.ror_undoes_rol",
    "Verif.Circ.rolE_rotates",
    "Verif.Circ.rol_gates_eq",
    "Verif.Circ.rolE_invalid",
    "Verif.Circ.lsl_shifts",
    "Verif.Circ.lsr_shifts",
    "Verif.Circ.asr_clears_sign",
    "Verif.Circ.asl_moves_sign",
    "Verif.Circ.shift_sign_wrong"
   ],
   "note": "Rotations (gate level and engine) and logical shifts proved. The code violates the arithmetic-shift part: ASR always clears the top bit and ASL overwrites it (asr_clears_sign, asl_moves_sign). Shifts are stated on basis states because SetReg measures."
  },
  {
   "property": "C26",
   "status": "proved",
   "theorems": [
    "Verif.Stab.gate_stabilises",
    "Verif.Stab.gate_throws",
    "Verif.Stab.gate_throws_one",
    "Verif.Stab.rowCNOT_conj",
    "Verif.Stab.rowAntiCNOT_conj",
    "Verif.Stab.rowCY_conj",
    "Verif.Stab.rowAntiCY_conj",
    "Verif.Stab.rowCZ_conj",
    "Verif.Stab.rowAntiCZ_conj",
    "Verif.Stab.rowSwap_conj",
    "Verif.Stab.rowISwap_conj",
    "Verif.Stab.rowIISwap_conj",
    "Verif.Stab.rowH_conj",
    "Verif.Stab.rowX_conj",
    "Verif.Stab.rowY_conj",
    "Verif.Stab.rowZ_conj",
    "Verif.Stab.rowS_conj",
    "Verif.Stab.rowIS_conj",
    "Verif.Stab.setPermutation_stabilises"
   ],
   "note": "Every gate on distinct qubits, every row and state, signs included; mode with untracked global phase."
  },
  {
   "property": "C27",
   "status": "proved",
   "theorems": [
    "Verif.Stab.history_inv",
    "Verif.Stab.history_commute",
    "Verif.Stab.history_independent",
    "Verif.Stab.gate_inv",
    "Verif.Stab.forceM_inv",
    "Verif.Stab.setPermutation_inv"
   ],
   "note": "Induction over histories of gates, measurements and read-outs from any permutation state. Compose, Decompose and Dispose are not among the calls."
  },
  {
   "property": "C28",
   "status": "proved",
   "theorems": [
    "Verif.Stab.measure_random",
    "Verif.Stab.random_possible",
    "Verif.Stab.measure_determined",
    "Verif.Stab.measure_look",
    "Verif.Stab.prob_born",
    "Verif.Stab.equal_weight"
   ],
   "note": "Random outcomes: equal weights and projection; determined outcomes: value of every stabilised state; Prob is the Born probability."
  },
  {
   "property": "C29",
   "status": "proved",
   "theorems": [
    "Verif.Stab.rowmult_op",
    "Verif.Stab.rowmult_phase",
    "Verif.Stab.rowmult_unique",
    "Verif.Stab.op_inj",
    "Verif.Stab.rows_commute_iff"
   ],
   "note": "The stored row is the operator product with its power of i, and is the only row that is."
  },
  {
   "property": "C30",
   "status": "proved",
   "theorems": [
    "Verif.Stab.mtrx_good",
    "Verif.Stab.phase_good",
    "Verif.Stab.invert_good",
    "Verif.Stab.mcPhase_good",
    "Verif.Stab.mcInvert_good",
    "Verif.Stab.mcMtrx_good",
    "Verif.Stab.clifford_accepted",
    "Verif.Stab.only_clifford",
    "Verif.Stab.two_controls_refused"
   ],
   "note": "Every complex matrix and every control list. Accepted calls act as the given matrix up to a factor, refused calls change nothing; exactly the Clifford matrices are accepted on qubits outside Z eigenstates. Comparisons are exact (tolerance zero)."
  },
  {
   "property": "C42",
   "status": "partial",
   "theorems": [
    "Verif.Matrix2.mul2x2_mat",
    "Verif.Matrix2.mul2x2Plain_mat",
    "Verif.Matrix2.inv2x2_inverse",
    "Verif.Matrix2.inv2x2_none",
    "Verif.Matrix2.inv2x2_unitary",
    "Verif.Matrix2.exp2x2_diag_partial",
    "Verif.Matrix2.log2x2_diag_partial",
    "Verif.Matrix2.exp2x2_adjugate",
    "Verif.Matrix2.log2x2_adjugate",
    "Verif.Matrix2.exp2x2_defined",
    "Verif.Matrix2.exp2x2_wrong"
   ],
   "note": "Product (four-lane arithmetic included) and inverse proved. The code violates the exponential and logarithm part: off the diagonal matrices the result is that of the adjugate (exp2x2_adjugate, log2x2_adjugate; witness exp2x2_wrong)."
  },
  {
   "property": "C48",
   "status": "proved",
   "theorems": [
    "Verif.SwapMap.swaps_label",
    "Verif.SwapMap.swaps_bijective",
    "Verif.SwapMap.map_bits",
    "Verif.SwapMap.inverseMap_bits",
    "Verif.SwapMap.map_inverseMap",
    "Verif.SwapMap.swap_out_of_range"
   ],
   "note": "Every history of swaps, up to the 128 qubits that a bitCapInt can index."
  },
  {
   "property": "C43",
   "status": "partial",
   "theorems": [
    "Verif.Capi.history_partial",
    "Verif.Capi.call_tracks",
    "Verif.Capi.fill_tracks",
    "Verif.Capi.dispose_wrong",
    "Verif.Capi.alias_wrong",
    "Verif.Capi.clone_wrong"
   ],
   "note": "Histories of allocation, release, relocation, Compose, and Dispose/Decompose of qubits at the end of the register. The code violates the rest: Dispose([0]) of three qubits exchanges ids (dispose_wrong), ids from 256 on alias (alias_wrong), a clone does not inherit the id map (clone_wrong)."
  },
  {
   "property": "C44",
   "status": "partial",
   "theorems": [
    "Verif.Capi.mapArithmetic_tracks",
    "Verif.Capi.mapArithmetic_partial",
    "Verif.Capi.increasing_ok",
    "Verif.Capi.mapArithmetic_wrong",
    "Verif.Capi.mapArithmetic3_tracks",
    "Verif.Capi.mapArithmetic3_partial",
    "Verif.Capi.mapArithmetic3_wrong"
   ],
   "note": "Exact when no listed qubit sits at the destination of an earlier one, in particular for increasing positions. The code violates the claim otherwise (positions [1,0]; interleaved registers)."
  },
  {
   "property": "C47",
   "status": "partial",
   "theorems": [
    "Verif.Capi.combineA_partial",
    "Verif.Capi.combineA_big_first",
    "Verif.Capi.combineA_big_wrong",
    "Verif.Capi.combineA_native_undefined",
    "Verif.Capi.combineA_native_refused",
    "Verif.Capi.combineA_big_refused"
   ],
   "note": "The code shifts by the full width instead of one word: undefined for native 128-bit integers, and only the first word survives with BigInteger. Exact only when the higher words are zero."
  },
  {
   "property": "C46",
   "status": "partial",
   "theorems": [
    "Verif.CapiTable.issued_iff",
    "Verif.CapiTable.rejected_partial",
    "Verif.CapiTable.issued_defined",
    "Verif.CapiTable.create_reports",
    "Verif.CapiTable.size_wrong",
    "Verif.CapiTable.destroy_wrong",
    "Verif.CapiTable.getError_wrong"
   ],
   "note": "Every history of creations: ids beyond the size are rejected; the code reads out of bounds for the id equal to the size, and destroy and get_error do not check at all."
  },
  {
   "property": "C45",
   "status": "partial",
   "theorems": [
    "Verif.CapiLock.no_deadlock_partial",
    "Verif.CapiLock.no_deadlock_without_compose",
    "Verif.CapiLock.progress_partial",
    "Verif.CapiLock.compose_deadlock",
    "Verif.CapiLock.compose_self"
   ],
   "note": "Any number of callers and any schedule without Compose, or with Compose calls in one order. The code violates the claim for Compose(a,b) with Compose(b,a), and for Compose(a,a)."
  },
  {
   "property": "C39",
   "status": "partial",
   "theorems": [
    "Verif.Dispatch.once_in_order",
    "Verif.Dispatch.plain_order",
    "Verif.Dispatch.finish_waits_partial",
    "Verif.Dispatch.no_lost_wakeup",
    "Verif.Dispatch.finish_after_dump"
   ],
   "note": "All interleavings of any number of callers and the worker: at most once, in order, one at a time, nothing lost but what dump and the destructor drop, no lost wakeup. finish waits for all tasks unless dump was used; after dump it returns while a task still runs (finish_after_dump)."
  },
  {
   "property": "C31",
   "status": "partial",
   "theorems": [
    "Verif.QCirc.append_history_partial",
    "Verif.QCirc.append_uncollapsed",
    "Verif.QCirc.runOps_meaning",
    "Verif.QCirc.ucMtrx_engine",
    "Verif.QCirc.uniform_engine",
    "Verif.QCirc.swap_engine",
    "Verif.QCirc.swapGates_act",
    "Verif.QCirc.swap_constructor_dropped",
    "Verif.QCirc.uncollapsed_count_wrong"
   ],
   "note": "Histories of collapsing appends of single and multiplexed gates (near-Clifford mode included): the calls made by Run act as the appended gates up to a global phase, and the qubit count covers every gate; gates appended without collapsing are replayed as they are; each call is connected to the dense engine model. The code violates the rest: a gate of the Swap constructor is dropped by the collapsing append, and without collapsing the qubit count is not updated."
  },
  {
   "property": "C32",
   "status": "proved",
   "theorems": [
    "Verif.QCirc.inverse_undoes",
    "Verif.QCirc.inverse_inverse"
   ],
   "note": "Every circuit of unitary (multiplexed or swap) gates: running the inverse after the circuit is the identity."
  },
  {
   "property": "C33",
   "status": "proved",
   "theorems": [
    "Verif.QCirc.pastLightCone_prob",
    "Verif.QCirc.rho_lightCone"
   ],
   "note": "Every circuit, every set of qubits, every initial state: reduced density matrices and joint probabilities agree."
  },
  {
   "property": "C34",
   "status": "partial",
   "theorems": [
    "Verif.QCirc.postSelect_run_partial",
    "Verif.QCirc.deletePhaseTarget_run_partial",
    "Verif.QCirc.postSelect_swaps",
    "Verif.QCirc.postSelect_null",
    "Verif.QCirc.deletePhaseTarget_wrong"
   ],
   "note": "Post-selection proved where every gate keeps a payload; the code violates the claim when a gate loses its last payload (the empty gate is run as a swap, or dereferences null), and DeletePhaseTarget removes controlled phases."
  },
  {
   "property": "C20",
   "status": "proved",
   "theorems": [
    "Verif.Engine.prob_spec",
    "Verif.Engine.probPlain_spec",
    "Verif.Engine.forceM_projects",
    "Verif.Engine.forceM_repeats",
    "Verif.Engine.forceM_born",
    "Verif.Engine.forceM_look",
    "Verif.Engine.forceM_bounds"
   ],
   "note": "State vector engine, exact arithmetic. The random draw and the random global phase are parameters; forceM_born measures the set of draws giving each outcome."
  },
  {
   "property": "C21",
   "status": "partial",
   "theorems": [
    "Verif.Engine.forceMBits_measures",
    "Verif.Engine.forceMBits_born",
    "Verif.Engine.forceMBits_forced_partial",
    "Verif.Engine.forceMReg_measures",
    "Verif.Engine.forceMReg_forced",
    "Verif.Engine.forceMReg_born",
    "Verif.Engine.mAll_measures",
    "Verif.Engine.mAll_born",
    "Verif.Engine.forceMRegDefault_measures",
    "Verif.Engine.forceMParity_measures",
    "Verif.Engine.forceMBits_single_wrong",
    "Verif.Engine.forceMBits_apply_wrong",
    "Verif.Engine.forceMReg_zero_draw_wrong"
   ],
   "note": "Measurement of registers, bit lists, all qubits and parities. Forcing a one-element bit list is ignored by the code, forced values ignore doApply, and a draw of exactly 0 returns all ones from ForceMReg; all three are proved as negations."
  },
  {
   "property": "C22",
   "status": "partial",
   "theorems": [
    "Verif.Engine.probReg_spec",
    "Verif.Engine.regProb_total",
    "Verif.Engine.probRegAll_spec",
    "Verif.Engine.probMask_spec",
    "Verif.Engine.probMaskDefault_spec",
    "Verif.Engine.probMaskAll_spec",
    "Verif.Engine.probBitsAll_spec",
    "Verif.Engine.probBitsAll_total",
    "Verif.Engine.ctrlOrAntiProb_spec",
    "Verif.Engine.probParity_spec",
    "Verif.Engine.probRegDefault_partial",
    "Verif.Engine.probRegDefault_wrong",
    "Verif.CtrlProb.ctrlOrAntiProb_keeps",
    "Verif.CtrlProb.ctrlOrAntiProb_is",
    "Verif.CtrlProb.ctrlOrAntiProb_partial",
    "Verif.CtrlProb.ctrlOrAntiProb_wrong"
   ],
   "note": "Every marginal of the state vector engine; the inherited CProb and ACProb (QPager) are not conditional probabilities unless the control is certain; the default QInterface::ProbReg shifts the wrong way and is only right for value 0 or length = start; the negation is proved."
  },
  {
   "property": "C23",
   "status": "partial",
   "theorems": [
    "Verif.Engine.expectationBits_spec",
    "Verif.Engine.varianceBits_spec",
    "Verif.Engine.expVarBitsAll_spec",
    "Verif.Engine.expectationFloats_spec",
    "Verif.Engine.varianceFloats_partial",
    "Verif.Engine.getExpectation_spec",
    "Verif.Engine.expectationPauli_partial",
    "Verif.Engine.varianceFloats_wrong",
    "Verif.Engine.expectation_empty_wrong",
    "Verif.Engine.expectationPauli_sum_wrong",
    "Verif.Engine.expectationPauli_identity_wrong"
   ],
   "note": "Expectation values are proved for integer and real weights, variances for integer weights; the real-weight variance is right for one qubit only, and the Pauli product expectation is a sum of eigenvalues; negations proved."
  },
  {
   "property": "C53",
   "status": "partial",
   "theorems": [
    "Verif.Engine.multiShot_samples",
    "Verif.Engine.engineShot_born",
    "Verif.Engine.multiShotArray_partial",
    "Verif.Engine.multiShot_refuses",
    "Verif.Engine.multiShotDefault_samples",
    "Verif.Engine.multiShotDefaultArray_partial",
    "Verif.Engine.multiShotArray_wrong",
    "Verif.Engine.multiShotDefaultArray_wrong"
   ],
   "note": "Engine and default versions. The array versions convert every sample to a 32-bit unsigned, so they are wrong from 33 listed qubits on (proved)."
  },
  {
   "property": "C35",
   "status": "partial",
   "theorems": [
    "Verif.Pager.paged_eq_flat_partial",
    "Verif.Pager.paged_controlled_partial",
    "Verif.Pager.paged_mtrx",
    "Verif.Pager.paged_xMask",
    "Verif.Pager.regroup_keeps",
    "Verif.Pager.combine_count",
    "Verif.Pager.control_eight_wrong",
    "Verif.Pager.paged_controlled_wrong",
    "Verif.Pager.phaseParity_zero_wrong",
    "Verif.Pager.paged_prob",
    "Verif.Pager.paged_forceM_flat",
    "Verif.Pager.paged_forceM_projects",
    "Verif.Pager.paged_forceM_born",
    "Verif.Pager.paged_probMask",
    "Verif.Pager.paged_expVar_wrong"
   ],
   "note": "Any sequence of gates, swaps, masks and regroupings agrees with the flat register, for every page size. Excluded: controls or swap partners eight or more qubits above the page size of a target inside of the pages, where the code applies the gate on the wrong pages (proved), and an empty parity mask (global phase, proved). Prob, ForceM and ProbMask agree with the flat register. ExpectationBitsAll of every qubit throws on two or more pages (proved)."
  },
  {
   "property": "C36",
   "status": "partial",
   "theorems": [
    "Verif.Pager.setPermutation_state",
    "Verif.Pager.construct_setPermutation_partial",
    "Verif.Pager.construct_wrong"
   ],
   "note": "SetPermutation is right. The constructor ignores the requested permutation and leaves every amplitude zero; the negation is proved for every size and permutation."
  },
  {
   "property": "C19",
   "status": "proved",
   "theorems": [
    "Verif.Engine.qft_is_dft",
    "Verif.Engine.iqft_is_dft",
    "Verif.Engine.qftr_is_dft",
    "Verif.Engine.iqftr_is_dft",
    "Verif.Engine.iqft_qft",
    "Verif.Engine.qft_iqft",
    "Verif.Engine.iqftr_qftr",
    "Verif.Engine.qftr_iqftr",
    "Verif.Engine.qft_basis"
   ],
   "note": "State vector engine, every register and list of distinct qubits, every schedule. The bit order is explicit: QFT is the discrete Fourier transform followed by reversing the qubits. The sign of std::pow(-1, x) is a parameter s; automatic normalisation off."
  },
  {
   "property": "C24",
   "status": "partial",
   "theorems": [
    "Verif.Engine.compose_tensor",
    "Verif.Engine.compose_empty",
    "Verif.Engine.composeAt_tensor",
    "Verif.Engine.composeAt_invalid",
    "Verif.Engine.composeAt_normalised",
    "Verif.Engine.composeMany_tensor",
    "Verif.Engine.decompose_marginals",
    "Verif.Engine.decompose_partial",
    "Verif.Engine.dispose_marginals",
    "Verif.Engine.dispose_partial",
    "Verif.Engine.decompose_compose_partial",
    "Verif.Engine.decompose_wrong",
    "Verif.Engine.disposePerm_keeps_partial",
    "Verif.Engine.disposePerm_all_wrong"
   ],
   "note": "Compose of engines (at the end, at an index, of a list) is the tensor product. Decompose gives the right marginals always, and the factors of a product state provided that the sums of phases do not wrap; it splits |-->  into |++>, orthogonal to the original (proved). Dispose of every qubit with a permutation leaves a one-qubit register (proved)."
  },
  {
   "property": "C25",
   "status": "partial",
   "theorems": [
    "Verif.Engine.run_separate",
    "Verif.Engine.run_other",
    "Verif.Engine.history_other",
    "Verif.Engine.clone_same",
    "Verif.Engine.clone_independent",
    "Verif.Engine.copy_aliases",
    "Verif.Engine.copy_norm_wrong"
   ],
   "note": "Heap model with one cell per array. Clone is independent for every later history of operations. Copy() shares the array with the original and has running norm zero; both negations are proved."
  },
  {
   "property": "C51",
   "status": "not_applicable",
   "theorems": [],
   "note": "The pinned commit has a single state vector class (StateVectorArray); there is no sparse class to compare it with."
  },
  {
   "property": "C55",
   "status": "partial",
   "theorems": [
    "Verif.Engine.isBadPermRange_iff",
    "Verif.Engine.setAmplitudePage_writes",
    "Verif.Engine.amplitudePage_invalid",
    "Verif.Engine.getAmplitudePage_reads",
    "Verif.Engine.setAmplitudePageFrom_copies",
    "Verif.Engine.setAmplitude_partial",
    "Verif.Engine.setAmplitude_crash",
    "Verif.Engine.setPermutation_basis",
    "Verif.Engine.getQuantumState_set",
    "Verif.Engine.getQuantumState_set_normalised",
    "Verif.Engine.getProbs_spec"
   ],
   "note": "State vector engine, every schedule, also for released arrays. SetAmplitude of a nonzero value on a released array dereferences a null pointer (proved); it is right otherwise."
  },
  {
   "property": "C56",
   "status": "partial",
   "theorems": [
    "Verif.Engine.sumSqrDiff_inner",
    "Verif.Engine.sumSqrDiff_range",
    "Verif.Engine.sumSqrDiff_zero_iff",
    "Verif.Engine.tryDecompose_sound_partial",
    "Verif.Engine.tryDecompose_exact",
    "Verif.Engine.tryDecompose_incomplete",
    "Verif.Engine.copy_norm_wrong"
   ],
   "note": "State vector engine, every schedule and tolerance. TryDecompose is sound with automatic normalisation off; with it on, the copy that it works on has running norm zero and loses the state (copy_norm_wrong). It refuses some separable states, because Decompose gets the phases wrong (proved)."
  },
  {
   "property": "C52",
   "status": "partial",
   "theorems": [
    "Verif.Phase.phase_buffered",
    "Verif.Phase.invert_buffered",
    "Verif.Phase.h_buffered",
    "Verif.Phase.mtrx_buffered",
    "Verif.Phase.ucPhase_buffered",
    "Verif.Phase.ucInvert_buffered",
    "Verif.Phase.controlled_buffered",
    "Verif.Phase.revert_buffered",
    "Verif.Phase.history_buffered",
    "Verif.Phase.flush_buffered",
    "Verif.Phase.prob_buffered",
    "Verif.Phase.forceM_buffered",
    "Verif.Phase.mAll_buffered",
    "Verif.Phase.flushEigenstate_buffered",
    "Verif.Phase.commutePhase_buffer",
    "Verif.Phase.commutePhase_mixed",
    "Verif.Phase.toPermBasisMeasure_loses"
   ],
   "note": "Every history of single-qubit gates, singly and multiply controlled gates, probabilities and measurements, every order of the buffer maps: after a flush the state vector is that of direct simulation. Partial because ForceM without applying loses pending phase gates (negation proved), and because the Pauli basis of shards, entangling and separating of units, and TrimControls are not modelled."
  },
  {
   "property": "C54",
   "status": "partial",
   "theorems": [
    "Verif.TN.gates_direct",
    "Verif.TN.setPermutation_direct",
    "Verif.TN.prob_direct",
    "Verif.TN.amplitude_direct",
    "Verif.TN.prob_cone",
    "Verif.TN.append_partial",
    "Verif.TN.forceM_partial",
    "Verif.TN.first_forceM",
    "Verif.TN.history_terminal",
    "Verif.TN.history_unmeasured",
    "Verif.TN.history_partial",
    "Verif.TN.lateGate_wrong",
    "Verif.TN.collapse_wrong",
    "Verif.TN.coneMeasured_wrong"
   ],
   "note": "Every history of gates and reads for networks of any size; every history of gates, measurements and reads below the size threshold as long as no gate touches a measured qubit; beyond that, under conditions that exclude three defects of the code, each proved as a counterexample."
  },
  {
   "property": "C37",
   "status": "partial",
   "theorems": [
    "Verif.Bdt.setPermutation_spec",
    "Verif.Bdt.setQuantumState_spec",
    "Verif.Bdt.mtrx_spec",
    "Verif.Bdt.mcMtrx_spec",
    "Verif.Bdt.mcMtrx_unmatched",
    "Verif.Bdt.swap_spec",
    "Verif.Bdt.macMtrx_partial",
    "Verif.Bdt.macMtrx_single_partial",
    "Verif.Bdt.macMtrx_iff",
    "Verif.Bdt.macMtrx_gap_wrong",
    "Verif.Bdt.circuit_partial"
   ],
   "note": "Controlled gates are right for every matrix, target, set of controls and tree. Anti-controlled gates are right for phase gates, inversions and one control; otherwise exactly if the qubits other than the greatest one are consecutive, and the negation is proved for all others."
  },
  {
   "property": "C38",
   "status": "partial",
   "theorems": [
    "Verif.Bdt.prob_spec",
    "Verif.Bdt.probAll_spec",
    "Verif.Bdt.forceM_result",
    "Verif.Bdt.forceM_forced",
    "Verif.Bdt.forceM_peek",
    "Verif.Bdt.forceM_iff",
    "Verif.Bdt.forceM_partial",
    "Verif.Bdt.forceM_first_partial",
    "Verif.Bdt.forceM_bell_wrong",
    "Verif.Bdt.mAll_spec"
   ],
   "note": "Prob and MAll are right. ForceM collapses the state if and only if the qubit is independent of the qubits below it; the negation is proved for a Bell pair."
  },
  {
   "property": "C57",
   "status": "partial",
   "theorems": [
    "Verif.Bdt.compose_partial",
    "Verif.Bdt.compose_inside",
    "Verif.Bdt.compose_inside_wrong"
   ],
   "note": "Right at the end of the register. Before the end the qubits from the place on are dropped, for every pair of states; concrete counterexample proved."
  },
  {
   "property": "C58",
   "status": "partial",
   "theorems": [
    "Verif.Race.raceFree_deterministic",
    "Verif.Race.apply2x2_raceFree",
    "Verif.Race.apply2x2_interleaved",
    "Verif.Race.controlled_interleaved",
    "Verif.Race.xMask_interleaved",
    "Verif.Race.phaseParity_interleaved",
    "Verif.Race.applyM_interleaved",
    "Verif.Race.uniformlyControlled_interleaved",
    "Verif.Race.copy_interleaved",
    "Verif.Race.inc_interleaved",
    "Verif.Race.decompose_races",
    "Verif.Race.decompose_loses",
    "Verif.Race.decompose_wrong_interleaving"
   ],
   "note": "Every interleaving of single reads and writes, for the loops of gates, masks, parity phases, uniformly controlled gates, collapse and copying arithmetic. DecomposeDispose adds to shared angles without synchronisation: any two of its calls race, and an interleaving that loses an angle is exhibited for every such state."
  },
  {
   "property": "C59",
   "status": "proved",
   "theorems": [
    "Verif.Ocl.setDevice_ok",
    "Verif.Ocl.launch_sizes",
    "Verif.Ocl.run_perm",
    "Verif.Ocl.launch_covers",
    "Verif.Ocl.wide_covers",
    "Verif.Ocl.groups_fit",
    "Verif.Ocl.reduce_sum",
    "Verif.Ocl.sumLocal_three",
    "Verif.Ocl.spread_exact",
    "Verif.Ocl.spread_one",
    "Verif.Ocl.spread_two"
   ],
   "note": "Every device description, range and interleaving of the work-items; sumLocal_three shows why the group size must be a power of two."
  },
  {
   "property": "C60",
   "status": "partial",
   "theorems": [
    "Verif.Ocl.isIdentity_iff",
    "Verif.Ocl.mtrx_gate",
    "Verif.Ocl.mtrx_gate_plain",
    "Verif.Ocl.mtrx_engines_agree",
    "Verif.Ocl.runningNorm_right",
    "Verif.Ocl.gateX_flips",
    "Verif.Ocl.gateZ_signs",
    "Verif.Ocl.invert_gate",
    "Verif.Ocl.phase_gate",
    "Verif.Ocl.updateRunningNorm_total",
    "Verif.Ocl.eitherMtrx_gate",
    "Verif.Ocl.ucMtrx_gate",
    "Verif.Ocl.ucMtrx_invalid",
    "Verif.Ocl.eitherMtrx_invalid",
    "Verif.Ocl.swapLike_exchange",
    "Verif.Ocl.cswapLike_exchange",
    "Verif.Ocl.threshold_ignored",
    "Verif.Ocl.floor_ignored",
    "Verif.Ocl.pending_engines_differ",
    "Verif.Ocl.xMask_flips",
    "Verif.Ocl.zMask_signs",
    "Verif.Ocl.phaseParity_factor",
    "Verif.Ocl.phaseRootNMask_factor",
    "Verif.Ocl.uniformParityRZ_factor",
    "Verif.Ocl.uniformParityRZ_norm",
    "Verif.Ocl.uniformParityRZ_unknown_wrong",
    "Verif.Ocl.cUniformParityRZ_factor",
    "Verif.Ocl.cUniformParityRZ_norm_wrong",
    "Verif.Ocl.uniformlyControlled_gate",
    "Verif.Ocl.normalizeState_unit"
   ],
   "note": "Gates, controlled gates, swap-like gates, mask, parity and uniformly controlled gates and normalisation, for every kernel choice, left-over buffer and interleaving. Partial because the norm threshold is ignored by the kernels, because the two engines apply a pending normalisation at different times, and because CUniformParityRZ (and UniformParityRZ with an unknown norm) leave a wrong running norm (negations proved)."
  },
  {
   "property": "C61",
   "status": "partial",
   "theorems": [
    "Verif.Ocl.prob_is",
    "Verif.Ocl.ctrlOrAntiProb_is",
    "Verif.Ocl.probReg_is",
    "Verif.Ocl.probRegAll_is",
    "Verif.Ocl.probMask_is",
    "Verif.Ocl.probMaskAll_is",
    "Verif.Ocl.probParity_is",
    "Verif.Ocl.probMask_none",
    "Verif.Ocl.probMaskAll_full",
    "Verif.Ocl.forceM_same",
    "Verif.Ocl.forceM_projects'",
    "Verif.Ocl.forceM_born'",
    "Verif.Ocl.forceM_repeats'",
    "Verif.Ocl.forceMBits_same",
    "Verif.Ocl.forceMBits_measures'",
    "Verif.Ocl.forceMBits_born'",
    "Verif.Ocl.forceMBits_all_wrong",
    "Verif.Ocl.forceMReg_same",
    "Verif.Ocl.forceMReg_measures'",
    "Verif.Ocl.forceMReg_born'",
    "Verif.Ocl.mAll_same",
    "Verif.Ocl.mAll_measures'",
    "Verif.Ocl.mAll_born'",
    "Verif.Ocl.mAll_pending_wrong",
    "Verif.Ocl.forceMParity_measures'",
    "Verif.Ocl.forceMParity_impossible",
    "Verif.Ocl.expectationBitsAll_is",
    "Verif.Ocl.expectationBitsAll_one",
    "Verif.Ocl.expectationBitsAll_offset_wrong",
    "Verif.Ocl.getExpectation_is",
    "Verif.Ocl.getSetState",
    "Verif.Ocl.getProbs_is",
    "Verif.Ocl.setAmplitude_writes",
    "Verif.Ocl.setAmplitude_norm_wrong",
    "Verif.Ocl.sumSqrDiff_is",
    "Verif.Ocl.sumSqrDiff_zero_iff",
    "Verif.Ocl.shuffleBuffers_swaps",
    "Verif.Ocl.compose_is",
    "Verif.Ocl.composeAt_is",
    "Verif.Ocl.composeAt_steady",
    "Verif.Ocl.allocate_is",
    "Verif.Ocl.compose_empties",
    "Verif.Ocl.disposePerm_is",
    "Verif.Ocl.dispose_all_then_zero",
    "Verif.Ocl.decompose_lockstep",
    "Verif.Ocl.decompose_splits_partial",
    "Verif.Ocl.single_lockstep",
    "Verif.Ocl.decompose_rejected",
    "Verif.Ocl.decompose_race_wrong"
   ],
   "note": "Every device, left-over buffer and interleaving. Probabilities, measurement (drawn with the Born probabilities, same as on the CPU engine), averages, reading and writing, comparing, composition, allocation and disposal of a known value are right. Partial because of defects, each proved: empty and full masks make a buffer of no bytes and throw; MAll ignores a pending normalisation; forcing an impossible parity gives the zero state; the average of one qubit ignores the offset; SetAmplitude does not update the running norm; after disposing every qubit, composing gives the zero state; Decompose lacks a barrier between its loops and launches with a wrong local size. Splitting product states is proved for runs in step and accepted launches."
  },
  {
   "property": "C62",
   "status": "partial",
   "theorems": [
    "Verif.Ocl.inc_same",
    "Verif.Ocl.cinc_same",
    "Verif.Ocl.incdecc_same",
    "Verif.Ocl.incs_same",
    "Verif.Ocl.incdecsc_same",
    "Verif.Ocl.incdecsc2_same_partial",
    "Verif.Ocl.inc_adds",
    "Verif.Ocl.cinc_adds",
    "Verif.Ocl.dec_undoes_inc",
    "Verif.Ocl.incdecc_adds",
    "Verif.Ocl.incs_adds",
    "Verif.Ocl.incdecsc_adds",
    "Verif.Ocl.incdecsc2_adds_partial",
    "Verif.Ocl.incdecsc_spills",
    "Verif.Ocl.rol_rotates",
    "Verif.Ocl.fullAdd_same",
    "Verif.Ocl.fullAdd_adds",
    "Verif.Ocl.iFullAdd_subtracts",
    "Verif.Ocl.cPhaseFlipIfLess_flips",
    "Verif.Ocl.phaseFlipIfLess_partial",
    "Verif.Ocl.phaseFlipIfLess_wrong",
    "Verif.Ocl.mulx_same",
    "Verif.Ocl.mul_product_partial",
    "Verif.Ocl.mul_reduces",
    "Verif.Ocl.div_reads",
    "Verif.Ocl.div_undoes_mul_partial",
    "Verif.Ocl.mul_wrong",
    "Verif.Ocl.mul_clears",
    "Verif.Ocl.mulModx_same",
    "Verif.Ocl.powModx_same",
    "Verif.Ocl.mulModNOut_product",
    "Verif.Ocl.iMulModNOut_undoes",
    "Verif.Ocl.powModNOut_partial",
    "Verif.Ocl.powModNOut_wraps",
    "Verif.Ocl.powModNOut_zero",
    "Verif.Ocl.cmulx_same_partial",
    "Verif.Ocl.cmul_wrong",
    "Verif.Ocl.cmul_product_partial",
    "Verif.Ocl.cdiv_reads_partial",
    "Verif.Ocl.cdiv_undoes_cmul_partial",
    "Verif.Ocl.cmulModx_same_partial",
    "Verif.Ocl.cMulModNOut_product_partial",
    "Verif.Ocl.ciMulModNOut_undoes_partial",
    "Verif.Ocl.cMulModNOut_wrong",
    "Verif.Ocl.cPowModNOut_partial",
    "Verif.Ocl.indexedLDA_same_partial",
    "Verif.Ocl.indexedLDA_loads_partial",
    "Verif.Ocl.indexedLDA_wrong",
    "Verif.Ocl.indexedADC_adds_partial",
    "Verif.Ocl.indexedADC_wrong",
    "Verif.Ocl.indexedSBC_subtracts_partial",
    "Verif.Ocl.hash_same_partial",
    "Verif.Ocl.hash_looks_up_partial"
   ],
   "note": "Every device, order of the work-items, width, register and state. Additions, rotations, the full adder, division and modular multiplication are right and agree with the CPU engine. The negations are proved where host and kernel disagree: unreduced addends, reduced multipliers, words after the array of controls, signed table entries, and two kernels that visit or read the wrong amplitudes."
  },
  {
   "property": "C63",
   "status": "partial",
   "theorems": [
    "Verif.Defaults.phase_spec",
    "Verif.Defaults.invert_spec",
    "Verif.Defaults.mcPhase_spec",
    "Verif.Defaults.mcInvert_spec",
    "Verif.Defaults.macMtrx_spec",
    "Verif.Defaults.macPhase_spec",
    "Verif.Defaults.macInvert_spec",
    "Verif.Defaults.ucMtrx_spec",
    "Verif.Defaults.ucPhase_spec",
    "Verif.Defaults.ucInvert_spec",
    "Verif.Defaults.uniform_spec",
    "Verif.Defaults.zeroPhaseFlip_spec",
    "Verif.Defaults.xMask_spec",
    "Verif.Defaults.zMask_spec",
    "Verif.Defaults.yMask_spec",
    "Verif.Defaults.phaseRootNMask_spec",
    "Verif.Defaults.phaseParity_spec",
    "Verif.Defaults.swap_spec",
    "Verif.Defaults.iswap_spec",
    "Verif.Defaults.iiswap_spec",
    "Verif.Defaults.sqrtSwap_spec",
    "Verif.Defaults.isqrtSwap_spec",
    "Verif.Defaults.controlled_exchange_spec",
    "Verif.Defaults.anti_exchange_spec",
    "Verif.Defaults.cpu_lawful",
    "Verif.Defaults.ocl_lawful",
    "Verif.Defaults.bdt_lawful"
   ],
   "note": "Every inherited body, over every lawful simulator type; the CPU engine, the OpenCL engine and the decision diagram are shown lawful. Partial: YMask(0) takes the logarithm of zero and is excluded; a body that calls an overridable gate is modelled with the inherited body of that gate; norms are exact and pending normalisation is off for the two engines."
  },
  {
   "property": "C64",
   "status": "partial",
   "theorems": [
    "Verif.Defaults.rotations_spec",
    "Verif.Defaults.controlled_rotations_spec",
    "Verif.Defaults.uniform_rotations_spec",
    "Verif.Defaults.u_spec",
    "Verif.Defaults.u_spans",
    "Verif.Defaults.u2_inverse",
    "Verif.Defaults.ai_spec",
    "Verif.Defaults.ai_sets",
    "Verif.Defaults.iai_undoes",
    "Verif.Defaults.h_spec",
    "Verif.Defaults.roots_square",
    "Verif.Defaults.roots_undo",
    "Verif.Defaults.sqrtW_spec",
    "Verif.Defaults.phases_spec",
    "Verif.Defaults.sh_spec",
    "Verif.Defaults.phaseRootN_spec",
    "Verif.Defaults.controlled_spec",
    "Verif.Defaults.anti_controlled_spec",
    "Verif.Defaults.twice_controlled_spec",
    "Verif.Defaults.controlled_roots_spec",
    "Verif.Defaults.rt_partial",
    "Verif.Defaults.crx_partial",
    "Verif.Defaults.exp_partial",
    "Verif.Defaults.rt_wrong",
    "Verif.Defaults.crt_wrong",
    "Verif.Defaults.crx_wrong",
    "Verif.Defaults.expI_wrong",
    "Verif.Defaults.expP_iff",
    "Verif.Defaults.expX_wrong",
    "Verif.Defaults.expY_wrong",
    "Verif.Defaults.expZ_wrong"
   ],
   "note": "Every lawful simulator type, angle and root order. The sign of std::pow(-1, x) is a parameter. Partial because RT, CRT, CRX, Exp, ExpX, ExpY and ExpZ differ from their documentation; what they do and exactly when it differs is proved."
  },
  {
   "property": "C65",
   "status": "partial",
   "theorems": [
    "Verif.Defaults.timeEvolve_applies",
    "Verif.Defaults.timeEvolve_partial",
    "Verif.Defaults.timeEvolve_energy_partial",
    "Verif.Defaults.timeEvolve_backwards",
    "Verif.Defaults.uniform_applies",
    "Verif.Defaults.timeEvolve_wrong",
    "Verif.Defaults.uniform_wrong"
   ],
   "note": "Diagonal terms evolve as documented. Other Hermitian terms are applied with the exponential of the adjugate, so a traceless term evolves backwards; uniformly controlled terms lack the factor i and change the norm. Both negations are proved."
  },
  {
   "property": "C66",
   "status": "partial",
   "theorems": [
    "Verif.Stream.bitCapInt_read",
    "Verif.Stream.bitCapInt_print_hangs",
    "Verif.Stream.bitCapInt_print_partial",
    "Verif.Stream.circuit_saved_partial",
    "Verif.Stream.circuit_key_wrong",
    "Verif.Stream.tableau_saved",
    "Verif.Stream.units_saved",
    "Verif.Stream.hybrid_counts_partial",
    "Verif.Stream.hybrid_counts_wrong"
   ],
   "note": "Circuits, tableaux and units of any size. Partial because printing a bitCapInt never ends, keys of more than 64 controls are cut, and loading a hybrid leaves a wrong ancilla count; each is proved."
  },
  {
   "property": "C67",
   "status": "partial",
   "theorems": [
    "Verif.Neuron.predict_spec",
    "Verif.Neuron.unpredict_undoes",
    "Verif.Neuron.chance_of_reset",
    "Verif.Neuron.reset_spec",
    "Verif.Neuron.untrained",
    "Verif.Neuron.learn_partial",
    "Verif.Neuron.learn_half",
    "Verif.Neuron.learn_wrong",
    "Verif.Neuron.learnPermutation_partial",
    "Verif.Neuron.learnPermutation_wrong",
    "Verif.Neuron.copy_spec",
    "Verif.Neuron.assign_partial",
    "Verif.Neuron.cpu_sound"
   ],
   "note": "Predict and Unpredict for every activation function; Learn for the default one, or angles below a full turn; LearnPermutation for inputs that are certain; operator= for neurons of equal size. What fails otherwise is proved."
  },
  {
   "property": "C68",
   "status": "partial",
   "theorems": [
    "Verif.Stab.history_state",
    "Verif.Stab.quantumState_spec",
    "Verif.Stab.quantumState_stabilised",
    "Verif.Stab.amplitude_spec",
    "Verif.Stab.amplitudes_spec",
    "Verif.Stab.stateMap_spec",
    "Verif.Stab.qubitAmplitude_spec",
    "Verif.Stab.anyAmplitude_partial",
    "Verif.Stab.anyAmplitude_iff",
    "Verif.Stab.anyAmplitude_undefined",
    "Verif.Stab.support_card",
    "Verif.Stab.probs_spec",
    "Verif.Stab.probMask_spec",
    "Verif.Stab.probPermRdm_spec",
    "Verif.Stab.probPermRdm_throws",
    "Verif.Stab.expectationFloats_spec",
    "Verif.Stab.varianceFloats_spec",
    "Verif.Stab.expectationBits_spec",
    "Verif.Stab.varianceBits_partial",
    "Verif.Stab.expectationBits_wraps",
    "Verif.Stab.expectation_throws",
    "Verif.Stab.reads_leave",
    "Verif.Stab.read_keeps",
    "Verif.Stab.read_repeats",
    "Verif.Stab.gate_norm"
   ],
   "note": "All read-outs but the one into another QInterface, for every history. GetAnyAmplitude needs fewer than 2^64 nonzero amplitudes, and integer weights must not wrap; both failures are proved."
  },
  {
   "property": "C69",
   "status": "partial",
   "theorems": [
    "Verif.Stab.compose_spec",
    "Verif.Stab.compose_throws",
    "Verif.Stab.compose_read",
    "Verif.Stab.canDecompose_keeps",
    "Verif.Stab.canDecompose_product",
    "Verif.Stab.decompose_partial",
    "Verif.Stab.decompose_throws",
    "Verif.Stab.canDecompose_misses",
    "Verif.Stab.decompose_wrong",
    "Verif.Stab.trySeparate_keeps",
    "Verif.Stab.trySeparate_product",
    "Verif.Stab.isSeparable_spec"
   ],
   "note": "Compose in full; separation when CanDecomposeDispose says it can be done. That it need not say so for a product, and that Decompose then goes wrong, is proved."
  },
  {
   "property": "C70",
   "status": "partial",
   "theorems": [
    "Verif.Stab.sumSqrDiff_spec",
    "Verif.Stab.sumSqrDiff_unequal",
    "Verif.Stab.approxCompare_iff",
    "Verif.Stab.overlap_dichotomy",
    "Verif.Stab.compare_leaves",
    "Verif.Stab.globalPhaseCompare_copy"
   ],
   "note": "Exact arithmetic; phaseOffset any unit number. GlobalPhaseCompare is shown to be false for an object and its exact copy."
  },
  {
   "property": "C71",
   "status": "partial",
   "theorems": [
    "Verif.Units.setPerm_spec",
    "Verif.Units.run_partial",
    "Verif.Units.circuit_partial",
    "Verif.Units.prob_spec",
    "Verif.Units.entangle_spec",
    "Verif.Units.trySeparate_spec",
    "Verif.Units.forceM_spec",
    "Verif.Units.forceM_throws",
    "Verif.Units.forceM_look",
    "Verif.Units.cgate_throws",
    "Verif.Units.cgate_wrong_qubit"
   ],
   "note": "All calls in full except a controlled gate whose control certainly has the active value, for which the code is proved to throw or to act on the wrong qubit."
  },
  {
   "property": "C72",
   "status": "partial",
   "theorems": [
    "Verif.Units.sortUnit_spec",
    "Verif.Units.order_spec",
    "Verif.Units.entangleAll_spec",
    "Verif.Units.getAmplitude_spec",
    "Verif.Units.getAmplitude_throws",
    "Verif.Units.getQuantumState_spec",
    "Verif.Units.probMask_partial",
    "Verif.Units.probMask_wrong",
    "Verif.Units.expFloats_spec",
    "Verif.Units.expBits_partial",
    "Verif.Units.expBits_wrong"
   ],
   "note": "ProbMask for qubits of one unit, ExpectationBitsFactorized up to the number of times the offset is counted; both are proved wrong otherwise. Exact arithmetic."
  },
  {
   "property": "C73",
   "status": "partial",
   "theorems": [
    "Verif.Units.multiShot_spec",
    "Verif.Units.multiShot_edge",
    "Verif.Units.singles_spec",
    "Verif.Units.take_first_biased",
    "Verif.Units.take_last_never",
    "Verif.Units.pair_fixed",
    "Verif.Units.multiShot_paired"
   ],
   "note": "Totals and the counts of each unit in full, for all draws. That the pairing is not uniform is proved. The buffers that QUnit may hold when all its qubits are measured (src/qunit.cpp:1671-1700) are not modelled."
  },
  {
   "property": "C74",
   "status": "partial",
   "theorems": [
    "Verif.Pager.compose_tensor_partial",
    "Verif.Pager.composeAt_tensor_partial",
    "Verif.Pager.composeAt_position_wrong",
    "Verif.Pager.allocate_wrong",
    "Verif.Pager.paged_disposePerm_partial",
    "Verif.Pager.dispose_endless",
    "Verif.Pager.paged_dispose_partial",
    "Verif.Pager.decomposeNew_wrong",
    "Verif.Pager.setQuantumState_reads",
    "Verif.Pager.output_all",
    "Verif.Pager.setAmplitude_reads",
    "Verif.Pager.amplitudePage_partial",
    "Verif.Pager.amplitudePage_skips",
    "Verif.Pager.setAmplitudePage_wrong",
    "Verif.Pager.sumSqrDiff_partial",
    "Verif.Pager.sumSqrDiff_equal_wrong",
    "Verif.Pager.approxCompare_equal_wrong"
   ],
   "note": "Rotations need at most 8 qubits beyond a page (C35). Dispose without a value is proved for a range within a page and no amplitude floor. The state of the destination of Decompose(start, dest) is modelled, not proved. That pages with released arrays compare right is not claimed: the comparison theorems are for pages with arrays."
  },
  {
   "property": "C75",
   "status": "partial",
   "theorems": [
    "Verif.Engine.expectationUnitary_sum",
    "Verif.Engine.expectationUnitary_default",
    "Verif.Engine.expectationUnitary_one_partial",
    "Verif.Engine.varianceUnitary_one_partial",
    "Verif.Engine.varianceUnitary_is_expectation",
    "Verif.Engine.expectationAngles_swapped",
    "Verif.Engine.expectationAngles_partial",
    "Verif.Engine.variancePauli_partial",
    "Verif.Engine.expectationUnitary_product_wrong",
    "Verif.Engine.varianceUnitary_wrong",
    "Verif.Engine.variancePauli_identity_wrong",
    "Verif.Engine.variancePauli_wrong",
    "Verif.Engine.expectationAngles_value_wrong",
    "Verif.Engine.expectationAngles_state_wrong"
   ],
   "note": "State vector engine without normalisation after gates. The documented tensor product is false for two or more qubits; what is returned instead is proved. The variance with three angles is modelled, not proved."
  },
  {
   "property": "C76",
   "status": "partial",
   "theorems": [
    "Verif.Circ.cMulModN_pow_partial",
    "Verif.Circ.mulModN_pow_partial",
    "Verif.Circ.cIMulModN_undoes",
    "Verif.Circ.iMulModN_undoes",
    "Verif.Circ.cMulModN_off",
    "Verif.Circ.mulModN_wrong",
    "Verif.Circ.iMulModN_undefined"
   ],
   "note": "The product is right for powers of two (there for every content of the output register); for other moduli it is wrong. Inverses and unset controls for every modulus from 2 to the range of the input register."
  },
  {
   "property": "C77",
   "status": "partial",
   "theorems": [
    "Verif.Circ.setBit_writes",
    "Verif.Circ.setReg_writes",
    "Verif.Circ.setReg_whole",
    "Verif.Circ.WrittenReg.reads",
    "Verif.Circ.setPermDefault_sets",
    "Verif.Circ.forceMDefault_forced",
    "Verif.Circ.forceMDefault_measures",
    "Verif.Circ.forceMDefault_look_partial",
    "Verif.Circ.forceMDefault_packed_wrong",
    "Verif.Circ.forceMDefault_impossible_wrong"
   ],
   "note": "Without application the inherited ForceM returns a packed value, and accepts impossible values. Gates without normalisation or with amplitude floor 0."
  },
  {
   "property": "C78",
   "status": "partial",
   "theorems": [
    "Verif.Depolarize.depolStrong_kraus",
    "Verif.Depolarize.depolStrong_invalid",
    "Verif.Depolarize.depolStrong_bloch",
    "Verif.Depolarize.depolStrong_wrong",
    "Verif.Depolarize.depolWeak_kraus_partial",
    "Verif.Depolarize.depolWeak_born_partial",
    "Verif.Depolarize.depolWeak_off",
    "Verif.Depolarize.depolWeak_plus_wrong",
    "Verif.Depolarize.depolPauli_bloch",
    "Verif.Depolarize.depolPauli_wrong"
   ],
   "note": "The Kraus operators of both versions, the probabilities of the outcomes and the effect on the Pauli expectation values are proved. The channel is not a depolarizing channel (proved). Automatic normalisation off; for the weak version no amplitude is ignored (floor 0)."
  },
  {
   "property": "C79",
   "status": "partial",
   "theorems": [
    "Verif.CapiPauli.jointProb_partial",
    "Verif.CapiPauli.measure_partial",
    "Verif.CapiPauli.rHelper_rotates",
    "Verif.CapiPauli.mcrHelper_partial",
    "Verif.CapiPauli.mcrHelper_identity",
    "Verif.CapiPauli.mcrHelper_identity_wrong",
    "Verif.CapiPauli.exp_partial",
    "Verif.CapiPauli.exp_ids_wrong",
    "Verif.CapiPauli.exp_ids_rejected",
    "Verif.CapiPauli.mcExp_partial",
    "Verif.CapiPauli.mcExp_identity_wrong"
   ],
   "note": "Probability and measurement for every list of operators on distinct qubits; exponentials where ids and positions agree; positions below 32 unless built as C++20 (popcount of a 32-bit word). Violated for relocated ids and for the controlled identity (proved). Automatic normalisation off; for the measurement no amplitude is ignored (floor 0)."
  },
  {
   "property": "C80",
   "status": "partial",
   "theorems": [
    "Verif.QU.int_adds",
    "Verif.QU.int_carry_adds",
    "Verif.QU.cInc_adds",
    "Verif.QU.incC_adds_partial",
    "Verif.QU.incC_wrong",
    "Verif.QU.decC_subtracts_partial",
    "Verif.QU.decC_wrong",
    "Verif.QU.ints_adds",
    "Verif.QU.unit_cinc"
   ],
   "note": "INC, CINC, INCS and the signed addition with a clear carry in full; INCC and DECC except where the addend with the carry is 0 modulo 2^length, where the code is wrong (proved). Exact arithmetic; the new global phase of SetPermutation is left out. The joining of units is taken as right here; C86 shows that CINC made in two parts joins wrong qubits."
  },
  {
   "property": "C81",
   "status": "partial",
   "theorems": [
    "Verif.QU.mul_multiplies",
    "Verif.QU.mul_amplitudes",
    "Verif.QU.mul_zero_clears",
    "Verif.QU.unit_mul",
    "Verif.QU.div_undoes",
    "Verif.QU.div_zero_undefined",
    "Verif.QU.div_depends_on_caches",
    "Verif.QU.powModNOut_powers_partial",
    "Verif.QU.powModNOut_wrong",
    "Verif.QU.powModNOut_one_wrong",
    "Verif.QU.cMul_multiplies_partial",
    "Verif.QU.cMul_wrong",
    "Verif.QU.indexedLDA_loads_partial",
    "Verif.QU.indexedLDA_undefined",
    "Verif.QU.indexedADC_adds_partial",
    "Verif.QU.indexedADC_wrong",
    "Verif.QU.indexedSBC_subtracts_partial",
    "Verif.QU.hash_looks_up_partial",
    "Verif.QU.hash_undefined",
    "Verif.QU.phaseFlipIfLess_flips_partial",
    "Verif.QU.cPhaseFlipIfLess_flips_partial",
    "Verif.QU.phaseFlipIfLess_wrong"
   ],
   "note": "MUL and DIV (of products) in full; the others except where the code is wrong, which is proved. CDIV, CPOWModNOut and resetValue=false are not modelled."
  },
  {
   "property": "C82",
   "status": "partial",
   "theorems": [
    "Verif.QUE.entangle_keeps",
    "Verif.QUE.entangleCopy_keeps",
    "Verif.QUE.either_partial",
    "Verif.QUE.either_wrong",
    "Verif.QUE.eitherSwap_exchanges",
    "Verif.QUE.phaseParity_rotates",
    "Verif.QUE.zMask_phase",
    "Verif.QUE.cUniformParityRZ_partial",
    "Verif.QUE.cUniformParityRZ_wrong",
    "Verif.QUE.forceMParity_measures"
   ],
   "note": "Joining, swaps, PhaseParity and ForceMParity in full; CUniformParityRZ is wrong with an unknown control and two unknown masked qubits, controlled gates above the size limit are approximated, ZMask has a global phase."
  },
  {
   "property": "C83",
   "status": "partial",
   "theorems": [
    "Verif.QUE.prob_is",
    "Verif.QUE.probParity_is",
    "Verif.QUE.probParity_throws",
    "Verif.QUE.separate_keeps",
    "Verif.QUE.separate_needs",
    "Verif.QUE.forceM_projects",
    "Verif.QUE.mAll_born",
    "Verif.QUE.trySeparate_keeps",
    "Verif.QUE.trySeparatePair_keeps",
    "Verif.QUE.mappedPower_is",
    "Verif.QUE.shot_equal",
    "Verif.QUE.shot_wrong",
    "Verif.QUE.shot_partial"
   ],
   "note": "Reading, measuring and separating in full; the array version of MultiShotMeasureMask is wrong when the listed qubits share a unit, and is right there for qubit 0 alone."
  },
  {
   "property": "C84",
   "status": "partial",
   "theorems": [
    "Verif.QCirc.inc_adds_partial",
    "Verif.QCirc.inc_uncollapsed"
   ],
   "note": "As for C31, the gates of the history have at least one payload (the gate of the swap constructor has none)."
  },
  {
   "property": "C85",
   "status": "partial",
   "theorems": [
    "Verif.QUE.uniform_partial",
    "Verif.QUE.uniform_invalid",
    "Verif.QUE.uniform_wrong"
   ],
   "note": "Proved where no positions of the index are skipped by the caller; the code ignores those arguments (negation proved). Up to 64 controls; the classical shadow taken when memory does not suffice is left out."
  },
  {
   "property": "C86",
   "status": "partial",
   "theorems": [
    "Verif.QUE.order_keeps",
    "Verif.QUE.entangleRange_keeps",
    "Verif.QUE.entangleRange3_keeps",
    "Verif.QUE.onRange_pulls",
    "Verif.QUE.onRangeCarry_pulls",
    "Verif.QUE.onRanges2_pulls",
    "Verif.QUE.onRanges3_pulls",
    "Verif.QUE.onRangesCtrl_pulls",
    "Verif.QUE.cincParts_partial",
    "Verif.QUE.addPart_moves",
    "Verif.QUE.cincParts_wrong"
   ],
   "note": "Every layout of units. The controlled addition of QUnit::INT made in two parts uses the places of the controls as qubits for the second part (negation proved); one part is proved. C80 takes the joining of units as right, so its theorem on CINC holds only for additions made in one part."
  },
  {
   "property": "C87",
   "status": "partial",
   "theorems": [
    "Verif.CapiRead.phaseParity_acts",
    "Verif.CapiRead.phaseRootN_partial",
    "Verif.CapiRead.probAll_is",
    "Verif.CapiRead.permutationProb_partial",
    "Verif.CapiRead.permutationProb_twice_wrong",
    "Verif.CapiRead.permutationExpVar_is",
    "Verif.CapiRead.factorizedExpVar_partial",
    "Verif.CapiRead.factorizedFp_is",
    "Verif.CapiRead.factorPerms_long_wrong",
    "Verif.Capi.separate_perm",
    "Verif.Capi.separate_none",
    "Verif.Capi.separate_one_wrong",
    "Verif.Capi.separate_all_wrong"
   ],
   "note": "reading is proved for the CPU engine (not the Rdm variants); PhaseRootN before C++20 only on the first 32 qubits; at most two words a weight; Separate keeps the qubits and the ids but not the positions: the negation is proved for one listed qubit and for all of them"
  },
  {
   "property": "C88",
   "status": "partial",
   "theorems": [
    "Verif.Detach.dispose_one",
    "Verif.Detach.decompose_one_dest",
    "Verif.Detach.decompose_one_partial",
    "Verif.Detach.decompose_one_wrong",
    "Verif.Detach.closeUp_range"
   ],
   "note": "ranges of one qubit; Decompose leaves the others alone only when the qubit is at one of the first two places of its unit, and provably never otherwise"
  },
  {
   "property": "C89",
   "status": "partial",
   "theorems": [
    "Verif.ParNorm.parNorm_is",
    "Verif.ParNorm.total_bounds",
    "Verif.ParNorm.normalize_default",
    "Verif.ParNorm.normalize_given",
    "Verif.ParNorm.normalize_thresh_partial",
    "Verif.ParNorm.normalize_thresh_wrong"
   ],
   "note": "a threshold of its own in NormalizeState does not give norm one; CPU engine; exact reals"
  },
  {
   "property": "C90",
   "status": "partial",
   "theorems": [
    "Verif.USet.setState_amps",
    "Verif.USet.setState_fidelity_partial",
    "Verif.USet.setState_minusY_wrong",
    "Verif.USet.setState_branch_wrong",
    "Verif.USet.setState_estimate"
   ],
   "note": "one eigenstate of Y is always refused with an exception; every other state is set with fidelity one; reading back is proved for exact arithmetic"
  },
  {
   "property": "C91",
   "status": "partial",
   "theorems": [
    "Verif.UDiff.sumSqrDiff_is",
    "Verif.UDiff.sumSqrDiff_one_partial",
    "Verif.UDiff.sumSqrDiff_size",
    "Verif.UDiff.sumSqrDiff_one_wrong"
   ],
   "note": "exact for registers of more than one qubit; for one qubit only an upper bound, and provably 4 for a state and its negative"
  },
  {
   "property": "C92",
   "status": "partial",
   "theorems": [
    "Verif.UMulti.deviceIndex_zero_wrong",
    "Verif.UMulti.deviceIndex_eq",
    "Verif.UMulti.deviceIndex_partial",
    "Verif.UMulti.deviceIndex_third_wrong",
    "Verif.UMulti.redistribute_within",
    "Verif.UMulti.choose_least",
    "Verif.UMulti.place_load",
    "Verif.UMulti.redistribute_zero_wrong"
   ],
   "note": "limits and counting are proved for every distribution that ends; the index of the device is right only if the unit is on the first device with an id other than 0 (for the default device 0)"
  }
 ]
}