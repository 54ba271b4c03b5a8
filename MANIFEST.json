{
 "claims": [
  {
   "property": "C01",
   "status": "proved",
   "theorems": [
    "QDD.Props.C01_mv_multiply"
   ],
   "note": "exact arithmetic; any reachable history; every schedule of the MT build"
  },
  {
   "property": "C02",
   "status": "proved",
   "theorems": [
    "QDD.Props.C02_mm_multiply"
   ],
   "note": "exact arithmetic"
  },
  {
   "property": "C03",
   "status": "proved",
   "theorems": [
    "QDD.Props.C03_vv_add",
    "QDD.Props.C03_mm_add"
   ],
   "note": "exact arithmetic"
  },
  {
   "property": "C04",
   "status": "partial",
   "theorems": [
    "QDD.Props.C04_vv_kronecker",
    "QDD.Props.C04_mm_kronecker_partial",
    "QDD.Props.C04_mm_kronecker_stripped",
    "QDD.Props.C04_mm_kronecker_stripped_wrong"
   ],
   "note": "vectors in full; matrices only when the right operand's top level is a node; the full statement is refuted by C04_mm_kronecker_stripped_wrong (code defect)"
  },
  {
   "property": "C05",
   "status": "proved",
   "theorems": [
    "QDD.Props.C05_makeGate"
   ],
   "note": ""
  },
  {
   "property": "C06",
   "status": "proved",
   "theorems": [
    "QDD.Props.C06_makeTwoQubitGate"
   ],
   "note": ""
  },
  {
   "property": "C07",
   "status": "partial",
   "theorems": [
    "QDD.Props.C07_reads_past_end",
    "QDD.Props.C07_matrix_partial"
   ],
   "note": "the property is false of the code: reads past the end of a vector for every gate on >= 1 qubit (C07_reads_past_end); right matrix for every value those reads may give (C07_matrix_partial)"
  },
  {
   "property": "C08",
   "status": "proved",
   "theorems": [
    "QDD.Props.C08_cx",
    "QDD.Props.C08_swap",
    "QDD.Props.C08_cswap"
   ],
   "note": ""
  },
  {
   "property": "C09",
   "status": "proved",
   "theorems": [
    "QDD.Props.C09_constants",
    "QDD.Props.C09_hadamard",
    "QDD.Props.C09_unitary2",
    "QDD.Props.C09_rotations",
    "QDD.Props.C09_u",
    "QDD.Props.C09_unitary4",
    "QDD.Props.C09_applies"
   ],
   "note": ""
  },
  {
   "property": "C10",
   "status": "proved",
   "theorems": [
    "QDD.Props.C10_makeZeroState",
    "QDD.Props.C10_makeOneState"
   ],
   "note": ""
  },
  {
   "property": "C11",
   "status": "proved",
   "theorems": [
    "QDD.Props.C11_canonical",
    "QDD.Props.C11_canonical_readout"
   ],
   "note": ""
  },
  {
   "property": "C12",
   "status": "proved",
   "theorems": [
    "QDD.Props.C12_canonical",
    "QDD.Props.C12_no_node_above",
    "QDD.Props.C12_identity_is_one"
   ],
   "note": ""
  },
  {
   "property": "C13",
   "status": "proved",
   "theorems": [
    "QDD.Props.C13_vector_nodes",
    "QDD.Props.C13_matrix_nodes"
   ],
   "note": ""
  },
  {
   "property": "C14",
   "status": "proved",
   "theorems": [
    "QDD.Props.C14_lookup_ok",
    "QDD.Props.C14_contents",
    "QDD.Props.C14_not_reused",
    "QDD.Props.C14_unique",
    "QDD.Props.C14_same_node"
   ],
   "note": "law-free; lookup atomic (see C30)"
  },
  {
   "property": "C15",
   "status": "proved",
   "theorems": [
    "QDD.Props.C15_find",
    "QDD.Props.C15_find_exact"
   ],
   "note": "law-free"
  },
  {
   "property": "C16",
   "status": "proved",
   "theorems": [
    "QDD.Props.C16_find"
   ],
   "note": "law-free"
  },
  {
   "property": "C17",
   "status": "proved",
   "theorems": [
    "QDD.Props.C17_memory_safe",
    "QDD.Props.C17_rounded",
    "QDD.Props.C17_exact",
    "QDD.Props.C17_nan_counterexample"
   ],
   "note": "C17_memory_safe assumes only the laws RoundW/RoundR of the arithmetic (exact zeros, reflexive and symmetric comparison, multiplication by one, monotone rounding); C17_rounded derives these laws for the formulas of dd.h with any idempotent monotone symmetric rounding exact on 1 and tolerance in [0,1). C17_nan_counterexample shows the no-NaN assumption is needed. Matrix products, matrix sums and the SWAP gate are modelled on one thread. Signed zeros are identified; overflow to infinity is excluded."
  },
  {
   "property": "C18",
   "status": "proved",
   "theorems": [
    "QDD.Props.C18_gc"
   ],
   "note": ""
  },
  {
   "property": "C19",
   "status": "proved",
   "theorems": [
    "QDD.Props.C19_gc_mat"
   ],
   "note": ""
  },
  {
   "property": "C20",
   "status": "proved",
   "theorems": [
    "QDD.Props.C20_transfer",
    "QDD.Props.C20_transfer_readout",
    "QDD.Props.C20_same_node",
    "QDD.Props.C20_get_nNodes"
   ],
   "note": ""
  },
  {
   "property": "C21",
   "status": "partial",
   "theorems": [
    "QDD.Props.C21_save_load_partial",
    "QDD.Props.C21_exactly",
    "QDD.Props.C21_load_wrong"
   ],
   "note": "holds up to the root weight, which save_binary drops; C21_exactly: the state comes back divided by one of its nonzero amplitudes, so it is right if and only if that is 1; C21_load_wrong shows the full statement fails"
  },
  {
   "property": "C22",
   "status": "proved",
   "theorems": [
    "QDD.Props.C22_probabilities",
    "QDD.Props.C22_distribution"
   ],
   "note": ""
  },
  {
   "property": "C23",
   "status": "proved",
   "theorems": [
    "QDD.Props.C23_measureAll",
    "QDD.Props.C23_measureAll_volume"
   ],
   "note": ""
  },
  {
   "property": "C24",
   "status": "proved",
   "theorems": [
    "QDD.Props.C24_measureAll_collapse"
   ],
   "note": ""
  },
  {
   "property": "C25",
   "status": "proved",
   "theorems": [
    "QDD.Props.C25_measureOneCollapsing",
    "QDD.Props.C25_norm"
   ],
   "note": ""
  },
  {
   "property": "C26",
   "status": "proved",
   "theorems": [
    "QDD.Props.C26_measureOne"
   ],
   "note": ""
  },
  {
   "property": "C27",
   "status": "proved",
   "theorems": [
    "QDD.Props.C27_getVector",
    "QDD.Props.C27_getMatrix",
    "QDD.Props.C27_getVector_reachable",
    "QDD.Props.C27_getMatrix_reachable"
   ],
   "note": "the first two assume nothing about the weights"
  },
  {
   "property": "C28",
   "status": "proved",
   "theorems": [
    "QDD.Props.C28_history",
    "QDD.Props.C28_deterministic",
    "QDD.Props.C28_total"
   ],
   "note": ""
  },
  {
   "property": "C29",
   "status": "proved",
   "theorems": [
    "QDD.Props.C29_mt",
    "QDD.Props.C29_serial"
   ],
   "note": ""
  },
  {
   "property": "C30",
   "status": "proved",
   "theorems": [
    "QDD.Props.C30_linearizable",
    "QDD.Props.C30_no_fault",
    "QDD.Props.C30_same_node",
    "QDD.Props.C30_answers",
    "QDD.Props.C30_immutable",
    "QDD.Props.C30_no_deadlock"
   ],
   "note": "sequential consistency; one shared access per step; thread-local allocator steps merged"
  },
  {
   "property": "C31",
   "status": "partial",
   "theorems": [
    "QDD.Props.C31_block_partial",
    "QDD.Props.C31_wrong"
   ],
   "note": "false of the code when identity levels were stripped on the path to the block (X on qubit 0, two ranks: C31_wrong); right for aligned paths"
  },
  {
   "property": "C32",
   "status": "partial",
   "theorems": [
    "QDD.Props.C32_protocol",
    "QDD.Props.C32_terminates",
    "QDD.Props.C32_serial_partial",
    "QDD.Props.C32_wrong"
   ],
   "note": "protocol (no failure, no deadlock, bounded, sum of blocks) holds for all gates; equality with the serial product inherits the getMPIGate defect (C32_wrong) and is proved for aligned gates"
  },
  {
   "property": "C33",
   "status": "partial",
   "theorems": [
    "QDD.Props.C33_local",
    "QDD.Props.C33_global_partial",
    "QDD.Props.C33_wrong",
    "QDD.Props.C33_collapse_wrong"
   ],
   "note": "right for qubits inside the ranks and for the lowest rank qubit; false for the other rank qubits (always the marginal of the lowest one is returned) and for the collapse (getMPIGate of the projector)"
  },
  {
   "property": "C34",
   "status": "partial",
   "theorems": [
    "QDD.Props.C34_probabilities_partial",
    "QDD.Props.C34_getVector_partial",
    "QDD.Props.C34_probabilities_actual",
    "QDD.Props.C34_probabilities_wrong",
    "QDD.Props.C34_getVector_wrong"
   ],
   "note": "right if no rank's slice is zero; false otherwise; C34_probabilities_actual: what is returned then (one 0 for each zero slice held as vEdge::zero)"
  },
  {
   "property": "C35",
   "status": "partial",
   "theorems": [
    "QDD.Props.C35_stable_partial",
    "QDD.Props.C35_false"
   ],
   "note": "false of the code for a conditional measurement (classified stable, condition ignored: C35_false); right for circuits whose measurements are unconditional"
  },
  {
   "property": "C36",
   "status": "partial",
   "theorems": [
    "QDD.Props.C36_conditions_partial",
    "QDD.Props.C36_exactly",
    "QDD.Props.C36_false"
   ],
   "note": "false of the code for registers that do not start at clbit 0 (C36_false); right for single-bit conditions and for registers at offset 0; C36_exactly says for which registers and values the test is right (if and only if)"
  },
  {
   "property": "C37",
   "status": "partial",
   "theorems": [
    "QDD.Props.C37_probabilities_partial",
    "QDD.Props.C37_false_map",
    "QDD.Props.C37_false_unmeasured",
    "QDD.Props.C37_actual",
    "QDD.Props.C37_open"
   ],
   "note": "right when clbit i is measured from qubit i; false of the code when the measurement map is not the identity, or clbits are not written; whatever the map, what is returned are the probabilities of measuring every qubit q into clbit q (C37_actual)"
  },
  {
   "property": "C38",
   "status": "proved",
   "theorems": [
    "QDD.Props.C38_counts"
   ],
   "note": "every circuit, every engine state, every draw"
  },
  {
   "property": "C39",
   "status": "proved",
   "theorems": [
    "QDD.Props.C39_restore",
    "QDD.Props.C39_swap_v1",
    "QDD.Props.C39_swap_v2",
    "QDD.Props.C39_gate",
    "QDD.Props.C39_run",
    "QDD.Props.C39_actual"
   ],
   "note": "supported instructions (closed controls, aligned conditions); the distributed product and measurement are taken to act as the serial ones do (when that is so is C31-C34); traj_expect ties the specification's trajectories to the meaning of the circuit. C39_actual: the same for circuits the backend misreads, compared with the circuit as it is read"
  },
  {
   "property": "C40",
   "status": "partial",
   "theorems": [
    "QDD.Props.C40_matrix_partial",
    "QDD.Props.C40_inline_partial",
    "QDD.Props.C40_again_partial",
    "QDD.Props.C40_nested_partial",
    "QDD.Props.C40_nested_matrix_partial",
    "QDD.Props.C40_matrix_actual",
    "QDD.Props.C40_actual",
    "QDD.Props.C40_false",
    "QDD.Props.C40_misplaced"
   ],
   "note": "circuits of unconditional named gates, merged gates on the lowest qubits; false of the code for conditional gates (the condition is dropped: C40_false) and for merged gates appended to other qubits (they act on the lowest: C40_misplaced); UnitaryGate raises. Merged gates inside merged circuits, and several of them, when the circuits merged later have fewer instructions than gc_freq (no gc_mat, which keeps only the circuit being merged). C40_matrix_actual and C40_actual: for every circuit of named gates, barriers, measurements and resets, with any conditions and control states, what is merged are its gates alone, controls closed and unconditional (resets are skipped silently)"
  },
  {
   "property": "C41",
   "status": "proved",
   "theorems": [
    "QDD.Props.C41_modpow",
    "QDD.Props.C41_gcd",
    "QDD.Props.C41_inverse_mod",
    "QDD.Props.C41_post_processing",
    "QDD.Props.C41_post_processing_succeeds"
   ],
   "note": "64-bit wrap-around and 32-bit overflow modelled; the floating-point closeness test is arbitrary"
  },
  {
   "property": "C42",
   "status": "proved",
   "theorems": [
    "QDD.Props.C42_linearizable",
    "QDD.Props.C42_at_most_once",
    "QDD.Props.C42_none_lost"
   ],
   "note": "sequential consistency; one shared access per step; any number of thieves"
  },
  {
   "property": "C43",
   "status": "partial",
   "theorems": [
    "QDD.Props.C43_safe_partial",
    "QDD.Props.C43_nested_wrong",
    "QDD.Props.C43_tso_wrong"
   ],
   "note": "holds under sequential consistency with at most one guard per thread; refuted for nested guards and under store buffering"
  },
  {
   "property": "C44",
   "status": "partial",
   "theorems": [
    "QDD.Props.C44_first_partial",
    "QDD.Props.C44_stop_partial",
    "QDD.Props.C44_second_wrong",
    "QDD.Props.C44_hang_wrong"
   ],
   "note": "registrations of the first scheduler are in range; a second one always writes out of range and stopping can hang (code defects)"
  },
  {
   "property": "C45",
   "status": "partial",
   "theorems": [
    "QDD.Props.C45_only_zeroes",
    "QDD.Props.C45_tree_partial",
    "QDD.Props.C45_shared_wrong",
    "QDD.Props.C45_thr0_wrong"
   ],
   "note": "false of the code for diagrams with shared nodes (edited in place) and for threshold <= 0; true without sharing; in general prune only sets amplitudes to 0"
  },
  {
   "property": "C46",
   "status": "proved",
   "theorems": [
    "QDD.Props.C46_makeVEdge",
    "QDD.Props.C46_reachable"
   ],
   "note": "Complex of dd.h with positive tolerance; component arithmetic exact (no IEEE rounding); size is |re|+|im|"
  },
  {
   "property": "C47",
   "status": "partial",
   "theorems": [
    "QDD.Props.C47_partial",
    "QDD.Props.C47_quasi_partial",
    "QDD.Props.C47_actual",
    "QDD.Props.C47_false"
   ],
   "note": "Proved for calls in which no circuit with parameters occurs twice, from every reachable state of the sampler, given that Qiskit's _circuit_key separates circuits and transpile preserves distributions; false otherwise (C47_false: the call raises). C47_actual: for any transpiled circuits the backend can run (any control states, conditions and measurements) the samples are those of the circuits as the backend reads them."
  },
  {
   "property": "C48",
   "status": "partial",
   "theorems": [
    "QDD.Props.C48_partial",
    "QDD.Props.C48_close_partial",
    "QDD.Props.C48_right_or_raises",
    "QDD.Props.C48_identity",
    "QDD.Props.C48_raises",
    "QDD.Props.C48_wrong"
   ],
   "note": "Sampling mode, from every reachable estimator and engine: unbiased values when every circuit of the call occurs with one observable or one values list and is asked for a non-identity term, with the mean squared error bounded and the values close with high probability (C48_close_partial); otherwise right or raising if no identity terms are involved. False in general: identity-only first circuit raises (C48_identity), several observables at several values can raise (C48_raises) or silently return a wrong value (C48_wrong). Assumes Qiskit's grouping, keys and transpilation as stated in Grouping and QiskitE."
  },
  {
   "property": "C49",
   "status": "proved",
   "theorems": [
    "QDD.Props.C49_murmur"
   ],
   "note": ""
  },
  {
   "property": "C50",
   "status": "proved",
   "theorems": [
    "QDD.Props.C50_global_phase"
   ],
   "note": ""
  },
  {
   "property": "C51",
   "status": "proved",
   "theorems": [
    "QDD.Props.C51_norm_preserved",
    "QDD.Props.C51_gate_norm"
   ],
   "note": ""
  },
  {
   "property": "C52",
   "status": "partial",
   "theorems": [
    "QDD.Props.C52_total",
    "QDD.Props.C52_shots",
    "QDD.Props.C52_circuit",
    "QDD.Props.C52_binding",
    "QDD.Props.C52_batch_partial",
    "QDD.Props.C52_actual",
    "QDD.Props.C52_probabilities",
    "QDD.Props.C52_statevectors",
    "QDD.Props.C52_false"
   ],
   "note": "run never raises; rejected inputs give an empty unsuccessful result and no engine call; accepted jobs give one result per circuit with the joint distribution of independent executions. Partial: the claim is false when parameter_binds is shorter than the list of circuits (C52_false: circuits are dropped silently), and the batch theorem needs the circuits supported as in C54. C52_actual covers all circuits the backend can run, as the backend reads them (C54_actual); C52_probabilities and C52_statevectors are jobs without shots and with the state vector saved."
  },
  {
   "property": "C53",
   "status": "partial",
   "theorems": [
    "QDD.Props.C53_measureAllMPI_partial",
    "QDD.Props.C53_zero_wrong"
   ],
   "note": "right for every threshold above 0; with threshold 0 a rank of weight 0 is chosen"
  },
  {
   "property": "C54",
   "status": "partial",
   "theorems": [
    "QDD.Props.C54_run_partial",
    "QDD.Props.C54_actual",
    "QDD.Props.backend_demo"
   ],
   "note": "probability over the draws of the engine calls the run makes, on the engine model after any history; missing: the false cases of C35, C36, C56, and UnitaryGate (C07). C54_actual covers the false cases too: any circuit without UnitaryGate (and whose classification does not hang on where its QDDGates stand) is sampled from the distribution of the circuit as the backend reads it (ReadAs: controls closed, QDDGates on the lowest qubits, register conditions tested at the clbit indices, measurements unconditional when classified stable), so these are the only deviations."
  },
  {
   "property": "C55",
   "status": "proved",
   "theorems": [
    "QDD.Props.C55_statevector",
    "QDD.Props.C55_actual"
   ],
   "note": "circuits of the named gates with closed controls; C55_actual: with any control states the state vector is that of the circuit with closed controls"
  },
  {
   "property": "C56",
   "status": "partial",
   "theorems": [
    "QDD.Props.C56_gates_partial",
    "QDD.Props.C56_false",
    "QDD.Props.C56_actual"
   ],
   "note": "right for closed controls; false of the code for open controls (ctrl_state ignored); C56_actual: the gate built is that with closed controls, always"
  },
  {
   "property": "C57",
   "status": "proved",
   "theorems": [
    "QDD.Props.C57_accuracy",
    "QDD.Props.C57_call_total",
    "QDD.Props.C57_circuit",
    "QDD.Props.C57_double"
   ],
   "note": "for every arithmetic with the laws NumW (rounding errors and tolerances bounded by eps), instantiated with the formulas of dd.h, tolerance 2^-42 and any rounding of relative error 2^-52 (eps = 2^-41); toZero_accurate shows 53-bit truncation qualifies. Calls covered: makeZeroState, makeOneState, makeGate, makeTwoQubitGate, CX, CSWAP, SWAP, mm_multiply, mv_multiply, gc, gc_mat, getVector (a product of matrices within the error budget of C57; SWAP counts as 184 gates). Not covered: sums, Kronecker products, scaling; measurement is C60; overflow and NaN."
  },
  {
   "property": "C58",
   "status": "partial",
   "theorems": [
    "QDD.Props.C58_collapse",
    "QDD.Props.C57_call_total"
   ],
   "note": "false of the code: the uniform superposition of 84 qubits becomes the zero vector (C58_collapse, exact arithmetic with the tolerance 2^-42); within the error budget of C57 it holds (getVector returns a vector of norm above 0)"
  },
  {
   "property": "C59",
   "status": "proved",
   "theorems": [
    "QDD.Props.C59_search",
    "QDD.Props.C59_state"
   ],
   "note": "exact arithmetic (weights over the reals, no tolerance); the iteration count is computed over the reals (long double in the code); the oracle string is an argument; the %8 unrolling of the loop is modelled. src/algorithms/grover.cpp is the same program through the Scheduler and is not compiled."
  },
  {
   "property": "C60",
   "status": "proved",
   "theorems": [
    "QDD.Props.C60_getVector",
    "QDD.Props.C60_getMatrix",
    "QDD.Props.C60_probabilities",
    "QDD.Props.C60_measureAll",
    "QDD.Props.C60_measureOne",
    "QDD.Props.C60_measureOneCollapsing",
    "QDD.Props.C60_call_total",
    "QDD.Props.C60_circuit_measureAll",
    "QDD.Props.C60_circuit_collapse",
    "QDD.Props.C60_double_measureAll",
    "QDD.Props.C60_double_collapse"
   ],
   "note": "for every arithmetic with the laws NumW/NumR, instantiated with the formulas of dd.h for any rounding of relative error 2^-52 and underflow error 2^-1000 and an equally accurate sqrt (u = 2^-50). Random draws are arguments in [0,1). Within the error budgets of each call (probabilities and read-out: k <= 30; one-qubit measurement: 2^(k+12) u <= 1, i.e. k <= 38). Same calls as C57; overflow and NaN excluded."
  },
  {
   "property": "C61",
   "status": "partial",
   "theorems": [
    "QDD.Props.C61_draws_partial",
    "QDD.Props.C61_draws_actual",
    "QDD.Props.C61_false"
   ],
   "note": "The result is a function of the circuits, options, values held and the numbers drawn, in all schedules and environments (C61_draws_partial for supported measured circuits, C61_draws_actual for all circuits the backend can run; same values held before). False with respect to the seed: seed_simulator is stored and never used, any seed gives both outcomes of a measured Hadamard gate with probability 1/2 (C61_false)."
  },
  {
   "property": "C62",
   "status": "partial",
   "theorems": [
    "QDD.Props.C62_partial",
    "QDD.Props.C62_wrong",
    "QDD.Props.C62_actual"
   ],
   "note": "Proved for calls as in C48 on up to 30 qubits whose terms act on qubits 0..m-1 (assuming transpilation does not move qubits: QiskitA). False otherwise: the probabilities of all qubits are read as those of the measured ones, so for every product of Zs not on qubits 0..m-1 there is a one-gate circuit with value 1 instead of -1 (C62_wrong). The normal noise added when a number of shots is given is not modelled. C62_actual: for any terms, what is computed is the exact value of the observable with every term misread: its factor on the k-th measured qubit is taken to stand on qubit k (with the letter of the basis there, or Z)."
  },
  {
   "property": "C63",
   "status": "proved",
   "theorems": [
    "QDD.Props.C63_multiplier",
    "QDD.Props.C63_measure",
    "QDD.Props.C63_exits"
   ],
   "note": "exact arithmetic (real angles; QDDcos/QDDsin use float). The gates are applied one after another by mv_multiply: addGate and buildCircuit are not members of Scheduler at this commit and shor.cpp is not compiled. run() itself is not modelled. C63_multiplier reads the vector out (2r+3 <= 30 qubits), C63_measure measures it (up to 63 qubits)."
  },
  {
   "property": "C64",
   "status": "proved",
   "theorems": [
    "QDD.Props.C64_node_count",
    "QDD.Props.C64_node_bound",
    "QDD.Props.C64_product"
   ],
   "note": "exact arithmetic"
  },
  {
   "property": "C65",
   "status": "proved",
   "theorems": [
    "QDD.Props.C65_dot_state",
    "QDD.Props.C65_dot_operation",
    "QDD.Props.C65_dot_identity"
   ],
   "note": "exact arithmetic; the drawing is a list of lines (weights exact rather than printed with six digits), read back by readV/readM; the stdout message is not modelled"
  },
  {
   "property": "C66",
   "status": "partial",
   "theorems": [
    "QDD.Props.C66_fifo",
    "QDD.Props.C66_once",
    "QDD.Props.C66_range",
    "QDD.Props.C66_bounded",
    "QDD.Props.C66_returns",
    "QDD.Props.C66_single_wrong"
   ],
   "note": "complete for two or more threads; false for one thread, where pick_next never returns once its queue was empty (C66_single_wrong; only a direct Scheduler(0) makes one). Boost's spinlock queue is trusted as an atomic FIFO whose steal refuses a pinned head"
  },
  {
   "property": "C67",
   "status": "proved",
   "theorems": [
    "QDD.Props.C67_factors_found",
    "QDD.Props.C67_factors_found_double"
   ],
   "note": "Legendre's theorem on the candidates of the continued fraction loop; 64-bit wrap-around excluded by proof; floating-point test rounded operation by operation"
  },
  {
   "property": "C68",
   "status": "proved",
   "theorems": [
    "QDD.Props.C68_circuit",
    "QDD.Props.C68_run",
    "QDD.Props.C68_clean"
   ],
   "note": "GT-ADD construction without decomposition of Toffoli gates (the one bench/shor_main.py runs; with decomposition see C72), single node, exact arithmetic. Qiskit's x, cx, ccx, h, mcp, barrier, measure_all and transpile(optimization_level=0) are taken to keep the documented meaning. measure_and_compute_order (undefined names) and the other constructions are not modelled."
  },
  {
   "property": "C69",
   "status": "proved",
   "theorems": [
    "QDD.Props.C69_near",
    "QDD.Props.C69_good",
    "QDD.Props.C69_factors",
    "QDD.Props.C69_run"
   ],
   "note": "built on C68 (the circuit) and C67 (post_processing); the repository contains both but does not connect them: sampleOf writes the reading as the string post_processing expects"
  },
  {
   "property": "C70",
   "status": "proved",
   "theorems": [
    "QDD.Props.C70_events",
    "QDD.Props.C70_answer",
    "QDD.Props.C70_average",
    "QDD.Props.C70_counts"
   ],
   "note": "from C54 by additivity of the probabilities (Yields requires integrability at every draw) and Chebyshev's inequality"
  },
  {
   "property": "C71",
   "status": "partial",
   "theorems": [
    "QDD.Props.C71_partial",
    "QDD.Props.C71_wrong",
    "QDD.Props.C71_actual"
   ],
   "note": "Proved for calls without repeated parametrised circuits whose transpiled circuits measure every qubit q last and into clbit q, unconditionally, on up to 30 qubits (assumptions on Qiskit: Qiskit, QiskitD). False otherwise: the index of a basis state is reported as that of the outcome (C71_wrong: with crossed measurements 1 instead of 2 is reported as certain). C71_actual: whatever the map, the values are those of the circuit with every qubit q measured into clbit q."
  },
  {
   "property": "C72",
   "status": "proved",
   "theorems": [
    "QDD.Props.C72_toffoli",
    "QDD.Props.C72_circuit",
    "QDD.Props.C72_run",
    "QDD.Props.C72_order",
    "QDD.Props.C72_order_run",
    "QDD.Props.C72_factors",
    "QDD.Props.C72_factors_run"
   ],
   "note": "The gates of add_c2_not_gate with decompose_toffoli in exact arithmetic. C72_run: circuits within the conditions of C54 with unconditional measurements. C72_order/C72_order_run: the factoring circuit (GT-ADD) built with decompose_toffoli, including the ancilla bookkeeping, in which the appended gates mark more qubits dirty. C72_factors/C72_factors_run: the success bounds of C69 for it."
  }
 ]
}