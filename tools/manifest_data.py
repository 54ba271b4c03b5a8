c("C01","proved",["C01_mv_multiply"],"exact arithmetic; any reachable history; every schedule of the MT build")
c("C02","proved",["C02_mm_multiply"],"exact arithmetic")
c("C03","proved",["C03_vv_add","C03_mm_add"],"exact arithmetic")
c("C04","partial",["C04_vv_kronecker","C04_mm_kronecker_partial","C04_mm_kronecker_stripped","C04_mm_kronecker_stripped_wrong"],"vectors in full; matrices only when the right operand's top level is a node; the full statement is refuted by C04_mm_kronecker_stripped_wrong (code defect)")
c("C05","proved",["C05_makeGate"])
c("C06","proved",["C06_makeTwoQubitGate"])
c("C08","proved",["C08_cx","C08_swap","C08_cswap"])
c("C09","proved",["C09_constants","C09_hadamard","C09_unitary2","C09_rotations","C09_u","C09_unitary4","C09_applies"])
c("C10","proved",["C10_makeZeroState","C10_makeOneState"])
c("C11","proved",["C11_canonical","C11_canonical_readout"])
c("C12","proved",["C12_canonical","C12_no_node_above","C12_identity_is_one"])
c("C13","proved",["C13_vector_nodes","C13_matrix_nodes"])
c("C18","proved",["C18_gc"])
c("C19","proved",["C19_gc_mat"])
c("C20","proved",["C20_transfer","C20_transfer_readout","C20_same_node","C20_get_nNodes"])
c("C21","partial",["C21_save_load_partial","C21_exactly","C21_load_wrong"],"holds up to the root weight, which save_binary drops; C21_exactly: the state comes back divided by one of its nonzero amplitudes, so it is right if and only if that is 1; C21_load_wrong shows the full statement fails")
c("C22","proved",["C22_probabilities","C22_distribution"])
c("C23","proved",["C23_measureAll","C23_measureAll_volume"])
c("C24","proved",["C24_measureAll_collapse"])
c("C25","proved",["C25_measureOneCollapsing","C25_norm"])
c("C26","proved",["C26_measureOne"])
c("C28","proved",["C28_history","C28_deterministic","C28_total"])
c("C29","proved",["C29_mt","C29_serial"])
c("C50","proved",["C50_global_phase"])
c("C51","proved",["C51_norm_preserved","C51_gate_norm"])
c("C27","proved",["C27_getVector","C27_getMatrix","C27_getVector_reachable","C27_getMatrix_reachable"],"the first two assume nothing about the weights")
c("C14","proved",["C14_lookup_ok","C14_contents","C14_not_reused","C14_unique","C14_same_node"],"law-free; lookup atomic (see C30)")
c("C15","proved",["C15_find","C15_find_exact"],"law-free")
c("C16","proved",["C16_find"],"law-free")
c("C49","proved",["C49_murmur"])
c("C41","proved",["C41_modpow","C41_gcd","C41_inverse_mod","C41_post_processing","C41_post_processing_succeeds"],"64-bit wrap-around and 32-bit overflow modelled; the floating-point closeness test is arbitrary")
c("C42","proved",["C42_linearizable","C42_at_most_once","C42_none_lost"],"sequential consistency; one shared access per step; any number of thieves")
c("C43","partial",["C43_safe_partial","C43_nested_wrong","C43_tso_wrong"],"holds under sequential consistency with at most one guard per thread; refuted for nested guards and under store buffering")
c("C44","partial",["C44_first_partial","C44_stop_partial","C44_second_wrong","C44_hang_wrong"],"registrations of the first scheduler are in range; a second one always writes out of range and stopping can hang (code defects)")
c("C30","proved",["C30_linearizable","C30_no_fault","C30_same_node","C30_answers","C30_immutable","C30_no_deadlock"],"sequential consistency; one shared access per step; thread-local allocator steps merged")
c("C46","proved",["C46_makeVEdge","C46_reachable"],"Complex of dd.h with positive tolerance; component arithmetic exact (no IEEE rounding); size is |re|+|im|")
c("C07","partial",["C07_reads_past_end","C07_matrix_partial"],"the property is false of the code: reads past the end of a vector for every gate on >= 1 qubit (C07_reads_past_end); right matrix for every value those reads may give (C07_matrix_partial)")
c("C45","partial",["C45_only_zeroes","C45_tree_partial","C45_shared_wrong","C45_thr0_wrong"],"false of the code for diagrams with shared nodes (edited in place) and for threshold <= 0; true without sharing; in general prune only sets amplitudes to 0")
c("C31","partial",["C31_block_partial","C31_wrong"],"false of the code when identity levels were stripped on the path to the block (X on qubit 0, two ranks: C31_wrong); right for aligned paths")
c("C32","partial",["C32_protocol","C32_terminates","C32_serial_partial","C32_wrong"],"protocol (no failure, no deadlock, bounded, sum of blocks) holds for all gates; equality with the serial product inherits the getMPIGate defect (C32_wrong) and is proved for aligned gates")
c("C33","partial",["C33_local","C33_global_partial","C33_wrong","C33_collapse_wrong"],"right for qubits inside the ranks and for the lowest rank qubit; false for the other rank qubits (always the marginal of the lowest one is returned) and for the collapse (getMPIGate of the projector)")
c("C34","partial",["C34_probabilities_partial","C34_getVector_partial","C34_probabilities_actual","C34_probabilities_wrong","C34_getVector_wrong"],"right if no rank's slice is zero; false otherwise; C34_probabilities_actual: what is returned then (one 0 for each zero slice held as vEdge::zero)")
c("C53","partial",["C53_measureAllMPI_partial","C53_zero_wrong"],"right for every threshold above 0; with threshold 0 a rank of weight 0 is chosen")
c("C35","partial",["C35_stable_partial","C35_false"],"false of the code for a conditional measurement (classified stable, condition ignored: C35_false); right for circuits whose measurements are unconditional")
c("C36","partial",["C36_conditions_partial","C36_exactly","C36_false"],"false of the code for registers that do not start at clbit 0 (C36_false); right for single-bit conditions and for registers at offset 0; C36_exactly says for which registers and values the test is right (if and only if)")
c("C37","partial",["C37_probabilities_partial","C37_false_map","C37_false_unmeasured","C37_actual","C37_open"],"right when clbit i is measured from qubit i; false of the code when the measurement map is not the identity, or clbits are not written; whatever the map, what is returned are the probabilities of measuring every qubit q into clbit q (C37_actual)")
c("C38","proved",["C38_counts"],"every circuit, every engine state, every draw")
c("C54","partial",["C54_run_partial","C54_actual","backend_demo"],"probability over the draws of the engine calls the run makes, on the engine model after any history; missing: the false cases of C35, C36, C56, and UnitaryGate (C07). C54_actual covers the false cases too: any circuit without UnitaryGate (and whose classification does not hang on where its QDDGates stand) is sampled from the distribution of the circuit as the backend reads it (ReadAs: controls closed, QDDGates on the lowest qubits, register conditions tested at the clbit indices, measurements unconditional when classified stable), so these are the only deviations.")
c("C55","proved",["C55_statevector","C55_actual"],"circuits of the named gates with closed controls; C55_actual: with any control states the state vector is that of the circuit with closed controls")
c("C56","partial",["C56_gates_partial","C56_false","C56_actual"],"right for closed controls; false of the code for open controls (ctrl_state ignored); C56_actual: the gate built is that with closed controls, always")
c("C40","partial",["C40_matrix_partial","C40_inline_partial","C40_again_partial","C40_nested_partial","C40_nested_matrix_partial","C40_matrix_actual","C40_actual","C40_false","C40_misplaced"],"circuits of unconditional named gates, merged gates on the lowest qubits; false of the code for conditional gates (the condition is dropped: C40_false) and for merged gates appended to other qubits (they act on the lowest: C40_misplaced); UnitaryGate raises. Merged gates inside merged circuits, and several of them, when the circuits merged later have fewer instructions than gc_freq (no gc_mat, which keeps only the circuit being merged). C40_matrix_actual and C40_actual: for every circuit of named gates, barriers, measurements and resets, with any conditions and control states, what is merged are its gates alone, controls closed and unconditional (resets are skipped silently)")
c("C39","proved",["C39_restore","C39_swap_v1","C39_swap_v2","C39_gate","C39_run","C39_actual"],"supported instructions (closed controls, aligned conditions); the distributed product and measurement are taken to act as the serial ones do (when that is so is C31-C34); traj_expect ties the specification's trajectories to the meaning of the circuit. C39_actual: the same for circuits the backend misreads, compared with the circuit as it is read")

c("C52","partial",["C52_total","C52_shots","C52_circuit","C52_binding","C52_batch_partial","C52_actual","C52_probabilities","C52_statevectors","C52_false"],"run never raises; rejected inputs give an empty unsuccessful result and no engine call; accepted jobs give one result per circuit with the joint distribution of independent executions. Partial: the claim is false when parameter_binds is shorter than the list of circuits (C52_false: circuits are dropped silently), and the batch theorem needs the circuits supported as in C54. C52_actual covers all circuits the backend can run, as the backend reads them (C54_actual); C52_probabilities and C52_statevectors are jobs without shots and with the state vector saved.")
c("C47","partial",["C47_partial","C47_quasi_partial","C47_actual","C47_false"],"Proved for calls in which no circuit with parameters occurs twice, from every reachable state of the sampler, given that Qiskit's _circuit_key separates circuits and transpile preserves distributions; false otherwise (C47_false: the call raises). C47_actual: for any transpiled circuits the backend can run (any control states, conditions and measurements) the samples are those of the circuits as the backend reads them.")
c("C48","partial",["C48_partial","C48_close_partial","C48_right_or_raises","C48_identity","C48_raises","C48_wrong"],"Sampling mode, from every reachable estimator and engine: unbiased values when every circuit of the call occurs with one observable or one values list and is asked for a non-identity term, with the mean squared error bounded and the values close with high probability (C48_close_partial); otherwise right or raising if no identity terms are involved. False in general: identity-only first circuit raises (C48_identity), several observables at several values can raise (C48_raises) or silently return a wrong value (C48_wrong). Assumes Qiskit's grouping, keys and transpilation as stated in Grouping and QiskitE.")
c("C17","proved",["C17_memory_safe","C17_rounded","C17_exact","C17_nan_counterexample"],"C17_memory_safe assumes only the laws RoundW/RoundR of the arithmetic (exact zeros, reflexive and symmetric comparison, multiplication by one, monotone rounding); C17_rounded derives these laws for the formulas of dd.h with any idempotent monotone symmetric rounding exact on 1 and tolerance in [0,1). C17_nan_counterexample shows the no-NaN assumption is needed. Matrix products, matrix sums and the SWAP gate are modelled on one thread. Signed zeros are identified; overflow to infinity is excluded.")
c("C57","proved",["C57_accuracy","C57_call_total","C57_circuit","C57_double"],"for every arithmetic with the laws NumW (rounding errors and tolerances bounded by eps), instantiated with the formulas of dd.h, tolerance 2^-42 and any rounding of relative error 2^-52 (eps = 2^-41); toZero_accurate shows 53-bit truncation qualifies. Calls covered: makeZeroState, makeOneState, makeGate, makeTwoQubitGate, CX, CSWAP, SWAP, mm_multiply, mv_multiply, gc, gc_mat, getVector (a product of matrices within the error budget of C57; SWAP counts as 184 gates). Not covered: sums, Kronecker products, scaling; measurement is C60; overflow and NaN.")
c("C58","partial",["C58_collapse","C57_call_total"],"false of the code: the uniform superposition of 84 qubits becomes the zero vector (C58_collapse, exact arithmetic with the tolerance 2^-42); within the error budget of C57 it holds (getVector returns a vector of norm above 0)")
c("C59","proved",["C59_search","C59_state"],"exact arithmetic (weights over the reals, no tolerance); the iteration count is computed over the reals (long double in the code); the oracle string is an argument; the %8 unrolling of the loop is modelled. src/algorithms/grover.cpp is the same program through the Scheduler and is not compiled.")
c("C60","proved",["C60_getVector","C60_getMatrix","C60_probabilities","C60_measureAll","C60_measureOne","C60_measureOneCollapsing","C60_call_total","C60_circuit_measureAll","C60_circuit_collapse","C60_double_measureAll","C60_double_collapse"],"for every arithmetic with the laws NumW/NumR, instantiated with the formulas of dd.h for any rounding of relative error 2^-52 and underflow error 2^-1000 and an equally accurate sqrt (u = 2^-50). Random draws are arguments in [0,1). Within the error budgets of each call (probabilities and read-out: k <= 30; one-qubit measurement: 2^(k+12) u <= 1, i.e. k <= 38). Same calls as C57; overflow and NaN excluded.")
c("C61","partial",["C61_draws_partial","C61_draws_actual","C61_false"],"The result is a function of the circuits, options, values held and the numbers drawn, in all schedules and environments (C61_draws_partial for supported measured circuits, C61_draws_actual for all circuits the backend can run; same values held before). False with respect to the seed: seed_simulator is stored and never used, any seed gives both outcomes of a measured Hadamard gate with probability 1/2 (C61_false).")
c("C62","partial",["C62_partial","C62_wrong","C62_actual"],"Proved for calls as in C48 on up to 30 qubits whose terms act on qubits 0..m-1 (assuming transpilation does not move qubits: QiskitA). False otherwise: the probabilities of all qubits are read as those of the measured ones, so for every product of Zs not on qubits 0..m-1 there is a one-gate circuit with value 1 instead of -1 (C62_wrong). The normal noise added when a number of shots is given is not modelled. C62_actual: for any terms, what is computed is the exact value of the observable with every term misread: its factor on the k-th measured qubit is taken to stand on qubit k (with the letter of the basis there, or Z).")
c("C63","proved",["C63_multiplier","C63_measure","C63_exits"],"exact arithmetic (real angles; QDDcos/QDDsin use float). The gates are applied one after another by mv_multiply: addGate and buildCircuit are not members of Scheduler at this commit and shor.cpp is not compiled. run() itself is not modelled. C63_multiplier reads the vector out (2r+3 <= 30 qubits), C63_measure measures it (up to 63 qubits).")
c("C64","proved",["C64_node_count","C64_node_bound","C64_product"],"exact arithmetic")
c("C65","proved",["C65_dot_state","C65_dot_operation","C65_dot_identity"],"exact arithmetic; the drawing is a list of lines (weights exact rather than printed with six digits), read back by readV/readM; the stdout message is not modelled")
c("C66","partial",["C66_fifo","C66_once","C66_range","C66_bounded","C66_returns","C66_single_wrong"],"complete for two or more threads; false for one thread, where pick_next never returns once its queue was empty (C66_single_wrong; only a direct Scheduler(0) makes one). Boost's spinlock queue is trusted as an atomic FIFO whose steal refuses a pinned head")
c("C67","proved",["C67_factors_found","C67_factors_found_double"],"Legendre's theorem on the candidates of the continued fraction loop; 64-bit wrap-around excluded by proof; floating-point test rounded operation by operation")
c("C68","proved",["C68_circuit","C68_run","C68_clean"],"GT-ADD construction without decomposition of Toffoli gates (the one bench/shor_main.py runs; with decomposition see C72), single node, exact arithmetic. Qiskit's x, cx, ccx, h, mcp, barrier, measure_all and transpile(optimization_level=0) are taken to keep the documented meaning. measure_and_compute_order (undefined names) and the other constructions are not modelled.")
c("C69","proved",["C69_near","C69_good","C69_factors","C69_run"],"built on C68 (the circuit) and C67 (post_processing); the repository contains both but does not connect them: sampleOf writes the reading as the string post_processing expects")
c("C70","proved",["C70_events","C70_answer","C70_average","C70_counts"],"from C54 by additivity of the probabilities (Yields requires integrability at every draw) and Chebyshev's inequality")
c("C71","partial",["C71_partial","C71_wrong","C71_actual"],"Proved for calls without repeated parametrised circuits whose transpiled circuits measure every qubit q last and into clbit q, unconditionally, on up to 30 qubits (assumptions on Qiskit: Qiskit, QiskitD). False otherwise: the index of a basis state is reported as that of the outcome (C71_wrong: with crossed measurements 1 instead of 2 is reported as certain). C71_actual: whatever the map, the values are those of the circuit with every qubit q measured into clbit q.")
c("C72","proved",["C72_toffoli","C72_circuit","C72_run","C72_order","C72_order_run","C72_factors","C72_factors_run"],"The gates of add_c2_not_gate with decompose_toffoli in exact arithmetic. C72_run: circuits within the conditions of C54 with unconditional measurements. C72_order/C72_order_run: the factoring circuit (GT-ADD) built with decompose_toffoli, including the ancilla bookkeeping, in which the appended gates mark more qubits dirty. C72_factors/C72_factors_run: the success bounds of C69 for it.")
