{"id": "C01", "title": "mv_multiply is the exact matrix-vector product", "statement": "Reading out mv_multiply(m,v) with getVector gives, at every index i, the sum over j of m[i][j]*v[j], where m and v are what getMatrix/getVector return for the operands; the operands themselves read out unchanged afterwards. (Exact weight arithmetic; tolerance 0.)", "quantifier": "every qubit count, every pair of diagrams obtainable by any earlier API history (including warm caches, shared nodes and earlier results), every hash function", "why_tests_cant": "the result depends on the contents of the unique table and of two lossy caches left by all earlier calls; tests sample a few histories and sizes", "anchors": ["src/dd.cpp:mv_multiply", "src/dd.cpp:mv_multiply2", "src/dd.cpp:vv_add2", "include/cache.hpp:MulCache"]}
{"id": "C02", "title": "mm_multiply is the exact matrix product", "statement": "getMatrix of mm_multiply(a,b) is the matrix product of getMatrix(a) and getMatrix(b) at every qubit count that covers both operands, including operands whose identity levels were stripped.", "quantifier": "every qubit count, every pair of matrix diagrams reachable by any API history", "why_tests_cant": "cached results are keyed by nodes only, not by level; correctness rests on canonicity of all diagrams ever built", "anchors": ["src/dd.cpp:mm_multiply", "src/dd.cpp:mm_multiply2", "src/dd.cpp:mm_add2"]}
{"id": "C03", "title": "vv_add and mm_add are entrywise sums", "statement": "getVector(vv_add(a,b)) is the entrywise sum of the operands; likewise getMatrix(mm_add(a,b)).", "quantifier": "every size and every pair of diagrams reachable by any API history", "why_tests_cant": "same cache/unique-table dependence as C01", "anchors": ["src/dd.cpp:vv_add", "src/dd.cpp:vv_add2", "src/dd.cpp:mm_add", "src/dd.cpp:mm_add2"]}
{"id": "C04", "title": "kronecker products", "statement": "vv_kronecker(a,b) reads out as the tensor product a (x) b (a on the high qubits); mm_kronecker(a,b) likewise for matrices of declared qubit counts.", "quantifier": "every pair of vectors / of matrices with declared qubit counts", "why_tests_cant": "matrix diagrams drop identity levels, so the position of the right operand is data dependent; tests only use right operands that fill their top level", "anchors": ["src/dd.cpp:vv_kronecker", "src/dd.cpp:mm_kronecker"]}
{"id": "C05", "title": "makeGate builds the controlled one-qubit gate", "statement": "getMatrix(makeGate(n,g,t,controls)) equals g on qubit t when every positive control bit is 1 and every negative control bit is 0, and the identity otherwise, for every placement of controls above and below t.", "quantifier": "every n, target, control set (one entry per qubit, target excluded) and 2x2 matrix g", "why_tests_cant": "2^n x 2^n entries over all placements cannot be enumerated", "anchors": ["src/dd.cpp:makeGate", "include/dd.h:Control"]}
{"id": "C06", "title": "makeTwoQubitGate builds the 4x4 gate on (t0,t1)", "statement": "getMatrix(makeTwoQubitGate(n,g,t0,t1)) is g acting on the pair of qubits (t0,t1), where t0 is the high bit of the row and column index of g (index = 2*bit(t0)+bit(t1)), and the identity elsewhere, for t0<t1 and t0>t1; with controls, only where the controls hold.", "quantifier": "every n, every pair of distinct targets, every 4x4 matrix", "why_tests_cant": "all sizes and placements", "anchors": ["src/dd.cpp:makeTwoQubitGate"]}
{"id": "C07", "title": "unitary()/makeLargeGate builds the 2^k x 2^k gate", "statement": "makeLargeGate(matrix, targets) acts as the given matrix on the listed qubits and as identity elsewhere, without undefined behaviour.", "quantifier": "every matrix and list of targets", "why_tests_cant": "the failure is an out-of-bounds read whose effect depends on memory contents", "anchors": ["src/dd.cpp:makeLargeGate"]}
{"id": "C08", "title": "SWAP, CX and CSWAP permute basis states", "statement": "SWAP(n,a,b) exchanges the bits a and b of every basis state; CX(n,t,c) flips t iff c is 1; CSWAP exchanges iff the control is 1.", "quantifier": "every n, every choice of distinct qubits, every basis state", "why_tests_cant": "all sizes", "anchors": ["src/dd.cpp:SWAP", "src/dd.cpp:CX", "src/dd.cpp:CSWAP"]}
{"id": "C09", "title": "named gate matrices satisfy their defining relations", "statement": "Each named one-qubit matrix and each parametrised rotation/U gate is unitary for every angle, and satisfies its defining relations (S^2=Z, T^2=S, SX^2=X, V ~ SX up to phase, R(a)R(b)=R(a+b) for the axis rotations, u1/u2/u3 specialisations).", "quantifier": "every real angle", "why_tests_cant": "angles are a continuum", "anchors": ["include/common.h:Hmat", "src/dd.cpp:RX", "src/dd.cpp:U3"]}
{"id": "C10", "title": "initial states", "statement": "makeZeroState(n) reads out as the basis vector 0...0 and makeOneState(n) as 1...1, whatever was computed before.", "quantifier": "every n>=1 and every prior history", "why_tests_cant": "depends on the unique table contents left by the history", "anchors": ["src/dd.cpp:makeZeroState", "src/dd.cpp:makeOneState"]}
{"id": "C11", "title": "vector diagrams are canonical", "statement": "Two nonzero state vectors with the same qubit count read out identically if and only if their edges are equal (same pointer, same weight), however they were computed.", "quantifier": "every pair of edges obtained by any two API histories in the same table", "why_tests_cant": "quantifies over pairs of histories", "anchors": ["src/dd.cpp:makeVEdge", "src/dd.cpp:normalizeV", "include/table.hpp:lookup"]}
{"id": "C12", "title": "matrix diagrams are canonical, with identity stripping", "statement": "Two nonzero matrix diagrams read out identically at one qubit count iff their edges are equal; in particular a matrix that acts as the identity on its top qubits never has a node at those levels.", "quantifier": "every pair of matrix edges obtained by any API histories", "why_tests_cant": "quantifies over pairs of histories; skipped levels make equal matrices look different", "anchors": ["src/dd.cpp:makeMEdge", "src/dd.cpp:normalizeM"]}
{"id": "C13", "title": "stored nodes are in normal form", "statement": "Every node in the unique tables has a child of weight exactly 1 that no other child exceeds in magnitude (so all child magnitudes are <= 1), zero-weight children are the terminal zero edge, vector children sit exactly one level below, matrix children strictly below, and no stored matrix node is a strippable identity level.", "quantifier": "every stored node after every API history", "why_tests_cant": "invariant of all reachable heaps", "anchors": ["src/dd.cpp:normalizeV", "src/dd.cpp:normalizeM"]}
{"id": "C14", "title": "unique table: one node per content, contents never change", "statement": "After any interleaving of getNode, returnNode and lookup calls: lookup returns a node with the looked-up content that stays registered; no two registered nodes have equal content in a bucket; registered nodes are never handed out by getNode and never altered. Holds for every weight type, including IEEE doubles.", "quantifier": "every operation history, every hash function, every weight arithmetic", "why_tests_cant": "aliasing bugs need particular recycle/lookup histories", "anchors": ["include/table.hpp:getNode", "include/table.hpp:returnNode", "include/table.hpp:lookup"]}
{"id": "C15", "title": "AddCache never returns a wrong sum", "statement": "Whatever sequence of set/find/clearAll calls (collisions and overwrites included), a hit for (a,b) returns a result that was stored for an (approximately) equal pair, in either order.", "quantifier": "every history of cache calls, every hash", "why_tests_cant": "lossy direct-mapped cache, failures need collisions", "anchors": ["include/cache.hpp:AddCache"]}
{"id": "C16", "title": "MulCache never returns a wrong product", "statement": "Whatever sequence of set/find/clearAll calls, eviction included and with arbitrary uninitialised memory in fresh buckets, a hit for (l,r) returns the result most recently stored for exactly (l,r) or an earlier store for exactly (l,r), never another key's.", "quantifier": "every history of cache calls, every hash, every content of uninitialised memory", "why_tests_cant": "4-way eviction and uninitialised memory are not controllable from tests", "anchors": ["include/cache.hpp:MulCache"]}
{"id": "C17", "title": "no API call on live handles makes an invalid access or fails an assertion", "statement": "Starting from program start, any sequence of the modelled API calls on live handles never dereferences a freed or null node, never indexes a table or array out of range, never overflows an integer and never trips an assert, and always completes, whatever the rounding of the floating-point results is, as long as no arithmetic operation overflows or yields NaN (with NaN the claim is false: a product with a terminal edge of weight NaN trips an assert).", "quantifier": "every API history, every schedule, every hash function, every rounding of the weight arithmetic and every tolerance below one", "why_tests_cant": "memory errors depend on the history and on rounding", "anchors": ["src/dd.cpp", "include/table.hpp", "include/cache.hpp"]}
{"id": "C18", "title": "gc preserves the states passed to it", "statement": "After gc(states, force) each returned state reads out exactly as before, for any list of states (shared structure, zero states, duplicates), and later operations on them behave as if gc had not run.", "quantifier": "every list of live states after every history, every force/threshold setting", "why_tests_cant": "needs all heap shapes and all later histories", "anchors": ["src/dd.cpp:gc", "src/dd.cpp:vNode_to_vec", "src/dd.cpp:vec_to_vNode"]}
{"id": "C19", "title": "gc_mat preserves the matrices passed to it", "statement": "After gc_mat(mats, force) each returned matrix reads out exactly as before at every qubit count, and live vectors are untouched.", "quantifier": "every list of live matrices after every history", "why_tests_cant": "same as C18", "anchors": ["src/dd.cpp:gc_mat", "src/dd.cpp:mNode_to_vec", "src/dd.cpp:vec_to_mNode"]}
{"id": "C20", "title": "serialisation round trip and node count", "statement": "vec_to_vNode(vNode_to_vec(n)) rebuilds a diagram with identical amplitudes in any target table; in the same table it returns the very same node; get_nNodes(e) is the number of distinct nonterminal nodes reachable from e.", "quantifier": "every diagram, every target table state", "why_tests_cant": "all DAG shapes", "anchors": ["src/dd.cpp:vNode_to_vec", "src/dd.cpp:vec_to_vNode", "src/dd.cpp:get_nNodes"]}
{"id": "C21", "title": "save_binary/load_binary round trip", "statement": "Loading a saved state gives back the state that was saved.", "quantifier": "every state", "why_tests_cant": "root weight is data dependent (it is 1 in simple tests)", "anchors": ["src/dd.cpp:save_binary", "src/dd.cpp:load_binary"]}
{"id": "C22", "title": "probabilities() are |amplitude|^2 / norm^2", "statement": "probabilities(v) returns, in index order, |getVector(v)[i]|^2 divided by the squared norm; the entries are nonnegative and sum to 1; the global memo left by earlier calls never changes the answer.", "quantifier": "every nonzero state after every history", "why_tests_cant": "the memo is global mutable state keyed by node address", "anchors": ["src/dd.cpp:probabilities", "src/dd.cpp:assignProbabilities"]}
{"id": "C23", "title": "measureAll samples the Born distribution", "statement": "For every sequence of random draws, measureAll returns a string of n characters naming a basis state of nonzero probability, and the set of draws that lead to outcome x is a box of volume exactly P(x).", "quantifier": "every nonzero state, every sequence of draws in [0,1)", "why_tests_cant": "probability-zero outcomes and boundary draws are not hit by sampling", "anchors": ["src/dd.cpp:measureAll"]}
{"id": "C24", "title": "measureAll(collapse) leaves the measured basis state", "statement": "With collapse the state afterwards reads out as the basis vector named by the returned string (amplitude 1); without collapse the state is unchanged.", "quantifier": "every state, every sequence of draws", "why_tests_cant": "all outcomes of all states", "anchors": ["src/dd.cpp:measureAll"]}
{"id": "C25", "title": "measureOneCollapsing projects and renormalises", "statement": "For a state of norm 1, measureOneCollapsing(q) returns the outcome picked by the draw with the Born marginal, the new state is the projection divided by the square root of that marginal and has norm 1 again; an outcome of probability zero is never returned; it throws iff the norm deviates by more than epsilon.", "quantifier": "every state, qubit and draw", "why_tests_cant": "continuum of states and draws", "anchors": ["src/dd.cpp:measureOneCollapsing", "src/dd.cpp:determineMeasurementProbabilities"]}
{"id": "C26", "title": "measureOne returns the marginal of 0", "statement": "measureOne(q) returns the sum of |amplitude|^2 over basis states with bit q equal to 0, divided by the squared norm, and does not change the state.", "quantifier": "every state and qubit", "why_tests_cant": "breadth-first accumulation over all DAG shapes", "anchors": ["src/dd.cpp:measureOne", "src/dd.cpp:determineMeasurementProbabilities"]}
{"id": "C27", "title": "getVector/getMatrix read out the diagram", "statement": "getVector returns 2^n entries, each the product of weights along the path of its index; getMatrix(n) likewise with identity on skipped levels; every array cell is written exactly as specified.", "quantifier": "every diagram and every index", "why_tests_cant": "all sizes", "anchors": ["src/dd.cpp:fillVector", "src/dd.cpp:getVector", "src/dd.cpp:fillMatrix", "src/dd.cpp:getMatrix"]}
{"id": "C28", "title": "any API history behaves like linear algebra", "statement": "For any program of API calls on handles (states, gates, products, sums, gc, gc_mat, readouts, measurements), every observable output equals what the same program gives on plain vectors and matrices with no tables, caches or garbage collection.", "quantifier": "every finite sequence of API calls", "why_tests_cant": "unbounded histories", "anchors": ["src/dd.cpp"]}
{"id": "C29", "title": "multithreaded mv_multiply gives the serial answer under every schedule", "statement": "In the MT build, with any number of worker threads, any interleaving of the fibers spawned by mv_multiply2/vv_add2 terminates, raises no error and returns the exact product.", "quantifier": "every schedule of fibers on threads", "why_tests_cant": "schedules cannot be enumerated by tests", "anchors": ["src/dd.cpp:mv_multiply2", "src/dd.cpp:vv_add2", "include/table.hpp:lookup"]}
{"id": "C30", "title": "concurrent lookup is atomic under the bucket lock", "statement": "If several threads run lookup at instruction granularity under the per-bucket spin lock, each call has the effect of an atomic lookup; equal contents get the same node.", "quantifier": "every interleaving of any number of threads", "why_tests_cant": "race conditions", "anchors": ["include/table.hpp:lookup"]}
{"id": "C31", "title": "getMPIGate extracts the block (row,col) of a gate", "statement": "getMPIGate(g,row,col,size) denotes the (row,col) block of the full gate matrix.", "quantifier": "every gate, every rank count and block", "why_tests_cant": "depends on which levels were stripped", "anchors": ["src/dd.cpp:getMPIGate"]}
{"id": "C32", "title": "distributed product equals the serial product", "statement": "mv_multiply_MPI and mv_multiply_MPI_bcast leave on rank r the r-th slice of the serial product.", "quantifier": "every gate, every distributed state, every number of ranks 2^g", "why_tests_cant": "all rank counts, all gates", "anchors": ["src/dd.cpp:mv_multiply_MPI", "src/dd.cpp:mv_multiply_MPI_bcast"]}
{"id": "C33", "title": "measuring a global qubit under MPI", "statement": "measureOneMPI/measureOneCollapsingMPI of a qubit held in the rank index returns the marginal of that qubit.", "quantifier": "every global qubit index and rank count", "why_tests_cant": "needs more than two global qubits to show", "anchors": ["src/dd.cpp:measureOneMPI", "src/dd.cpp:measureOneCollapsingMPI"]}
{"id": "C34", "title": "gathering distributed vectors keeps positions", "statement": "getVectorMPI/probabilitiesMPI return the entries of all ranks at their global index.", "quantifier": "every distributed state", "why_tests_cant": "ranks whose slice is zero hold a terminal edge", "anchors": ["src/dd.cpp:getVectorMPI", "src/dd.cpp:probabilitiesMPI"]}
{"id": "C35", "title": "stable_final_state classification is sound", "statement": "When the backend classifies a circuit as having a stable final state (sampled from one simulation), sampling from the final state gives the same distribution of counts as executing the circuit shot by shot.", "quantifier": "every circuit", "why_tests_cant": "classification is syntactic; a counterexample needs conditionals on measurements", "anchors": ["qdd/qdd_backend.py:_create_experiment_header", "qdd/circuit_property.py"]}
{"id": "C36", "title": "register conditions test the register value", "statement": "An operation conditioned on classical register c having value v runs iff the current value of c is v.", "quantifier": "every register layout, width and value", "why_tests_cant": "depends on the offset of the register among all clbits", "anchors": ["qdd/qdd_backend.py:_evaluate_condition"]}
{"id": "C37", "title": "shots=None returns outcome probabilities", "statement": "With shots=None the result gives the probability of each classical outcome.", "quantifier": "every circuit", "why_tests_cant": "circuits with mid-circuit measurement or partial measurement", "anchors": ["qdd/qdd_backend.py"]}
{"id": "C38", "title": "counts have the right total and width", "statement": "With shots=s the counts sum to s and every key has exactly one character per clbit, positioned by clbit index.", "quantifier": "every circuit, every s, every measurement map", "why_tests_cant": "all layouts", "anchors": ["qdd/qdd_backend.py"]}
{"id": "C39", "title": "MPI qubit swapping keeps the logical-physical map right", "statement": "do_swap_v1/do_swap_v2/restore_swap maintain a permutation such that applying a gate at the mapped physical qubits equals applying it at the logical qubits, and restore_swap returns to the identity map.", "quantifier": "every circuit, every number of global qubits", "why_tests_cant": "all gate sequences", "anchors": ["qdd/qdd_backend.py:do_swap_v1", "qdd/qdd_backend.py:do_swap_v2", "qdd/qdd_backend.py:restore_swap"]}
{"id": "C40", "title": "merge_circuit preserves the circuit's meaning", "statement": "Merging consecutive gates into one matrix before applying gives the same final state as applying them one by one.", "quantifier": "every gate list and merge threshold", "why_tests_cant": "all gate sequences", "anchors": ["qdd/qdd_backend.py"]}
{"id": "C41", "title": "Shor arithmetic", "statement": "modpow, gcd and inverse_mod compute their mathematical functions; when post_processing reports success the two reported factors are nontrivial and multiply to n.", "quantifier": "every argument in the non-overflow range", "why_tests_cant": "unbounded integers", "anchors": ["src/algorithms/shor.cpp"]}
{"id": "C42", "title": "work-stealing queue loses and duplicates nothing", "statement": "Under sequential consistency, in any interleaving of one owner (push/pop) and any number of thieves (steal), every pushed item is taken at most once, and none is lost.", "quantifier": "every interleaving and any number of thieves", "why_tests_cant": "race conditions", "anchors": ["include/wsq.hpp"]}
{"id": "C43", "title": "epoch reclamation never frees a node a reader may hold", "statement": "Memory retired in an epoch is only freed when no thread that entered at or before that epoch is still inside.", "quantifier": "every interleaving of enter/exit/retire/reclaim", "why_tests_cant": "race conditions", "anchors": ["include/epoch.h", "src/epoch.cpp"]}
{"id": "C44", "title": "Scheduler can be created and destroyed repeatedly", "statement": "Constructing and destroying the fiber scheduler any number of times neither indexes out of range nor hangs.", "quantifier": "every sequence of jobs with n_threads>1 and every schedule", "why_tests_cant": "lost wake-ups depend on timing", "anchors": ["src/task.cpp", "include/task.h"]}
{"id": "C45", "title": "prune only removes small contributions", "statement": "prune(v,thr) changes the amplitude of a basis state only if its path weight product was below thr.", "quantifier": "every state and threshold", "why_tests_cant": "sharing between heavy and light paths", "anchors": ["src/dd.cpp:prune"]}
{"id": "C46", "title": "tolerance only merges values within tolerance", "statement": "With the real tolerance, makeVEdge/lookup return a node whose every child weight differs from the requested one by at most the tolerance in each component, and zero-snapping removes only weights within tolerance of 0; so one construction step changes each amplitude by at most a bound proportional to the tolerance.", "quantifier": "every pair of children and every table state", "why_tests_cant": "continuum of weights", "anchors": ["include/dd.h:Complex", "src/dd.cpp:normalizeV", "include/table.hpp:lookup"]}
{"id": "C47", "title": "Sampler accepts any batch", "statement": "The sampler returns one quasi-distribution per submitted circuit, in order, made of independent samples of that circuit with its own parameter values, whatever was submitted to the sampler before; each is a probability distribution, and with N shots it gives a key a value within e of the key's probability with probability at least 1 - 1/(4 N e^2).", "quantifier": "every list of (circuit, parameter values), every sequence of earlier calls, every engine state and schedule", "why_tests_cant": "needs repeated parametrised circuits; joint distributions; caches of earlier calls", "anchors": ["qdd/qdd_sampler.py"]}
{"id": "C48", "title": "Estimator pairs each observable with its circuit and parameters", "statement": "QddEstimator.run returns for every i an unbiased estimate of the expectation value of observables[i] in circuits[i] at parameter_values[i]; with N shots it is off by eps or more with probability at most (sum of |coefficients|)^2 / (N eps^2).", "quantifier": "every list of triples", "why_tests_cant": "grouping permutes the experiments", "anchors": ["qdd/qdd_estimator.py"]}
{"id": "C49", "title": "murmur_hash is a bijection on 64-bit words", "statement": "Distinct node addresses never collide before the reduction modulo the bucket count.", "quantifier": "all 2^64 inputs", "why_tests_cant": "2^64 inputs", "anchors": ["include/common.h:murmur_hash"]}
{"id": "C50", "title": "global phase does not change probabilities", "statement": "applyGlobal (multiplying the root weight by a unit complex number) changes no probability and no measurement outcome.", "quantifier": "every state, every angle, every sequence of draws", "why_tests_cant": "continuum", "anchors": ["qdd/bindings.cpp", "src/dd.cpp"]}
{"id": "C51", "title": "unitary gates preserve the norm", "statement": "If getMatrix(m) is unitary then mv_multiply(m,v) has the norm of v.", "quantifier": "every unitary and every state", "why_tests_cant": "continuum", "anchors": ["src/dd.cpp:mv_multiply"]}
{"id": "C52", "title": "run options are validated; failures are reported", "statement": "QddBackend.run never raises and never returns a partial answer: a bad number of shots, a binding that does not fit, a circuit with more than 100 qubits or (without state vector) without measurement gives a job with status ERROR and an unsuccessful, empty result, without anything being executed; otherwise the job is done and has one result per submitted circuit, in order, each for its own parameter binding, sampled independently. Unknown options change nothing.", "quantifier": "every option value, list of circuits and bindings, engine state, schedule, draws", "why_tests_cant": "all option combinations and a joint distribution", "anchors": ["qdd/qdd_backend.py", "qdd/qdd_failed_job.py"]}
{"id": "C53", "title": "measureAllMPI samples the distributed state", "statement": "measureAllMPI returns the same n-character string on every rank, drawn with the Born probabilities of the whole state; strings of amplitude 0 are never returned.", "quantifier": "every distributed state, every number of ranks 2^g, all random draws of all ranks", "why_tests_cant": "a continuum of draws; zero slices and boundary draws", "anchors": ["src/dd.cpp:measureAllMPI"]}
{"id": "C54", "title": "a run with shots samples the circuit's distribution", "statement": "backend.run(circuit, shots=s) returns a memory of s keys; the probability of each memory is the product of the probabilities the circuit's quantum semantics (gates, measurements, resets, classical conditions) gives its keys: shots are independent and identically distributed.", "quantifier": "every circuit, every engine history before the run, every number of shots, all draws", "why_tests_cant": "a distribution over a continuum of draws, for every circuit", "anchors": ["qdd/qdd_backend.py:_evaluate_circuit", "qdd/bindings.cpp", "src/dd.cpp:measureAll", "src/dd.cpp:measureOneCollapsing"]}
{"id": "C55", "title": "the saved state vector is the circuit applied to |0...0>", "statement": "For a circuit of the named gates (closed controls) with a stable final state on at most 30 qubits, the state vector in the result is the product of the gates applied to |0...0>, including the global phase.", "quantifier": "every such circuit, every engine history before the run", "why_tests_cant": "a continuum of parameters and all circuits", "anchors": ["qdd/qdd_backend.py:_evaluate_circuit", "qdd/bindings.cpp:applyGlobal", "src/dd.cpp:getVector"]}
{"id": "C56", "title": "the backend's gate tables build Qiskit's gates", "statement": "For every supported gate name, parameters, qubits and control state the matrix given to the engine is the matrix of the Qiskit gate.", "quantifier": "every gate name, every parameter value, every choice of qubits, every control state", "why_tests_cant": "a continuum of parameters; every arrangement of qubits", "anchors": ["qdd/qdd_backend.py", "qdd/bindings.cpp", "src/dd.cpp:makeGate", "src/dd.cpp:makeTwoQubitGate"]}
{"id": "C57", "title": "amplitudes are accurate in double arithmetic", "statement": "After any history of state creations, gates with entries correct to 2^-41 (SWAP included), products of gates, matrix-vector products and collections, in double arithmetic with the engine's tolerances, the vector getVector returns is within sqrt(2^k)*1100*2^-41*(k+1)^2*(m+1) in 2-norm of the exact state, k the number of qubits and m the number of calls the state went through (a SWAP counts 184, a product of matrices as the sum of its operands' counts and row lengths, weighted by row lengths), as long as the bound before the last call is below 1.", "quantifier": "every circuit, every rounding mode, all hash functions, thread counts and schedules", "why_tests_cant": "rounding errors and tolerances depend on the whole history and on which equal nodes were merged first", "anchors": ["include/dd.h:Complex", "src/dd.cpp:mv_multiply", "src/dd.cpp:vv_add", "src/dd.cpp:makeGate", "src/dd.cpp:normalizeV", "src/dd.cpp:getVector"]}
{"id": "C58", "title": "a unitary gate never erases a state", "statement": "A unitary gate applied to a state of norm 1 on up to 100 qubits gives a state that is not the zero vector; measuring all qubits of it returns one bit per qubit.", "quantifier": "every register up to the limit of 100 qubits, every state, every unitary gate", "why_tests_cant": "the tolerance is absolute: small amplitudes only occur on wide registers, out of reach of state vector tests", "anchors": ["include/dd.h:TOLERANCE", "src/dd.cpp:mv_multiply", "src/dd.cpp:measureAll"]}
{"id": "C59", "title": "Grover search finds the marked string", "statement": "For every oracle string of n characters (1 <= n <= 99) the Grover program (gates multiplied into one iteration matrix, applied the computed number k of times to the prepared state) runs without error from every reachable engine state, and measuring all qubits gives '1' followed by the oracle string (highest qubit first) with probability exactly sin^2((2k+1) arcsin(2^(-n/2))), which is at least 1 - 2/2^n.", "quantifier": "every oracle string, every n up to the qubit limit, every history before, every schedule, all draws", "why_tests_cant": "the probability is over all draws; test runs use one seeded oracle and never look at the result", "anchors": ["test/test_performance.cpp:grover", "test/test_performance.cpp:groverIteration", "test/test_performance.cpp:buildUnitary", "src/algorithms/grover.cpp:grover", "src/dd.cpp:mm_multiply", "src/dd.cpp:mv_multiply", "src/dd.cpp:measureAll"]}
{"id": "C60", "title": "measurement is accurate in double arithmetic", "statement": "After any history of state creations, gates, products, collections and measurements in double arithmetic with the engine's tolerances, where the exact states collapse to the outcomes that were returned: getMatrix returns every entry of a gate or product of gates within 100*2^-41*(n+1)^2*(c+1), c the count of the handle; probabilities returns every Born probability within 4E+384k^2u; measureAll partitions the unit cube of its draws into one box per basis state, whose volumes differ from the Born probabilities by at most 4E+256k^2u in total; measureOne and the threshold of measureOneCollapsing are within 4E+2^(k+10)u of the exact marginal, and no exception is thrown if the tolerance argument is above that; after measureOneCollapsing the stored state is the exact collapsed state up to an error explicit in E and the probability of the outcome. E is the error bound of C57 of the measured state, u = 2^-50.", "quantifier": "every circuit with intermediate measurements, every rounding mode, all draws, hash functions, thread counts and schedules", "why_tests_cant": "a continuum of draws; rounding errors depend on the whole history; the renormalisation factor amplifies the error of unlikely outcomes", "anchors": ["src/dd.cpp:assignProbabilities", "src/dd.cpp:measureAll", "src/dd.cpp:determineMeasurementProbabilities", "src/dd.cpp:measureOne", "src/dd.cpp:measureOneCollapsing", "include/dd.h:Complex"]}
{"id": "C61", "title": "a job is reproducible", "statement": "The result of a job is determined by its circuits, options, seed_simulator and the values the process holds: it does not depend on thread schedules, hash functions, addresses, cache contents, the multi-threading option or collections, nor on anything but the seed otherwise.", "quantifier": "every list of supported measured circuits, every seed, every pair of engine histories holding the same values, every schedule", "why_tests_cant": "non-reproducibility shows only across processes, schedules and memory layouts; a test that fixes the seed and checks a statistical bound passes anyway", "anchors": ["qdd/qdd_backend.py:_run_internal", "qdd/bindings.cpp:mt", "qdd/qdd_estimator.py:Estimator", "qdd/qdd_sampler.py:Sampler"]}
{"id": "C62", "title": "the estimator without sampling is exact", "statement": "With approximation=True and no number of shots, the estimator returns for each entry exactly the expectation value of its observable in the final state of its circuit with its parameter values, without randomness.", "quantifier": "every list of circuits, observables and parameter values; every earlier use of the estimator; every engine history", "why_tests_cant": "every observable and every arrangement of the qubits it acts on; tests use observables on all qubits, or on the lowest ones", "anchors": ["qdd/qdd_estimator.py:_PostProcessing.run", "qdd/qdd_estimator.py:_pauli_expval_with_variance_from_dist", "qdd/qdd_estimator.py:_compute", "qdd/qdd_backend.py:_evaluate_circuit"]}
{"id": "C63", "title": "Shor's modular multiplier multiplies", "statement": "For every modulus N (1 < N <= 2^30) and every a < N coprime to N, the circuit added by u_a(a, N, 0), applied to any state of the 2r+3 qubits (r the bit length) that is a superposition of basis states with some number x < N in its register and the sum and ancilla qubits 0, gives the state in which x is replaced by a x mod N where the control qubit is 1, is kept where it is 0, and all other qubits are 0 again; for a not coprime to N the program exits.", "quantifier": "every modulus, every multiplier, every superposition, every history before, every schedule", "why_tests_cant": "2^r numbers x for every N and a, each through thousands of gates; nothing in the repository runs the circuit", "anchors": ["src/algorithms/shor.cpp:u_a", "src/algorithms/shor.cpp:cmult", "src/algorithms/shor.cpp:cmult_inv", "src/algorithms/shor.cpp:mod_add_phi", "src/algorithms/shor.cpp:mod_add_phi_inv", "src/algorithms/shor.cpp:add_phi", "src/algorithms/shor.cpp:qft", "src/algorithms/shor.cpp:qft_inv", "src/algorithms/shor.cpp:inverse_mod"]}
{"id": "C64", "title": "the number of nodes is the number of different parts", "statement": "In every reachable state, get_nNodes of a nonzero state on n qubits is the number of its nonzero parts (the vectors left when the upper n-l qubits are fixed, l = 1..n), parts that are multiples of each other counted once; so it never exceeds 2^n - 1, and a product state takes exactly n nodes. It depends on nothing else: not on how the state was made, hash functions or schedules.", "quantifier": "every reachable engine state, every nonzero state of any number of qubits", "why_tests_cant": "the sizes users rely on are a property of all vectors; a missed sharing shows only as a larger number", "anchors": ["src/dd.cpp:get_nNodes", "src/dd.cpp:vNode_to_vec", "src/dd.cpp:makeVEdge", "src/dd.cpp:normalizeV", "qdd/bindings.cpp:get_nNodes"]}
{"id": "C65", "title": "the drawing of a diagram says what it is", "statement": "In every reachable state, genDot of a nonzero state or of an operation that is not a multiple of the identity declares every node once, draws arrows only between declared nodes and the terminal, as many nodes as get_nNodes counts, and multiplying the weights along the drawn paths gives back exactly every amplitude or matrix entry; genDot of a nonzero multiple of the identity fails its assertion. (Labels of state nodes count from the top qubit, labels of operation nodes are qubit numbers.)", "quantifier": "every reachable engine state, every state and operation", "why_tests_cant": "sharing makes the traversal skip nodes it has seen; a lost arrow or node shows only in diagrams with the right sharing", "anchors": ["src/dd.cpp:genDot", "src/dd.cpp:genDot2", "qdd/bindings.cpp:genDot"]}
{"id": "C66", "title": "every ready fiber is picked exactly once", "statement": "For every number of threads and every interleaving of awakened and pick_next: the fibers handed to a thread are picked (by it or by thieves) oldest first, none is lost, duplicated or invented; accesses to the table of schedulers are in range and never to the thread's own entry; a pinned fiber is never taken by another thread; pick_next tries to steal at most as many times as there are threads and can always return.", "quantifier": "every number of threads, every schedule, every sequence of draws", "why_tests_cant": "lost or doubled fibers depend on the interleaving of owner and thieves", "anchors": ["src/task.cpp:my_ws::awakened", "src/task.cpp:my_ws::pick_next", "include/task.h:my_ws::steal"]}
{"id": "C67", "title": "Shor post-processing finds the factors from every ideal measurement", "statement": "Let n be odd, r the order of a modulo n, even, with a^(r/2) not -1 modulo n. If the measured bits are the nearest integer to k*2^(2*required_bits)/r for some 0 < k < r (also when k and r share factors), post_processing returns two proper factors whose product is n, although its closeness test is done in double arithmetic (for n up to 2^15; for larger n whenever the test is right up to a relative error 1/n).", "quantifier": "every n, a, k and measured string", "why_tests_cant": "infinitely many numbers; continued fractions of any length", "anchors": ["src/algorithms/shor.cpp:264-413"]}
{"id": "C68", "title": "the order-finding benchmark finds orders", "statement": "For every N >= 2 and every a coprime to N, QuantumCircuitForFactoringWithQulacs(N, 'GT-ADD') followed by find_order_algorithm(a, measure=False) builds without exception a circuit on 4n+2 qubits (n the bit length of N); with measure_all, run on the backend (4n+2 <= 100) after any history with s shots, it gives outcomes that are independent, each reading z from the first 2n qubits and y from the others with probability |2^(-2n) * sum over x < 2^(2n) with a^x mod N = y of exp(-2 pi i z x / 2^(2n))|^2 - so all ancillas are 0 and y < N, whatever clean or dirty qubits the gates borrow.", "quantifier": "every N, every a coprime to N, both settings of use_clean_management, every history, every number of shots", "why_tests_cant": "for each N and a the circuit has thousands of gates on 2^(4n+2) amplitudes; the repository never checks what the benchmark measured", "anchors": ["bench/QuantumFactoring.py:find_order_algorithm", "bench/QuantumFactoring.py:add_mod_exp_circuit", "bench/QuantumFactoring.py:add_inverse_qft_circuit", "bench/shor_main.py", "qdd/qdd_backend.py:run"]}
{"id": "C69", "title": "one shot of the benchmark gives the factors with constant probability", "statement": "Let r be the order of a modulo N. One shot of the benchmark's circuit reads the nearest integer to k*2^(2n)/r from the first register with probability at least (1-1/N)^2/(4r), for each k; a nonzero multiple with probability at least (1-1/N)^2 (r-1)/(4r). If N < 2^15 is odd, r is even and a^(r/2) is not -1 modulo N, then with at least that probability p Shor::post_processing (in double arithmetic) returns two proper factors of N from the reading, and s shots on the backend give at least one such reading with probability at least 1-(1-p)^s, after any history.", "quantifier": "every N, every a, every rounding of the closeness test", "why_tests_cant": "a statement about a probability over 2^(2n) outcomes, for infinitely many N", "anchors": ["bench/QuantumFactoring.py:find_order_algorithm", "src/algorithms/shor.cpp:264-413"]}
{"id": "C70", "title": "frequencies of the shots approach the probabilities", "statement": "For every circuit within the conditions of C54 (gates with closed controls, aligned conditions, unconditional measurements where the circuit is sampled from one simulation) and every number s > 0 of shots, after any history: run returns s outcomes of one character per clbit with probability 1; any statement about the list of outcomes is true with the probability that it is true of s independent executions; the average of any function of the outcome is within e of its mean with probability at least 1 - variance/(s e^2); counts[key]/s is within e of the probability of key with probability at least 1 - 1/(4 s e^2).", "quantifier": "every circuit within the conditions, every key, s, e, every history and schedule", "why_tests_cant": "a law of large numbers over all circuits and histories; tests compare a few frequencies with wide margins", "anchors": ["qdd/qdd_backend.py:_run_experiment", "qdd/qdd_backend.py:_evaluate_circuit", "src/dd.cpp:measureAll", "src/dd.cpp:measureOneCollapsing"]}
{"id": "C71", "title": "the sampler without sampling is exact", "statement": "A call of the Sampler with shots=None returns, with certainty and for every circuit in order, the quasi-distribution whose entry i is exactly the probability that a run of this circuit with its parameter values ends with clbit q equal to bit q of i, for all clbits q - whatever calls were made before.", "quantifier": "every list of circuits and parameter values, every history of the sampler and the engine", "why_tests_cant": "exactness over all circuits and parameter values; tests compare a few circuits, all measured by measure_all", "anchors": ["qdd/qdd_sampler.py:_call", "qdd/qdd_sampler.py:_run", "qdd/qdd_backend.py:_evaluate_circuit", "src/dd.cpp:getVector"]}
{"id": "C72", "title": "the Toffoli decomposition of the factoring benchmark", "statement": "With decompose_toffoli, the fifteen gates appended for add_c2_not_gate(a, b, t) act on every state of any number of qubits exactly as the Toffoli gate on a, b, t, without any phase. Hence replacing all unconditional Toffoli gates of any circuit by them leaves the probability of every outcome unchanged, and the backend gives every list of outcomes with the same probability for both circuits, after any history. The order-finding circuit built with decompose_toffoli, whose management of ancillas differs, still has the outcome distribution of order finding (C68) for every modulus and base, and the success probability of C69.", "quantifier": "every number of qubits, three distinct qubits, every state, every circuit and history; every modulus and base", "why_tests_cant": "an identity of operators on every state and its effect inside every circuit; the benchmark's circuits are compared by nobody", "anchors": ["bench/QuantumFactoring.py:add_c2_not_gate", "qdd/qdd_backend.py:_evaluate_circuit"]}
