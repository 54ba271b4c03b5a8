# Formal model of Fujitsu-UTokyo-QDD/QDD in Lean 4

## 1. Trusted base

* The Lean 4.33.0 kernel. Every theorem depends at most on the axioms `propext`, `Classical.choice`, `Quot.sound`
  (check with `#print axioms`). No axioms are added; no `native_decide` or `bv_decide`. `decide +kernel` is used for a few
  closed evaluations; the kernel reduces them itself.
* My reading of the C++ and Python source into the definitions under `lean/Verif/`. Every definition of the model cites
  file and lines of `/repo`. The code was never run.
* For the Python layer: what Qiskit does (section 5).

Mathlib supplies the mathematics (fields, sums, complex numbers, floor); its theorems are checked by the same kernel.

## 2. How the model is built

**Weights.** `WOps W` (Core/Weights) is a class of the operations the C++ performs on `Complex` (`+ * /`,
`isApproximatelyZero`, `isApproximatelyEqual`, `norm == 0`, `norm <`), without laws. The code is modelled once, over `WOps`.
Four families of arithmetic are then used:
* `ExactW`: the operations are those of a field and the tolerance is 0 (`Cx K 0` over any ordered field `K`). The
  functional-correctness theorems (C01–C13, C18–C29, C50, C51, and the Python layer over ℝ) are about this arithmetic.
* `Cx K tol`: the formulas of dd.h with a real tolerance, exact operations (C46).
* `RoundW`/`RoundR` (Safe/): a handful of laws that survive rounding, e.g. `a * 1 = a`, zero times anything is zero, rounding
  is monotone. `Safe/Round` derives them for the formulas of dd.h with *any* rounding function that is idempotent, monotone,
  symmetric and exact on 1, and tolerance in [0,1). Memory safety (C17) needs only these. Overflow and NaN are excluded
  (`C17_nan_counterexample` shows they must be); signed zeros are identified.
* `NumW` (Num/): error bounds. `val : W → ℂ` is the number a weight stands for; every operation is within `eps` of the exact
  one, tests with tolerance only confuse numbers `eps` apart. `Num/Float` derives them for rounded `double` (C57). `NumR`: the same for the real operations of the measurement code (C60).

**Heap.** Nodes live at addresses (`Nat`); an edge is a weight and `Option Nat` (`none` is the terminal node). `UTable`
models `CHashTable`: memory, per-thread free lists and chunk counters, bucket chains. Hash functions are arbitrary
parameters (`Env`), so theorems hold for every hash function. `AddCache`/`MulCache` are modelled bucket by bucket with
eviction; the contents of uninitialised cache memory are a parameter too.

**Errors.** Every function can fail with `Err`: dereferencing an address that holds no node, an out-of-range index, a failed
`assert`, an integer overflow, an exception. Theorems show these do not happen, or exhibit them.

**Programs and schedules.** Operations are resumption trees `Prog` (Core/Prog): atomic accesses and binary fork/join. `run`
is the sequential semantics, `Steps` any interleaving of the fibers on any threads. One rely/guarantee logic (`Sat`) proves
both. The granularity is one table or cache operation; the single shared accesses inside `lookup` are covered by Conc/Lookup
(C30).

**API.** `Api/Spec` says what each call means on plain vectors and matrices (functions on indices; no nodes). `Api/Machine`
runs the modelled code. `Hist cfg thr thrM cs h σ os` is "the calls `cs` from program start, under some schedules, answered
`os`, left the machine in `σ` and the plain values in `h`"; `Returns cfg σ c o` is "no schedule of call `c` can fail, each
can be completed, and every completion answers `o`". `Api/Main: Hist.returns` is the refinement theorem. Property theorems
are stated with `Hist` and `Returns`.

**Python layer.** `Py/Client`: a client is a program that calls the engine, draws random numbers and raises. It can be run on
the modelled engine (`MExec`) or on plain values (`PExec`). `Yields` gives the probability of each result, over the draws
(uniform on [0,1), independent: the contract of `std::uniform_real_distribution`/`mt19937`); the function integrated over
each draw must be integrable, so these numbers add up as probabilities do (`Yields.or`, `Yields.compl`, `Yields.sum`). `Py/Circ` is the independent
specification of circuits: Qiskit's gate matrices over Mathlib's ℂ and the textbook distribution of the classical bits.

## 3. What is modelled

| source | lines | model |
|---|---|---|
| include/dd.h | 22–140, 267–380, 482–495 | Core/Weights, Cx, State; Safe/Round |
| include/table.hpp | 37–240 | Core/Table (operations), Conc/Lookup (single accesses) |
| include/cache.hpp | all | Core/State, Core/Cache |
| src/dd.cpp | 61–490 | Core/Ops, Gates |
| | 492–601 | Core/Large |
| | 604–856 | Mpi/Gate, Mpi/Net |
| | 869–1226, 1366–1482 | Core/Ops, Arith, Kron |
| | 1322–1353 | Core/Read |
| | 1484–1900 | Core/Measure, Sample, DetProbs (exact); Safe/MeasureModel (any arithmetic) |
| | 1539–1608, 1728–1837 | Mpi/Measure |
| | 1902–2078 | Core/NamedGates, Gates |
| | 2168–2352 | Core/Serial |
| | 2354–2458 | Core/Gc |
| | 2080–2165 | Core/Dot |
| | 2466–2496 | Props/Prune |
| include/common.h | 56–118 | Props/Murmur, Core/NamedGates |
| include/wsq.hpp, epoch.h, src/epoch.cpp, task.cpp | parts | Conc/Wsq, Epoch, Sched, Steal |
| src/algorithms/shor.cpp 5-28, 264- | classical part | Shor/Model |
| src/algorithms/shor.cpp 30-212, shor.hpp 12-64 | add_phi, mod_add_phi, qft, cmult, u_a and their inverses as gate lists | Shor/Circuit (proofs: Shor/Qft, Shor/Mult) |
| bench/QuantumFactoring.py 19-59, 80-102, 105-474 (GT-ADD), bench/shor_main.py 27-30 | the factoring circuit of the benchmark, with its management of clean and dirty ancillas, with and without decompose_toffoli; not modelled: Q-ADD, MIX-ADD, R-ADD, gate counters, measure_and_compute_order | Bench/Model, Bench/Circ, Bench/Toffoli (proofs: Bench/Net, Add, Mod, Mul, Amp, Iqft) |
| test/test_performance.cpp, src/algorithms/grover.cpp | the Grover program (as a client of the API) | Grover/Model |
| qdd/bindings.cpp | 22–102, 150–193 | Py/Backend, Mpi/Measure, Conc/Sched |
| qdd/qdd_backend.py | 31–190, 262–1169 | Py/Backend, Run, Merge, Nested, Swap, Batch |
| qdd/qdd_sampler.py | 85–218 | Py/Sampler |
| qdd/qdd_estimator.py | 141–439, 489–644 | Py/Estimator, EstBook, EstMean, Pauli |

Not modelled: the text format of genDot's lines, progress printing and timing, `src/algorithms` other than Grover and Shor, `Shor::run`, the
boost.fiber library and the OS scheduler (any interleaving is allowed instead), relaxed memory except in C43's
counterexample, exhaustion of memory, MPI transport (channels are FIFO and reliable; collectives have their MPI meaning:
sum, list in rank order, value of rank 0), result headers and metadata.

## 4. Properties

| id | model | proof |
|---|---|---|
| C01–C03 | mv_multiply, mm_multiply, vv_add, mm_add, caches, tables | induction on level in `Sat`; cache validity and canonicity invariant |
| C04 | vv_kronecker, mm_kronecker | vectors by induction; matrices: the full claim is refuted, `_partial` when the right operand's top level is a node, and what the code really computes otherwise |
| C05, C06, C08 | makeGate, makeTwoQubitGate, CX, SWAP, CSWAP | induction over the level loop |
| C07 | makeLargeGate | refuted (reads past the end for every gate); `_partial`: right for every value those reads may give |
| C09 | named gate matrices | algebra over an ordered field with a square root of 2, and over ℝ |
| C10 | basis states | induction |
| C11–C13 | heap invariants | canonicity by induction on level |
| C14 | CHashTable | invariant over arbitrary operation histories, no arithmetic laws |
| C15, C16 | AddCache, MulCache | invariant over histories |
| C17 | every engine call | structural invariant under `RoundW`/`RoundR`; all schedules; counterexample with NaN |
| C18–C20 | gc, gc_mat, serialize/receive | simulation between old and new table |
| C21 | save/load | refuted (root weight dropped), `_partial` up to the root weight; when exactly it holds (C21_exactly) |
| C22–C26, C50, C51 | measurement and probabilities | induction on level; sums over basis states; exact arithmetic |
| C27 | getVector, getMatrix | induction |
| C28 | API histories | refinement |
| C29 | fork/join programs | rely/guarantee over all interleavings |
| C30 | lookup, one shared access per step | invariant, any number of threads |
| C31 | getMPIGate | refuted when identity levels were stripped; `_partial` on aligned paths |
| C32 | distributed product, `2^g` ranks with FIFO channels | protocol invariant for all gates (no failure, no deadlock, bounded); equality with the serial product for aligned gates; refuted otherwise |
| C33, C34, C53 | distributed read-out and measurement | what the collectives compute; refuted cases; what probabilitiesMPI returns in every case |
| C35–C38, C54–C56 | qdd_backend.py without MPI | client programs against `Py/Circ`; refuted cases (conditional measurement, register offset, open controls, measurement maps with shots=None); `C54_actual`: outside the supported circuits a run samples the circuit as the backend reads it (`Props/Actual`); state vectors and probabilities then (`Props/OpenCtrl`) |
| C39 | automatic qubit swapping | bookkeeping of the swap map, taking the distributed product and measurement to act as the serial ones |
| C40 | merge_circuit | product of the gate matrices; nested and several merged gates while no gc_mat is due (Py/Nested); refuted for conditional gates; what any circuit of named gates, measurements and resets is merged to: `C40_actual` (`Props/MergeActual`) |
| C41 | Shor, classical part | number theory with 64-bit wrap-around and 32-bit signed overflow |
| C42 | work-stealing queue | invariant over all interleavings of one owner and any number of thieves (sequential consistency) |
| C43 | epochs | invariant for one guard per thread under sequential consistency; refuted for nested guards and for store buffering |
| C44 | scheduler creation and stop | refuted (second scheduler writes out of range, stop can hang); `_partial` |
| C45 | prune | refuted with shared nodes and threshold ≤ 0; `_partial` without sharing |
| C46 | dd.h tolerance | inequalities over an ordered field |
| C47 | qdd_sampler.py | reachable sampler states; refuted when a parametrised circuit occurs twice in a call; for circuits the backend misreads, the circuit sampled instead (C47_actual, by C54_actual); accuracy of the quasi-distributions by Chebyshev's inequality |
| C48 | qdd_estimator.py, sampling mode | bookkeeping invariant; unbiasedness; mean squared error (Py/EstVar) and Chebyshev; refuted cases |
| C49 | murmur_hash on `BitVec 64` | explicit inverse |
| C52 | run, _run_internal, options | case analysis; joint distribution of a batch; any circuits, no shots, state vectors (`Props/JobsActual`) |
| C57 | the engine of C17 beside `Spec.step` over ℝ (Num/) | error of every cache entry and handle against its exact meaning, by induction on level (products of matrices: row sums of the errors against the number of non-zero entries in a row, Num/MatMul, MatRow); laws `NumW`, derived for rounded `double` (Num/Float) |
| C58 | the engine of C17 with tolerance 2^-42, no rounding | refuted by a run on 84 qubits evaluated in the kernel; C57 gives the positive part |
| C60 | the measurement calls of C17 beside the exact states, which collapse to the returned outcomes (Num/MeasR … MeasMachine) | relative error of the memoised node norms by induction on level; breadth-first pass as a sum over paths; boxes of the draws; total variation against 2-norm error; matrix read-out entry by entry (Num/MatRead); laws `NumR`, derived for rounded `double` (Num/FloatR) |
| C61 | the job client of C52 with the option seed_simulator; two engine histories holding the same values | any circuits the backend can run (C61_draws_actual): every execution on the engine is an execution on plain values (refinement), which is a function of the numbers drawn; C61_false from the distribution theorem of C52 |
| C62 | qdd_estimator.py with approximation=True, no shots (265, 501–522, 604–618) on the job client of C52 with shots=None | the bookkeeping of C48 (`est_calls`), the probabilities of the job, a signed sum over the rotated state; C62_wrong by computing that sum for an X gate; what any terms are read as: `C62_actual` (`Props/EstActual`) |
| C63 | shor.cpp 30–212 as gate lists (Shor/Circuit), applied on the engine | the Fourier basis: `add_phi` is a shift of the sum (a phase polynomial), by induction on qubits; the modular adder by cases on the comparison, with the ancilla returned to 0; the multiplier by induction on bits; superpositions by linearity; inverse_mod from C41 |
| C64 | get_nNodes on reachable states (Core/Gc) | reachable nodes of a level ↔ shapes of parts, a bijection by canonicity (`vptr_canon`) in both directions |
| C65 | genDot/genDot2 for states and operations (Core/Dot), as lists of lines | induction on the traversal with the set `done`: the lines added are those of the nodes added, each with all its arrows; reading back by induction on levels |
| C66 | awakened, pick_next, steal as interleaved steps (Conc/Steal); Boost's queue assumed atomic | invariant by induction on runs: handed = taken ++ waiting, per queue; count bound; for one thread an invariant that excludes returning |
| C67 | post_processing (Shor/Model), the double test rounded operation by operation | candidates = convergents in lowest terms with growing denominators (Shor/Legendre), Mathlib's Legendre theorem, a gap argument against earlier candidates, rounding analysis |
| C68 | the circuit builder of bench/QuantumFactoring.py as a state machine emitting gates (Bench/Model), the emitted circuit on the backend model | each building block proved on all basis states whatever the borrowed ancillas hold (networks of controlled nots by induction on controls, comparator and adders by induction on bits, multiplier by induction on bits), amplitudes by induction on the first register, the inverse Fourier transform by induction on qubits, then C54 |
| C69 | the distribution of C68, post_processing of C67 | geometric sums of phases bounded below by cos x ≥ 1 − 2x/π, Cauchy–Schwarz over the residue classes modulo r, ties excluded by parity, then C67; many shots by C70 |
| C70 | the backend's run as in C54 | sums of the exclusive events of C54 (`Yields.sum`), total probability by induction on the instructions, variance of averages of independent draws |
| C71 | qdd_sampler.py with `shots=None` | bookkeeping as in C47, the engine's probabilities as in C37; refuted for measurement maps other than the identity; `C37_actual`, `C71_actual`: what is returned then (`Props/ProbsActual`) |
| C72 | the gates of add_c2_not_gate with decompose_toffoli (Bench/Toffoli) on the backend model | amplitudes by cases on the three bits (any number of qubits), induction on the instructions of a circuit, then C54; the factoring circuit with the flag: the invariants of C68 with the larger set of marks, then C72_circuit |
| C59 | the Grover program of test_performance.cpp as a client of the engine (Grover/) | each gate's action on amplitudes; one iteration as two reflections; induction on iterations; the engine part through `Safe.yields` |

## 5. Assumptions about Qiskit

* Instructions reach the backend as (name, parameters, qubit indices, clbit indices, condition, control state), gates have the
  matrices of the Qiskit documentation (`Py/Circ`).
* C47: `_circuit_key` separates the circuits of the history, `transpile` preserves the distribution of outcomes.
* C48: additionally `group_commuting(qubit_wise=True)` returns a partition of the terms into qubit-wise commuting groups
  (`Grouping`), keys of observables separate them (`QiskitE`).
* C62: additionally the experiments have no conditions and transpilation keeps every qubit in place (`QiskitA`).
* C68: `QuantumCircuit.x/cx/ccx/h/mcp/barrier/measure_all` append the instructions of that name (default control states), and
  `transpile(..., optimization_level=0)` for this backend leaves them as they are, except that `mcphase` with one control (not
  among the backend's `basis_gates`) becomes `cp` with the same angle.
