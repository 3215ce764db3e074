{"id": "C01", "title": "Slice targets mean Python slices", "statement": "A gate written `g[s]` with a slice `s` on an n-qubit circuit acts on exactly the qubits `range(n)[s]`, in that order, and a slice with step 0 is rejected with ValueError; an integer target i>=0 means qubit i and a negative one counts from the end.", "quantifier": "every slice (any start/stop/step, including None, negative and out-of-range values), every integer, every tuple of them, every number of qubits", "why_tests_cant": "there are infinitely many slices and qubit counts; tests sample about twenty", "anchors": ["blueqat/gate.py:slicing_singlevalue", "blueqat/gate.py:slicing"]}
{"id": "C02", "title": "Targets stay inside the register", "statement": "In a circuit built only through the gate API with in-range targets, every qubit index any gate resolves to at run time lies in [0, n_qubits), no matter how many gates, copies or concatenations follow and how much n_qubits has grown since the gate was appended.", "quantifier": "every sequence of gate appends and concatenations, every mix of ints and slices", "why_tests_cant": "slices are resolved late, against an n_qubits fixed only by later appends, so it is a property of every history", "anchors": ["blueqat/gate.py:get_maximum_index", "blueqat/gate.py:slicing", "blueqat/circuit.py:_GateWrapper.__getitem__"]}
{"id": "C03", "title": "Two-qubit gates pair controls with targets", "statement": "`g[c, t]` acts on the zipped list of control/target qubits in order, never on a pair with control equal to target; it raises ValueError exactly when the argument is not a pair, the two sides have different lengths or some pair coincides.", "quantifier": "every pair of ints/slices/tuples, every number of qubits", "why_tests_cant": "the failing combinations are a measure-zero subset of an infinite space", "anchors": ["blueqat/gate.py:qubit_pairs", "blueqat/gate.py:TwoQubitGate.control_target_iter"]}
{"id": "C04", "title": "Appending a gate", "statement": "`c.g(params)[targets]` adds exactly one operation at the end of the circuit, keeps all earlier ones, and sets n_qubits to the maximum of the old value and the largest index mentioned plus one; n_qubits never decreases.", "quantifier": "every circuit and every gate/target", "why_tests_cant": "must hold after every history of appends", "anchors": ["blueqat/circuit.py:_GateWrapper.__getitem__", "blueqat/gate.py:get_maximum_index", "blueqat/gate.py:find_n_qubits"]}
{"id": "C05", "title": "A rejected append leaves the circuit unchanged", "statement": "If `c.g(params)[targets]` raises, the circuit is as it was before the call.", "quantifier": "every circuit and every argument that makes the call raise", "why_tests_cant": "requires considering every failing argument and the state left at every crash point; the code appends before it validates", "anchors": ["blueqat/circuit.py:_GateWrapper.__getitem__"]}
{"id": "C06", "title": "Circuits do not share state", "statement": "`copy`, `+`, `dagger` and `Ops.to_circuit` give circuits that share nothing observable with their operands: no later operation on one circuit changes the operations, size or results of another; `a += b` changes only a.", "quantifier": "every history of circuit operations over any number of circuits", "why_tests_cant": "aliasing bugs show only in particular interleavings of operations on several objects", "anchors": ["blueqat/circuit.py:Circuit.copy", "blueqat/circuit.py:Circuit.__add__", "blueqat/circuit.py:Circuit.__iadd__", "blueqat/circuit.py:Circuit.dagger", "blueqat/experimental/operations.py:Ops"]}
{"id": "C07", "title": "Concatenation composes", "statement": "Running `a + b` gives the state obtained by running a's operations and then b's on max(a.n_qubits, b.n_qubits) qubits; `+` is associative and its unitary is the product of the two unitaries on the joint register.", "quantifier": "all circuits", "why_tests_cant": "quantifies over all pairs/triples of circuits", "anchors": ["blueqat/circuit.py:Circuit.__add__", "blueqat/circuit.py:Circuit.__iadd__"]}
{"id": "C08", "title": "The simulator applies the documented unitaries", "statement": "Running any unitary gate on the default (numpy) backend multiplies the state vector by the textbook matrix of that gate on the addressed qubits and leaves other qubits alone, for X Y Z H T S RX RY RZ Phase U1 U3 CX CZ CRX CRY CRZ CPhase CCX CCZ.", "quantifier": "every number of qubits, target(s), angle and state vector", "why_tests_cant": "amplitudes, angles and register sizes are unbounded; tests use a handful of small vectors", "anchors": ["blueqat/backends/numpy_backend.py:NumPyBackend.gate_*"]}
{"id": "C09", "title": "States stay normalised", "statement": "Every run of every circuit returns a unit vector, whatever gates, measurements and resets it contains and whatever the random numbers are.", "quantifier": "every circuit with valid targets, every random stream, every shot count >= 1", "why_tests_cant": "an invariant over all executions", "anchors": ["blueqat/backends/numpy_backend.py:NumPyBackend.run", "blueqat/backends/numpy_backend.py:gate_measure", "blueqat/backends/numpy_backend.py:gate_reset"]}
{"id": "C10", "title": "Fallback decompositions are equivalent", "statement": "Whenever a backend has no native action for a gate, the gates it falls back to implement the same unitary: exactly for I T TDag S SDag U2 CY CH CRX CRY CRZ CPhase CU2 CU3 Swap RXX RYY RZZ CCX CSwap, and up to one global phase for Phase (as RZ) and CU1.", "quantifier": "every angle, register size, (distinct) target and state", "why_tests_cant": "trigonometric identities over a continuum of angles and all states", "anchors": ["blueqat/gate.py:*.fallback"]}
{"id": "C11", "title": "Every gate runs on every backend", "statement": "For each gate obtainable from a circuit, resolving fallbacks terminates and ends in gates the backend implements (numpy, numba, sympy, qasm).", "quantifier": "every gate, every target list and every backend", "why_tests_cant": "termination and coverage are universal claims about a recursive rewriting", "anchors": ["blueqat/backends/backendbase.py:Backend._run_gates", "blueqat/backends/backendbase.py:Backend._resolve_fallback", "blueqat/gate.py:Gate.fallback"]}
{"id": "C12", "title": "dagger is the inverse", "statement": "For a circuit without measurement or reset, running `c + c.dagger()` returns every state vector unchanged.", "quantifier": "every circuit, register size and initial state", "why_tests_cant": "all circuits, all angles; tests check 29 one-gate circuits; false for overlapping slice pairs", "anchors": ["blueqat/circuit.py:Circuit.dagger", "blueqat/gate.py:*.dagger"]}
{"id": "C13", "title": "dagger rejects or skips non-unitary operations", "statement": "`dagger()` raises ValueError iff the circuit contains a measurement or reset; with ignore_measurement=True it never raises and yields the dagger of the circuit without them; n_qubits is kept, the argument is unchanged and taking dagger twice gives a circuit with the same unitary.", "quantifier": "every circuit", "why_tests_cant": "every position of a measurement in every circuit", "anchors": ["blueqat/circuit.py:Circuit.dagger"]}
{"id": "C14", "title": "Measurement collapses consistently", "statement": "Measuring a qubit of a normalised state yields 0 exactly when the drawn number is below the probability of 0, records it, leaves a normalised state in which that qubit has the recorded value, and never divides by zero; measuring again yields the same value for every random number.", "quantifier": "every normalised state, target and random number in [0,1)", "why_tests_cant": "continuum of states and random numbers", "anchors": ["blueqat/backends/numpy_backend.py:NumPyBackend.gate_measure"]}
{"id": "C15", "title": "Reset puts the qubit in |0>", "statement": "After reset of a qubit of a normalised state the qubit is |0> with certainty, the state is normalised, nothing is recorded and no division by zero happens.", "quantifier": "every normalised state, target and random number", "why_tests_cant": "continuum of states and random numbers", "anchors": ["blueqat/backends/numpy_backend.py:NumPyBackend.gate_reset"]}
{"id": "C16", "title": "Shot accounting", "statement": "run(shots=k) on n>0 qubits returns a counter whose values sum to k and whose keys are n-character 0/1 strings with qubit 0 first, with '0' for every qubit that is never measured.", "quantifier": "every circuit, k and random stream", "why_tests_cant": "all executions", "anchors": ["blueqat/backends/numpy_backend.py:_NumPyBackendContext.store_shot", "blueqat/backends/numpy_backend.py:NumPyBackend.run"]}
{"id": "C17", "title": "The numpy cache is invisible", "statement": "Whatever was run, cached, copied, concatenated or appended before, a run on the circuit's own numpy backend returns the same state vector, the same counts and consumes the same random numbers as a run of the same operations with no cache.", "quantifier": "every history of append/run/make_cache/copy/+/+=/dagger, every random stream", "why_tests_cant": "cache staleness appears only in particular histories", "anchors": ["blueqat/backends/numpy_backend.py:NumPyBackend.run", "blueqat/backends/numpy_backend.py:NumPyBackend.make_cache"]}
{"id": "C18", "title": "A failed run does not poison the numpy cache", "statement": "If a run raises at any gate, later runs are still as in the property above.", "quantifier": "every crash point in every history", "why_tests_cant": "the crash point is universally quantified", "anchors": ["blueqat/backends/numpy_backend.py:NumPyBackend.run"]}
{"id": "C19", "title": "The numba cache is invisible", "statement": "Same as the numpy cache property for the numba backend, including runs that raised and enable_cache=False.", "quantifier": "every history, every random stream, every crash point", "why_tests_cant": "cache content and cache position are written at different times; only a crash between shows it", "anchors": ["blueqat/backends/_numba_backend_impl.py:NumbaBackend.run", "blueqat/backends/_numba_backend_impl.py:NumbaBackend.gate_measure"]}
{"id": "C20", "title": "A backend object can serve several circuits", "statement": "Passing one backend instance to the runs of different circuits gives each circuit its own result.", "quantifier": "every pair of circuits", "why_tests_cant": "requires all interleavings of runs on a shared object", "anchors": ["blueqat/circuit.py:Circuit.run", "blueqat/backends/numpy_backend.py:NumPyBackend.run"]}
{"id": "C21", "title": "Bit-insertion kernels enumerate exactly the right amplitudes", "statement": "The numba index kernels map the loop counter 0..2^(n-k)-1 one-to-one onto exactly the state indices whose k addressed bits are zero.", "quantifier": "every set of distinct qubits, every n (below the 64-bit limit)", "why_tests_cant": "bit arithmetic over all widths", "anchors": ["blueqat/backends/_numba_backend_impl.py:_shifted", "blueqat/backends/_numba_backend_impl.py:_create_masks", "blueqat/backends/_numba_backend_impl.py:_mult_shifted"]}
{"id": "C22", "title": "Parallel gate kernels are schedule independent", "statement": "The parallel loops of the numba kernels give the same state for every execution order of their iterations, equal to the sequential gate.", "quantifier": "every schedule (permutation of iterations), every gate, state and size", "why_tests_cant": "schedules cannot be enumerated by tests", "anchors": ["blueqat/backends/_numba_backend_impl.py:_xgate", "blueqat/backends/_numba_backend_impl.py:_u3gate", "blueqat/backends/_numba_backend_impl.py:_cxgate"]}
{"id": "C23", "title": "numba and numpy agree", "statement": "For every circuit with valid targets the numba and numpy backends return the same state vector, and the same counts for the same random numbers.", "quantifier": "every circuit, every random stream", "why_tests_cant": "two implementations over an infinite input space", "anchors": ["blueqat/backends/_numba_backend_impl.py:NumbaBackend", "blueqat/backends/numpy_backend.py:NumPyBackend"]}
{"id": "C24", "title": "to_unitary agrees with simulation", "statement": "The matrix from to_unitary() times any vector equals what the numpy backend does to that vector.", "quantifier": "every circuit of unitary gates, every state", "why_tests_cant": "two implementations over an infinite input space; repeated targets are treated differently", "anchors": ["blueqat/backends/sympy_backend.py:SympyBackend"]}
{"id": "C25", "title": "ignore_global canonicalises the phase", "statement": "With ignore_global=True two state vectors that differ by a global phase become equal, the first non-negligible amplitude becomes a non-negative real, norms are kept, the operation is idempotent and the cache is unaffected.", "quantifier": "every non-zero state vector and phase", "why_tests_cant": "continuum of vectors and phases", "anchors": ["blueqat/utils.py:ignore_global_phase", "blueqat/backends/_numba_backend_impl.py:_ignore_global"]}
{"id": "C26", "title": "to_unitary(ignore_global=True) canonicalises the phase", "statement": "Two circuits whose unitaries differ by a global phase give equal matrices with ignore_global=True.", "quantifier": "every unitary and phase", "why_tests_cant": "fails only for matrices with an all-zero diagonal", "anchors": ["blueqat/backends/sympy_backend.py:SympyBackend._postprocess_run"]}
{"id": "C27", "title": "circuit_to_unitary returns the circuit's matrix", "statement": "Column i of circuit_to_unitary(c) is the state obtained by running c on basis state i, so the matrix times a vector equals running c on that vector.", "quantifier": "every circuit and state", "why_tests_cant": "all circuits and sizes", "anchors": ["blueqat/experimental/utils.py:circuit_to_unitary"]}
{"id": "C28", "title": "QASM output is well-formed", "statement": "to_qasm() emits the header with register sizes n_qubits and then, in circuit order, statements that use only declared indices; it never fails on a circuit with valid targets.", "quantifier": "every circuit with valid targets", "why_tests_cant": "all circuits", "anchors": ["blueqat/backends/qasm_output_backend.py:QasmOutputBackend"]}
{"id": "C29", "title": "QASM output means the circuit", "statement": "Read with the OpenQASM 2 / qelib1 meaning of each statement, the output is the circuit's unitary up to one global phase.", "quantifier": "every circuit of unitary gates, all angles, all states", "why_tests_cant": "all circuits and angles", "anchors": ["blueqat/backends/qasm_output_backend.py:QasmOutputBackend"]}
{"id": "C30", "title": "QASM text is unambiguous", "statement": "The emitted text can be parsed back to exactly the emitted statement list; two circuits with the same text have the same statements.", "quantifier": "every circuit and every injective number formatting", "why_tests_cant": "string encodings over all circuits", "anchors": ["blueqat/backends/qasm_output_backend.py:QasmOutputBackend._postprocess_run"]}
{"id": "C31", "title": "Pauli products", "statement": "Multiplying Pauli operators, terms and numbers in any nesting and order gives a term whose matrix is the product of the matrices.", "quantifier": "every sequence of factors", "why_tests_cant": "all words over an infinite alphabet", "anchors": ["blueqat/pauli.py:_PauliImpl.__mul__", "blueqat/pauli.py:Term.__mul__", "blueqat/pauli.py:Term.join_ops", "blueqat/pauli.py:Term.__pow__"]}
{"id": "C32", "title": "Term.simplify normal form", "statement": "simplify() keeps the matrix, yields each qubit at most once in increasing order without identities, and is idempotent.", "quantifier": "every term", "why_tests_cant": "all words", "anchors": ["blueqat/pauli.py:Term.simplify"]}
{"id": "C33", "title": "Expr arithmetic is matrix arithmetic", "statement": "+, -, *, unary -, scalar *, / and ** on expressions, terms, Paulis and numbers give expressions whose matrices are the corresponding sums, differences, products and powers.", "quantifier": "every expression tree", "why_tests_cant": "all expression trees; fails for sums after a product that produced duplicate monomials", "anchors": ["blueqat/pauli.py:Expr.__add__", "blueqat/pauli.py:Expr.__sub__", "blueqat/pauli.py:Expr.__mul__", "blueqat/pauli.py:Expr.__pow__"]}
{"id": "C34", "title": "Expr equality decides operator equality", "statement": "For exact coefficients, e1 == e2 iff the two expressions denote the same operator; simplify() is a canonical form, independent of how and in which order the expression was built.", "quantifier": "all expressions", "why_tests_cant": "needs linear independence of all Pauli strings", "anchors": ["blueqat/pauli.py:Expr.__eq__", "blueqat/pauli.py:Expr.simplify"]}
{"id": "C35", "title": "Equality is symmetric across Pauli, Term and Expr", "statement": "a == b iff b == a and for non-zero operators equality means equal operators, whichever of the three types a and b have.", "quantifier": "all pairs of values of the three types", "why_tests_cant": "all pairs", "anchors": ["blueqat/pauli.py:Term.__eq__", "blueqat/pauli.py:Expr.__eq__", "blueqat/pauli.py:_PauliImpl.__eq__"]}
{"id": "C36", "title": "to_matrix is the Kronecker product", "statement": "Term.to_matrix and Expr.to_matrix return, in dense and every sparse format, the 2^n x 2^n matrix of the operator with qubit 0 as least significant bit.", "quantifier": "every term/expression, every n_qubits >= required, every format", "why_tests_cant": "all sizes and words", "anchors": ["blueqat/pauli.py:Term.to_matrix", "blueqat/pauli.py:Expr.to_matrix", "blueqat/pauli.py:_term_to_dataarray", "blueqat/pauli.py:_term_to_indices"]}
{"id": "C37", "title": "Balanced Kronecker reduction is correct and terminates", "statement": "The divide-and-conquer Kronecker product used by to_matrix terminates and equals the plain left-to-right product.", "quantifier": "every non-empty list of vectors of size >= 1", "why_tests_cant": "recursion guided by data; termination is universal", "anchors": ["blueqat/pauli.py:_kron_1d_rec"]}
{"id": "C38", "title": "commutator and is_commutable", "statement": "commutator(a,b) denotes ab-ba; is_commutable is True whenever a and b commute, and for terms whose coefficient product has modulus >= 5e-5 it is True only then.", "quantifier": "all expressions", "why_tests_cant": "all expressions; threshold behaviour", "anchors": ["blueqat/pauli.py:commutator", "blueqat/pauli.py:is_commutable", "blueqat/pauli.py:Expr.is_all_terms_commutable"]}
{"id": "C39", "title": "Time evolution of a term", "statement": "get_time_evolution()(c, t) appends gates implementing exp(i t H) for the term H = coeff * P, and raises ValueError iff the simplified coefficient is not real.", "quantifier": "every term, time and state", "why_tests_cant": "all Pauli words, continuum of times; the sign is wrong for an odd number of Y", "anchors": ["blueqat/pauli.py:Term.get_time_evolution"]}
{"id": "C40", "title": "append_to_circuit", "statement": "append_to_circuit appends gates whose unitary is the product of the term's Pauli operators (coefficient dropped).", "quantifier": "every term and state", "why_tests_cant": "all words", "anchors": ["blueqat/pauli.py:Term.append_to_circuit"]}
{"id": "C41", "title": "Terms from characters", "statement": "Term.from_chars(s) has operator s[k] on qubit k, term_from_chars(s) reads the string from the right, and any character other than X,Y,Z,I (either case) raises ValueError.", "quantifier": "every string", "why_tests_cant": "all strings", "anchors": ["blueqat/pauli.py:Term.from_chars", "blueqat/pauli.py:term_from_chars", "blueqat/pauli.py:pauli_from_char"]}
{"id": "C42", "title": "QUBO to Pauli", "statement": "wq.pauli(Q) is diagonal and its value on basis state b is sum_ij Q_ij b_i b_j.", "quantifier": "every square matrix and bit assignment", "why_tests_cant": "all sizes and assignments", "anchors": ["blueqat/wq.py:pauli", "blueqat/pauli.py:qubo_bit"]}
{"id": "C43", "title": "expect returns marginal probabilities", "statement": "expect(psi, meas)[key] is the total probability of the basis states whose bits at meas spell key; keys are exactly those with non-zero probability and the values sum to the squared norm.", "quantifier": "every state vector and every list of qubits (also repeated)", "why_tests_cant": "all vectors and lists", "anchors": ["blueqat/vqe.py:expect"]}
{"id": "C44", "title": "Sampler-based energy is the expectation value", "statement": "get_energy(circuit, non_sampling_sampler) equals <psi|H|psi> = get_energy_sparse for every Hamiltonian in simplified form.", "quantifier": "every circuit and Hamiltonian", "why_tests_cant": "all states and operators; sign is wrong for an odd number of Y", "anchors": ["blueqat/vqe.py:AnsatzBase.get_energy", "blueqat/vqe.py:AnsatzBase.get_energy_sparse", "blueqat/vqe.py:sparse_expectation"]}
{"id": "C45", "title": "Measurement sampler", "statement": "get_measurement_sampler(k)(circuit, meas) returns for each outcome of the measured qubits, in the order of meas, the fraction of shots with that outcome.", "quantifier": "every circuit, meas list and random stream", "why_tests_cant": "all executions; bit order and key collisions", "anchors": ["blueqat/vqe.py:get_measurement_sampler"]}
{"id": "C46", "title": "QAOA circuit", "statement": "QaoaAnsatz.get_circuit(params) is the initial circuit followed, for each step, by the evolution of every Hamiltonian term with 2*pi*gamma and the mixer with pi*beta; the stored initial circuit is never modified; its unitary is the product of the corresponding exponentials.", "quantifier": "every Hamiltonian, step count and parameter vector", "why_tests_cant": "all parameter vectors and histories of calls", "anchors": ["blueqat/vqe.py:QaoaAnsatz.get_circuit"]}
{"id": "C47", "title": "VqeResult", "statement": "most_common(n) returns the n most probable outcomes in non-increasing order; get_probs returns the stored result unless rerun is requested and stores iff store.", "quantifier": "every probability dict and call sequence", "why_tests_cant": "all call histories", "anchors": ["blueqat/vqe.py:VqeResult"]}
{"id": "C48", "title": "QUBO to Ising", "statement": "Opt.qi gives couplings and an offset with Ising energy + offset = QUBO energy (upper triangle) for b=(s+1)/2.", "quantifier": "every QUBO and spin assignment", "why_tests_cant": "all sizes and assignments", "anchors": ["blueqat/wq.py:Opt.qi", "blueqat/wq.py:Ei"]}
{"id": "C49", "title": "Simulated annealing bookkeeping", "statement": "The energy change used for acceptance equals the true energy change of the flip; the returned bits are 0/1 and the last recorded energy is the QUBO energy of the returned bits.", "quantifier": "every QUBO, random stream, schedule", "why_tests_cant": "all executions", "anchors": ["blueqat/wq.py:Opt.run", "blueqat/wq.py:Ei", "blueqat/wq.py:Opt.reJ"]}
{"id": "C50", "title": "Quantum annealing bookkeeping", "statement": "The energy change used by sqa for acceptance equals the change of the recorded energy.", "quantifier": "every QUBO, spin configuration, field and temperature", "why_tests_cant": "all configurations; the coupling sign differs between the two formulas", "anchors": ["blueqat/wq.py:Opt.sqa", "blueqat/wq.py:Ei_sqa"]}
{"id": "C51", "title": "QUBO builders", "statement": "sel(N,K) is minimal exactly at assignments with K ones (energy (sum-K)^2-K^2); sqr(a) has energy (a.x)^2; mul(a,b) has energy (a.x)(b.x); net(edges) counts selected edges; diag is linear.", "quantifier": "every N,K, vectors, edge lists and bit assignments", "why_tests_cant": "all sizes and assignments; mul is wrong unless a,b proportional", "anchors": ["blueqat/wq.py:sel", "blueqat/wq.py:sqr", "blueqat/wq.py:mul", "blueqat/wq.py:net", "blueqat/wq.py:diag"]}
{"id": "C52", "title": "n-body reduction", "statement": "nbody_separation returns an at-most-quadratic expression and a penalty that is >= 0 on bits, is 0 for exactly one extension of each assignment of the original bits, and on that extension the new expression has the value of the original one; it terminates.", "quantifier": "every multilinear expression, every iteration order of symbol sets, every bit assignment", "why_tests_cant": "set iteration order and all expressions", "anchors": ["blueqat/wq.py:nbody_separation"]}
{"id": "C53", "title": "QUBO matrix from expression", "statement": "qn_to_qubo(expr) is the QUBO whose energy is expr up to its constant term.", "quantifier": "every quadratic expression", "why_tests_cant": "all expressions; unit coefficients are mishandled", "anchors": ["blueqat/wq.py:qn_to_qubo"]}
{"id": "C54", "title": "Registering gates, macros and backends", "statement": "register_* with allow_overwrite=False raises ValueError iff the name is taken (or reserved) and otherwise makes the name available; unregister_* removes exactly that name and raises ValueError iff it is not registered; no call disturbs other names.", "quantifier": "every history of registry calls and every name", "why_tests_cant": "state machine over all histories; unregister_backend consults the wrong table", "anchors": ["blueqat/circuit.py:BlueqatGlobalSetting"]}
{"id": "C55", "title": "Backend selection", "statement": "run() uses the explicitly given backend, else the circuit's default, else the global default in force at call time; unknown names raise ValueError and change nothing; set_default_backend(None) returns to the global default.", "quantifier": "every history of default settings and runs", "why_tests_cant": "all histories; None is rejected", "anchors": ["blueqat/circuit.py:Circuit.run", "blueqat/circuit.py:Circuit.set_default_backend", "blueqat/circuit.py:BlueqatGlobalSetting.set_default_backend"]}
{"id": "C56", "title": "Negative indices", "statement": "A negative index -k (1<=k<=n) addresses qubit n-k in every gate, and an index below -n is rejected with an error in every gate.", "quantifier": "every gate, index and size", "why_tests_cant": "all gates and indices; three-qubit gates and fallbacks differ", "anchors": ["blueqat/gate.py:slicing_singlevalue", "blueqat/backends/numpy_backend.py:gate_ccx"]}
{"id": "C57", "title": "Run-argument rules", "statement": "With neither shots nor returns given the state vector of one shot is returned; shots alone selects counts; an unknown returns value raises ValueError before anything is simulated or cached.", "quantifier": "every combination of arguments and every backend state", "why_tests_cant": "all combinations and states", "anchors": ["blueqat/backends/numpy_backend.py:NumPyBackend.run", "blueqat/backends/_numba_backend_impl.py:NumbaBackend.run"]}
{"id": "C58", "title": "Bit-string utilities", "statement": "to_inttuple converts a 0/1 string digit by digit, keeps all entries of a Counter/dict of 0/1 strings with their values, and the key reversal of the ibmq runner loses no counts.", "quantifier": "every string and dict", "why_tests_cant": "all strings/dicts; key collisions", "anchors": ["blueqat/utils.py:to_inttuple", "blueqat/backends/ibmq_backend.py:_qasm_runner_qiskit"]}
{"id": "C59", "title": "qgate sampling bit placement", "statement": "The qgate sampling pool re-inserts zero bits at exactly the unsampled lanes and the resulting string has qubit k's value at position k.", "quantifier": "every lane set and outcome", "why_tests_cant": "bit arithmetic over all widths", "anchors": ["blueqat/backends/qgate_backend.py:BlueqatCompatibleSamplingPool.shift_for_empty_lanes", "blueqat/backends/qgate_backend.py:QgateBackend.sample"]}
{"id": "C60", "title": "Immediate execution equals flattened execution", "statement": "Running a gate list with on-the-fly fallback equals running the list returned by fallback resolution, for any backend.", "quantifier": "every backend action table and gate list", "why_tests_cant": "all backends", "anchors": ["blueqat/backends/backendbase.py:Backend._run_gates", "blueqat/backends/backendbase.py:Backend._resolve_fallback"]}
{"id": "C61", "title": "Ops mirrors Circuit", "statement": "Building with the immutable Ops and converting with to_circuit gives the same circuit as building with Circuit; Ops values never change.", "quantifier": "every build sequence", "why_tests_cant": "all histories", "anchors": ["blueqat/experimental/operations.py:Ops"]}
{"id": "C62", "title": "Distribution of the qgate sampling pool", "statement": "BlueqatCompatibleSamplingPool.sample draws the value v with probability prob[v]: with independent uniform random numbers, the set of random numbers for which v is drawn has measure prob[v]. The samples of one call are independent of each other.", "quantifier": "every probability vector of length 2^m and every value", "why_tests_cant": "a statement about a continuous distribution, for every vector", "anchors": ["blueqat/backends/qgate_backend.py:BlueqatCompatibleSamplingPool.sample"]}
{"id": "C63", "title": "Gates of the qgate backend", "statement": "The operators the qgate backend makes of a gate are, in order, the operations the gate denotes, and measurements keep their qubit; a gate that is not in the table raises.", "quantifier": "every gate kind, subscript and register size", "why_tests_cant": "all gates, parameters and subscripts", "anchors": ["blueqat/backends/qgate_backend.py:QgateBackend.convert_operators"]}
{"id": "C64", "title": "repr of a circuit is a program that rebuilds it", "statement": "The text repr(circuit) is a Python expression; evaluated, it makes a circuit with the same number of qubits and the same gates (class, numbers, subscripts) in the same order.", "quantifier": "every history of gate applications with integer, slice or flat-tuple subscripts and every number format that reads back", "why_tests_cant": "infinitely many gate lists, numbers and subscripts", "anchors": ["blueqat/circuit.py:Circuit.__repr__", "blueqat/gate.py:Gate._str_args", "blueqat/gate.py:Gate._str_targets"]}
{"id": "C65", "title": "The ibmq backend returns the counts of the circuit", "statement": "If Qiskit executes OpenQASM programs as specified, run_with_ibmq returns for every circuit the counts which the numpy backend returns with the same random numbers, with qubit 0 first in the keys; `returns` selects the documented intermediate object, an unknown `returns` is a ValueError, and `returns=\"_exception\"` returns the exception raised by importing Qiskit.", "quantifier": "every circuit the QASM printer supports, every number of shots, every behaviour of Qiskit", "why_tests_cant": "needs Qiskit and compares distributions over all circuits", "anchors": ["blueqat/backends/ibmq_backend.py:_qasm_runner_qiskit", "blueqat/backends/qasm_parser_backend_generator.py:QasmParsableBackend.run"]}
{"id": "C66", "title": "Layered QUBOs couple exactly the neighbouring layers", "statement": "dbms(sizes, w) is a matrix of the total size in which every unit of a layer is coupled to every unit of the next layer, with weight w, and no other pair is coupled; the diagonal is 1/2. With weight 0 the same places hold random numbers, no draw being used twice. rands(n) is a random upper triangular matrix.", "quantifier": "every list of layer sizes, every weight, every stream of random numbers", "why_tests_cant": "unboundedly many layers and sizes", "anchors": ["blueqat/wq.py:dbms", "blueqat/wq.py:rands"]}
{"id": "C67", "title": "Training of a restricted Boltzmann machine moves the QUBO along the gradient", "statement": "rbm_hmodel gives the conditional probabilities of the hidden units given the visible ones; rbm_data_qubo and rbm_model_qubo give the mean bits and mean products under the data and under the annealed samples; an epoch of fit sets Q to alpha*Q + eps*(data - model); visible units stay uncoupled from visible units and hidden from hidden units in every epoch.", "quantifier": "every matrix, training data, number of epochs, shots and random draws", "why_tests_cant": "probabilities over all states and random draws, arbitrarily many epochs", "anchors": ["blueqat/wq.py:sigm", "blueqat/wq.py:rbm_hmodel", "blueqat/wq.py:rbm_data_qubo", "blueqat/wq.py:Opt.rbm_model_qubo", "blueqat/wq.py:Opt.fit"]}
{"id": "C68", "title": "Opt.add accumulates energies", "statement": "After any sequence of add(qubo, M) calls the energy that run anneals is the sum of the M-fold energies of the given QUBOs.", "quantifier": "every sequence of matrices, factors, shots and random draws", "why_tests_cant": "unbounded sequences and matrix sizes, floating random annealing", "anchors": ["blueqat/wq.py:Opt.add", "blueqat/wq.py:Opt.run"]}
{"id": "C69", "title": "Opt.dw returns a minimum if the D-Wave solver does", "statement": "If the solver returns a ground state of the Ising problem it is given, dw returns bits of minimal energy of the QUBO.", "quantifier": "every QUBO, every solver graph, every ideal solver", "why_tests_cant": "needs the remote solver; claims minimality over all assignments", "anchors": ["blueqat/wq.py:Opt.dw"]}
{"id": "C70", "title": "Vqe.run minimizes the energy of the ansatz", "statement": "The minimizer of Vqe.run is told exactly <psi(params)|H|psi(params)> for the parameters it asks for, the result holds the parameters it ends with and their circuit, verbose mode prints the points and values asked, no value told is below the lowest energy of H, and Vqe.result is the result.", "quantifier": "every Hamiltonian, ansatz, deterministic minimizer and starting point", "why_tests_cant": "quantifies over all minimizers and ansatz circuits; exact real energies", "anchors": ["blueqat/vqe.py:AnsatzBase.get_objective", "blueqat/vqe.py:Vqe.run", "blueqat/vqe.py:Vqe.result", "blueqat/vqe.py:get_scipy_minimizer"]}
{"id": "C71", "title": "The Qiskit sampler returns the frequencies of the measured qubits", "statement": "get_qiskit_sampler gives, for every outcome of the qubits meas in the order of meas, the fraction of the shots with this outcome, for binary and for hexadecimal counts.", "quantifier": "every printable circuit, every list of qubits, every number of shots, every Qiskit that reports the outcomes it observes", "why_tests_cant": "needs Qiskit and hardware backends; all circuits and outcomes", "anchors": ["blueqat/vqe.py:get_qiskit_sampler"]}
{"id": "C72", "title": "The state vector sampler draws from the right distribution and gives the exact energy on average", "statement": "get_state_vector_sampler passes to np.random.multinomial the probabilities of exactly the outcomes that can occur and returns the drawn fractions; they sum to 1, and the energy computed from them is on average the energy of the exact sampler.", "quantifier": "every circuit of unitary gates, list of qubits, Hamiltonian, number of samples and every way to draw that is right on average", "why_tests_cant": "a claim about means over random draws for all circuits", "anchors": ["blueqat/vqe.py:get_state_vector_sampler", "blueqat/vqe.py:AnsatzBase.get_energy"]}
{"id": "C73", "title": "is_identity recognises the identity and n_qubits is the size of the support", "statement": "is_identity is True exactly if the operator is the identity; after simplify(), n_qubits is the least n such that the operator acts only on qubits below n.", "quantifier": "every Pauli object, term and expression", "why_tests_cant": "a claim about the operators of arbitrary expressions, of any number of qubits", "anchors": ["blueqat/pauli.py:_PauliImpl.is_identity", "blueqat/pauli.py:Term.is_identity", "blueqat/pauli.py:Expr.is_identity", "blueqat/pauli.py:Term.n_qubits", "blueqat/pauli.py:Expr.n_qubits"]}
{"id": "C74", "title": "Adding a polynomial adds its QUBO matrix", "statement": "Opt.add of the text of a polynomial in q0..q(n-1) adds the upper triangular matrix whose energy on every assignment of bits is the value of the polynomial without its constant; polynomials without such a matrix are refused.", "quantifier": "every polynomial expression, any powers and number of symbols, any order of set iteration", "why_tests_cant": "quantifies over all polynomials and all assignments", "anchors": ["blueqat/wq.py:Opt.add", "blueqat/wq.py:Opt.expand_qubo", "blueqat/wq.py:Opt.qubo_to_matrix"]}
{"id": "C75", "title": "optx and optm reduce polynomials of bits", "statement": "optx returns a polynomial without powers with the same values on bits; optm(P, n) returns the QUBO matrix of P.", "quantifier": "every polynomial expression", "why_tests_cant": "quantifies over all polynomials and all assignments", "anchors": ["blueqat/wq.py:optx", "blueqat/wq.py:optm"]}
{"id": "C76", "title": "counter counts annealing results", "statement": "counter counts every result under the text of its bits, exactly as often as it occurs.", "quantifier": "every list of results", "why_tests_cant": "any number of results and bits", "anchors": ["blueqat/wq.py:counter"]}
{"id": "C77", "title": "make_qs returns the symbols its documentation promises", "statement": "make_qs(n) returns q0..qn, make_qs(n, m) returns qn..qm.", "quantifier": "all n and m", "why_tests_cant": "all numbers", "anchors": ["blueqat/wq.py:make_qs"]}
{"id": "C78", "title": "Symbolic gate parameters: to_unitary commutes with inserting numbers", "statement": "For every circuit whose gate parameters are sympy expressions, and every assignment of values to the symbols that makes the parameters real: inserting the values into the matrix that to_unitary() returns gives the matrix to_unitary() returns for the circuit with the numbers as parameters, every entry has a value, and both calls raise the same exceptions. No other symbols occur in the matrix than those of the parameters, although the gate table of the backend uses the symbols theta, phi and lambd and the user's symbols may have these names. dagger() commutes with inserting numbers as well.", "quantifier": "all circuits, all expressions as parameters, all values of the symbols", "why_tests_cant": "A test uses a few gates and symbol names; capture of the names theta, phi, lambd by sequential substitution shows only for particular combinations.", "anchors": ["blueqat/backends/sympy_backend.py:46-158", "blueqat/gate.py:97-632"]}
{"id": "C79", "title": "ignore_global with symbolic parameters", "statement": "With ignore_global=True, too, inserting values into the symbolic matrix gives the matrix of the circuit with numbers as parameters.", "quantifier": "all circuits, all expressions as parameters, all values of the symbols", "why_tests_cant": "The division by a diagonal entry is undefined only at isolated values of the symbols.", "anchors": ["blueqat/backends/sympy_backend.py:160-170"]}
{"id": "C80", "title": "repr of a Pauli expression is a program that rebuilds it", "statement": "repr(v) of a Pauli operator, a Term or an Expr is Python source; evaluating it gives a value that compares equal to v.", "quantifier": "all operators, terms and expressions, whatever their coefficients, including repeated operators and repeated terms", "why_tests_cant": "The text depends on the sign of every coefficient, on the special coefficients 0 and -1 and on the number of terms; the comparison depends on the class of the value read back.", "anchors": ["blueqat/pauli.py:302-305", "blueqat/pauli.py:484-495", "blueqat/pauli.py:800-815"]}
{"id": "C81", "title": "Equal Pauli objects have equal hashes", "statement": "Pauli operators, terms and expressions can be hashed, and objects that compare equal have equal hashes, as Python requires of dictionary keys.", "quantifier": "all pairs of Pauli operators, terms and expressions", "why_tests_cant": "A law over all pairs of equal objects.", "anchors": ["blueqat/pauli.py:245-257", "blueqat/pauli.py:497-501", "blueqat/pauli.py:688-693"]}
{"id": "C82", "title": "Gate names mean the documented operations", "statement": "circuit.name(*params)[targets] with any of the names of the initial GATE_SET, aliases included (cnot, toffoli, r, cr, m), creates a gate object that stands for the documented operation; names that were not registered later have no other meaning as gates.", "quantifier": "all names, all real positional parameters, all targets", "why_tests_cant": "Parameters are real numbers and the operations act on all states; aliases are rarely tested.", "anchors": ["blueqat/circuit.py:30-71", "blueqat/circuit.py:112-114", "blueqat/circuit.py:278-288"]}
{"id": "C83", "title": "Shots follow the Born rule", "statement": "With independent uniform random numbers, one shot of a circuit on n>0 qubits (with measurements and resets anywhere) on a fresh numpy backend ends with given classical bits with the probability of the Born rule; in k shots the count has mean k p and variance k p (1-p), and the relative frequency tends to p almost surely as k grows; all counts together follow the multinomial distribution. If all measurements come last, p is the sum of the squared amplitudes of the basis states with these bits. A fresh numba backend (at most 64 qubits) returns the same counts.", "quantifier": "all circuits with valid targets, all bit strings, all numbers of shots", "why_tests_cant": "A statement about probability distributions; a finite number of runs only gives statistical evidence.", "anchors": ["blueqat/backends/numpy_backend.py:41-55", "blueqat/backends/numpy_backend.py:87-131", "blueqat/backends/numpy_backend.py:416-450", "blueqat/backends/_numba_backend_impl.py:387-438", "blueqat/backends/_numba_backend_impl.py:612-642"]}
{"id": "C84", "title": "Rounding angles to multiples of pi changes to_unitary by a bounded amount", "statement": "to_unitary() replaces a float angle by a multiple of pi when sympy.nsimplify finds a fraction with denominator below 1e12. If these fractions are within eps of the angles over pi, the matrix of the whole circuit, applied to any vector, differs from the exact operations by at most pi * eps * W times the length of the vector, and every entry by at most pi * eps * W, where W adds a constant of at most 7 for every operation (1/2 for a rotation, 1 for a phase, 0 for gates without angles). Other angles are kept, and without float angles the matrix is exact.", "quantifier": "all circuits of unitary gates with valid targets on n>0 qubits (no ccz, no qubit named twice by a one-qubit gate), all angles up to a bound, all eps", "why_tests_cant": "A bound over all circuits and angles; errors of 1e-13 are below the tolerance of tests but would add up.", "anchors": ["blueqat/backends/sympy_backend.py:28-34", "blueqat/backends/sympy_backend.py:95-98", "blueqat/backends/sympy_backend.py:109-123"]}
{"id": "C85", "title": "QAOA on cost functions", "statement": "If a Pauli term or expression is, as an operator, any real function d of the bits of a basis state, then simplify() writes it with Z only and with real coefficients, QaoaAnsatz accepts it, and Vqe(QaoaAnsatz(H, step), minimizer).run() (no sampler or the exact one) tells the minimizer, and prints, exactly the mean of d over the outcomes of measuring the state got by alternating the phases exp(i t d) and the rx layer; the result has the parameters the minimizer returned and most_common(m) gives the m most likely outcomes of that state in order, with their probabilities. The number of qubits is the least n such that d depends only on the first n bits. wq.pauli is such a function (the QUBO energy).", "quantifier": "all cost functions and all expressions for them, all steps, all minimizers, all m, all histories of the world", "why_tests_cant": "Quantifies over all Hamiltonians, parameters and minimizers; tests run a few instances with random starts and compare only the final answer.", "anchors": ["blueqat/vqe.py:84-137", "blueqat/vqe.py:147-148", "blueqat/vqe.py:183-197", "blueqat/wq.py:18-29"]}
{"id": "C86", "title": "Maxcut example", "statement": "The Hamiltonian of maxcut_qaoa is the number of edges minus twice the size of the cut that the bits describe, for every list of edges (also loops and parallel edges). A run minimizes the mean of that; no value told to the minimizer is below the number of edges minus twice the maximum cut, and if the result attains it then the outcome of most_common() is a maximum cut. Every cut is the cut of some outcome.", "quantifier": "all edge lists, steps, minimizers", "why_tests_cant": "The example is not tested, and tests would check a few graphs.", "anchors": ["examples/maxcut_qaoa.py:3-22", "examples/qaoa_via_ibmq.py:4-23", "examples/qaoa_via_qgate.py:3-22"]}
{"id": "C87", "title": "Number partition example", "statement": "The Hamiltonian of numpartition_qaoa is the square of the difference of the sums of the two groups; a run minimizes its mean, and a result of mean 0 gives a perfect partition. The groups the main program prints contain all the numbers and have these sums.", "quantifier": "all lists of real numbers, steps, minimizers, outcomes", "why_tests_cant": "Tests would check a few lists; the failing lists (fewer than two nonzero numbers) are edge cases.", "anchors": ["examples/numpartition_qaoa.py:7-19", "examples/numpartition_qaoa.py:29-35"]}
{"id": "C88", "title": "Factoring example", "statement": "The Hamiltonian of factoring_qaoa(num) is (num - p q)^2, where p and q are the odd numbers that bitseparator makes of the bits; get_nbit(n) is the least m >= 1 with n <= 2^m. bitseparator does not fail on the outcomes of the run; the main program prints the pairs of the most likely outcomes up to the first factorization, and if the mean energy of the result is 0 every outcome is a factorization. Every product of two odd factors has an outcome of energy 0.", "quantifier": "all natural numbers num, steps, minimizers, outcomes", "why_tests_cant": "Arithmetic over all numbers; failing cases (2, 51 = 3*17) are isolated.", "anchors": ["examples/factoring_qaoa.py:4-44", "examples/factoring_qaoa.py:46-55"]}
{"id": "C89", "title": "Rounding errors of the numpy simulator", "statement": "When every arithmetic operation of NumPyBackend has a relative error of at most eps (sines, cosines and 1/sqrt(2): absolute error), the state vector of a circuit without measurements differs from the documented one (up to a global phase if there are cu1 gates) by at most (1+k)^N - 1 in the Euclidean norm, where k = 44 (1 + largest angle) eps and N is the number of passes over the state, at most 7 per operation; so the error grows in proportion to the number of operations, and is the same for every number of qubits. Probabilities and the norm differ by at most (1+k)^(2N) - 1. Arithmetic that rounds every float operation with a relative error u <= 1/4 has eps = 4u. With eps = 0 operations the run is the exact one.", "quantifier": "all arithmetics of the given accuracy, all circuits without measurement, all numbers of qubits, all angles", "why_tests_cant": "Tests compare a few circuits with a tolerance; how errors add up for all circuits and all roundings is a statement about all of them.", "anchors": ["blueqat/backends/numpy_backend.py:136-414", "blueqat/backends/numpy_backend.py:87-131", "blueqat/gate.py:111-565"]}
{"id": "C90", "title": "Shots in floating point", "statement": "With the same arithmetic, if in every shot no random number lies within the rounding error of the probability it is compared with, and the measured results have probabilities of at least four times that error, then run(shots=k) gives exactly the counts of exact arithmetic, and the state vector after the last shot differs from the exact one by a stated bound.", "quantifier": "all arithmetics of the given accuracy, all circuits with measurements and resets, all numbers of shots, all random numbers that are clear of the thresholds", "why_tests_cant": "Rounding errors that change a measured bit occur for rare random numbers; tests sample a few.", "anchors": ["blueqat/backends/numpy_backend.py:416-450", "blueqat/backends/numpy_backend.py:87-131", "blueqat/backends/numpy_backend.py:29-55"]}
{"id": "C91", "title": "Rounding errors of the numba simulator", "statement": "The numba kernels are compiled with fastmath, so the compiler chooses how their arithmetic is done. If the values the compiled kernels write are within 22 (1 + largest angle) eps of the source's (relative to the two amplitudes read), the state vector of a circuit without measurements differs from the documented one (up to a global phase if there are cu1 gates) by at most (1+k)^N - 1 in the Euclidean norm, where k = 44 (1 + largest angle) eps and N is the number of passes over the state; probabilities and the norm differ by at most (1+k)^(2N) - 1. This holds with and without the cache, and errors do not build up in the cache when gates are added to a circuit that was run before. Kernels computed in the order of the source by operations with relative errors of at most eps are that accurate. Whatever values the compiled iterations write, every schedule of a parallel loop gives the same array. With exact kernels the run is the exact one.", "quantifier": "all compiled kernels of the given accuracy, all circuits without measurement on up to 64 qubits, all angles, all schedules", "why_tests_cant": "Tests see one compilation and one schedule on a few circuits; the statement is about all of them.", "anchors": ["blueqat/backends/_numba_backend_impl.py:29", "blueqat/backends/_numba_backend_impl.py:98-315", "blueqat/backends/_numba_backend_impl.py:387-439", "blueqat/backends/_numba_backend_impl.py:444-610"]}
{"id": "C92", "title": "Shots of the numba simulator in floating point", "statement": "With kernels of that accuracy, scaling after a measurement accurate to 4 eps and sums of squares to nu, if in every shot no random number lies within the rounding error of the probability it is compared with, and the measured results have probabilities of at least four times that error, then run(shots=k) gives exactly the counts of exact arithmetic and those of the numpy backend in floating point, and the state vector after the last shot differs from the exact one by a stated bound.", "quantifier": "all compiled kernels of the given accuracy, all circuits with measurements and resets on 1 to 64 qubits, all numbers of shots, all random numbers that are clear of the thresholds", "why_tests_cant": "Rounding errors that change a measured bit occur for rare random numbers and depend on the compilation; tests sample a few.", "anchors": ["blueqat/backends/_numba_backend_impl.py:317-355", "blueqat/backends/_numba_backend_impl.py:387-439", "blueqat/backends/_numba_backend_impl.py:612-642"]}
{"id": "C93", "title": "!= and comparison with numbers", "statement": "a != b raises exactly where a == b does and is its opposite elsewhere, for all combinations of numbers, Pauli operators, terms and expressions; expressions are != exactly if they are different operators. A value equal to a number as an operator compares equal to it.", "quantifier": "all pairs of values", "why_tests_cant": "The combinations of operand types and values are many; the tests compare a few objects with ==.", "anchors": ["blueqat/pauli.py:248-260", "blueqat/pauli.py:497-504", "blueqat/pauli.py:688-696"]}
{"id": "C94", "title": "Methods of Pauli objects", "statement": "to_term and to_expr keep the operator and reject exactly what has no such form; commutator and is_commutable accept every combination of Pauli operators, terms and expressions, and the methods agree with the functions; iterating over an expression yields terms that add up to it; max_n, n_iter, coeffs are the indices and coefficients; n_qubits is max_n + 1; the constructors make the operator on the given qubit and carry its matrix; a copied or pickled value is the value.", "quantifier": "all values, terms and expressions", "why_tests_cant": "The statements are about all expressions and all combinations of types.", "anchors": ["blueqat/pauli.py:168-219", "blueqat/pauli.py:307-361", "blueqat/pauli.py:506-520", "blueqat/pauli.py:554-571", "blueqat/pauli.py:797-798", "blueqat/pauli.py:817-852"]}
{"id": "C95", "title": "ignore_global in floating point", "statement": "With ignore_global=True, in arithmetic with small relative errors, the state vector returned by the numpy and the numba backend is the documented state times one complex number of size 1, up to an explicitly bounded error; nothing else in the result changes. If it is clear in spite of rounding which amplitude is the first above 10^-7, the vector is close to the documented state turned so that this amplitude is positive; so circuits whose states differ by a global phase return nearly equal vectors, also across the two backends.", "quantifier": "all circuits of unitary gates with valid targets, all numbers of qubits (numba: up to 64), all arithmetics of the stated accuracy, all cache settings", "why_tests_cant": "Tests compare a few circuits on one machine; the bound is for every circuit and every arithmetic of the given accuracy, and near the threshold the result jumps.", "anchors": ["blueqat/utils.py:41-55", "blueqat/backends/_numba_backend_impl.py:645-652", "blueqat/backends/numpy_backend.py:129-131", "blueqat/backends/_numba_backend_impl.py:437-439"]}
{"id": "C96", "title": "Caches are invisible in machine arithmetic, for every dtype", "statement": "Whatever rounding the floating-point operations of the numpy backend and the compiled kernels of the numba backend do, a run returns bit for bit what the same run on a new backend object (numba: with enable_cache=False) returns, whatever was done before: other runs of the circuit, with the cache on or off, numba runs with another dtype, runs that raise, make_cache, appended gates, copies, concatenations. The caches violate this after a run cut short by a KeyboardInterrupt (numba, C19) and after dagger(copy_backends=True) (C17); these two are excluded.", "quantifier": "all histories without an interrupted numba run and without dagger(copy_backends=True), all circuits, all run arguments, all dtypes, all arithmetics (no accuracy is assumed)", "why_tests_cant": "Tests compare a few results up to a tolerance; here results are equal to the last bit for every history and every arithmetic.", "anchors": ["blueqat/backends/numpy_backend.py:71-134", "blueqat/backends/_numba_backend_impl.py:372-442", "blueqat/backends/_numba_backend_impl.py:612-643"]}
{"id": "C97", "title": "Outcome probabilities and energies in floating point", "statement": "In arithmetic with small relative errors, the probabilities that non_sampling_sampler gives and the energy that get_energy computes from them differ from the probabilities of the outcomes in the documented state, and from the expectation value of the Hamiltonian in it, by at most an explicit bound, on the numpy and on the numba backend; an outcome left out by most_common is at most twice that bound more probable than one returned.", "quantifier": "all circuits of unitary gates with valid targets, all lists of measured qubits, all Hamiltonians whose terms mention a qubit at most once, all arithmetics of the stated accuracy", "why_tests_cant": "Tests compare a few energies up to a tolerance on one machine; the bound is for every circuit, Hamiltonian and arithmetic of the given accuracy.", "anchors": ["blueqat/vqe.py:44-60", "blueqat/vqe.py:148-149", "blueqat/vqe.py:157-173", "blueqat/vqe.py:213-238"]}
{"id": "C98", "title": "Matrices of Pauli expressions and sparse energies in floating point", "statement": "In arithmetic with small relative errors, simplify computes the words exactly and the coefficients up to an explicit error; every entry of the matrices that Term.to_matrix and Expr.to_matrix give differs from that of the matrix of the operator by at most an explicit factor times the sum of the absolute values the terms contribute to it (so entries no term contributes to are exactly zero); and get_energy_sparse differs from the expectation value of the Hamiltonian in the documented state by at most an explicit bound, on the numpy and on the numba backend, or raises ValueError if the circuit has another number of qubits. Expr.to_matrix raises ZeroDivisionError only if the expression is zero up to these errors.", "quantifier": "all terms and expressions, all numbers of qubits that suffice, all formats, all contents of uninitialised memory, all circuits of unitary gates with valid targets, all arithmetics of the stated accuracy", "why_tests_cant": "Tests compare a few small matrices and energies up to a tolerance on one machine; the bound is for every expression, circuit and arithmetic of the given accuracy.", "anchors": ["blueqat/pauli.py:69-113", "blueqat/pauli.py:522-551", "blueqat/pauli.py:618-643", "blueqat/pauli.py:858-901", "blueqat/vqe.py:33-38", "blueqat/vqe.py:62-64", "blueqat/vqe.py:321-332"]}
{"id": "C99", "title": "Opt.qaoa minimizes the energy of the QUBO of the object, as Opt.sa does", "statement": "For an Opt object whose QUBO is an n x n matrix (a list of lists or an array, for instance the sum made by add calls), qaoa(shots, step, verbose) lets the default minimizer minimize, over 2*step parameters, the mean of the energy sum_ij Q_ij b_i b_j over the outcomes of measuring the QAOA state, and returns its parameters; most_common(l) of the result gives the l most likely assignments of the n variables with their probabilities; sa() anneals the same energy. Without a QUBO, and for rows of the wrong lengths, qaoa raises.", "quantifier": "all square matrices given as lists or arrays, all sequences of add calls, all numbers of steps, all minimizers, all earlier operations on circuits, all random numbers", "why_tests_cant": "The tests of wq do not call qaoa; a test would look at one small QUBO and one optimizer run, where missing variables, ignored lower triangles and unused arguments do not show.", "anchors": ["blueqat/wq.py:18-29", "blueqat/wq.py:399-424", "blueqat/wq.py:469-478", "blueqat/wq.py:526-528", "blueqat/wq.py:563-565", "blueqat/vqe.py:86-117", "blueqat/vqe.py:147-148", "blueqat/vqe.py:184-196"]}
{"id": "C100", "title": "Angles of time evolutions and QAOA circuits are floats", "statement": "Term.simplify returns a coefficient of class float (or int) whenever the term has operators and its coefficient is real, whatever the classes of the numbers it was built from; so the circuits that get_time_evolution and QaoaAnsatz append have only float angles, which the numpy backend accepts (a complex angle raises TypeError even if its imaginary part is zero). The values are those of the exact model, and a coefficient that is not real is rejected with ValueError.", "quantifier": "all terms and expressions with int, float or complex coefficients, all times", "why_tests_cant": "Whether a coefficient has class complex depends on the order and the classes of the numbers multiplied; tests use a few expressions with float coefficients.", "anchors": ["blueqat/pauli.py:50-60", "blueqat/pauli.py:522-551", "blueqat/pauli.py:584-616", "blueqat/pauli.py:858-865", "blueqat/vqe.py:116-117", "blueqat/backends/numpy_backend.py:227-237"]}
{"id": "C101", "title": "QAOA in floating point: circuits and objective values have small errors", "statement": "With floating-point products, constants and simplified coefficients of relative error at most eps, the circuit that QaoaAnsatz.get_circuit makes is, up to a global phase and an operator-norm error bounded by the sizes of the angles times eps, the alternating operator of the terms of the Hamiltonian and the mixer as the machine has simplified them; a call makes a new circuit and changes none. For the default initial circuit and mixer the objective function of get_objective(None) is the mean energy of that state, for a Hamiltonian of Z operators the mean of its cost function, up to an explicit bound (10^-11 for Z[0]*Z[1] with one step in double precision).", "quantifier": "all roundings of the given accuracy, Hamiltonians, steps, mixers, initial circuits, histories, parameters and simulators that satisfy the bounds of C89/C91", "why_tests_cant": "Tests compare a few energies with a tolerance chosen by hand; they say nothing about how the error grows with the number of steps, terms and qubits, or about other roundings.", "anchors": ["blueqat/vqe.py:66-82", "blueqat/vqe.py:86-117", "blueqat/vqe.py:123-137", "blueqat/pauli.py:584-616", "blueqat/pauli.py:192-219"]}
{"id": "C102", "title": "Arithmetic with Pauli operators in floating point has small errors", "statement": "If sums, products, quotients and powers of numbers have relative error at most delta, the value Python computes for a formula of numbers and Pauli operators (the formulas of C33) denotes the operator of the formula up to Pauli products whose coefficients add up to at most (1 + delta)^k - 1 times the value of the formula with all numbers and signs made positive; k counts the roundings a coefficient goes through. In particular each entry of the matrix has at most that error, and rounding never makes Python refuse a formula. Coefficients that should cancel need not cancel.", "quantifier": "all accuracies, roundings and formulas (nested sums, differences, products, quotients by numbers and powers)", "why_tests_cant": "Tests compare a few operators with small integer coefficients, where floating-point arithmetic is exact; the growth of the error with nesting and with the number of terms is not seen.", "anchors": ["blueqat/pauli.py:262-300", "blueqat/pauli.py:430-482", "blueqat/pauli.py:698-795"]}
{"id": "C103", "title": "Deciding in floating point whether Pauli operators commute", "statement": "is_commutable computes, in floating point, a sum of squares within (1 ± η)(√S ± ε)² of the sum S of the squared moduli of the coefficients of the commutator; ε and η are of the order of delta times the number of roundings (ε also of the sizes of both operators). So it decides as exact arithmetic does unless S is that close to eps. Two terms that commute are always found to commute, whatever their coefficients; with doubles and eps = 1e-8, two terms of up to a million letters are decided correctly if the product of the coefficients has modulus at least 5.001e-5. Hence QaoaAnsatz accepts every Hamiltonian whose terms commute and rejects those with two non-commuting terms that are not tiny. For sums of terms eps is absolute: with coefficients around 15000, a and x*a are said not to commute.", "quantifier": "all accuracies, roundings and expressions; all pairs of terms; all Hamiltonians", "why_tests_cant": "Tests decide a few pairs with coefficients 1 or small integers, where the commutator is computed without error.", "anchors": ["blueqat/pauli.py:193-219", "blueqat/pauli.py:854-856", "blueqat/vqe.py:90-121"]}
{"id": "C104", "title": "Arguments of gates and runs", "statement": "Positional and keyword arguments are bound to the documented parameters: a gate called with its parameters in any mixture of positions and names is the documented gate, and its text is that gate's; a missing, repeated or superfluous parameter is a TypeError. run binds shots, returns and ignore_global in the same way on the numpy and numba backends, to_qasm binds output_prologue, to_unitary takes ignore_global by name, and backend= is not passed on to the backend. (Violated: every argument is used or refused. A gate without parameters accepts one argument and any keyword, ignores them, and printing it can then raise TypeError; misspelt keywords of run are ignored; to_unitary(True) ignores its argument; the third positional argument of run is ignore_global on numpy and enable_cache on numba.)", "quantifier": "all gate names, argument lists, keyword dictionaries, circuits and backend states", "why_tests_cant": "Tests call each gate in one way; the binding rule is about every mixture of positions, names and defaults, and about names nobody thought of.", "anchors": ["blueqat/circuit.py:187-217", "blueqat/circuit.py:278-288", "blueqat/gate.py:22-27", "blueqat/gate.py:38-42", "blueqat/backends/numpy_backend.py:87-105", "blueqat/backends/_numba_backend_impl.py:387-406", "blueqat/backends/qasm_output_backend.py:23-27", "blueqat/backends/sympy_backend.py:160-162"]}
{"id": "C105", "title": "Gate names and text of Ops", "statement": "The immutable Ops has the gate names of Circuit with the same classes: a call by name with the documented parameters gives the documented gate and the least register containing the old one and the subscript; a subscript without maximum index raises first; dagger of gates that have names in Ops gives such gates; the text of an Ops value is a Python expression that rebuilds it, using names of Ops only. (Violated: rxx, ryy, rzz, cswap and reset are missing in Ops; without gates the text ends with a dot.)", "quantifier": "all names, calls, subscripts, sizes and gate lists", "why_tests_cant": "The tests of Ops build a few circuits; the two gate tables are separate dictionaries that drift apart.", "anchors": ["blueqat/experimental/operations.py:6-42", "blueqat/experimental/operations.py:51-59", "blueqat/experimental/operations.py:66-68", "blueqat/experimental/operations.py:88-92", "blueqat/circuit.py:30-71"]}
{"id": "C106", "title": "Simulated annealing samples the Boltzmann distribution and finds optima", "statement": "With independent uniform random numbers, Opt.run with a QUBO is a Markov chain: each step chooses a bit uniformly and flips it with the Metropolis probability for the energy of the QUBO. A run with one shot returns an assignment with exactly the probability that the chain (ite steps at each temperature Ts, Ts R, ... above targetT) leads to it from a uniformly random assignment; the shots are independent. The step is reversible for the Boltzmann distribution, and as ite grows the distribution of the result tends to the Boltzmann distribution at the last temperature. For low targets and many steps a run returns an assignment of least energy with probability arbitrarily close to 1.", "quantifier": "all QUBOs, options, schedules, assignments and lists of assignments; limits in ite and targetT", "why_tests_cant": "Tests run one seed and look at one result; a distribution, its limit and independence of shots are statements about all random streams.", "anchors": ["blueqat/wq.py:480-524", "blueqat/wq.py:396-397", "blueqat/wq.py:399-424"]}
{"id": "C107", "title": "Distribution of the result of simulated quantum annealing", "statement": "With independent uniform random numbers, Opt.sqa with a QUBO and two or more slices is a Markov chain on the slices: each step chooses a slice and a site uniformly and flips that spin with the Metropolis probability, at temperature Tf, for the mean energy of the slices minus kappa times the agreement of neighbouring slices, kappa = (Tf/2) log coth(G/(Tf tro)). sqa returns given spins with exactly the probability that ite steps at each field Gs, Gs R, ... above Gf lead to them from uniformly random slices. As ite grows the distribution tends to the Boltzmann distribution of that energy at the last field; as the final field also goes to 0 all slices agree and their common bits follow the Boltzmann distribution of the QUBO at temperature Tf.", "quantifier": "all QUBOs, options with tro >= 2, Tf > 0 and positive fields, all schedules and all spins; limits in ite and Gf", "why_tests_cant": "The tests look at one result of one seed; a distribution over all random streams and its limits cannot be sampled.", "anchors": ["blueqat/wq.py:530-561", "blueqat/wq.py:396-397", "blueqat/wq.py:399-424"]}
{"id": "C108", "title": "Backends generated from a reader of OpenQASM", "statement": "After register_backend(name, generate_backend(reader)), every run by that name (run(backend=name), a default, run_with_name) of any circuit sends the text of that circuit, c.to_qasm(), and the arguments of the run to this reader and returns its answer; a circuit without a text raises the printer's error and the reader is not called. A run changes nothing else in the program, so one instance can be shared by circuits; make_cache does nothing.", "quantifier": "all readers, circuits, arguments, names and histories of actions before and after the registration", "why_tests_cant": "No test uses generate_backend; whether a run still reaches the registered reader depends on the whole history of the program (objects cached in circuits, copies, registrations).", "anchors": ["blueqat/backends/qasm_parser_backend_generator.py:19-49", "blueqat/circuit.py:96-104", "blueqat/circuit.py:393-416"]}
{"id": "C109", "title": "Ordinary programs with the initial backends", "statement": "In a program that starts with the module's tables and makes, grows, copies, adds, inverts and runs circuits in any order, with any backends and arguments, without dagger(copy_backends=True), interrupted runs or (un)registration of the names numpy, numba, qasm_output and sympy_unitary: every run by one of these names (run(backend=name), a default, to_qasm, to_unitary) returns or raises what the same call does on a new object of the class; run() without a backend is a run by the name numpy if no default is set. So for a circuit of unitary gates with valid targets (1 to 64 qubits, no one-qubit gate naming a qubit twice), run() on numpy and on numba return the same vector, the documented operators applied to the all-zero state up to a phase that is 1 without cu1; to_unitary() returns the matrix of these operators with the same phase; and to_qasm() returns a program that does the same up to a global phase. With measurements, run(shots=k) on numpy and numba return the same counts from the same random numbers, those of k independent runs of the documented circuit; with independent uniform random numbers they follow the multinomial distribution of the Born probabilities.", "quantifier": "all histories of actions, circuits in them, backends registered besides, arguments of runs and random numbers", "why_tests_cant": "The tests make a new circuit for every check; whether caches, copies, defaults and shared objects of a longer program can change a later result is a statement about all histories, across four backends.", "anchors": ["blueqat/circuit.py:75-83", "blueqat/circuit.py:96-109", "blueqat/circuit.py:187-236", "blueqat/backends/numpy_backend.py:133-134", "blueqat/backends/_numba_backend_impl.py:387-442"]}
{"id": "C110", "title": "Gate wrappers can be kept and used again", "statement": "`w = circuit.name` is an object that a program can keep, call and subscript any number of times. After any program each circuit holds what it held before followed by one gate for each subscript of its own wrappers, in the order of the subscripts, with the wrapper's name and the arguments given to that wrapper last; fetching and calling change no circuit, and the circuits are as after appending the same gates one by one. A subscript of a wrapper of an Ops value gives that value with one gate more, whatever the wrapper was used for before. str(w) is the name, the list of arguments given last, and the subscript used last.", "quantifier": "all sequences of attribute accesses, calls and subscripts, on any number of circuits and wrappers; all arguments and subscripts", "why_tests_cant": "The tests write circuit.name(args)[targets] in one go; arguments that stay in a wrapper, or subscripts that raise in between, are a matter of all sequences of uses.", "anchors": ["blueqat/circuit.py:269-299", "blueqat/experimental/operations.py:74-103"]}
{"id": "C111", "title": "Which circuits run", "statement": "A circuit none of whose operations names an index beyond its register runs on the numpy simulator, run(), exactly if every operation stands for elementary operations on qubits of the register, with different qubits where there are several: subscripts are integers and slices (or flat tuples of them, for two-qubit gates a pair of these with as many controls as targets), no slice has step 0, no index is below the register. In every other case the run raises. The numba backend (up to 64 qubits), to_qasm and, for unitary gates, to_unitary accept the same circuits.", "quantifier": "all register sizes, all lists of gates, measurements and resets with all subscripts, all random numbers in [0, 1), all cached states", "why_tests_cant": "The tests check a few refused subscripts; that nothing without a meaning is silently simulated, and nothing meaningful refused, is a statement about all subscripts and all gates.", "anchors": ["blueqat/gate.py:635-680", "blueqat/gate.py:97-102", "blueqat/backends/numpy_backend.py:87-134", "blueqat/backends/numpy_backend.py:359-368", "blueqat/backends/qasm_output_backend.py:42-132", "blueqat/backends/sympy_backend.py:85-143"]}
