# Formal model of Blueqat: design

## 1. Trusted base

* Lean 4.33.0's kernel, and Mathlib (imported module by module).
* Axioms: every theorem depends on a subset of `propext`, `Classical.choice`, `Quot.sound`
  (checked with `vcheck`). No axiom is added, no `sorry`, no `native_decide`/`bv_decide`.
* The hand translation Python -> Lean. Every model definition cites the file and lines it models.
* Idealisations (all deliberate, all documented again where they occur):
  * floating point `float`/`complex` are modelled by the reals `ℝ` / complex numbers `ℂ`;
    rounding, overflow, NaN and dtype narrowing are not modelled. The exceptions are `NpFloat` (C89, C90) and `NbFloat` (C91, C92), `FloatPhase` (C95), `FloatKit` (C96), `VqeFloat` (C97), `PauliFloat` (C98), `PauliAlgFloat` (C101, C102, C103) and `QaoaFloat` (C101), where the
    simulators run on an arbitrary rounded arithmetic (still without overflow, underflow and NaN);
  * `random.random()` is an arbitrary stream of reals in `[0,1)` given as input (in C83: independent and uniformly distributed on `[0,1)`);
  * numpy arrays are lists; boolean-mask selection/assignment is modelled with numpy's length rule;
  * sympy expressions used as gate parameters are modelled for `to_unitary` only (`SymGate`), as expressions that are not
    rewritten; elsewhere parameters are numbers;
  * Python dicts are insertion-ordered association lists; `sorted` is a stable sort.
* Not modelled: the third-party packages (numpy, scipy, numba's compiler, sympy's simplifier, qgate,
  qiskit), plotting (`wq.plot`), network access, printing, `timeit`, GPU/dll code of qgate.

## 2. Method

* Exceptions are values: `Except PyErr α`, with one constructor per Python exception class.
* Each Python function is a total Lean function mirroring its branches.
* Specifications live in `Verif/Spec/*.lean` and mention no model definition.
* Property theorems live in `Verif/Props/*.lean`; every one has `example`s of non-vacuity beside it.
* When a property is false of the code, the negation is proved with a concrete witness reachable through
  the API (theorem suffix `_refuted`), and what remains true is proved under the suffix `_partial`.

## 3. Modules

Model (namespace `Blueqat`; each definition cites its lines):

| module | code modelled |
|---|---|
| `Py`, `PyDict`, `NpArray` | exceptions, insertion-ordered dicts, numpy mask selection and assignment |
| `Slicing` | `gate.py` slicing, qubit pairs, maximum index |
| `Gate` | `gate.py` gate classes, dagger, fallback |
| `Circuit` | `circuit.py` Circuit on a heap (`World`), `_GateWrapper`, copy/add/iadd/dagger, run; `experimental/operations.py` |
| `Registry` | `circuit.py` BlueqatGlobalSetting, backend selection |
| `Backend` | `backendbase.py`, action tables of the four backends |
| `Numpy`, `NpRun` | `numpy_backend.py` at array level (masks, double buffer, cache, shots, run arguments) |
| `NpFloat` | `numpy_backend.py` again, with every arithmetic operation taken from a parameter `F : FloatOps`; numbers are real numbers, changing a sign and copying are exact; `ignore_global` is left out. `FloatOps.rounded` is our assumption about how numpy and CPython build complex operations from float operations; only `C89_doubles` is about it |
| `NbFloat` | `_numba_backend_impl.py` again, with the values written by the compiled kernels taken from a parameter `K : NbFloat` (`fastmath=True`): which elements an iteration reads and writes, in which order, and all code outside the kernels is as in `Numba`. `NbFloat.source F` computes the kernels in source order with `F : FloatOps`. `ignore_global` is left out |
| `FloatPhase` | `ignore_global_phase` of utils.py, `_ignore_global` and both `run` methods with all options, on top of `NpFloat` and `NbFloat`, with the arithmetic of the phase taken from a parameter `P : PhaseOps`. `PhaseOps.rounded` is our assumption about numpy (Smith's method for quotients); only `C95_doubles` is about it |
| `FloatKit` | both classes as circuits use them, on top of `FloatPhase`; the argument `dtype` of numba runs: dtypes are an arbitrary type `D`, each with its own arithmetic, and cached arrays have a dtype. What a compiled kernel computes is a function of its arguments |
| `VqeFloat` | `vqe.py`: `expect`, `non_sampling_sampler`, `get_energy` in rounded arithmetic; circuits are run by the rounded numpy or numba backend |
| `PauliFloat` | `pauli.py`: `simplify`, `_kron_1d`, `_term_to_dataarray`, `to_matrix`; `vqe.py`: `make_sparse`, `sparse_expectation`, `get_energy_sparse`, in rounded arithmetic |
| `Numba` | `_numba_backend_impl.py`: 64-bit index kernels, loops as lists of reads and writes, cache, shots, run arguments |
| `Sympy` | `sympy_backend.py`: Kronecker chains, products, `ignore_global`; expressions are exact complex numbers |
| `SympyAngle` | `sympy_backend.py` `_angle_simplify` and the methods that call it; the fraction found by `sympy.nsimplify` is a parameter |
| `PauliRepr` | `pauli.py`: `__repr__` and `__hash__` of operators, terms and expressions. The text of a number is a parameter |
| `SymGate` | `sympy_backend.py` with sympy expressions as gate parameters: gate templates and their substitution, fallbacks, `ignore_global`. Expressions are kept as written; which of them sympy knows to be 0 is a parameter |
| `Qasm` | `qasm_output_backend.py`: the text, line by line; the text of a number is a parameter |
| `Experimental` | `experimental/utils.py` `circuit_to_unitary` |
| `Pauli` | `pauli.py`: Pauli objects, `Term`, `Expr`, Python's operator dispatch between them; coefficients are exact complex numbers |
| `PauliObj` | `pauli.py`: `!=`, comparison with numbers, `to_term`, `to_expr`, `commutator` and `is_commutable` as functions and methods, `n_iter`, `max_n`, `coeffs`, `__iter__`, the constructors `X`, `Y`, `Z`, `__getnewargs__` |
| `PauliMatrix` | `pauli.py` `to_matrix` of Pauli objects, terms and expressions, with the scipy/numpy constructors as library behaviour (`_kron_1d`, `_term_to_dataarray`, CSC/CSR/COO/dense) |
| `PauliCircuit` | `pauli.py` `append_to_circuit`, `get_time_evolution`; the rotation angle of a complex coefficient with zero imaginary part is its real part (its class: `PauliTyped`) |
| `PauliTyped` | `pauli.py` `Term.simplify`, `Expr.simplify`, `get_time_evolution` with the class (real or complex) of every coefficient; `gate_rz` of the numpy backend rejects complex angles |
| `PauliAlgFloat` | `pauli.py` `*`, `+`, `-`, `/`, `**`, `commutator`, `is_commutable` of terms and expressions in rounded arithmetic |
| `QaoaFloat` | `QaoaAnsatz` (`vqe.py`) and `get_time_evolution` with rounded angles, the objective function without a sampler (`make_cache` is left out: C96) |
| `Qubo` | `wq.py` `pauli`, `Ei`, `Ei_sqa`, `sel`, `mul`, `sqr`, `net`, `diag`, `zeros`, `Opt.reJ`, `qi`, `run`, `sa`, `sqa`; a QUBO is a list of lists, real numbers are exact, random numbers come from arbitrary streams, loops that may not end have a bound on the sweeps and report when it is reached |
| `SymExpr` | `wq.py` `nbody_separation`, `qn_to_qubo`; a sum is the list of its arguments, products have a coefficient and symbols with multiplicity; `subs` is modelled for products of different symbols; the order of set iteration is a parameter |
| `Vqe` | `vqe.py` `expect`, the samplers except the Qiskit one, `get_energy`, `get_energy_sparse`, `sparse_expectation`, `VqeResult`; `np.random.multinomial` is an arbitrary function, no `run_options` |
| `VqeRun` | `vqe.py` `AnsatzBase.get_objective`, `Vqe.run`, `Vqe.result`, `get_scipy_minimizer`; a minimizer is a deterministic strategy that asks for values and ends with a point |
| `QiskitSampler` | `vqe.py` `get_qiskit_sampler` on the Qiskit record of `Ibmq` |
| `Qaoa` | `vqe.py` `QaoaAnsatz` on the object store of `Circuit`, without `sparse` |
| `Qgate` | `backends/qgate_backend.py`: conversion of gates, keys of counts, arguments of `run`, the sampling pool. qgate itself is a record of functions (`QSim`); integers are unbounded; `circuit_prep` and `create_global_phase_gates` (never called) are not modelled |
| `Repr` | `circuit.py` `Circuit.__repr__`, `gate.py` `_str_args`, `_str_targets`, `params`, gate names of `GATE_SET`; the text of a number is a parameter |
| `Ibmq` | `backends/ibmq_backend.py`, `backends/qasm_parser_backend_generator.py`; Qiskit is a record of functions (`Qiskit`) |
| `WqOpt` | `wq.py` `Opt.add` (matrices), `Opt.run` on arrays (numpy's comparison of an array with `[]`), `Opt.dw` with the D-Wave solver as a record (`DwSolver`) |
| `WqQaoa` | `wq.py` `Opt.qaoa` (composition of `pauli`, `QaoaAnsatz` and `Vqe.run`), `Opt.sa` |
| `Rbm` | `wq.py` `rands`, `dbms`, `sigm`, `rbm_hmodel`, `rbm_data_qubo`, `rbm_model_qubo`, `fit`; printing and plotting are not modelled |
| `SymPoly` | `wq.py` `Opt.expand_qubo`, `Opt.qubo_to_matrix`, `Opt.add` of a string, `optx`, `optm`. An expanded sympy expression in `q0, q1, ...` is an element of `MvPolynomial ℕ ℝ`; `expand`, `subs(x**k, x)`, `poly(f).degree()`, `coeff`, `float` are library behaviour written out in the module; the order of set iteration is a parameter |
| `WqNames` | `wq.py` `make_qs` (numbers that are not negative), `counter` |
| `Examples` | `/repo/examples`: the maxcut, number partition and factoring problems, the functions that read the outcomes. `int(num**0.5)` is exact; printing is not modelled |
| `Calls` | Python's binding of arguments to parameters; the calls of gate wrappers (`circuit.py`, constructors in `gate.py`), `Circuit.run`, and the arguments of `run` of the numpy, numba, sympy and OpenQASM backends. Argument values are `None`, integers, booleans, floats, strings and tuples |
| `OpsNames` | `experimental/operations.py`: the gate table, calls by name, `__repr__` |
| `Program` | the initial `BACKENDS` table (`circuit.py:75-83`) with the numpy, numba, OpenQASM and sympy classes in one program, arguments as written by the caller |
| `QasmBackend` | `backends/qasm_parser_backend_generator.py`: objects, `generate_backend`, and their place among other backends; readers are functions without state |
| `Wrapper` | `_GateWrapper` of `circuit.py` and of `experimental/operations.py` as objects that are kept and used again, `__str__` |
| `Utils` | `utils.py`, key reversal of `ibmq_backend.py` |

Specifications (namespace `Spec`): `Spec/Slice`, `Spec/Targets`, `Spec/Quantum` (amplitudes, 2x2 matrices, bit
operators), `Spec/Circuit` (elementary operations, machine state, measurement), `Spec/World`, `Spec/Append`,
`Spec/InRange`, `Spec/Run`, `Spec/RunNumba`, `Spec/RunFloat`, `Spec/Parallel` (interleavings), `Spec/Shots`, `Spec/Dagger`,
`Spec/Negative`, `Spec/Matrix`, `Spec/Qasm` (statements, text, `qelib1.inc`, parser),
`Spec/Pauli` (operators on state vectors, arithmetic formulas), `Spec/PauliChars`, `Spec/PauliMatrix`, `Spec/PauliSupport` (qubits an operator acts on), `Spec/Evolution` (gates that
act as an operator, Schrödinger equation), `Spec/Qubo`, `Spec/Anneal`, `Spec/Once` (repeated qubits count once), `Spec/Chain` (Metropolis chain, Boltzmann distribution, independent uniform draws), `Spec/SymExpr`, `Spec/Vqe` (outcome probabilities,
expectation values), `Spec/Qaoa` (alternating operator), `Spec/Qgate` (bit strings, lanes), `Spec/QgateOps` (qgate's operators),
`Spec/Calls` (binding of arguments), `Spec/Repr` (Python call chains and a reader for them), `Spec/Ibmq` (ideal executor of OpenQASM programs),
`Spec/WqOpt` (ground states), `Spec/Rbm` (layers, means over states with clamped units), `Spec/VqeRun` (what a minimizer asks and is told,
lowest energies), `Spec/Multinomial` (draws with the right means), `Spec/Names` (gate names), `Spec/Diagonal` (cost functions as operators, the QAOA state, most likely outcomes), `Spec/Examples` (cuts, groups, odd numbers), `Spec/Rounding` (accurate arithmetic, growth of errors, random numbers clear of the thresholds), `Spec/RoundingNumba` (accurate compiled kernels), `Spec/EnergyFloat` (accurate arithmetic for energies, bounds on their errors), `Spec/PauliFloat` (accurate arithmetic for matrices and sparse energies, bounds on their errors), `Spec/PauliAlgFloat` (accurate arithmetic of coefficients, sizes of operators and formulas, numbers of roundings), `Spec/PauliCommFloat` (symmetric roundings, sums of squares of coefficients, errors of commutators), `Spec/Double` (rounding to 53 bits, nearest, ties to even, unbounded exponents), `Spec/QaoaFloat` (accurate angles, errors of evolutions and of QAOA circuits, numbers of passes), `Spec/Phase` (accurate removal of a phase, turned states), `Spec/Angles` (angles of operations, how much they matter), `Spec/Born` (projections, probabilities of classical bits, independent uniform numbers), `Spec/PauliRepr` (reader of sums of products), `Spec/SymValue` (expressions with symbols, their values), `Spec/SymPoly` (values of polynomials as written, quadratic forms), `Spec/QiskitSampler` (counts of observed outcomes, binary or hexadecimal), `Spec/Generated` (circuits run on a reader of OpenQASM), `Spec/Program` (ordinary programs with the initial backends),
`Spec/Overwritten` (terms lost by + and -),
`Spec/Kept` (the counts that the measurement sampler keeps), `Spec/Wrapper` (what a history of uses of gate wrappers means).

Helper lemmas: `SlicingLemmas`, `TargetsLemmas`, `QuantumLemmas`, `Fallback*`, `NpArrayLemmas`, `NpKernels`,
`NormLemmas`, `NumpyRefine`, `NpPlain`, `NpCache`, `NpShared`, `NpShots`, `NpCreg`, `WorldLemmas`, `AppendLemmas`, `WorldInv`,
`DaggerLemmas`, `NumbaIndex`, `NumbaLoops`, `NumbaKernels`, `NumbaRefine`, `NumbaCache`, `SympyLemmas`,
`QasmMeaning`, `QasmParse`, `QasmLemmas`, `PauliLemmas`, `PauliReduced`, `PauliSimplify`, `PauliIndep`, `PauliFormula`,
`PauliCommute`, `PauliKron`, `PauliMatrixLemmas`, `PauliMatrixOps`, `PauliMatrixRefine`, `PauliEvolution`, `QuboLemmas`, `NbodyLemmas`, `ReprLemmas`, `SymPolyLemmas`, `SymGateLemmas`, `BornLemmas`, `AngleLemmas`, `DiagLemmas`, `FloatKernels`, `FloatLemmas`, `FloatMeasure`, `FloatRun`, `FloatRefine`, `FloatShots`, `FloatIeee`, `NbFloatLemmas`, `NbFloatRefine`, `NbFloatShots`, `NbFloatSource`, `NpFloatPlain`, `NpFloatCache`, `NbFloatCache`, `FloatPhaseLemmas`, `VqeFloatLemmas`, `PauliFloatLemmas`, `QaoaFloatLemmas`, `PauliAlgFloatLemmas`, `PauliCommFloatLemmas`, `DoubleLemmas`, `ChainLemmas`, `AnnealLaw`, `SqaLaw`, `NpPrefix`.

Property theorems: `Props/*`.

## 4. Per-property plan

| id | modelled | proof |
|---|---|---|
| C01 | slice.indices + the while loop of `slicing_singlevalue`, unbounded ints | refinement: equals the list of qubits i<n of the arithmetic progression defined independently (Python language reference); induction on loop fuel |
| C02 | append histories, `get_maximum_index`, late slicing | invariant by induction over histories |
| C03 | `qubit_pairs` | case analysis + characterisation of errors |
| C04 | `_GateWrapper.__getitem__` | definitional unfolding + induction over histories |
| C05 | same, exceptions as values with residual state | negation by witness; partial for validated arguments |
| C06 | heap of circuit objects with list identity | frame theorem over all histories |
| C07 | circuit run on spec states | induction on op lists |
| C08 | every `gate_*` of numpy at list/mask level incl. double buffer | refinement to the spec operator "2x2 matrix on bit t", all n |
| C09 | run loop | invariant by induction over ops |
| C10 | `fallback` of each class | 2x2 matrix identities lifted through a multiplexer lemma |
| C11 | `_run_gates` recursion, action tables of the 4 backends | explicit rank/fuel bound, case analysis on gates (symbolic params/targets) |
| C12 | `dagger` + spec unitaries | induction on ops; negation witness for overlapping slices |
| C13 | `Circuit.dagger` | induction |
| C14/C15 | `gate_measure`, `gate_reset` | real analysis on finite sums |
| C16 | `store_shot`, run loop | induction on shots |
| C17/C18 | cache fields, all public operations, exceptions | history invariant; run with cache = run without |
| C19 | numba's cache fields, interrupts between gates | as C17; whether a gate raises depends on size and targets only; negation witness with a KeyboardInterrupt |
| C20 | two circuits, one backend | negation witness; partial: same-length/same-history condition; exact mixture of operations executed |
| C21 | `_shifted`, `_create_masks`, `_mult_shifted` on Nat bits | bijection proof |
| C22 | loop = fold of updates on pairwise disjoint index pairs | permutation invariance |
| C23 | both backends refined to the same spec | composition of refinements |
| C24 | sympy matrix product | refinement to spec; witness for duplicates |
| C25/C26 | `ignore_global_phase`, `_ignore_global`, sympy's variant | algebra; witness for zero diagonal |
| C27 | `circuit_to_unitary` | linearity of runs |
| C28–C30 | QASM statements and text | induction; parser inverse |
| C31–C42 | pauli algebra | operator semantics on state vectors; linear independence of Pauli strings |
| C43–C47 | vqe | finite sums |
| C48–C53 | wq | finite sums, invariants |
| C54/C55 | registry state machine | induction over histories |
| C56 | negative indices | case analysis; witnesses |
| C57 | run-argument parsing | case analysis |
| C58, C59 | strings, bit arithmetic | induction |
| C60, C61 | backend base, Ops | induction |
| C62, C63 | qgate backend | measure of intervals; case analysis on gates |
| C64 | `repr` | reader for the printed text, round trip by induction over gates |
| C65 | ibmq backend | composition of C28/C29/C30 with an ideal executor; agreement with C16 |
| C66, C67 | layered QUBOs and their training | induction over layers; sums over subsets of hidden units; derivative of the log of a sum of exponentials; invariant over epochs |
| C68, C69 | `Opt.add`, `Opt.dw` | induction over calls; energy identities of C48 |
| C70 | objectives and `Vqe.run` | induction over the strategy; energies of C44; Rayleigh bound |
| C71 | Qiskit sampler | composition with C65's executor; reading hexadecimal numbers; unmeasured bits stay 0 |
| C72 | state vector sampler | induction over terms; linearity of the integral |
| C73 | `is_identity`, `n_qubits` | linear independence of Pauli words; commutation signs |
| C74 | `Opt.add` of a polynomial | replacing monomials is linear; multilinear polynomials are determined by their values on bits |
| C75 | `optx`, `optm` | as C74 |
| C76 | `wq.counter` | induction over the results; injectivity of the texts |
| C77 | `make_qs` | |
| C78, C79 | symbolic gate parameters | evaluation is a homomorphism of the whole backend; substitution lemma |
| C82 | names of gates | a table of operations (`Spec.Names`), case by case |
| C83 | Born rule | infinite product measure of uniform numbers; induction over operations with the remaining random numbers; pairwise independence, strong law; multinomial law by induction on the shots (first shot, Pascal's rule) |
| C84 | `_angle_simplify`, `to_unitary` with rounded angles | each one-qubit matrix depends on its angles with the given constant; unitary steps keep distances; fallbacks have no more weight; induction over the recursion of fallbacks and over the gates |
| C80, C81 | `repr`, `hash` of Pauli objects | a reader of sums of products (`Spec.PauliRepr`), then C33 and C34 |
| C85 | `QaoaAnsatz`, `Vqe.run`, `most_common` on cost functions | coefficients of an operator are unique, so a diagonal operator has only `Z` words with real coefficients; they commute; the evolution is the only solution of the Schrödinger equation, hence the phases; C70 and C47 |
| C86 | `maxcutHamiltonian`, `maxcutQaoa` | `Z_i Z_j` is the sign of the edge; sum over the edges; C85 |
| C87 | `numpartitionHamiltonian`, `partitionGroups` | sum of signs times numbers, squared; a number on which nothing depends is 0 |
| C88 | `factoringHamiltonian`, `getNbit`, `bitseparator`, `factoringReport` | `mk_expr` is the odd number of the bits; the topmost bit matters unless the number is 2; binary digits of odd numbers |
| C89 | `flRunArgs` | each kernel is within `κ` of a unitary; errors of unitaries add; fallbacks do not make more passes than counted; cache invariant with errors |
| C90 | `flRunArgs` | computed probability near the exact one, so a clear random number takes the same branch; error of the renormalised state |
| C91 | `flNbRunArgs` | as C89, for iterations that write nearly the right values at the right addresses; cache invariant with errors; each operation of a kernel in source order rounds once |
| C92 | `flNbRunArgs` | as C90 with `_p0calc`, `_reduce0`, `_reduce1`, `_reset1` |
| C93 | `pvEqPy`, `pvNe` | C34, C35 and case analysis |
| C94 | the methods in `PauliObj` | C36, C38, C73; maxima by induction |
| C95 | `flRunPhase`, `flNbRunPhase` | C89, C91; the factor has a relative error; amplitudes clear of the threshold are found in the same place |
| C96 | `flKit`, `nbTypedKit` | invariant of the cache as for C17 and C19, with the arithmetic as a parameter; the dtype of the cached array is part of it |
| C97 | `flNonSampling`, `flGetEnergy` | error of the state from C89 and C91; every probability goes through at most `2^n + 2` roundings and the change of basis through one pass per X or Y; induction on the terms with a bound relative to the sum of absolute values |
| C98 | `PExpr.flSimplify`, `PExpr.flToMatrix`, `flGetEnergySparse` | every function against its exact model, value by value: each coefficient goes through at most `L + T` roundings in `simplify`, `2n` in the Kronecker product, `T` in its group; the matrix refinement of C36 for the rest; words have one entry of modulus 1 in each row, so forms are bounded by Cauchy-Schwarz |
| C99 | `optQaoa`, `Opt.sa` | `pauli` gives an Expr for every nonempty matrix (the loop), whose operator is the cost function of the QUBO (C42); then C85 for the ansatz, the minimization and the outcomes, C49 for `sa` |
| C100 | `NTerm.simplify`, `NTerm.getTimeEvolution`, `loadAll` | refinement: dropping the classes gives the functions of `Pauli`; the last pass of the loop casts, so the class is real exactly if the value is |
| C101 | `QaoaAnsatz.flNew`, `flGetCircuit`, `flObjective` | refinement: every gate of the circuit is within half the error of its angle of the exact gate, unitary errors add up; then C98_energy for the run and the bound on quadratic forms |
| C102 | `Formula.flPy` (the operators of `Pauli`, `Term` and `Expr`) | induction on the formula: each operation is an exact operation on lists of terms followed by roundings; sizes of operators add and multiply |
| C103 | `flIsCommutable`, `PExpr.flIsAllTermsCommutable`, `QaoaAnsatz.flNew` | errors of commutators from C102's sizes; Minkowski's inequality for the coefficients; for two terms both products round alike, so the difference is exactly 0 |
| C104 | `bindParams`, `makeGate`, `callGate`, `npRunCall`, `nbRunCall`, `qaRunCall`, `syRunCall`, `splitBackend` | induction over the parameters gives the declarative binding relation; case analysis over the gate names; flags, shots and kinds of result as relations of `Spec/Calls` |
| C105 | `opsGateClass`, `opsCall`, `reprOps` | case analysis over names; C104 for calls, C64 for the text |
| C106 | `Opt.run`, `saShots`, `saLoop`, `saStep`, `accept`, `Rand.spins`, `Rand.sites` | law of each draw from the product measure (first element and rest of a stream are independent); induction over steps, temperatures and shots; positive powers of the chain give convergence |
| C107 | `Opt.sqa`, `sqaInit`, `sqaLoop`, `sqaSweep`, `sqaStep`, `sqaDelta` | as C106, on assignments of the pairs (slice, site); the change `dE` is the one of the ring energy (C50); a ring energy with a coupling that is not 0 is never constant; limit of Boltzmann distributions for a growing coupling |
| C108 | `ParsableBackend`, `generateBackend`, `parsableKit`, `World.step` | one run: computation; histories: invariant over all circuits and names (`NamedRules`), the entry of a name changes only by (un)registering it |
| C109 | `StdObj.run`, `stdKit`, `initTables`, `World.step` | histories: invariant over circuits and names (caches fit the operations, objects have the class of their name); meaning: C08, C23, C24, C29 combined |
| C110 | `WrapWorld.step`, `GateWrapper.getItem`, `wrapperStr`, `OpsWrapper.step` | invariant over histories: wrapper k holds the arguments and the subscript used last, circuits the gates written; simulation by plain appends of the circuit model |
| C111 | `npRunGate`, `npRun`, `slicing`, `qubitPairs` | decision: a run succeeds iff `GatesDenote` holds with valid operations; the negative side from C56 and the generators' errors, the positive one from C08/C10; the same for numba, qasm and sympy (C23, C28, C24) |

## 5. Findings (properties the code violates)

Each is proved as a `_refuted` theorem with a witness reachable through the public API.

* C05: `_GateWrapper.__getitem__` (circuit.py:283-288) stores the operation before it computes `n_qubits`; `c.x[1.5]`
  or `c.cx[(0,1),(2,3)]` raises AttributeError and the operation stays in the circuit. After `c.x[1.5]` every run raises
  (`C05_leftover_raises`); the `cx` of the second example is executed by later runs (`C05_leftover_runs`).
* C54: `unregister_backend` (circuit.py) tests `GATE_SET`, so a registered backend cannot be unregistered and
  unregistering a gate name raises KeyError; `register_gate("ops", G)` is accepted but `c.ops` is the list.
* C55: `Circuit.set_default_backend(None)` raises ValueError although its docstring allows `None`.
* C17: `Circuit.dagger(copy_backends=True)` (circuit.py:161-185) hands the forward circuit's backend objects, with
  their cached state, to the daggered circuit; its `run()` then starts from the cached forward state;
  a circuit without measurement that was run gives a dagger that runs as the circuit itself (`C17_dagger_copy_backends`).
* C20: a backend object passed to two circuits keeps one cache; the cache index is compared with the number of
  operations only, so the second circuit starts from the first one's state vector: it executes the cached operations of
  the first circuit and then its own from that position on (`C20_mixture`).
* C12: `dagger()` reverses the list of gates and daggers each gate, but a gate written with slices keeps its pairs in
  the same order; `cx[0:2, 1:3]` followed by its dagger is not the identity. The dagger is always the inverse of the
  circuit in which the pairs of every gate are taken in reverse order (`C12_exact`).
* C56: `ccx`, `ccz` and `cswap` use the written integers: `ccx[-3, -2, -1]` raises. Fallback gates get indices that were
  already interpreted and interpret them again: `Circuit(4).tdg[-5]` acts on qubit 3 while `t[-5]` raises.
* C19: the numba backend stores the state in `cache` when a measurement begins but advances `cache_idx` only after the
  shot; a KeyboardInterrupt in between, caught by the user, makes the next `run()` replay the circuit from the stored
  state (`_numba_backend_impl.py:426-432, 613-615`).
* C24: `SympyBackend._create_matrix_of_one_qubit_gate` (sympy_backend.py:75-83) tests `idx in targets`, so a qubit
  named twice is transformed once: `Circuit(1).x[0, 0].to_unitary()` is X, while running it leaves the state alone. On
  a circuit without qubits the empty `reduce` raises TypeError. `C24_exact` describes the matrix for all circuits.
* C26: `_postprocess_run` (sympy_backend.py:164-170) looks only at diagonal entries; X and `rx(pi)` keep their phases.
* C28: `_three_qubit_gate_noargs` (qasm_output_backend.py:119-122) prints `gate.targets` as written, so
  `Circuit(3).ccx[0, 1, -1].to_qasm()` contains `q[-1]` (`C28_negative_refuted`; `C28_three` gives the
  text for all integers).
* C29: `gate_cu2` prints `cu2(phi,lambda)`, a gate `qelib1.inc` does not have (`C29_cu2_refuted`).
* C33: `Expr.__add__` and `Expr.__sub__` (pauli.py:695-756) turn the left operand into a dict with `terms_to_dict`, which
  keeps only the last of several terms with the same operators: `((2*X[0])**2 + 1)*X[0] + Z[0]` gives X + Z, not 5X + Z.
  Dividing a `Term` or `Expr` by a complex number raises TypeError, dividing a bare Pauli operator does not.
* C35: `Term.__eq__` knows no `Expr`, so `term == expr` is False even when `expr == term` is True; `X[0] == I` raises
  AttributeError because the identity has no qubit number, `I == X[0]` is False.
* C41: `"ı"` (U+0131) is accepted by `from_chars` as the identity because `'ı'.upper() == 'I'`.
* C36: `Expr.to_matrix` of an expression that simplifies to zero, e.g. `(X[0]*Y[0] + Y[0]*X[0]).to_matrix()`, raises
  ZeroDivisionError: the index array is built with `np.arange(0, ..., 0)`.
* C39: the basis change for `Y` in `get_time_evolution` (pauli.py:603, 615) maps Z to -Y, so a term with an odd number of
  `Y` evolves backwards; `(1.0*Y[0]).get_time_evolution()(c, t)` is `ry(2t)` where `exp(itY)` is `ry(-2t)`.
* C48: `Opt.qi` ignores entries below the diagonal while `wq.pauli` adds them, so annealing and QAOA of the same
  non-triangular matrix minimise different functions (`C48_lower_triangle_ignored`).
* C50: `Ei_sqa` adds `+(T/2) log coth(G/(TP))` per aligned pair of neighbouring slices, the acceptance rule of `sqa` charges
  the opposite sign (wq.py:205, 554), so the recorded energy is not the one being annealed.
* C51: `mul(a, b)` is `triu(outer) + triu(outer, 1)`: products above the diagonal count twice and those below not at all;
  `mul([1, 0], [0, 1])` has energy 2 at (1, 1), where the product is 1. `C51_mul_exact` gives the energy for all inputs.
* C53: `qn_to_qubo` (wq.py:147-188): `q0*q1` without a coefficient is dropped (line 177 reads `qubo[i][j]` and does nothing);
  a plain `q0` raises ValueError and `q0**2` AssertionError; `2*q0 + 3*q0**2` keeps only the 3.
* C44: `get_energy` (vqe.py:52-53) measures `Y` after `rx(-pi/2)`, which maps Z to -Y: a term with an odd number of `Y`
  enters the energy with the wrong sign (`C44_refuted`: -1 for the +1 eigenstate of `Y[0]`). `get_energy_sparse` has the
  right sign, so the two disagree; it raises ValueError when the circuit has more qubits than the Hamiltonian.
* C45: the measurement sampler (vqe.py:240-256) reverses each counted bit string before it picks the measured bits, although
  the backend's strings already have qubit 0 first: the frequencies belong to the mirrored qubits (`C45_order_refuted`). It
  also stores the counts with `=`, so outcomes that differ only on unmeasured qubits overwrite each other
  (`C45_lost_refuted`).
* C59/C63 (qgate backend): there is no fallback, so `cy`, `ch`, `rxx`, `ryy`, `rzz`, `ccz`, `cswap` and `reset` raise an
  AssertionError (`C63_unsupported`); `swap` takes only a pair of numbers (`C63_swap_refuted`); counts are sampled from the last
  state, so a measurement followed by gates on the same qubit is counted wrongly (`C63_midcircuit_refuted`); `cu2`/`cu3` are
  right only if qgate's `U` has determinant 1 (`C63_cu3_refuted`; the backend maps `cu1` to qgate's `U1` and `u1` to `RZ`, which
  suggests that it has not). On 0 qubits the key is "0" rather than "". `np.int` is gone since numpy 1.24 (not modelled).
* C46: terms with an odd number of `Y` evolve with the wrong sign in QAOA circuits too (`C46_refuted`). `mixer` is documented
  as a list of Pauli expressions, but only `Term` objects have `get_time_evolution`: a bare `Pauli` or an `Expr` raises
  AttributeError (`C46_rejects_mixer`), as does a bare `Pauli` as Hamiltonian (`C46_rejects`). `mixer=[]` means no mixer at
  all, not the default one.
* C64: `repr` of a circuit without operations is `Circuit(n).`, which is not an expression (`C64_empty_refuted`); `c.x[()]`
  prints `x[]`, a syntax error (`C64_empty_tuple_refuted`); after the rejected append of C05 `repr(c)` raises AttributeError
  (`C64_nested_refuted`). There are no other exceptions (`C64_exact`, `C64_raises`).
* C65: in `_qasm_runner_qiskit` (ibmq_backend.py:53-61) `return e` comes after the `except ... as e` clause, where Python has
  deleted `e`: `returns="_exception"` raises UnboundLocalError instead of returning the exception (`C65_exception_refuted`).
* C67: `rbm_hmodel` computes the conditional probabilities for the weights exp(+E), but `run` anneals with weights exp(-E/T),
  T = 0.02 at the end: for a positive field the hidden unit is 1 with probability above 1/2 in the one and below 1/2 in the
  other (`C67_sign_refuted`; `fit` inverts the visible data, `(i-1)*(-1)`, but not the hidden units). `fit(shots=1)` raises
  ValueError (`C67_one_shot_refuted`).
* C68: `Opt.add` ignores a QUBO whose size differs from the one stored (`C68_size_refuted`, `C68_exact`). Since `add` stores numpy arrays
  and `run` compares with `[]`, a QUBO of one variable is taken for an empty one and raises (`C68_single_refuted`; numpy
  broadcasting of a 1x1 array with an empty list gives an empty, false array).
* C69: `dw` drops the couplings that the solver's graph lacks (`C69_missing_edge_refuted`) and numbers the fields
  consecutively over the available nodes, so that one missing node shifts all later fields (`C69_fields`; in
  `C69_missing_node_refuted` the bits returned are not optimal).
* C70: the energy told to the minimizer has the wrong sign in terms with an odd number of Y (see C44; `C70_run_signed` says
  what is computed). Without a sampler, a circuit with more qubits than the Hamiltonian raises ValueError, and `QaoaAnsatz`
  accepts such an `init_circuit` (`C70_size_refuted`). `Vqe.result` raises AttributeError after every run, since `_result` is
  never assigned (`C70_result_refuted`).
* C71: the Qiskit sampler returns `{}` for a constant term, so the constant is missing from the energy
  (`C71_constant_refuted`); outcomes that differ in other qubits the circuit measured overwrite one another
  (`C71_lost_refuted`); hexadecimal counts are filled with 100 zeros only, so that qubits after 100 raise IndexError
  (`C71_hex_refuted`).
* C73: `is_identity` is True of the zero expression and of every multiple of the identity given as a term, and False of
  products equal to the identity that were not simplified (`C73_refuted`).
* C74: `expand_qubo` takes `sympy.poly(f).degree()`, which is the degree in the first symbol only, as the largest power.
  Powers of later symbols above it are not reduced, and `qubo_to_matrix` then ignores them: `add("q0 + q1**2")` adds the
  QUBO of `q0` (`C74_degree_refuted`). The constant of a polynomial is dropped; polynomials that are constant on bits, skip a
  number or have a product of three symbols raise (`C74_rejects`).
* C75: `optx` leaves odd powers above 1 and raises ValueError on constants (`C75_optx_refuted`); `optm` raises
  GeneratorsNeeded if a symbol does not occur in a product, as in `optm("q0+q1", 2)` (`C75_optm_refuted`), and drops all terms
  with symbols from `q<numM>` on without an error (`C75_dropped_refuted`).
* C76: `counter` of the result of one shot (the default of `run`) raises TypeError (`C76_single_refuted`).
* C79: `ignore_global` divides by the first diagonal entry that sympy does not know to be 0; the result has no value where that
  entry vanishes, e.g. `rx(theta)` at `theta = pi` (`C79_refuted`).
* C80: the text of a term with coefficient 0 is `0*I`, a term that does not compare equal (`C80_zero_refuted`; `C80_zero` says when it does); the text of an
  expression of one term reads as a term, and `term == expr` is False (`C80_single_refuted`).
* C81: `hash(I)` raises an AttributeError; `Term` and `Expr` define `__eq__` without `__hash__` and are unhashable
  (`C81_unhashable_refuted`).
* C77: the last symbol promised by the docstring of `make_qs` is missing (`C77_last_refuted`).
* C87: a list with one number other than 0 has a constant Hamiltonian without qubits; the number is in neither of the groups
  printed (`C87_groups_refuted`; `C87_groups_single` for all such lists).
* C88: `factoring_qaoa(n, 2)` has a constant Hamiltonian without qubits, and `bitseparator` raises AssertionError on its outcome
  (`C88_two_refuted`). The larger factor has at most one binary digit more than the smaller one can have, so `51 = 3 * 17` is not
  found (`C88_found_refuted`); even numbers are never found (`C88_even`).
* C93: a Pauli operator, term or expression never compares equal to a number, also where it is that multiple of the identity:
  `I == 1`, `to_expr(I) - 1 == 0` are False (`C93_number_refuted`).
* C90: not a violation, but the condition on the random numbers is needed: with an arithmetic in which sums of squares have a
  relative error, however small, one shot of `Circuit(1).m[0]` can give the result 1 of probability 0 (`C90_unclear`).
* C95: not a violation, but near the threshold `10^-7` of `ignore_global_phase` the result is not continuous: arbitrarily small
  changes of an angle change the returned vector by more than 1, already in exact arithmetic (`C95_jump`).
* C98: not a violation, but in floating point coefficients that cancel exactly need not cancel: `simplify` then leaves a term with a
  tiny coefficient, and comparing with 0 or the ZeroDivisionError of C36 depend on it (`C98_cancel`).
* C99 `Opt.qaoa` and `Opt.sa`/`Opt.run` on the same object minimize different functions if the QUBO has entries below the diagonal:
  `qi` reads only the upper triangle, `pauli` adds both (`C99_exact` gives the difference, `C99_same_refuted` a witness; the optimum of one can be the worst assignment of the
  other). The outcomes of `qaoa` leave out the last variables if the energy does not depend on them (`C99_bits_refuted`). `shots` and
  `verbose` are ignored, and an object with couplings `J` but no QUBO raises AttributeError (`C99_empty`).
* C102: not a violation, but as in C98 coefficients that cancel exactly need not cancel in floating point: `1*X[0] + 2*X[0] - 3*X[0]`
  can be an expression with a term (`C102_residue`); in doubles `X[0] + e*X[0] - X[0] - e*X[0]` with `e = 2**-54` is (`C102_residue_double`).
* C103: `is_commutable` compares with an absolute `eps = 1e-8`. For sums of terms with coefficients around 15000 rounding errors are larger: `x*X[0] + y*Y[0]`
  and its multiple by `x` are reported as not commuting in doubles (`C103_multiple_refuted`). Two single terms, as in QAOA's check, are not
  affected (`C103_terms_commuting`).
* C104: `Gate.__init__(self, targets, params=(), **kwargs)` is the constructor of the gates without parameters, so `x(0.5)[0]` and `h(theta=0.5)[0]` are accepted and the
  arguments are ignored; `str` of a circuit with `x(0.5)[0]` raises TypeError (`C104_extra_refuted`). Backends swallow unknown keywords: `run(shot=100)`
  returns a state vector (`C104_typo_refuted`), `to_unitary(True)` keeps the global phase (`C104_sympy_refuted`). `run(None, 'statevector', True)`
  ignores the global phase on numpy but not on numba (`C104_third_refuted`).
* C105: `experimental/operations.py` has its own gate table without rxx, ryy, rzz, cswap and reset (`C105_missing_refuted`); `repr(Ops())` is `Ops(0).` (`C105_empty_refuted`).
* C106: with a constant energy every step flips a bit (`dE = 0` is always accepted), so the chain from a fixed start never settles; convergence then rests on the uniformly random start. `C106_limit` covers this case.
* C27: `circuit_to_unitary(c, ignore_global=True)` removes the phase of every column separately; `z[0]` gives the identity (`C27_ignore_global`).
* C51: `net` sorts an edge before negative indices are resolved, so `[-1, 0]` lands below the diagonal, which `Opt` ignores (`C51_net_refuted`).
* C108: a circuit that has run on a named backend keeps its object when the name is registered again with `allow_overwrite=True`; its runs still go to the old reader (`C108_stale_refuted`). The same holds for every backend class (C55).
* C110: `_GateWrapper.__str__` cuts the last character of the text of a tuple; with one positional argument that leaves a comma, so `str(c.rx(0.5, label='a'))` is `rx(0.5,, kwargs={'label': 'a'}) None` (`C110_text_refuted`; circuit.py:292-294, operations.py:96-98).
* C111: some operations without a meaning are simulated: `i` runs on any subscript, also `i[-5]` on one qubit (`C111_identity_refuted`; gate.py:101-102), and three-qubit gates do not compare their qubits, `ccz[0, 0, 1]` runs (`C111_ccz_refuted`; numpy_backend.py:359-368) and is `cz[0, 1]` (`C111_ccz_repeated`, `C111_ccx_repeated`). `C111_exact` is the exact condition for all gates with written indices inside the register. For fallback gates with indices below `-n` see C56.
