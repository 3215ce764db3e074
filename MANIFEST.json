{
 "claims": [
  {
   "property": "C01",
   "status": "proved",
   "theorems": [
    "C01_targets",
    "C01_slice",
    "C01_slice_step_zero",
    "C01_int",
    "C01_tuple"
   ],
   "note": "slice members are None or unbounded integers"
  },
  {
   "property": "C02",
   "status": "proved",
   "theorems": [
    "C02_targets_inside"
   ],
   "note": "three-qubit gates use the written integers, so for them negative integers count as out of range"
  },
  {
   "property": "C03",
   "status": "proved",
   "theorems": [
    "C03_pairs",
    "C03_errors"
   ],
   "note": ""
  },
  {
   "property": "C04",
   "status": "proved",
   "theorems": [
    "C04_append",
    "C04_monotone"
   ],
   "note": ""
  },
  {
   "property": "C05",
   "status": "partial",
   "theorems": [
    "C05_atomic_append_refuted",
    "C05_rejected_append_partial",
    "C05_leftover_raises",
    "C05_leftover_numba",
    "C05_leftover_unitary",
    "C05_leftover_runs"
   ],
   "note": "false of the code: _GateWrapper.__getitem__ appends before it computes n_qubits. What it leaves behind makes every run and to_unitary raise (one-qubit gates other than i, measurement, reset: C05_leftover_raises, C05_leftover_numba, C05_leftover_unitary) or is executed by later runs (cx[(0, 1), (2, 3)]: C05_leftover_runs)"
  },
  {
   "property": "C06",
   "status": "proved",
   "theorems": [
    "C06_isolation",
    "C06_isolation_history",
    "C06_results",
    "C06_copy"
   ],
   "note": ""
  },
  {
   "property": "C07",
   "status": "proved",
   "theorems": [
    "C07_add_ops",
    "C07_iadd_ops",
    "C07_run",
    "C07_associative",
    "C07_unitary"
   ],
   "note": "numpy backend; exact arithmetic"
  },
  {
   "property": "C08",
   "status": "proved",
   "theorems": [
    "C08_gate",
    "C08_run"
   ],
   "note": "all gates of the numpy backend, including those reached by fallback; cu1 is compared with the library's phase convention up to a global phase (phDoc / phSim)"
  },
  {
   "property": "C09",
   "status": "proved",
   "theorems": [
    "C09_normalised"
   ],
   "note": "exact arithmetic over the complex numbers; for rounding see C89 and later"
  },
  {
   "property": "C10",
   "status": "proved",
   "theorems": [
    "C10_fallback_exact",
    "C10_fallback_up_to_phase",
    "C10_has_fallback"
   ],
   "note": "angles are reals"
  },
  {
   "property": "C11",
   "status": "proved",
   "theorems": [
    "C11_resolution_terminates",
    "C11_valid_gate_runs",
    "C11_tables"
   ],
   "note": "the sympy and qasm tables lack CCZ, which no circuit method creates"
  },
  {
   "property": "C12",
   "status": "partial",
   "theorems": [
    "C12_dagger_inverse_partial",
    "C12_exact",
    "C12_dagger_inverse_refuted"
   ],
   "note": "false of the code for gates with overlapping slice pairs such as cx[0:2, 1:3]: dagger keeps the pair order; proved when the pairs of every gate commute, and exactly: the dagger always inverts the circuit with the pairs of each gate in reverse order, so c + c.dagger() is the identity if and only if that circuit equals c"
  },
  {
   "property": "C13",
   "status": "proved",
   "theorems": [
    "C13_dagger_raises",
    "C13_dagger_ops",
    "C13_dagger_twice"
   ],
   "note": ""
  },
  {
   "property": "C14",
   "status": "proved",
   "theorems": [
    "C14_measure",
    "C14_measure_again"
   ],
   "note": "random numbers are inputs of the model"
  },
  {
   "property": "C15",
   "status": "proved",
   "theorems": [
    "C15_reset"
   ],
   "note": "random numbers are inputs of the model"
  },
  {
   "property": "C16",
   "status": "proved",
   "theorems": [
    "C16_counts",
    "C16_counts_exact"
   ],
   "note": ""
  },
  {
   "property": "C17",
   "status": "partial",
   "theorems": [
    "C17_cache_invisible",
    "C17_dagger_copy_backends",
    "C17_dagger_copy_backends_refuted"
   ],
   "note": "proved for every history without dagger(copy_backends=True), where it is false: the forward cache is copied; C17_dagger_copy_backends says what the dagger then executes: without measurement or reset exactly the forward circuit"
  },
  {
   "property": "C18",
   "status": "proved",
   "theorems": [
    "C18_failed_run"
   ],
   "note": ""
  },
  {
   "property": "C19",
   "status": "partial",
   "theorems": [
    "C19_cache_invisible_partial",
    "C19_interrupt_refuted"
   ],
   "note": "proved for all histories, raising runs and enable_cache=False included; false when a run is cut short by an asynchronous exception after a measurement, and for dagger(copy_backends=True) as in C17"
  },
  {
   "property": "C20",
   "status": "partial",
   "theorems": [
    "C20_shared_backend_refuted",
    "C20_shared_backend_partial",
    "C20_mixture",
    "C20_second"
   ],
   "note": "false of the code; proved when any two of the circuits have different sizes or the later one starts with the operations of the earlier one; the operations that are executed instead are described exactly for any sequence of runs without errors and with at least one shot each"
  },
  {
   "property": "C21",
   "status": "proved",
   "theorems": [
    "C21_shifted",
    "C21_mult_shifted",
    "C21_loop_counts",
    "C21_three_rejected"
   ],
   "note": ""
  },
  {
   "property": "C22",
   "status": "proved",
   "theorems": [
    "C22_parallel_one",
    "C22_parallel_controlled",
    "C22_result_one",
    "C22_result_two",
    "C22_p0_reduction"
   ],
   "note": "interleavings of single reads and writes, not only permutations of whole iterations"
  },
  {
   "property": "C23",
   "status": "proved",
   "theorems": [
    "C23_numba_eq_numpy"
   ],
   "note": "exact arithmetic"
  },
  {
   "property": "C24",
   "status": "partial",
   "theorems": [
    "C24_to_unitary_partial",
    "C24_exact",
    "C24_no_qubits_exact",
    "C24_to_unitary_refuted",
    "C24_no_qubits_refuted"
   ],
   "note": "false of the code for subscripts that repeat a qubit (x[0, 0]) and for gates on no qubits; proved for all other circuits. C24_exact and C24_no_qubits_exact say for every circuit which matrix is returned and exactly when it agrees. Exact numbers instead of symbolic expressions"
  },
  {
   "property": "C25",
   "status": "proved",
   "theorems": [
    "C25_canonical",
    "C25_unit_vectors",
    "C25_cache_unaffected",
    "C25_numba_canonical",
    "C25_numba_cache_unaffected"
   ],
   "note": "utils.ignore_global_phase, numpy and numba backends"
  },
  {
   "property": "C26",
   "status": "partial",
   "theorems": [
    "C26_ignore_global_partial",
    "C26_exact",
    "C26_ignore_global_refuted",
    "C26_global_phase"
   ],
   "note": "false of the code when all diagonal entries are zero; proved otherwise; C26_exact: with a zero diagonal the results agree only if the matrices are equal anyway"
  },
  {
   "property": "C27",
   "status": "proved",
   "theorems": [
    "C27_circuit_to_unitary",
    "C27_columns",
    "C27_ignore_global"
   ],
   "note": "numpy backend. C27_columns: with ignore_global the phase of every column is removed separately, so the matrix is in general no multiple of the circuit matrix (C27_ignore_global: z[0] gives the identity)."
  },
  {
   "property": "C28",
   "status": "partial",
   "theorems": [
    "C28_well_formed_partial",
    "C28_three",
    "C28_negative_refuted",
    "C28_ccz"
   ],
   "note": "false of the code for negative targets of three-qubit gates, which are printed as written; proved for all other circuits with valid targets. CCZ, which circuits do not offer, is refused"
  },
  {
   "property": "C29",
   "status": "partial",
   "theorems": [
    "C29_meaning_partial",
    "C29_cu2_refuted"
   ],
   "note": "false of the code for CU2 (qelib1.inc has no cu2); proved for all other gates, and for CU2 if the reader defines cu2. Measurement and reset included"
  },
  {
   "property": "C30",
   "status": "proved",
   "theorems": [
    "C30_parse",
    "C30_injective"
   ],
   "note": "for every number format that can be read back on a set of angles closed under the decompositions; an instance is constructed"
  },
  {
   "property": "C31",
   "status": "proved",
   "theorems": [
    "C31_products"
   ],
   "note": "every nesting, numbers and negation and real division included"
  },
  {
   "property": "C32",
   "status": "proved",
   "theorems": [
    "C32_simplify",
    "C32_canonical"
   ],
   "note": ""
  },
  {
   "property": "C33",
   "status": "partial",
   "theorems": [
    "C33_arithmetic_partial",
    "C33_exact",
    "C33_defined",
    "C33_negative_power",
    "C33_pauli_power",
    "C33_division_by_zero",
    "C33_duplicates_refuted",
    "C33_complex_division_refuted"
   ],
   "note": "false of the code: Expr + and - keep only the last of several equal words of the left operand; C33_exact: a + b and a - b are right up to exactly the lost terms, the other operators are always right; C33_arithmetic_partial: formulas without powers of terms or without products of an expression and a term"
  },
  {
   "property": "C34",
   "status": "proved",
   "theorems": [
    "C34_equality",
    "C34_canonical",
    "C34_form"
   ],
   "note": ""
  },
  {
   "property": "C35",
   "status": "partial",
   "theorems": [
    "C35_symmetric_partial",
    "C35_expr_term",
    "C35_term_expr_refuted",
    "C35_identity_refuted",
    "C35_zero_terms"
   ],
   "note": "false of the code for Term == Expr (always False) and for X[0] == I (AttributeError); proved for all other combinations"
  },
  {
   "property": "C36",
   "status": "partial",
   "theorems": [
    "C36_term",
    "C36_term_default",
    "C36_pauli",
    "C36_matrix",
    "C36_expr_partial",
    "C36_expr_default_partial",
    "C36_zero_refuted",
    "C36_errors"
   ],
   "note": "false of the code for expressions that simplify to zero on at least one qubit: np.arange with step 0 raises ZeroDivisionError (C36_zero_refuted). Proved for every Pauli, every term, the matrix property and every other expression, dense and all sparse formats, with the error cases."
  },
  {
   "property": "C37",
   "status": "proved",
   "theorems": [
    "C37_kron",
    "C37_part"
   ],
   "note": ""
  },
  {
   "property": "C38",
   "status": "proved",
   "theorems": [
    "C38_commutator",
    "C38_commuting",
    "C38_terms",
    "C38_terms_eps",
    "C38_all_terms",
    "C38_small_coefficients"
   ],
   "note": ""
  },
  {
   "property": "C39",
   "status": "partial",
   "theorems": [
    "C39_evolution_partial",
    "C39_odd",
    "C39_constant",
    "C39_value_error",
    "C39_refuted",
    "isEvolution_unique"
   ],
   "note": "false of the code: with an odd number of Y the gates implement exp(-itH) (C39_odd, C39_refuted: not even up to a global factor), and for a multiple of the identity the global phase is dropped (C39_constant). Proved for all other terms, circuits and times; the ValueError condition is proved for all terms."
  },
  {
   "property": "C40",
   "status": "proved",
   "theorems": [
    "C40_append_to_circuit",
    "C40_simplified"
   ],
   "note": ""
  },
  {
   "property": "C41",
   "status": "partial",
   "theorems": [
    "C41_from_chars",
    "C41_term_from_chars",
    "C41_rejects_partial",
    "C41_dotless_i_refuted"
   ],
   "note": "false of the code for the dotless i (U+0131), whose upper case is I; proved for all other characters"
  },
  {
   "property": "C42",
   "status": "proved",
   "theorems": [
    "C42_pauli",
    "C42_not_square"
   ],
   "note": ""
  },
  {
   "property": "C43",
   "status": "proved",
   "theorems": [
    "C43_expect",
    "C43_negative"
   ],
   "note": ""
  },
  {
   "property": "C44",
   "status": "partial",
   "theorems": [
    "C44_energy_signed",
    "C44_energy_partial",
    "C44_refuted",
    "C44_sparse",
    "C44_agree_partial"
   ],
   "note": "false of the code for terms with an odd number of Y, which enter with the wrong sign (C44_refuted); C44_energy_signed says what is computed in general. Proved for even numbers of Y. The sparse energy is proved for all Hamiltonians; circuit and Hamiltonian must have the same number of qubits, otherwise ValueError."
  },
  {
   "property": "C45",
   "status": "partial",
   "theorems": [
    "C45_exact",
    "C45_mirrored",
    "C45_all_qubits_partial",
    "C45_one_qubit_partial",
    "C45_order_refuted",
    "C45_lost_refuted"
   ],
   "note": "false of the code: the measured bits are read in reversed order (C45_order_refuted), and counts of outcomes that agree on the measured qubits overwrite one another (C45_lost_refuted). C45_exact says for every list of qubits what is returned, C45_mirrored when nothing is lost; proved as stated where the order does not matter."
  },
  {
   "property": "C46",
   "status": "partial",
   "theorems": [
    "C46_new",
    "C46_circuit_signed",
    "C46_circuit_partial",
    "C46_rejects",
    "C46_rejects_mixer",
    "C46_calls",
    "C46_refuted"
   ],
   "note": "false of the code for terms with an odd number of Y (C46_refuted, inherited from get_time_evolution); C46_circuit_signed says what is implemented for all terms. Proved up to a global phase (the code drops constant terms) for even numbers of Y; that the cost operator is exp(2*pi*i*gamma*H) needs coefficients of at least 0.01, because the commutation check is not exact below."
  },
  {
   "property": "C47",
   "status": "proved",
   "theorems": [
    "C47_most_common",
    "C47_most_common_error",
    "C47_stored",
    "C47_fresh",
    "C47_exact",
    "C47_attribute"
   ],
   "note": ""
  },
  {
   "property": "C48",
   "status": "proved",
   "theorems": [
    "C48_qi",
    "C48_short_row",
    "C48_lower_triangle_ignored"
   ],
   "note": "the energy is that of the upper triangle, as the statement says; entries below the diagonal are ignored (C48_lower_triangle_ignored)"
  },
  {
   "property": "C49",
   "status": "proved",
   "theorems": [
    "C49_delta",
    "C49_run",
    "C49_run_ising",
    "C49_returned",
    "C49_terminates",
    "C49_diverges",
    "C49_no_spins"
   ],
   "note": "real numbers are exact, random numbers are arbitrary streams"
  },
  {
   "property": "C50",
   "status": "partial",
   "theorems": [
    "C50_recorded",
    "C50_delta_partial",
    "C50_gap",
    "C50_refuted",
    "C50_run_partial",
    "C50_terminates"
   ],
   "note": "false of the code: the coupling of neighbouring slices has opposite signs in Ei_sqa and in sqa (C50_refuted, C50_gap). Proved: dE is the change of the energy with the opposite coupling sign, and the whole run is annealing with it."
  },
  {
   "property": "C51",
   "status": "partial",
   "theorems": [
    "C51_sel",
    "C51_sel_minimal",
    "C51_sel_index_error",
    "C51_sqr",
    "C51_mul_energy",
    "C51_mul_exact",
    "C51_mul_partial",
    "C51_mul_refuted",
    "C51_diag",
    "C51_zeros",
    "C51_net",
    "C51_net_entries",
    "C51_net_refuted",
    "C51_sel_negative"
   ],
   "note": "false of the code for mul unless a_i b_j = a_j b_i for all i, j (C51_mul_refuted, C51_mul_exact) and for net with negative indices (C51_net_refuted; C51_net_entries is exact); the other builders are proved for all inputs"
  },
  {
   "property": "C52",
   "status": "proved",
   "theorems": [
    "C52_nbody",
    "C52_enough",
    "C52_assertion"
   ],
   "note": "sympy symbols are identified with their names; arg.subs(v1*v2, v) is modelled for products of different symbols"
  },
  {
   "property": "C53",
   "status": "partial",
   "theorems": [
    "C53_energy",
    "C53_partial",
    "C53_unit_product_refuted",
    "C53_overwrite_refuted",
    "C53_symbol_refuted",
    "C53_power_refuted",
    "C53_degree"
   ],
   "note": "false of the code: products without a coefficient are dropped, plain symbols raise ValueError, plain powers AssertionError, equal symbol sets overwrite (the _refuted theorems). Proved for all other sums; C53_energy says exactly what is counted."
  },
  {
   "property": "C54",
   "status": "partial",
   "theorems": [
    "C54_register_gate",
    "C54_register_macro",
    "C54_register_backend",
    "C54_unregister_gate",
    "C54_unregister_macro",
    "C54_unregister_backend_refuted",
    "C54_unregister_backend_partial",
    "C54_available",
    "C54_available_refuted"
   ],
   "note": "unregister_backend tests GATE_SET; register_gate('ops', G) is accepted but c.ops stays the list"
  },
  {
   "property": "C55",
   "status": "partial",
   "theorems": [
    "C55_selection",
    "C55_set_default",
    "C55_default_stable",
    "C55_set_default_none_refuted"
   ],
   "note": "set_default_backend(None) raises ValueError although the docs allow it"
  },
  {
   "property": "C56",
   "status": "partial",
   "theorems": [
    "C56_negative_partial",
    "C56_below_partial",
    "C56_three",
    "C56_twice_one",
    "C56_twice_two",
    "C56_ccx_refuted",
    "C56_tdg_refuted",
    "C56_refuted"
   ],
   "note": "false of the code for three-qubit gates (indices are not normalised) and for gates run by fallback (normalised twice); proved for the other gates; C56_three: three-qubit gates reject every negative index, C56_twice_one and C56_twice_two: by fallback -2n, ..., -n-1 address the qubits 2n higher"
  },
  {
   "property": "C57",
   "status": "proved",
   "theorems": [
    "C57_run_arguments",
    "C57_numba_run_arguments"
   ],
   "note": "numpy and numba backends"
  },
  {
   "property": "C58",
   "status": "proved",
   "theorems": [
    "C58_to_inttuple",
    "C58_reverse_keys"
   ],
   "note": ""
  },
  {
   "property": "C59",
   "status": "proved",
   "theorems": [
    "C59_lanes",
    "C59_key",
    "C59_sampled",
    "C59_counts",
    "C59_observed"
   ],
   "note": ""
  },
  {
   "property": "C60",
   "status": "proved",
   "theorems": [
    "C60_flattened_execution"
   ],
   "note": ""
  },
  {
   "property": "C61",
   "status": "proved",
   "theorems": [
    "C61_append",
    "C61_add",
    "C61_dagger",
    "C61_to_circuit"
   ],
   "note": ""
  },
  {
   "property": "C62",
   "status": "proved",
   "theorems": [
    "C62_probability",
    "C62_samples",
    "C62_joint"
   ],
   "note": ""
  },
  {
   "property": "C63",
   "status": "partial",
   "theorems": [
    "C63_gate_partial",
    "C63_circuit_partial",
    "C63_state_partial",
    "C63_unsupported",
    "C63_run",
    "C63_runtime",
    "C63_swap_refuted",
    "C63_cu3_refuted",
    "C63_midcircuit_refuted"
   ],
   "note": "false of the code for swaps of slices, for cu2/cu3 if qgate's U has another global factor, and for counts after a measurement in the middle"
  },
  {
   "property": "C64",
   "status": "partial",
   "theorems": [
    "C64_text_partial",
    "C64_exact",
    "C64_raises",
    "C64_same_meaning",
    "C64_roundtrip_partial",
    "C64_injective_partial",
    "C64_empty_refuted",
    "C64_empty_tuple_refuted",
    "C64_nested_refuted"
   ],
   "note": "false of the code for circuits without operations (repr ends in a dot), for the empty tuple subscript (printed as `x[]`) and for the nested tuples that C05 leaves behind (repr raises). Proved for circuits with at least one operation and non-empty flat subscripts; a tuple of one element is printed without the tuple (C64_same_meaning: same operations). C64_exact and C64_raises: these are exactly the exceptions."
  },
  {
   "property": "C65",
   "status": "partial",
   "theorems": [
    "C65_counts",
    "C65_agrees_with_numpy",
    "C65_arguments",
    "C65_stages",
    "C65_exception_refuted"
   ],
   "note": "returns=\"_exception\" raises UnboundLocalError instead of returning the exception (C65_exception_refuted). The counts are proved for all circuits without ccz (no OpenQASM form in the printer) and cu2 (C29)."
  },
  {
   "property": "C66",
   "status": "proved",
   "theorems": [
    "C66_weight",
    "C66_random",
    "C66_empty",
    "C66_rands",
    "C66_two_layers"
   ],
   "note": ""
  },
  {
   "property": "C67",
   "status": "partial",
   "theorems": [
    "C67_logistic",
    "C67_hmodel",
    "C67_data",
    "C67_gradient",
    "C67_model",
    "C67_epoch",
    "C67_fit",
    "C67_one_shot_refuted",
    "C67_sign_refuted"
   ],
   "note": "false of the code in two ways: annealing samples with weights exp(-E/T) while rbm_hmodel uses exp(+E), so hidden units are on the wrong side of 1/2 (C67_sign_refuted); with shots=1 (or 0) fit raises (C67_one_shot_refuted). Proved: the probabilities and means for the weights exp(+E), that the data part is the gradient of the log of the clamped sum, the update formula and the structure invariant for all epochs."
  },
  {
   "property": "C68",
   "status": "partial",
   "theorems": [
    "C68_add",
    "C68_exact",
    "C68_run_partial",
    "C68_size_refuted",
    "C68_single_refuted"
   ],
   "note": "false of the code: matrices of another size are ignored without an exception (C68_size_refuted); one variable raises at run (C68_single_refuted). Proved for sequences of square matrices of one size of at least 2. C68_exact: with matrices of several sizes, those of the size of the first one are added up. Strings are not modelled in add."
  },
  {
   "property": "C69",
   "status": "partial",
   "theorems": [
    "C69_exact",
    "C69_fields",
    "C69_minimum_partial",
    "C69_missing_edge_refuted",
    "C69_missing_node_refuted"
   ],
   "note": "false of the code: couplings without an edge in the solver graph are dropped (C69_missing_edge_refuted) and missing nodes shift the fields (C69_missing_node_refuted). Proved if the graph has the nodes and edges that the QUBO needs; C69_exact: with any edges, the least energy up to exactly the couplings that are left out; C69_fields: which fields are handed over for any nodes."
  },
  {
   "property": "C70",
   "status": "partial",
   "theorems": [
    "C70_run_signed",
    "C70_run_partial",
    "C70_run_sparse",
    "C70_variational",
    "C70_size_refuted",
    "C70_result_refuted",
    "C70_again",
    "C70_scipy",
    "C70_qaoa_partial"
   ],
   "note": "false of the code: terms with an odd number of Y enter with the wrong sign (C70_run_signed says what is computed), circuits with more qubits than the Hamiltonian raise ValueError without a sampler (C70_size_refuted), Vqe.result always raises (C70_result_refuted). C70_run_partial: Hamiltonians without such terms; C70_run_sparse: without a sampler, all Hamiltonians."
  },
  {
   "property": "C71",
   "status": "partial",
   "theorems": [
    "C71_fractions_partial",
    "C71_exact",
    "C71_import",
    "C71_constant_refuted",
    "C71_lost_refuted",
    "C71_hex_refuted"
   ],
   "note": "false of the code: constant terms are lost (C71_constant_refuted), counts overwrite one another if the circuit measures other qubits (C71_lost_refuted), hexadecimal counts with qubits after 100 raise IndexError (C71_hex_refuted). Proved in all other cases; C71_exact: with other measurements, each value is the fraction of one of the whole registers that have the key."
  },
  {
   "property": "C72",
   "status": "proved",
   "theorems": [
    "C72_outcomes",
    "C72_normalised",
    "C72_unbiased",
    "C72_mean_even"
   ],
   "note": "np.random.multinomial is an arbitrary function with one number per category whose mean is N times the probability."
  },
  {
   "property": "C73",
   "status": "partial",
   "theorems": [
    "C73_n_qubits",
    "C73_n_qubits_bound",
    "C73_term_n_qubits",
    "C73_pauli_n_qubits",
    "C73_pauli",
    "C73_expr_partial",
    "C73_term_partial",
    "C73_exact",
    "C73_refuted"
   ],
   "note": "is_identity is false of the code for the zero expression, for multiples of the identity given as terms, and before simplify() (C73_refuted); proved for simplified non-zero expressions, and up to the factor for terms; C73_exact: after simplify() it is true of the identity and of zero only. n_qubits is proved in full."
  },
  {
   "property": "C74",
   "status": "partial",
   "theorems": [
    "C74_add_partial",
    "C74_rejects",
    "C74_degree_refuted",
    "C74_doc"
   ],
   "note": "false of the code if a later symbol has a larger power than the first one (C74_degree_refuted); proved for all other polynomials, with the decision which are refused (C74_rejects)."
  },
  {
   "property": "C75",
   "status": "partial",
   "theorems": [
    "C75_optx",
    "C75_optx_partial",
    "C75_optx_refuted",
    "C75_optm_partial",
    "C75_optm_refuted",
    "C75_dropped_refuted"
   ],
   "note": "C75_optx (same values on bits) holds of all polynomials; the rest is false of the code for powers above 2, for symbols that occur in no product, and for more symbols than numM."
  },
  {
   "property": "C76",
   "status": "partial",
   "theorems": [
    "C76_counter_partial",
    "C76_single_refuted",
    "C76_digits"
   ],
   "note": "false of the code for the result of a single shot (C76_single_refuted); proved for several results."
  },
  {
   "property": "C77",
   "status": "partial",
   "theorems": [
    "C77_make_qs_partial",
    "C77_last_refuted"
   ],
   "note": "false of the code: the last symbol is missing (C77_last_refuted); C77_make_qs_partial says which symbols are returned."
  },
  {
   "property": "C78",
   "status": "proved",
   "theorems": [
    "C78_commutes",
    "C78_symbols",
    "C78_simulation",
    "C78_dagger"
   ],
   "note": "C78_simulation composes with C24 and has its hypotheses."
  },
  {
   "property": "C79",
   "status": "partial",
   "theorems": [
    "C79_partial",
    "C79_exact",
    "C79_refuted"
   ],
   "note": "false of the code where a diagonal entry vanishes (C79_refuted); proved for all other values; C79_exact says for which values exactly."
  },
  {
   "property": "C80",
   "status": "partial",
   "theorems": [
    "C80_pauli",
    "C80_term_partial",
    "C80_expr_partial",
    "C80_single_refuted",
    "C80_zero_refuted",
    "C80_zero"
   ],
   "note": "false of the code for terms with coefficient 0 (C80_zero_refuted) and, with the value on the left of ==, for expressions of one term (C80_single_refuted); proved for all others; C80_zero says for which terms with coefficient 0 it holds. The text of a number is a parameter."
  },
  {
   "property": "C81",
   "status": "partial",
   "theorems": [
    "C81_hash_partial",
    "C81_unhashable_refuted"
   ],
   "note": "false of the code for I, terms and expressions, which have no hash (C81_unhashable_refuted); proved for X, Y and Z."
  },
  {
   "property": "C82",
   "status": "proved",
   "theorems": [
    "C82_one",
    "C82_two",
    "C82_three",
    "C82_other",
    "C82_complete"
   ],
   "note": "positional parameters only; cu1 in the documented convention phDoc, the simulators differ from it by a global phase (C08, phSim)."
  },
  {
   "property": "C83",
   "status": "proved",
   "theorems": [
    "C83_shot",
    "C83_mean",
    "C83_variance",
    "C83_frequency",
    "C83_multinomial",
    "C83_numba",
    "C83_terminal"
   ],
   "note": "random.random() is modelled by independent uniform real numbers on [0, 1), arithmetic is exact; backends are fresh, numba for at most 64 qubits."
  },
  {
   "property": "C84",
   "status": "proved",
   "theorems": [
    "C84_angle",
    "C84_cases",
    "C84_vector",
    "C84_entries",
    "C84_exact"
   ],
   "note": "nsimplify is a parameter assumed to return good fractions; expressions denote exact complex numbers; no ccz, no repeated target in a one-qubit gate (as C24)."
  },
  {
   "property": "C85",
   "status": "proved",
   "theorems": [
    "C85_words",
    "C85_accepted",
    "C85_run",
    "C85_bound",
    "C85_qubits",
    "C85_wq"
   ],
   "note": "default mixer and init_circuit; exact numbers; the minimizer is a deterministic strategy; the hypothesis that the constructor succeeds is met unless making or running Circuit(n).h[:] raises (C85_accepted)."
  },
  {
   "property": "C86",
   "status": "proved",
   "theorems": [
    "C86_energy",
    "C86_run",
    "C86_attained"
   ],
   "note": "nodes are natural numbers; exact numbers."
  },
  {
   "property": "C87",
   "status": "partial",
   "theorems": [
    "C87_energy",
    "C87_perfect",
    "C87_groups_partial",
    "C87_groups_single",
    "C87_groups_refuted",
    "C87_run"
   ],
   "note": "the groups are false of the code for a single number (C87_groups_refuted: it is in neither group); proved for lists with at least two numbers other than 0; C87_groups_single: otherwise both groups are empty."
  },
  {
   "property": "C88",
   "status": "partial",
   "theorems": [
    "C88_get_nbit",
    "C88_energy",
    "C88_separator",
    "C88_qubits",
    "C88_two_refuted",
    "C88_pairs",
    "C88_found_partial",
    "C88_found_refuted",
    "C88_even",
    "C88_report",
    "C88_run"
   ],
   "note": "false of the code for num = 2 (bitseparator fails, C88_two_refuted) and for products whose larger factor has too many digits (51 = 3*17, C88_found_refuted); int(num**0.5) is the exact integer square root."
  },
  {
   "property": "C89",
   "status": "proved",
   "theorems": [
    "C89_state",
    "C89_linear",
    "C89_probabilities",
    "C89_doubles",
    "C89_exact"
   ],
   "note": "ignore_global=False; no overflow, underflow or NaN; the angle a gate holds counts as rounded once; how numpy and CPython compute complex products is an assumption (C89_doubles)."
  },
  {
   "property": "C90",
   "status": "proved",
   "theorems": [
    "C90_counts",
    "C90_same_counts",
    "C90_unclear"
   ],
   "note": "as C89; fresh backend (the cache is filled by the first shot and used by the following ones)."
  },
  {
   "property": "C91",
   "status": "proved",
   "theorems": [
    "C91_state",
    "C91_resumed",
    "C91_probabilities",
    "C91_source",
    "C91_parallel",
    "C91_exact"
   ],
   "note": "ignore_global=False, not interrupted; no overflow, underflow or NaN. That the compiler keeps which elements an iteration reads and writes, and the accuracy NbAccurate, are assumptions; C91_source derives the latter for kernels computed in source order."
  },
  {
   "property": "C92",
   "status": "proved",
   "theorems": [
    "C92_counts",
    "C92_same_counts",
    "C92_backends_agree"
   ],
   "note": "as C91; fresh backend (the cache is filled by the first shot and used by the following ones)."
  },
  {
   "property": "C93",
   "status": "partial",
   "theorems": [
    "C93_ne",
    "C93_ne_exprs",
    "C93_ne_partial",
    "C93_number_refuted"
   ],
   "note": "a comparison with a number is always False (C93_number_refuted); the exceptions of C35 remain."
  },
  {
   "property": "C94",
   "status": "proved",
   "theorems": [
    "C94_conversion",
    "C94_idempotent",
    "C94_commutator",
    "C94_antisymmetric",
    "C94_commutable",
    "C94_term_max_n",
    "C94_expr_max_n",
    "C94_n_qubits",
    "C94_iteration",
    "C94_constructors",
    "C94_copy",
    "C94_newargs_needed"
   ],
   "note": "exact coefficients; copy and pickle are modelled as __new__(*__getnewargs__())."
  },
  {
   "property": "C95",
   "status": "proved",
   "theorems": [
    "C95_doubles",
    "C95_only_vector",
    "C95_numba_only_vector",
    "C95_exact",
    "C95_state",
    "C95_numba_state",
    "C95_turned",
    "C95_numba_turned",
    "C95_same",
    "C95_jump"
   ],
   "note": "without overflow, underflow and NaN; that the deciding amplitude is clear is a hypothesis of C95_turned and C95_same, and is needed (C95_jump)."
  },
  {
   "property": "C96",
   "status": "proved",
   "theorems": [
    "C96_numpy_cache",
    "C96_numba_cache"
   ],
   "note": "what a compiled kernel computes is a function of its arguments; interrupted numba runs and dagger(copy_backends=True), where the caches do change results (C19, C17), are excluded by the statement."
  },
  {
   "property": "C97",
   "status": "partial",
   "theorems": [
    "C97_doubles",
    "C97_numpy_runs",
    "C97_numba_runs",
    "C97_exact",
    "C97_outcomes",
    "C97_most_common",
    "C97_energy_signed",
    "C97_energy_partial"
   ],
   "note": "terms with an odd number of Y enter the energy with the wrong sign, also in exact arithmetic (C44); everything else is proved. Without overflow, underflow and NaN."
  },
  {
   "property": "C98",
   "status": "proved",
   "theorems": [
    "C98_doubles",
    "C98_exact",
    "C98_simplify",
    "C98_term",
    "C98_matrix",
    "C98_cancel",
    "C98_energy"
   ],
   "note": "without overflow, underflow and NaN; that the products are added one after the other is used only in C98_doubles. C98_cancel: coefficients that cancel exactly need not cancel in floating point."
  },
  {
   "property": "C99",
   "status": "partial",
   "theorems": [
    "C99_qaoa",
    "C99_add",
    "C99_empty",
    "C99_not_square",
    "C99_exact",
    "C99_same_partial",
    "C99_same_refuted",
    "C99_bits_refuted"
   ],
   "note": "violated: sa ignores entries below the diagonal, which qaoa adds (C99_same_refuted); the outcomes leave out the last variables if the energy does not depend on them (C99_bits_refuted). Everything else is proved; C99_exact: sa and qaoa minimize the same energy exactly for upper triangular matrices, for two or more variables (one variable: C68_single_refuted)."
  },
  {
   "property": "C100",
   "status": "proved",
   "theorems": [
    "C100_term_value",
    "C100_class",
    "C100_evolution",
    "C100_expr_value",
    "C100_qaoa",
    "C100_cast_needed"
   ],
   "note": "the values of the coefficients are exact; only numpy's gate_rz is modelled as rejecting complex angles."
  },
  {
   "property": "C101",
   "status": "proved",
   "theorems": [
    "C101_exact",
    "C101_doubles",
    "C101_circuit",
    "C101_objective",
    "C101_diagonal",
    "C101_unit"
   ],
   "note": "terms with an odd number of Y evolve with the wrong sign (C46): C101_circuit says so with signedOp, C101_objective and C101_diagonal exclude them. H is the Hamiltonian as the machine has simplified it (C98_simplify); its coefficients are not changed by a product with 1 (C101_unit). Without overflow, underflow and NaN."
  },
  {
   "property": "C102",
   "status": "proved",
   "theorems": [
    "C102_exact",
    "C102_doubles",
    "C102_formula",
    "C102_terms",
    "C102_defined",
    "C102_residue",
    "C102_residue_double"
   ],
   "note": "for the formulas of C33_arithmetic_partial: for the others the exact value is already wrong (C33_duplicates_refuted). Powers of numbers are repeated products in C102_doubles. Without overflow, underflow and NaN."
  },
  {
   "property": "C103",
   "status": "proved",
   "theorems": [
    "C103_size",
    "C103_square_sum",
    "C103_decision",
    "C103_commuting",
    "C103_terms_commuting",
    "C103_terms_anticommuting",
    "C103_terms",
    "C103_all_terms",
    "C103_qaoa_accepts",
    "C103_qaoa_rejects",
    "C103_multiple_refuted"
   ],
   "note": "C103_multiple_refuted is the last sentence of the statement: a limitation of the fixed eps. Rounding is assumed symmetric, without effect on machine numbers, and with 1 a machine number, for the statements on terms; Verif.Spec.Double defines rounding to 53 bits (nearest, ties to even, unbounded exponents), which meets this. Without overflow, underflow and NaN."
  },
  {
   "property": "C104",
   "status": "partial",
   "theorems": [
    "C104_binding",
    "C104_gate",
    "C104_no_gate",
    "C104_gate_refused",
    "C104_noparams_partial",
    "C104_extra_refuted",
    "C104_truth",
    "C104_values",
    "C104_numba_values",
    "C104_numpy_run",
    "C104_numba_run",
    "C104_third_refuted",
    "C104_unknown",
    "C104_typo_refuted",
    "C104_qasm",
    "C104_sympy",
    "C104_sympy_refuted",
    "C104_backend"
   ],
   "note": "Proved: exactly which calls are accepted and what they mean. False of the code: that every argument is used or refused (the _refuted theorems; C104_noparams_partial says what parameterless gates accept). Parameters that are no numbers are accepted by the constructors and not followed further."
  },
  {
   "property": "C105",
   "status": "partial",
   "theorems": [
    "C105_names_partial",
    "C105_missing_refuted",
    "C105_call",
    "C105_order",
    "C105_dagger",
    "C105_text_partial",
    "C105_text_exact",
    "C105_empty_refuted"
   ],
   "note": "False of the code: five names are missing in Ops (C105_missing_refuted), the text of a value without gates is no expression (C105_empty_refuted). C105_names_partial is exact; C105_text_partial needs at least one gate and non-empty subscripts, exactly the cases in which the text is an expression (C105_text_exact)."
  },
  {
   "property": "C106",
   "status": "proved",
   "theorems": [
    "C106_balance",
    "C106_run",
    "C106_shots",
    "C106_limit",
    "C106_cold",
    "C106_optimal"
   ],
   "note": "Random numbers are independent and uniform (Spec.draws: product measure over signs, sites and reals in [0,1)); energies and the exponential are exact reals. The schedule is the relation Spec.Schedule; C106_optimal derives it from 0 < R < 1."
  },
  {
   "property": "C107",
   "status": "proved",
   "theorems": [
    "C107_run",
    "C107_limit",
    "C107_classical"
   ],
   "note": "Random numbers are independent and uniform (Spec.draws); numbers below tro*N make the remainders modulo N and modulo tro, which the model draws as site and slice, uniform. Exact reals. The energy that decides the moves is the one of C50_delta_partial (coupling -kappa), not the recorded one."
  },
  {
   "property": "C108",
   "status": "partial",
   "theorems": [
    "C108_run",
    "C108_history_partial",
    "C108_stale",
    "C108_stale_refuted"
   ],
   "note": "False of the code if a circuit already holds an object of the name: it keeps the old reader after the name is registered again (C108_stale, C108_stale_refuted). C108_history_partial needs that no circuit has an object of the name when it is registered, and that the name is not (un)registered later. Readers are functions without state."
  },
  {
   "property": "C109",
   "status": "proved",
   "theorems": [
    "C109_history",
    "C109_default",
    "C109_meaning",
    "C109_counts",
    "C109_born"
   ],
   "note": "The excluded actions do change results: dagger(copy_backends=True) C17, interrupted numba runs C19, registering a name again C108. Exact arithmetic; dtype of the numba backend keeps its default; the classes behind ibmq and qgate and those registered later are any classes."
  },
  {
   "property": "C110",
   "status": "partial",
   "theorems": [
    "C110_history",
    "C110_subscript",
    "C110_programs",
    "C110_quiet",
    "C110_text_partial",
    "C110_text_refuted",
    "C110_ops",
    "C110_ops_text"
   ],
   "note": "False of the code for the text: one positional argument with keywords is written with two commas in a row (C110_text_refuted). The rest holds in full. Names of gates only (no macros, initial GATE_SET); repr of argument values and of subscripts that are neither integers nor slices is a parameter."
  },
  {
   "property": "C111",
   "status": "partial",
   "theorems": [
    "C111_exact",
    "C111_native_partial",
    "C111_inside_partial",
    "C111_ccz_repeated",
    "C111_ccx_repeated",
    "C111_again_partial",
    "C111_numba_partial",
    "C111_ccz_exact",
    "C111_qasm_partial",
    "C111_unitary_partial",
    "C111_same_partial",
    "C111_identity_refuted",
    "C111_ccz_refuted"
   ],
   "note": "False of the code for i, which runs on any subscript (C111_identity_refuted), for three-qubit gates, which accept repeated qubits (C111_ccz_refuted) and reject negative ones (C56_three), and for gates run by fallback with indices below -n (C56_tdg_refuted). Proved for all one- and two-qubit gates with methods of their own, measurements and resets (C111_native_partial) and for all others but i with written indices from -n to n-1 (C111_inside_partial); C111_numba_partial, C111_qasm_partial, C111_unitary_partial: the same on numba (at most 64 qubits), for to_qasm and for to_unitary (at least one qubit); C111_same_partial: the four accept the same circuits. C111_exact: for all gates with written indices from -n to n-1, the exact condition under which the code runs (i on anything, three-qubit gates on any three non-negative integers, cswap with different last ones); C111_ccz_repeated, C111_ccx_repeated: what ccz and ccx with repeated qubits compute (cz or z; ccx the same between two h on the target)."
  }
 ]
}