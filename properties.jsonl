{"id": "C01", "title": "Built-in gates are unitary for all parameters", "statement": "The matrix of every built-in gate (X, Y, Z, H, I, S, T, RX, RY, RZ, RH, PHASE, U3, CNOT, CZ, SWAP, ISWAP, CPHASE, XX, YY, ZZ, XY) is unitary for every real value of its parameters, and each built-in gate declared hermitian has a matrix equal to its own adjoint.", "quantifier": "all built-in gates and all real parameter values", "why_tests_cant": "tests sample a handful of angles out of a continuum; a sign error that vanishes at the sampled angles goes unnoticed", "anchors": ["src/python/zquantum/core/circuits/_matrices.py: x_matrix .. xy_matrix", "src/python/zquantum/core/circuits/_builtin_gates.py: X .. XY"]}
{"id": "C02", "title": "dagger is the adjoint, for any nesting", "statement": "For every gate built from factory gates by any nesting of .controlled(k) and .dagger, the matrix of gate.dagger is the conjugate transpose of gate.matrix, gate.dagger.dagger has the same matrix as gate, and for unitary base gates gate followed by gate.dagger is the identity.", "quantifier": "all gate expressions (arbitrary nesting depth) over base gates whose hermitian flag is truthful", "why_tests_cant": "the nesting depth of Controlled/Dagger wrappers is unbounded and each class implements dagger/controlled by a different rewrite rule", "anchors": ["src/python/zquantum/core/circuits/_gates.py: MatrixFactoryGate.dagger, ControlledGate.dagger, Dagger.dagger, Dagger.controlled"]}
{"id": "C03", "title": "controlled(k) adds exactly k controls", "statement": "gate.controlled(k) acts as gate on the last qubits when the k leading control qubits are all 1 and as the identity otherwise; its qubit count grows by k; gate.controlled(a).controlled(b) has the same matrix as gate.controlled(a+b); k < 1 is rejected.", "quantifier": "all gates (arbitrary nesting), all k, all basis states", "why_tests_cant": "block-diagonal placement and the merge rule of nested controls must be right for every size", "anchors": ["src/python/zquantum/core/circuits/_gates.py: ControlledGate, Gate.controlled"]}
{"id": "C04", "title": "Binding parameters commutes with gate structure", "statement": "Binding symbols in a gate gives the same matrix as substituting the values in the gate's matrix; binding commutes with .dagger and .controlled; binding never changes the number of qubits; binding in two steps with disjoint closed maps equals binding once with the merged map; after binding a set of symbols to numbers none of them is free in the gate; replace_params with the gate's own params is the identity.", "quantifier": "all gates (arbitrary nesting), all symbol maps", "why_tests_cant": "parameter expressions, maps and nesting are unbounded", "anchors": ["src/python/zquantum/core/circuits/_gates.py: MatrixFactoryGate.bind, ControlledGate.bind, Dagger.bind, replace_params", "src/python/zquantum/core/circuits/_operations.py: sub_symbols, get_free_symbols"]}
{"id": "C05", "title": "Lifting a gate acts only on its qubits", "statement": "The lifted matrix of a gate operation on distinct qubits q_1..q_k of an n-qubit register has entry (i,j) equal to the gate's matrix entry at the sub-bitstrings of i and j on q_1..q_k (in that order, qubit 0 most significant) when i and j agree on all other qubits and 0 otherwise.", "quantifier": "all n, all k, all tuples of distinct qubit indices below n, all 2^k x 2^k matrices", "why_tests_cant": "the implementation goes through a permutation conjugation, shifts and Kronecker products; ordering mistakes only show for unsampled qubit tuples", "anchors": ["src/python/zquantum/core/circuits/_unitary_tools.py: _lift_matrix, _permutation_matrix, _permutation_making_qubits_adjacent", "src/python/zquantum/core/circuits/_gates.py: GateOperation.lifted_matrix"]}
{"id": "C06", "title": "Lifting is a homomorphism and disjoint operations commute", "statement": "Lifting preserves identity, products, adjoints and unitarity, and operations on disjoint qubit sets commute; the result does not depend on which valid register size the gate was shifted inside.", "quantifier": "all register sizes, all qubit tuples, all matrices", "why_tests_cant": "quantifies over all matrices and pairs of qubit tuples", "anchors": ["src/python/zquantum/core/circuits/_unitary_tools.py: _lift_matrix", "src/python/zquantum/core/circuits/_gates.py: GateOperation.lifted_matrix"]}
{"id": "C07", "title": "to_unitary composes operations in circuit order", "statement": "Circuit.to_unitary of a non-empty circuit is the product of the lifted operation matrices with the first operation rightmost; hence to_unitary(c1 + c2) on equal registers is to_unitary(c2) times to_unitary(c1), applying the operations one by one to a state equals multiplying it by to_unitary, and the unitary of a circuit of unitary gates is unitary. (An empty circuit raises TypeError.)", "quantifier": "all circuits of any length and register size, all state vectors", "why_tests_cant": "circuit length is unbounded", "anchors": ["src/python/zquantum/core/circuits/_circuit.py: Circuit.to_unitary", "src/python/zquantum/core/circuits/_gates.py: GateOperation.apply"]}
{"id": "C08", "title": "Circuit concatenation laws", "statement": "Adding an operation or a circuit appends the operations in order, the register size becomes the maximum of both sizes (operation size = largest index + 1), addition is associative, and inputs are not modified; a register size given explicitly and positive is kept, otherwise it is derived from the operations; adding anything else is rejected.", "quantifier": "all circuits, operations and declared sizes", "why_tests_cant": "all sequences of additions", "anchors": ["src/python/zquantum/core/circuits/_circuit.py: Circuit.__init__, __add__, _append_operation, _append_circuit, _circuit_size_by_operations"]}
{"id": "C09", "title": "Circuit-level binding", "statement": "Circuit.bind keeps the register size and the number and qubits of the operations, distributes over circuit addition, and Circuit.free_symbols lists every free symbol of some operation exactly once in first-appearance order; after binding all free symbols to numbers there are none left.", "quantifier": "all circuits and all symbol maps", "why_tests_cant": "all circuits and maps", "anchors": ["src/python/zquantum/core/circuits/_circuit.py: Circuit.bind, Circuit.free_symbols"]}
{"id": "C10", "title": "split_circuit partitions the circuit", "statement": "The segments yielded by split_circuit, concatenated, are exactly the original operations; every segment is non-empty, all its operations share the reported predicate value, adjacent segments have different values, and every segment keeps the register size.", "quantifier": "all circuits, all predicates", "why_tests_cant": "all circuits and predicates", "anchors": ["src/python/zquantum/core/circuits/_circuit.py: split_circuit"]}
{"id": "C11", "title": "Circuit serialization round trip", "statement": "circuit_from_dict(to_dict(c)) equals c for every circuit of built-in and custom gates with arbitrary nesting of control and dagger.", "quantifier": "all serializable circuits", "why_tests_cant": "the space of circuits with nested gates and custom definitions is infinite; failures live in rare combinations (wrapped custom gates, names colliding with built-ins)", "anchors": ["src/python/zquantum/core/circuits/_serde.py: to_dict, circuit_from_dict, _gate_from_dict, _custom_gate_instance_from_dict", "src/python/zquantum/core/circuits/_circuit.py: collect_custom_gate_definitions"]}
{"id": "C12", "title": "Nearest-neighbour layout", "statement": "For every n the nearest-neighbour layout's connectivity is exactly the set of pairs (i,i+1) with i+1<n, each once; the two layers together list each connection exactly once and within a layer no qubit occurs twice.", "quantifier": "all qubit counts n", "why_tests_cant": "must hold for every n", "anchors": ["src/python/zquantum/core/circuits/layouts.py: _build_circuit_layers_and_connectivity_nearest_neighbors"]}
{"id": "C13", "title": "Sycamore layout", "statement": "For every grid x by y the sycamore layout's connections join existing distinct qubits of adjacent rows without repetition; each of the eight layers uses only listed connections, and no qubit occurs twice in a layer; the layers of each of the two colour patterns cover every connection exactly once.", "quantifier": "all grid dimensions", "why_tests_cant": "must hold for every grid size", "anchors": ["src/python/zquantum/core/circuits/layouts.py: _build_circuit_layers_and_connectivity_sycamore"]}
{"id": "C14", "title": "Circuit generators place gates as asked", "statement": "create_layer_of_gates(n, gate) has exactly one operation per qubit in order (with parameter i on qubit i); apply_gate_to_qubits adds exactly one gate to each distinct requested qubit; add_ancilla_register appends an identity on each of the k new qubits and leaves the old operations alone.", "quantifier": "all n, all parameter lists, all qubit lists", "why_tests_cant": "all sizes", "anchors": ["src/python/zquantum/core/circuits/_generators.py: create_layer_of_gates, apply_gate_to_qubits, add_ancilla_register"]}
{"id": "C15", "title": "Multi-phase operation preserves probabilities", "statement": "Applying a MultiPhaseOperation with real phases to a wavefunction of matching length multiplies amplitude i by exp(i*phase_i) and leaves every outcome probability unchanged; a length mismatch, unbound symbols or non-real parameters are rejected.", "quantifier": "all lengths, all real phase vectors, all states", "why_tests_cant": "continuum of phases", "anchors": ["src/python/zquantum/core/circuits/_wavefunction_operations.py: MultiPhaseOperation"]}
{"id": "C16", "title": "U3 decomposition preserves the unitary", "statement": "Replacing U3 (and controlled U3) gates by rotations leaves the circuit's unitary unchanged up to one global phase, and keeps the register size.", "quantifier": "all angles, all numbers of controls, all circuits", "why_tests_cant": "continuum of angles and all circuits; the dropped phase is only harmless without controls", "anchors": ["src/python/zquantum/core/decompositions/_zquantum_decompositions.py: U3GateToRotation, decompose_zquantum_circuit"]}
{"id": "C17", "title": "Rule-based decomposition engine", "statement": "decompose_operations keeps operation order; if every rule preserves an arbitrary composition-compatible meaning of operations, so does the whole decomposition, for any list of rules; operations matched by no rule are left unchanged.", "quantifier": "all operation lists, all rule lists, all monoid-valued interpretations", "why_tests_cant": "rules and circuits are arbitrary", "anchors": ["src/python/zquantum/core/decompositions/_decomposition.py: decompose_operation, decompose_operations"]}
{"id": "C18", "title": "Dicke state construction", "statement": "For every n>0 and 0<=k<=n, dicke_state(n,k) has equal amplitude 1/sqrt(C(n,k)) on exactly the basis states of Hamming weight k and zero elsewhere; out of range k is rejected.", "quantifier": "all n and k", "why_tests_cant": "relies on a bit trick enumerating numbers of equal popcount, which must be exhaustive for every n,k", "anchors": ["src/python/zquantum/core/wavefunction.py: Wavefunction.dicke_state, _get_next_number_with_same_hamming_weight, _most_significant_set_bit"]}
{"id": "C19", "title": "Flipping amplitudes reverses qubit order and is an involution", "statement": "flip_amplitudes on a 2^n vector moves amplitude i to the index whose n-bit representation is reversed; doing it twice is the identity, and it preserves the norm.", "quantifier": "all n, all amplitude vectors", "why_tests_cant": "all sizes", "anchors": ["src/python/zquantum/core/wavefunction.py: flip_amplitudes, flip_wavefunction, _flip_bits"]}
{"id": "C20", "title": "Wavefunction stays normalised under any history", "statement": "A constructed wavefunction has 2^n entries; after any sequence of item assignments (accepted or rejected) the wavefunction still satisfies the normalisation rule (sum |a|^2 = 1 if numeric, at most 1 for the numeric part if symbolic), and a rejected assignment leaves it unchanged; length never changes.", "quantifier": "all sequences of assignments", "why_tests_cant": "unbounded histories of mutations with rollback", "anchors": ["src/python/zquantum/core/wavefunction.py: Wavefunction.__init__, __setitem__, _check_normalization"]}
{"id": "C21", "title": "Outcome probabilities", "statement": "get_outcome_probs of an n-qubit wavefunction has exactly one entry per n-bit outcome, with key equal to the reversed binary expansion of the index and value |amplitude|^2; values are non-negative and sum to 1 for a normalised state.", "quantifier": "all n and states", "why_tests_cant": "all sizes", "anchors": ["src/python/zquantum/core/wavefunction.py: get_outcome_probs, get_probabilities"]}
{"id": "C22", "title": "Integer/bitstring conversions", "statement": "bin2dec(dec2bin(x, n)) = x and dec2bin(bin2dec(b), len b) = b; a number that does not fit in the requested length is reported; get_ordered_list_of_bitstrings(n) lists each n-bit string once in increasing order; tuple/bitstring conversions are mutually inverse.", "quantifier": "all numbers, lengths and bitstrings", "why_tests_cant": "boundary cases at powers of two for every length", "anchors": ["src/python/zquantum/core/utils.py: dec2bin, bin2dec, convert_bitstrings_to_tuples, convert_tuples_to_bitstrings, get_ordered_list_of_bitstrings"]}
{"id": "C23", "title": "Counts and samples agree", "statement": "Measurements.from_counts(c).get_counts() is c (positive counts), add_counts adds counts pointwise, get_counts sums to the number of samples, and get_distribution gives each outcome its relative frequency, summing to 1; the sample order does not influence counts.", "quantifier": "all multisets of samples, all sequences of add_counts", "why_tests_cant": "unbounded histories", "anchors": ["src/python/zquantum/core/measurement.py: Measurements.from_counts, get_counts, add_counts, get_distribution"]}
{"id": "C24", "title": "Sampling to a representing distribution returns exactly the requested number", "statement": "get_measurements_representing_distribution(d, N) returns exactly N samples all in the support of d, and each outcome's count differs from the expected N*p by at most the leftover correction, whatever the random generator returns.", "quantifier": "all distributions, all N, all random outcomes", "why_tests_cant": "random resampling hides rare failing draws", "anchors": ["src/python/zquantum/core/measurement.py: Measurements.get_measurements_representing_distribution, _check_sample_elimination"]}
{"id": "C25", "title": "Expectation values from measurements", "statement": "For an Ising operator, Measurements.get_expectation_values returns for each term coefficient times the mean of the products of +-1 spins over the samples, hence |value| <= |coefficient|; correlation of a term pair is the coefficients times the mean of the product term, symmetric, and the estimator covariance is correlations minus products of means divided by N (or N-1 with Bessel's correction), which is a positive semidefinite matrix.", "quantifier": "all sample multisets, all Ising operators", "why_tests_cant": "all samples and operators", "anchors": ["src/python/zquantum/core/measurement.py: Measurements.get_expectation_values, get_expectation_value_from_frequencies, check_parity_of_vector"]}
{"id": "C26", "title": "Parities agree with the spin definition", "statement": "check_parity(bitstring, marked) is true iff the marked bits contain an even number of ones, check_parity_of_vector agrees; parity counts of every term sum to the number of samples, and get_expectation_values_from_parities returns (even-odd)/(even+odd) per term, lying in [-1,1]; the parity of a union with repeated qubits removed pairwise is the product of parities.", "quantifier": "all bitstrings, all marked sets, all operators", "why_tests_cant": "all inputs", "anchors": ["src/python/zquantum/core/measurement.py: check_parity, check_parity_of_vector, get_parities_from_measurements, get_expectation_values_from_parities"]}
{"id": "C27", "title": "Discretisation keeps the exact total", "statement": "scale_and_discretize(values, total) returns integers summing exactly to total, each at most 1 away from the proportional share, with order of the list preserved; an exact share is never exceeded by more than one unit.", "quantifier": "all lists of non-negative values with positive sum, all totals", "why_tests_cant": "rounding corner cases over all inputs", "anchors": ["src/python/zquantum/core/utils.py: scale_and_discretize"]}
{"id": "C28", "title": "Distribution normalisation", "statement": "normalize_measurement_outcome_distribution yields a distribution summing to 1 with proportions preserved for any non-negative dictionary with positive total; keys all have the same length and are made of non-negative integers; outcomes written as bit strings and as tuples give the same distribution; saving a distribution and loading it gives it back.", "quantifier": "all dictionaries of outcomes", "why_tests_cant": "all inputs", "anchors": ["src/python/zquantum/core/distribution/_measurement_outcome_distribution.py: MeasurementOutcomeDistribution, normalize_measurement_outcome_distribution, is_normalized"]}
{"id": "C29", "title": "Distance measures between distributions", "statement": "The Jensen-Shannon divergence is symmetric in its arguments; MMD with a symmetric positive semidefinite kernel is non-negative, symmetric and zero on equal distributions; the clipped negative log-likelihood is finite for any epsilon in (0,1) and minimal clipping never takes the logarithm of zero.", "quantifier": "all pairs of distributions, all epsilon", "why_tests_cant": "all inputs", "anchors": ["src/python/zquantum/core/distribution/jensen_shannon_divergence.py", "src/python/zquantum/core/distribution/mmd.py", "src/python/zquantum/core/distribution/clipped_negative_log_likelihood.py"]}
{"id": "C30", "title": "Recorder history is exactly the selected calls", "statement": "After any sequence of calls through a recorder with a save condition, the history lists, in call order, exactly the calls for which the condition held, with their call number, params and value; the recorder returns what the target returns; artifacts are stored with the call that produced them (or force saved).", "quantifier": "all call sequences, all save conditions", "why_tests_cant": "unbounded call histories", "anchors": ["src/python/zquantum/core/history/recorder.py: SimpleRecorder, ArtifactRecorder, recorder", "src/python/zquantum/core/history/save_conditions.py: every_nth, always"]}
{"id": "C31", "title": "Measurement tracking backend keeps all raw data", "statement": "After any sequence of run_circuit_and_measure / run_circuitset_and_measure calls, the tracking file contains the data of every circuit run so far, in order, and results returned are those of the wrapped backend.", "quantifier": "all call sequences", "why_tests_cant": "unbounded call histories", "anchors": ["src/python/zquantum/core/trackers.py: MeasurementTrackingBackend"]}
{"id": "C32", "title": "Backend execution counters", "statement": "After any sequence of successful calls number_of_circuits_run equals the total number of circuits executed and number_of_jobs_run increases according to the batch size; rejected calls (non-positive samples) leave the counters unchanged in the documented way.", "quantifier": "all call histories", "why_tests_cant": "unbounded call histories", "anchors": ["src/python/zquantum/core/interfaces/backend.py: QuantumBackend.run_circuit_and_measure, run_circuitset_and_measure"]}
{"id": "C33", "title": "Ansatz cache coherence", "statement": "Whatever sequence of reads of the parametrized circuit and assignments to ansatz properties happens, reading the parametrized circuit always gives the circuit generated from the current property values.", "quantifier": "all interleavings of reads and property assignments", "why_tests_cant": "unbounded interleavings of invalidations and reads", "anchors": ["src/python/zquantum/core/interfaces/ansatz.py: Ansatz.parametrized_circuit", "src/python/zquantum/core/interfaces/ansatz_utils.py: _InvalidatingSetter, ansatz_property, DynamicProperty"]}
{"id": "C34", "title": "Estimation returns one result per task in order", "statement": "estimate_expectation_values_by_averaging returns exactly one ExpectationValues per task, in task order, whatever subset of tasks is non-measured; constant-only tasks are evaluated to their constant exactly.", "quantifier": "all task lists, all splits into measured and non-measured tasks, all backends", "why_tests_cant": "interleavings of measured and unmeasured tasks", "anchors": ["src/python/zquantum/core/estimation/_estimation.py: estimate_expectation_values_by_averaging, split_estimation_tasks_to_measure, evaluate_non_measured_estimation_tasks"]}
{"id": "C35", "title": "Binding estimation tasks keeps every task", "statement": "evaluate_estimation_circuits returns one task per input task with its operator and shot count unchanged and its circuit bound with the corresponding symbols map.", "quantifier": "all lists of tasks and maps", "why_tests_cant": "all list lengths", "anchors": ["src/python/zquantum/core/estimation/_estimation.py: evaluate_estimation_circuits"]}
{"id": "C36", "title": "Shot allocation", "statement": "allocate_shots_uniformly gives each task the same number of shots and rejects non-positive numbers; allocate_shots_proportionally assigns non-negative integers summing exactly to the requested total and leaves circuits and operators unchanged.", "quantifier": "all task lists, totals and variances", "why_tests_cant": "all inputs", "anchors": ["src/python/zquantum/core/estimation/_estimation.py: allocate_shots_uniformly, allocate_shots_proportionally"]}
{"id": "C37", "title": "Context selection diagonalises the group", "statement": "For a group of qubit-wise commuting Pauli terms, the context selection circuit U and the returned Ising operator D satisfy U^dagger D U = original operator, so that measuring after the circuit in the computational basis estimates the original terms.", "quantifier": "all co-measurable groups on any number of qubits", "why_tests_cant": "all Pauli strings and numbers of qubits", "anchors": ["src/python/zquantum/core/estimation/_estimation.py: get_context_selection_circuit_for_group, perform_context_selection"]}
{"id": "C38", "title": "Greedy grouping partitions the operator into co-measurable groups", "statement": "group_greedily / group_comeasureable_terms_greedy splits the operator so that every group's terms are pairwise qubit-wise co-measurable, every term occurs in exactly one group with its coefficient, and the groups sum to the operator. The grouping is the first fit: going through the terms in the order of the operator (or from the largest coefficient to the smallest), each term is in the first group whose earlier terms can all be measured with it.", "quantifier": "all qubit operators, both sorting options", "why_tests_cant": "all operators", "anchors": ["src/python/zquantum/core/hamiltonian.py: is_comeasureable, group_comeasureable_terms_greedy", "src/python/zquantum/core/estimation/_estimation.py: group_greedily, group_individually"]}
{"id": "C39", "title": "Time evolution of a single Pauli term", "statement": "time_evolution_for_term(c*P, t) implements exp(-i t c P) exactly (up to global phase for the identity term), for every Pauli string P.", "quantifier": "all Pauli strings on any number of qubits, all real t and c", "why_tests_cant": "all strings and continuum of angles", "anchors": ["src/python/zquantum/core/evolution.py: time_evolution_for_term"]}
{"id": "C40", "title": "Trotterised evolution", "statement": "time_evolution composes the single-term evolutions for time t/order, repeated order times, in term order; for operators with commuting terms the result is exactly exp(-i t H); derivatives: the list of circuits and factors from time_evolution_derivatives satisfies the parameter-shift rule.", "quantifier": "all operators, orders and times", "why_tests_cant": "all operators and orders", "anchors": ["src/python/zquantum/core/evolution.py: time_evolution, time_evolution_derivatives, _generate_circuit_sequence"]}
{"id": "C41", "title": "QubitOperator product is the operator product", "statement": "Multiplying two qubit operators gives the operator whose action on states is the composition of the actions, coefficients being exact; each resulting term is in canonical form (strictly increasing qubit indices, letters X, Y, Z only).", "quantifier": "all qubit operators (any number of terms, qubits)", "why_tests_cant": "all pairs of operators", "anchors": ["src/python/zquantum/core/openfermion/ops/operators/qubit_operator.py: QubitOperator._simplify, _PAULI_OPERATOR_PRODUCTS", "src/python/zquantum/core/openfermion/ops/operators/symbolic_operator.py: SymbolicOperator.__imul__, __mul__, __pow__"]}
{"id": "C42", "title": "Operator addition, subtraction and scaling", "statement": "Sum, difference, negation and scalar product of symbolic operators act coefficient-wise; a term is dropped by addition only if its resulting coefficient is below the tolerance 1e-8; addition is commutative and, without cancellation below tolerance, associative; op - op is zero.", "quantifier": "all operators and scalars", "why_tests_cant": "all operators", "anchors": ["src/python/zquantum/core/openfermion/ops/operators/symbolic_operator.py: __iadd__, __isub__, __imul__, __neg__, __truediv__, compress"]}
{"id": "C43", "title": "Operator equality is per-term closeness", "statement": "a == b holds iff every term's coefficients differ by at most the documented relative tolerance.", "quantifier": "all operators", "why_tests_cant": "tolerance accumulation only appears with several large coefficients in a row", "anchors": ["src/python/zquantum/core/openfermion/ops/operators/symbolic_operator.py: isclose, __eq__"]}
{"id": "C44", "title": "Hermitian conjugation", "statement": "hermitian_conjugated is conjugate-linear, an involution, reverses products and gives the adjoint action; is_hermitian holds exactly for operators equal to their conjugate.", "quantifier": "all fermion and qubit operators", "why_tests_cant": "all operators", "anchors": ["src/python/zquantum/core/openfermion/utils/operator_utils.py: hermitian_conjugated, is_hermitian"]}
{"id": "C45", "title": "Jordan-Wigner transform preserves the operator algebra", "statement": "The Jordan-Wigner images of ladder operators satisfy the canonical anticommutation relations, and the transform of any fermion operator acts on occupation states exactly as the fermion operator does (sum, product and scalar multiples included).", "quantifier": "all fermion operators on any number of modes", "why_tests_cant": "all operators and modes", "anchors": ["src/python/zquantum/core/openfermion/transforms/opconversions/jordan_wigner.py: _jordan_wigner_fermion_operator"]}
{"id": "C46", "title": "Normal ordering preserves the operator", "statement": "normal_ordered(op) acts on occupation states exactly as op, all its terms are normal ordered (creation before annihilation, descending indices), and it terminates for every term; normal ordering twice gives the same operator.", "quantifier": "all fermion operators", "why_tests_cant": "swap sequences of unbounded length", "anchors": ["src/python/zquantum/core/openfermion/transforms/opconversions/term_reordering.py: normal_ordered, normal_ordered_ladder_term", "src/python/zquantum/core/openfermion/ops/operators/fermion_operator.py: is_normal_ordered"]}
{"id": "C47", "title": "Reverse Jordan-Wigner is the inverse", "statement": "reverse_jordan_wigner of a qubit operator acts as the qubit operator under the occupation/bit identification, so jordan_wigner(reverse_jordan_wigner(q)) equals q as an operator.", "quantifier": "all qubit operators", "why_tests_cant": "all operators", "anchors": ["src/python/zquantum/core/openfermion/transforms/opconversions/reverse_jordan_wigner.py: reverse_jordan_wigner"]}
{"id": "C48", "title": "Bravyi-Kitaev sets and transform", "statement": "The update, occupation and parity sets computed by bit tricks are the Fenwick-tree sets (parity set sums to the prefix parity; occupation set determines one mode's occupation; update set lists exactly the partial sums that contain the mode), and the transformed ladder operators satisfy the anticommutation relations.", "quantifier": "all mode indices and qubit counts", "why_tests_cant": "bit tricks over all indices", "anchors": ["src/python/zquantum/core/openfermion/transforms/opconversions/bravyi_kitaev.py: _update_set, _occupation_set, _parity_set, _transform_majorana_operator, _transform_ladder_operator"]}
{"id": "C49", "title": "Pauli decomposition of a matrix", "statement": "get_qubitop_from_matrix(M) is the qubit operator whose matrix is M, for every 2^n x 2^n complex matrix; non-square or wrong-size input is rejected.", "quantifier": "all n and matrices", "why_tests_cant": "all matrices", "anchors": ["src/python/zquantum/core/openfermion/zapata_utils/_utils.py: get_qubitop_from_matrix"]}
{"id": "C50", "title": "Reordering qubits and modes", "statement": "reverse_qubit_order(op, n) maps qubit i to n-1-i and is an involution; up_then_down is a bijection of modes; reorder by a bijection keeps coefficients and is undone by the reverse option. Reordering the modes of a fermion operator by a bijection is a unitary change of the operator.", "quantifier": "all operators and sizes", "why_tests_cant": "all sizes", "anchors": ["src/python/zquantum/core/openfermion/zapata_utils/_utils.py: reverse_qubit_order", "src/python/zquantum/core/openfermion/utils/indexing.py: up_then_down", "src/python/zquantum/core/openfermion/transforms/opconversions/term_reordering.py: reorder"]}
{"id": "C51", "title": "Hubbard lattice terms", "statement": "fermi_hubbard contains exactly one hopping term (with its hermitian conjugate) per undirected nearest-neighbour edge of the (periodic or open) lattice and spin, and one interaction per site (or edge), up to the documented 1e-8 tolerance of every addition; the result is hermitian and conserves the particle number (of each spin).", "quantifier": "all lattice sizes, periodic or not", "why_tests_cant": "edge double counting for dimension 2 and all sizes", "anchors": ["src/python/zquantum/core/openfermion/hamiltonians/hubbard.py: fermi_hubbard, _right_neighbor, _bottom_neighbor"]}
{"id": "C52", "title": "Operator serialization round trip", "statement": "convert_dict_to_operator(convert_qubitop_to_dict(op)) equals op, likewise for Ising operators and interaction operators.", "quantifier": "all operators", "why_tests_cant": "all operators", "anchors": ["src/python/zquantum/core/openfermion/zapata_utils/_io.py: convert_qubitop_to_dict, convert_dict_to_operator, convert_isingop_to_dict, convert_interaction_op_to_dict"]}
{"id": "C53", "title": "PolynomialTensor arithmetic is pointwise", "statement": "Sum and difference of polynomial tensors are coefficient-wise with missing tensors read as zero; scalar product and negation likewise.", "quantifier": "all polynomial tensors", "why_tests_cant": "key sets differing between the operands", "anchors": ["src/python/zquantum/core/openfermion/ops/representations/polynomial_tensor.py: __iadd__, __isub__, __neg__, __imul__"]}
{"id": "C54", "title": "Splitting an operator into groups", "statement": "get_operator_groups(k) yields operators that partition the terms in order; the number of groups is k clamped to [1, number of terms] and sizes differ by at most one; their sum is the operator.", "quantifier": "all operators and k", "why_tests_cant": "all sizes", "anchors": ["src/python/zquantum/core/openfermion/ops/operators/symbolic_operator.py: get_operator_groups, accumulate"]}
{"id": "C55", "title": "Expression translation preserves value", "statement": "Translating a sympy expression to the native representation and to another dialect preserves its value under every assignment of symbols, including the special handling of subtraction, division and square root; unknown functions are rejected.", "quantifier": "all expressions, all assignments", "why_tests_cant": "expression trees of unbounded depth", "anchors": ["src/python/zquantum/core/circuits/symbolic/sympy_expressions.py: expression_from_sympy", "src/python/zquantum/core/circuits/symbolic/translations.py: translate_expression"]}
{"id": "C56", "title": "Finite difference gradient", "statement": "finite_differences_gradient evaluates the function at exactly the 2n points p +- step*e_i and returns the central differences; it is exact for polynomials of degree at most two and linear in the function.", "quantifier": "all functions and points", "why_tests_cant": "all inputs", "anchors": ["src/python/zquantum/core/gradients.py: finite_differences_gradient"]}
{"id": "C57", "title": "Cost function composition", "statement": "fix_parameters concatenates the fixed and free parameters, sum_expectation_values adds exactly all values with covariance propagated to a non-negative variance; the ansatz-based cost function binds the i-th parameter to the i-th circuit symbol; conditional side effects fire exactly on the calls satisfying the predicate and never change the returned value.", "quantifier": "all parameter vectors and call sequences", "why_tests_cant": "unbounded call histories", "anchors": ["src/python/zquantum/core/cost_function.py: fix_parameters, sum_expectation_values, AnsatzBasedCostFunction", "src/python/zquantum/core/cost_function_augmentations.py: ConditionalSideEffect"]}
{"id": "C58", "title": "Graph comparison", "statement": "compare_graphs(g1, g2) is true iff both graphs have the same nodes and the same weighted edges.", "quantifier": "all graph pairs", "why_tests_cant": "prefix comparison only visible on graphs of different sizes", "anchors": ["src/python/zquantum/core/graph.py: compare_graphs"]}
{"id": "C59", "title": "Array and value serialization round trips", "statement": "convert_dict_to_array(convert_array_to_dict(a)) = a for real and complex arrays of any shape; ValueEstimate and ExpectationValues dictionaries round trip, with and without precision/covariance information.", "quantifier": "all arrays and values", "why_tests_cant": "all inputs", "anchors": ["src/python/zquantum/core/utils.py: convert_array_to_dict, convert_dict_to_array, ValueEstimate", "src/python/zquantum/core/measurement.py: ExpectationValues.to_dict, from_dict"]}
{"id": "C60", "title": "Number-sector basis indices", "statement": "jw_number_indices(k, n) lists exactly the basis indices below 2^n with k bits set, each once; jw_configuration_state sets exactly the basis state with the given occupied modes.", "quantifier": "all n, k", "why_tests_cant": "all sizes", "anchors": ["src/python/zquantum/core/openfermion/linalg/sparse_tools.py: jw_number_indices, jw_configuration_state"]}
{"id": "C61", "title": "Freezing and pruning orbitals", "statement": "prune_unused_indices relabels used modes order-preservingly onto 0..m-1 and keeps coefficients; freeze_orbitals replaces frozen modes by their occupation so that matrix elements between states with the frozen occupation are preserved.", "quantifier": "all fermion operators, all frozen sets", "why_tests_cant": "all operators", "anchors": ["src/python/zquantum/core/openfermion/transforms/repconversions/operator_tapering.py: freeze_orbitals, prune_unused_indices"]}
{"id": "C62", "title": "Diagonal/remainder split and operator evaluation", "statement": "get_diagonal_component returns two operators summing to the input, the first containing exactly the diagonal (number-operator or Z-only) terms; evaluate_qubit_operator returns the sum of the terms' expectation values times coefficients.", "quantifier": "all operators", "why_tests_cant": "all operators", "anchors": ["src/python/zquantum/core/openfermion/zapata_utils/_utils.py: get_diagonal_component, evaluate_qubit_operator"]}
{"id": "C63", "title": "Ising operator simplification", "statement": "Products of Ising operators keep exactly the qubits appearing an odd number of times, so the action (a diagonal of +-1 products) is preserved and multiplication is commutative and associative.", "quantifier": "all Ising operators", "why_tests_cant": "all operators", "anchors": ["src/python/zquantum/core/openfermion/ops/operators/ising_operator.py: IsingOperator._simplify"]}
{"id": "C64", "title": "Sparse matrix of a qubit operator", "statement": "qubit_operator_sparse(op, n) is the matrix whose entries are the matrix elements of op in the computational basis with qubit 0 most significant; n too small is rejected.", "quantifier": "all operators and n", "why_tests_cant": "all sizes", "anchors": ["src/python/zquantum/core/openfermion/linalg/sparse_tools.py: qubit_operator_sparse, wrapped_kronecker"]}
{"id": "C65", "title": "Optimizer history bookkeeping", "statement": "Optimizer.minimize with keep_history returns a history containing exactly the recorded calls of the cost function, in order, and gradient history when present; the returned number of function evaluations is consistent.", "quantifier": "all optimisation runs", "why_tests_cant": "unbounded call histories", "anchors": ["src/python/zquantum/core/interfaces/optimizer.py: Optimizer.minimize, construct_history_info, extend_histories"]}
{"id": "C66", "title": "Built-in gates are the textbook gates", "statement": "The fixed gates have the Pauli/Hadamard/phase matrices of quantum computing; RX, RY, RZ, XX, YY, ZZ are exp(-i angle/2 P) of the corresponding Pauli product, XY(a) is exp(i a/4 (XX+YY)), RH is the rotation about the Hadamard axis up to a global phase, U3 is the standard three-angle matrix; CNOT, CZ, CPHASE are controlled X, Z, PHASE; rotation angles about one axis add up.", "quantifier": "all built-in gates, all (complex) parameter values", "why_tests_cant": "a continuum of angles; unitarity alone does not exclude a wrong sign or axis", "anchors": ["src/python/zquantum/core/circuits/_matrices.py: x_matrix .. xy_matrix"]}
{"id": "C67", "title": "Copies of a recorder", "statement": "A deep copy of a recorder has the same history as the original at the moment of copying and from then on neither sees the other's calls. A shallow copy shares the history list: entries recorded through either appear in both.", "quantifier": "all call sequences through original and copy, before and after copying", "why_tests_cant": "unbounded interleavings of calls through the two objects", "anchors": ["src/python/zquantum/core/history/recorder.py: SimpleRecorder, recorder, copy_recorder"]}
{"id": "C68", "title": "Simulator state and sampling", "statement": "A simulator's wavefunction of a unitary circuit is the normalised state obtained by applying the operations in order to the initial state, however native and non-native operations alternate; sampling k bitstrings draws k basis states with the probabilities |amplitude|^2 and labels them with qubit 0 first; fewer than one sample is rejected.", "quantifier": "all circuits, all native/non-native splits, all initial states, all sample numbers, all random generators", "why_tests_cant": "every circuit size and every alternation of native and non-native operations", "anchors": ["src/python/zquantum/core/interfaces/backend.py: QuantumSimulator.get_wavefunction", "src/python/zquantum/core/symbolic_simulator.py: SymbolicSimulator", "src/python/zquantum/core/measurement.py: sample_from_wavefunction"]}
{"id": "C69", "title": "Natural ordering of symbols", "statement": "Sorting symbols by natural_key or natural_key_revlex never fails, returns the same symbols in increasing order and keeps ties in place; names base+index are ordered by base and then numerical index (natural_key), or by numerical index and then base (revlex), also when indices have different numbers of digits; natural_key_fixed_names_order orders by index and then by the given order of bases.", "quantifier": "all lists of names, all bases and indices", "why_tests_cant": "all lengths of indices and all mixtures of text and digits", "anchors": ["src/python/zquantum/core/circuits/symbolic/_sorting.py: natural_key, natural_key_revlex, natural_key_fixed_names_order"]}
{"id": "C70", "title": "Parameters of an ansatz", "statement": "get_executable_circuit replaces the i-th free symbol of the parametrized circuit, in natural order, by the i-th parameter, leaves no symbol, and rejects a wrong number of parameters; number_of_params is the number of free symbols.", "quantifier": "all ansatzes, all circuits, all parameter vectors", "why_tests_cant": "all circuits and numbers of parameters (ten and more change the alphabetical order)", "anchors": ["src/python/zquantum/core/interfaces/ansatz.py: Ansatz.get_executable_circuit, number_of_params", "src/python/zquantum/core/utils.py: create_symbols_map", "src/python/zquantum/core/interfaces/mock_objects.py: MockAnsatz"]}
{"id": "C71", "title": "Sparse matrix of a fermion operator", "statement": "jordan_wigner_sparse(op, n) is the 2^n x 2^n matrix of the fermion operator in the occupation-number basis with mode 0 most significant, equal to the sparse matrix of its Jordan-Wigner transform; a mode outside the register raises IndexError.", "quantifier": "all fermion operators and n", "why_tests_cant": "all operators and sizes; signs depend on every earlier mode", "anchors": ["src/python/zquantum/core/openfermion/linalg/sparse_tools.py: jordan_wigner_sparse, jordan_wigner_ladder_sparse"]}
{"id": "C72", "title": "Comparison and iteration of polynomial tensors", "statement": "Two polynomial tensors of the same positive dimension compare equal iff all their coefficients (missing arrays read as zero) differ by less than 1e-8; tensors of different dimension are unequal. Iterating over a tensor yields every product of ladder operators with a nonzero coefficient exactly once (and the empty product iff a constant is stored), ordered by length and type.", "quantifier": "all polynomial tensors", "why_tests_cant": "key sets differ, and the iteration order of a set of keys must not matter", "anchors": ["src/python/zquantum/core/openfermion/ops/representations/polynomial_tensor.py: __eq__, __iter__"]}
{"id": "C73", "title": "Conversions between fermion operators and tensors", "statement": "get_polynomial_tensor and get_interaction_operator store exactly the coefficients of the normal ordered operator, represent the same operator, and get_fermion_operator converts back to it; a too small number of modes is rejected, and get_interaction_operator rejects exactly the operators whose normal form has a product other than a constant, a†a or a†a†aa.", "quantifier": "all fermion operators, all mode counts", "why_tests_cant": "all operators of any size", "anchors": ["src/python/zquantum/core/openfermion/zapata_utils/_utils.py: get_polynomial_tensor", "src/python/zquantum/core/openfermion/transforms/repconversions/conversions.py: get_interaction_operator", "src/python/zquantum/core/openfermion/transforms/opconversions/conversions.py: get_fermion_operator"]}
{"id": "C74", "title": "Independence of results and operands of tensor arithmetic", "statement": "The sum of two polynomial tensors is a new object: no sequence of in-place updates of the result changes an operand.", "quantifier": "all tensors and all sequences of in-place updates", "why_tests_cant": "sharing of arrays only shows after later updates", "anchors": ["src/python/zquantum/core/openfermion/ops/representations/polynomial_tensor.py: __iadd__, __add__, __imul__, __itruediv__, __setitem__"]}
{"id": "C75", "title": "Graph node numbering, edge weights, saving and loading", "statement": "generate_graph_node_dict numbers the nodes 0..n-1 in their order without repetition; weighting the edges of a graph keeps its nodes and edges and gives every edge exactly one sampled weight, the same from both ends; load_graph of a saved graph has the same nodes in the same order, the same edges and the same weights.", "quantifier": "all simple graphs, all samples of weights", "why_tests_cant": "graphs of every shape and size, in every node and edge order", "anchors": ["src/python/zquantum/core/graph.py: generate_graph_node_dict, _weight_graph_edges, save_graph, load_graph"]}
{"id": "C76", "title": "Composition of cost function augmentations", "statement": "augment_cost_function applies the augmentations of the cost function from left to right, keeps every attribute of the original function, and its gradient is the original gradient with the gradient augmentations applied from left to right.", "quantifier": "all cost functions with or without gradient, all lists of augmentations", "why_tests_cant": "wrappers compose in lists of any length", "anchors": ["src/python/zquantum/core/cost_function_augmentations.py: augment_cost_function, _augment_function"]}
{"id": "C77", "title": "Exact expectation values", "statement": "For every circuit, state and operator, get_expectation_value is <psi|O|psi> with qubit 0 the most significant (with the reversed flag: of the state with reversed qubits), density matrices give the weighted average, operators with too many qubits are rejected; get_exact_expectation_values returns Re<psi|c P|psi> term by term in the operator's order and these agree with the exact outcome distribution for Ising operators; a cost function with exact estimation has the value Re<psi(theta)|H|psi(theta)>.", "quantifier": "all operators, states, circuits, parameter vectors and correct simulators", "why_tests_cant": "operators and circuits of any size; qubit order conventions of four modules must agree", "anchors": ["src/python/zquantum/core/openfermion/linalg/sparse_tools.py: expectation, inner_product, get_density_matrix", "src/python/zquantum/core/openfermion/zapata_utils/_utils.py: get_expectation_value, change_operator_type", "src/python/zquantum/core/interfaces/backend.py: QuantumSimulator.get_exact_expectation_values, get_measurement_outcome_distribution", "src/python/zquantum/core/estimation/_estimation.py: calculate_exact_expectation_values"]}
{"id": "C78", "title": "Direct Jordan-Wigner transform of interaction operators", "statement": "jordan_wigner of an InteractionOperator with Hermitian arrays returns a qubit operator with exactly the action of the operator of the arrays, and so the same coefficients as converting the arrays to a fermion operator and transforming that. Asking for fewer qubits than orbitals raises ValueError, for more IndexError.", "quantifier": "every number of orbitals, constant, one-body and two-body array", "why_tests_cant": "the transform has separate closed formulas for two, three and four different indices with sign rules that depend on the order of the indices; tests compare a few small molecules", "anchors": ["src/python/zquantum/core/openfermion/transforms/opconversions/jordan_wigner.py: _jordan_wigner_interaction_op, jordan_wigner_one_body, jordan_wigner_two_body"]}
{"id": "C79", "title": "Operators as text", "statement": "str(op) passed to the constructor of the same class gives back op without the terms below 1e-8. A text with several bracketed terms is the sum of its terms. Words are exactly a letter and digits (qubit, Ising) or digits and an optional ^ (fermion). Anything else raises ValueError.", "quantifier": "every operator whose coefficients Python prints faithfully, and every text", "why_tests_cant": "tests parse a handful of texts; printing sorts, strips and cuts separators, and the sign and the j of a coefficient take different branches", "anchors": ["src/python/zquantum/core/openfermion/ops/operators/symbolic_operator.py: SymbolicOperator.__init__, _long_string_init, _parse_string, __str__"]}
{"id": "C80", "title": "Commutators", "statement": "commutator and anticommutator of two operators act as AB - BA and AB + BA; the commutator of qubit operators has only zero coefficients exactly when the operators commute; operands of different classes raise TypeError. double_commutator is the normal ordered form of [A, [B, C]], and the shortcut for hopping operators gives the same coefficients as the general computation.", "quantifier": "all qubit, Ising and fermion operators, and all pairs of hopping operators with any overlap of their indices", "why_tests_cant": "the operators have any number of terms; tests compare single products", "anchors": ["src/python/zquantum/core/openfermion/utils/commutators.py: commutator, anticommutator, double_commutator"]}
{"id": "C81", "title": "Particle number and spin", "statement": "is_two_body_number_conserving accepts an operator exactly when each product has 0, 2 or 4 factors, as many creation as annihilation operators and, with the spin check, as many on even and on odd modes; accepted operators commute with the particle number (and with the spin). number_operator and get_fermion_number_operator count the occupied modes (minus the given number of particles).", "quantifier": "all fermion operators and numbers of modes", "why_tests_cant": "tests evaluate the check on single products; conservation is a statement about all states", "anchors": ["src/python/zquantum/core/openfermion/ops/operators/fermion_operator.py: FermionOperator.is_two_body_number_conserving", "src/python/zquantum/core/openfermion/hamiltonians/special_operators.py: number_operator", "src/python/zquantum/core/openfermion/zapata_utils/_utils.py: get_fermion_number_operator"]}
{"id": "C82", "title": "Norms of operators", "statement": "induced_norm is homogeneous, never negative, and zero only for operators with zero coefficients; 2^n times the square of the norm of order two is the squared Frobenius norm of the operator's matrix. renormalize keeps the terms and makes the norm one, and raises ZeroDivisionError for norms up to 1e-8. is_identity accepts exactly the nonzero multiples of the identity among operators without zero coefficients.", "quantifier": "all operators, coefficients, positive orders and register sizes", "why_tests_cant": "the relation to the matrix ranges over all register sizes and operators", "anchors": ["src/python/zquantum/core/openfermion/ops/operators/symbolic_operator.py: SymbolicOperator.induced_norm", "src/python/zquantum/core/openfermion/ops/operators/qubit_operator.py: QubitOperator.renormalize", "src/python/zquantum/core/openfermion/utils/operator_utils.py: is_identity"]}
{"id": "C83", "title": "Equality of gates and circuits", "statement": "Comparing gates, custom definitions, operations and circuits with == is reflexive and symmetric. Equal gates have the same name, number of qubits and, position by position, parameters that agree up to 1e-8; equal circuits also have the same register size and the same qubits per operation. Equal circuits of built-in gates with real parameters prepare, from every initial state, states that differ by at most 3e-8 times the sum of 2^k over the operations. Equal definitions have matrices of the same shape with entries that agree up to 1e-8.", "quantifier": "all gates (any nesting of controls and daggers), all custom definitions, all circuits of any length and register size, all values of the symbols and all initial states", "why_tests_cant": "tests compare pairs of gates that are identical or far apart; the relation to the prepared states ranges over all circuits and states", "anchors": ["src/python/zquantum/core/circuits/_gates.py: MatrixFactoryGate.__eq__, CustomGateMatrixFactory.__eq__, CustomGateDefinition.__eq__, _are_matrix_elements_equal, _are_matrices_equal", "src/python/zquantum/core/circuits/_circuit.py: Circuit.__eq__"]}
{"id": "C84", "title": "Saving and loading optimization results", "statement": "Results saved with save_optimization_results are loaded by load_optimization_results as an OptimizeResult with the same items: numbers, strings, lists, arrays (with their shape and complex parts), value estimates, history entries with and without artifacts, nested results and measurement outcome distributions, nested to any depth; tuples come back as lists. Saving the same results again writes the same file.", "quantifier": "all results, with values nested to any depth, arrays of every shape and distributions of any size", "why_tests_cant": "tests save a handful of results; how a dictionary is read back depends on all of its keys and values", "anchors": ["src/python/zquantum/core/serialization.py: preprocess, OrquestraEncoder, OrquestraDecoder.object_hook, has_numerical_values, save_optimization_results, load_optimization_results"]}
{"id": "C85", "title": "Unitary coupled cluster generators", "statement": "The generator built from single and double excitation amplitudes is anti-Hermitian whenever the amplitudes are real (so its exponential is unitary), conserves the particle number, and acts as the sum over the amplitudes of each excitation minus its conjugate; giving arrays instead of lists makes the same generator. The singlet generator built from packed amplitudes acts as documented on the singlet excitations from occupied to virtual orbitals, conserves the particle number, the z component and the square of the total spin, fails exactly when the number of qubits is odd or there are too few amplitudes, and the number of amplitudes it needs is the one given by uccsd_singlet_paramsize and returned by uccsd_singlet_get_packed_amplitudes.", "quantifier": "all lists and arrays of amplitudes, all numbers of qubits and electrons", "why_tests_cant": "tests compare a generator or two with a stored operator; anti-Hermiticity and spin conservation are statements about every amplitude and every state", "anchors": ["src/python/zquantum/core/openfermion/circuits/unitary_cc.py: uccsd_generator, uccsd_convert_amplitude_format, uccsd_singlet_paramsize, uccsd_singlet_get_packed_amplitudes, uccsd_singlet_generator"]}
{"id": "C86", "title": "Checking and comparing unitary matrices", "statement": "is_identity and is_unitary reject a matrix that is not square, accept every identity (unitary) matrix, and accept only matrices that are within the given tolerance of one; compare_unitary returns True for two unitaries that differ by a global phase, and True only if there is a phase such that all entries agree up to a small multiple of the tolerance; for any two unitaries of the same size it returns True or False.", "quantifier": "all square matrices of every size, all tolerances", "why_tests_cant": "tests use a few 2x2 matrices and never two unitaries whose first columns are orthogonal", "anchors": ["src/python/zquantum/core/utils.py: is_identity, is_unitary, compare_unitary"]}
{"id": "C87", "title": "Reduced density matrices and expectation values", "statement": "If the arrays of an InteractionRDM are the one- and two-body reduced density matrices of a state with a definite number of particles, then expectation of a qubit operator is the expectation value of that operator in the state, and it fails exactly when a Pauli string is no combination of products of at most four ladder operators; expectation of an interaction operator of the same dimension is its expectation value. get_interaction_rdm of the expectation values of all Pauli strings returns the reduced density matrices of the state. hf_rdm returns those of the determinant that fills the lowest alpha and beta orbitals. get_expectation_values_from_rdms returns one value for each term, in the order of the terms (or by decreasing coefficient).", "quantifier": "all states (as linear functionals), all qubit and interaction operators, all numbers of orbitals and electrons", "why_tests_cant": "tests compare energies of two molecules read from files; every state and every operator is beyond them", "anchors": ["src/python/zquantum/core/openfermion/ops/representations/interaction_rdm.py: InteractionRDM, expectation, get_qubit_expectations", "src/python/zquantum/core/openfermion/measurements/get_interaction_rdm.py: get_interaction_rdm", "src/python/zquantum/core/openfermion/zapata_utils/_utils.py: hf_rdm", "src/python/zquantum/core/hamiltonian.py: get_expectation_values_from_rdms, get_expectation_values_from_rdms_for_qubitoperator_list"]}
{"id": "C88", "title": "Molecular Hamiltonians, active spaces and reduced Hamiltonians", "statement": "get_molecular_hamiltonian returns the electronic structure Hamiltonian of the molecule's integrals (entries below 1e-8 dropped): every electron keeps its spin, so the operator conserves the number of electrons and the total spin. For an active space (two-electron integrals symmetric under exchange of the electrons, active orbitals in increasing order, core and active orbitals disjoint), the matrix elements of the returned Hamiltonian are those of the molecule's Hamiltonian between states in which the core orbitals are full and the remaining orbitals empty. Missing or empty active indices, indices out of range and missing integrals raise errors. make_reduced_hamiltonian returns an operator without one-body terms that acts on states of the given number of electrons as the original one; for one electron it raises ZeroDivisionError. antisymtei is antisymmetric and describes the same interaction up to a factor -2; the core energy is twice the one-electron energies plus twice the Coulomb minus the exchange matrix.", "quantifier": "all numbers of orbitals, all real integrals, all lists of core and active orbitals, all occupation number states, all numbers of electrons", "why_tests_cant": "tests compare a few energies of molecules read from files; every molecule and every active space is beyond them", "anchors": ["src/python/zquantum/core/openfermion/chem/molecular_data.py: MolecularData.get_molecular_hamiltonian, get_active_space_integrals, get_integrals, spinorb_from_spatial, antisymtei, j_mat, k_mat", "src/python/zquantum/core/openfermion/ops/representations/interaction_operator.py: get_tensors_from_integrals, get_active_space_integrals", "src/python/zquantum/core/openfermion/chem/reduced_hamiltonian.py: make_reduced_hamiltonian"]}
{"id": "C89", "title": "Iteration up to symmetry, projection and basis rotation of interaction operators", "statement": "unique_iter yields the constant if it is not zero, one of each pair of one-body terms with exchanged indices and exactly one two-body term of each symmetry class named in its documentation that has a coefficient different from zero; an operator whose arrays have the documented symmetry is determined by the yielded terms and their coefficients. projected keeps exactly the terms with at most (exactly) the given number of different modes, or on modes from (exactly) the given ones; the exact projections add up to the operator, and a mode that does not exist raises IndexError. rotate_basis replaces every ladder operator by that of the rotated basis and keeps the constant; for arrays over spin orbitals the matrix acts on both spins; rotating by R and then by S is rotating by RS, rotating by the inverse undoes it; for a unitary matrix the rotated ladder operators are again fermionic; the contraction of two arrays does not change under a real orthogonal matrix. Matrices of another dimension and arrays with more than 26 indices raise ValueError.", "quantifier": "all numbers of modes, all complex arrays, all selections, all square matrices", "why_tests_cant": "tests check single arrays of two to four modes; all arrays, selections and matrices are beyond them", "anchors": ["src/python/zquantum/core/openfermion/ops/representations/interaction_operator.py: InteractionOperator.unique_iter, zero, projected, with_function_applied_elementwise, _symmetric_two_body_terms", "src/python/zquantum/core/openfermion/ops/representations/polynomial_tensor.py: general_basis_change, PolynomialTensor.rotate_basis, projected_n_body_tensors"]}
{"id": "C90", "title": "Chemist ordering", "statement": "chemist_ordered accepts exactly the fermion operators whose terms have at most four factors and conserve the particle number; the others raise TypeError. The result has only terms of the forms 1, a†_p a_q and a†_p a_q a†_r a_s, no term twice, and is the same operator on Fock space.", "quantifier": "all fermion operators; for the same action, coefficients on a grid coarser than the comparison tolerance", "why_tests_cant": "tests check single operators and random ones of a fixed number of modes; the reordering has to be right for every operator", "anchors": ["src/python/zquantum/core/openfermion/transforms/opconversions/term_reordering.py: chemist_ordered"]}
{"id": "C91", "title": "Sparse matrices in a symmetry sector", "statement": "get_number_preserving_sparse_operator returns the matrix of the operator between the determinants with the particle number of the reference (with spin_preserving: of each spin) that differ from it by at most the given number of excitations; every such determinant is one basis state, the reference is the first. For an operator that conserves the particle number on existing modes a matrix is returned, with elements that lead out of the space left out. Operators that do not conserve the particle number raise ValueError, modes that do not exist and negative excitation levels IndexError.", "quantifier": "all fermion operators, numbers of modes and electrons, references, excitation levels and flags", "why_tests_cant": "tests compare eigenvalues of single Hamiltonians; sectors, references and signs for all operators are beyond them", "anchors": ["src/python/zquantum/core/openfermion/linalg/sparse_tools.py: get_number_preserving_sparse_operator, _iterate_basis_, _iterate_basis_order_, _iterate_basis_spin_order_, _build_term_op_"]}
{"id": "C92", "title": "Direct Bravyi-Kitaev transform of interaction operators", "statement": "bravyi_kitaev of an InteractionOperator with Hermitian arrays returns a qubit operator that, between Bravyi-Kitaev encodings of occupation-number states, has exactly the matrix elements of the operator of the arrays, and so the same coefficients as converting the arrays to a fermion operator and transforming that; the result does not depend on the order in which sets of qubits are iterated over. Asking for fewer qubits than orbitals raises ValueError, for more IndexError.", "quantifier": "every number of orbitals, constant, one-body and two-body array", "why_tests_cant": "the transform has eleven closed formulas chosen by the parities of the two modes and their positions in the Fenwick tree, and sums over pairs, triples and quadruples of modes; tests compare a few small molecules", "anchors": ["src/python/zquantum/core/openfermion/transforms/opconversions/bravyi_kitaev.py: _bravyi_kitaev_interaction_operator, _seeley_richard_love, _two_body_coef, _hermitian_one_body_product, _qubit_operator_creation"]}
{"id": "C93", "title": "Ground states with a given number of particles and their density matrices", "statement": "For a Hermitian matrix of n qubits and k <= n particles, jw_get_ground_state_at_particle_number returns a normalised state whose only nonzero amplitudes have k occupied modes, together with its energy; no state with k particles has a lower energy, and if the matrix conserves the number of particles the state is an eigenstate. get_ground_state_rdm_from_qubit_op returns exactly the one- and two-body reduced density matrices of such a state, for all index combinations, so that expectation values computed from them, of the operator itself or of an interaction operator with the same matrix, are the ground state energy. More particles than qubits raise IndexError, a negative number ValueError.", "quantifier": "every number of qubits, Hermitian operator and particle number, and every eigensolver that returns a lowest eigenpair", "why_tests_cant": "two-body entries are filled in from a quarter of the index combinations by symmetry, and the state is scattered back from the sector with an index list built elsewhere; tests check energies of a few molecules", "anchors": ["src/python/zquantum/core/openfermion/linalg/sparse_tools.py: jw_get_ground_state_at_particle_number, jw_number_restrict_operator, jw_number_indices", "src/python/zquantum/core/openfermion/zapata_utils/_utils.py: get_ground_state_rdm_from_qubit_op", "src/python/zquantum/core/openfermion/ops/representations/interaction_rdm.py: InteractionRDM.expectation"]}
{"id": "C94", "title": "Matrices and spectra of operators", "statement": "eigenspectrum returns the eigenvalues of the operator's matrix with their multiplicities, 2^n numbers in increasing order (by real, then imaginary part), for every qubit operator and fermion operator and every n that covers its modes; the eigenvalues of a Hermitian operator are real. A fermion operator, its Jordan-Wigner transform and its Bravyi-Kitaev transform have the same spectrum, and the sparse matrices of the first two are equal. Too few qubits raise an error, and so do objects of other types.", "quantifier": "every operator and number of qubits, and every eigenvalue routine that returns the roots of the characteristic polynomial in some order", "why_tests_cant": "the routine is chosen by a tolerance test and the transforms permute the basis; tests compare spectra of a few molecules", "anchors": ["src/python/zquantum/core/openfermion/linalg/sparse_tools.py: get_sparse_operator, eigenspectrum, sparse_eigenspectrum, jordan_wigner_sparse, qubit_operator_sparse", "src/python/zquantum/core/openfermion/utils/operator_utils.py: is_hermitian", "src/python/zquantum/core/openfermion/transforms/opconversions/bravyi_kitaev.py: bravyi_kitaev"]}
{"id": "C95", "title": "Removing inactive orbitals", "statement": "remove_inactive_orbitals(H, n_active, n_core) returns the interaction operator on the 2 n_active spin orbitals after the first 2 n_core, in their order: its matrix elements between two occupations of the active orbitals are those of H between the states with the core filled, these occupations, and everything else empty. It never fails on an interaction operator.", "quantifier": "every interaction operator, n_active (or None) and n_core", "why_tests_cant": "freezing renumbers modes, changes signs and converts to and from fermion operators; tests compare the energies of two molecules", "anchors": ["src/python/zquantum/core/openfermion/zapata_utils/_utils.py: remove_inactive_orbitals", "src/python/zquantum/core/openfermion/transforms/repconversions/operator_tapering.py: freeze_orbitals, prune_unused_indices", "src/python/zquantum/core/openfermion/transforms/opconversions/conversions.py: get_fermion_operator", "src/python/zquantum/core/openfermion/transforms/repconversions/conversions.py: get_interaction_operator"]}
{"id": "C96", "title": "Operators in files", "statement": "After any sequence of save_operator calls, load_operator returns for every file the operator of the last call that saved to it (same class and coefficients, without those below 1e-8), in both formats. A file is not overwritten unless allow_overwrite is set; a call that raises an exception changes no file; a call changes no other file. Two names in a directory mean the same file exactly when they differ by the ending .data only.", "quantifier": "every sequence of calls, every fermion and qubit operator, all names and directories, both formats", "why_tests_cant": "the property ranges over histories of calls and over all operators; tests save and load one operator", "anchors": ["src/python/zquantum/core/openfermion/utils/operator_utils.py: get_file_path, save_operator, load_operator"]}
{"id": "C97", "title": "Objects in JSON files", "statement": "After any sequence of calls of the save functions, the load function of the kind returns for every file the object saved to it last: value estimates, lists, arrays, numbers of measurements, parities, expectation values, wavefunctions, measurements, circuit layers, orderings and connectivities, interaction operators, reduced density matrices, qubit and Ising operators and sets of them; dictionaries, timings and parameter grids are written entry by entry. A call changes no file but the one it names.", "quantifier": "every sequence of save calls on any paths, every object of each kind", "why_tests_cant": "the property ranges over histories of calls and over all objects; tests save and load one object of each kind", "anchors": ["src/python/zquantum/core/utils.py: save_value_estimate, load_value_estimate, save_list, load_list, save_generic_dict, save_timing, save_nmeas_estimate, load_nmeas_estimate", "src/python/zquantum/core/serialization.py: save_array, load_array, ensure_open", "src/python/zquantum/core/measurement.py: save_parities, load_parities, save_expectation_values, load_expectation_values, save_wavefunction, load_wavefunction, Measurements.save, Measurements.load_from_file", "src/python/zquantum/core/circuits/layouts.py: save_circuit_layers, load_circuit_layers, save_circuit_ordering, load_circuit_ordering, save_circuit_connectivity, load_circuit_connectivity", "src/python/zquantum/core/openfermion/zapata_utils/_io.py: save_interaction_operator, load_interaction_operator, save_interaction_rdm, load_interaction_rdm, save_qubit_operator, load_qubit_operator, save_qubit_operator_set, load_qubit_operator_set, save_ising_operator, load_ising_operator, save_parameter_grid_evaluation"]}
{"id": "C98", "title": "Molecules in files", "statement": "Opening the file of a molecule gives the attributes the molecule had when it was last saved to it, whatever the program did with other attributes, objects and files in between; attributes loaded on demand have the value last assigned. save changes no other file and, when it raises an exception, no file; wherever save is stopped, the old or the new content is on disk. A molecule that was loaded can be saved again.", "quantifier": "every program with any number of molecules and files, every attribute value, every point at which save is stopped", "why_tests_cant": "the property ranges over histories of several objects that share files, and over crash points; tests save and load one molecule", "anchors": ["src/python/zquantum/core/openfermion/chem/molecular_data.py: MolecularData.__init__, init_lazy_properties, save, load, get_from_file and the property getters and setters"]}
{"id": "C99", "title": "Names, electrons and Hamiltonians of molecules", "statement": "The name of a molecule does not depend on the order of its atoms, and two molecules with the same name have the same formula. The number of electrons is the sum of the atomic numbers less the charge; the numbers of spin up and spin down electrons add up to it and differ by the multiplicity less one. load_molecular_hamiltonian with active electrons and orbitals has the matrix elements of the whole Hamiltonian over a full core. get_molecular_data gives back the molecule whose Hamiltonian it is applied to.", "quantifier": "every list of atoms, charge, multiplicity, basis, description, every order in which a set is iterated; all integrals and active spaces", "why_tests_cant": "the property ranges over all molecules and all integrals; tests compare a few names and molecules", "anchors": ["src/python/zquantum/core/openfermion/chem/molecular_data.py: name_molecule, MolecularData.__init__, get_n_alpha_electrons, get_n_beta_electrons, load_molecular_hamiltonian", "src/python/zquantum/core/openfermion/transforms/repconversions/conversions.py: get_molecular_data"]}
{"id": "C100", "title": "Attributes pass through wrappers", "statement": "After any history of assignments, an attribute assigned on a function through recorders, gradients and augmentations is what the wrapper then reads; it reaches the wrapped function unless a layer has it itself; no other attribute of any object changes; a recorder reads what its target reads except for its own five attributes.", "quantifier": "every stack of wrappers, every attribute name not used by a wrapper class, every history of assignments on any objects", "why_tests_cant": "histories and nestings are unbounded; tests set one attribute on one wrapper", "anchors": ["src/python/zquantum/core/interfaces/functions.py: FunctionWithGradient, FunctionWithGradientStoringArtifacts, function_with_gradient, has_store_artifact_param", "src/python/zquantum/core/history/recorder.py: SimpleRecorder, ArtifactRecorder, recorder", "src/python/zquantum/core/cost_function_augmentations.py: _AttributePropagatingWrapper, augment_cost_function, ConditionalSideEffect"]}
{"id": "C101", "title": "Wrapped functions can be called", "statement": "A function wrapped by gradients, recorders and loggers in any order can be called with its parameters, and the call reaches the function; a recorder around it collects the artifacts the function stores.", "quantifier": "every order and number of layers, functions and callable objects, storing artifacts or not", "why_tests_cant": "the number of orders of layers is unbounded; tests use one or two layers", "anchors": ["src/python/zquantum/core/interfaces/functions.py: FunctionWithGradient, FunctionWithGradientStoringArtifacts, function_with_gradient, has_store_artifact_param", "src/python/zquantum/core/history/recorder.py: SimpleRecorder, ArtifactRecorder, recorder", "src/python/zquantum/core/cost_function_augmentations.py: _AttributePropagatingWrapper, augment_cost_function, ConditionalSideEffect"]}
{"id": "C102", "title": "Trotter error", "statement": "For an operator with real coefficients and a real time, the circuit of time_evolution with order k differs from exp(-i t H), up to a global phase, by at most (|t| L)^2/k * exp(|t| L/k) in operator norm, L being the sum of the moduli of the coefficients; hence the probability of every outcome, from every state, converges to the exact one as the order grows.", "quantifier": "all real operators, times, orders, registers, states and outcomes", "why_tests_cant": "a bound for all operators and a limit in the order", "anchors": ["src/python/zquantum/core/evolution.py: time_evolution"]}
{"id": "C103", "title": "Estimates from measurements are unbiased, with known variance", "statement": "If the backend returns independent samples distributed by Born's rule, then for tasks of Z products with real coefficients the sum of the values returned by estimate_expectation_values_by_averaging has mean the sum of the exact expectation values and variance the sum over the tasks of Var(operator)/shots, and is off by delta or more with probability at most that variance over delta squared. Grouping an operator (greedily or term by term), allocating s shots uniformly, selecting contexts and averaging never fails, has mean <psi|H|psi> and variance the sum of the groups' variances over s. The square of the precision reported for a task has mean Var/m with Bessel's correction and (m-1)/m times that without it, as in estimation by averaging.", "quantifier": "all real operators, unitary circuits, numbers of shots, sortings, probability spaces and backends", "why_tests_cant": "a statement about means and variances over all random outcomes", "anchors": ["src/python/zquantum/core/estimation/_estimation.py: estimate_expectation_values_by_averaging, perform_context_selection, group_greedily, group_individually, allocate_shots_uniformly", "src/python/zquantum/core/measurement.py: Measurements.get_expectation_values", "src/python/zquantum/core/cost_function.py: sum_expectation_values"]}
{"id": "C104", "title": "Measurement budgets suffice and are minimal", "statement": "If every frame gets at least frame_meas/eps^2 shots, as recommended by estimate_nmeas_for_frames without prior knowledge or from the true expectation values, then the variance of the estimated energy is at most eps^2 in every state; no allocation with the same accuracy (by the estimated variances) needs fewer than K2/eps^2 shots; proportional allocation of a total is within a factor kappa/(kappa-1) of the best one if every share is at least kappa shots; no task is left out.", "quantifier": "all real operators, groupings, states, accuracies, totals and competing allocations", "why_tests_cant": "an optimality claim against all allocations and a bound in all states", "anchors": ["src/python/zquantum/core/hamiltonian.py: estimate_nmeas_for_frames, compute_group_variances", "src/python/zquantum/core/estimation/_estimation.py: allocate_shots_proportionally, perform_context_selection, estimate_expectation_values_by_averaging"]}
{"id": "C105", "title": "The simulator measures by Born's rule, independently", "statement": "SymbolicSimulator returns as many bitstrings as asked for; each is x with probability |psi(x)|^2 in the state psi of its circuit, and all bitstrings of all runs are independent, so an energy estimated on the simulator has mean <psi|H|psi> and the variance of independent measurements.", "quantifier": "all unitary circuits, lists of circuits, numbers of shots, histories and random numbers", "why_tests_cant": "a statement about probability distributions over all random streams and all histories", "anchors": ["src/python/zquantum/core/symbolic_simulator.py: SymbolicSimulator.run_circuit_and_measure, SymbolicSimulator.__init__", "src/python/zquantum/core/measurement.py: sample_from_wavefunction", "src/python/zquantum/core/interfaces/backend.py: QuantumBackend.run_circuitset_and_measure", "src/python/zquantum/core/estimation/_estimation.py: estimate_expectation_values_by_averaging"]}
{"id": "C106", "title": "Operators behave like values", "statement": "Evaluating an expression of operators never changes an operator that exists and gives a new one; an update in place changes only the operator it is applied to; so programs compute what they compute when variables hold values and x op= y means x = x op y. A loop over an operator visits each of its terms once, whatever else happens.", "quantifier": "all programs of assignments, expressions, updates in place and iterations, all operators and all histories", "why_tests_cant": "aliasing and leftover iterators depend on the whole history of a program", "anchors": ["src/python/zquantum/core/openfermion/ops/operators/symbolic_operator.py: SymbolicOperator.__add__, __iadd__, __sub__, __isub__, __rsub__, __mul__, __imul__, __truediv__, __itruediv__, __neg__, __pow__, __iter__, __next__"]}
{"id": "C107", "title": "Random graphs", "statement": "Each generator returns a graph of its family on the nodes 0, 1, …, without loops, whose edges all have a weight from the sampler. generate_random_graph_erdos_renyi(n, p) returns each graph with n nodes and m edges with probability p^m (1-p)^(n(n-1)/2-m), so graphs with equally many edges are equally likely, and random weights are independent of each other and of the graph. The same seed gives the same weighted graph. generate_graph_from_specs returns the graph its keys describe.", "quantifier": "all sizes, probabilities, samplers, seeds, states of the random module and specs", "why_tests_cant": "distributions cannot be read off samples, and the sizes are unbounded", "anchors": ["src/python/zquantum/core/graph.py: uniform_sampler, constant_sampler, choice_sampler, normal_sampler, generate_random_graph_erdos_renyi, generate_random_regular_graph, generate_caveman_graph, generate_ladder_graph, generate_barbell_graph, _weight_graph_edges, generate_graph_from_specs"]}
{"id": "C108", "title": "Objects created from specifications", "statement": "create_object(specs, **kwargs) finds specs['function_name'] in specs['module_name'] and leaves specs unchanged. A class is called once, with exactly the remaining parameters of specs and kwargs by name. For a function the result is a callable: a call with positional and keyword arguments gives each parameter the value from the call, else from specs or kwargs, else its default, and is rejected exactly if Python would reject it. Parameters the function does not name are ignored. A parameter in both specs and kwargs is a ValueError. A noise model saved with save_noise_model is loaded by calling the named function with the saved data.", "quantifier": "all specs, keyword arguments, modules, function signatures and later calls", "why_tests_cant": "the created callable is used later with arbitrary arguments; tests call one function with one set of arguments", "anchors": ["src/python/zquantum/core/utils.py: create_object, get_func_from_specs, load_from_specs, load_noise_model, save_noise_model"]}
{"id": "C109", "title": "Workflow steps and their specifications", "statement": "A measuring step creates its backend from backend_specs with the noise model and connectivity it is given, and wraps it for tracking iff track_measurements is set, with the named file and flag. The optimization step gives a QAOA ansatz the target operator of the call; the evaluation step gives the cost function the estimation method, operator, ansatz, backend and preprocessors of the call. Preprocessors without a parameter prior_expectation_values ignore it. Steps do not depend on earlier steps called with the same dictionaries.", "quantifier": "all specifications, classes, constructors, and all sequences of calls sharing dictionaries", "why_tests_cant": "a step assigns to the dictionaries it is given, so what it does depends on the history of calls; tests call each step once with a fresh dictionary", "anchors": ["steps/measure.py: run_circuit_and_measure, run_circuitset_and_measure, get_bitstring_distribution, evaluate_ansatz_based_cost_function, get_summed_expectation_values", "steps/optimize.py: optimize_parametrized_circuit_for_ground_state_of_operator, optimize_ansatz_based_cost_function", "steps/evaluation.py: get_expectation_values_for_qubit_operator", "steps/circuit.py: evaluate_parametrized_circuit", "src/python/zquantum/core/trackers.py: MeasurementTrackingBackend"]}
{"id": "C110", "title": "Operators made by workflow steps", "statement": "get_one_qubit_hydrogen_hamiltonian saves, for a Hermitian interaction operator, the one-qubit operator whose 2 x 2 matrix is the matrix of the operator on the span of the configurations with modes 0 and 1 occupied and with modes 2 and 3 occupied; if the operator keeps that span, eigenvectors of the one-qubit operator are eigenvectors of the operator with the same eigenvalue. get_local_zero_state_operator(n), n >= 1, is diagonal and its value on a computational basis state is twice the fraction of ones, so it is zero on the zero state only. interpolate_qubit_operators(ref, target, eps) is (1-eps) ref + eps target, rejected iff eps is outside [0, 1].", "quantifier": "all fermionic operators, numbers of qubits, pairs of qubit operators and weights", "why_tests_cant": "the matrix is computed by normal ordering a product with every term of an arbitrary operator and the number of qubits is unbounded; tests use one molecule and a few qubits", "anchors": ["steps/operators.py: get_one_qubit_hydrogen_hamiltonian, get_local_zero_state_operator, interpolate_qubit_operators"]}
{"id": "C111", "title": "Random operators and wavefunctions", "statement": "create_random_qubitop(n, k, seed) and create_random_isingop give a sum of k Pauli strings on qubits below n (only Z for Ising), each with the number of times it was drawn as coefficient, so at most k terms. generate_random_qubitop(n, k, l, c) gives k different strings that act on exactly l qubits, with coefficients within [-c, c], or all c if fixed; a locality above n is a ValueError. create_random_wavefunction gives a vector of 2^n amplitudes of norm 1. A seed makes the result repeatable.", "quantifier": "all sizes, seeds, and all sequences of random numbers a lawful generator can give", "why_tests_cant": "the loops retry until they find something new, so results and termination depend on the whole random sequence; tests look at a few seeds", "anchors": ["src/python/zquantum/core/testing/_initialize.py: create_random_qubitop, create_random_isingop, create_random_wavefunction", "src/python/zquantum/core/openfermion/zapata_utils/_utils.py: generate_random_qubitop"]}
{"id": "C112", "title": "Random circuits and steps that combine circuits", "statement": "create_random_circuit(n, k) gives a circuit on n qubits of exactly k gates, each one of the listed gates on distinct qubits below n with angles between -pi and pi; it has a unitary and survives saving and loading. concatenate_circuits joins the operations in order on the largest register, and load_circuit reads the result. batch_circuits saves the circuits of the set followed by the given circuits and leaves its arguments unchanged. generate_random_ansatz_params gives as many numbers as parameters, between the bounds, and a seed decides them.", "quantifier": "all sizes, random choices, lists of circuits, and lists that are the same object", "why_tests_cant": "results depend on the whole random sequence and on whether arguments are shared; tests use a few seeds and fresh lists", "anchors": ["src/python/zquantum/core/circuits/_testing.py: create_random_circuit", "steps/circuit.py: concatenate_circuits, batch_circuits, generate_random_ansatz_params, create_random_circuit", "src/python/zquantum/core/circuits/_serde.py: save_circuitset, load_circuit, load_circuitset"]}
{"id": "C113", "title": "Functions that also accept an old type", "statement": "compatible_with_old_type(old_type, translate, fallback, iterables) gives a decorator. Arguments, positional or by name, in which no old object is found are passed on unchanged; old objects in arguments and nested in the given sequence types are replaced by their translations, everything else stays as it is. If a translation raises any exception the function is not called, and the fallback is called with the original arguments, or TranslationFailed is raised; the fallback is called in no other case. Decorating twice is decorating once.", "quantifier": "all objects nested to any depth, translations, functions, fallbacks and effects", "why_tests_cant": "arguments nest without bound and functions have effects; tests decorate a few small functions", "anchors": ["src/python/zquantum/core/wip/compatibility_tools.py: compatible_with_old_type, _translate_if_needed, TranslationFailed"]}
{"id": "C114", "title": "Contracts that every estimator can be tested with", "statement": "The count contract accepts an estimator exactly if it returns one result per task; the order contract, for an estimator that does not depend on the past of the backend, exactly if each result of a list has the values of that task estimated alone; the coefficient and constant contracts exactly if the two results differ. Averaging with a seeded simulator treats every task by itself, for all lists of tasks, and meets the count, order and constant contracts for every seed; it meets the coefficient contract unless exactly half of the 10000 measurements are ones. Exact estimation meets all contracts. An estimator that ignores coefficients or constants, or permutes its results, is refused.", "quantifier": "all estimators, states of the backend, seeds and random numbers; for averaging all lists of tasks", "why_tests_cant": "a contract is run on one estimator and one seed; which estimators it accepts and refuses is a statement about all of them", "anchors": ["src/python/zquantum/core/interfaces/estimator_contract.py: ESTIMATOR_CONTRACTS", "src/python/zquantum/core/estimation/_estimation.py: estimate_expectation_values_by_averaging, calculate_exact_expectation_values", "src/python/zquantum/core/symbolic_simulator.py: SymbolicSimulator"]}
{"id": "C115", "title": "What a nested optimizer returns and does to the caller's parameters", "statement": "A nested optimization succeeds exactly if there is at least one round, all rounds succeed and, when the history is kept, no cost function with gradient follows one without. Its value and parameters are those of the last round, nit is the number of rounds, nfev the sum of the evaluations the inner optimizer reported, and the history has every evaluation of every round in order, or is empty if it is not kept; keeping it changes nothing else. Every round starts from the array the caller passed, in the state the round before left it, and not from the parameters found; the vector never becomes longer. The mock optimizer adds a new random number to each parameter in the caller's array in each round, unless the array has an integer type, where parameters that are not negative stay the same and each round brings negative ones 1 closer to 0. The nested optimizer of the library meets all nested optimizer contracts for every positive number of rounds.", "quantifier": "all inner optimizers, cost function factories with effects, numbers of rounds, arrays and random numbers", "why_tests_cant": "the number of rounds, the questions of the inner optimizer and the random numbers are unbounded, and the effect on the caller's array depends on all earlier rounds", "anchors": ["src/python/zquantum/core/interfaces/mock_objects.py: MockOptimizer, MockNestedOptimizer", "src/python/zquantum/core/interfaces/optimizer.py: NestedOptimizer.minimize, extend_histories", "src/python/zquantum/core/interfaces/optimizer_test.py: NESTED_OPTIMIZER_CONTRACTS"]}
{"id": "C116", "title": "Wavefunctions stay normalised in every program that writes to them", "statement": "In every program that makes arrays and wavefunctions, binds and flips them and shares the objects between variables, and that assigns to entries of wavefunctions with numbers or lists of numbers as index, each wavefunction has a power of two of amplitudes and is normalised (within the tolerance of numpy) at every moment, whatever else shares its memory: an assignment is accepted only if the wavefunction is normalised afterwards, and a rejected one changes no array at all. A wavefunction made from a complex array is a window on that array, one made from an array of real type or from a wavefunction has its own memory that no program can change unless it mentions the wavefunction, and so has a flipped one. Two wavefunctions of one size are equal exactly if all entries of what == returns are true; objects of other classes are different.", "quantifier": "all programs, memory contents, arrays, indices, and values", "why_tests_cant": "the number of statements and of variables that share memory is unbounded", "anchors": ["src/python/zquantum/core/wavefunction.py: Wavefunction.__init__, Wavefunction.__setitem__, Wavefunction.__getitem__, Wavefunction.amplitudes, Wavefunction.bind, Wavefunction.__eq__, flip_wavefunction"]}
{"id": "C117", "title": "The chemistry workflow ends with the ground state energy", "statement": "If a file holds a Hermitian interaction operator, transforming it with the Jordan-Wigner transformation and asking for the ground state at a number of particles writes files with the lowest energy of the stored operator among the states with that many particles, and with such a state (an eigenvector). Writing the reduced density matrices of the ground state of the transformed operator instead, grouping its terms, computing the expectation values of the terms of the groups from the density matrices and summing them up ends with the same energy, whatever the grouping.", "quantifier": "all files with Hermitian operators, numbers of orbitals, entries, numbers of particles and eigensolvers", "why_tests_cant": "numbers of orbitals and entries are unbounded, and the steps meet only through the files", "anchors": ["steps/transforms.py: transform_interaction_operator", "steps/evaluation.py: jw_get_ground_state_at_particle_number, get_ground_state_rdm_from_qubit_operator, evaluate_qubit_operator_list", "steps/operators.py: group_comeasureable_terms_greedy", "steps/measure.py: expectation_values_from_rdms_for_qubitoperator_list", "src/python/zquantum/core/openfermion/zapata_utils/_io.py: load_interaction_operator, save_qubit_operator, load_interaction_rdm"]}
{"id": "C118", "title": "Optimized costs never fall below the ground state energy", "statement": "Let a file hold a Hermitian interaction operator; transform it with the Jordan-Wigner step. For every circuit on the operator's qubits and every list of parameters, the value of the cost function made from the transformed operator with exact estimation is at least one of the values the ground state step writes for 0, 1, 2, ... particles, and at least the value for k particles whenever the state of the circuit has k particles. For every qubit operator with real coefficients the value lies between the first and the last number that eigenspectrum returns for it, and it is the first number exactly if the state of the circuit is an eigenvector for it.", "quantifier": "all stored Hermitian interaction operators of any size, all circuits (with any free symbols) and all real parameters, all particle numbers, all correct simulators and eigenvalue routines", "why_tests_cant": "A variational bound is a statement about all parameters of all circuits at once; a test evaluates a few points and cannot exclude a lower one.", "anchors": ["src/python/zquantum/core/cost_function.py:343-470 create_cost_function, expectation_value_estimation_tasks_factory", "src/python/zquantum/core/estimation/_estimation.py:364 calculate_exact_expectation_values", "steps/transforms.py", "steps/evaluation.py: jw_get_ground_state_at_particle_number", "src/python/zquantum/core/openfermion/linalg/sparse_tools.py:274-371 jw_get_ground_state_at_particle_number, eigenspectrum"]}
{"id": "C119", "title": "Optimization steps save what the optimizer found", "statement": "The two optimization steps (a parametrized circuit for the ground state of an operator, and a cost function based on an ansatz) run the given optimizer on the cost function of the loaded operator from the loaded initial parameters, with the loaded fixed parameters put first. An exception of the optimizer or the cost function is an exception of the step. Otherwise the result file loads back as the value, the parameters and the other items the optimizer reported, together with exactly the questions it asked and their answers, numbered in order, if the history is kept (the default for the circuit step only), and the parameter file can be given as initial or fixed parameters to the next step. No other file changes. With exact estimation the circuit step succeeds for every optimizer that asks about vectors of the right length; the saved value is the energy of the state the circuit makes at the saved parameters, all values of the history are energies as well, and for a transformed interaction operator none of them is below all the ground state energies the other step writes, nor below the energy for k particles if the circuit makes only states with k particles. Combining two files of parameters writes one after the other.", "quantifier": "every operator, circuit or ansatz, estimation method, preprocessors, gradient, optimizer (any program that asks for values and gradients), initial and fixed parameters, noise, file system", "why_tests_cant": "an optimizer is an arbitrary adaptive program; tests run one mock optimizer on one operator", "anchors": ["steps/optimize.py:26-138 optimize_parametrized_circuit_for_ground_state_of_operator", "steps/optimize.py:140-261 optimize_ansatz_based_cost_function", "steps/circuit.py:43-47 combine_ansatz_params", "src/python/zquantum/core/serialization.py:114-122 save_optimization_results, load_optimization_results", "src/python/zquantum/core/cost_function.py:58-165 get_ground_state_cost_function"]}
{"id": "C120", "title": "Circuits for Pauli strings act as the Pauli strings", "statement": "For every qubit operator, create_circuits_from_qubit_operator returns one circuit per term, in the order of the terms. Each has one gate per factor, uses the smallest register that holds the factors, and acts on every register that holds them as the Pauli string of the term (without its coefficient). So the operator is the sum of its coefficients times the circuits, and its expectation value in a state is the sum of the coefficients times the overlaps of the state with what the circuits make of it. The circuit of a constant term is empty, and asking it for its unitary raises TypeError.", "quantifier": "every qubit operator, register size, state and symbol values", "why_tests_cant": "a statement about the matrices of all Pauli strings on all registers", "anchors": ["src/python/zquantum/core/openfermion/zapata_utils/_utils.py:527-554 create_circuits_from_qubit_operator"]}
{"id": "C121", "title": "The analysis of a grouped operator reports the measurements it needs", "statement": "grouped_hamiltonian_analysis reads groups (and expectation values, if given) from files and writes the number of terms, the number of measurements of each group for precision 1 and their sum; nothing else changes. Without expectation values, the numbers are for the largest possible variances of the terms; with the expectation values of a state they are for the variances of the terms in this state, leaving out covariances. Expectation values that are not one per term or not between -1 and 1 raise ValueError. After group_hamiltonian, measuring each group at least as often as reported, times k/eps^2 for k the largest number of terms in a group, estimates the expectation value of the operator with variance at most eps^2 (the factor k is needed because covariances are left out). After the chain of steps from a fermionic operator to the expectation values of its ground state, the reported numbers are those for the variances in a state of lowest energy. get_decomposition_function gives the unsorted and sorted greedy grouping for their names and ValueError for others.", "quantifier": "every grouped operator, expectation values, file system, circuit, number of shots and outcome of the measurements", "why_tests_cant": "a statement about all operators and about the variance of random measurement outcomes", "anchors": ["steps/measure.py:254-297 grouped_hamiltonian_analysis", "src/python/zquantum/core/hamiltonian.py:101-131 get_decomposition_function"]}
{"id": "C122", "title": "Reordering modes is a unitary change, and the steps that rewrite operators write what they say", "statement": "reorder_fermionic_modes with an ordering that names each mode once (negative numbers count from the end) returns the operator up to the unitary that relabels the modes: mode i of the result is the mode that the i-th entry names. So the lowest energies at every number of particles stay the same. Entries that name no mode raise an IndexError. The step of the same name stores that operator; get_diagonal_component stores a diagonal operator and one without diagonal elements that add up to the given one; get_fermion_number_operator stores the operator that counts particles, minus the given number; remove_inactive_orbitals stores the operator of the active orbitals, also without a given number of core orbitals; create_one_qubit_operator stores xX + yY + zZ + c; concatenate_qubit_operator_lists stores the first list followed by the second. Other files do not change. Transforming and diagonalising the reordered operator gives the same value as transforming and diagonalising the stored one.", "quantifier": "every interaction operator, ordering, number of orbitals and of particles, and every file system", "why_tests_cant": "a statement about the operators and spectra of all interaction operators and all permutations of their modes", "anchors": ["src/python/zquantum/core/hamiltonian.py:305-336 reorder_fermionic_modes", "steps/operators.py:48-79,111-118,172-197,212-231"]}
{"id": "C123", "title": "What the graph steps store", "statement": "Each graph step (Erdos-Renyi, regular, complete, caveman, ladder, barbell, and graphs from specifications) writes a file from which load_graph makes a graph of that family on the nodes 0, 1, ... . The weight of each edge is one that the sampler named in the specifications can give, the same in both directions, and 1 without specifications. The order of the keys of the specifications does not matter. A missing value or missing choices are a TypeError and a missing module name a KeyError, before any graph is made; arguments that networkx refuses give an error and no file. With a seed the file depends on nothing else. Specifications with a parameter that the sampler does not have are refused.", "quantifier": "every family of graphs, size, specification of a sampler, seed and state of the generator of random numbers", "why_tests_cant": "a statement about the graphs in the files for all sizes, all dictionaries of specifications and all random numbers", "anchors": ["steps/graph.py:13-116", "src/python/zquantum/core/graph.py:75-97", "src/python/zquantum/core/utils.py:413 create_object"]}
{"id": "C124", "title": "Steps that build circuits store the circuit they say", "statement": "build_ansatz_circuit with parameters stores the circuit of the ansatz with the i-th parameter in place of the i-th symbol in natural order; a wrong number of parameters is a ValueError; without parameters it stores the circuit with its symbols, or fails if the ansatz has none. generate_random_ansatz_params with an ansatz stores as many numbers as the circuit has symbols, between the bounds, decided by the seed, so build_ansatz_circuit accepts them. create_random_circuit stores a circuit of exactly the gates asked for, decided by the seed. add_ancilla_register_to_circuit stores a circuit with the same operator on a larger register. build_circuit_layers_and_connectivity stores layers of disjoint pairs: for a chain each neighbouring pair once, for a grid eight layers that meet each pair twice; other kinds of layers and grids without a second dimension are errors. What is stored can be loaded, and no other file changes.", "quantifier": "every ansatz with any state, parameters, seed, circuit, number of ancilla qubits, dimensions and file system", "why_tests_cant": "a statement about the matrices of stored circuits for all ansatzes and parameters and about layers of all sizes", "anchors": ["steps/circuit.py:22-102", "src/python/zquantum/core/circuits/layouts.py:150-168"]}
{"id": "C125", "title": "Number and interaction operators of the multiband Hubbard model", "statement": "number_operator(i, c) multiplies each basis state by c times the number of particles in mode i, minus 1/2 with particle-hole symmetry. interaction_operator(i, j, c) multiplies it by c n_i n_j, or with particle-hole symmetry by c (n_i - 1/2)(n_j - 1/2), so that exchanging particles and holes does not change it, for i = j too, and it agrees with the repulsion of fermi_hubbard.", "quantifier": "all modes, coefficients and states, with and without particle-hole symmetry", "why_tests_cant": "a statement about operators on all states for all coefficients", "anchors": ["src/python/zquantum/core/openfermion/hamiltonians/general_hubbard.py:31-41 number_operator interaction_operator"]}
{"id": "C126", "title": "Geometries in text files, and units of length", "statement": "geometry_from_file gives the atoms of the file in the order of their lines: a line of four words is an atom with its coordinates whatever white space stands between the words, and every other line is left out. A line of four words whose last three are not numbers is a ValueError. A geometry written one atom on each line is read back unchanged. Changing angstroms to bohr and back, or bohr to angstroms and back, gives the same length up to the precision of a float.", "quantifier": "every text, every geometry and every length", "why_tests_cant": "a statement about all texts and all lengths", "anchors": ["src/python/zquantum/core/openfermion/chem/molecular_data.py:53-59 bohr_to_angstroms angstroms_to_bohr", "src/python/zquantum/core/openfermion/chem/molecular_data.py:303-324 geometry_from_file"]}
{"id": "C127", "title": "The example functions for recorders", "statement": "sum_of_squares is the sum of squares, never negative, and zero only at zero. The gradients of function_1, Function2 and Function5 are the derivatives of their values in each parameter; with too few parameters values and gradients raise IndexError. Function5 stores x + y exactly if x is positive. function_3 and function_4 return the double and store the binary digits of their argument, function_4 by force exactly for even arguments, so a recorder that saves every n-th call has exactly the calls whose number n divides and the calls with even arguments, each with its digits.", "quantifier": "all parameters, multipliers and sequences of calls", "why_tests_cant": "a statement about derivatives at all points and all histories of calls", "anchors": ["src/python/zquantum/core/history/example_functions.py:19-170", "src/python/zquantum/core/history/recorder.py"]}
{"id": "C128", "title": "The laws of operator arithmetic", "statement": "For qubit, Ising and fermion operators: identity() times an operator and an operator times identity() are that operator, term by term; an operator plus zero() is the operator, and zero() plus an operator equals it in the sense of ==, having lost only coefficients below 1e-8. Products are associative and distribute over sums exactly when the sum drops nothing. op ** 0 is the identity, op ** 1 the operator, op ** (m + n) the product of the powers and op ** (m n) the power of the power. Numbers multiply from both sides alike, move through products, and act like the operator with the number as its constant; dividing in place undoes multiplying and raises ZeroDivisionError for 0. Setting the constant changes that coefficient only.", "quantifier": "all operators of the three classes, all numbers and exponents", "why_tests_cant": "algebraic laws over all operators; tests check a few products", "anchors": ["src/python/zquantum/core/openfermion/ops/operators/symbolic_operator.py:307-334, 360-425, 520-612 constant zero identity __mul__ __rmul__ __itruediv__ __pow__", "src/python/zquantum/core/openfermion/ops/operators/qubit_operator.py: _simplify", "src/python/zquantum/core/openfermion/ops/operators/ising_operator.py: _simplify"]}
{"id": "C129", "title": "Measured outcome distributions approach the exact one", "statement": "On the simulator get_measurement_outcome_distribution(circuit, s) succeeds for every unitary circuit with at least one qubit and every s > 0, in every history and with or without a seed. The probability it reports for an outcome x is |psi(x)|^2 on average, with variance p(1-p)/s, and the reports for two outcomes have covariance -p_x p_y/s. evaluate_distribution_distance with compute_mmd between the exact distribution (no n_samples) and the measured one never fails for a positive bandwidth; its mean is (1 - sum_xy p_x p_y K(x,y))/s, at most 1/s, so it is at least delta with probability at most 1/(s delta). With a seed every call reports the same distribution.", "quantifier": "all unitary circuits, numbers of samples, seeds, histories of the simulator, outcomes, bandwidths and errors delta; all random numbers that are uniform and independent", "why_tests_cant": "a test sees one random distribution and must accept any value within a tolerance it made up; means, variances and probabilities range over all random numbers", "anchors": ["src/python/zquantum/core/interfaces/backend.py:QuantumSimulator.get_measurement_outcome_distribution", "src/python/zquantum/core/interfaces/backend.py:QuantumBackend.get_measurement_outcome_distribution", "src/python/zquantum/core/measurement.py:Measurements.get_distribution", "src/python/zquantum/core/distribution/mmd.py:compute_mmd", "src/python/zquantum/core/symbolic_simulator.py:SymbolicSimulator"]}
{"id": "C130", "title": "How well samples represent a distribution", "statement": "Measurements.get_measurements_representing_distribution(d, n) returns n measurements that resemble d exactly, or as closely as possible: if n p is a whole number for each outcome, each occurs exactly n p times; otherwise no n samples are nearer to n p.", "quantifier": "all distributions, numbers of samples and random draws", "why_tests_cant": "the draws that correct the number of samples are random; a test sees one of them", "anchors": ["src/python/zquantum/core/measurement.py:Measurements.get_measurements_representing_distribution", "src/python/zquantum/core/measurement.py:_check_sample_elimination", "src/python/zquantum/core/utils.py:sample_from_probability_distribution"]}
{"id": "C131", "title": "Distances are smallest for equal distributions", "statement": "The clipped negative log likelihood of a target and a measured distribution, and their Jensen-Shannon divergence, are smallest when the measured distribution is the target; otherwise a distribution is reported as nearer to the target than the target itself.", "quantifier": "all pairs of normalised distributions, all positive values of epsilon and all orders of iteration", "why_tests_cant": "it compares the target with every other distribution", "anchors": ["src/python/zquantum/core/distribution/clipped_negative_log_likelihood.py:compute_clipped_negative_log_likelihood", "src/python/zquantum/core/distribution/jensen_shannon_divergence.py:compute_jensen_shannon_divergence"]}
{"id": "C132", "title": "What a molecule hands out, and what that does to its data", "statement": "The methods of MolecularData that hand out integrals, active spaces, Hamiltonians, density matrices, Coulomb, exchange and antisymmetrized integrals return the values that belong to the molecule's present data. Calling them changes neither the molecule nor its file nor earlier results, and updating a result in place is not seen by the molecule, its file or other results.", "quantifier": "all sequences of calls, in-place updates of results, saving and reopening, and all data", "why_tests_cant": "sharing shows only in histories with a particular order of calls and updates", "anchors": ["src/python/zquantum/core/openfermion/chem/molecular_data.py:MolecularData.get_integrals", "src/python/zquantum/core/openfermion/chem/molecular_data.py:MolecularData.get_active_space_integrals", "src/python/zquantum/core/openfermion/chem/molecular_data.py:MolecularData.get_molecular_hamiltonian", "src/python/zquantum/core/openfermion/chem/molecular_data.py:MolecularData.get_molecular_rdm", "src/python/zquantum/core/openfermion/chem/molecular_data.py:MolecularData.get_j", "src/python/zquantum/core/openfermion/chem/molecular_data.py:MolecularData.get_k", "src/python/zquantum/core/openfermion/chem/molecular_data.py:MolecularData.get_antisym"]}
{"id": "C133", "title": "Likelihoods and divergences of measured distributions", "statement": "With a simulator whose random numbers are uniform and independent, the clipped negative log likelihood of a measured distribution under a fixed distribution is on average that of the exact distribution, with variance at most log(eps)^2/(4s); the clipped negative log likelihood of a fixed target under a measured distribution has mean square distance at most 1/(4 eps^2 s) from the one under the exact distribution; and the Jensen-Shannon divergence between the exact and a measured distribution approaches its value for the exact distribution and itself, the clipped entropy of the circuit, with mean square distance at most (1/eps^2 + log(eps)^2)/(8s), where s is the number of samples and eps the clipping parameter.", "quantifier": "all circuits of unitary gates, numbers of samples, seeds, histories of the simulator, clipping parameters and fixed distributions", "why_tests_cant": "statements about all random streams and about averages; a run of a test sees one stream", "anchors": ["src/python/zquantum/core/distribution/clipped_negative_log_likelihood.py:compute_clipped_negative_log_likelihood", "src/python/zquantum/core/distribution/jensen_shannon_divergence.py:compute_jensen_shannon_divergence", "src/python/zquantum/core/distribution/_measurement_outcome_distribution.py:evaluate_distribution_distance", "src/python/zquantum/core/interfaces/backend.py:QuantumSimulator.get_measurement_outcome_distribution"]}
{"id": "C134", "title": "Three ways to the ground state energy", "statement": "For the matrix of a Hermitian operator on at least one qubit, get_ground_state returns a lowest eigenvalue and a normalised eigenvector, in the order of the basis states; no state has a lower energy. jw_get_ground_state_at_particle_number never returns a lower energy, and if the operator conserves the number of particles one of the particle numbers gives exactly this energy. It is the first entry of eigenspectrum. A fermion operator whose coefficients are multiples of a step above 1e-8 and its Jordan-Wigner and Bravyi-Kitaev transforms have the same ground state energy.", "quantifier": "all Hermitian operators and numbers of qubits, and all eigensolvers that return a lowest eigenpair among their results, in any order", "why_tests_cant": "the three computations use different eigensolvers on different matrices; tests compare a few molecules", "anchors": ["src/python/zquantum/core/openfermion/linalg/sparse_tools.py:get_ground_state", "src/python/zquantum/core/openfermion/linalg/sparse_tools.py:jw_get_ground_state_at_particle_number", "src/python/zquantum/core/openfermion/linalg/sparse_tools.py:eigenspectrum", "src/python/zquantum/core/openfermion/linalg/sparse_tools.py:get_sparse_operator"]}
{"id": "C135", "title": "Circuits with the same unitary cannot be told apart", "statement": "If two circuits of unitary gates have registers of the same size and the matrices returned by to_unitary are equal up to one global phase, then their wavefunctions are equal up to this phase, and everything else the simulator returns is exactly the same: the bitstrings measured with the same random numbers or seed (or the exception raised), exact and measured outcome distributions, exact expectation values of every operator, and the results of estimate_expectation_values_by_averaging on lists of tasks with such circuits. In particular this holds for a circuit and its U3 decomposition (real angles). A circuit followed by the daggers of its operations in reverse order measures zero on every qubit in every sample.", "quantifier": "all circuits, numbers of samples, seeds, random numbers, operators, lists of tasks and correct simulators", "why_tests_cant": "the phase and the gates are arbitrary, and equality of all samples for all random numbers is a statement about every stream of random numbers", "anchors": ["src/python/zquantum/core/symbolic_simulator.py:SymbolicSimulator.run_circuit_and_measure", "src/python/zquantum/core/circuits/_circuit.py:Circuit.to_unitary", "src/python/zquantum/core/interfaces/backend.py:QuantumSimulator.get_exact_expectation_values", "src/python/zquantum/core/interfaces/backend.py:QuantumSimulator.get_measurement_outcome_distribution", "src/python/zquantum/core/estimation/_estimation.py:estimate_expectation_values_by_averaging", "src/python/zquantum/core/decompositions/_zquantum_decompositions.py:decompose_zquantum_circuit"]}
{"id": "C136", "title": "How many shots are enough", "statement": "The error of an estimate is exponentially unlikely in the number of shots. On a backend that returns independent measurements, estimate_expectation_values_by_averaging on tasks with operators of Zs and real coefficients gives a total that is off by d or more with probability at most 2 exp(-d^2 / (2 sum reach^2/shots)), where reach is the sum of the absolute values of an operator's coefficients without the constant; if 2 sum reach^2/shots log(2/eta) <= d^2 the probability is at most eta. Grouping an operator's terms greedily, allocating s shots to each group, selecting contexts and averaging on a simulator without a seed gives an energy that is off by d or more with probability at most 2 exp(-s d^2 / (2 sum reach^2)). A distribution measured with s samples reports some probability wrong by d or more with probability at most 2 2^n exp(-2 s d^2), so log(2 2^n/eta) / (2 d^2) samples are enough, with and without a seed.", "quantifier": "all unitary circuits, operators, lists of tasks, numbers of shots, precisions, confidences, seeds and histories", "why_tests_cant": "the claim is about the probability measure over all random numbers; a test sees single runs", "anchors": ["src/python/zquantum/core/estimation/_estimation.py:estimate_expectation_values_by_averaging", "src/python/zquantum/core/estimation/_estimation.py:group_greedily", "src/python/zquantum/core/estimation/_estimation.py:allocate_shots_uniformly", "src/python/zquantum/core/estimation/_estimation.py:perform_context_selection", "src/python/zquantum/core/symbolic_simulator.py:SymbolicSimulator.run_circuit_and_measure", "src/python/zquantum/core/interfaces/backend.py:QuantumBackend.get_measurement_outcome_distribution"]}
{"id": "C137", "title": "Gradients of circuit energies", "statement": "The gradient attached to a cost function made by create_cost_function from a circuit, an operator and exact estimation never fails for a non-zero step and as many parameters as symbols, whatever was computed before; its i-th entry is the central difference of the energy in the i-th symbol of the circuit. If a symbol is the angle of one of the gates RX, RY, RZ, RH, PHASE, CPHASE, XX, YY, ZZ or of the dagger of one and occurs nowhere else, that entry is exactly the derivative of the energy times sin(h)/h: the gradient points in the right direction for all steps below pi, is off by a fraction of at most h^2/6 (2e-11 for the default step), and the step pi/2 gives the parameter shift rule. For a symbol that occurs twice the proportionality fails.", "quantifier": "all circuits, operators, parameters, steps, simulators and states of the simulator", "why_tests_cant": "the claim is about derivatives and holds for a continuum of parameters and steps; a test compares numbers at a few points up to a tolerance", "anchors": ["src/python/zquantum/core/gradients.py:finite_differences_gradient", "src/python/zquantum/core/cost_function.py:create_cost_function", "src/python/zquantum/core/cost_function.py:expectation_value_estimation_tasks_factory", "src/python/zquantum/core/circuits/_matrices.py"]}
{"id": "C138", "title": "Gradients of circuits with repeated symbols", "statement": "If every symbol of a circuit is only used as the angle of the gates RX, RY, RZ, RH, PHASE, CPHASE, XX, YY, ZZ or of their daggers, in any number of gates, then the energy of every operator is differentiable in every symbol, and the i-th entry of the gradient attached to the cost function is within k^3 w h^2 / 6 of the i-th partial derivative for every positive step h, where k is the number of gates with the symbol and w is the sum of the absolute values of the operator's coefficients. The derivative itself is at most k w.", "quantifier": "all circuits, operators, parameters, positive steps, simulators and states of the simulator", "why_tests_cant": "a uniform error bound over a continuum of parameters and all circuits; tests compare a few numbers up to a tolerance picked by hand", "anchors": ["src/python/zquantum/core/gradients.py:finite_differences_gradient", "src/python/zquantum/core/cost_function.py:create_cost_function", "src/python/zquantum/core/circuits/_matrices.py", "src/python/zquantum/core/interfaces/mock_objects.py:MockAnsatz"]}
{"id": "C139", "title": "The next version of the package", "statement": "The release script reads a version from every text that begins with two numbers separated by a dot, and fails with a ValueError on all others. It reads the numbers, the patch number if a dot and a digit follow, and the label up to the end of the line if a dot or a dash and another character follow. The next version it prints has the same major number, the minor number plus one, the patch number 0 and no label; so k releases in a row raise the minor number by exactly k and no version is printed twice. Reading a printed version gives it back exactly if its label is not empty, has no line break, and does not begin with a digit where the patch number is missing.", "quantifier": "all texts, versions and numbers of releases", "why_tests_cant": "the texts are unbounded and the result depends on the backtracking of a regular expression; tests try a few versions", "anchors": ["subtrees/z_quantum_actions/bin/get_next_version.py:parse_version_str", "subtrees/z_quantum_actions/bin/get_next_version.py:Semver", "subtrees/z_quantum_actions/bin/get_next_version.py:main"]}
{"id": "C140", "title": "Gradients from measurements", "statement": "The finite difference gradient of a cost function that estimates energies by averaging measurements on a simulator without a seed never fails on tasks that are ready for measurement, and its entry for a parameter p with the step h is a random variable with the mean (E(p+h) - E(p-h)) / 2h and the variance (V(p+h) + V(p-h)) / (2h)^2, where E is the exact energy at the preprocessed parameters and V the variance of one estimate. The two evaluations use separate measurements. With greedy grouping, s shots for each group and basis changes, E is the expectation value of the operator in the state of the circuit and V the sum of the variances of the groups divided by s; so a smaller step lets the error from measurement grow like 1 / h.", "quantifier": "all real operators, circuits that are unitary at real parameters, parameter preprocessors without effects and exceptions, numbers of shots, steps other than 0, parameters and histories of the simulator", "why_tests_cant": "the result is random: tests see single gradients, and means and variances are over all outcomes of all measurements", "anchors": ["src/python/zquantum/core/gradients.py:finite_differences_gradient", "src/python/zquantum/core/cost_function.py:create_cost_function", "src/python/zquantum/core/cost_function.py:expectation_value_estimation_tasks_factory", "src/python/zquantum/core/estimation/_estimation.py:estimate_expectation_values_by_averaging", "src/python/zquantum/core/symbolic_simulator.py:SymbolicSimulator"]}
{"id": "C141", "title": "How many shots are enough for a gradient", "statement": "If every symbol of a circuit is only used as the angle of the gates RX, RY, RZ, RH, PHASE, CPHASE, XX, YY, ZZ or of their daggers, the gradient of the energy measured on a simulator without a seed, with greedy grouping and s shots for each group, has some entry further than k^3 w h^2 / 6 + d from the partial derivative with probability at most 2 n exp(-s h^2 d^2 / R), where n is the number of symbols, h the step, k the number of gates with the symbol of the entry, w the sum of the absolute values of the coefficients and R the sum over the groups of the squared sum of the absolute values of the coefficients without the constant. So R log(2n/eta) / (h^2 d^2) shots are enough for the probability eta, and for every precision and probability there are a step and a number of shots that are enough at all parameters and after every history.", "quantifier": "all real operators, circuits of such gates that are unitary at real parameters, parameters, positive steps, numbers of shots, precisions, probabilities and histories of the simulator", "why_tests_cant": "the bound is on the probability over all outcomes of all measurements, at a continuum of parameters; tests see single gradients", "anchors": ["src/python/zquantum/core/gradients.py:finite_differences_gradient", "src/python/zquantum/core/cost_function.py:create_cost_function", "src/python/zquantum/core/cost_function.py:expectation_value_estimation_tasks_factory", "src/python/zquantum/core/estimation/_estimation.py:estimate_expectation_values_by_averaging", "src/python/zquantum/core/estimation/_estimation.py:group_greedily", "src/python/zquantum/core/symbolic_simulator.py:SymbolicSimulator"]}
{"id": "C142", "title": "Gradients from measurements with a seed", "statement": "On a simulator made with a seed, the finite difference gradient of a cost function that averages measurements never fails on tasks that are ready for measurement, and is the same after every history: asking again gives the same numbers. Its entries are the difference quotients of estimates made from one and the same sequence of random numbers, and their means are the difference quotients of the exact energies, as without a seed. If both shifted parameters give every outcome the same probability, the entry is exactly 0. So the variance is not that without a seed: for RX(t) RX(t), the operator Z and any number of shots, the gradient at t = 0 is always 0 with a seed, while its variance without a seed is positive.", "quantifier": "all real operators, circuits that are unitary at real parameters, parameter preprocessors without effects and exceptions, numbers of shots, steps other than 0, parameters, seeds, random numbers and histories of the simulator", "why_tests_cant": "equality after every history and for all random numbers; means are over all random numbers of the generator", "anchors": ["src/python/zquantum/core/gradients.py:finite_differences_gradient", "src/python/zquantum/core/cost_function.py:create_cost_function", "src/python/zquantum/core/estimation/_estimation.py:estimate_expectation_values_by_averaging", "src/python/zquantum/core/symbolic_simulator.py:SymbolicSimulator"]}
{"id": "C143", "title": "The error of gradients of circuits with affine angles", "statement": "In circuits whose angles are affine functions of a symbol (as 2*t, t + u, -t), for all parametric built-in gates (with XY and U3) under any controls and daggers, the central difference of the energy in the symbol is within r^3 w h^2 / 6 of the partial derivative, where r is the sum of the absolute slopes of all angles and w the sum of the absolute values of the operator's coefficients; the derivative itself is at most r w. So is each entry of the finite difference gradient of the cost function of a correct simulator.", "quantifier": "all circuits with angles affine in the symbol, real operators, real parameters, steps h > 0 and states of the simulator", "why_tests_cant": "an error bound for all circuits, operators and steps", "anchors": ["src/python/zquantum/core/gradients.py:finite_differences_gradient", "src/python/zquantum/core/cost_function.py:create_cost_function", "src/python/zquantum/core/circuits/_gates.py:ControlledGate, Dagger", "src/python/zquantum/core/circuits/_matrices.py:xy_matrix, u3_matrix"]}
{"id": "C144", "title": "How many shots are enough for the gradient of a circuit with affine angles", "statement": "For circuits whose angles are affine functions of the symbols (with all parametric built-in gates, controls and daggers), the measured finite difference gradient never fails, and with s shots for each of the groups some entry of it is further than r^3 w h^2 / 6 + d from the partial derivative with probability at most 2 n exp(-s h^2 d^2 / R), where r is the sum of the absolute slopes of the angles in the symbol of the entry, w the sum of the absolute values of the coefficients, n the number of parameters and R the sum of the squared reaches of the groups. So R log(2 n / eta) / (h^2 d^2) shots are enough for confidence 1 - eta, and if the slopes are bounded any precision and confidence is reached at all parameters by one step and one number of shots.", "quantifier": "all circuits with angles affine in the symbols, real operators, parameters, steps, precisions, probabilities, numbers of shots and histories of the simulator", "why_tests_cant": "probabilities over all random numbers, for all circuits and operators", "anchors": ["src/python/zquantum/core/gradients.py:finite_differences_gradient", "src/python/zquantum/core/estimation/_estimation.py:estimate_expectation_values_by_averaging", "src/python/zquantum/core/cost_function.py:create_cost_function"]}
{"id": "C145", "title": "Renumbering the qubits of a circuit", "statement": "Applying the gates of a circuit to renumbered qubits (a permutation of the register) permutes the qubits and changes nothing else: the unitary, the wavefunction and the exact distribution of outcomes have the same entries at the basis states in which the qubits have moved, and the exact expectation values of the operator with renumbered qubits are those of the operator, term by term. For the reversed numbering the wavefunction is flip_wavefunction of the circuit's wavefunction, and get_expectation_value with reverse_operator=True gives the circuit's value; flip_wavefunction never fails and is an involution, also for wavefunctions with symbols.", "quantifier": "all circuits, registers, permutations of the qubits, operators on the register, correct simulators and histories of the simulators", "why_tests_cant": "all permutations of all registers, for all circuits and operators", "anchors": ["src/python/zquantum/core/circuits/_circuit.py:Circuit", "src/python/zquantum/core/wavefunction.py:flip_wavefunction", "src/python/zquantum/core/interfaces/backend.py:QuantumSimulator.get_exact_expectation_values", "src/python/zquantum/core/openfermion/zapata_utils/_utils.py:get_expectation_value"]}
{"id": "C146", "title": "Further qubits, and gates on other qubits, change nothing", "statement": "Giving a circuit k more qubits, with the constructor's n_qubits or with add_ancilla_register, puts the new qubits in state 0 and changes nothing else: the wavefunction has the circuit's amplitudes where the last k bits are 0 and zeros elsewhere, the exact distribution gives an outcome followed by k zeros the probability of the outcome, and the exact expectation values of an operator on the circuit's qubits are the same. Gates applied at the end to other qubits than those of an operator leave its exact expectation values as they are, and gates applied at the end outside a set of qubits leave the distribution of the outcomes on that set as it is.", "quantifier": "all unitary circuits, numbers of further qubits, operators, sets of qubits, later gates, correct simulators and histories of the simulators", "why_tests_cant": "all circuits, all extensions of the register and all later gates", "anchors": ["src/python/zquantum/core/circuits/_circuit.py:Circuit", "src/python/zquantum/core/circuits/_generators.py:add_ancilla_register", "src/python/zquantum/core/interfaces/backend.py:QuantumSimulator.get_exact_expectation_values", "src/python/zquantum/core/interfaces/backend.py:QuantumSimulator.get_measurement_outcome_distribution"]}
{"id": "C147", "title": "What time evolution conserves", "statement": "For an operator with real coefficients and a real time, time_evolution gives a unitary circuit on the operator's qubits for every number of Trotter steps. Appending it to any circuit leaves the exact expectation values of every operator whose Pauli strings commute with those of the Hamiltonian as they are, term by term, whatever the number of steps; it leaves the sum of the values of an operator that as a whole commutes with each Pauli string of the Hamiltonian; and it conserves the energy when the Pauli strings of the Hamiltonian commute.", "quantifier": "all circuits, Hamiltonians with real coefficients, real times (numbers or expressions), numbers of Trotter steps, commuting operators, correct simulators and histories of the simulators", "why_tests_cant": "all times, all numbers of steps and all operators that commute with the terms", "anchors": ["src/python/zquantum/core/evolution.py:time_evolution", "src/python/zquantum/core/evolution.py:time_evolution_for_term", "src/python/zquantum/core/interfaces/backend.py:QuantumSimulator.get_exact_expectation_values"]}
{"id": "C148", "title": "Comparing expectation values and value estimates", "statement": "Comparing two ExpectationValues with == tells whether they hold the same numbers, never raises, and does not depend on the order of the two; expectation values read back from their dictionary equal the ones written. Two ValueEstimates are equal exactly if their values and precisions agree, a number counts as an estimate without precision, and != is the opposite.", "quantifier": "all pairs of expectation values with all arrays of values, correlations and covariances, shared or not; all value estimates, numbers and other operands", "why_tests_cant": "all contents, shapes and ways in which the two objects share arrays", "anchors": ["src/python/zquantum/core/measurement.py:ExpectationValues.__eq__", "src/python/zquantum/core/utils.py:ValueEstimate.__eq__", "src/python/zquantum/core/utils.py:ValueEstimate.__ne__", "src/python/zquantum/core/utils.py:ValueEstimate.__str__"]}
{"id": "C149", "title": "Gates that move basis states", "statement": "Appending X, Y, CNOT, X with any number of controls, SWAP, ISWAP and gates with a diagonal matrix (among them I, Z, S, T, RZ, PHASE, CZ, CPHASE, ZZ, their daggers and controlled forms) to any circuit moves the outcomes and keeps their probabilities: X and Y flip the bit, CNOT and controlled X flip it if the control bits are 1, SWAP and ISWAP exchange two bits, diagonal gates change nothing. A circuit of such gates alone has one certain outcome, the result of the moves on all zeros; every sample is that outcome, and the exact expectation value of a product of Z is its coefficient with a minus sign for each bit that is 1.", "quantifier": "all unitary circuits, all sequences of such gates on all qubits and register sizes, all numbers of controls, correct simulators, numbers of samples and Z operators", "why_tests_cant": "all circuits, gate sequences and numbers of controls", "anchors": ["src/python/zquantum/core/interfaces/backend.py:QuantumSimulator.get_measurement_outcome_distribution", "src/python/zquantum/core/interfaces/backend.py:QuantumSimulator.get_exact_expectation_values", "src/python/zquantum/core/symbolic_simulator.py:SymbolicSimulator", "src/python/zquantum/core/circuits/_builtin_gates.py", "src/python/zquantum/core/circuits/_gates.py:ControlledGate"]}
{"id": "C150", "title": "Time evolutions one after the other", "statement": "Evolving the state of a circuit for one time and then for another gives the same distribution of outcomes and the same exact expectation values as evolving it once for the sum of the times, whatever the numbers of Trotter steps; evolving forwards and then backwards restores them. (Holds for operators whose terms commute; otherwise an evolution is undone by the evolution for the negative time, with the same number of steps, of the operator with its terms in the reverse order.)", "quantifier": "all unitary circuits, operators with real coefficients, real times (numbers or expressions in symbols), numbers of steps, observables and correct simulators", "why_tests_cant": "all circuits, operators and times", "anchors": ["src/python/zquantum/core/evolution.py:time_evolution", "src/python/zquantum/core/evolution.py:time_evolution_for_term", "src/python/zquantum/core/interfaces/backend.py:QuantumSimulator.get_exact_expectation_values", "src/python/zquantum/core/interfaces/backend.py:QuantumSimulator.get_measurement_outcome_distribution", "src/python/zquantum/core/circuits/_circuit.py:Circuit.__add__"]}
{"id": "C151", "title": "Expectation values respect the arithmetic of operators", "statement": "On every circuit the sum of the exact expectation values of a + b is that of a plus that of b (up to 1e-8 for each term of b, because sums drop small terms), that of k*a is k times that of a for real k, that of a number is its real part, a and hermitian_conjugated(a) have the same total, for real coefficients so have a*b and b*a, no value exceeds the absolute value of its coefficient and no total the 1-norm, the total of hermitian_conjugated(a)*a is never negative, for real coefficients the total of a*a is at least the square of the total of a, and the square of the total of i*a*b is at most the product of the variances of a and b.", "quantifier": "all unitary circuits, qubit operators on their qubits, real factors and correct simulators", "why_tests_cant": "all circuits and operators", "anchors": ["src/python/zquantum/core/interfaces/backend.py:QuantumSimulator.get_exact_expectation_values", "src/python/zquantum/core/openfermion/ops/operators/symbolic_operator.py:SymbolicOperator.__iadd__", "src/python/zquantum/core/openfermion/ops/operators/symbolic_operator.py:SymbolicOperator.__imul__", "src/python/zquantum/core/openfermion/utils/operator_utils.py:hermitian_conjugated"]}
