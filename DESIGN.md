# Formal model of z-quantum-core in Lean 4: design

## 1. Method

The Python sources under `/repo/src/python/zquantum/core` are transcribed, function by function, into small total Lean
functions (`lean/Verif/Model/*.lean`).  Every definition cites the file and lines it models and says what was simplified.
Exceptions are values (`Except Err α` or `Option α`).  External calls (random generators, wrapped backends, user supplied
functions, predicates) are parameters, so a theorem about them holds for *every* behaviour of the external party.
Properties are stated in `lean/Verif/Props/*.lean`, one file per area, apart from helper lemmas
(`lean/Verif/Lemmas/*.lean`), against specifications that do not use the model's own helpers (`lean/Verif/Spec/*.lean` or the head of
the property file when the specification is a line or two).  Beside each theorem stands an `example`
showing that a concrete non-trivial case satisfies the hypotheses.

When the code contradicts the property, the negation is proved with a concrete witness (`..._counterexample`) and what
does hold is proved with suffix `_partial`; section 5 lists those disagreements.

## 2. Conventions

* Numbers.  Python ints are `Nat`/`Int`.  Floats and sympy numbers are idealised: exact elements of a
  commutative ring / field `K`, or `ℝ`/`ℂ` when analysis is needed.  Rounding is not modelled.  Tolerances that occur in the code
  (e.g. `EQ_TOLERANCE`) are modelled as they are.
* Dictionaries are association lists in insertion order, as in CPython >= 3.7.
* Matrices that the code indexes with integers are functions of natural indices with an explicit dimension.
* States for operator semantics: functions from bit assignments to `K` (`(ℕ → Bool) → K`), so no qubit bound is needed.
* Object mutation becomes a returned new value; histories are lists of operations folded over a state.

## 3. Plan per property

| Id | Model | Proof |
|----|-------|-------|
| C01 | gate matrices over ℂ as explicit lists of rows | entrywise trigonometric identities |
| C02, C03 | inductive gate terms (factory, controlled, dagger) with the code's rewrite rules; matrix semantics | structural induction |
| C04 | parameter expressions with substitution; bind rules | structural induction |
| C05, C06 | `_lift_matrix` verbatim on natural-indexed matrices | index arithmetic: bit lists of a Kronecker product, permutation conjugation |
| C07 | `to_unitary`, `apply` | induction on the operation list, using C05/C06 |
| C08-C10 | circuits as (ops, n) with constructor rules | list induction |
| C11 | JSON-like value model, to/from dict | structural induction; counterexamples for wrapped custom gates |
| C12, C13 | layout loops | list/range arithmetic |
| C14 | generators | list induction |
| C15 | phase multiplication | `|exp(iθ)| = 1` |
| C16, C17 | decomposition rules over abstract interpretation; explicit matrices for U3 | induction; trigonometry; counterexample for controlled U3 |
| C18, C19, C21, C22 | bit arithmetic on `Nat` | induction on bits |
| C20 | state machine of assignments with rollback | invariant over op lists |
| C23-C26 | counters, parities on bit lists | list induction, sums |
| C27, C36 | integer rounding correction | sums over lists |
| C28, C29 | dictionaries of outcome tuples | real analysis on finite sums |
| C30-C33 | state machines | refinement over call lists |
| C34, C35 | list zips and index bookkeeping | permutation / list induction |
| C37, C39, C40 | circuits acting on bit-function states | Pauli conjugation lemmas |
| C38, C54 | list partition | invariant of the greedy loop |
| C41-C44, C63 | terms as lists of factors, dictionaries of coefficients; action on states | homomorphism into the endomorphism ring |
| C45-C48 | fermionic action on occupation states; transforms | operator identities in the endomorphism ring |
| C49, C64 | trace formula / Kronecker entries | orthogonality of Pauli strings |
| C50, C60, C61, C62 | index maps | arithmetic, list lemmas |
| C51 | `fermi_hubbard` with both neighbour functions, hopping and Coulomb terms, added with the tolerance of `+=` | neighbour functions in coordinates; the edges are listed once; action of the sum on a grid, error bound for all parameters; hermiticity and conservation as invariants of the additions |
| C53 | maps from keys to tensors | pointwise |
| C55 | expression trees, evaluation | structural induction |
| C56 | a target with a state of the outside world, the loop over coordinates | calculus on lines, algebra |
| C57 | pipelines of oracles, stateful wrappers | algebra, induction on call lists |
| C58, C75 | adjacency dictionaries in insertion order | counterexample + partial, folds over edges |
| C65 | optimizers as programs asking for values and gradients | induction on programs |
| C67 | objects with a reference to a shared or private history | invariant over interleaved calls |
| C68 | simulator loop over pieces, oracle for native pieces and random choice | induction over pieces, unitarity |
| C69 | keys as lists of texts and numbers, Python comparison with `TypeError` | embedding into a linear order |
| C70 | ansatz objects, symbol maps, binding | composition of C09, C69 |
| C71 | ladder matrices as Kronecker products, triplet lists | matrix elements of the ladder action |
| C72, C73 | arrays as functions of index lists, dictionaries by key | sums over index tuples, normal ordering (C46) |
| C52 | dictionaries as records, Python types of coefficients as a flag function | fold over the terms, `simplify` fixes canonical terms |
| C59 | arrays as shape and entries, `tolist` and `np.array` over nested lists | induction on the shape |
| C75 | graphs as adjacency dictionaries | induction over nodes and edges |
| C76 | objects as a call, attributes and an optional gradient | induction over the list of augmentations |
| C77 | sparse products over index ranges, simulator of C68, cost function of C57 | sums over basis states, composition of C57, C64, C68 |
| C78 | `_jordan_wigner_interaction_op` with its one-body and two-body helpers, branch by branch (two, three, four different indices) | action of each string on basis states with the sign of the bits below; sums over ordered pairs; error per addition as in C45 |
| C79 | constructor from text and `__str__` over lists of characters; reading and printing of numbers is a parameter with a contract per coefficient | induction over words and over bracketed terms, uniqueness of the split into runs of digits |
| C80 | `commutator`, `anticommutator`, `double_commutator` on term dictionaries; matrices are not modelled | soundness of products with exact addition on grids; case split on the common index of two hopping operators; uniqueness of normal forms |
| C81 | the loop of `is_two_body_number_conserving`, `number_operator`, `get_fermion_number_operator` | counting signs of a product; ladder operators shift the weighted occupation; induction over products and terms |
| C82 | `induced_norm` for positive orders, `renormalize`, `is_identity` over exact numbers | real powers; orthogonality of Pauli strings under the trace |
| C83 | the `__eq__` methods of gates, factories, definitions, operations and circuits; sympy's numeric difference and the comparison of function objects are parameters with stated contracts | structural induction; Lipschitz bounds for the entries of every built-in gate; row/column counting for lifted matrices and telescoping over the operations |
| C84 | values as a tree with a constructor for each kind of Python object that occurs; the encoder, the object hook of the decoder, and the two functions on files; JSON text is the identity on plain values | mutual induction over values; the failures are proved as negations |
| C85 | the generators as folds of additions of ladder terms, amplitudes as complex numbers, arrays as functions on a range of indices | action of each excitation with its conjugate; spin operators by commutators of hopping terms; particle number by the change of each term |
| C86 | arrays as shape and entries over the complex numbers; np.allclose with its default relative tolerance; Python's division by zero | entrywise bounds; the first column of a unitary has norm one; failures proved as negations |
| C87 | a state as a linear functional on operators; the arrays as functions of the indices; the reverse Jordan-Wigner transform, normal ordering and Jordan-Wigner transform as already modelled | correctness of both transforms, uniqueness of normal forms, induction on the loop of hf_rdm; deviations proved as negations |
| C88 | the arrays as functions of the indices, the loops as folds that overwrite entries; the operators as maps on Fock space, orbital p being modes 2p and 2p+1; core and external orbitals by a projection | closed forms of the loops by induction; sum over modes regrouped into sums over orbitals; ladder operators next to the projection vanish or contract; spin operators commute with every excitation |
| C89 | arrays as functions of index lists; the set `seen` as a list; einsum as the sum over all index tuples; symmetry classes as an inductive equivalence relation; rotated ladder operators on Fock space | invariant of the loop; closure of the listed permutations; induction on the key for products of matrix entries |
| C90 | the loop over the normal ordered terms, sums in canonical anticommutation relations | normal ordering keeps every permutation- and contraction-closed shape of terms (`normalOrdered_closed`); case split on the five possible terms; action on Fock space |
| C91 | determinants as lists of booleans; argsort and searchsorted; the loop with parity and target of each determinant; specification by sets of occupied modes and the action on Fock space | basis: counting with finite sets; search: sortedness of argsort and injectivity of the encoding; term: induction over the factors; default reference: its encoding is the largest |
| C92 | `_bravyi_kitaev_interaction_operator` loop by loop, all eleven cases of `_seeley_richard_love` with their index sets | every string as a product of X on one set and Z on another, cases by Fenwick-tree membership facts; product error by injectivity of multiplication on Pauli strings; sums over coincidences of four indices |
| C93 | `jw_get_ground_state_at_particle_number` and `get_ground_state_rdm_from_qubit_op` line by line; numpy's and scipy's eigensolvers are parameters that return a lowest eigenpair of a Hermitian matrix (shown to exist) | the sector as an injection of indices into basis states; positivity of `A - e`; every assignment to the two-body array writes the right value by the anticommutation relations and every entry is assigned; expectation values through C87 |
| C94 | `get_sparse_operator`, `is_hermitian` of sparse matrices, `eigenspectrum`, `sparse_eigenspectrum`; numpy's `eigvalsh` (reads the lower triangle) and `eigvals` are parameters that return the roots of the characteristic polynomial in some order (shown to exist) | the tolerance test decides Hermitian matrices and those at least 1e-8 away; sorted permutations are equal; the Bravyi-Kitaev encoding permutes the basis states, so the characteristic polynomials agree |
| C95 | `remove_inactive_orbitals` as the composition of the models of `get_fermion_operator`, `freeze_orbitals` and `get_interaction_operator` | freezing keeps products of as many creation as annihilation operators, so the way back cannot fail; matrix elements through C73 and C61's `freezeOrbitals_spec_partial` |
| C96 | `get_file_path`, `save_operator`, `load_operator` over a file system that maps paths to contents; `marshal` and number formatting are contracts | invariant over the sequence of calls: the content of a path is that of the last successful call; text round trip by C79 and absence of `:` in printed operators |
| C97 | the save and load functions of `utils.py`, `serialization.py`, `measurement.py`, `circuits/layouts.py`, `zapata_utils/_io.py` over a file system; JSON text is a contract (identity on plain values, tuples become lists) | invariant over the sequence of calls: the file holds the record of the last call; per kind, the load function inverts the record (C52, C59) |
| C98 | `MolecularData` as a store: attributes, attributes loaded on demand, `save`, `load`, opening, crash points of `save`; HDF5 is a contract | invariant over the actions of a program with several objects: a file is that of the last save; case analysis over crash points |
| C99 | `name_molecule`, the constructor, the electron counts, `load_molecular_hamiltonian`, `get_molecular_data`; set order is a parameter | names: sorting by an injective key, unique reading of the formula; Hamiltonians: C87, C88 and entries of the spin orbital tensors |
| C100 | attribute lookup and assignment of all wrappers over a heap of dictionaries; what is wrapped is fixed at construction | an assignment changes one dictionary entry; induction on the stack and on the history |
| C101 | `has_store_artifact_param` with `inspect.signature` on function-like objects, the recorder factory, argument passing of every `__call__` | induction on the layers from outside in |
| C102 | the circuits of C40 | product formula in a Banach algebra: second order remainder of products of exponentials, telescoping of powers of unitaries |
| C103 | the estimation model of C34-C36, C59 and the semantics of C77; outcomes are random variables on an arbitrary probability space, independent with Born's law | variance of a sum of independent draws; the sum of the estimates as such a sum; Heisenberg picture of the basis changes; existence of such runs on a product space |
| C104 | the variances and allocations of C36 with the statistics of C103 | Cauchy-Schwarz inequality over lists; variance as squared length of (A - <A>)psi; an idle pair of qubits as counterexample |
| C105 | `sample_from_wavefunction` with numpy's inverse-cdf `choice` on streams of uniform numbers, one stream for each seed and one for each unseeded generator; the simulator's loop | the set of numbers choosing an outcome is an interval of length \|psi(x)\|^2; independence by composition; the estimates by C103 |
| C106 | operators as objects in a store with variables, aliases and the iterator that `__iter__` stores in the object; statements and programs | frame lemmas for each operation; refinement of programs on values by induction over the program; loops by induction over the terms |
| C107 | samplers over the state of the random module; networkx's generators transcribed (the pairing of random regular graphs is a parameter); specs as a record of optional keys | edges and neighbours by induction over the added edges; distribution from independence of the random numbers; seeded weights by comparing the two streams |
| C108 | create_object over an opaque world (imports, attributes, bodies of functions, other calls are parameters); Python's matching of arguments with parameters written out | case analysis; for functions, induction over the list of parameters shows the call binds iff it is allowed and with which values |
| C109 | each step returns the dictionaries as its caller finds them afterwards, with the created objects; sequences of calls thread the dictionary | C108 for the single call; induction over the sequence of calls for histories |
| C110 | the three steps over exact numbers, with the operator classes and normal ordering of the earlier models; files are the operators they hold | the constant term of the normal ordered product is the matrix element, within the tolerance that drops small terms; the one-qubit operator's matrix by expanding it in Pauli matrices; the local zero operator by induction over the qubits |
| C111 | the generators as parameters with explicit state; the retry loops with fuel, so a loop that never ends has no result for any fuel | induction over the loops; termination for every generator that gives each number again and again; counting Pauli strings for the loops that cannot end |
| C112 | random choices as parameters; lists at addresses in a store, so that arguments may be the same list; the loop over a list that grows has fuel | induction over the gates, the circuits and the loop; C01, C07, C11 for unitaries and files |
| C113 | objects as trees of sequences; old type, translation, function and fallback are parameters; functions change a world | structural induction over objects against an inductive specification |
| C114 | an estimator is a function of the backend's state and the tasks with exceptions; contracts as checks on any estimator, and on the tasks of the module | induction over the tasks; C105 for the measurements of a seeded simulator, C77 for exact values; the states of the two one-qubit circuits are computed |
| C115 | the loop of the nested optimizer over an arbitrary inner optimizer (a program of questions that ends with a result and the array it leaves), with the caller's array, the random numbers and the world as state; the five contracts as checks on any nested optimizer | a relation for the rounds; induction over the rounds with the histories as invariant; C65 for the recorders |
| C116 | buffers and views of them; programs of statements that make, share, slice, flip, bind and assign to arrays and wavefunctions; `__setitem__` with what the saved value holds after the write; `==` and its truth value | invariant over programs (every variable holds a whole buffer, every wavefunction is acceptable); counterexamples for slices, for writes to the array and for overlapping windows |
| C117 | the steps as functions from the file system to the file system, made of the models of C97 (files), C78 (transformation), C93 (ground states), C38 (grouping), C87 (density matrices) and C62 (sums) | composition of the theorems about the parts; the strings of a transformed operator are combinations of two-body products (span argument), the number of qubits of the file is the number of modes that the operator involves; counterexample for operators that do not involve the last orbitals |
| C118 | no new definitions: the transform and ground state steps of C117, the exact cost function of C77, the ground states of C93 and the spectrum of C94 | the energy splits into the sectors of fixed particle number (`split`), each is bounded by its ground state (`energy_bound`); `vqe_bound` composes the files, the ground energies and the cost function; `spectrum_bound` uses that the operator minus its least eigenvalue is positive semidefinite |
| C119 | Model/OptimizeStep.lean: both steps from the created objects on, result items, files; the optimizer is an arbitrary program (Model/Optimizer.lean) | Props/OptimizeStep.lean: encoded values are plain, so writing succeeds and the round trip of C68 applies; runs and questions of a program by induction on it; exact values by C77; bounds by C118 |
| C120 | Model/PauliCircuits.lean: the loops over terms and factors | Props/PauliCircuits.lean: the operator of appended gates is the product of their operators (C07); a product of Pauli matrices on different qubits is the Pauli string |
| C121 | Model/AnalysisStep.lean: the step and the table of decomposition functions, on the file model of C97 | Props/AnalysisStep.lean: files by C97; numbers by C36; variance of the measured value by C104; ground state by C118; order of the groups by Props/GroupingOrder.lean |
| C122 | Model/OperatorEdit.lean: indexing arrays with lists of integers; the steps on the file model of C97; diagonal components (C62), number operators (C81), inactive orbitals (C95) and operator lists of the existing models | Spec/Relabel.lean, Lemmas/Relabel.lean: exchanging neighbouring modes is a signed permutation of the basis that turns the ladder operators of one mode into those of the other; permutations are products of such exchanges. Props/ModeOrder.lean: sums over indices are reordered; matrices are permuted and get signs. Props/OperatorEdit.lean: files by C97, ground states by C117 |
| C123 | Model/GraphSteps.lean: the steps as functions of specifications, seed and state of `random`; samplers made by the model of `create_object` (C108) over the signatures of graph.py; graphs and files of Model/Graph.lean and Model/RandomGraph.lean | Props/GraphSteps.lean: what a dictionary describes is stated key by key; C108 binds the parameters; the graph theorems and the round trip of graph files (C75, C107) give the loaded graph |
| C124 | Model/BuildSteps.lean: the steps over the models of ansatzes (C70), random circuits (C112), ancilla registers (C14), layouts (C12, C13), circuit files (C11) and the file system (C97) | Props/BuildSteps.lean: the existing theorems compose; what is new is that the numbers of parameters agree between the two steps, that identity gates leave the operator, and that tuples of qubits survive the files |
| C125 | Model/GeneralHubbard.lean: the two functions over the model of fermionic operators (C41, C42) | Props/GeneralHubbard.lean: both are diagonal; their values on every basis state are computed from the action of ladder operators; the repulsion of `fermi_hubbard` is that of C51's specification |
| C126 | Model/Geometry.lean: the file as a text, lines and words as Python splits them, `float` a parameter | Props/Geometry.lean: a separate inductive specification says which words a line has, and `reads_iff` that it has only those; induction on lines; the constants of the units are compared exactly |
| C127 | Model/ExampleFunctions.lean: values over the reals, artifacts as the list of stores of C30's model | Props/ExampleFunctions.lean: derivatives from Mathlib; binary digits by strong induction; the recorded history from C30's theorem on recorders |
| C128 | Model/SymOp.lean and Model/OpLaws.lean: the arithmetic of all three classes by their `_simplify` | Props/OpLaws.lean: coefficients of products as bilinear sums over terms; what the laws need of `_simplify` is proved for each class |
| C129 | `Model/OutcomeDistribution.lean`: the simulator's `get_measurement_outcome_distribution` with and without a number of samples, on top of the sampler of C105, the measurements, distributions and distances of earlier claims | the measured table gives each outcome its relative frequency among independent draws by Born's rule (`Lemmas/Frequencies.lean`); means and covariances of frequencies, then the mean of the quadratic form which the distance is, and Markov's inequality |
| C130 | the model of C24, with the random draws as a parameter | rounding is at least as near as any integer; the counts of the rounded samples; a distribution for which all corrections can hit the same outcome |
| C131 | the model of C34 | Gibbs' inequality with clipping, summed over the outcomes; a target with a rare outcome for the counterexample |
| C132 | `Model/MolHeap.lean`: arrays in a store, the molecule's attributes with loading on demand, its file, and programs that call methods and update results in place | an invariant on who holds which array; a simulation between worlds that differ in one result only |
| C133 | `Model/OutcomeDistribution.lean` and `Model/Distribution.lean` | the likelihood of a measured distribution is a mean over independent draws; clipped logarithms are Lipschitz with constant `1/eps`; Jensen's inequality for squares |
| C134 | `Model/LowestState.lean` (`get_ground_state`) with `Model/GroundState.lean` and `Model/Spectrum.lean`; the eigensolvers are parameters | Rayleigh quotients; projecting an eigenvector on the states with one particle number; roots of the characteristic polynomial |
| C135 | the models of C07, C16, C34, C68, C77, C105 and C129 together | the output states differ by a phase, which drops out of probabilities and of sums with the conjugate; induction over tasks and operations |
| C136 | the models of C103, C105 and C129 | Hoeffding's inequality for sums of functions of independent draws from finite sets; context selection keeps the coefficients; union bound over the outcomes |
| C137 | costGradient on the models of C56, C57 and C77; the gate matrices of C02 | the matrix of each turning gate is a phase times a constant plus exp(it) times another constant, so the energy is a + b cos t + d sin t; gates without the symbol do not depend on it (with the naming condition for custom gates) |
| C138 | as C137 | the energy as a function of one angle per operation is a trigonometric polynomial of degree 1 in each; its derivative in one angle is a shift and keeps bounds; the derivative along equal angles is the sum of the shifts by induction; so the third derivative is at most k^3 w, and the error bound of C56 applies |
| C139 | Model/Version: the regular expression as data with a backtracking matcher that lists all matches in order of preference, parseVersionStr, versionStr, bumpMinor, nextVersion | the first match is computed from a decomposition of the text; no match without one; printing and reading by cases; induction on the number of releases |
| C140 | Model/MeasuredCost: estimation by averaging as an estimation method with the state of the simulator, on top of the models of C56, C57, C105 and C137 | each evaluation makes one generator for each measured task, so the generators of an evaluation are numbered from a known position; estimates from separate positions are functions of disjoint families of independent numbers, hence uncorrelated; bound circuits make the states of the circuits with symbols |
| C141 | the models of C136, C138 and C140 | Hoeffding's inequality for the difference of two estimates, whose measurements are independent; the mean is the central difference, whose distance from the derivative is bounded in C138; union bound over the entries |
| C142 | the models of C105 and C140 | with a seed every run starts the same sequence of numbers, so an estimate is a function of the parameters and that sequence and not of the state; the mean is linear; outcomes are selected by the probabilities alone |
| C143 | the model of C137 | each parameter of each operation gets an angle of its own; in each angle the energy is a combination of 1 and the cosines and sines of the angle and its half, whose derivative is a combination of four values with weights of absolute sum 1; the chain rule by interpolation at five angles |
| C144 | the models of C140 and C143 | the argument of C141 for any bound of the difference quotients, with the bound of C143 |
| C145 | the circuit, simulator and expectation models of C07, C68 and C77; `flip_wavefunction` | conjugating the operator of every operation by the permutation of the basis states, then C07, C19, C68 and C77 |
| C146 | the circuit, generator, simulator and expectation models of C07, C14, C68 and C77 | the state of the larger circuit is the circuit's state with zeros appended, by induction on the operations; operations on other qubits commute with Pauli strings and with projections on outcomes |
| C147 | the evolution, circuit and expectation models of C39, C40, C68 and C77 | the gates of the evolution are valid and unitary, by induction on the construction; its operator (C40) commutes with what commutes with each Pauli string |
| C148 | `ExpectationValues.__eq__` with Python's comparison of dictionaries and lists (identity first, then the truth value of `==`), numpy's broadcasting and truth values; `ValueEstimate.__eq__`, `__ne__`, `__str__` | case analysis; induction on shapes and lists |
| C149 | the gate, circuit, simulator and expectation models of C01, C03, C68 and C77 | a unitary with one non-zero entry per column permutes probabilities; the non-zero entries of each gate by cases, of sequences by induction |
| C150 | the models of `time_evolution` (C40), of appending circuits (C07) and of the simulator (C68, C77) | exponentials of commuting matrices; a step times the step back in the reverse order is the identity, by induction on terms; the state of the counterexample is computed |
| C151 | the models of operators (C41, C42, C44, C82), of circuits and of exact expectation values (C77) | linearity of the expectation value in the matrix; the matrix of a product is the product of the matrices; the Cauchy-Schwarz inequality |
| C74 | arrays in a store, dictionaries of addresses | frame argument over update lists |

Not expressible in the model (trusted base or out of scope): floating point rounding, the internals of numpy, scipy, sympy, networkx and h5py, the quality of
pseudo random numbers, wall-clock time, performance and memory use.

## 4. Trusted base

### 4.1 Kernel and axioms

Lean 4.33.0's kernel, and Mathlib's definitions of the numbers, finite sums, matrices, polynomials, exponentials and Euclidean norms used in the statements. No axiom is added, no proof uses `sorry`, `admit`, `native_decide` or `bv_decide`. `#print axioms` on every theorem named in `MANIFEST.json` gives:

* `propext`, `Classical.choice`, `Quot.sound`: all 1163 theorems named in the manifest except the ones listed below.
* only `Quot.sound` and `propext`: `Circuits.decompose_preserves`, `Circuits.decompose_preserves_general`, `Circuits.decompose_append`, `Circuits.decompose_unmatched`, `Circuits.decompose_rules_cons`, `Bits.dec2bin_rejects_partial`, `Bits.dec2bin_accepts_iff`, `Bits.dec2bin_sound`, `Bits.tuples_roundtrip`, `Bits.bitstrings_roundtrip`, `Bits.tuples_roundtrip_counterexample`, `Meas.counts_roundtrip`, `Meas.addCounts_history`, `Meas.getCounts_spec`, `Meas.getCounts_perm`, `Meas.checkParityStr_spec`, `Meas.checkParityOfVector_error`, `History.store_spec`, `Backend.init_spec`, `Op.upThenDown_bijective`, `Op.upThenDown_order`, `Op.group_size`, `Cost.sideEffect_spec`, `Optimizer.mockOptimizer_spec`, `History.deepcopy_spec`, `History.copy_shared`, `History.copy_spec`, `Sorting.fixedNamesKey_spec`, `Sorting.natural_key_not_injective`, `OpStr.parseFactor_qubit`, `OpStr.parseFactor_fermion`, `MolStore.alpha_beta_counterexample`, `Compat.translate_iff`, `Compat.translate_fails`, `Compat.translate_same`, `Compat.decorate_ok`, `Compat.decorate_new`, `Compat.decorate_fails`, `Compat.decorate_twice`, `Compat.decorate_counterexample`, `Geometry.reads_iff`.
* only `propext`: `History.recorder_spec`, `History.call_raises`, `History.always_spec`, `History.everyNth_spec`, `History.gradientRecorder_spec`, `Cost.functionLogger_spec`, `Sparse.jwNumberIndices_negative`, `Optimizer.runRecorded_spec`, `Optimizer.minimize_spec`, `Optimizer.minimize_selected`, `Optimizer.nestedHistories_partial`, `Optimizer.nestedHistories_counterexample`, `History.separate_independent`, `Cost.augment_call`, `Cost.augment_attrs`, `Cost.augment_gradient_partial`, `Attr.assigned_is_read`, `Attr.set_other`, `Attr.recorder_reads_target`, `Attr.assigned_reaches_target`, `Attr.assigned_on_logged`, `Attr.gradient_assignment_counterexample`, `Attr.gradient_override_counterexample`, `CreateObject.create_variadic_counterexample`, `CreateObject.noise_class_counterexample`, `Steps.cost_rejected`, `Steps.measure_noise_counterexample`, `Steps.cost_preprocessors_counterexample`, `Nested.trace_unique`, `Nested.no_rounds`, `OptStep.artifact_call`.
* no axiom: `History.chooseClass_spec`, `Cost.augment_gradient_counterexample`, `UCC.paramsize_counterexample`, `Attr.logged_has`, `Steps.evaluate_parametrized_counterexample`, `Steps.expectation_step_counterexample`.

### 4.2 Transcription

The Python is not executed or parsed by any tool: that each Lean definition says what the cited lines say is by reading. The idealisations are those of section 2: exact numbers instead of floats (tolerances kept), dictionaries as association lists, natural numbers as qubit indices where Python would also take negative ones, and no resource limits. Further simplifications stand in the comment of each definition.

### 4.3 External parties

These are parameters of the model. A theorem holds for every behaviour of the party, or for those meeting the contract named here; each contract is met by an example beside the theorems.

| Party | In the model | Contract |
|---|---|---|
| device or backend running circuits | `Backend.Runner`, `Simulator.native`, `Tracker` device | none for counters, order and recorded data; for C68 the native part applies the operations it is given |
| random generators | `Chooser`, sampler and noise streams | none, or the result is one of the offered choices |
| `numpy.argsort`, `sorted`, iteration order of sets | `argsort`, `setOrder`, `mergeSort` | the result is a permutation in the documented order (stable where Python guarantees it) |
| sympy | `Expr`, `Codec`, `Diff`, `Sorting` keys | values of expressions are preserved; printing and parsing are inverse (C11); differences as in `DiffOk` (C83) |
| optimizer algorithms | programs that choose the next call from the answers so far | none |
| estimation methods and preprocessors | functions on lists of tasks | none, or one result per task in order |
| functions wrapped by recorders and cost functions | functions with a result, an exception and artifacts | none |
| numpy arrays | exact arrays; `tolist`, `array`, `dot`, `einsum` by definition | none |
| scipy sparse matrices | lists of triples; conversion sums duplicates | storage order is arbitrary |
| networkx | graphs as node lists with weighted edges | as documented for the calls used |
| JSON files | identity on the dictionaries that are written | keys are strings (C59 models the conversion) |
| printing and reading of numbers | `Numbers` (`repr`, `float`, `complex`) | `Prints`: reading back what was printed (C79) |
| identity of Python integers | `same` | equal for equal integers up to 256; arbitrary above (C61) |
| comparison of function objects | `SameFn` | `SameOk` (C83) |
| eigensolvers of numpy and scipy | `Eigen` and functions returning it | what they return are eigenvalues and eigenvectors, in the documented order, in any order for `eigsh` (C93, C94, C117, C134) |
| HDF5 and JSON files on disk | maps from names to contents | writing replaces the contents; a process can stop between any two writes (C98) |
| `uuid`, time stamps, working directory | parameters | a new temporary name is not the name of an existing file (C98) |
| distribution of draws from numpy | a probability measure on the draws | draws are independent with the given probabilities (C103 to C105, C129) |
| modules and attributes looked up by name | maps from names to objects | none (C100, C108, C109) |

### 4.4 Modelled code

| Lean module | Python files it cites |
|---|---|
| `AnalysisStep` | `hamiltonian.py`, `steps/measure.py` |
| `Ansatz` | `interfaces/ansatz.py`, `interfaces/ansatz_utils.py`, `interfaces/mock_objects.py`, `utils.py` |
| `ArraySerde` | `measurement.py`, `openfermion/ops/representations/interaction_operator.py`, `utils.py`, `openfermion/zapata_utils/_io.py` |
| `Attr` | `cost_function_augmentations.py`, `interfaces/functions.py`, `history/recorder.py` |
| `BKInteraction` | `openfermion/transforms/opconversions/bravyi_kitaev.py` |
| `Backend` | `interfaces/backend.py`, `interfaces/mock_objects.py`, `measurement.py`, `symbolic_simulator.py`, `trackers.py` |
| `Bits` | `circuits/_unitary_tools.py`, `utils.py`, `wavefunction.py` |
| `BravyiKitaev` | `openfermion/transforms/opconversions/bravyi_kitaev.py` |
| `BuildSteps` | `circuits/layouts.py`, `steps/circuit.py` |
| `Chemist` | `openfermion/transforms/opconversions/term_reordering.py` |
| `Circuit` | `circuits/_circuit.py`, `circuits/_gates.py` |
| `CircuitSteps` | `circuits/_serde.py`, `circuits/_testing.py`, `steps/circuit.py` |
| `Compat` | `wip/compatibility_tools.py` |
| `Contract` | `circuits/_builtin_gates.py`, `estimation/_estimation.py`, `interfaces/estimator_contract.py`, `interfaces/estimation.py` |
| `CostFunction` | `cost_function.py`, `cost_function_augmentations.py`, `interfaces/ansatz_utils.py`, `measurement.py` |
| `CostGradient` | `cost_function.py`, `gradients.py`, `utils.py` |
| `CreateObject` | `utils.py` |
| `Discretize` | `utils.py` |
| `Distribution` | `distribution/_measurement_outcome_distribution.py`, `distribution/clipped_negative_log_likelihood.py`, `distribution/jensen_shannon_divergence.py`, `distribution/mmd.py` |
| `Equality` | `circuits/_circuit.py`, `circuits/_gates.py` |
| `Estimation` | `circuits/_builtin_gates.py`, `estimation/_estimation.py`, `hamiltonian.py`, `interfaces/estimation.py`, `openfermion/zapata_utils/_utils.py` |
| `Evaluate` | `openfermion/zapata_utils/_utils.py` |
| `Evolution` | `circuits/_builtin_gates.py`, `evolution.py` |
| `ExampleFunctions` | `history/example_functions.py` |
| `Expectation` | `estimation/_estimation.py`, `openfermion/zapata_utils/_utils.py`, `interfaces/backend.py`, `openfermion/linalg/sparse_tools.py`, `openfermion/ops/operators/symbolic_operator.py` |
| `Expr` | `circuits/_operations.py` |
| `Fermion` | `openfermion/ops/operators/fermion_operator.py`, `openfermion/transforms/opconversions/jordan_wigner.py`, `openfermion/utils/operator_utils.py`, `openfermion/transforms/opconversions/term_reordering.py` |
| `FermionTools` | `openfermion/utils/commutators.py`, `openfermion/ops/operators/fermion_operator.py`, `openfermion/utils/operator_utils.py`, `openfermion/ops/operators/qubit_operator.py`, `openfermion/hamiltonians/special_operators.py`, `openfermion/ops/operators/symbolic_operator.py`, `openfermion/zapata_utils/_utils.py` |
| `Files` | `openfermion/zapata_utils/_io.py`, `circuits/layouts.py`, `measurement.py`, `serialization.py`, `utils.py`, `wavefunction.py` |
| `FlipWavefunction` | `wavefunction.py` |
| `Gates` | `circuits/_builtin_gates.py`, `circuits/_gates.py`, `circuits/_matrices.py` |
| `GeneralHubbard` | `openfermion/hamiltonians/general_hubbard.py` |
| `Generators` | `circuits/_builtin_gates.py`, `circuits/_generators.py`, `circuits/_wavefunction_operations.py`, `decompositions/_decomposition.py`, `decompositions/_zquantum_decompositions.py` |
| `Geometry` | `openfermion/chem/molecular_data.py` |
| `Gradient` | `gradients.py` |
| `Graph` | `graph.py` |
| `GraphSteps` | `graph.py`, `steps/graph.py` |
| `GroundState` | `openfermion/zapata_utils/_utils.py`, `openfermion/linalg/sparse_tools.py` |
| `Grouping` | `hamiltonian.py` |
| `Hubbard` | `openfermion/hamiltonians/hubbard.py` |
| `Inactive` | `openfermion/zapata_utils/_utils.py` |
| `JWInteraction` | `openfermion/transforms/opconversions/jordan_wigner.py` |
| `Layouts` | `circuits/layouts.py` |
| `LowestState` | `openfermion/linalg/sparse_tools.py` |
| `Matrices` | `circuits/_unitary_tools.py` |
| `MeasuredCost` | `estimation/_estimation.py` |
| `Measurement` | `measurement.py`, `utils.py` |
| `MolHeap` | `openfermion/ops/representations/interaction_operator.py`, `openfermion/chem/molecular_data.py` |
| `MolName` | `openfermion/chem/molecular_data.py`, `openfermion/transforms/repconversions/conversions.py` |
| `MolStore` | `openfermion/chem/molecular_data.py`, `openfermion/transforms/repconversions/conversions.py` |
| `Molecule` | `openfermion/ops/representations/interaction_operator.py`, `openfermion/chem/molecular_data.py`, `openfermion/chem/reduced_hamiltonian.py` |
| `Nested` | `interfaces/mock_objects.py`, `interfaces/optimizer.py`, `interfaces/optimizer_test.py` |
| `OpFiles` | `openfermion/config.py`, `openfermion/utils/operator_utils.py` |
| `OpHeap` | `openfermion/ops/operators/symbolic_operator.py` |
| `OpLaws` | `openfermion/ops/operators/symbolic_operator.py` |
| `OpSerde` | `openfermion/zapata_utils/_io.py` |
| `OpString` | `openfermion/ops/operators/fermion_operator.py`, `openfermion/ops/operators/ising_operator.py`, `openfermion/ops/operators/symbolic_operator.py`, `openfermion/ops/operators/qubit_operator.py` |
| `OperatorEdit` | `hamiltonian.py`, `steps/operators.py`, `openfermion/zapata_utils/_io.py`, `openfermion/zapata_utils/_utils.py` |
| `OperatorSteps` | `steps/operators.py` |
| `OptimizeStep` | `cost_function.py`, `gradients.py`, `history/recorder.py`, `interfaces/optimizer.py`, `serialization.py`, `steps/circuit.py`, `steps/optimize.py` |
| `Optimizer` | `interfaces/optimizer.py`, `interfaces/mock_objects.py`, `history/recorder.py` |
| `OutcomeDistribution` | `interfaces/backend.py` |
| `PauliCircuits` | `openfermion/zapata_utils/_utils.py`, `circuits/_builtin_gates.py` |
| `PauliDecomp` | `openfermion/zapata_utils/_utils.py`, `utils.py` |
| `PolyTensor` | `openfermion/zapata_utils/_utils.py`, `openfermion/ops/representations/interaction_operator.py`, `openfermion/ops/representations/polynomial_tensor.py`, `openfermion/transforms/repconversions/conversions.py`, `openfermion/transforms/opconversions/conversions.py` |
| `PyDict` |  |
| `RandomGraph` | `graph.py` |
| `RandomOps` | `testing/_initialize.py`, `openfermion/zapata_utils/_utils.py` |
| `Rdm` | `openfermion/measurements/get_interaction_rdm.py`, `hamiltonian.py`, `openfermion/ops/representations/interaction_rdm.py`, `openfermion/zapata_utils/_utils.py` |
| `Recorder` | `history/recorder.py`, `history/save_conditions.py` |
| `Reorder` | `openfermion/zapata_utils/_utils.py`, `openfermion/utils/indexing.py`, `openfermion/transforms/opconversions/term_reordering.py` |
| `ResultEq` | `measurement.py`, `utils.py` |
| `ResultSerde` | `history/recorder.py`, `serialization.py`, `utils.py` |
| `ReverseJW` | `openfermion/transforms/opconversions/reverse_jordan_wigner.py`, `openfermion/utils/operator_utils.py`, `openfermion/hamiltonians/special_operators.py` |
| `Sampler` | `estimation/_estimation.py`, `interfaces/backend.py`, `measurement.py`, `symbolic_simulator.py` |
| `Sector` | `openfermion/linalg/sparse_tools.py` |
| `Serde` | `circuits/_builtin_gates.py`, `circuits/_circuit.py`, `circuits/_gates.py`, `circuits/_serde.py`, `utils.py` |
| `Sorting` | `circuits/symbolic/_sorting.py`, `cost_function.py` |
| `Sparse` | `openfermion/linalg/sparse_tools.py` |
| `Spectrum` | `openfermion/linalg/sparse_tools.py`, `openfermion/utils/operator_utils.py` |
| `Steps` | `circuits/_circuit.py`, `interfaces/backend.py`, `steps/circuit.py`, `steps/evaluation.py`, `steps/measure.py`, `steps/optimize.py`, `symbolic_simulator.py`, `trackers.py` |
| `SymOp` | `openfermion/ops/operators/fermion_operator.py`, `openfermion/ops/operators/ising_operator.py`, `openfermion/config.py`, `openfermion/ops/operators/symbolic_operator.py`, `openfermion/ops/operators/qubit_operator.py` |
| `Symbolic` | `circuits/symbolic/expressions.py`, `circuits/symbolic/sympy_expressions.py`, `circuits/symbolic/translations.py` |
| `Tapering` | `openfermion/transforms/repconversions/operator_tapering.py` |
| `TensorHeap` | `openfermion/ops/representations/polynomial_tensor.py` |
| `TensorTools` | `openfermion/ops/representations/interaction_operator.py`, `openfermion/ops/representations/polynomial_tensor.py` |
| `UnitaryCC` | `openfermion/circuits/unitary_cc.py` |
| `UnitaryChecks` | `utils.py` |
| `Version` |  |
| `Wavefunction` | `wavefunction.py` |
| `WfHeap` | `wavefunction.py` |
| `Workflow` | `openfermion/ops/representations/interaction_operator.py`, `openfermion/transforms/opconversions/jordan_wigner.py`, `openfermion/ops/representations/polynomial_tensor.py`, `steps/evaluation.py`, `steps/measure.py`, `steps/operators.py`, `steps/transforms.py`, `openfermion/transforms/opconversions/conversions.py`, `openfermion/zapata_utils/_io.py` |

### 4.5 Code that is not modelled

Functions of `/repo/src/python/zquantum/core` that no definition cites. They are of these kinds: abstract methods, protocols and property getters whose whole body is the field or a `pass`; `__repr__`/`__str__` for display; file opening around a conversion that is modelled; constructors that only store their arguments; overloads that only declare a type; and functions not reached yet.

* `bitstring_distribution.py` (0 of 2 functions cited): `BitstringDistribution.get_qubits_number`, `BitstringDistribution.__repr__`.
* `circuits/_compatibility.py` (0 of 1 functions cited): `new_circuit_from_old_circuit`.
* `circuits/_gates.py` (43 of 54 functions cited): `Gate.name`, `Gate.num_qubits`, `Gate.matrix`, `Gate.controlled`, `Gate.dagger`, `Gate.bind`, `Gate.replace_params`, `Gate.__call__`, `_all_attrs_equal`, `CustomGateMatrixFactory.matrix`, `CustomGateMatrixFactory.params_ordering`.
* `circuits/_operations.py` (5 of 10 functions cited): `Operation.params`, `Operation.bind`, `Operation.replace_params`, `Operation.apply`, `Operation.free_symbols`.
* `circuits/_serde.py` (22 of 27 functions cited): `builtin_gate_by_name`, `_matrix_to_json`, `_matrix_from_json`, `_map_eager`, `_special_gate_from_dict`.
* `circuits/_unitary_tools.py` (7 of 9 functions cited): `_lift_matrix_numpy`, `_lift_matrix_sympy`.
* `circuits/_wavefunction_operations.py` (6 of 8 functions cited): `_is_real`, `_is_sympy_number_real`.
* `circuits/layouts.py` (13 of 15 functions cited): `save_circuit_layers`, `save_circuit_connectivity`.
* `cost_function_augmentations.py` (9 of 12 functions cited): `ConditionalSideEffect._act`, `FunctionLogger.__init__`, `function_logger`.
* `history/example_functions.py` (7 of 11 functions cited): `Function2.__init__`, `Function2.__eq__`, `Function5.__init__`, `Function5.__eq__`.
* `history/recorder.py` (14 of 18 functions cited): `recorder`, `recorder`, `recorder`, `recorder`.
* `interfaces/ansatz.py` (4 of 7 functions cited): `Ansatz.number_of_qubits`, `Ansatz.symbols_sort_key`, `Ansatz._generate_circuit`.
* `interfaces/ansatz_utils.py` (7 of 10 functions cited): `_InvalidatingSetter.__init__`, `_InvalidatingSetter.__get__`, `ansatz_property`.
* `interfaces/cost_function.py` (1 of 2 functions cited): `_CostFunction.__call__`.
* `interfaces/estimation.py` (1 of 3 functions cited): `EstimationPreprocessor.__call__`, `EstimationTasksFactory.__call__`.
* `interfaces/functions.py` (8 of 13 functions cited): `StoreArtifact.__call__`, `CallableWithGradient.__call__`, `CallableWithGradient.gradient`, `CallableStoringArtifacts.__call__`, `CallableWithGradientStoringArtifacts.gradient`.
* `interfaces/mock_objects.py` (10 of 11 functions cited): `MockQuantumBackend.__init__`.
* `interfaces/optimizer.py` (8 of 11 functions cited): `Optimizer.__init__`, `Optimizer._minimize`, `Optimizer._preprocess_cost_function`.
* `measurement.py` (31 of 33 functions cited): `save_parities`, `Measurements.__init__`.
* `openfermion/_compat.py` (0 of 1 functions cited): `wrap_module`.
* `openfermion/chem/molecular_data.py` (42 of 43 functions cited): `MolecularData.ccsd_double_amps`.
* `openfermion/ops/operators/fermion_operator.py` (5 of 6 functions cited): `FermionOperator.different_indices_commute`.
* `openfermion/ops/operators/ising_operator.py` (4 of 5 functions cited): `IsingOperator.different_indices_commute`.
* `openfermion/ops/operators/qubit_operator.py` (5 of 6 functions cited): `QubitOperator.different_indices_commute`.
* `openfermion/ops/operators/symbolic_operator.py` (34 of 43 functions cited): `SymbolicOperator.actions`, `SymbolicOperator.action_strings`, `SymbolicOperator.action_before_index`, `SymbolicOperator.different_indices_commute`, `SymbolicOperator.__repr__`, `SymbolicOperator.__div__`, `SymbolicOperator.__idiv__`, `SymbolicOperator.__eq__`, `SymbolicOperator.__ne__`.
* `openfermion/ops/representations/interaction_operator.py` (9 of 12 functions cited): `InteractionOperator.one_body_tensor`, `InteractionOperator.two_body_tensor`, `InteractionOperator.two_body_tensor`.
* `openfermion/ops/representations/interaction_rdm.py` (3 of 7 functions cited): `InteractionRDM.one_body_tensor`, `InteractionRDM.one_body_tensor`, `InteractionRDM.two_body_tensor`, `InteractionRDM.two_body_tensor`.
* `openfermion/ops/representations/polynomial_tensor.py` (24 of 30 functions cited): `PolynomialTensor.n_body_tensors`, `PolynomialTensor.n_qubits`, `PolynomialTensor.__mod__`, `PolynomialTensor.__sub__`, `PolynomialTensor.__mul__`, `PolynomialTensor.__rmul__`.
* `openfermion/transforms/opconversions/bravyi_kitaev.py` (22 of 27 functions cited): `bravyi_kitaev`, `_bravyi_kitaev_majorana_operator`, `_transform_majorana_term`, `inline_sum`, `inline_product`.
* `openfermion/zapata_utils/_io.py` (17 of 21 functions cited): `save_interaction_operator`, `save_qubit_operator`, `save_ising_operator`, `save_interaction_rdm`.
* `serialization.py` (8 of 12 functions cited): `OrquestraEncoder.default`, `OrquestraEncoder.encode`, `OrquestraEncoder.iterencode`, `OrquestraDecoder.__init__`.
* `typing.py` (0 of 5 functions cited): `Readable.read`, `Readable.writable`, `Writeable.write`, `Writeable.writable`, `SupportsLessThan.__lt__`.
* `utils.py` (33 of 34 functions cited): `ValueEstimate.value`.
* `wavefunction.py` (17 of 23 functions cited): `_cast_sympy_matrix_to_numpy`, `Wavefunction.amplitudes`, `Wavefunction.free_symbols`, `Wavefunction.__len__`, `Wavefunction.__iter__`, `Wavefunction.__str__`.

## 5. Disagreements between code and property

Each item is proved as a `_counterexample` theorem (or the theorem named) in the model.

* **C22** `dec2bin(2**w, w)` is accepted although it does not fit in `w` bits (`dec2bin_boundary_counterexample`); the tuple round trip fails
  for values of several digits (`tuples_roundtrip_counterexample`).
* **C03** `controlled(k)` with `k < 1` is rejected on plain gates but accepted on gates that are already controlled, e.g.
  `X.controlled(2).controlled(-1)` (`controlled_rejects_counterexample`).
* **C04** binding with a map whose values mention other keys of the map is sequential, not simultaneous, on compound expressions
  (`bind_open_map_counterexample`); calling a custom gate with arguments that mention its own parameter names captures them
  (`custom_call_counterexample`).
* **C07** `Circuit([]).to_unitary()` raises `TypeError` (`toUnitary_empty`).
* **C12** `build_..._layout` with an unknown layer type returns `None` instead of raising (`build_unknown_type`).
* **C16** decomposing a controlled U3 drops a relative phase: the result equals the original up to a scalar only if
  `exp(-i(phi+lambda)/2) = 1` (`u3_decomposition_ctrl_only_if`, `u3_decomposition_counterexample`); `decompose_zquantum_circuit` loses a declared
  register size (`decompose_register_counterexample`).
* **C11** the definition of a custom gate used only inside `Control`/`Dagger` is not written, loading raises `ValueError`
  (`wrapped_custom_counterexample`); a custom gate named like a module-level name of the built-in gates is loaded as that object
  (`custom_named_builtin_counterexample`); parameters of a custom gate after the first are parsed without any symbol names, so names that sympy
  reserves are lost (`custom_reserved_counterexample`); definitions with the same name whose entries agree on the common prefix count as equal
  (`same_name_prefix_counterexample`).
* **C28** a distribution over one subsystem with an outcome of two or more digits, e.g. `(12,)`, is saved under the key `"12"` and loaded as the
  two-subsystem outcome `(1, 2)` (`save_load_counterexample`).
* **C42** `op -= op` on the same object changes the dictionary while iterating over it and raises `RuntimeError` (`isub_same_object`); `+` drops a
  partial sum below `1e-8`, so the result can depend on the order of additions at the `1e-8` level (`add_error`, `add_comm_isclose`).
* **C43** `isclose` multiplies its tolerance by every large coefficient met so far and never resets it, so operators with an arbitrarily large
  relative difference compare equal after enough large equal coefficients (`isclose_counterexample`).
* **C45, C46** sums of transformed terms pass through `+=`; the theorems are exact for coefficients on a grid coarser than the tolerance and give
  an explicit bound of `1e-8` per addition otherwise.
* **C44** `is_hermitian(10**9 * a†_1 a_1 + 0.5 * a†_0)` is `True` although the operator is not Hermitian: a consequence of C43
  (`isHermitian_counterexample`).
* **C35** `evaluate_estimation_circuits` zips tasks and maps: with one map for several tasks, which the docstring allows, all but the first task are lost
  (`evaluateCircuits_counterexample`, `evaluateCircuits_counterexample_witness`).
* **C34** a task with zero shots evaluates to 0 even if its operator has a constant term besides other terms (second clause of
  `estimateByAveraging_spec`).
* **C37, C38, C47, C48, C50** results are built with `+=`, which drops terms with a coefficient below `1e-8`; the theorems state the result including
  the dropped terms (`bigTerms`).  The direct transform of interaction operators is C92.
* **C40** `time_evolution_derivatives` with `trotter_order > 1` surrounds the shifted step with evolutions for the full `time` instead of
  `time / trotter_order`, so the shift rule fails (`evolutionDerivatives_counterexample`: `H = X0`, order 2, time π/2, derivative 0, code 2).
  `time_evolution` of an operator with no terms, or with order below 1, raises `TypeError` (reduce of an empty sequence, `timeEvolution_rejects`).
* **C31** `MeasurementTrackingBackend` clears `raw_data` at the start of every call and opens its file with mode `w+`, so after several calls the file holds
  only the records of the last one (`tracker_counterexample`, `tracker_file_partial`); its own counters are never incremented (`tracker_counters`).
* **C32** `SymbolicSimulator.run_circuit_and_measure` does not call the base method: a call with fewer than one sample is rejected only after the
  wavefunction has been computed and counted (`symbolicRun_counterexample`); a circuit without operations is not counted (`symbolicRun_spec`).
* **C33** (outside the claim) a method decorated with `invalidates_parametrized_circuit` that raises after changing a property leaves the old circuit in the
  cache (`ansatz_failing_method_counterexample`).
* **C69** different names can have the same natural key (`x1`, `x01`), their order is then the order of appearance (`natural_key_not_injective`).
* **C49** a `1 × 1` matrix is rejected although `1 = 2^0` (`getQubitopFromMatrix_one_by_one_counterexample`); rows longer than the first are accepted and
  their extra entries ignored (`getQubitopFromMatrix_ragged_counterexample`); coefficients below `1e-8` are dropped, so the matrix is reproduced up to
  `2^n * 1e-8` per entry (`getQubitopFromMatrix_partial`).
* **C53** `a -= b` stores an array of `b` whose key `a` lacks without changing its sign, so `(a - b)` has `+b` there (`isub_counterexample`).
* **C72** comparing two tensors of dimension zero raises `ValueError` (maximum of an empty array, `eq_dimension_zero`).
* **C73** `get_polynomial_tensor` of an operator whose normal form is a constant or zero raises `StopIteration` (`getPolynomialTensor_counterexample`).
* **C74** `a + b` and `a += b` store the array of `b` itself where `a` has none; a later `*=` or `/=` or item assignment on the sum changes `b`
  (`add_aliasing_counterexample`).
* **C59** an array of shape `(0, 3)` comes back with shape `(0,)` (`array_roundtrip_counterexample`); the complex type of a zero-dimensional array with
  zero imaginary part and of an empty array is lost; an empty list of correlations or covariances comes back as `None`.
* **C52** loading adds the terms one by one with `+=`, so terms with a coefficient below `1e-8` are dropped (`kept`).
* **C58** `compare_graphs` zips nodes and edges: a graph and a prefix of it compare equal, weights are ignored, and equal graphs built in another order
  differ (`compareGraphs_counterexample`).
* **C65** nested optimisation: a first round without gradient record followed by one with it raises `KeyError`, and in the other order the gradient
  history keeps only some rounds (`nestedHistories_counterexample`).
* **C76** `augment_cost_function` with gradient augmentations but no cost function augmentations returns the original function: the gradient
  augmentations are dropped without an error (`augment_gradient_counterexample`).
- C55: a sympy function named like one of the native operations (`sympy.Function("add")`) is translated into that operation, so its value changes (`fromSympy_value_counterexample`). `translate_expression` of an object of an unregistered type returns `None` instead of raising. `sympy.pi` and `sympy.E` are refused with `NotImplementedError`.
- C61: `freeze_orbitals` compares orbital indices with `is`; an index above 256 need not be recognised and then stays unfrozen (`freezeOrbitals_identity_counterexample`). Its argument `prune` is never read, the result is always pruned (`freezeOrbitals_prune_ignored`). The swap count in the loop is short by one per moved operator; the error cancels because kept terms have an even number of operators on the frozen mode (part of `freezeOrbitals_spec_partial`).
- C78: `jordan_wigner` of an interaction operator that is not Hermitian silently returns the transform of its Hermitian part outside the diagonal (`jwInteraction_symmetrised`, `jwInteraction_counterexample`). `n_qubits` larger than the operator raises `IndexError` instead of padding (`jwInteraction_nQubits`).
- C79: the zero fermion operator is printed as `0`, which the constructor reads as the annihilation operator of mode 0; for qubit operators it is refused (`fermion_zero_counterexample`, `qubit_zero_counterexample`). An operator with small terms only is printed as the empty text, which is read as the identity (`qubit_small_counterexample`). The coefficient text `-1+2j` is read as `-1-2j` (`minus_complex_counterexample`).
- C83: `_are_matrices_equal` zips the entries without comparing shapes, so custom definitions on different numbers of qubits can compare equal (`defEqual_shape_counterexample`); gates made from them differ because their `num_qubits` is compared too. Equality is tolerance based and not transitive (`gateEqual_not_transitive_counterexample`), while the generated `__hash__` of the frozen dataclasses hashes the exact parameters: equal gates can have different hashes.
- Not tied to one property: `save_optimization_results` adds a `schema` entry to the dictionary it is given, and `save_parameter_grid_evaluation` replaces the value estimates in its argument by dictionaries. `reverse_qubit_order` without `n_qubits` is not an involution when the reversal leaves the highest qubits idle. The mock optimizer used as a reference implementation overwrites the array of initial parameters it is given. Finite differences with step zero divide by zero.
- C84: the decoder guesses the kind of a dictionary from its contents. A dictionary whose values are all numbers is taken for a measurement outcome distribution: if a key contains a letter, `preprocess_distibution_dict` raises a `ValueError`, so results whose artifacts are, say, `{"energy": 0.5}` are saved without complaint and cannot be loaded (`numbers_not_loaded`, `artifacts_counterexample`); with digits for keys the dictionary comes back as a distribution (`digits_counterexample`). A dictionary with a `real` entry comes back as an array without its other entries (`real_counterexample`). Saving also adds the schema to the caller's own dictionary (`save_twice`).
- C85: the conjugate of an excitation gets minus its amplitude and not minus the complex conjugate, so complex amplitudes do not give a unitary (`complex_counterexample`). With more occupied orbitals than orbitals `uccsd_singlet_paramsize` returns a negative number or a wrong one instead of failing (`paramsize_counterexample`). The statements about what a generator does as an operator assume amplitudes on a grid coarser than the tolerance below which `+=` drops a coefficient; anti-Hermiticity and particle number need no such assumption.
- C86: `compare_unitary` divides by the top left entry of `u1† u2`: for two unitaries whose first columns are orthogonal, such as the identity and the X gate, it raises a `ZeroDivisionError` instead of returning False (`compare_answers_partial`, `compare_counterexample`). `np.allclose` adds a relative tolerance of 10⁻⁵, so the given tolerance (10⁻¹⁵ by default) is not the threshold for entries on the diagonal (`tolerance_counterexample`).
- C87: `get_expectation_values_from_rdms` rebuilds the operator with `+=`, which drops terms with coefficients below 10⁻⁸, so the list of values can be shorter than the list of terms (`values_counterexample`). `InteractionRDM.expectation` accepts an interaction operator of another dimension if one of the dimensions is one: numpy broadcasts and the result is no expectation value (`broadcast_counterexample`).
- C89: the eightfold symmetry that `unique_iter` documents and uses for real coefficients (`pqrs = psrq`) is not the symmetry of the two-electron integrals of real orbitals in the index convention of this class (`pqrs = sqrp`): for such integrals the Coulomb integral of two orbitals is taken for their exchange integral and never yielded (`unique_counterexample`). The theorems about `unique_iter` are about the documented symmetry.
- C91: with a reference other than the default one and an excitation level below the number of electrons, a term that leads to a determinant outside the space with a larger encoding than all in it raises `IndexError` (`searchsorted` returns the length of the array) instead of leaving the element out (`sector_counterexample`: reference 0011, level 1, `a†_1 a_3`). Success is proved for the default reference with any level, and for any reference with all determinants.
- C92: `bravyi_kitaev` of an interaction operator reads only the lower triangle of the one-body array and adds Hermitian conjugates; the transform of `a†_0 a_1` has no terms (`bkInteraction_counterexample`). `n_qubits` larger than the operator raises `IndexError` instead of padding (`bkInteraction_nQubits`).
- C94: `get_sparse_operator` ignores `n_qubits` for tensors of coefficients and drops the modes after the last one with a coefficient, so that the spectrum can have fewer than `2 ** n_qubits` entries (`eigenspectrum_tensor`, `eigenspectrum_tensor_counterexample`). An operator that differs from its adjoint by less than 1e-8 is treated as Hermitian, and its spectrum is that of another matrix (`eigenspectrum_near_counterexample`).
- C95: `remove_inactive_orbitals` drops active orbitals that no longer occur in any product and renumbers the others, so that the result can have fewer than `2 * n_active` orbitals and the alternation of spins is lost (`removeInactive_counterexample`).
- C96: the plain text format does not keep the zero operator: the zero fermion operator is loaded as the annihilation operator of mode 0, the zero qubit operator raises `ValueError` (`zero_counterexample`).
- C97: load functions that test `isinstance(file, str)` raise `AttributeError` for `os.PathLike` although the save functions accept them (`load_path_counterexample`); `save_nmeas_estimate` without frames writes a file that `load_nmeas_estimate` cannot read (`load_nmeas_counterexample`); `save_parameter_grid_evaluation` changes the caller's list, so that a second call fails (`grid_twice_counterexample`); a save call that raises `TypeError` has already emptied the file (`failed_save_counterexample`).
- C98: assigning `None` to an attribute loaded on demand has no effect once it was saved (`none_counterexample`); a molecule without general calculations cannot be saved after it was loaded by file name (`AttributeError`, `resave_counterexample`); `load` keeps attributes already read and general calculations, so that an object can mix two versions of the file (`stale_counterexample`, `general_counterexample`); `save` removes the file before it moves the new one, so that a process stopped in between leaves no file (`crash_counterexample`).
- C99: `get_molecular_data` keeps half of the two-electron integrals of the molecule whose Hamiltonian it is given, so that the Hamiltonian of its result is another one (`data_hamiltonian_counterexample`); the name of a charged molecule equals that of a neutral one with a suitable description, so that both use one file (`name_counterexample`); a multiplicity that is impossible for the number of electrons is accepted and an electron is lost (`alpha_beta_counterexample`); active electrons without active orbitals raise `TypeError` (`load_counterexample`).
- C100: assigning `gradient` of a function with gradient, or of an augmented one, succeeds and lands on the wrapped function, while the wrapper keeps its old gradient (`gradient_assignment_counterexample`, `gradient_override_counterexample`).
- C101: wrappers pass on `__code__`, so `inspect.signature` reports the parameters of the wrapped function although the wrapper does not take them. With a function that stores artifacts, recording a logged function, recording a recorder, or adding a gradient to a recorder gives an object whose every call raises `TypeError` (`logged_recorded_counterexample`; the exact condition is `call_wrapped_storing`). Around callable objects the calls work, but a recorder outside a logger or another recorder collects no artifacts (`call_wrapped_object`).
- C104: for groups of several terms the recommended budget is too small, because covariances are taken to be zero: for X0 + X0 Z1 on two idle qubits the variance is 2 eps^2 with exactly the recommended shots (`budget_counterexample`); with k times the shots for groups of at most k terms, and so for terms measured one by one, it suffices (`budget_meets_partial`). Proportional allocation of fewer shots than tasks leaves tasks without shots, and their estimate is 0 with precision 0 (`proportional_starves`).
- C105: holds for simulators made without a seed (`simulator_measures`). With a seed, `sample_from_wavefunction` makes a new generator with that seed for each run, so every run restarts the same stream: the same circuit gives the same bitstrings in every history (`seeded_same`), means stay exact (`seeded_mean`), but estimating a task m times has m times the variance of independent measurements (`seeded_repeats`, `seeded_counterexample`). numpy's `Generator.choice` is modelled as documented by its source (cumulative sums, `searchsorted` on the right); that its numbers are independent and uniform in [0, 1) is a hypothesis.
- C106: holds for programs without aliases, `x += x`, `x -= x` and iteration (`value_semantics`). `x -= x` raises RuntimeError for every non-zero operator and has removed its first term (`isub_self_counterexample`). `__iter__` stores the iterator in the operator and returns the operator itself, so nested loops over one operator stop after the first outer turn (`nested_counterexample`), `zip(op, op)` pairs consecutive terms (`zip_counterexample`), and after an unfinished iteration and an added term every expression with the operator raises RuntimeError because `copy.deepcopy` cannot copy the stored iterator (`unfinished_iteration_counterexample`). CPython's dictionary iterators and `copy.deepcopy` are modelled, not proved.
- C107: the families, the Erdős-Rényi distribution, unseeded weights and repeatability are proved. With a seed, networkx and the weights use the same stream of random numbers, so weights are not independent of the graph: whenever nodes 0 and 1 are connected, the weight of this edge is below p (`seeded_weights_counterexample`). The required key num_nodes is ignored by caveman, ladder and barbell graphs (`specs_nodes_counterexample`). networkx and the module random are modelled from their documented behaviour, not proved.
- C108: proved for classes and for functions without *args or **kwargs. Parameters meant for the **kwargs of a function are dropped (`create_variadic_counterexample`); a noise model saved with the name of a class is not loaded by calling the class with the data (`noise_class`, `noise_class_counterexample`).
- C109: the parameters every class is called with are proved for single calls and for all histories, which shows where the property fails: the noise model, connectivity and preprocessors of a call stay in the dictionary (`measure_noise_counterexample`, `cost_preprocessors_counterexample`); specifications of a QAOA ansatz that went through the optimization step cannot be evaluated (`optimize_then_evaluate_counterexample`); a class whose constructor does not name track_measurements, such as every backend in this repository, cannot be tracked (`tracking_rejected`, `tracking_counterexample`); preprocessors that are classes do not ignore prior_expectation_values (`prior_class_counterexample`); three steps always raise an exception because they use an attribute or name that does not exist (`evaluate_parametrized_counterexample`, `expectation_step_counterexample`, `summed_step_counterexample`; the lists of attributes and imported names are transcribed).
- C110: `one_qubit_counterexample`: an element that is zero is not stored, so the step raises KeyError on operators whose matrix is well defined, such as the identity; `one_qubit_defined` says exactly when it succeeds. `one_qubit_error` bounds the effect of dropping terms below 1e-8 and `one_qubit_matrix` is exact for coefficients on a grid. `local_zero_counterexample`: above 10^8 qubits each coefficient 1/n is below the tolerance of `-=` and the operator is the identity. An eps that is NaN is not modelled.
- C111: fails in three places: at most 4^n terms can be different, so asking for more gives fewer (`random_qubitop_counterexample`); generate_random_qubitop never ends if more strings are asked for than exist (`generate_counterexample`); the seed 0 is ignored by create_random_wavefunction (`random_wavefunction_counterexample`). The distribution of the results is not modelled here.
- C112: `random_circuit_counterexample`: the register is the smallest that holds the gates, not n_qubits, and for one qubit a ValueError is possible. `batch_history_counterexample`: batch_circuits changes the list it is given, so later calls with it save more. `batch_self_counterexample`: with the same list as both arguments it never ends. That numpy keeps the lists of gates apart in an object array is trusted.
- C113: `decorate_counterexample`: if the function itself raises TranslationFailed the fallback runs after it, so effects happen twice; the other theorems assume it does not. The number of warnings is not modelled, but that warnings may be turned into exceptions is.
- C114: `contracts_counterexample`: an estimator that never runs a circuit and returns the coefficients of the operators meets all contracts, so they do not check values. `unseeded_counterexample`: averaging without a seed is refused by the order contract for some random numbers. Angles are real numbers, the numbers of a stream lie in [0, 1).
- C115: `lengthening_counterexample`: the code says that each round makes the vector of parameters longer by 1 and starts from it; the extended array is never used (`rounds_restart`, `length_kept`), and the caller's array is changed. `contracts_counterexample`: an optimizer that loses the history of all rounds but the last meets all contracts. Without rounds the call raises UnboundLocalError (`no_rounds`). All entries of the history of the library's nested optimizer have the call number 0 (`mock_spec`). Numbers are exact, the state after an exception is not modelled.
- C116: `slice_rejected_counterexample` and `slice_counterexample`: a rejected assignment to a slice raises and stays, because the saved value is a view of the memory that was overwritten. `array_counterexample`, `amplitudes_counterexample` and `overlap_counterexample`: writing to the array a wavefunction was made from, to `w.amplitudes`, or to another wavefunction that overlaps in part denormalises it without exception. `equal_counterexample`: `if a == b` and `a != b` raise ValueError for wavefunctions of one qubit or more, even for `a == a`. Numbers are exact, wavefunctions with free symbols are not in this model (see C20).
- C117: `workflow_energy_counterexample`: the number of orbitals is lost in the file with the transformed operator, so an operator that does not involve its last orbitals is diagonalised on fewer modes: for `a†_0 a_0` with two orbitals the value at one particle is 1 (a state with energy 0 exists), and two particles raise IndexError. `workflow_ground` says exactly what happens. `sorted_counterexample`: with `sort_terms=True` the expectation values come in another order than the terms in the file, and the sum is wrong. Proved for entries that are multiples of a number not smaller than 16e-8 (so that no intermediate coefficient is dropped as negligible); the types of coefficients, the time and the eigensolvers are parameters.
- C119: The steps are modelled from the objects created from specifications on (creation is C108, C109); reading the circuit from its file, the wrapping of backends and what files hold after an exception are not. The items of the result must be distinguishable after saving (hypothesis `Tidy`), as in C68. A precision that is nan is saved as null in the model. The cost function of the circuit step takes `store_artifact` and stores nothing: its history has entries with empty artifacts (`artifact_call` shows that the recorder of artifacts behaves as the simple one).
- C121 (partial): The docstring promises `M ~ K/eps^2` measurements for precision eps. Covariances of terms in a group are left out, so the true variance can be larger by up to the number of terms in the largest group (`budget_counterexample` of C104 shows it is); `analysis_workflow_partial` has this factor. Everything else in C121 is proved without restriction.
- C122: steps/operators.py:175 `remove_inactive_orbitals` hands `n_core=None` over when it is not given, and `2 * None` is a TypeError: without a number of core orbitals the step fails for every stored operator (`inactive_default_counterexample`), although the function it wraps has the default 0.
- C122: Reordering the modes changes the value that transforming and diagonalising give, although the lowest energies are the same: the ground state is looked for on the modes up to the last one that the operator involves (C117). For the number operator of the first of two modes and one particle, the value is 1 before and 0 after exchanging the modes (`reorder_value_counterexample`); `reorder_value_partial` has the operators that involve their last mode.
- C123: A sampler specification with a misspelled parameter is not refused: `{"function_name": "uniform_sampler", "maximum": 5}` gives weights between 0 and 1 (`sampler_misspelled_counterexample`), because `create_object` makes a partial function and ignores keys that are not parameters.
- C125: `number_operator` with particle-hole symmetry subtracts 1/2 whatever the coefficient, so `interaction_operator(i, j, c, particle_hole_symmetry=True)` is `(c n_i - 1/2)(n_j - 1/2)` and not `c (n_i - 1/2)(n_j - 1/2)`: with coefficient 2 it is 1/4 on the empty state and 3/4 on the full one (`interaction_counterexample`).
- C127: `function_3(-5)` stores "b101": `bin(params)[2:]` leaves part of the prefix for negative integers (`bitstring_counterexample`).
- C130: exact representation and closeness are proved when rounding gives the right number of samples. Otherwise the closeness promised by the docstring fails: the corrections are drawn with replacement, so for every n there is a distribution of which each outcome is expected half a time but all n samples can be the same outcome, although samples that are off by at most one half exist (`representing_counterexample`). What holds then is the bound of C24.
- C131: neither measure is smallest for equal distributions. For every epsilon up to one half there is a target and a different distribution that both measures report as nearer to the target than the target itself, and the Jensen-Shannon divergence of a distribution from itself is its clipped entropy instead of zero (`nearest_counterexample`). Proved are the bound by which they can fail, epsilon times the number of outcomes, and that the likelihood is smallest for the target among the distributions that clipping does not touch.
- C132: two methods hand out the molecule's own arrays. `get_molecular_rdm` sets small entries of the molecule's density matrices to zero, which saving makes permanent, and updating the density matrices or the integrals handed out changes the molecule and, once saved, its file (`molecule_changes_counterexample`). The other methods are proved to be free of both.
- C133: the Jensen-Shannon divergence between the exact distribution of a circuit and a measured one does not tend to zero with the number of samples but to the clipped entropy of the circuit, which is zero only if one outcome is certain (`divergence_of_measured`, `clippedEntropy_eq_zero`); for one qubit after a Hadamard gate the limit is `log 2` (`divergence_limit_counterexample`).
- C137: the finite differences of a symbol that occurs in two gates are not proportional to the derivatives: for RX(t) RX(t) and Z the energy is cos 2t, and with the step pi/2 all differences are zero (`difference_counterexample`). For symbols that turn one gate the factor sin(h)/h is proved.
- C139: a version without a patch number whose label begins with a digit is not read back: 1.2 with the label 5rc is printed as 1.2.5rc and read as 1.2.5 (`roundtrip_counterexample`); `roundtrip_iff` says exactly which versions are read back.
- C148: expectation values that hold the same cannot be compared with `==` unless they share their arrays: with two or more values the comparison raises `ValueError`, because the truth value of an array is asked for (`eq_counterexample`, `eq_raises`), also after a round trip through the dictionary (`eq_roundtrip_raises`); with older versions of numpy no values differ from no values (`eq_empty_counterexample`). An answer `True` is right (`eq_true`), and `False` is right if no array is empty (`eq_false_partial`).
- C150: `time_evolution` for a time followed by `time_evolution` of the same operator for the negative time does not restore the state unless the terms commute, because both go through the terms in the same order: for `X0 + Z0`, time π/4 and one step, the expectation value of `Z0` goes from 1 to 0 (`there_and_back_counterexample`). With the terms in the reverse order it is undone exactly (`reversed_back`); with commuting terms times add (`evolutions_add_partial`, `there_and_back_partial`).
- C151: the total of a sum of operators need not be the sum of their totals: `4e-9 Z0 + 4e-9 Z0` is the zero operator, because sums drop terms with coefficients below 1e-8 (`total_add_counterexample`). Otherwise it is exact (`total_add_partial`), and always within 1e-8 for each term (`total_add_bound`).
