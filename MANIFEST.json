{
 "claims": [
  {
   "property": "C01",
   "status": "proved",
   "theorems": [
    "ZQ.Gates.builtin_shape",
    "ZQ.Gates.builtin_unitary",
    "ZQ.Gates.builtin_hermitian"
   ],
   "note": "all 22 built-in gates, all real parameters"
  },
  {
   "property": "C02",
   "status": "proved",
   "theorems": [
    "ZQ.Gates.dagger_is_adjoint",
    "ZQ.Gates.dagger_onBits",
    "ZQ.Gates.dagger_dagger_matrix",
    "ZQ.Gates.dagger_dagger_eq",
    "ZQ.Gates.dagger_keeps",
    "ZQ.Gates.gate_unitary",
    "ZQ.Gates.dagger_inverse",
    "ZQ.Gates.builtin_wf",
    "ZQ.Serde.customGate_wf",
    "ZQ.Serde.customGate_dagger"
   ],
   "note": "any nesting, base gates with truthful hermitian flag"
  },
  {
   "property": "C03",
   "status": "partial",
   "theorems": [
    "ZQ.Gates.controlled_spec",
    "ZQ.Gates.controlled_controlled",
    "ZQ.Gates.controlled_dagger",
    "ZQ.Gates.controlled_rejects_partial",
    "ZQ.Gates.controlled_rejects_counterexample",
    "ZQ.Gates.controlled_of_controlled"
   ],
   "note": "everything proved except the rejection of k<1, which is false in the code for already controlled gates (counterexample proved)"
  },
  {
   "property": "C04",
   "status": "partial",
   "theorems": [
    "ZQ.Gates.bind_matrix",
    "ZQ.Gates.bind_total",
    "ZQ.Gates.bind_dagger",
    "ZQ.Gates.bind_controlled",
    "ZQ.Gates.bind_free_symbols",
    "ZQ.Gates.bind_numbers_not_free",
    "ZQ.Gates.bind_bind",
    "ZQ.Gates.replaceParams_spec",
    "ZQ.Gates.bind_open_map_counterexample",
    "ZQ.Gates.custom_call_counterexample",
    "ZQ.Gates.custom_by_value"
   ],
   "note": "bind_matrix holds for maps whose values mention no mapped symbol but possibly their own key; false for other maps (counterexample proved)"
  },
  {
   "property": "C05",
   "status": "proved",
   "theorems": [
    "ZQ.LiftProps.lift_acts_on_its_qubits",
    "ZQ.LiftProps.lift_entry",
    "ZQ.LiftProps.lift_no_qubits",
    "ZQ.LiftProps.lift_rejects_duplicates",
    "ZQ.LiftProps.lift_rejects_outside"
   ],
   "note": ""
  },
  {
   "property": "C06",
   "status": "proved",
   "theorems": [
    "ZQ.LiftProps.lift_one",
    "ZQ.LiftProps.lift_mul",
    "ZQ.LiftProps.lift_adjoint",
    "ZQ.LiftProps.lift_unitary",
    "ZQ.LiftProps.lift_disjoint_commute",
    "ZQ.LiftProps.lift_register_size"
   ],
   "note": ""
  },
  {
   "property": "C07",
   "status": "proved",
   "theorems": [
    "ZQ.Circuits.toUnitary_spec",
    "ZQ.Circuits.toUnitary_empty",
    "ZQ.Circuits.toUnitary_append",
    "ZQ.Circuits.applyAll_spec",
    "ZQ.Circuits.applyAll_toUnitary",
    "ZQ.Circuits.toUnitary_unitary"
   ],
   "note": ""
  },
  {
   "property": "C08",
   "status": "proved",
   "theorems": [
    "ZQ.Circuits.make_default",
    "ZQ.Circuits.make_explicit",
    "ZQ.Circuits.make_rejects",
    "ZQ.Circuits.make_zero",
    "ZQ.Circuits.make_inv",
    "ZQ.Circuits.append_circuit",
    "ZQ.Circuits.append_op",
    "ZQ.Circuits.append_op_eq_circuit",
    "ZQ.Circuits.append_assoc",
    "ZQ.Circuits.append_other"
   ],
   "note": "values are immutable in the model, so 'inputs are not modified' holds by construction"
  },
  {
   "property": "C09",
   "status": "proved",
   "theorems": [
    "ZQ.Circuits.circuit_bind_spec",
    "ZQ.Circuits.circuit_bind_append",
    "ZQ.Circuits.circuit_free_symbols",
    "ZQ.Circuits.circuit_bind_all"
   ],
   "note": "for gates reachable through the API"
  },
  {
   "property": "C10",
   "status": "proved",
   "theorems": [
    "ZQ.Circuits.split_spec"
   ],
   "note": "any predicate with decidable equality of values"
  },
  {
   "property": "C11",
   "status": "partial",
   "theorems": [
    "ZQ.Serde.circuit_roundtrip_partial",
    "ZQ.Serde.circuit_roundtrip_builtin",
    "ZQ.Serde.circuitset_roundtrip",
    "ZQ.Serde.wrong_schema",
    "ZQ.Serde.collect_spec",
    "ZQ.Serde.wrapped_custom_counterexample",
    "ZQ.Serde.custom_named_builtin_counterexample",
    "ZQ.Serde.custom_reserved_counterexample",
    "ZQ.Serde.same_name_prefix_counterexample",
    "ZQ.Serde.mkDef_spec"
   ],
   "note": "proved for all built-in circuits and for custom gates under four provisos; each proviso is shown necessary by a counterexample in which the code loses or changes the circuit; sympy printing/parsing is a parameter with a stated contract"
  },
  {
   "property": "C12",
   "status": "proved",
   "theorems": [
    "ZQ.Layouts.nearest_connectivity",
    "ZQ.Layouts.nearest_layers"
   ],
   "note": ""
  },
  {
   "property": "C13",
   "status": "proved",
   "theorems": [
    "ZQ.Layouts.sycamore_ok_iff",
    "ZQ.Layouts.sycamore_connectivity",
    "ZQ.Layouts.sycamore_ends",
    "ZQ.Layouts.sycamore_layers",
    "ZQ.Layouts.sycamore_cover"
   ],
   "note": "all grid sizes, both colour patterns"
  },
  {
   "property": "C14",
   "status": "proved",
   "theorems": [
    "ZQ.Circuits.apply_gate_spec",
    "ZQ.Circuits.apply_gate_params",
    "ZQ.Circuits.layer_spec",
    "ZQ.Circuits.layer_params",
    "ZQ.Circuits.identity_operator",
    "ZQ.Circuits.ancilla_spec"
   ],
   "note": "the iteration order of a Python set is a parameter; for create_layer_of_gates it is assumed ascending on range(n), as in CPython"
  },
  {
   "property": "C15",
   "status": "proved",
   "theorems": [
    "ZQ.Circuits.MultiPhase.make_rejects_complex",
    "ZQ.Circuits.MultiPhase.make_accepts",
    "ZQ.Circuits.MultiPhase.apply_length_mismatch",
    "ZQ.Circuits.MultiPhase.apply_rejects",
    "ZQ.Circuits.MultiPhase.apply_spec",
    "ZQ.Circuits.MultiPhase.bind_apply"
   ],
   "note": ""
  },
  {
   "property": "C16",
   "status": "partial",
   "theorems": [
    "ZQ.Circuits.u3_decomposition_plain",
    "ZQ.Circuits.u3_decomposition_ctrl",
    "ZQ.Circuits.u3_decomposition_ctrl_partial",
    "ZQ.Circuits.u3_decomposition_ctrl_only_if",
    "ZQ.Circuits.u3_decomposition_counterexample",
    "ZQ.Circuits.u3_circuit_partial",
    "ZQ.Circuits.decompose_register_partial",
    "ZQ.Circuits.decompose_register_counterexample"
   ],
   "note": "proved for plain U3 at all real angles; for controlled U3 the property is false unless the dropped phase is 1 (proved both ways); a declared register size larger than needed is lost (counterexample)"
  },
  {
   "property": "C17",
   "status": "proved",
   "theorems": [
    "ZQ.Circuits.decompose_preserves",
    "ZQ.Circuits.decompose_preserves_general",
    "ZQ.Circuits.decompose_append",
    "ZQ.Circuits.decompose_unmatched",
    "ZQ.Circuits.decompose_rules_cons"
   ],
   "note": ""
  },
  {
   "property": "C18",
   "status": "proved",
   "theorems": [
    "ZQ.Wavefunction.dickeState_spec",
    "ZQ.Wavefunction.dickeState_rejects",
    "ZQ.Wavefunction.nextSameWeight_is_successor"
   ],
   "note": "every n and weight"
  },
  {
   "property": "C19",
   "status": "proved",
   "theorems": [
    "ZQ.Bits.flipBits_isBitReversal",
    "ZQ.Bits.flipBits_flipBits",
    "ZQ.Bits.flipAmplitudes_spec",
    "ZQ.Bits.flipAmplitudes_involutive",
    "ZQ.Bits.flipAmplitudes_perm"
   ],
   "note": ""
  },
  {
   "property": "C20",
   "status": "proved",
   "theorems": [
    "ZQ.Wavefunction.mk_valid",
    "ZQ.Wavefunction.mk_rejects_size",
    "ZQ.Wavefunction.setItem_spec",
    "ZQ.Wavefunction.wavefunction_history_valid",
    "ZQ.Wavefunction.bind_valid",
    "ZQ.Wavefunction.bind_spec",
    "ZQ.Wavefunction.mk_spec"
   ],
   "note": "exact arithmetic; isclose is a parameter"
  },
  {
   "property": "C21",
   "status": "proved",
   "theorems": [
    "ZQ.Wavefunction.getOutcomeProbs_spec"
   ],
   "note": ""
  },
  {
   "property": "C22",
   "status": "partial",
   "theorems": [
    "ZQ.Bits.dec2bin_spec",
    "ZQ.Bits.dec2bin_bin2dec",
    "ZQ.Bits.dec2bin_rejects_partial",
    "ZQ.Bits.dec2bin_boundary_counterexample",
    "ZQ.Bits.dec2bin_accepts_iff",
    "ZQ.Bits.dec2bin_sound",
    "ZQ.Bits.bin2dec_spec",
    "ZQ.Bits.orderedBitstrings_spec",
    "ZQ.Bits.tuples_roundtrip",
    "ZQ.Bits.bitstrings_roundtrip",
    "ZQ.Bits.tuples_roundtrip_counterexample"
   ],
   "note": "the code accepts 2^w for width w (off by one), proved as a counterexample"
  },
  {
   "property": "C23",
   "status": "proved",
   "theorems": [
    "ZQ.Meas.counts_roundtrip",
    "ZQ.Meas.addCounts_history",
    "ZQ.Meas.getCounts_spec",
    "ZQ.Meas.getCounts_perm",
    "ZQ.Meas.getDistribution_spec",
    "ZQ.Meas.getDistribution_empty",
    "ZQ.Meas.convertBitstringToInt_spec"
   ],
   "note": "outcomes are one digit, as for qubits"
  },
  {
   "property": "C24",
   "status": "proved",
   "theorems": [
    "ZQ.Meas.representing_sound",
    "ZQ.Meas.representing_returns",
    "ZQ.Meas.firstChooser_lawful"
   ],
   "note": "the random generator is a parameter: every sequence of draws of positive-weight outcomes is allowed; termination is proved when the probabilities sum to 1 within half a sample"
  },
  {
   "property": "C25",
   "status": "proved",
   "theorems": [
    "ZQ.Meas.expectationValues_spec",
    "ZQ.Meas.expectationValues_bound",
    "ZQ.Meas.covariance_posSemidef",
    "ZQ.Meas.concatenate_spec"
   ],
   "note": ""
  },
  {
   "property": "C26",
   "status": "proved",
   "theorems": [
    "ZQ.Meas.checkParity_spec",
    "ZQ.Meas.checkParityStr_spec",
    "ZQ.Meas.checkParityOfVector_spec",
    "ZQ.Meas.checkParityOfVector_error",
    "ZQ.Meas.parity_symDiff",
    "ZQ.Meas.getParities_spec",
    "ZQ.Meas.getParities_total",
    "ZQ.Meas.fromParity_spec",
    "ZQ.Meas.fromParities_spec"
   ],
   "note": ""
  },
  {
   "property": "C27",
   "status": "proved",
   "theorems": [
    "ZQ.Disc.scaleAndDiscretize_spec",
    "ZQ.Disc.scaleAndDiscretize_nonneg",
    "ZQ.Disc.scaleAndDiscretize_zero",
    "ZQ.Disc.sortedArgsort_spec"
   ],
   "note": "np.argsort is a parameter with its contract (ties in any order)"
  },
  {
   "property": "C28",
   "status": "partial",
   "theorems": [
    "ZQ.Dist.normalize_spec",
    "ZQ.Dist.normalize_rejects",
    "ZQ.Dist.make_sound",
    "ZQ.Dist.make_accepts",
    "ZQ.Dist.make_rejects",
    "ZQ.Dist.make_bitstrings",
    "ZQ.Dist.save_load_partial",
    "ZQ.Dist.saveAll_loadAll_partial",
    "ZQ.Dist.save_load_counterexample",
    "ZQ.Dist.ofProbabilities_spec"
   ],
   "note": "normalisation and validation proved in full; the save/load round trip holds for two or more subsystems and fails for one subsystem with a value of several digits (counterexample)"
  },
  {
   "property": "C29",
   "status": "proved",
   "theorems": [
    "ZQ.Dist.clippedNLL_spec",
    "ZQ.Dist.allKeys_enumerates",
    "ZQ.Dist.clippedNLL_zero_eps",
    "ZQ.Dist.specNLL_bounds",
    "ZQ.Dist.jensenShannon_symm",
    "ZQ.Dist.mmd_spec",
    "ZQ.Dist.mmd_multi_spec",
    "ZQ.Dist.mmd_nonneg",
    "ZQ.Dist.mmd_multi_nonneg",
    "ZQ.Dist.mmd_symm",
    "ZQ.Dist.mmd_eq_zero_iff",
    "ZQ.Dist.evaluateDistance_spec"
   ],
   "note": ""
  },
  {
   "property": "C30",
   "status": "proved",
   "theorems": [
    "ZQ.History.recorder_spec",
    "ZQ.History.call_raises",
    "ZQ.History.always_spec",
    "ZQ.History.everyNth_spec",
    "ZQ.History.store_spec",
    "ZQ.History.artifactRecorder_spec",
    "ZQ.History.gradientRecorder_spec",
    "ZQ.History.chooseClass_spec"
   ],
   "note": ""
  },
  {
   "property": "C31",
   "status": "partial",
   "theorems": [
    "ZQ.Backend.trackRun_spec",
    "ZQ.Backend.trackRunSet_spec",
    "ZQ.Backend.trackDistribution_spec",
    "ZQ.Backend.tracker_file_partial",
    "ZQ.Backend.tracker_counters",
    "ZQ.Backend.trackRunSet_unconvertible",
    "ZQ.Backend.track_unconvertible",
    "ZQ.Backend.tracker_counterexample"
   ],
   "note": "Results are those of the wrapped backend and each record is right; the file holds only the records of the last call (proved, with a counterexample to the full claim): every save truncates the file and clears the data."
  },
  {
   "property": "C32",
   "status": "partial",
   "theorems": [
    "ZQ.Backend.counters_spec",
    "ZQ.Backend.batches_spec",
    "ZQ.Backend.run_rejects",
    "ZQ.Backend.runSet_results",
    "ZQ.Backend.init_spec",
    "ZQ.Backend.symbolicRun_counterexample"
   ],
   "note": "Proved for backends that use the base class methods. The symbolic simulator counts calls it rejects (counterexample) and tracking backends do not count at all (C31)."
  },
  {
   "property": "C33",
   "status": "proved",
   "theorems": [
    "ZQ.Ansatz.ansatz_coherent",
    "ZQ.Ansatz.ansatz_init_rejects",
    "ZQ.Ansatz.ansatz_failing_method_counterexample"
   ],
   "note": "Also with decorated methods that return. A decorated method that raises after changing a property leaves a stale circuit (shown by the counterexample theorem; outside the claim)."
  },
  {
   "property": "C34",
   "status": "proved",
   "theorems": [
    "ZQ.Est.estimateByAveraging_spec",
    "ZQ.Est.estimateByAveraging_error",
    "ZQ.Est.measuredValue_spec",
    "ZQ.Est.measuredValue_rejects",
    "ZQ.Est.toIsing_spec",
    "ZQ.Est.exactValues_spec"
   ],
   "note": "All task lists and all backends (the backend is a parameter). A task with zero shots gets 0 even if its operator has a constant term besides others."
  },
  {
   "property": "C35",
   "status": "partial",
   "theorems": [
    "ZQ.Est.evaluateCircuits_partial",
    "ZQ.Est.evaluateCircuits_counterexample",
    "ZQ.Est.evaluateCircuits_counterexample_witness"
   ],
   "note": "Proved for one map per task. False for a single map for several tasks, which the docstring allows: zip drops the other tasks (counterexample proved)."
  },
  {
   "property": "C36",
   "status": "proved",
   "theorems": [
    "ZQ.Est.allocateUniformly_spec",
    "ZQ.Est.groupVariances_none",
    "ZQ.Est.groupVariances_some",
    "ZQ.Est.groupVariances_rejects",
    "ZQ.Est.estimateNmeas_spec",
    "ZQ.Est.allocateProportionally_spec",
    "ZQ.Est.allocateProportionally_rejects"
   ],
   "note": "Real coefficients; the sort is any function that returns a sorting permutation. The shares are also shown to be within one shot of the exact proportional value."
  },
  {
   "property": "C37",
   "status": "proved",
   "theorems": [
    "ZQ.Est.contextSelection_spec",
    "ZQ.Est.contextSelection_rejects",
    "ZQ.Est.contextSelection_expectation",
    "ZQ.Est.performContextSelection_spec"
   ],
   "note": "Matrix identity on every register that contains the operator; terms below 1e-8 are dropped by the code, the theorem gives the exact result including this."
  },
  {
   "property": "C38",
   "status": "proved",
   "theorems": [
    "ZQ.Op.isComeasureable_iff",
    "ZQ.Op.groupGreedy_spec",
    "ZQ.Op.groupGreedy_partition",
    "ZQ.Op.groupGreedy_sum",
    "ZQ.Op.groupGreedy_unique",
    "ZQ.Op.groupGreedy_first_fit",
    "ZQ.Est.groupIndividually_spec",
    "ZQ.Est.groupGreedily_spec"
   ],
   "note": "Terms below 1e-8 may be left out by the += in the code; the theorems say exactly which."
  },
  {
   "property": "C39",
   "status": "proved",
   "theorems": [
    "ZQ.Evol.evolveTerm_spec",
    "ZQ.Evol.evolveTerm_fits",
    "ZQ.Evol.evolveTerm_rejects",
    "ZQ.Evol.evolveTerm_phase"
   ],
   "note": "Exact matrix exponential on every register containing the term; the phase is 1 unless the term is the identity."
  },
  {
   "property": "C40",
   "status": "partial",
   "theorems": [
    "ZQ.Evol.timeEvolution_spec",
    "ZQ.Evol.timeEvolution_fits",
    "ZQ.Evol.timeEvolution_rejects",
    "ZQ.Evol.timeEvolution_commuting",
    "ZQ.Evol.timeEvolution_commuting_phase",
    "ZQ.Evol.evolutionDerivatives_partial",
    "ZQ.Evol.evolutionDerivatives_order",
    "ZQ.Evol.evolutionDerivatives_zero",
    "ZQ.Evol.evolutionDerivatives_method",
    "ZQ.Evol.evolutionDerivatives_counterexample"
   ],
   "note": "Composition and exactness for commuting terms proved for all orders; the shift rule is proved for order 1 (all observables, states, operators with real non-zero coefficients) and shown false for order 2: the code repeats the full-time evolution. The exact result for every order is evolutionDerivatives_order."
  },
  {
   "property": "C41",
   "status": "proved",
   "theorems": [
    "ZQ.Op.qubit_product_action",
    "ZQ.Op.qubit_product_apply",
    "ZQ.Op.qubit_product_canonical",
    "ZQ.Op.qubitOf_spec",
    "ZQ.Op.qubitOf_invalid",
    "ZQ.Op.qubit_pow_spec",
    "ZQ.Op.canonical_unique",
    "ZQ.Op.qubit_mul_assoc"
   ],
   "note": "coefficients are exact complex numbers"
  },
  {
   "property": "C42",
   "status": "proved",
   "theorems": [
    "ZQ.Op.add_spec",
    "ZQ.Op.add_error",
    "ZQ.Op.add_exact",
    "ZQ.Op.sub_spec",
    "ZQ.Op.smul_spec",
    "ZQ.Op.neg_spec",
    "ZQ.Op.div_spec",
    "ZQ.Op.addScalar_spec",
    "ZQ.Op.sub_self_zero",
    "ZQ.Op.isub_same_object",
    "ZQ.Op.iadd_same_object",
    "ZQ.Op.add_comm_isclose",
    "ZQ.Op.add_comm_exact",
    "ZQ.Op.add_assoc_exact",
    "ZQ.Op.action_add",
    "ZQ.Op.compress_spec"
   ],
   "note": "the tolerance is modelled: a term is dropped only when the stored sum is below 1e-8; `op -= op` on the very same object raises (isub_same_object)"
  },
  {
   "property": "C43",
   "status": "partial",
   "theorems": [
    "ZQ.Op.isclose_of_close_partial",
    "ZQ.Op.isclose_iff_of_unit",
    "ZQ.Op.isclose_refl",
    "ZQ.Op.isclose_symm",
    "ZQ.Op.isclose_counterexample"
   ],
   "note": "false as stated: the tolerance is multiplied by each large coefficient in turn and never reset (isclose_counterexample); proved in the direction close-implies-equal and as an equivalence when no coefficient exceeds 1"
  },
  {
   "property": "C44",
   "status": "partial",
   "theorems": [
    "ZQ.Op.hcFermion_adjoint",
    "ZQ.Op.hcQubit_adjoint",
    "ZQ.Op.hcFermion_involutive",
    "ZQ.Op.hcQubit_involutive",
    "ZQ.Op.hcFermion_linear",
    "ZQ.Op.hcQubit_linear",
    "ZQ.Op.hcFermion_mul",
    "ZQ.Op.hcQubit_mul",
    "ZQ.Op.isHermitianQubit_of_selfadjoint",
    "ZQ.Op.isHermitianQubit_sound_partial",
    "ZQ.Op.isHermitianFermion_of_selfadjoint",
    "ZQ.Op.isHermitianFermion_iff_partial",
    "ZQ.Op.isHermitian_counterexample"
   ],
   "note": "conjugation proved in full; is_hermitian is true for every self-adjoint operator, but it also accepts some operators that are not (isHermitian_counterexample), so the converse is proved for coefficients of modulus at most one"
  },
  {
   "property": "C45",
   "status": "proved",
   "theorems": [
    "ZQ.Op.jwLadder_action",
    "ZQ.Op.jw_anticommutation",
    "ZQ.Op.jwTerm_spec",
    "ZQ.Op.jordanWigner_action",
    "ZQ.Op.jordanWigner_error",
    "ZQ.Op.fermion_algebra"
   ],
   "note": "each term is transformed exactly; sums go through += which drops entries below 1e-8, so exactness of the total is proved for coefficients on a grid coarser than the tolerance and an explicit error bound is proved for all operators"
  },
  {
   "property": "C46",
   "status": "proved",
   "theorems": [
    "ZQ.Op.normalOrderedTerm_spec",
    "ZQ.Op.normalOrdered_ordered",
    "ZQ.Op.normalOrdered_action",
    "ZQ.Op.normalOrdered_error",
    "ZQ.Op.normalOrderedTerm_unfold",
    "ZQ.Op.normalOrdered_idempotent",
    "ZQ.Op.normalOrdered_unique",
    "ZQ.Op.isNormalOrdered_iff"
   ],
   "note": "exact action for coefficients on a grid not finer than the 1e-8 tolerance, explicit error bound for all operators; ordering, termination and idempotence for all operators"
  },
  {
   "property": "C47",
   "status": "proved",
   "theorems": [
    "ZQ.Op.rjwTerm_spec",
    "ZQ.Op.reverseJW_action",
    "ZQ.Op.reverseJW_error",
    "ZQ.Op.reverseJW_rejects",
    "ZQ.Op.jw_reverseJW"
   ],
   "note": "For every canonical qubit operator (every QubitOperator the class can hold) the transform ends without error and acts, with bits read as occupations, as the input; exactly on coefficient grids no finer than the 1e-8 tolerance, otherwise within 1e-8 per term. jordan_wigner of the result gives back the coefficients."
  },
  {
   "property": "C48",
   "status": "proved",
   "theorems": [
    "ZQ.Op.mem_update",
    "ZQ.Op.paritySet_prod",
    "ZQ.Op.occupationSet_prod",
    "ZQ.Op.encode_flip",
    "ZQ.Op.encode_bijective",
    "ZQ.Op.bkLadder_action",
    "ZQ.Op.bk_anticommutation",
    "ZQ.Op.bkTerm_spec",
    "ZQ.Op.bravyiKitaev_action",
    "ZQ.Op.bravyiKitaev_error",
    "ZQ.Op.bravyiKitaev_rejects",
    "ZQ.Op.bk_jw_equivalent",
    "ZQ.Op.bk_order"
   ],
   "note": "For every register size: the update, parity and occupation sets are the Fenwick sets; the images of the ladder operators satisfy the anticommutation relations and act as the ladder operators on Fenwick-encoded occupations; so does the whole transform (exact on grids, 1e-8 per term otherwise). The InteractionOperator variant is not modelled."
  },
  {
   "property": "C49",
   "status": "partial",
   "theorems": [
    "ZQ.PauliDecomp.getQubitopFromMatrix_partial",
    "ZQ.PauliDecomp.getQubitopFromMatrix_not_square",
    "ZQ.PauliDecomp.getQubitopFromMatrix_not_power",
    "ZQ.PauliDecomp.getQubitopFromMatrix_short_row",
    "ZQ.PauliDecomp.getQubitopFromMatrix_error",
    "ZQ.PauliDecomp.getQubitopFromMatrix_one_by_one_counterexample",
    "ZQ.PauliDecomp.getQubitopFromMatrix_ragged_counterexample"
   ],
   "note": "Proved for n >= 1, up to dropping of coefficients below 1e-8; the code rejects every 1 x 1 matrix and accepts rows longer than the first."
  },
  {
   "property": "C50",
   "status": "proved",
   "theorems": [
    "ZQ.Op.upThenDown_bijective",
    "ZQ.Op.upThenDown_order",
    "ZQ.Op.reverseQubitOrder_spec",
    "ZQ.Op.reverseQubitOrder_involutive",
    "ZQ.Op.reverseQubitOrder_rejects",
    "ZQ.Op.reverseQubitOrder_action",
    "ZQ.Op.reorder_fermion",
    "ZQ.Op.reorder_qubit",
    "ZQ.Op.reorder_fermion_reverse",
    "ZQ.OperatorEdit.reorder_fermion_unitary",
    "ZQ.Op.reorder_qubit_reverse",
    "ZQ.Op.reorder_keyError"
   ],
   "note": "All register sizes, operators and one-to-one order functions. Terms with coefficients below 1e-8 are dropped by the code; the theorems give the exact result including this."
  },
  {
   "property": "C51",
   "status": "proved",
   "theorems": [
    "ZQ.Hubbard.edges_spec",
    "ZQ.Hubbard.fermiHubbard_exact",
    "ZQ.Hubbard.fermiHubbard_error",
    "ZQ.Hubbard.fermiHubbard_hermitian",
    "ZQ.Hubbard.fermiHubbard_conserves"
   ],
   "note": "All lattice sizes, periodic or open, spinful or spinless, with or without particle-hole symmetry. Exact action when the parameters are multiples of a step of at least 1e-8; for all parameters the coefficients are right up to 14e-8 per site. Hermiticity (complex tunnelling, real couplings) and conservation of the particle numbers hold without any condition on sizes."
  },
  {
   "property": "C52",
   "status": "proved",
   "theorems": [
    "ZQ.OpSerde.qubitop_roundtrip",
    "ZQ.OpSerde.isingop_roundtrip",
    "ZQ.OpSerde.isingop_rejects",
    "ZQ.OpSerde.operatorSet_roundtrip",
    "ZQ.ArraySerde.interaction_roundtrip"
   ],
   "note": "Equality is the operators' own ==: coefficients below 1e-8 are dropped on loading; with none such the result is identical."
  },
  {
   "property": "C53",
   "status": "partial",
   "theorems": [
    "ZQ.PolyT.iadd_spec",
    "ZQ.PolyT.iadd_rejects",
    "ZQ.PolyT.isub_partial",
    "ZQ.PolyT.isub_counterexample",
    "ZQ.PolyT.imulScalar_spec",
    "ZQ.PolyT.idivScalar_spec",
    "ZQ.PolyT.neg_spec",
    "ZQ.PolyT.imulTensor_spec",
    "ZQ.PolyT.setConstant_spec",
    "ZQ.PolyT.scalar_spec"
   ],
   "note": "Subtraction is wrong for keys the left operand lacks: they are stored without a sign."
  },
  {
   "property": "C54",
   "status": "proved",
   "theorems": [
    "ZQ.Op.accumulate_singletons",
    "ZQ.Op.group_size",
    "ZQ.Op.getOperatorGroups_spec",
    "ZQ.Op.getOperatorGroups_sum",
    "ZQ.Op.canonical_fixed"
   ],
   "note": ""
  },
  {
   "property": "C55",
   "status": "partial",
   "theorems": [
    "ZQ.Symbolic.fromSympy_value_partial",
    "ZQ.Symbolic.fromSympy_value_counterexample",
    "ZQ.Symbolic.fromSympy_accepts",
    "ZQ.Symbolic.fromSympy_symbols",
    "ZQ.Symbolic.fromSympy_calls",
    "ZQ.Symbolic.translate_spec",
    "ZQ.Symbolic.translate_unknown",
    "ZQ.Symbolic.sympyDialect_faithful",
    "ZQ.Symbolic.roundTrip_spec",
    "ZQ.Symbolic.roundTrip_unknown",
    "ZQ.Symbolic.translate_sympy"
   ],
   "note": "Value preservation for all expressions whose user functions do not carry a reserved name (add, mul, sub, div, pow, sqrt); the counterexample shows that a user function named add is turned into an addition. Acceptance, symbols, calls, translation into any faithful dialect, and the sympy round trip are proved outright. Sympy itself (class structure, automatic simplification, number comparison) is trusted."
  },
  {
   "property": "C56",
   "status": "proved",
   "theorems": [
    "ZQ.Gradient.finiteDifferences_spec",
    "ZQ.Gradient.finiteDifferences_count",
    "ZQ.Gradient.finiteDifferences_linear",
    "ZQ.Gradient.finiteDifferences_quadratic",
    "ZQ.Gradient.finiteDifferences_zero_step",
    "ZQ.Gradient.finiteDifferences_raises",
    "ZQ.Gradient.finiteDifferences_tendsto",
    "ZQ.Gradient.finiteDifferences_error"
   ],
   "note": "Floats are real numbers."
  },
  {
   "property": "C57",
   "status": "proved",
   "theorems": [
    "ZQ.Cost.summarize_spec",
    "ZQ.Cost.precision_nonneg",
    "ZQ.Cost.measured_sum",
    "ZQ.Cost.createCostFunction_spec",
    "ZQ.Cost.createCostFunction_raises",
    "ZQ.Cost.createCostFunction_append",
    "ZQ.Cost.fixParameters_spec",
    "ZQ.Cost.addNormalNoise_spec",
    "ZQ.Cost.sortedSymbols_spec",
    "ZQ.Cost.sortedSymbols_str",
    "ZQ.Cost.bindTasks_spec",
    "ZQ.Cost.factory_spec",
    "ZQ.Cost.ansatzBased_eq",
    "ZQ.Cost.ansatzBased_noise",
    "ZQ.Cost.groundState_spec",
    "ZQ.Cost.sideEffect_spec",
    "ZQ.Cost.functionLogger_spec"
   ],
   "note": "Estimation methods, preprocessors and task factories are arbitrary stateful programs; floats are real numbers."
  },
  {
   "property": "C58",
   "status": "partial",
   "theorems": [
    "ZQ.Graph.compareGraphs_spec",
    "ZQ.Graph.compareGraphs_partial",
    "ZQ.Graph.compareGraphs_refl",
    "ZQ.Graph.edges_spec",
    "ZQ.Graph.compareGraphs_counterexample"
   ],
   "note": "compare_graphs zips the sequences of nodes and edges: prefixes compare equal, weights are ignored and the order of nodes and edges matters; these failures are proved, and the equivalence for graphs with the same numbers of nodes and edges up to weights and order."
  },
  {
   "property": "C59",
   "status": "partial",
   "theorems": [
    "ZQ.ArraySerde.array_roundtrip_partial",
    "ZQ.ArraySerde.array_roundtrip_counterexample",
    "ZQ.ArraySerde.valueEstimate_roundtrip",
    "ZQ.ArraySerde.expectationValues_roundtrip"
   ],
   "note": "Arrays with a zero before the last place of the shape lose their shape."
  },
  {
   "property": "C60",
   "status": "proved",
   "theorems": [
    "ZQ.Sparse.jwNumberIndices_spec",
    "ZQ.Sparse.jwNumberIndices_negative",
    "ZQ.Sparse.popcount_basisIndex",
    "ZQ.Sparse.jwConfigurationState_spec",
    "ZQ.Sparse.jwConfigurationState_rejects",
    "ZQ.Sparse.jwHartreeFockState_spec",
    "ZQ.Sparse.jwNumberRestrict_spec"
   ],
   "note": ""
  },
  {
   "property": "C61",
   "status": "partial",
   "theorems": [
    "ZQ.Op.prune_spec",
    "ZQ.Op.prune_idempotent",
    "ZQ.Op.freezeOrbitals_spec_partial",
    "ZQ.Op.freezeOrbitals_identity_counterexample",
    "ZQ.Op.freezeOrbitals_prune_ignored"
   ],
   "note": "Pruning is proved outright for every operator. Freezing preserves the matrix elements between all states with the frozen occupation, within 1e-8 per addition and exactly for coefficients on a grid of at least 1e-8. Missing: frozen modes above 256, which the code compares by object identity (counterexample)."
  },
  {
   "property": "C62",
   "status": "proved",
   "theorems": [
    "ZQ.PolyT.diagonalPoly_spec",
    "ZQ.PolyT.diagonalInteraction_spec",
    "ZQ.PolyT.termIsDiagonal_iff",
    "ZQ.Evaluate.evaluateQubitOperator_spec",
    "ZQ.Evaluate.evaluateQubitOperatorList_spec",
    "ZQ.Evaluate.evaluateQubitOperator_expectation"
   ],
   "note": ""
  },
  {
   "property": "C63",
   "status": "proved",
   "theorems": [
    "ZQ.Op.isingSimplify_spec",
    "ZQ.Op.ising_product_spec",
    "ZQ.Op.ising_diagonal",
    "ZQ.Op.ising_mul_comm",
    "ZQ.Op.ising_mul_assoc",
    "ZQ.Op.isingOf_spec"
   ],
   "note": ""
  },
  {
   "property": "C64",
   "status": "proved",
   "theorems": [
    "ZQ.Sparse.qubitOperatorSparse_spec",
    "ZQ.Sparse.qubitOperatorSparse_elements",
    "ZQ.Sparse.opMatrix_eq_matrixOf",
    "ZQ.Sparse.qubitOperatorSparse_rejects"
   ],
   "note": "scipy's storage orders are modelled: the code pairs values in column order with positions in row order, which is right because Pauli strings have a symmetric nonzero pattern."
  },
  {
   "property": "C65",
   "status": "proved",
   "theorems": [
    "ZQ.Optimizer.runRecorded_spec",
    "ZQ.Optimizer.minimize_spec",
    "ZQ.Optimizer.minimize_selected",
    "ZQ.Optimizer.mockOptimizer_spec",
    "ZQ.Optimizer.nestedHistories_partial",
    "ZQ.Optimizer.nestedHistories_counterexample"
   ],
   "note": "For every deterministic or stateful optimizer program. The number of function evaluations is set by each optimizer: proved for the one in the repository. NestedOptimizer with rounds that record gradients only sometimes loses the gradient history or raises KeyError: proved as a counterexample."
  },
  {
   "property": "C66",
   "status": "proved",
   "theorems": [
    "ZQ.Gates.fixed_one_qubit_gates",
    "ZQ.Gates.rotations_are_exponentials",
    "ZQ.Gates.phase_gates",
    "ZQ.Gates.ising_gates_are_exponentials",
    "ZQ.Gates.fixed_two_qubit_gates",
    "ZQ.Gates.rotation_angles_add"
   ],
   "note": ""
  },
  {
   "property": "C67",
   "status": "proved",
   "theorems": [
    "ZQ.History.deepcopy_spec",
    "ZQ.History.separate_independent",
    "ZQ.History.copy_shared",
    "ZQ.History.copy_spec"
   ],
   "note": ""
  },
  {
   "property": "C68",
   "status": "proved",
   "theorems": [
    "ZQ.Backend.getWavefunction_spec",
    "ZQ.Backend.sample_rejects",
    "ZQ.Backend.sample_spec",
    "ZQ.Backend.symbolicRun_spec"
   ],
   "note": "Random choice is an arbitrary function that draws positions of positive probability."
  },
  {
   "property": "C69",
   "status": "proved",
   "theorems": [
    "ZQ.Sorting.keys_order",
    "ZQ.Sorting.sortedBy_spec",
    "ZQ.Sorting.indexed_order",
    "ZQ.Sorting.fixedNamesKey_spec",
    "ZQ.Sorting.natural_key_not_injective"
   ],
   "note": ""
  },
  {
   "property": "C70",
   "status": "proved",
   "theorems": [
    "ZQ.Ansatz.executable_spec",
    "ZQ.Ansatz.executable_other",
    "ZQ.Ansatz.numberOfParams_spec",
    "ZQ.Ansatz.createSymbolsMap_spec",
    "ZQ.Ansatz.mock_spec"
   ],
   "note": ""
  },
  {
   "property": "C71",
   "status": "proved",
   "theorems": [
    "ZQ.Sparse.jordanWignerSparse_spec",
    "ZQ.Sparse.jordanWignerSparse_rejects",
    "ZQ.Sparse.jordanWignerSparse_eq"
   ],
   "note": ""
  },
  {
   "property": "C72",
   "status": "proved",
   "theorems": [
    "ZQ.PolyT.eq_spec",
    "ZQ.PolyT.eq_dimension_zero",
    "ZQ.PolyT.iter_spec"
   ],
   "note": ""
  },
  {
   "property": "C73",
   "status": "partial",
   "theorems": [
    "ZQ.PolyT.toFermion_spec",
    "ZQ.PolyT.getPolynomialTensor_partial",
    "ZQ.PolyT.getPolynomialTensor_action",
    "ZQ.PolyT.getPolynomialTensor_counterexample",
    "ZQ.PolyT.getInteractionOperator_spec",
    "ZQ.PolyT.getInteractionOperator_action"
   ],
   "note": "get_polynomial_tensor fails for operators whose normal form is constant or zero."
  },
  {
   "property": "C74",
   "status": "partial",
   "theorems": [
    "ZQ.TensorHeap.deepcopy_spec",
    "ZQ.TensorHeap.add_spec",
    "ZQ.TensorHeap.scale_spec",
    "ZQ.TensorHeap.updates_frame",
    "ZQ.TensorHeap.add_independent_partial",
    "ZQ.TensorHeap.add_aliasing_counterexample"
   ],
   "note": "The sum shares the right operand's arrays for keys the left operand lacks."
  },
  {
   "property": "C75",
   "status": "proved",
   "theorems": [
    "ZQ.Graph.nodeDict_spec",
    "ZQ.Graph.weightEdges_spec",
    "ZQ.Graph.graph_roundtrip",
    "ZQ.Graph.edges_spec"
   ],
   "note": "The networkx graph and its node-link format are modelled as adjacency dictionaries."
  },
  {
   "property": "C76",
   "status": "partial",
   "theorems": [
    "ZQ.Cost.augment_call",
    "ZQ.Cost.augment_attrs",
    "ZQ.Cost.augment_gradient_partial",
    "ZQ.Cost.augment_gradient_counterexample"
   ],
   "note": "The gradient augmentations are dropped when there is no cost function augmentation: proved as a counterexample; the property is proved for non-empty lists."
  },
  {
   "property": "C77",
   "status": "proved",
   "theorems": [
    "ZQ.Expect.innerProduct_spec",
    "ZQ.Expect.expectation_spec",
    "ZQ.Expect.expectation_rejects",
    "ZQ.Expect.density_spec",
    "ZQ.Expect.getExpectationValue_spec",
    "ZQ.Expect.getExpectationValue_rejects",
    "ZQ.Expect.getExpectationValue_reverse",
    "ZQ.Expect.termValues_spec",
    "ZQ.Expect.exactValues_spec",
    "ZQ.Expect.exactValues_sum",
    "ZQ.Expect.exactValues_real",
    "ZQ.Expect.exactDistribution_spec",
    "ZQ.Expect.exactValues_ising",
    "ZQ.Expect.exactCost_spec"
   ],
   "note": "Floats are real numbers. Reversal and the change of type of Ising operators drop terms below 1e-8, as stated."
  },
  {
   "property": "C78",
   "status": "proved",
   "theorems": [
    "ZQ.JWInt.jwInteraction_action",
    "ZQ.JWInt.jwInteraction_error",
    "ZQ.JWInt.jwInteraction_eq_jordanWigner",
    "ZQ.JWInt.jwInteraction_nQubits",
    "ZQ.JWInt.jwInteraction_symmetrised",
    "ZQ.JWInt.jwInteraction_counterexample",
    "ZQ.JWInt.oneBody_rep",
    "ZQ.JWInt.twoBody_rep"
   ],
   "note": "Exact for entries on a grid of step 16e-8 or coarser, with an error bound for all entries, because additions drop coefficients below 1e-8. Arrays that are not Hermitian are symmetrised (counterexample)."
  },
  {
   "property": "C79",
   "status": "partial",
   "theorems": [
    "ZQ.OpStr.qubit_roundtrip_partial",
    "ZQ.OpStr.ising_roundtrip_partial",
    "ZQ.OpStr.fermion_roundtrip_partial",
    "ZQ.OpStr.init_long",
    "ZQ.OpStr.parseFactor_qubit",
    "ZQ.OpStr.parseFactor_fermion",
    "ZQ.OpStr.init_error",
    "ZQ.OpStr.fermion_zero_counterexample",
    "ZQ.OpStr.qubit_zero_counterexample",
    "ZQ.OpStr.qubit_small_counterexample",
    "ZQ.OpStr.minus_complex_counterexample"
   ],
   "note": "The round trip needs a term that is not small: the code violates it for the zero operator and for operators with small terms only (counterexamples). Numbers are printed and read by Python (contract Prints)."
  },
  {
   "property": "C80",
   "status": "proved",
   "theorems": [
    "ZQ.FTools.qubit_commutator",
    "ZQ.FTools.fermion_commutator",
    "ZQ.FTools.commutator_error",
    "ZQ.FTools.anticommutator_error",
    "ZQ.FTools.qubit_commutator_zero",
    "ZQ.FTools.commutator_types",
    "ZQ.FTools.doubleCommutator_spec",
    "ZQ.FTools.hoppingCommutator_spec",
    "ZQ.FTools.doubleCommutator_hopping"
   ],
   "note": "Exact actions for coefficients on grids whose product is not finer than 1e-8, because additions drop smaller sums; an error bound of 1e-8 per coefficient for all coefficients. Matrix operands are not modelled."
  },
  {
   "property": "C81",
   "status": "proved",
   "theorems": [
    "ZQ.FTools.isTwoBodyNumberConserving_iff",
    "ZQ.FTools.conserving_commutes",
    "ZQ.FTools.term_commutes_iff",
    "ZQ.FTools.number_operator_spec",
    "ZQ.FTools.fermionNumberOperator_spec"
   ],
   "note": "number_operator with a coefficient below 1e-8 in modulus is empty because additions drop small sums."
  },
  {
   "property": "C82",
   "status": "proved",
   "theorems": [
    "ZQ.FTools.inducedNorm_smul",
    "ZQ.FTools.inducedNorm_zero",
    "ZQ.FTools.inducedNorm_one",
    "ZQ.FTools.frobenius",
    "ZQ.FTools.renormalize_spec",
    "ZQ.FTools.isIdentity_spec"
   ],
   "note": "Exact real arithmetic."
  },
  {
   "property": "C83",
   "status": "partial",
   "theorems": [
    "ZQ.Equality.gateEqual_refl",
    "ZQ.Equality.gateEqual_symm",
    "ZQ.Equality.circuitEqual_refl",
    "ZQ.Equality.circuitEqual_symm",
    "ZQ.Equality.gateEqual_params",
    "ZQ.Equality.circuitEqual_params",
    "ZQ.Equality.gateEqual_matrix",
    "ZQ.Equality.circuitEqual_states",
    "ZQ.Equality.customGateEqual_matrix",
    "ZQ.Equality.defEqual_partial",
    "ZQ.Equality.gateEqual_not_transitive_counterexample",
    "ZQ.Equality.defEqual_shape_counterexample"
   ],
   "note": "Proved for gates, operations and circuits. For custom definitions the code compares only the common prefix of the entries, so equal definitions can have different shapes (counterexample); equal custom gates do have matrices of the same shape."
  },
  {
   "property": "C84",
   "status": "partial",
   "theorems": [
    "ZQ.Results.decode_encode",
    "ZQ.Results.save_load",
    "ZQ.Results.save_twice",
    "ZQ.Results.written_schema",
    "ZQ.Results.numbers_not_loaded",
    "ZQ.Results.artifacts_counterexample",
    "ZQ.Results.digits_counterexample",
    "ZQ.Results.real_counterexample"
   ],
   "note": "Proved for all values that the decoder can tell apart (Safe). Dictionaries of numbers, and dictionaries with a key `real` or with both `call_number` and `value`, are not read back; the negations are proved."
  },
  {
   "property": "C85",
   "status": "proved",
   "theorems": [
    "ZQ.UCC.uccsd_antiHermitian",
    "ZQ.UCC.uccsd_action",
    "ZQ.UCC.uccsd_number",
    "ZQ.UCC.uccsd_arrays",
    "ZQ.UCC.singlet_error",
    "ZQ.UCC.paramsize_spec",
    "ZQ.UCC.singlet_conserves",
    "ZQ.UCC.singlet_action",
    "ZQ.UCC.singlet_spin",
    "ZQ.UCC.pairs_spec",
    "ZQ.UCC.packed_spec",
    "ZQ.UCC.complex_counterexample",
    "ZQ.UCC.paramsize_counterexample"
   ],
   "note": "Real amplitudes for anti-Hermiticity; amplitudes on a grid coarser than the tolerance for the action and for the total spin."
  },
  {
   "property": "C86",
   "status": "partial",
   "theorems": [
    "ZQ.UCheck.not_square",
    "ZQ.UCheck.identity_iff",
    "ZQ.UCheck.unitary_sound_partial",
    "ZQ.UCheck.unitary_complete",
    "ZQ.UCheck.tolerance_counterexample",
    "ZQ.UCheck.compare_complete",
    "ZQ.UCheck.compare_sound",
    "ZQ.UCheck.compare_answers_partial",
    "ZQ.UCheck.compare_counterexample"
   ],
   "note": "Proved with the tolerance on the diagonal enlarged by 10^-5; compare_unitary raises an exception when the first columns are orthogonal. Both deviations are proved as negations."
  },
  {
   "property": "C87",
   "status": "partial",
   "theorems": [
    "ZQ.Rdm.pauli_spec",
    "ZQ.Rdm.qubitExpectations_spec",
    "ZQ.Rdm.expectation_qubit",
    "ZQ.Rdm.expectation_interaction",
    "ZQ.Rdm.expectation_mismatch",
    "ZQ.Rdm.broadcast_counterexample",
    "ZQ.Rdm.interaction_rdm",
    "ZQ.Rdm.hf_rdm",
    "ZQ.Rdm.basis_conserving",
    "ZQ.Rdm.basis_physical",
    "ZQ.Rdm.not_twoBody",
    "ZQ.Rdm.expectation_values_partial",
    "ZQ.Rdm.expectation_values_any",
    "ZQ.Rdm.expectation_list",
    "ZQ.Rdm.values_counterexample"
   ],
   "note": "Proved for operators without coefficients below 1e-8 (the list of values) and of the same dimension as the density matrices; both exceptions are proved as negations."
  },
  {
   "property": "C88",
   "status": "proved",
   "theorems": [
    "ZQ.Mol.tensors_spec",
    "ZQ.Mol.hamiltonian_full",
    "ZQ.Mol.hamiltonian_spin",
    "ZQ.Mol.active_projected",
    "ZQ.Mol.active_elements",
    "ZQ.Mol.hamiltonian_active",
    "ZQ.Mol.hamiltonian_elements",
    "ZQ.Mol.active_errors",
    "ZQ.Mol.core_spec",
    "ZQ.Mol.core_coulomb_exchange",
    "ZQ.Mol.antisym_spec",
    "ZQ.Mol.reduced_spec",
    "ZQ.Mol.reduced_error"
   ],
   "note": "Negative indices are not modelled. The integrals are real, as documented; the two-electron integrals have the symmetry of identical particles. Reading integrals from files is not modelled."
  },
  {
   "property": "C89",
   "status": "proved",
   "theorems": [
    "ZQ.PolyT.symmetricTwo_spec",
    "ZQ.PolyT.unique_spec",
    "ZQ.PolyT.unique_determines",
    "ZQ.PolyT.unique_counterexample",
    "ZQ.PolyT.projectedTensors_spec",
    "ZQ.PolyT.projected_spec",
    "ZQ.PolyT.projected_error",
    "ZQ.PolyT.projected_counts",
    "ZQ.PolyT.projected_subsets",
    "ZQ.PolyT.zero_spec",
    "ZQ.PolyT.rotate_spec",
    "ZQ.PolyT.rotate_error",
    "ZQ.PolyT.rotate_compose",
    "ZQ.PolyT.rotate_inverse",
    "ZQ.PolyT.rotate_identity",
    "ZQ.PolyT.rotate_contract",
    "ZQ.PolyT.rotate_anticommute"
   ],
   "note": "Symmetry classes are those of the documentation; unique_counterexample shows that the integrals of real orbitals have other ones. Negative indices are not modelled; numpy.einsum is an external call."
  },
  {
   "property": "C90",
   "status": "proved",
   "theorems": [
    "ZQ.Chem.chemist_spec",
    "ZQ.Chem.chemist_error",
    "ZQ.Op.normalOrdered_closed"
   ],
   "note": "The equality of the actions is for coefficients on a grid coarser than the comparison tolerance: sums may otherwise drop coefficients below it."
  },
  {
   "property": "C91",
   "status": "partial",
   "theorems": [
    "ZQ.Sector.basis_spec",
    "ZQ.Sector.order_spec",
    "ZQ.Sector.spinOrder_spec",
    "ZQ.Sector.sector_sound",
    "ZQ.Sector.sector_ok_partial",
    "ZQ.Sector.sector_error",
    "ZQ.Sector.sector_counterexample",
    "ZQ.Sector.lookup_spec",
    "ZQ.Sector.hartreeFock_max"
   ],
   "note": "Refuted for references other than the default one with an excitation level (sector_counterexample): IndexError. Whenever a matrix is returned it is right (sector_sound). The elements are those of the normal ordered operator, equal to the operator for coefficients on a grid coarser than the comparison tolerance. Encodings are unbounded integers (numpy overflows beyond 63 modes)."
  },
  {
   "property": "C92",
   "status": "proved",
   "theorems": [
    "ZQ.BKInt.bkInteraction_action",
    "ZQ.BKInt.bkInteraction_error",
    "ZQ.BKInt.bkInteraction_eq_bravyiKitaev",
    "ZQ.BKInt.bkInteraction_nQubits",
    "ZQ.BKInt.bkInteraction_order",
    "ZQ.BKInt.bkInteraction_counterexample",
    "ZQ.BKInt.srl_action"
   ],
   "note": "Exact for entries on a grid of step 16e-8 or coarser, with an error bound for all Hermitian entries, because additions drop coefficients below 1e-8. Not claimed for arrays that are not Hermitian (counterexample)."
  },
  {
   "property": "C93",
   "status": "proved",
   "theorems": [
    "ZQ.Ground.groundStateAt_spec",
    "ZQ.Ground.groundStateAt_none",
    "ZQ.Ground.groundStateAt_negative",
    "ZQ.Ground.groundStateRdm_spec",
    "ZQ.Ground.groundStateRdm_energy",
    "ZQ.Ground.groundStateRdm_qubit",
    "ZQ.Ground.groundStateRdm_none",
    "ZQ.Ground.state_conserving",
    "ZQ.Ground.state_physical",
    "ZQ.Ground.hermitian_of_real",
    "ZQ.Ground.exists_solver"
   ],
   "note": "The eigensolvers are external: they are assumed to return a lowest eigenvalue and a unit eigenvector of a Hermitian matrix (exists_solver: the assumption can be met)."
  },
  {
   "property": "C94",
   "status": "partial",
   "theorems": [
    "ZQ.Spectrum.eigenspectrum_fermion",
    "ZQ.Spectrum.eigenspectrum_qubit",
    "ZQ.Spectrum.eigenspectrum_tensor",
    "ZQ.Spectrum.eigenspectrum_transforms_partial",
    "ZQ.Spectrum.getSparseOperator_jordanWigner_partial",
    "ZQ.Spectrum.IsSpectrum.unique",
    "ZQ.Spectrum.IsSpectrum.length",
    "ZQ.Spectrum.IsSpectrum.real",
    "ZQ.Spectrum.isHermitianSparse_iff",
    "ZQ.Spectrum.eigenspectrum_small",
    "ZQ.Spectrum.eigenspectrum_small_fermion",
    "ZQ.Spectrum.eigenspectrum_other",
    "ZQ.Spectrum.exists_routines",
    "ZQ.Spectrum.eigenspectrum_tensor_counterexample",
    "ZQ.Spectrum.eigenspectrum_near_counterexample"
   ],
   "note": "Spectra are proved for all operators whose matrix is Hermitian or at least 1e-8 away from Hermitian; the code is wrong in between (counterexample) and ignores n_qubits for tensors (counterexample). The agreement with the transforms is for coefficients on a grid, of which the transforms drop nothing. numpy's eigenvalue routines are external."
  },
  {
   "property": "C95",
   "status": "partial",
   "theorems": [
    "ZQ.Inactive.removeInactive_spec_partial",
    "ZQ.Inactive.removeInactive_active_partial",
    "ZQ.Inactive.removeInactive_counterexample",
    "ZQ.Inactive.freezeOrbitals_small",
    "ZQ.Inactive.interactionShape_of"
   ],
   "note": "Proved for coefficients on a grid of at least 1e-8 and frozen modes up to 256; the code is wrong when an active orbital does not occur (counterexample) and for larger indices (C61's counterexample)."
  },
  {
   "property": "C96",
   "status": "partial",
   "theorems": [
    "ZQ.OpFiles.load_last_partial",
    "ZQ.OpFiles.load_protected_partial",
    "ZQ.OpFiles.save_succeeds_iff",
    "ZQ.OpFiles.save_failed",
    "ZQ.OpFiles.save_other",
    "ZQ.OpFiles.save_protected",
    "ZQ.OpFiles.load_wrong_format",
    "ZQ.OpFiles.load_unreadable",
    "ZQ.OpFiles.same_file_iff",
    "ZQ.OpFiles.getFilePath_error_iff",
    "ZQ.OpFiles.zero_counterexample"
   ],
   "note": "Proved in full for the marshalled format; plain text loses the zero operator and operators with small terms only (counterexample). marshal and Python's number formatting are contracts; nobody else writes the files."
  },
  {
   "property": "C97",
   "status": "partial",
   "theorems": [
    "ZQ.Files.holds_last",
    "ZQ.Files.saveTo_other",
    "ZQ.Files.saveTo_holds",
    "ZQ.Files.load_value",
    "ZQ.Files.load_list",
    "ZQ.Files.load_array",
    "ZQ.Files.load_nmeas_partial",
    "ZQ.Files.load_parities",
    "ZQ.Files.load_expectation",
    "ZQ.Files.load_wavefunction",
    "ZQ.Files.load_measurements",
    "ZQ.Files.load_layers",
    "ZQ.Files.load_ordering",
    "ZQ.Files.load_connectivity",
    "ZQ.Files.load_interaction",
    "ZQ.Files.load_rdm",
    "ZQ.Files.load_qubitOp",
    "ZQ.Files.load_isingOp",
    "ZQ.Files.load_qubitOps",
    "ZQ.Files.generic_written",
    "ZQ.Files.timing_written",
    "ZQ.Files.grid_written",
    "ZQ.Files.grid_failed",
    "ZQ.Files.load_path_counterexample",
    "ZQ.Files.load_opened",
    "ZQ.Files.load_nmeas_counterexample",
    "ZQ.Files.grid_twice_counterexample",
    "ZQ.Files.failed_save_counterexample"
   ],
   "note": "Proved for str paths and every kind; the code violates it for PathLike arguments of some load functions, for numbers of measurements without frames and for a repeated grid (counterexamples). JSON text is a contract."
  },
  {
   "property": "C98",
   "status": "partial",
   "theorems": [
    "ZQ.MolStore.open_last",
    "ZQ.MolStore.save_open",
    "ZQ.MolStore.view_assigned",
    "ZQ.MolStore.eager_assigned",
    "ZQ.MolStore.save_ok_iff",
    "ZQ.MolStore.save_other",
    "ZQ.MolStore.save_failed",
    "ZQ.MolStore.save_view",
    "ZQ.MolStore.resave",
    "ZQ.MolStore.crash_partial",
    "ZQ.MolStore.none_counterexample",
    "ZQ.MolStore.resave_counterexample",
    "ZQ.MolStore.stale_counterexample",
    "ZQ.MolStore.general_counterexample",
    "ZQ.MolStore.crash_counterexample"
   ],
   "note": "Proved: histories, saving, opening, crash points up to the missing file. The code violates the rest (counterexamples). HDF5 reading what was written is a contract, names from uuid4 are assumed unused."
  },
  {
   "property": "C99",
   "status": "partial",
   "theorems": [
    "ZQ.MolStore.name_perm",
    "ZQ.MolStore.name_text",
    "ZQ.MolStore.name_formula",
    "ZQ.MolStore.construct_electrons",
    "ZQ.MolStore.alpha_beta",
    "ZQ.MolStore.data_of_hamiltonian",
    "ZQ.MolStore.load_active",
    "ZQ.MolStore.data_hamiltonian_counterexample",
    "ZQ.MolStore.name_counterexample",
    "ZQ.MolStore.alpha_beta_counterexample",
    "ZQ.MolStore.load_counterexample"
   ],
   "note": "Names, electron counts and active spaces proved; get_molecular_data is not the inverse of get_molecular_hamiltonian, names are ambiguous after the formula, impossible multiplicities lose an electron (counterexamples)."
  },
  {
   "property": "C100",
   "status": "partial",
   "theorems": [
    "ZQ.Attr.assigned_is_read",
    "ZQ.Attr.set_other",
    "ZQ.Attr.recorder_reads_target",
    "ZQ.Attr.assigned_reaches_target",
    "ZQ.Attr.assigned_on_logged",
    "ZQ.Attr.logged_has",
    "ZQ.Attr.gradient_assignment_counterexample",
    "ZQ.Attr.gradient_override_counterexample"
   ],
   "note": "Proved for every ordinary name; assignments of gradient are not read back (counterexamples)."
  },
  {
   "property": "C101",
   "status": "partial",
   "theorems": [
    "ZQ.Attr.call_wrapped",
    "ZQ.Attr.call_wrapped_storing",
    "ZQ.Attr.call_recorded",
    "ZQ.Attr.call_wrapped_object",
    "ZQ.Attr.stores_wrapped",
    "ZQ.Attr.logged_recorded_counterexample"
   ],
   "note": "The exact orders of layers that work are proved; the others raise TypeError (counterexample)."
  },
  {
   "property": "C102",
   "status": "proved",
   "theorems": [
    "ZQ.Evol.timeEvolution_error",
    "ZQ.Evol.timeEvolution_probability",
    "ZQ.Evol.timeEvolution_converges"
   ],
   "note": "Explicit bound for every order; convergence of all outcome probabilities."
  },
  {
   "property": "C103",
   "status": "proved",
   "theorems": [
    "ZQ.Stat.averaging_statistics",
    "ZQ.Stat.averaging_error",
    "ZQ.Stat.contextSelected",
    "ZQ.Stat.greedy_estimate",
    "ZQ.Stat.individual_estimate",
    "ZQ.Stat.precision_mean",
    "ZQ.Stat.summarize_total",
    "ZQ.Stat.runs_exist"
   ],
   "note": "Mean, variance, error bound and reported precision of the estimates; independence and Born's law of the samples are hypotheses on the backend, shown satisfiable by runs_exist."
  },
  {
   "property": "C104",
   "status": "partial",
   "theorems": [
    "ZQ.Stat.tasks_statistics",
    "ZQ.Stat.budget_optimal",
    "ZQ.Stat.budget_meets_partial",
    "ZQ.Stat.budget_counterexample",
    "ZQ.Stat.qvar_group",
    "ZQ.Stat.proportional_near_optimal",
    "ZQ.Stat.proportional_starves"
   ],
   "note": "The budget suffices with a factor for the group size (1 for single terms) and is minimal; without the factor it fails for groups (counterexample); proportional allocation may leave tasks out (proportional_starves)."
  },
  {
   "property": "C105",
   "status": "partial",
   "theorems": [
    "ZQ.Stat.simulator_measures",
    "ZQ.Stat.simulator_statistics",
    "ZQ.Stat.simulator_energy",
    "ZQ.Stat.outcome_law",
    "ZQ.Stat.seeded_same",
    "ZQ.Stat.seeded_estimate_same",
    "ZQ.Stat.seeded_mean",
    "ZQ.Stat.seeded_repeats",
    "ZQ.Stat.seeded_counterexample",
    "ZQ.Stat.randomness_exists"
   ],
   "note": "Proved for simulators without a seed; with a seed, runs are not independent (counterexample), though means are exact."
  },
  {
   "property": "C106",
   "status": "partial",
   "theorems": [
    "ZQ.OpHeap.eval_frame",
    "ZQ.OpHeap.aug_frame",
    "ZQ.OpHeap.value_semantics",
    "ZQ.OpHeap.represents_empty",
    "ZQ.OpHeap.alias_shared",
    "ZQ.OpHeap.isub_self_counterexample",
    "ZQ.OpHeap.loop_spec",
    "ZQ.OpHeap.rebind_yields",
    "ZQ.OpHeap.deepcopy_yields",
    "ZQ.OpHeap.imul_loop",
    "ZQ.OpHeap.nested_counterexample",
    "ZQ.OpHeap.zip_counterexample",
    "ZQ.OpHeap.unfinished_iteration_counterexample"
   ],
   "note": "Proved for programs without aliases, self-addition, self-subtraction and iteration, and for single loops, also with products assigned in place; the rest fails (counterexamples)."
  },
  {
   "property": "C107",
   "status": "partial",
   "theorems": [
    "ZQ.Graph.weightGraph_spec",
    "ZQ.Graph.weights_run_out",
    "ZQ.Graph.caveman_spec",
    "ZQ.Graph.ladder_spec",
    "ZQ.Graph.barbell_spec",
    "ZQ.Graph.regular_spec",
    "ZQ.Graph.erdos_renyi_spec",
    "ZQ.Graph.erdos_renyi_law",
    "ZQ.Graph.erdos_renyi_equally_likely",
    "ZQ.Graph.erdos_renyi_weights",
    "ZQ.Graph.complete_weights",
    "ZQ.Graph.specs_seeded",
    "ZQ.Graph.specs_spec",
    "ZQ.Graph.seeded_weights_counterexample",
    "ZQ.Graph.specs_nodes_counterexample"
   ],
   "note": "Proved except that seeded random weights depend on the graph (counterexample)."
  },
  {
   "property": "C108",
   "status": "partial",
   "theorems": [
    "ZQ.CreateObject.create_errors",
    "ZQ.CreateObject.create_class",
    "ZQ.CreateObject.create_function",
    "ZQ.CreateObject.unknown_ignored",
    "ZQ.CreateObject.create_function_itself",
    "ZQ.CreateObject.noise_round_trip",
    "ZQ.CreateObject.noise_class",
    "ZQ.CreateObject.create_variadic_counterexample",
    "ZQ.CreateObject.noise_class_counterexample"
   ],
   "note": "Proved for classes and for functions with ordinary parameters; parameters for **kwargs are lost and classes cannot load noise models (counterexamples)."
  },
  {
   "property": "C109",
   "status": "partial",
   "theorems": [
    "ZQ.Steps.measure_backend",
    "ZQ.Steps.measure_history",
    "ZQ.Steps.optimize_ansatz",
    "ZQ.Steps.evaluate_ansatz",
    "ZQ.Steps.cost_history",
    "ZQ.Steps.cost_rejected",
    "ZQ.Steps.prior_ignored",
    "ZQ.Steps.tracking_rejected",
    "ZQ.Steps.tracking_counterexample",
    "ZQ.Steps.measure_noise_counterexample",
    "ZQ.Steps.cost_preprocessors_counterexample",
    "ZQ.Steps.optimize_then_evaluate_counterexample",
    "ZQ.Steps.prior_class_counterexample",
    "ZQ.Steps.evaluate_parametrized_counterexample",
    "ZQ.Steps.expectation_step_counterexample",
    "ZQ.Steps.summed_step_counterexample"
   ],
   "note": "What every call passes to the classes is proved for all histories; the steps depend on earlier calls and some never succeed (counterexamples)."
  },
  {
   "property": "C110",
   "status": "partial",
   "theorems": [
    "ZQ.OpSteps.one_qubit_error",
    "ZQ.OpSteps.one_qubit_matrix",
    "ZQ.OpSteps.one_qubit_defined",
    "ZQ.OpSteps.one_qubit_eigen",
    "ZQ.OpSteps.one_qubit_counterexample",
    "ZQ.OpSteps.local_zero",
    "ZQ.OpSteps.local_zero_counterexample",
    "ZQ.OpSteps.interpolate_spec"
   ],
   "note": "Proved with the exact conditions; matrix elements that are zero raise KeyError and more than 10^8 qubits lose their terms (counterexamples)."
  },
  {
   "property": "C111",
   "status": "partial",
   "theorems": [
    "ZQ.RandomOps.random_qubitop",
    "ZQ.RandomOps.random_isingop",
    "ZQ.RandomOps.random_qubitop_size",
    "ZQ.RandomOps.random_qubitop_counterexample",
    "ZQ.RandomOps.random_terminates",
    "ZQ.RandomOps.random_seeded",
    "ZQ.RandomOps.generate_spec",
    "ZQ.RandomOps.generate_fixed",
    "ZQ.RandomOps.generate_counterexample",
    "ZQ.RandomOps.random_wavefunction",
    "ZQ.RandomOps.random_wavefunction_seeded",
    "ZQ.RandomOps.random_wavefunction_counterexample"
   ],
   "note": "Proved for every lawful generator; fails for too many terms and for the seed 0 (counterexamples)."
  },
  {
   "property": "C112",
   "status": "partial",
   "theorems": [
    "ZQ.CircSteps.random_circuit",
    "ZQ.CircSteps.random_circuit_runs",
    "ZQ.CircSteps.random_circuit_counterexample",
    "ZQ.CircSteps.concatenate_spec",
    "ZQ.CircSteps.concatenate_file",
    "ZQ.CircSteps.batch_spec",
    "ZQ.CircSteps.batch_history_counterexample",
    "ZQ.CircSteps.batch_self_counterexample",
    "ZQ.CircSteps.random_params"
   ],
   "note": "Proved for all generators and lists; the register of a random circuit and the lists given to batch_circuits are not as documented (counterexamples)."
  },
  {
   "property": "C113",
   "status": "partial",
   "theorems": [
    "ZQ.Compat.translate_iff",
    "ZQ.Compat.translate_fails",
    "ZQ.Compat.translate_same",
    "ZQ.Compat.decorate_ok",
    "ZQ.Compat.decorate_new",
    "ZQ.Compat.decorate_fails",
    "ZQ.Compat.decorate_twice",
    "ZQ.Compat.decorate_counterexample"
   ],
   "note": "Proved for functions that do not raise TranslationFailed themselves; otherwise the fallback also runs (counterexample)."
  },
  {
   "property": "C114",
   "status": "proved",
   "theorems": [
    "ZQ.Contract.count_iff",
    "ZQ.Contract.order_iff",
    "ZQ.Contract.differ_iff",
    "ZQ.Contract.averaging_taskwise",
    "ZQ.Contract.averaging_order",
    "ZQ.Contract.averaging_contracts",
    "ZQ.Contract.exact_contracts",
    "ZQ.Contract.coefficients_needed",
    "ZQ.Contract.constant_needed",
    "ZQ.Contract.order_needed",
    "ZQ.Contract.contracts_counterexample",
    "ZQ.Contract.unseeded_counterexample",
    "ZQ.Contract.task_circuits"
   ],
   "note": "What the contracts accept and refuse, for all estimators; the two counterexamples say what they do not check."
  },
  {
   "property": "C115",
   "status": "proved",
   "theorems": [
    "ZQ.Nested.nested_iff",
    "ZQ.Nested.trace_unique",
    "ZQ.Nested.no_rounds",
    "ZQ.Nested.keep_same",
    "ZQ.Nested.rounds_restart",
    "ZQ.Nested.length_kept",
    "ZQ.Nested.shifted_float",
    "ZQ.Nested.shifted_int",
    "ZQ.Nested.mock_spec",
    "ZQ.Nested.mock_reliable",
    "ZQ.Nested.mock_contracts",
    "ZQ.Nested.contracts_counterexample",
    "ZQ.Nested.lengthening_counterexample",
    "ZQ.Nested.shifted_int_negative"
   ],
   "note": "For all inner optimizers and factories; the counterexamples show that the documented lengthening does not happen and what the contracts miss."
  },
  {
   "property": "C116",
   "status": "partial",
   "theorems": [
    "ZQ.WfHeap.setItem_atomic",
    "ZQ.WfHeap.setItem_one",
    "ZQ.WfHeap.normalised_partial",
    "ZQ.WfHeap.shared_write",
    "ZQ.WfHeap.copied_alone",
    "ZQ.WfHeap.flipped_alone",
    "ZQ.WfHeap.amplitudes_shared",
    "ZQ.WfHeap.slice_rejected_counterexample",
    "ZQ.WfHeap.slice_counterexample",
    "ZQ.WfHeap.array_counterexample",
    "ZQ.WfHeap.amplitudes_counterexample",
    "ZQ.WfHeap.overlap_counterexample",
    "ZQ.WfHeap.equal_array",
    "ZQ.WfHeap.equal_counterexample",
    "ZQ.WfHeap.equal_other"
   ],
   "note": "Proved for programs that write only to wavefunctions and without slices; writes to slices, to arrays and to overlapping windows break the property (counterexamples)."
  },
  {
   "property": "C117",
   "status": "partial",
   "theorems": [
    "ZQ.Workflow.transform_jw",
    "ZQ.Workflow.transform_bk",
    "ZQ.Workflow.transform_fermion",
    "ZQ.Workflow.transform_unknown",
    "ZQ.Workflow.transform_qubit",
    "ZQ.Workflow.ground_step",
    "ZQ.Workflow.workflow_ground",
    "ZQ.Workflow.workflow_energy_partial",
    "ZQ.Workflow.rdm_step",
    "ZQ.Workflow.group_step",
    "ZQ.Workflow.rdm_values_step",
    "ZQ.Workflow.rdm_list_step",
    "ZQ.Workflow.evaluate_list_step",
    "ZQ.Workflow.workflow_terms",
    "ZQ.Workflow.workflow_energy_counterexample",
    "ZQ.Workflow.sorted_counterexample"
   ],
   "note": "Proved for operators that involve their last orbital; otherwise the code looks at fewer modes (counterexample, and workflow_ground says exactly what it finds). The entries are multiples of some number not smaller than 16e-8, so that no term is dropped as negligible."
  },
  {
   "property": "C118",
   "status": "proved",
   "theorems": [
    "ZQ.Variational.vqe_bound",
    "ZQ.Variational.spectrum_bound",
    "ZQ.Variational.energy_bound"
   ],
   "note": "The number of qubits is that of the modes the operator involves (see C117); the entries are multiples of some number not smaller than 16e-8, so that no term is dropped as negligible."
  },
  {
   "property": "C119",
   "status": "proved",
   "theorems": [
    "ZQ.OptStep.circuit_step",
    "ZQ.OptStep.ansatz_step",
    "ZQ.OptStep.circuit_step_values",
    "ZQ.OptStep.ansatz_step_values",
    "ZQ.OptStep.circuit_step_exact",
    "ZQ.OptStep.vqe_workflow",
    "ZQ.OptStep.combine_step",
    "ZQ.OptStep.finite_tame",
    "ZQ.OptStep.finite_values",
    "ZQ.OptStep.artifact_call"
   ],
   "note": "For any optimizer and estimation method; with exact estimation the saved values are energies, bounded by the ground state energies of the other workflow."
  },
  {
   "property": "C120",
   "status": "proved",
   "theorems": [
    "ZQ.PauliCirc.createCircuits_spec",
    "ZQ.PauliCirc.createCircuits_unitary",
    "ZQ.PauliCirc.createCircuits_combination",
    "ZQ.PauliCirc.createCircuits_expectation",
    "ZQ.PauliCirc.createCircuits_rejects"
   ],
   "note": "For all qubit operators."
  },
  {
   "property": "C121",
   "status": "partial",
   "theorems": [
    "ZQ.Analysis.analysis_step",
    "ZQ.Analysis.analysis_rejects",
    "ZQ.Analysis.analysis_values",
    "ZQ.Analysis.analysis_ground",
    "ZQ.Analysis.decomposition_function",
    "ZQ.Analysis.analysis_workflow_partial"
   ],
   "note": "The promised precision needs a factor k, the number of terms of the largest group, because the code leaves out covariances (C104 has the counterexample); all other parts are proved in full."
  },
  {
   "property": "C122",
   "status": "partial",
   "theorems": [
    "ZQ.OperatorEdit.reorder_spec",
    "ZQ.OperatorEdit.reorder_entries",
    "ZQ.OperatorEdit.reorder_rejects",
    "ZQ.OperatorEdit.relabel_matrix",
    "ZQ.OperatorEdit.relabel_ground",
    "ZQ.OperatorEdit.relabel_unitary",
    "ZQ.OperatorEdit.reorder_step",
    "ZQ.OperatorEdit.reorder_step_rejects",
    "ZQ.OperatorEdit.reorder_step_unitary",
    "ZQ.OperatorEdit.reorder_value_partial",
    "ZQ.OperatorEdit.reorder_value_counterexample",
    "ZQ.OperatorEdit.diagonal_step",
    "ZQ.OperatorEdit.diagonal_step_rejects",
    "ZQ.OperatorEdit.number_step",
    "ZQ.OperatorEdit.inactive_step_partial",
    "ZQ.OperatorEdit.inactive_default_counterexample",
    "ZQ.OperatorEdit.oneQubit_step",
    "ZQ.OperatorEdit.concat_step"
   ],
   "note": "Missing, because the code violates it: remove_inactive_orbitals without a number of core orbitals (counterexample), orbitals that do not occur are removed too (C95), and equal values after reordering for operators that do not involve their last mode (counterexample). All other parts are proved in full."
  },
  {
   "property": "C123",
   "status": "partial",
   "theorems": [
    "ZQ.GraphSteps.sampler_described",
    "ZQ.GraphSteps.sampler_rejects",
    "ZQ.GraphSteps.sampler_misspelled_counterexample",
    "ZQ.GraphSteps.generate_spec",
    "ZQ.GraphSteps.graph_step",
    "ZQ.GraphSteps.graph_step_specs",
    "ZQ.GraphSteps.complete_step",
    "ZQ.GraphSteps.graph_step_seeded",
    "ZQ.GraphSteps.specs_step"
   ],
   "note": "Missing, because the code violates it: misspelled parameters of samplers are ignored, not refused (counterexample). All other parts are proved in full."
  },
  {
   "property": "C124",
   "status": "proved",
   "theorems": [
    "ZQ.BuildSteps.ansatz_step",
    "ZQ.BuildSteps.ansatz_step_numeric",
    "ZQ.BuildSteps.random_ansatz",
    "ZQ.BuildSteps.mock_step",
    "ZQ.BuildSteps.random_circuit_step",
    "ZQ.BuildSteps.ancilla_step",
    "ZQ.BuildSteps.layers_stored",
    "ZQ.BuildSteps.chain_step",
    "ZQ.BuildSteps.grid_step",
    "ZQ.BuildSteps.layers_rejects"
   ],
   "note": "Storing circuits is stated for circuits that can be saved and loaded (C11 says which); mock_step and random_circuit_step have no such hypothesis."
  },
  {
   "property": "C125",
   "status": "partial",
   "theorems": [
    "ZQ.GeneralHubbard.number_spec",
    "ZQ.GeneralHubbard.interaction_spec",
    "ZQ.GeneralHubbard.interaction_partial",
    "ZQ.GeneralHubbard.interaction_counterexample"
   ],
   "note": "Missing, because the code violates it: coefficients other than 1 with particle-hole symmetry (counterexample). interaction_spec says what the operator is for all arguments."
  },
  {
   "property": "C126",
   "status": "proved",
   "theorems": [
    "ZQ.Geometry.reads_iff",
    "ZQ.Geometry.geometry_spec",
    "ZQ.Geometry.geometry_rejects",
    "ZQ.Geometry.geometry_roundtrip",
    "ZQ.Geometry.units_spec"
   ],
   "note": "float() is a parameter. Lengths are real numbers."
  },
  {
   "property": "C127",
   "status": "partial",
   "theorems": [
    "ZQ.Examples.sumOfSquares_spec",
    "ZQ.Examples.function1_spec",
    "ZQ.Examples.function2_spec",
    "ZQ.Examples.function5_spec",
    "ZQ.Examples.too_few",
    "ZQ.Examples.bitstring_partial",
    "ZQ.Examples.bitstring_counterexample",
    "ZQ.Examples.recorded"
   ],
   "note": "Missing, because the code violates it: the stored digits of negative integers (counterexample). All other parts are proved in full."
  },
  {
   "property": "C128",
   "status": "proved",
   "theorems": [
    "ZQ.OpLaws.identity_laws",
    "ZQ.OpLaws.zero_laws",
    "ZQ.OpLaws.distributive",
    "ZQ.OpLaws.associative",
    "ZQ.OpLaws.pow_laws",
    "ZQ.OpLaws.number_laws",
    "ZQ.OpLaws.constant_laws"
   ],
   "note": "Coefficients are exact complex numbers."
  },
  {
   "property": "C129",
   "status": "proved",
   "theorems": [
    "ZQ.Stat.distribution_unbiased",
    "ZQ.Stat.distribution_error",
    "ZQ.Stat.distance_mean",
    "ZQ.Stat.seeded_distribution_same"
   ],
   "note": "random numbers uniform and independent as numpy promises; exact real arithmetic"
  },
  {
   "property": "C130",
   "status": "partial",
   "theorems": [
    "ZQ.Meas.representing_exact",
    "ZQ.Meas.representing_closest",
    "ZQ.Meas.representing_counterexample"
   ],
   "note": "Exact when possible, closest when no correction is needed; not closest in general (counterexample)."
  },
  {
   "property": "C131",
   "status": "partial",
   "theorems": [
    "ZQ.Dist.nll_almost_smallest",
    "ZQ.Dist.nll_smallest_partial",
    "ZQ.Dist.js_almost_smallest",
    "ZQ.Dist.nearest_counterexample"
   ],
   "note": "Smallest up to epsilon times the number of outcomes; exactly smallest without clipping; not smallest in general (counterexample)."
  },
  {
   "property": "C132",
   "status": "partial",
   "theorems": [
    "ZQ.MolHeap.reading_changes_nothing",
    "ZQ.MolHeap.result_stays",
    "ZQ.MolHeap.updates_unseen",
    "ZQ.MolHeap.hamiltonian_value",
    "ZQ.MolHeap.activeSpace_value",
    "ZQ.MolHeap.coulomb_exchange_value",
    "ZQ.MolHeap.antisym_value",
    "ZQ.MolHeap.rdm_value",
    "ZQ.MolHeap.data_kept_partial",
    "ZQ.MolHeap.molecule_changes_counterexample"
   ],
   "note": "Proved for all methods except get_integrals and get_molecular_rdm, which share their arrays with the molecule (counterexample)."
  },
  {
   "property": "C133",
   "status": "proved",
   "theorems": [
    "ZQ.Stat.likelihood_of_measured",
    "ZQ.Stat.likelihood_under_measured",
    "ZQ.Stat.divergence_of_measured",
    "ZQ.Stat.clippedEntropy_eq_zero",
    "ZQ.Stat.divergence_limit_counterexample"
   ],
   "note": "The random numbers are uniform and independent by hypothesis (numpy's promise); the divergence tends to the clipped entropy, not to zero."
  },
  {
   "property": "C134",
   "status": "proved",
   "theorems": [
    "ZQ.Ground.getGroundState_spec",
    "ZQ.Ground.ground_energy_sectors",
    "ZQ.Ground.ground_energy_spectrum",
    "ZQ.Ground.ground_energy_transforms",
    "ZQ.Ground.getGroundState_error"
   ],
   "note": "The eigensolvers of numpy and scipy are parameters with the specifications Finds, Solves, SolvesH and SolvesG, which are shown to be satisfiable."
  },
  {
   "property": "C135",
   "status": "proved",
   "theorems": [
    "ZQ.Same.wavefunction_same",
    "ZQ.Same.measured_same",
    "ZQ.Same.distribution_same",
    "ZQ.Same.expectation_same",
    "ZQ.Same.estimates_same",
    "ZQ.Same.decomposed_same",
    "ZQ.Same.undo_measures_zero"
   ],
   "note": "The empty circuit has no to_unitary (TypeError), so it is not covered by the first sentence."
  },
  {
   "property": "C136",
   "status": "proved",
   "theorems": [
    "ZQ.Stat.averaging_confidence",
    "ZQ.Stat.averaging_enough",
    "ZQ.Stat.energy_confidence",
    "ZQ.Stat.outcome_confidence",
    "ZQ.Stat.distribution_confidence",
    "ZQ.Stat.distribution_enough"
   ],
   "note": "The randomness is numpy's promise (FreshRandom, SeededRandom), as in C105."
  },
  {
   "property": "C137",
   "status": "proved",
   "theorems": [
    "ZQ.EnergyGradient.gradient_spec",
    "ZQ.EnergyGradient.energy_difference",
    "ZQ.EnergyGradient.gradient_turning",
    "ZQ.EnergyGradient.parameter_shift",
    "ZQ.EnergyGradient.default_step",
    "ZQ.EnergyGradient.difference_counterexample"
   ],
   "note": "Floats are real numbers: the default step gives a relative error of 2e-11 before rounding."
  },
  {
   "property": "C138",
   "status": "proved",
   "theorems": [
    "ZQ.EnergyGradient.difference_bound",
    "ZQ.EnergyGradient.gradient_bound"
   ],
   "note": "Floats are real numbers."
  },
  {
   "property": "C139",
   "status": "proved",
   "theorems": [
    "ZQ.Version.parse_spec",
    "ZQ.Version.parse_error",
    "ZQ.Version.roundtrip_iff",
    "ZQ.Version.roundtrip_counterexample",
    "ZQ.Version.next_spec",
    "ZQ.Version.next_error",
    "ZQ.Version.releases_spec"
   ],
   "note": "Python's re is an external library: its greedy backtracking semantics for the constructs of the expression is part of the model."
  },
  {
   "property": "C140",
   "status": "proved",
   "theorems": [
    "ZQ.Stat.method_value",
    "ZQ.Stat.method_raises",
    "ZQ.Stat.estimate_statistics",
    "ZQ.Stat.estimate_independent",
    "ZQ.Stat.measured_gradient",
    "ZQ.Stat.measured_energy_gradient"
   ],
   "note": "Random numbers are as in C105 (independent and uniform, no seed); an AttributeError on estimates that are None is modelled as a TypeError, and is proved not to occur."
  },
  {
   "property": "C141",
   "status": "proved",
   "theorems": [
    "ZQ.Stat.quotient_tail",
    "ZQ.Stat.groupReach_pos",
    "ZQ.Stat.prepare_effectless",
    "ZQ.Stat.gradient_confidence",
    "ZQ.Stat.gradient_enough",
    "ZQ.Stat.gradient_converges"
   ],
   "note": "Random numbers are as in C105 (independent and uniform, no seed)."
  },
  {
   "property": "C142",
   "status": "proved",
   "theorems": [
    "ZQ.Stat.method_of_estimate",
    "ZQ.Stat.seededEstimate_mean",
    "ZQ.Stat.seededEstimate_bound",
    "ZQ.Stat.seeded_gradient",
    "ZQ.Stat.seeded_cancels",
    "ZQ.Stat.seeded_variance_counterexample"
   ],
   "note": "Means are over a sequence of independent uniform numbers, one for each seed (C105)."
  },
  {
   "property": "C143",
   "status": "proved",
   "theorems": [
    "ZQ.AngleBound.bend_eq",
    "ZQ.AngleBound.interpolation",
    "ZQ.AngleBound.path_difference",
    "ZQ.AngleBound.gate_freq",
    "ZQ.AngleBound.difference_bound",
    "ZQ.AngleBound.gradient_bound"
   ],
   "note": "The simulator is correct as in C68; energies are exact."
  },
  {
   "property": "C144",
   "status": "proved",
   "theorems": [
    "ZQ.Stat.biased_confidence",
    "ZQ.Stat.biased_enough",
    "ZQ.Stat.biased_converges",
    "ZQ.Stat.angles_biased",
    "ZQ.Stat.angles_confidence",
    "ZQ.Stat.angles_enough",
    "ZQ.Stat.angles_converge"
   ],
   "note": "Draws are independent and distributed as numpy documents (C103)."
  },
  {
   "property": "C145",
   "status": "proved",
   "theorems": [
    "ZQ.Renumber.unitary_renumbered",
    "ZQ.Renumber.wavefunction_renumbered",
    "ZQ.Renumber.distribution_renumbered",
    "ZQ.Renumber.values_renumbered",
    "ZQ.Renumber.flip_spec",
    "ZQ.Renumber.flip_reversed",
    "ZQ.Renumber.reversed_expectation",
    "ZQ.Renumber.moved_exists"
   ],
   "note": "The last statement is for coefficients of at least 1e-8: reverse_qubit_order drops smaller ones (C50)."
  },
  {
   "property": "C146",
   "status": "proved",
   "theorems": [
    "ZQ.Register.wavefunction_larger",
    "ZQ.Register.distribution_larger",
    "ZQ.Register.values_larger",
    "ZQ.Register.values_elsewhere",
    "ZQ.Register.distribution_elsewhere"
   ],
   "note": "For unitary circuits on simulators whose native part is correct."
  },
  {
   "property": "C147",
   "status": "proved",
   "theorems": [
    "ZQ.Conserved.timeEvolution_good",
    "ZQ.Conserved.values_conserved",
    "ZQ.Conserved.total_conserved",
    "ZQ.Conserved.energy_conserved"
   ],
   "note": "Commuting is stated for the matrices of the Pauli strings on the circuit's register."
  },
  {
   "property": "C148",
   "status": "partial",
   "theorems": [
    "ZQ.ResultEq.eq_shared",
    "ZQ.ResultEq.eq_symm",
    "ZQ.ResultEq.eq_true",
    "ZQ.ResultEq.eq_false_partial",
    "ZQ.ResultEq.eq_raises",
    "ZQ.ResultEq.eq_single",
    "ZQ.ResultEq.eq_others",
    "ZQ.ResultEq.eq_roundtrip_raises",
    "ZQ.ResultEq.eq_counterexample",
    "ZQ.ResultEq.eq_empty_counterexample",
    "ZQ.ResultEq.estimate_eq",
    "ZQ.ResultEq.estimate_str",
    "ZQ.ResultEq.estimate_ne_value"
   ],
   "note": "The full claim is false: == raises ValueError for two different arrays of values. Proved: when it answers the answer is right (False: if no array is empty), symmetry, exactly what is raised; the part about value estimates is proved in full."
  },
  {
   "property": "C149",
   "status": "proved",
   "theorems": [
    "ZQ.Moves.distribution_moves",
    "ZQ.Moves.distribution_certain",
    "ZQ.Moves.samples_certain",
    "ZQ.Moves.values_certain",
    "ZQ.Moves.diagonal_gates"
   ],
   "note": "The specification of what each gate does to the bits is the inductive relation Moves with flipIf and exchange."
  },
  {
   "property": "C150",
   "status": "partial",
   "theorems": [
    "ZQ.Reversal.evolutions_add_partial",
    "ZQ.Reversal.there_and_back_partial",
    "ZQ.Reversal.reversed_back",
    "ZQ.Reversal.there_and_back_counterexample"
   ],
   "note": "False when terms do not commute (counterexample proved); proved for commuting terms, and for every operator with the terms taken back in the reverse order."
  },
  {
   "property": "C151",
   "status": "partial",
   "theorems": [
    "ZQ.Totals.total_add_partial",
    "ZQ.Totals.total_add_bound",
    "ZQ.Totals.total_smul",
    "ZQ.Totals.total_number",
    "ZQ.Totals.total_hc",
    "ZQ.Totals.total_swap",
    "ZQ.Totals.total_bounded",
    "ZQ.Totals.total_square_nonneg",
    "ZQ.Totals.variance_nonneg",
    "ZQ.Totals.uncertainty",
    "ZQ.Totals.total_add_counterexample"
   ],
   "note": "Additivity is exact only when the sum drops no term (counterexample proved); the deviation is bounded. The other parts hold in full. HasTotal is the specification."
  }
 ]
}