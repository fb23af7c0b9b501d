{
 "claims": [
  {
   "property": "C01",
   "status": "proved",
   "theorems": [
    "Graphix.C01_clifford_matmul",
    "Graphix.C01_clifford_conj",
    "Graphix.C01_named_gates",
    "Graphix.C01_distinct"
   ],
   "note": ""
  },
  {
   "property": "C02",
   "status": "proved",
   "theorems": [
    "Graphix.C02_hsz",
    "Graphix.C02_hsz_gates",
    "Graphix.C02_qasm3"
   ],
   "note": ""
  },
  {
   "property": "C03",
   "status": "proved",
   "theorems": [
    "Graphix.C03_measure"
   ],
   "note": ""
  },
  {
   "property": "C04",
   "status": "proved",
   "theorems": [
    "Graphix.C04_commute_domains"
   ],
   "note": ""
  },
  {
   "property": "C05",
   "status": "proved",
   "theorems": [
    "Graphix.C05_clifford_observable",
    "Graphix.C05_clifford_operator",
    "Graphix.C05_clifford_measure",
    "Graphix.C05_clifford_total",
    "Graphix.C05_angle_range"
   ],
   "note": ""
  },
  {
   "property": "C06",
   "status": "proved",
   "theorems": [
    "Graphix.C06_to_bloch",
    "Graphix.C06_to_pauli_sound",
    "Graphix.C06_to_pauli_none_iff",
    "Graphix.C06_to_pauli_or_bloch",
    "Graphix.C06_round_trip"
   ],
   "note": ""
  },
  {
   "property": "C07",
   "status": "proved",
   "theorems": [
    "Graphix.C07_unit_mul",
    "Graphix.C07_unit_neg",
    "Graphix.C07_unit_properties",
    "Graphix.C07_sign",
    "Graphix.C07_pauli_matmul",
    "Graphix.C07_pauli_neg",
    "Graphix.C07_pauli_mul_unit",
    "Graphix.C07_from_or_none"
   ],
   "note": ""
  },
  {
   "property": "C08",
   "status": "proved",
   "theorems": [
    "Graphix.C08_count",
    "Graphix.C08_outputs",
    "Graphix.C08_extend_append",
    "Graphix.C08_replace"
   ],
   "note": "C08_outputs: for runnable sequences with distinct inputs (otherwise `add` keeps nodes measured before being prepared); C08_count is unconditional."
  },
  {
   "property": "C09",
   "status": "proved",
   "theorems": [
    "Graphix.C09_check_runnability",
    "Graphix.C09_once"
   ],
   "note": "S and T commands are ignored by the check, as in the code."
  },
  {
   "property": "C10",
   "status": "proved",
   "theorems": [
    "Graphix.C10_run",
    "Graphix.C10_no_failure",
    "Graphix.C10_total_probability",
    "Graphix.C10_uniform",
    "Graphix.C10_signal_rejected",
    "Graphix.C10_history",
    "Graphix.C10_init_rejects"
   ],
   "note": "PatternSimulator.run on the state-vector backend without noise, for every branch selector, kernel schedule and uninitialised memory; exact arithmetic. The only possible failures are those of the branch selector. S commands (never present after construction through the API) are rejected."
  },
  {
   "property": "C11",
   "status": "proved",
   "theorems": [
    "Graphix.C11_standardize"
   ],
   "note": "Hypothesis NoSelfLoop: no command E((u,u)), which check_runnability accepts although it is not a valid CZ."
  },
  {
   "property": "C12",
   "status": "proved",
   "theorems": [
    "Graphix.C12_standard_form",
    "Graphix.C12_to_pattern_succeeds",
    "Graphix.C12_accepts_without_clifford"
   ],
   "note": "Same hypothesis NoSelfLoop; inputs distinct."
  },
  {
   "property": "C13",
   "status": "proved",
   "theorems": [
    "Graphix.C13_shift_signals",
    "Graphix.C13_shift_outcomes",
    "Graphix.C13_shape"
   ],
   "note": ""
  },
  {
   "property": "C14",
   "status": "proved",
   "theorems": [
    "Graphix.C14_bijective",
    "Graphix.C14_involutive_of_unchained",
    "Graphix.C14_chained_not_involutive"
   ],
   "note": "C14_chained_not_involutive: the documented inverse use of shift_outcomes fails for chained signals."
  },
  {
   "property": "C15",
   "status": "proved",
   "theorems": [
    "Graphix.C15_pauli_pushing",
    "Graphix.C15_pattern",
    "Graphix.C15_pattern_standardized",
    "Graphix.C15_shift_outcomes"
   ],
   "note": "Python set iteration orders (edges / neighbourhoods) are universally quantified; the warnings are not modelled."
  },
  {
   "property": "C16",
   "status": "proved",
   "theorems": [
    "Graphix.C16_remove_useless_domains",
    "Graphix.C16_single_qubit_domains"
   ],
   "note": ""
  },
  {
   "property": "C17",
   "status": "partial",
   "theorems": [
    "Graphix.C17_remove_local_clifford_partial",
    "Graphix.C17_identity_raises"
   ],
   "note": "For every runnable pattern without identity gates: the result has no C command, is runnable, and implements the same map in every branch. The full statement is false: C17_identity_raises shows that an identity gate on a node that is not the highest one raises PatternError."
  },
  {
   "property": "C18",
   "status": "partial",
   "theorems": [
    "Graphix.C18_max_space",
    "Graphix.C18_live_count",
    "Graphix.C18_space_list_partial",
    "Graphix.C18_space_list_general",
    "Graphix.C18_space_list_ignores_inputs"
   ],
   "note": "max_space fully proved; space_list ignores the inputs (code disagrees with its documentation), negation witness given."
  },
  {
   "property": "C19",
   "status": "proved",
   "theorems": [
    "Graphix.C19_succeeds",
    "Graphix.C19_to_space_optimal",
    "Graphix.C19_from_pattern",
    "Graphix.C19_optimal",
    "Graphix.spaceOptimal_competitor",
    "Graphix.C19_max_space_nbr",
    "Graphix.C19_never_worse"
   ],
   "note": "standardized_to_space_optimal_pattern succeeds on every well-formed standardized pattern, same semantics/inputs/outputs/measurement order, max_space agrees, optimal among all interleavings"
  },
  {
   "property": "C20",
   "status": "proved",
   "theorems": [
    "Graphix.C20_reorder",
    "Graphix.C20_preserves",
    "Graphix.C20_minimum",
    "Graphix.C20_not_worse",
    "Graphix.C20_greedy_valid",
    "Graphix.C20_greedy_unchanged",
    "Graphix.C20_causal_flow_optimal"
   ],
   "note": "the loop of minimize_space for arbitrary heuristics; greedy_degree and order_unchanged proved to return valid orders; orders of a causal flow proved optimal (the causal_flow heuristic's search is C27)"
  },
  {
   "property": "C21",
   "status": "proved",
   "theorems": [
    "Graphix.C21_node_mapping",
    "Graphix.C21_reindex",
    "Graphix.C21_reindex_default"
   ],
   "note": ""
  },
  {
   "property": "C22",
   "status": "proved",
   "theorems": [
    "Graphix.C22_compose",
    "Graphix.C22_semantics",
    "Graphix.C22_empty_raises"
   ],
   "note": "Requirement ComposeOk spells out the documented conditions; composing two empty patterns with an empty mapping raises ValueError (negation witness)."
  },
  {
   "property": "C23",
   "status": "proved",
   "theorems": [
    "Graphix.GF2.C23_elimination",
    "Graphix.GF2.C23_rank"
   ],
   "note": ""
  },
  {
   "property": "C24",
   "status": "proved",
   "theorems": [
    "Graphix.GF2.C24_right_inverse"
   ],
   "note": ""
  },
  {
   "property": "C25",
   "status": "proved",
   "theorems": [
    "Graphix.GF2.C25_null_space",
    "Graphix.GF2.C25_solve",
    "Graphix.GF2.C25_mat_mul"
   ],
   "note": ""
  },
  {
   "property": "C26",
   "status": "proved",
   "theorems": [
    "Graphix.C26_topological_generations"
   ],
   "note": "For every iteration order of Python sets."
  },
  {
   "property": "C27",
   "status": "proved",
   "theorems": [
    "Graphix.C27_find_cflow",
    "Graphix.C27_complete"
   ],
   "note": "Sound and complete for every open graph with planar measurements, every iteration order of sets."
  },
  {
   "property": "C28",
   "status": "proved",
   "theorems": [
    "Graphix.C28_pauliflow",
    "Graphix.C28_gflow",
    "Graphix.C28_pauliflow_complete",
    "Graphix.C28_gflow_complete",
    "Graphix.C28_to_pauliflow",
    "Graphix.C28_to_gflow",
    "Graphix.C28_focused"
   ],
   "note": "Sound and complete for every open graph without self-loops, every iteration order of sets and every schedule of the parallel products. The documentation also says that the flow is maximally delayed; that is not claimed."
  },
  {
   "property": "C29",
   "status": "proved",
   "theorems": [
    "Graphix.C29_gflow",
    "Graphix.C29_pauliflow",
    "Graphix.C29_causalflow",
    "Graphix.C29_xzcorrections"
   ],
   "note": "For every open graph that networkx and __post_init__ accept and every set iteration order."
  },
  {
   "property": "C30",
   "status": "proved",
   "theorems": [
    "Graphix.C30_gflow",
    "Graphix.C30_causalflow",
    "Graphix.C30_pauliflow"
   ],
   "note": "Graphs without self-loops, for every iteration order of sets and every compatible measurement order."
  },
  {
   "property": "C31",
   "status": "proved",
   "theorems": [
    "Graphix.C31_is_compatible",
    "Graphix.C31_is_compatible_empty_raises",
    "Graphix.C31_total_order",
    "Graphix.C31_to_pattern",
    "Graphix.C31_targets_not_checked"
   ],
   "note": "The pattern theorem assumes the corrections are on nodes of the graph, which check_well_formed does not verify (C31_targets_not_checked); is_compatible raises IndexError when there is no measured node (C31_is_compatible_empty_raises)."
  },
  {
   "property": "C32",
   "status": "partial",
   "theorems": [
    "Graphix.XZCorrections.C32_to_pauliflow_partial",
    "Graphix.XZCorrections.C32_round_trip",
    "Graphix.XZCorrections.C32_to_causalflow",
    "Graphix.XZCorrections.C32_to_gflow",
    "Graphix.XZCorrections.C32_input_correction",
    "Graphix.XZCorrections.C32_z_corrections_not_checked"
   ],
   "note": "Proved: for well-formed corrections whose X corrections avoid the inputs, to_pauliflow returns a well-formed Pauli flow with exactly the given corrections or raises FlowError when none exists (sound and complete); round trip from any Pauli flow. The full statement is false: X corrections on inputs are not rejected (C32_input_correction)."
  },
  {
   "property": "C33",
   "status": "proved",
   "theorems": [
    "Graphix.C33_to_xzcorrections",
    "Graphix.C33_partial_order_layers",
    "Graphix.C33_not_plus_raises"
   ],
   "note": "For every pattern whose standard form exists (preparations in |+>, the documented condition), every branch, every order of iteration. Clifford commands on outputs are kept as output Cliffords."
  },
  {
   "property": "C34",
   "status": "partial",
   "theorems": [
    "Graphix.GraphState.C34_h",
    "Graphix.GraphState.C34_z",
    "Graphix.GraphState.C34_s_partial",
    "Graphix.GraphState.C34_s_wrong",
    "Graphix.GraphState.C34_e1",
    "Graphix.GraphState.C34_e2",
    "Graphix.GraphState.C34_fill",
    "Graphix.GraphState.C34_measure_x",
    "Graphix.GraphState.C34_measure_y",
    "Graphix.GraphState.C34_measure_z",
    "Graphix.GraphState.C34_choice_ignored",
    "Graphix.GraphState.C34_to_statevector",
    "Graphix.GraphState.C34_extract_vops",
    "Graphix.GraphState.C34_apply_vops_partial",
    "Graphix.GraphState.C34_apply_vop_fresh_partial",
    "Graphix.GraphState.C34_vops_identity_raises",
    "Graphix.GraphState.C34_vops_wrong",
    "Graphix.GraphState.C34_new"
   ],
   "note": "Every simple graph, all node attributes, every order of iteration over the neighbours. h, z, the rewritings, the three measurements, to_statevector and extract_vops are proved in full. The full statement is false for s: C34_s_wrong shows that it is wrong on every hollow node with a loop, without sign and with a neighbour; C34_s_partial proves all other cases. apply_vops inherits the defect (C34_vops_wrong) and raises on Clifford.I."
  },
  {
   "property": "C35",
   "status": "proved",
   "theorems": [
    "Graphix.C35_remove_pauli",
    "Graphix.C35_pattern",
    "Graphix.C35_deterministic",
    "Graphix.C35_flow",
    "Graphix.C35_isolated_wrong",
    "Graphix.C35_not_plus_wrong"
   ],
   "note": "For patterns with |+> preparations, every iteration order of sets; includes termination of the loop. C35_not_plus_wrong: other preparations are not rejected and give a wrong result. C35_isolated_wrong: an isolated node measured in -X (outcome 1 with certainty) is removed as if its outcome were 0, so that the result differs from what the pattern does; a warning about a Non-Pauli measurement is emitted."
  },
  {
   "property": "C36",
   "status": "partial",
   "theorems": [
    "Graphix.C36_decompositions",
    "Graphix.C36_instructions_to_jcz_partial",
    "Graphix.C36_identity_drops_rest"
   ],
   "note": "Every decomposition and the whole of instructions_to_jcz preserve the meaning, for all instruction lists without I; with I the claim is false (bug) and this is proved."
  },
  {
   "property": "C37",
   "status": "partial",
   "theorems": [
    "Graphix.C37_transpile_partial",
    "Graphix.C37_identity_drops_rest",
    "Graphix.C37_transpile_default_partial",
    "Graphix.C37_transpile_default_no_measure",
    "Graphix.C37_default_measurements"
   ],
   "note": "For every circuit built through the API without I and with rzz on distinct qubits, all angles, branches and states, and every iteration order of sets and of networkx. False with I (proved), and with the default arguments false for some circuits that measure (proved: KeyError, order of classical outputs)."
  },
  {
   "property": "C38",
   "status": "partial",
   "theorems": [
    "Graphix.C38_transpile_swaps",
    "Graphix.C38_outputs_partial",
    "Graphix.C38_key_error",
    "Graphix.C38_classical_order"
   ],
   "note": "The relabelling is proved for every circuit. The order of the output nodes is right exactly when the circuit without swaps has the same active qubits; otherwise KeyError (proved); the classical outputs are ordered by qubit, not by gate (proved)."
  },
  {
   "property": "C39",
   "status": "proved",
   "theorems": [
    "Graphix.C39_measurements_to_z_axis",
    "Graphix.C39_j_to_rzh"
   ],
   "note": "For every circuit built through the API, any number of qubits and any outcomes."
  },
  {
   "property": "C40",
   "status": "proved",
   "theorems": [
    "Graphix.C40_bijection"
   ],
   "note": ""
  },
  {
   "property": "C41",
   "status": "proved",
   "theorems": [
    "Graphix.C41_evolve_single",
    "Graphix.C41_entangle",
    "Graphix.C41_tensor",
    "Graphix.C41_add_node",
    "Graphix.C41_expectation",
    "Graphix.C41_project",
    "Graphix.C41_swap",
    "Graphix.C41_permute",
    "Graphix.C41_bounds"
   ],
   "note": "Every order in which a (parallel) kernel may run its iterations is covered; exact complex arithmetic; numba and the memory layout are not modelled."
  },
  {
   "property": "C42",
   "status": "proved",
   "theorems": [
    "Graphix.C42_projective",
    "Graphix.C42_rank_one"
   ],
   "note": ""
  },
  {
   "property": "C43",
   "status": "partial",
   "theorems": [
    "Graphix.C43_constructed_complete",
    "Graphix.C43_dephasing",
    "Graphix.C43_depolarising",
    "Graphix.C43_two_qubit_depolarising",
    "Graphix.C43_two_qubit_depolarising_tensor",
    "Graphix.C43_amplitude_damping",
    "Graphix.C43_two_qubit_amplitude_damping",
    "Graphix.C43_pauli_channel_raises",
    "Graphix.C43_pauli_channel_wrong"
   ],
   "note": "Every channel constructor except pauli_channel is proved complete and as documented; pauli_channel is proved to be wrong (its Kraus operators use the probabilities in place of their square roots), so the full property is false of the code."
  },
  {
   "property": "C44",
   "status": "partial",
   "theorems": [
    "Graphix.Expr.C44_neg",
    "Graphix.Expr.C44_mul",
    "Graphix.Expr.C44_div",
    "Graphix.Expr.C44_add_defined",
    "Graphix.Expr.C44_add_partial",
    "Graphix.Expr.C44_sub_partial",
    "Graphix.Expr.C44_add_cancel_wrong",
    "Graphix.Expr.C44_subs",
    "Graphix.Expr.C44_subs_defined",
    "Graphix.Expr.C44_xreplace"
   ],
   "note": "+ and - are proved except when the parameter cancels: then the code returns a wrong value (C44_add_cancel_wrong), so the full property is false of the code."
  },
  {
   "property": "C45",
   "status": "proved",
   "theorems": [
    "Graphix.C45_noiseless",
    "Graphix.C45_depolarising",
    "Graphix.C45_amplitude_damping",
    "Graphix.C45_arity",
    "Graphix.C45_command_defined",
    "Graphix.C45_transpile",
    "Graphix.C45_compose",
    "Graphix.C45_compose_order",
    "Graphix.C45_confuse"
   ],
   "note": ""
  },
  {
   "property": "C46",
   "status": "proved",
   "theorems": [
    "Graphix.C46_const",
    "Graphix.C46_fixed_listed",
    "Graphix.C46_fixed_unlisted",
    "Graphix.C46_random",
    "Graphix.C46_total",
    "Graphix.C46_branch_taken",
    "Graphix.C46_branch_state"
   ],
   "note": ""
  },
  {
   "property": "C47",
   "status": "proved",
   "theorems": [
    "Graphix.PauliString.C47_tableau_roundtrip",
    "Graphix.PauliString.C47_tableau_roundtrip'",
    "Graphix.PauliString.C47_tableau_even",
    "Graphix.PauliString.C47_str_roundtrip",
    "Graphix.PauliString.C47_str_roundtrip'"
   ],
   "note": "For every Pauli string with indices in range, every binary array of odd length, every string."
  },
  {
   "property": "C48",
   "status": "proved",
   "theorems": [
    "Graphix.Berg.C48_tableau_updates",
    "Graphix.Berg.C48_berg_pass",
    "Graphix.Berg.C48_no_qubits"
   ],
   "note": "Every row, any number of qubits; the whole pass succeeds and implements every Clifford map with the commutation relations of the generators (at least one qubit; with none, the pass raises)."
  },
  {
   "property": "C49",
   "status": "proved",
   "theorems": [
    "Graphix.Pexp.C49_pauli_exponential",
    "Graphix.Pexp.C49_ladder_pass",
    "Graphix.Pexp.C49_order",
    "Graphix.Pexp.C49_er_to_circuit",
    "Graphix.Pexp.C49_er_outputs_differ"
   ],
   "note": "Every Pauli string with indices in range, every real angle, every order of the layers. The docstring of PauliExponential says exp(i angle/2 P), the pass implements exp(i angle P)."
  },
  {
   "property": "C50",
   "status": "proved",
   "theorems": [
    "Graphix.Fusion.C50_partition",
    "Graphix.Fusion.C50_no_error",
    "Graphix.Fusion.C50_terminates",
    "Graphix.Fusion.C50_sizes",
    "Graphix.Fusion.C50_deterministic",
    "Graphix.Fusion.C50_fusion_nodes",
    "Graphix.Fusion.C50_loops_forever",
    "Graphix.Fusion.C50_size_wrong",
    "Graphix.Fusion.C50_line_wrong"
   ],
   "note": "All finite simple graphs, all bounds. C50_terminates: the loop ends when max_ghz is above all degrees (default). Three negative results for other bounds: the loop may run forever, max_ghz may be exceeded, a LINEAR cluster may contain a cycle."
  },
  {
   "property": "C51",
   "status": "proved",
   "theorems": [
    "Graphix.C51_from_measured_nodes_mapping"
   ],
   "note": "For every valid open graph, all dictionaries, every iteration order of sets."
  },
  {
   "property": "C52",
   "status": "partial",
   "theorems": [
    "Graphix.C52_extract_circuit",
    "Graphix.C52_extract_iff",
    "Graphix.C52_found_pauliflow",
    "Graphix.C52_found_gflow",
    "Graphix.C52_pattern",
    "Graphix.C52_cliffords",
    "Graphix.C52_not_focused",
    "Graphix.C52_lengths",
    "Graphix.C52_negative_input"
   ],
   "note": "The full statement is false of the code: C52_extract_iff proves that the circuit implements the map exactly when no input has a Pauli measurement with a negative sign, C52_extract_circuit says what it implements otherwise (X on those inputs first), C52_negative_input is a witness. For gflows the full statement holds (C52_found_gflow)."
  },
  {
   "property": "C53",
   "status": "proved",
   "theorems": [
    "Graphix.C53_to_pattern"
   ],
   "note": "Every open graph without self-loops, every set iteration order and schedule of the matrix products."
  },
  {
   "property": "C54",
   "status": "partial",
   "theorems": [
    "Graphix.Pattern.C54_same_pattern",
    "Graphix.Pattern.C54_signals",
    "Graphix.Pattern.C54_unshifted_to_shifted",
    "Graphix.Pattern.C54_mc_signals_wrong"
   ],
   "note": "Every runnable pattern: mc terminates and gives the pattern of direct. The statement about the signals is false of the code: the signals of mc serve from the unshifted to the shifted outcomes (C54_unshifted_to_shifted) and those of direct in the opposite direction (C13_shift_outcomes); C54_signals relates the two, C54_mc_signals_wrong is a witness that mc's are wrong in the direction of direct. They agree when no signal is chained."
  },
  {
   "property": "C55",
   "status": "partial",
   "theorems": [
    "Graphix.Pattern.C55_parallelize",
    "Graphix.Pattern.C55_no_outputs",
    "Graphix.Pattern.C55_no_outputs_example"
   ],
   "note": "Full for every pattern with at least one output (all set iteration orders). The full statement is false of the code: C55_no_outputs proves that on every pattern with measurements and without outputs, a result that is returned has lost measurements."
  },
  {
   "property": "C56",
   "status": "proved",
   "theorems": [
    "Graphix.C56_evolve",
    "Graphix.C56_evolve_rejects",
    "Graphix.C56_evolve_single",
    "Graphix.C56_two_qubit",
    "Graphix.C56_entangle_self",
    "Graphix.C56_tensor",
    "Graphix.C56_add_nodes",
    "Graphix.C56_permute",
    "Graphix.C56_permute_rejects",
    "Graphix.C56_ptrace",
    "Graphix.C56_remove_qubit",
    "Graphix.C56_project",
    "Graphix.C56_normalize",
    "Graphix.C56_expectation",
    "Graphix.C56_expectation_real",
    "Graphix.C56_fidelity",
    "Graphix.C56_fidelity_pure",
    "Graphix.C56_apply_channel",
    "Graphix.C56_apply_channel_rejects",
    "Graphix.C56_library_channels",
    "Graphix.C56_init_matrix",
    "Graphix.C56_evolve_density",
    "Graphix.C56_tensor_density",
    "Graphix.C56_ptrace_density",
    "Graphix.C56_real_matrix_refused"
   ],
   "note": "Axis bookkeeping of reshape/tensordot/moveaxis/transpose is part of the model (Model/Tensor.lean). Where the trace is zero numpy returns NaN with a warning; the model stops with an error (C56_project). C56_real_matrix_refused: a matrix of dtype float is accepted by the constructor but add_nodes/tensor raise on it."
  },
  {
   "property": "C57",
   "status": "proved",
   "theorems": [
    "Graphix.C57_run",
    "Graphix.C57_sequence",
    "Graphix.C57_library",
    "Graphix.C57_no_failure",
    "Graphix.C57_noiseless",
    "Graphix.C57_backends_agree",
    "Graphix.C57_same_selector",
    "Graphix.C57_self_entangle",
    "Graphix.C57_deterministic"
   ],
   "note": "C57_run is for any noise model whose sequence is runnable and whose noises are trace preserving; C57_sequence shows that all library models are such. C57_self_entangle shows that the exclusion of E(u,u) is necessary. numpy's NaN for a chosen outcome of probability zero is an error of the model."
  },
  {
   "property": "C58",
   "status": "proved",
   "theorems": [
    "Graphix.C58_simulate",
    "Graphix.C58_active",
    "Graphix.C58_simulateDM",
    "Graphix.C58_backends_agree",
    "Graphix.C58_no_failure",
    "Graphix.C58_rzz_self"
   ],
   "note": "Backends instantiated by the user and the tensor-network backend are not modelled. On the density-matrix backend rzz on twice the same qubit is excluded: C58_rzz_self shows that it raises there although the state-vector backend accepts it."
  },
  {
   "property": "C59",
   "status": "partial",
   "theorems": [
    "Graphix.C59_transpile_keep_swaps_partial",
    "Graphix.C59_transpile_partial",
    "Graphix.C59_unitary_partial",
    "Graphix.C59_unitary_total_partial",
    "Graphix.C59_fidelity",
    "Graphix.C59_density_partial",
    "Graphix.C59_density_keep_swaps_partial",
    "Graphix.C59_probability_partial",
    "Graphix.C59_probability_default_partial",
    "Graphix.C59_coupling_partial"
   ],
   "note": "Missing: circuits with `i` (instructions_to_jcz drops what follows: C37), with rzz on twice the same qubit (refused by the density-matrix backend), and those on which transpile() raises KeyError (swap and measurement: C37), for which the full statement is false of the code. C59_unitary_total_partial has no condition on runs."
  },
  {
   "property": "C60",
   "status": "proved",
   "theorems": [
    "Graphix.C60_evolve",
    "Graphix.C60_expectation_value",
    "Graphix.C60_expectation_hermitian",
    "Graphix.C60_fidelity",
    "Graphix.C60_fidelity_symm",
    "Graphix.C60_isclose",
    "Graphix.C60_format",
    "Graphix.C60_to_dict",
    "Graphix.C60_prob_sum",
    "Graphix.C60_no_qubits"
   ],
   "note": "Symbolic amplitudes are not modelled. Without qubits the key is \"0\" (C60_no_qubits), the statements on dictionaries are for at least one qubit."
  },
  {
   "property": "C61",
   "status": "partial",
   "theorems": [
    "Graphix.C61_to_pauliflow_partial",
    "Graphix.C61_to_causalflow",
    "Graphix.C61_to_gflow",
    "Graphix.C32_to_gflow_iff",
    "Graphix.C61_corrections_round_trip",
    "Graphix.C61_gflow_round_trip",
    "Graphix.C61_causalflow_round_trip",
    "Graphix.C10_deterministic",
    "Graphix.C61_simulate_partial",
    "Graphix.C61_input_correction",
    "Graphix.C61_pauliflow_not_found",
    "Graphix.C61_z_corrections_not_checked"
   ],
   "note": "The full statement is false of the code: with X corrections on inputs to_pauliflow returns flows that are not Pauli flows (C61_input_correction), and FlowError does not mean that no Pauli flow has these corrections, only none for the layers computed from the corrections (C61_pauliflow_not_found)."
  },
  {
   "property": "C62",
   "status": "partial",
   "theorems": [
    "Graphix.OpenGraph.C62_compose",
    "Graphix.OpenGraph.C62_compose_map_partial",
    "Graphix.OpenGraph.C62_compose_flow",
    "Graphix.OpenGraph.C62_rename",
    "Graphix.OpenGraph.C62_shared_edge",
    "Graphix.OpenGraph.C62_clifford_order"
   ],
   "note": "The statement on maps is false of the code when an edge belongs to both graphs (C62_shared_edge) and when a merged output has a Clifford that does not commute with the edges of og2 (C62_clifford_order); C62_compose_map_partial excludes these two cases. The statement on flows is for merged nodes without Clifford."
  },
  {
   "property": "C63",
   "status": "partial",
   "theorems": [
    "Graphix.C63_run_partial",
    "Graphix.C63_agrees_statevector_partial",
    "Graphix.C63_deterministic_partial",
    "Graphix.C63_modes_agree_partial",
    "Graphix.C63_isolated_nodes",
    "Graphix.C63_refused",
    "Graphix.C63_preparation_refused",
    "Graphix.C63_copy",
    "Graphix.C63_impossible_branch",
    "Graphix.C63_isolated_wrong",
    "Graphix.C63_evolve_partial",
    "Graphix.C63_expectation_partial",
    "Graphix.C63_wrong_size"
   ],
   "note": "C63_run_partial and the theorems that use it suppose that every measured node has a neighbour: for a node without neighbours the code computes the probability of the outcome in the computational basis whatever the measurement is (C63_isolated_wrong). The selector is always told 1/2, so that a branch of probability zero can be chosen, and to_statevector() is NaN (C63_impossible_branch). copy() loses the default outputs (C63_copy). quimb is trusted for what the header of Model/TensorNet.lean says."
  },
  {
   "property": "C64",
   "status": "partial",
   "theorems": [
    "Graphix.C64_one_reading",
    "Graphix.C64_pattern",
    "Graphix.C64_pattern_exact",
    "Graphix.C64_accepted",
    "Graphix.C64_refused",
    "Graphix.C64_self_entangle",
    "Graphix.C64_circuit_body_partial",
    "Graphix.C64_circuit_partial",
    "Graphix.C64_circuit_accepted",
    "Graphix.C64_no_transpile",
    "Graphix.C64_rzz_wrong"
   ],
   "note": "The statement is proved in full for patterns (without a node entangled with itself: C64_self_entangle). For circuits it is false of the code when there is an RZZ gate, which is written as crz (C64_rzz_wrong); the _partial theorems have the hypothesis that there is none, and show the statement from any state of the register and from the beginning of the program."
  },
  {
   "property": "C65",
   "status": "proved",
   "theorems": [
    "Graphix.C65_apply_in_place",
    "Graphix.C65_map",
    "Graphix.C65_apply_raises",
    "Graphix.C65_views",
    "Graphix.C65_same_meaning",
    "Graphix.C65_blochify",
    "Graphix.C65_to_pauli_or_bloch",
    "Graphix.C65_infer",
    "Graphix.C65_infer_exact",
    "Graphix.C65_infer_complete",
    "Graphix.C65_infer_near_zero",
    "Graphix.C65_infer_idempotent",
    "Graphix.C65_infer_negative",
    "Graphix.C65_shift_signals",
    "Graphix.C65_reindex",
    "Graphix.C65_replace_parameter",
    "Graphix.C65_replace_parameters",
    "Graphix.C65_is_parameterized",
    "Graphix.C65_all_parameters_replaced",
    "Graphix.C65_clifford_parameters",
    "Graphix.C65_infer_parameters",
    "Graphix.C65_runnability_parameters",
    "Graphix.C65_standardize_parameters",
    "Graphix.C65_standardize_parameters_meaning"
   ],
   "note": "Angles are exact reals; InferSpec and PPattern.at are the specification. C65_standardize_parameters says that standardizing symbolically and then substituting gives the same commands as substituting and then standardizing, up to descriptions of measurements with the same observable (an angle that is an expression is not reduced modulo 2 pi)."
  },
  {
   "property": "C66",
   "status": "partial",
   "theorems": [
    "Graphix.C66_rand_circuit",
    "Graphix.C66_rand_circuit_size",
    "Graphix.C66_rand_circuit_small",
    "Graphix.C66_rand_circuit_transpile",
    "Graphix.C66_parameters_iterator",
    "Graphix.C66_rand_gate",
    "Graphix.C66_rand_gate_refused",
    "Graphix.C66_rand_gate_iterator",
    "Graphix.C66_rand_herm",
    "Graphix.C66_rand_unit",
    "Graphix.C66_rand_dm",
    "Graphix.C66_rand_dm_refused",
    "Graphix.C66_rand_dm_pure",
    "Graphix.C66_rand_state_vector",
    "Graphix.C66_rand_channel_ok_iff",
    "Graphix.C66_rand_channel_error",
    "Graphix.C66_rand_channel",
    "Graphix.C66_tensor_paulis",
    "Graphix.C66_rand_pauli_channel",
    "Graphix.C66_rand_pauli_channel_refused",
    "Graphix.C66_rand_pauli_channel_zero"
   ],
   "note": "The statement is proved for containers of pairs and parameters and non-zero draws. It is false of the code when pairs or parameters is an iterator, which is exhausted by the first layer (C66_rand_gate_iterator, C66_parameters_iterator), and rand_pauli_channel_kraus raises IndexError when a draw is exactly 0 (C66_rand_pauli_channel_zero). All-zero draws (division by zero) are excluded by hypothesis."
  },
  {
   "property": "C67",
   "status": "partial",
   "theorems": [
    "Graphix.C67_replace_parameter",
    "Graphix.C67_replace_parameters",
    "Graphix.C67_replace_copy_partial",
    "Graphix.C67_copy_forgets_measured",
    "Graphix.C67_is_parameterized_partial",
    "Graphix.C67_is_parameterized_j",
    "Graphix.C67_all_parameters_replaced",
    "Graphix.C67_transpile_parameters",
    "Graphix.C67_transpile_parameters_keep_swaps",
    "Graphix.C67_pattern_implements_circuit",
    "Graphix.C67_substitute_then_transpile"
   ],
   "note": "The commutation of transpile with substitution is proved in full. The statement is false of the code in two places: the copy made by visit(copy=True) forgets which qubits were measured (C67_copy_forgets_measured; proved without measurements, C67_replace_copy_partial), and is_parameterized ignores j gates (C67_is_parameterized_j; proved without them, C67_is_parameterized_partial). Angles are exact reals and affine expressions; C67_pattern_implements_circuit inherits the hypotheses of C37."
  },
  {
   "property": "C68",
   "status": "proved",
   "theorems": [
    "Graphix.C68_map",
    "Graphix.C68_map_raises",
    "Graphix.C68_to_bloch",
    "Graphix.C68_xz_to_bloch",
    "Graphix.C68_bloch_flow",
    "Graphix.C68_infer",
    "Graphix.C68_infer_exact",
    "Graphix.C68_infer_negative",
    "Graphix.C68_infer_to_pattern",
    "Graphix.C68_infer_gains",
    "Graphix.C68_measurement_isclose",
    "Graphix.C68_is_equal_structurally",
    "Graphix.C68_isclose",
    "Graphix.C68_isclose_refl_symm",
    "Graphix.C68_isclose_exact",
    "Graphix.C68_isclose_negative",
    "Graphix.C68_to_causalflow",
    "Graphix.C68_to_circuit",
    "Graphix.C68_with_parameter",
    "Graphix.C68_with_parameters",
    "Graphix.C68_flow_parameters"
   ],
   "note": "Angles are exact reals (an angle given as a Python int, which isclose compares with ==, is not distinguished); networkx graphs_equal is modelled as equality of nodes and neighbourhoods; the flow theorems are for graphs without self-loops, to_circuit for a nonempty list of outputs."
  },
  {
   "property": "C69",
   "status": "proved",
   "theorems": [
    "Graphix.C69_heuristics",
    "Graphix.C69_no_heuristic",
    "Graphix.C69_greedy",
    "Graphix.C69_minimize_space",
    "Graphix.C69_not_plus_raises",
    "Graphix.C69_refused"
   ],
   "note": "Patterns without E((u, u))."
  },
  {
   "property": "C70",
   "status": "partial",
   "theorems": [
    "Graphix.C70_clifford_commands",
    "Graphix.C70_clifford_commands_standardized",
    "Graphix.C70_clifford_commands_fails",
    "Graphix.C70_connected_nodes_partial",
    "Graphix.C70_connected_nodes_standardizes_partial",
    "Graphix.C70_connected_nodes_fails",
    "Graphix.C70_correction_commands",
    "Graphix.C70_correction_commands_strict",
    "Graphix.C70_reorder_input_nodes",
    "Graphix.C70_eq",
    "Graphix.C70_std_map",
    "Graphix.C70_std_to_bloch",
    "Graphix.C70_duplicates"
   ],
   "note": "The full statement is false of the code: connected_nodes raises IndexError when the (standardized) sequence of commands ends with an E command (C70_connected_nodes_fails); proved in all other cases. Patterns without E((u, u)) for connected_nodes."
  },
  {
   "property": "C71",
   "status": "partial",
   "theorems": [
    "Graphix.C71_squarefree",
    "Graphix.C71_recognize",
    "Graphix.C71_recognize_error",
    "Graphix.C71_recognize_exact",
    "Graphix.C71_complex_to_str",
    "Graphix.C71_complex_exact",
    "Graphix.C71_small_is_zero",
    "Graphix.C71_text",
    "Graphix.C71_text_close"
   ],
   "note": "The full statement is false of the code: the tolerance is compared with the squares, so the error can be sqrt(atol) (C71_small_is_zero: 2e-5 is printed as 0); C71_complex_to_str bounds the error by 2 max(atol, sqrt(atol)) + pi atol |z|, or atol + u |z| for a decimal. limit_denominator and decimal formatting are parameters. Floats are real numbers."
  },
  {
   "property": "C72",
   "status": "partial",
   "theorems": [
    "Graphix.C72_state_to_str",
    "Graphix.C72_state_exact",
    "Graphix.C72_statevec_exact",
    "Graphix.C72_bare_sum",
    "Graphix.C72_bare_decimal",
    "Graphix.C72_text",
    "Graphix.C72_statevec_text"
   ],
   "note": "The full statement is false of the code: a phase such as 3/5 + 4/5i after a common modulus, and a decimal coefficient with two parts, are printed without parentheses (C72_bare_sum, C72_bare_decimal); proved when every coefficient is one term or is put in parentheses. rtol = 0, numeric entries, ASCII."
  },
  {
   "property": "C73",
   "status": "partial",
   "theorems": [
    "Graphix.C73_pattern_to_str",
    "Graphix.C73_flow_to_str",
    "Graphix.C73_xzcorr_to_str",
    "Graphix.C73_limit_zero",
    "Graphix.C73_clifford_label",
    "Graphix.C73_state_lost"
   ],
   "note": "The full statement is false of the code: with limit = 0 the text has all commands but one and a wrong number of omitted commands (C73_limit_zero), several Clifford gates have the same label (C73_clifford_label) and the state of a preparation is not printed (C73_state_lost); proved for limits at least 1, up to these two. Angles are read within the relative error 1e-9 of angle_to_str. ASCII, on one line."
  },
  {
   "property": "C74",
   "status": "proved",
   "theorems": [
    "Graphix.C74_found",
    "Graphix.C74_recognized",
    "Graphix.C74_roundtrip",
    "Graphix.C74_shape"
   ],
   "note": "The tolerances of np.allclose and math.isclose are modelled, with exact arithmetic on complex numbers. The returned gate is the matrix up to any nonzero factor, not only up to a phase."
  },
  {
   "property": "C75",
   "status": "proved",
   "theorems": [
    "Graphix.C75_pauliflow",
    "Graphix.C75_gflow",
    "Graphix.C75_causalflow",
    "Graphix.C75_dag",
    "Graphix.C75_acyclic"
   ],
   "note": "For gflow and causal flow the measurements are given by planes (the type bound of these classes; a PauliMeasurement has no to_plane)."
  },
  {
   "property": "C76",
   "status": "proved",
   "theorems": [
    "Graphix.C76_fails",
    "Graphix.C76_eigenvector",
    "Graphix.C76_unique",
    "Graphix.C76_density",
    "Graphix.C76_orthogonal",
    "Graphix.C76_measured",
    "Graphix.C76_iterate",
    "Graphix.C76_text"
   ],
   "note": "The sign (unit) of the Pauli does not change the state that eigenstate returns: (-Pauli.X).eigenstate(0) is |+>, of eigenvalue -1."
  },
  {
   "property": "C77",
   "status": "proved",
   "theorems": [
    "Graphix.C77_command",
    "Graphix.C77_pattern",
    "Graphix.C77_outputs",
    "Graphix.C77_constructed"
   ],
   "note": "Texts are lists of Python tokens; a float is one token (its repr reads back exactly). The classes and the module graphix are in scope."
  },
  {
   "property": "C78",
   "status": "partial",
   "theorems": [
    "Graphix.C78_text_partial",
    "Graphix.C78_no_angle_partial",
    "Graphix.C78_angle_unit"
   ],
   "note": "The full statement is false: the constructors take angles in units of pi, and the text has them in radians (RX(0, 0.5) is printed RX(0, pi/2)); also 3pi/2 has no multiplication sign. Proved: the text gives the width, the instructions, the qubits and the angles in radians (relative error 1e-9), and without rotations it is the circuit."
  },
  {
   "property": "C79",
   "status": "proved",
   "theorems": [
    "Graphix.C79_call",
    "Graphix.C79_script",
    "Graphix.C79_transpiled_tidy",
    "Graphix.C79_deterministic",
    "Graphix.C79_circuit",
    "Graphix.C79_density",
    "Graphix.C79_circuit_density"
   ],
   "note": "Tidy patterns: runnable, no signal commands, preparations in |+>, no E on one node twice, Clifford commands last on their nodes; the patterns of circuits are tidy (C79_transpiled_tidy). shift_signals is the direct method. With warnings of remove_pauli_measurements (isolated nodes with an impossible outcome) the scalar of a branch is not determined, and a run may fail."
  },
  {
   "property": "C80",
   "status": "proved",
   "theorems": [
    "Graphix.C80_density_to_str",
    "Graphix.C80_density_exact",
    "Graphix.C80_text"
   ],
   "note": "ASCII format, rtol = 0 (the default), numerical entries. The text of a decimal literal is a parameter: not empty, no space. The tolerance of a cell is that of C71 (PrintedClose): the square root of atol when a root is recognized."
  },
  {
   "property": "C81",
   "status": "partial",
   "theorems": [
    "Graphix.C81_new",
    "Graphix.C81_history",
    "Graphix.C81_channel_partial",
    "Graphix.C81_nan",
    "Graphix.C81_action",
    "Graphix.C81_model"
   ],
   "note": "The full statement is false: nan is accepted (C81_nan), and the error comes only when the channel is built. Proved: the history of an object for all floats, the channel when no nan was given, and when the command of a model raises."
  },
  {
   "property": "C82",
   "status": "proved",
   "theorems": [
    "Graphix.C82_angle_text"
   ],
   "note": "Default max_denominator. The text of a float is a parameter: it reads as a number near it (1e-9) and has no letter p and no pi (floatTexts_exist: such texts exist). limit_denominator is any function; only its result is checked, as in the code."
  }
 ]
}