{"id": "C01", "title": "Clifford composition is matrix multiplication up to phase", "statement": "For any two single-qubit Clifford gates a and b, `a @ b` is the Clifford gate whose matrix equals the product of the matrices of a and b up to a global phase, and `a.conj` is the Clifford whose matrix is the inverse (adjoint) of a's up to phase.", "quantifier": "all pairs of the 24 single-qubit Cliffords, over exact complex matrices", "why_tests_cant": "tests compare floating-point matrices with a tolerance; the claim is exact equality up to a unit-modulus phase", "anchors": ["graphix/clifford.py: Clifford.__matmul__, Clifford.conj, Clifford.matrix", "graphix/_db.py: CLIFFORD, CLIFFORD_MUL, CLIFFORD_CONJ"]}
{"id": "C02", "title": "Clifford decompositions denote the same gate", "statement": "For every Clifford c, multiplying the matrices of the gates listed by `c.hsz` (and by `c.qasm3`) in the documented order gives the matrix of c up to a global phase.", "quantifier": "all 24 Cliffords, exact complex matrices", "why_tests_cant": "exact equality up to phase, not closeness", "anchors": ["graphix/clifford.py: Clifford.hsz, Clifford.qasm3", "graphix/_db.py: CLIFFORD_HSZ_DECOMPOSITION, CLIFFORD_TO_QASM3"]}
{"id": "C03", "title": "Conjugating a Pauli by a Clifford", "statement": "For every Clifford c and signed/phased Pauli p, `c.measure(p)` is exactly the operator c\u2020 p c, including its sign.", "quantifier": "all 24 Cliffords and all 16 phased Paulis, exact complex matrices", "why_tests_cant": "exact operator identity including phase", "anchors": ["graphix/clifford.py: Clifford.measure, Clifford.measure_axis", "graphix/_db.py: CLIFFORD_MEASURE"]}
{"id": "C04", "title": "Commuting correction domains through a Clifford", "statement": "For every Clifford c and every pair of X/Z correction domains, applying c after the corrections X^s Z^t is, for every assignment of measurement outcomes, the same operation up to global phase as applying the corrections with domains `c.commute_domains(Domains(s,t))` after/before c as documented.", "quantifier": "all Cliffords, all finite domains, all outcome assignments", "why_tests_cant": "domains are arbitrary finite sets and outcomes arbitrary assignments", "anchors": ["graphix/clifford.py: Clifford.commute_domains, Domains"]}
{"id": "C05", "title": "Measurement.clifford transforms the measured observable", "statement": "For every measurement m (Bloch plane/angle or Pauli) and Clifford c, `m.clifford(c)` measures the observable c\u2020 M c where M is the observable of m: measuring m.clifford(c) on a state equals applying c and then measuring m, for both outcomes.", "quantifier": "all real angles, all planes/axes/signs, all 24 Cliffords, both outcomes", "why_tests_cant": "ranges over a continuum of angles", "anchors": ["graphix/measurements.py: BlochMeasurement.clifford, PauliMeasurement.clifford", "graphix/fundamentals.py: Plane.clifford"]}
{"id": "C06", "title": "Pauli and Bloch descriptions of a measurement agree", "statement": "`to_bloch` of a Pauli measurement and `to_pauli_or_none` of a Bloch measurement (with exact arithmetic) describe the same observable as the original; to_pauli_or_none answers None exactly when the Bloch observable is not a signed Pauli.", "quantifier": "all axes and signs; all planes and real angles", "why_tests_cant": "ranges over a continuum of angles", "anchors": ["graphix/measurements.py: PauliMeasurement.to_bloch, BlochMeasurement.to_pauli_or_none"]}
{"id": "C07", "title": "Pauli operator arithmetic is exact", "statement": "`p @ q`, `-p`, and multiplication of a Pauli by a complex unit denote exactly the matrix product/scaling of the operators; ComplexUnit multiplication is complex multiplication and Sign arithmetic is integer arithmetic.", "quantifier": "all phased single-qubit Paulis and units", "why_tests_cant": "exact identity of operators, closed under composition of any length", "anchors": ["graphix/pauli.py: Pauli.__matmul__, Pauli.__mul__, Pauli.__neg__", "graphix/fundamentals.py: ComplexUnit, Sign"]}
{"id": "C08", "title": "Output nodes and node count of a pattern under construction", "statement": "After any sequence of successful `add`/`extend` calls on a pattern with given inputs, the output nodes are exactly the input and prepared nodes that were not measured, in order of introduction, and `n_node` is the number of input plus prepared nodes.", "quantifier": "all command sequences and input lists", "why_tests_cant": "unbounded sequences of API calls", "anchors": ["graphix/pattern.py: Pattern.__init__, Pattern.add, Pattern.extend, Pattern.output_nodes, Pattern.n_node"]}
{"id": "C09", "title": "check_runnability is exact", "statement": "`check_runnability` succeeds exactly when every command only touches qubits that are active at that point, no node is prepared twice or re-prepared after being measured, and every domain refers only to nodes measured earlier.", "quantifier": "all command sequences", "why_tests_cant": "unbounded sequences; an iff over all patterns", "anchors": ["graphix/pattern.py: Pattern.check_runnability"]}
{"id": "C10", "title": "Runnable patterns run", "statement": "If `check_runnability` succeeds, then in every branch the simulator reaches the end without a missing-node or missing-outcome lookup, and the live nodes at the end are the pattern's output nodes.", "quantifier": "all runnable patterns, all measurement outcomes", "why_tests_cant": "all branches of all patterns", "anchors": ["graphix/simulator.py: PatternSimulator.run", "graphix/sim/base_backend.py: NodeIndex, DenseStateBackend"]}
{"id": "C11", "title": "Standardization preserves the computation", "statement": "For every runnable pattern that `standardize` accepts, every input state and every assignment of measurement outcomes, the standardized pattern produces the same output state up to a global phase in the same branch.", "quantifier": "all patterns, all input states, all outcome branches, all angles", "why_tests_cant": "quantifies over all patterns and exponentially many branches", "anchors": ["graphix/optimization.py: StandardizedPattern.from_pattern, StandardizedPattern.to_pattern, standardize, _add_correction_domain, _commute_clifford", "graphix/pattern.py: Pattern.standardize"]}
{"id": "C12", "title": "Standardized patterns are in standard form", "statement": "The result of `standardize` is accepted by `is_standard(strict=True)`: all N, then E, then M, then X/Z/C commands; it is runnable, has the same input and output nodes, the same measured nodes in the same order, and each edge at most once.", "quantifier": "all patterns accepted by standardize", "why_tests_cant": "all patterns", "anchors": ["graphix/optimization.py: StandardizedPattern", "graphix/pattern.py: Pattern.is_standard"]}
{"id": "C13", "title": "Signal shifting preserves the computation", "statement": "`shift_signals` (direct method) returns a signal map such that for every branch r' of the shifted pattern, the original pattern in branch r = shift_outcomes(r', signals) yields the same output state up to global phase; after shifting, no XY measurement has a t-domain, no YZ measurement has an s-domain, and no XZ measurement has an s-domain.", "quantifier": "all standard patterns, all branches, all angles, all input states", "why_tests_cant": "all patterns and branches", "anchors": ["graphix/pattern.py: Pattern.shift_signals, shift_signals_direct, extract_signal, shift_outcomes"]}
{"id": "C14", "title": "shift_outcomes is a bijection on outcome assignments", "statement": "For signal maps produced by signal shifting the map from outcomes of the shifted pattern to outcomes of the original pattern is a bijection, so branch probabilities are preserved; applying it with the same map in the opposite direction recovers the outcomes only for non-chained signals.", "quantifier": "all signal maps produced by shifting; all outcome maps", "why_tests_cant": "all outcome assignments", "anchors": ["graphix/pattern.py: shift_outcomes"]}
{"id": "C15", "title": "Pauli pushing preserves the computation", "statement": "Moving Pauli measurements to the front (`perform_pauli_pushing`) preserves the output state up to global phase in every branch under the returned outcome relabelling, and Pauli-measured nodes end with empty domains and precede all non-Pauli measurements.", "quantifier": "all standardized patterns, all branches, all input states", "why_tests_cant": "all patterns and branches", "anchors": ["graphix/remove_pauli_measurements.py: PauliPushingCut.from_standardizedpattern", "graphix/optimization.py: StandardizedPattern.perform_pauli_pushing"]}
{"id": "C16", "title": "Domain simplifications preserve the computation", "statement": "`remove_useless_domains` and `single_qubit_domains` preserve, in every branch, the output state up to a global phase (for remove_useless_domains on Pauli measurements, up to the documented outcome convention).", "quantifier": "all patterns, all branches", "why_tests_cant": "all patterns and branches", "anchors": ["graphix/optimization.py: remove_useless_domains, single_qubit_domains"]}
{"id": "C17", "title": "Removing local Clifford commands preserves the computation", "statement": "`remove_local_clifford_commands` returns a pattern without C commands that implements the same map in every branch, with outputs in the same logical order.", "quantifier": "all patterns, all Cliffords", "why_tests_cant": "all patterns and branches", "anchors": ["graphix/optimization.py: remove_local_clifford_commands"]}
{"id": "C18", "title": "max_space is the peak number of live qubits", "statement": "`max_space` equals the maximum over all prefixes of the command sequence of the number of live qubits (inputs plus prepared minus measured), and `space_list` lists those numbers.", "quantifier": "all patterns, all prefixes", "why_tests_cant": "all patterns", "anchors": ["graphix/space_minimization.py: pattern_max_space", "graphix/pattern.py: Pattern.max_space, Pattern.space_list"]}
{"id": "C19", "title": "Space-optimal reordering", "statement": "`to_space_optimal_pattern` produces a runnable pattern with the same measurement order and the same semantics, whose max_space equals `StandardizedPattern.max_space`, and no ordering of N/E commands with the same measurement order needs fewer live qubits.", "quantifier": "all standardized patterns; all competing schedules", "why_tests_cant": "optimality quantifies over all competing schedules", "anchors": ["graphix/space_minimization.py: standardized_to_space_optimal_pattern, standardized_pattern_max_space"]}
{"id": "C20", "title": "minimize_space never makes things worse", "statement": "`minimize_space` returns a pattern that computes the same thing and whose max_space is not larger than that of the input when the unchanged-order heuristic is included; it is the minimum over the heuristics tried.", "quantifier": "all standardized patterns, all heuristic lists", "why_tests_cant": "all patterns", "anchors": ["graphix/space_minimization.py: minimize_space, SpaceMinimizationHeuristics"]}
{"id": "C21", "title": "Renaming nodes preserves the computation", "statement": "`reindex` with an injective mapping yields a pattern whose behaviour is that of the original with nodes renamed, in every branch; `node_mapping` completes a user's partial mapping to an injective mapping with fresh labels.", "quantifier": "all patterns, all injective partial mappings, all branches", "why_tests_cant": "all patterns and mappings", "anchors": ["graphix/pattern.py: Pattern.reindex, Pattern.node_mapping", "graphix/command.py: BaseCommand.reindex"]}
{"id": "C22", "title": "Pattern composition is sequential composition", "statement": "`compose` yields a pattern whose commands run the first pattern then the renamed second pattern; non-mapped nodes never collide; the inputs/outputs are the documented merge; and the resulting map in each branch is the composition of the two maps.", "quantifier": "all pairs of patterns, mappings, branches", "why_tests_cant": "all pairs of patterns", "anchors": ["graphix/pattern.py: Pattern.compose"]}
{"id": "C23", "title": "GF(2) elimination is sound", "statement": "`gauss_elimination`/`row_reduction` return a (reduced) row-echelon form of the input with the same row space; `rank` is the dimension of the row space.", "quantifier": "all binary matrices of any size", "why_tests_cant": "matrices of unbounded size", "anchors": ["graphix/_linalg.py: MatGF2.gauss_elimination, MatGF2.row_reduction, MatGF2.rank, _elimination_jit"]}
{"id": "C24", "title": "GF(2) right inverse is sound and complete", "statement": "`right_inverse` returns B with A\u00b7B = I, and returns None exactly when no right inverse exists.", "quantifier": "all binary matrices of any size", "why_tests_cant": "completeness is a statement about non-existence", "anchors": ["graphix/_linalg.py: MatGF2.right_inverse"]}
{"id": "C25", "title": "GF(2) null space and linear systems", "statement": "`null_space` returns a basis of all x with A\u00b7x = 0; `solve_f2_linear_system` returns a solution of A\u00b7x = b for every consistent system in row-echelon form; `mat_mul` is the matrix product mod 2.", "quantifier": "all binary matrices/vectors of any size", "why_tests_cant": "matrices of unbounded size", "anchors": ["graphix/_linalg.py: MatGF2.null_space, solve_f2_linear_system, MatGF2.mat_mul"]}
{"id": "C26", "title": "Topological generations", "statement": "`compute_topological_generations` returns layers in which every node appears exactly once and every dependency points to a strictly earlier layer, each node in the earliest possible layer, and returns None exactly when the relation has a cycle.", "quantifier": "all finite directed graphs", "why_tests_cant": "all graphs; exactness is an iff", "anchors": ["graphix/flow/_partial_order.py: compute_topological_generations"]}
{"id": "C27", "title": "Causal-flow search is sound and complete", "statement": "`find_cflow` (OpenGraph.to_causalflow_or_none) returns a well-formed causal flow whenever it returns one, and returns None only if the open graph has no causal flow.", "quantifier": "all finite open graphs", "why_tests_cant": "completeness quantifies over all candidate flows", "anchors": ["graphix/flow/_find_cflow.py: find_cflow", "graphix/opengraph.py: OpenGraph.to_causalflow_or_none"]}
{"id": "C28", "title": "Gflow / Pauli-flow search is sound and complete", "statement": "to_gflow_or_none / to_pauliflow_or_none never raise; what they return is a gflow (G1-G5) / Pauli flow (P1-P9) of the open graph that check_well_formed accepts, and None is returned only if the open graph has none.", "quantifier": "all finite open graphs without self-loops with any measurement labels (planar ones for gflow), all iteration orders of sets, all schedules of the parallel matrix product", "why_tests_cant": "all graphs", "anchors": ["graphix/flow/_find_gpflow.py: AlgebraicOpenGraph, compute_correction_matrix, compute_partial_order_layers, CorrectionMatrix.to_correction_function"]}
{"id": "C29", "title": "check_well_formed decides the flow definition", "statement": "`check_well_formed` of causal flow, gflow and Pauli flow accepts exactly the objects satisfying the textbook propositions (C1-C3 / G1-G5 / P1-P9) and the partial-order layer conditions.", "quantifier": "all flows on all finite open graphs", "why_tests_cant": "an iff over all objects", "anchors": ["graphix/flow/core.py: PauliFlow.check_well_formed, GFlow.check_well_formed, CausalFlow.check_well_formed"]}
{"id": "C30", "title": "Flow gives determinism", "statement": "For an open graph with a well-formed (causal/g/Pauli) flow, the pattern obtained through to_xzcorrections().to_pattern() is deterministic: every branch produces the same output state up to a global phase, and all branches are equally likely.", "quantifier": "all open graphs with flow, all input states, all branches, all angles", "why_tests_cant": "exponentially many branches on arbitrary graphs", "anchors": ["graphix/flow/core.py: PauliFlow.to_xzcorrections, GFlow.to_xzcorrections, CausalFlow.to_xzcorrections, XZCorrections.to_pattern"]}
{"id": "C31", "title": "XZ-corrections give runnable patterns", "statement": "For well-formed XZ-corrections on nodes of the open graph, `to_pattern` (with any compatible total order) yields a runnable pattern with the open graph's inputs and outputs, which prepares the non-input nodes, applies the edges, then performs the measurements in the given order, each followed by its corrections, then applies the Clifford commands; when some node is measured `is_compatible` accepts exactly the linear extensions of the partial order (with none it raises IndexError), and `generate_total_measurement_order` returns one.", "quantifier": "all well-formed XZ-corrections, all total orders", "why_tests_cant": "all orders of all corrections", "anchors": ["graphix/flow/core.py: XZCorrections.to_pattern, is_compatible, generate_total_measurement_order, check_well_formed"]}
{"id": "C32", "title": "Flow reconstruction from corrections", "statement": "`XZCorrections.to_pauliflow` returns only well-formed flows whose corrections are the given ones.", "quantifier": "all XZ-corrections", "why_tests_cant": "all corrections", "anchors": ["graphix/flow/core.py: XZCorrections.to_pauliflow, _solve_pauli_correction_set"]}
{"id": "C33", "title": "Pattern to open graph and corrections round trip", "statement": "`StandardizedPattern.to_opengraph`/`to_xzcorrections` capture exactly the graph, measurements and corrections of the pattern, and converting back yields a pattern with the same semantics.", "quantifier": "all standardized patterns without Clifford commands", "why_tests_cant": "all patterns", "anchors": ["graphix/optimization.py: StandardizedPattern.to_opengraph, to_xzcorrections, partial_order_layers"]}
{"id": "C34", "title": "Graph-state rewriting preserves the state", "statement": "In the graph-state simulator, `h`, `s`, `z` act as the gates on the represented state, the equivalence rewritings `equivalent_graph_e1/e2` leave the represented state unchanged up to phase, and Pauli measurements project as documented.", "quantifier": "all graphs with all node attributes", "why_tests_cant": "all graphs", "anchors": ["graphix/graphsim.py: GraphState"]}
{"id": "C35", "title": "Removing Pauli measurements preserves the computation", "statement": "`Pattern.remove_pauli_measurements` (with `standardize` true or false) succeeds on every pattern that `StandardizedPattern.from_pattern` accepts and whose preparations are |+>. The result is runnable, has the same inputs, outputs that correspond one to one in the same order, and prepares and measures no other nodes. Each of its branches does, on every state of the inputs, what a branch of the original pattern does up to a scalar (of norm 2^(-k/2) for k removed nodes when no warning about isolated nodes is emitted). Every Pauli measurement left is on an input, or is an X measurement of a node whose neighbours are all inputs; if the pattern is deterministic, in particular if it comes from a Pauli flow, the only Pauli measurements left are on inputs and the scalars are nonzero.", "quantifier": "all patterns with |+> preparations, all branches, all input states, all iteration orders of Python sets", "why_tests_cant": "all graphs and measurement labels, all branches, all set orders; termination of the rewriting loop", "anchors": ["graphix/remove_pauli_measurements.py: remove_pauli_measurements, _RemovePauliMeasurements, local_complement, pivot_edge, remove_z, remove_y, remove_x_with_internal_neighbor, to_standardizedpattern", "graphix/pattern.py: Pattern.remove_pauli_measurements"]}
{"id": "C36", "title": "Gate decompositions are correct", "statement": "Each circuit-instruction decomposition used by the transpiler (RZZ, CCX, CNOT, SWAP, Y, RX, RY, RZ, H, S, X, Z, ... into J and CZ) implements the original gate up to a global phase.", "quantifier": "all qubit positions in circuits of any width, all real angles", "why_tests_cant": "a continuum of angles and any width", "anchors": ["graphix/transpiler.py: decompose_rzz, decompose_ccx, decompose_cnot, decompose_swap, decompose_y, decompose_rx, decompose_ry, decompose_rz, instructions_to_jcz"]}
{"id": "C37", "title": "Circuit transpilation is correct", "statement": "For every circuit, the pattern from `transpile()` implements the circuit's unitary up to a global phase in every branch, with outputs in the circuit's qubit order.", "quantifier": "all circuits of any width and depth, all angles, all branches, all input states", "why_tests_cant": "all circuits and branches", "anchors": ["graphix/transpiler.py: Circuit.transpile, Circuit.transpile_to_causalflow, instructions_to_jcz"]}
{"id": "C38", "title": "Swap elimination is a relabelling", "statement": "`transpile_swaps` returns a SWAP-free circuit that equals the original up to the returned qubit permutation, and the output/classical-output bookkeeping agrees with the original circuit for circuits with measurements.", "quantifier": "all circuits", "why_tests_cant": "all circuits", "anchors": ["graphix/transpiler.py: transpile_swaps, TranspileSwapsResult"]}
{"id": "C39", "title": "Circuit-to-circuit rewritings preserve meaning", "statement": "`transpile_measurements_to_z_axis` and `transpile_j_to_rzh` preserve the circuit's meaning up to global phase.", "quantifier": "all circuits, all angles", "why_tests_cant": "a continuum of angles, any circuit", "anchors": ["graphix/transpiler.py: Circuit.transpile_measurements_to_z_axis, Circuit.transpile_j_to_rzh"]}
{"id": "C40", "title": "Node index is a bijection", "statement": "After any sequence of valid extend/remove/swap operations, `index` and `__getitem__` of the backend's node index are mutually inverse bijections between live nodes and 0..n-1.", "quantifier": "all operation sequences", "why_tests_cant": "unbounded histories", "anchors": ["graphix/sim/base_backend.py: NodeIndex"]}
{"id": "C41", "title": "State-vector kernels implement the operators", "statement": "The in-place kernels of the state vector backend (tensor with |+>, tensor product, CZ, single-qubit evolution, swap, projection/removal) compute exactly the corresponding operator on the amplitude vector, for every qubit index and number of qubits.", "quantifier": "all register sizes, qubit indices, operators, amplitudes", "why_tests_cant": "all sizes", "anchors": ["graphix/sim/statevec.py: _tensor_jit, _add_default_node_jit, _entangle_jit, _evolve_single_jit, _swap_jit, _project_qubit_jit"]}
{"id": "C42", "title": "Measurement operators form a projective measurement", "statement": "For every measurement with exact arithmetic the two operators used by the backend for outcomes 0 and 1 are orthogonal projectors summing to the identity, with the measured Pauli/Bloch observable as their difference.", "quantifier": "all planes and real angles, both outcomes", "why_tests_cant": "a continuum of angles", "anchors": ["graphix/sim/base_backend.py: _outcome_to_operator_matrix, DenseStateBackend.measure", "graphix/fundamentals.py: Plane.polar"]}
{"id": "C43", "title": "Noise channels are trace preserving and as documented", "statement": "Every channel constructor returns Kraus operators that satisfy the completeness relation for every probability in [0,1] and implements the documented mixture.", "quantifier": "all probabilities in [0,1], all density matrices", "why_tests_cant": "a continuum of parameters", "anchors": ["graphix/channels.py: dephasing_channel, depolarising_channel, pauli_channel, two_qubit_depolarising_channel, two_qubit_depolarising_tensor_channel, amplitude_damping_channel, two_qubit_amplitude_damping_channel"]}
{"id": "C44", "title": "Affine parameter arithmetic commutes with substitution", "statement": "For affine expressions, evaluating the result of +, -, *, /, negation at a parameter value equals performing the operation on the evaluated operands.", "quantifier": "all affine expressions, all parameter values", "why_tests_cant": "a continuum of values", "anchors": ["graphix/parameter.py: AffineExpression, Placeholder"]}
{"id": "C45", "title": "Noise models only insert noise", "statement": "Transpiling a command sequence through a noise model leaves the original commands in order (erasing inserted noise gives back the sequence), noise is conditioned on the same domain as the correction it follows, and composition of models applies them in order.", "quantifier": "all command sequences, all compositions of noise models", "why_tests_cant": "unbounded sequences", "anchors": ["graphix/noise_models/noise_model.py: NoiseModel.transpile, ComposeNoiseModel", "graphix/noise_models/depolarising.py: DepolarisingNoiseModel.command"]}
{"id": "C46", "title": "Branch selectors honour their contract", "statement": "A fixed branch selector returns the prescribed outcome for every listed qubit and defers to its default (or raises) for exactly the others; a constant selector returns its constant; the branch taken by the simulator is the one selected.", "quantifier": "all outcome maps and measurement sequences", "why_tests_cant": "all histories", "anchors": ["graphix/branch_selector.py: FixedBranchSelector, ConstBranchSelector"]}
{"id": "C47", "title": "Pauli-string encodings round trip", "statement": "`PauliString.from_tableau(ps.to_tableau()) == ps`, `to_tableau(from_tableau(t)) == t`, and `from_str(str(ps)) == ps` for every Pauli string with indices in range.", "quantifier": "all Pauli strings of any length", "why_tests_cant": "any length", "anchors": ["graphix/circ_ext/extraction.py: PauliString"]}
{"id": "C48", "title": "Tableau gate updates are conjugations", "statement": "The tableau column updates used in Clifford synthesis for H, S, CNOT and SWAP compute the signed Pauli string obtained by conjugating by the gate, for every row.", "quantifier": "all Pauli strings on any number of qubits", "why_tests_cant": "any number of qubits", "anchors": ["graphix/circ_ext/compilation.py: cm_berg_pass (add_h, add_s, add_cnot, add_swap)"]}
{"id": "C49", "title": "Pauli-exponential ladder synthesis is correct", "statement": "The circuit emitted by `pexp_ladder_pass` for a Pauli exponential implements exp(i\u00b7angle\u00b7P) up to global phase.", "quantifier": "all Pauli strings of any support, all real angles", "why_tests_cant": "any length and a continuum of angles", "anchors": ["graphix/circ_ext/compilation.py: pexp_ladder_pass"]}
{"id": "C50", "title": "Fusion network covers the graph", "statement": "`graph_to_fusion_network` (when it terminates) returns resource graphs whose edge sets partition the edges of the input graph and whose nodes cover all nodes.", "quantifier": "all finite simple graphs", "why_tests_cant": "all graphs", "anchors": ["graphix/extraction.py: graph_to_fusion_network, create_resource_graph"]}
{"id": "C51", "title": "Corrections get a consistent partial order or are refused", "statement": "`XZCorrections.from_measured_nodes_mapping(og, x_corrections, z_corrections)` returns corrections whose induced layers make them well formed (every node is corrected only by nodes measured strictly before it, layers partition the nodes, outputs last) exactly when all keys are measured nodes, all targets are nodes of the graph and the corrections contain no closed loop; otherwise it raises XZCorrectionsError.", "quantifier": "all open graphs, all X and Z correction dictionaries, all set iteration orders", "why_tests_cant": "infinitely many graphs and correction dictionaries; the absence of cycles and the layering must hold for all of them", "anchors": ["graphix/flow/core.py: XZCorrections.from_measured_nodes_mapping, _corrections_to_partial_order_layers"]}
{"id": "C52", "title": "Circuit extraction", "statement": "For every open graph with as many inputs as outputs (at least one, no Clifford gates on the outputs) and every focused Pauli flow or gflow of it, `flow.extract_circuit().to_circuit()` succeeds and returns a circuit on as many qubits as outputs, made of unitary gates, that implements the linear map of the open graph (hence of any pattern obtained from it) from the k-th input to the k-th output, up to a scalar. Flows that are not focused, Clifford gates on the outputs and different numbers of inputs and outputs are refused with an exception.", "quantifier": "all open graphs, all focused flows, all input states, all set iteration orders", "why_tests_cant": "all graphs, flows, angles and states; the result combines Pauli strings with signs, an extended open graph with another flow, tableau synthesis and Pauli exponentials in a topological order", "anchors": ["graphix/flow/core.py: PauliFlow.is_focused, extraction_pauli_strings, extract_circuit", "graphix/circ_ext/extraction.py: extraction_ps_from_corrected_node, extend_input, clifford_z_map_from_focused_flow, clifford_x_map_from_focused_flow, PauliExponentialDAG.from_focused_flow, CliffordMap.from_focused_flow, ExtractionResult.to_circuit"]}
{"id": "C53", "title": "Open graph to pattern", "statement": "`OpenGraph.to_pattern` returns a pattern exactly when the open graph has a flow (causal, generalised or Pauli), and raises `OpenGraphError` otherwise; the pattern is runnable, deterministic, and implements the map of the open graph in every branch, with a phase that does not depend on the input state, even when the inputs are entangled with other qubits.", "quantifier": "all open graphs, all branches, all input states, all set iteration orders", "why_tests_cant": "all graphs, branches and states", "anchors": ["graphix/opengraph.py: OpenGraph.to_pattern, downcast_bloch"]}
{"id": "C54", "title": "The two methods of signal shifting agree", "statement": "On every runnable pattern without S commands, `shift_signals(method=\"mc\")` terminates and produces exactly the same pattern as `shift_signals(method=\"direct\")`, and `shift_outcomes` with the signals returned by either method transforms the outcomes of the shifted pattern into those of the unshifted pattern, and conversely.", "quantifier": "all runnable patterns, all branches", "why_tests_cant": "all patterns and all chains of signals; the `mc` loop moves one command at a time and has no obvious bound", "anchors": ["graphix/pattern.py: Pattern.shift_signals, signals, _find_op_to_be_moved, _commute_ms, _commute_xs, _commute_zs, _commute_ss, _commute_with_following, shift_outcomes"]}
{"id": "C55", "title": "Parallelization keeps the computation", "statement": "`Pattern.parallelize_pattern` turns every runnable pattern (whose standard form exists) into a runnable pattern with the same inputs and outputs that does the same in every branch, measures exactly the same nodes, and measures them grouped by depth: each measurement is in the earliest group allowed by the domains of the standard form.", "quantifier": "all runnable patterns, all branches, all input states, all set iteration orders", "why_tests_cant": "all patterns and all dependency graphs; the order of the measurements inside a layer depends on set iteration", "anchors": ["graphix/pattern.py: Pattern.parallelize_pattern, _measurement_order_depth, sort_measurement_commands, measurement_commands, _reorder_pattern"]}
{"id": "C56", "title": "Density-matrix operations", "statement": "For every density matrix, operator, register and choice of qubits, `DensityMatrix.evolve`, `evolve_single`, `entangle`, `cnot`, `swap`, `tensor`, `add_nodes`, `permute`, `ptrace`, `remove_qubit`, `project_qubit`, `normalize`, `expectation_single`, `fidelity` and `apply_channel` compute the operation of quantum mechanics on exactly the given qubits (U rho U^dagger, controlled Z, ..., tensor product, re-ordering, partial trace, post-measurement state, Tr(U rho)/Tr(rho), <psi|rho|psi>, the Kraus sum); the constructor accepts exactly the positive semi-definite matrices of trace 1; unitaries, tensor products, partial traces, projections on outcomes of non-zero probability and complete channels (in particular all channels of the library) map density matrices to density matrices; ill-formed arguments are rejected.", "quantifier": "all numbers of qubits, all density matrices, all operators, all choices of target qubits, all channels", "why_tests_cant": "all register sizes and all target permutations: the axis bookkeeping of tensordot/moveaxis is only wrong for particular sizes and orders; positivity and trace are statements about every matrix", "anchors": ["graphix/sim/density_matrix.py: DensityMatrix", "graphix/sim/base_backend.py: DenseState.project_qubit", "graphix/channels.py: KrausChannel", "graphix/linalg_validations.py: is_psd, is_unit_trace, is_qubitop"]}
{"id": "C57", "title": "Density-matrix runs of patterns, with noise", "statement": "For every runnable pattern without signal commands (and without a self-entangling E), every noise model of the library (noiseless, depolarising, amplitude damping with any probabilities, compositions of these) or none, every input state (pure or a density matrix), every branch selector and every sequence of random draws, simulating the pattern on the density-matrix backend either reaches the end or stops at a measurement because the selector raised or chose an outcome of probability zero. At the end the register is the output nodes in order, the state is a density matrix (Hermitian, positive, trace 1), and it is the normalised result of applying to the input, in order, the commands of the pattern and the Kraus maps of the inserted noises (those with a domain only when the recorded parity is odd); each measurement outcome is the selector's answer to the conditional probability of 0, and the recorded results are these outcomes as confused by the noise model. Without noise, on pure inputs, the result is |psi><psi| for the state vector psi that the state-vector backend computes, with the same recorded outcomes when the selector is the same.", "quantifier": "all runnable patterns, noise models, probabilities, inputs, selectors, random draws, branches", "why_tests_cant": "all patterns, all branches, all mixed inputs; noise acts on live qubits whose indices change during the run, and conditional noise depends on recorded (possibly confused) outcomes", "anchors": ["graphix/simulator.py: PatternSimulator.run, MeasureMethod.measure", "graphix/sim/base_backend.py: DenseStateBackend", "graphix/sim/density_matrix.py: DensityMatrix.apply_noise, DensityMatrixBackend", "graphix/noise_models"]}
{"id": "C58", "title": "Circuit.simulate", "statement": "For every circuit built by the methods of `Circuit`, every normalised input, every branch selector and every scheduling of the numerical kernels, `Circuit.simulate` returns the measurement outcomes chosen by the branch selector, in the order of the `m` instructions, the selector having been asked with the conditional probability of 0 given the previous outcomes, and the normalised state of the circuit for these outcomes, with one qubit per unmeasured qubit in increasing order (exactly the state of the unitary circuit when nothing is measured); otherwise it stops at a measurement at which the selector raised or chose an outcome of probability (almost) zero. The state-vector and the density-matrix backends agree.", "quantifier": "all circuits, widths, angles, inputs, branch selectors, schedules", "why_tests_cant": "all sequences of instructions: the position of a qubit in the register changes with every measurement, and each gate uses a different code path (einsum, kernels, swap)", "anchors": ["graphix/transpiler.py: Circuit.simulate, SimulateResult", "graphix/sim/statevec.py: Statevector.evolve, evolve_single, entangle, swap", "graphix/sim/density_matrix.py: DensityMatrix.evolve, swap", "graphix/ops.py: CCX, rzz"]}
{"id": "C59", "title": "Transpile then simulate = simulate", "statement": "For every circuit built by the methods of Circuit: transpiling it (with or without swaps) and simulating the pattern gives the same state (up to a global phase on the state-vector backend, exactly on the density-matrix backend) as Circuit.simulate on the same normalised input, whatever the measurement outcomes, whenever the classical outputs of the pattern carry the outcomes of the circuit; the outcomes of the pattern have the probabilities of the outcomes of the circuit times 1/2 for every internal measurement; every run of the pattern is matched by a run of the circuit. For a circuit without measurements there is no condition: no choice of outcomes makes the simulation of the pattern fail, and the fidelity with the state of the circuit is always 1.", "quantifier": "all circuits, inputs, branch selectors, kernel schedules, set iteration orders", "why_tests_cant": "all circuits and all exponentially many branches; tests sample random circuits with fixed seeds and compare fidelities", "anchors": ["graphix/transpiler.py: Circuit.transpile, Circuit.simulate", "graphix/pattern.py: Pattern.simulate_pattern", "graphix/simulator.py: PatternSimulator.run"]}
{"id": "C60", "title": "Read-out of state vectors", "statement": "For every number of qubits and every state: `evolve` applies an operator on any qubits in the given order; `expectation_value` of a normalised state is <psi|O|psi>, real when O is Hermitian; `fidelity` is |<psi|phi>|^2, symmetric, between 0 and 1, and 1 exactly for states equal up to a global phase, which `isclose` accepts; `to_dict` and `to_prob_dict` have one entry per amplitude above the tolerance, keyed by the ket with the first qubit first (last with LSB), and nothing else, and the probabilities sum to 1 up to the tolerance.", "quantifier": "all registers, states, operators, qubit lists, tolerances", "why_tests_cant": "all sizes of registers and all orders of qubits", "anchors": ["graphix/sim/statevec.py: evolve, expectation_value, fidelity, isclose, to_dict, to_prob_dict, _format_encoding"]}
{"id": "C61", "title": "Flows of patterns", "statement": "For every runnable pattern that prepares |+> states: `Pattern.to_pauliflow` returns a Pauli flow of the open graph of the pattern that has the corrections of the pattern, and then the pattern is strongly and uniformly deterministic, does the map of its open graph, and its simulations never fail and agree up to a phase; or it raises FlowError and there is no such flow. `to_causalflow` and `to_gflow` succeed exactly when the X corrections are those of a causal flow or gflow, which they return, and the chain to_causalflow / to_gflow, to_xzcorrections, to_pattern gives a deterministic pattern that does the same as every deterministic pattern it came from. Conversely corrections, causal flows and gflows are found again in the patterns built from them, for every total order of the measurements.", "quantifier": "all patterns, flows, corrections, total orders, iteration orders of sets, simulator histories", "why_tests_cant": "all patterns and all flows, and all branches of the measurements", "anchors": ["graphix/pattern.py: to_xzcorrections, to_causalflow, to_gflow, to_pauliflow", "graphix/flow/core.py: XZCorrections.downcast_bloch, to_causalflow, to_gflow, to_pauliflow, to_pattern", "graphix/optimization.py: StandardizedPattern"]}
{"id": "C62", "title": "Composition of open graphs", "statement": "`og1.compose(og2, mapping)` raises only in the documented cases (keys that are not nodes of og2, repeated values, merged nodes with different measurements, nothing to compose); otherwise it returns a valid open graph and a complete injective renaming that extends the mapping and sends unmapped nodes to fresh names; nodes, edges, inputs and outputs (in order), measurements and Cliffords of the result are the documented ones. When the outputs of og1 feed the inputs of og2, the linear map of the result is the map of og1 followed by the map of og2, and the result has a causal flow, gflow or Pauli flow when both open graphs have one.", "quantifier": "all pairs of valid open graphs and all mappings", "why_tests_cant": "all graphs and mappings; the tests compare a handful of composed graphs with hand-written ones and do not compare maps", "anchors": ["graphix/opengraph.py: OpenGraph.compose", "graphix/measurements.py: isclose, clifford"]}
{"id": "C63", "title": "The tensor-network backend", "statement": "Simulating a runnable pattern on the input |+> with the tensor-network backend succeeds in every mode of graph preparation (parallel and opt only for patterns in standard form); every measured node gets the outcome that the branch selector chose; the amplitudes (basis_coefficient), norm() and to_statevector() of the resulting network are those of the textbook semantics of the branch of the outcomes up to a global phase; hence it agrees with the state-vector backend on the same outcomes, and the modes of preparation agree with each other. Inputs and preparations that are not |+>, unknown modes, and the parallel mode on non-standard patterns are refused. evolve(operator, qubits) applies the operator to the chosen outputs, and expectation_value(operator, qubits) is <psi|O|psi>/<psi|psi>; an operator whose size does not match the number of qubits is refused.", "quantifier": "all patterns, modes of preparation, outcomes of the selector, factorisations of CZ and orders of the nodes and edges", "why_tests_cant": "the tests compare a few random patterns with the state vector numerically; the claim is about every pattern, branch and contraction", "anchors": ["graphix/sim/tensornet.py: MBQCTensorNet, TensorNetworkBackend", "graphix/simulator.py: PatternSimulator.run", "graphix/pattern.py: isolated_nodes, max_degree"]}
{"id": "C64", "title": "OpenQASM 3 export means the same thing", "statement": "pattern_to_qasm3 of a runnable pattern without S/T commands, whose inputs and prepared nodes are in |0> or |+>, and circuit_to_qasm3 of a circuit, succeed and return the text of exactly one OpenQASM 3 program. Every run of this program, for every outcome of its measurements, ends without an error (no undeclared or twice declared name, no bit read before it is written), stores the outcome of each measurement in the bit of its node, and leaves the qubits in the state of the pattern (circuit) for these outcomes up to a global phase, with the same probability; the measured qubits are in the basis state of their outcome. The angles are written up to a relative error of 1e-9, exactly when they are multiples of pi/d with d <= 1000. Other patterns are refused (ValueError, or KeyError for an input without a state), and so are J gates and measurements along X or Y when the circuit is not transpiled.", "quantifier": "all runnable patterns, all circuits built with the API, all orders of sets, all input states, all outcomes of the program", "why_tests_cant": "there are infinitely many patterns and angles, exponentially many branches, and the meaning of the text can be observed only by an OpenQASM simulator that gives the final state", "anchors": ["graphix/qasm3_exporter.py: circuit_to_qasm3, instruction_to_qasm3, angle_to_qasm3, pattern_to_qasm3, command_to_qasm3_lines, state_to_qasm3_lines, domain_to_qasm3_lines", "graphix/pretty_print.py: angle_to_str", "graphix/clifford.py: Clifford.qasm3"]}
{"id": "C65", "title": "Measurement-wise transformations and parameters of patterns", "statement": "pattern.apply(f)/map(f) replaces each measurement m by f(m) and keeps inputs, outputs (and their order), the other commands, nodes, runnability, space and standard form; if f keeps the observables the pattern computes the same thing. blochify/to_bloch leave no Pauli measurement and do not change the computation. infer_pauli_measurements(rel_tol, abs_tol) replaces exactly the Bloch measurements whose doubled angle is within the tolerance of an integer, by the Pauli measurement of that integer; observables move by at most pi/2 times the tolerance, not at all with tolerance 0; it is idempotent and inverts blochify; a negative tolerance is refused. replace_parameter(s) never fails on a runnable pattern and gives the pattern where the parameters have the given values (simultaneously); is_parameterized tells whether a parameter occurs, and no parameter is left once numbers are given to all. Giving values to parameters commutes with Measurement.clifford, with check_runnability, with standardize, with signal shifting and with renaming nodes.", "quantifier": "all patterns, functions f, tolerances, parameters, expressions, values, enumerations of the edges and branches", "why_tests_cant": "infinitely many angles, values of parameters and patterns; tests substitute a few numbers", "anchors": ["graphix/pattern.py: apply, map, infer_pauli_measurements, blochify, to_bloch, is_parameterized, replace_parameter, replace_parameters, standardize, shift_signals, reindex", "graphix/measurements.py: BlochMeasurement.to_pauli_or_none, to_pauli_or_bloch, clifford, with_parameter, with_parameters", "graphix/command.py: M.map", "graphix/parameter.py: AffineExpression"]}
{"id": "C66", "title": "Random objects are what they claim to be, whatever is drawn", "statement": "Whatever the random generator answers: rand_circuit succeeds exactly when it asks for no layer or has at least two qubits (three with CCX), else raises ValueError, and returns a circuit made of depth layers of the documented gates on different existing qubits, without measurement, which can always be transpiled into a runnable pattern implementing it in every branch; rand_gate on pairs of different existing qubits has the documented alternating layers, and refuses other pairs (AssertionError); rand_herm is Hermitian, rand_unit unitary; rand_dm is positive semidefinite of trace one and of the rank asked for; rand_state_vector is normalised; rand_channel_kraus and rand_pauli_channel_kraus are trace preserving with the number of Kraus operators asked for, the latter a mixture of exactly rank tensor products of Pauli matrices with probabilities summing to one; invalid ranks and dimensions raise ValueError. The iterables of pairs and of parameters may be any iterable.", "quantifier": "all answers of the generator, sizes, depths, options, ranks, drawn matrices", "why_tests_cant": "the draws are arbitrary reals, permutations and matrices; tests see a few seeds", "anchors": ["graphix/random_objects.py", "graphix/ops.py: Ops.build_tensor_pauli_ops", "graphix/channels.py: KrausChannel"]}
{"id": "C67", "title": "Circuits with parameters: compile once, substitute later", "statement": "Circuit.replace_parameter and replace_parameters never fail, keep the gates in their order and give the circuit in which the parameters have the given values, all at once, in place or in a copy that accepts and refuses the same further gates; is_parameterized tells whether a parameter occurs. Transpiling a circuit with parameters and then giving values to the parameters of the pattern is the same as giving the values to the circuit and transpiling it: same success or exception, same inputs, outputs, classical outputs and commands, with measurements of the same observables; so for all values the pattern implements the circuit with these values.", "quantifier": "all circuits with affine angles, all assignments (numbers or expressions), all values of the parameters, all branches, all iteration orders of sets and graphs", "why_tests_cant": "the parameters range over the reals and circuits and substitutions over infinite sets; tests fix a few of both", "anchors": ["graphix/transpiler.py: Circuit.visit, apply_angle, is_parameterized, replace_parameter, replace_parameters, transpile, instructions_to_jcz, normalize_angle", "graphix/parameter.py", "graphix/space_minimization.py: standardized_to_space_optimal_pattern"]}
{"id": "C68", "title": "Transformations and comparison of open graphs", "statement": "OpenGraph.map, to_bloch, infer_pauli_measurements and with_parameter(s) keep the graph, the inputs, the outputs and the Cliffords and change only the measurements, as documented; to_bloch and infer_pauli_measurements with tolerance zero do not change the map of the open graph; inferring Pauli measurements never loses a flow (every Pauli flow remains one, to_pattern succeeds if it did, and the pattern implements the original open graph) and may gain one; every gflow of to_bloch() is a Pauli flow of the open graph. isclose decides closeness (same structure, close angles), is reflexive and symmetric, never raises on valid open graphs, and with tolerance zero implies that the maps are equal. to_causalflow and to_circuit raise OpenGraphError exactly when there is no causal flow, no Pauli flow; otherwise to_circuit raises NotImplementedError (Cliffords, or different numbers of inputs and outputs) or returns a circuit that implements the open graph if and only if no input has a negative Pauli measurement.", "quantifier": "all valid open graphs, all functions on measurements, all nonnegative tolerances, all flows, all values of the parameters, all iteration orders of sets and schedules of matrix products", "why_tests_cant": "open graphs, angles, tolerances and flows range over infinite sets, and preservation of flows and of maps is a statement about all of them", "anchors": ["graphix/opengraph.py: OpenGraph.map, to_bloch, infer_pauli_measurements, isclose, is_equal_structurally, to_causalflow, to_circuit, with_parameter, with_parameters", "graphix/measurements.py: BlochMeasurement.isclose, PauliMeasurement.isclose, to_pauli_or_bloch", "graphix/flow/core.py: XZCorrections.with_parameter, PauliFlow.with_parameter"]}
{"id": "C69", "title": "Minimizing the space of a pattern", "statement": "Pattern.minimize_space, in place or on a copy, with the default heuristics, succeeds on every runnable pattern whose nodes are prepared in |+>, never lets an exception of the flow search escape, does the same computation in every branch with the same inputs and outputs, never increases the maximal space, and gives the least space among all layouts of the computation when the pattern has a causal flow; with an explicit list of valid heuristics, for any preparations, the result has the least space among the layouts with its own measurement order, and the empty list keeps the order. With the default heuristics a node prepared in another state raises ValueError. A pattern that is not runnable is refused.", "quantifier": "all patterns, all lists of heuristics whose answers respect the domains, all rival layouts, all choices of Python's set iterations and of the greedy heuristic", "why_tests_cant": "optimality compares with every possible layout of every pattern", "anchors": ["graphix/pattern.py: Pattern.minimize_space", "graphix/space_minimization.py: minimize_space, causal_flow, greedy_degree, order_unchanged, standardized_to_space_optimal_pattern"]}
{"id": "C70", "title": "Views and elementary operations of a pattern", "statement": "clifford_commands maps each node to the last Clifford command on it, hence gives all Clifford commands of a standardized pattern. connected_nodes(node, prepared) gives the neighbours of the node that are not in prepared, after standardizing the pattern if it is not standard. correction_commands raises AssertionError exactly when the pattern is not standard and otherwise lists the X and Z commands in order; on a strictly standard pattern they are exactly the block between the measurements and the Cliffords. reorder_input_nodes raises PatternError unless it is given a permutation of the inputs and only changes the inputs. Two patterns are equal exactly when commands, inputs and outputs are. StandardizedPattern.map changes the measurements only and to_bloch does not change the computation. The error message about a non-injective composition lists exactly the values with several keys.", "quantifier": "all patterns, all nodes and sets of prepared nodes, all functions on measurements, all mappings, all iteration orders", "why_tests_cant": "patterns and mappings range over infinite sets", "anchors": ["graphix/pattern.py: clifford_commands, connected_nodes, correction_commands, reorder_input_nodes, __eq__, _duplicates_in_mapping", "graphix/optimization.py: StandardizedPattern.map, to_bloch"]}
{"id": "C71", "title": "Printed numbers", "statement": "complex_to_str(z) with the default (ASCII) format and rtol = 0 gives, for every complex number, a text that a reader understands as a number within the tolerance of z, or a decimal with the requested precision when a part of z is not a recognized square root of a fraction. A number whose parts are fractions or square roots of fractions with small denominators is printed exactly when the tolerances are zero. The squarefree decomposition of every natural number is correct, and the recognized form is reduced with a squarefree radicand and a denominator at most max_denominator.", "quantifier": "all complex numbers, all tolerances, all maximal denominators up to 1000, all roundings of decimals", "why_tests_cant": "the numbers range over a continuum; the set of recognized numbers is infinite", "anchors": ["graphix/pretty_print.py: complex_to_str, angle_to_str, _squarefree_decomposition, _recognize_sqrt, _render_real, _render_imaginary, _exponential_to_str, _cartesian_to_str, _decimal_to_str"]}
{"id": "C72", "title": "Printed states", "statement": "statevec_to_str gives, for every state vector and encoding, a sum of kets in which a reader finds each ket whose amplitude is not negligible with the coefficient that complex_to_str prints for its amplitude (or the product of the printed common modulus and the printed phase); with zero tolerances and amplitudes whose parts are fractions or square roots of fractions with small denominators, the text reads exactly as the state.", "quantifier": "all state vectors of any number of qubits, both encodings, all tolerances, all precisions", "why_tests_cant": "amplitudes range over a continuum, and the layout depends on the texts of all of them", "anchors": ["graphix/pretty_print.py: statevec_to_str, _factor_uniform_magnitude, _needs_parentheses, _ket_str", "graphix/sim/statevec.py: Statevector.to_dict"]}
{"id": "C73", "title": "Printed patterns, flows and corrections", "statement": "From the ASCII text of a pattern (pattern_to_str with any kinds, order and limit), a reader finds the selected commands in order with their nodes, measurements and domains, and the number of commands that are omitted; from the text of a flow or of XZ-corrections, the function(s), in order, and the layers from the first measured.", "quantifier": "all patterns, selections of kinds, reading orders, limits at least 1, orders in which sets are iterated; all flows and XZ-corrections", "why_tests_cant": "the layout depends on every optional part of every command, on the sets' iteration order and on the limit", "anchors": ["graphix/pretty_print.py: command_to_str, pattern_to_str, domain_to_str, set_to_str, correction_function_to_str, partial_order_to_str, flow_to_str, xzcorr_to_str", "graphix/_db.py: CLIFFORD_LABEL"]}
{"id": "C74", "title": "The Clifford gate of a matrix", "statement": "Clifford.try_from_matrix recognizes every one of the 24 gates in every 2x2 matrix that is a multiple of the gate by any nonzero factor, up to rounding errors (relative to the factor) of 1e-9 per entry; whatever it returns is proportional to the matrix within its tolerance; another shape gives None.", "quantifier": "all complex matrices, all gates, all nonzero factors, all perturbations up to 1e-9", "why_tests_cant": "the factor and the perturbation range over a continuum, and every pivot of every earlier gate must be rejected", "anchors": ["graphix/clifford.py: Clifford.try_from_matrix", "graphix/_db.py: CLIFFORD"]}
{"id": "C75", "title": "is_well_formed and to_dag", "statement": "is_well_formed of a Pauli flow, gflow or causal flow answers for every correction function and every list of layers (no other exception escapes), and the answer is whether they are a flow of that kind; to_dag of XZ-corrections has exactly the corrections as edges, and when check_well_formed accepts the corrections, no sequence of its edges leads from a node to itself.", "quantifier": "all valid open graphs (in planes for gflow and causal flow), correction functions, layers, set iteration orders; all XZ-corrections and all closed walks", "why_tests_cant": "ill-formed flows are arbitrary dictionaries and layers; cycles can have any length", "anchors": ["graphix/flow/core.py: PauliFlow.is_well_formed, XZCorrections.to_dag, _corrections_to_dag, XZCorrections.check_well_formed"]}
{"id": "C76", "title": "The eigenstates, the list and the text of the Paulis", "statement": "p.eigenstate(b) fails exactly when b is not 0 or 1; otherwise it is a normalised eigenvector of p.matrix (of eigenvalue unit\u00b7(-1)^b; the identity has the same state for both), for X, Y, Z unique up to a factor, the two states are orthogonal and to_densitymatrix_numpy is (1 \u00b1 \u03c3)/2; measuring the Pauli on its eigenstate gives the expected outcome with certainty. Iterating over Pauli yields each of the sixteen exactly once, and the repr of a Pauli evaluates to it.", "quantifier": "all Paulis with units, all integers b, all vectors of the eigenspace, all Pauli measurements and outcomes", "why_tests_cant": "the eigenspace and the arguments are infinite; the states are tied to the matrices exactly, not up to rounding", "anchors": ["graphix/pauli.py: Pauli.eigenstate, Pauli.iterate, Pauli._repr_impl, Pauli.__repr__, Pauli.__str__", "graphix/states.py: BasicStates, State.to_densitymatrix_numpy, PlanarState.to_statevector_numpy"]}
{"id": "C77", "title": "The text of a pattern evaluates to the pattern", "statement": "repr of any command (preparations with any planar state, measurements with any Pauli or angle and any domains, Clifford commands, corrections) is a Python expression whose value is that command: arguments equal to their default are omitted, and those that follow an omitted one are named. repr of a pattern is an expression whose value is equal to it by ==, when its outputs are distinct and are the inputs and prepared nodes that are not measured; the constructor, add and reorder_output_nodes keep this condition.", "quantifier": "all commands and patterns (of any length), all orders in which Python iterates over sets", "why_tests_cant": "all sequences of commands, sets and angles; a missing name or parenthesis shows only for some combination of omitted arguments", "anchors": ["graphix/repr_mixins.py: DataclassReprMixin.__repr__", "graphix/pattern.py: Pattern.__repr__, Pattern.__init__, Pattern.__eq__", "graphix/command.py: the dataclasses", "graphix/measurements.py: BlochMeasurement.__repr__, PauliMeasurement.__repr__", "graphix/clifford.py: Clifford.__repr__", "graphix/states.py: PlanarState.__repr__"]}
{"id": "C78", "title": "The text of a circuit", "statement": "repr of a circuit is an expression whose value is that circuit: its width and, in order, its instructions on their qubits with their angles.", "quantifier": "all circuits (any width, any number of instructions, any real angles)", "why_tests_cant": "all sequences of instructions and all angles; a test compares one text", "anchors": ["graphix/transpiler.py: Circuit.__repr__", "graphix/instruction.py: repr_angle, the dataclasses", "graphix/repr_mixins.py: DataclassReprMixin.__repr__, EnumReprMixin.__repr__", "graphix/pretty_print.py: angle_to_str"]}
{"id": "C79", "title": "Scripts of optimizations", "statement": "A script that calls standardize, shift_signals, infer_pauli_measurements, blochify, remove_useless_domains, single_qubit_domains, perform_pauli_pushing, remove_pauli_measurements and minimize_space on a pattern that the library builds, in any order and any number of times, never fails, and the last pattern does the computation of the first; for a circuit without measurements the simulation of the last pattern gives the state that the circuit gives (fidelity 1).", "quantifier": "all tidy patterns (those of all circuits among them), all scripts of any length, all enumeration orders, all branches, all inputs", "why_tests_cant": "there are infinitely many scripts and patterns; a test runs a few fixed sequences of calls", "anchors": ["README.md: the workflow", "graphix/pattern.py: Pattern.standardize, shift_signals, infer_pauli_measurements, blochify, perform_pauli_pushing, remove_pauli_measurements, minimize_space", "graphix/optimization.py: standardize, remove_useless_domains, single_qubit_domains", "graphix/transpiler.py: Circuit.transpile, Circuit.simulate_statevector"]}
{"id": "C80", "title": "The text of a density matrix", "statement": "density_matrix_to_str gives one line per row with one cell per entry, in the order of the matrix; the columns are aligned; a reader who splits the lines on two spaces gets back exactly the cells, and each cell reads as a number within the tolerance of its entry.", "quantifier": "all matrices (any size, any complex entries), all tolerances and denominators", "why_tests_cant": "all sizes and all entries; a cell can contain spaces (1/2 + i/2) and the widths depend on all entries; a test compares one text", "anchors": ["graphix/pretty_print.py: density_matrix_to_str, complex_to_str", "graphix/sim/density_matrix.py: DensityMatrix.draw"]}
{"id": "C81", "title": "Noise objects always have a probability in [0,1]", "statement": "A noise object of the library is constructed only with a probability in [0,1], every assignment of another value raises ValueError and changes nothing, so that after any history the channel can be built and preserves the trace; the command method of a noise model raises exactly when the parameter that this command uses is not a probability (or the command is a signal command).", "quantifier": "all noise classes, all histories of constructions and assignments (rejected ones included), all float values, all commands and parameters of the models", "why_tests_cant": "all histories and all floats (nan and the infinities included); a test tries some assignments", "anchors": ["graphix/utils.py: Validator, BoundedFloat, Probability", "graphix/noise_models/depolarising.py: DepolarisingNoise, TwoQubitDepolarisingNoise, DepolarisingNoiseModel.command", "graphix/noise_models/amplitude_damping.py: AmplitudeDampingNoise, TwoQubitAmplitudeDampingNoise, AmplitudeDampingNoiseModel.command"]}
{"id": "C82", "title": "The text of an angle in every format", "statement": "In ASCII, LaTeX and Unicode, with or without the multiplication sign, the text that angle_to_str gives for an angle in units of pi reads back as that angle in radians up to a relative error of 1e-9; the multiplication sign is written exactly when it is asked for.", "quantifier": "all angles, all output formats, both values of multiplication_sign", "why_tests_cant": "all real angles: each has its own fraction or decimal text", "anchors": ["graphix/pretty_print.py: angle_to_str, OutputFormat"]}
