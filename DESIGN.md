# Formal model of graphix in Lean 4 — design

## 1. Method

* **Model**: pure functional Lean definitions under `lean/Verif/`, one per function
  of `/repo/graphix`, each with a comment citing file and lines.  Python dicts are
  association lists with Python's insertion-order semantics (`Verif/PyDict.lean`),
  Python sets of nodes are `Finset ℕ`, exceptions are `Except`/`Option`.
* **Angles** are real numbers (units of π, as in the code).  Floating point is *not*
  modelled: all identities are over exact ℝ/ℂ.
* **Quantum semantics** (the independent specification, `Verif/Quantum/*`): a state of
  a register of arbitrarily many labelled qubits is a function
  `(ℕ → Bool) → ℂ` from basis assignments to amplitudes; a node that is not live is a
  coordinate on which the state does not depend.  Gates, CZ, preparation and
  (unnormalised) projection onto a measurement outcome are defined on it directly.
  A *branch* of a pattern is the run in which the outcome of node `n` is `r n` for a
  fixed `r : ℕ → Bool`.  "Same up to global phase" is `∃ c, ‖c‖ = 1 ∧ ψ = c • φ`.
* Specifications are stated with Mathlib vocabulary (matrices over ℂ, `Matrix.rank`,
  `Relation.TransGen`, `Finset`, ...) or a separate small spec.
* Each property theorem is followed by an `example` showing its hypotheses are met by
  a concrete non-trivial object.

## 2. Plan per property

| Id | Model | Proof |
|----|-------|-------|
| C01-C03 | tables of `_db.py` as `Fin 24` functions; exact 2×2 complex matrices | finite tables over Gaussian integers by kernel `decide`, lifted to ℂ |
| C04 | `commute_domains` fold over the hsz list with `Finset` symmetric difference | induction over the list, operator identity per generator |
| C05, C06 | `Measurement.clifford`, `to_bloch`, `to_pauli_or_none` on real angles | table facts + trigonometric shift identities |
| C07 | Pauli/ComplexUnit/Sign arithmetic | finite case analysis against complex matrices |
| C08-C10 | Command, Pattern, add/extend, check_runnability, simulator loop with NodeIndex | induction on the command list; invariant on live/measured sets |
| C11, C12 | `StandardizedPattern.from_pattern/to_pattern` | simulation invariant: state = C·X·Z·(residual), induction on commands |
| C13, C14 | shift_signals_direct, extract_signal, shift_outcomes | induction on the command list, invariant relating branches |
| C15 | PauliPushingCut | as C13 |
| C16 | remove_useless_domains, single_qubit_domains | per-command semantics lemmas |
| C17 | `Model/ToPattern.lean`: `Clifford.to_opengraph`, remove_local_clifford_commands | the pattern of each Clifford gate (through C53), then an invariant of the loop with the current names of the nodes |
| C18-C20 | pattern_max_space, space_list, standardized_*; minimize_space | prefix induction; lower-bound argument over all schedules |
| C21, C22 | node_mapping, reindex, compose | renaming equivariance of the semantics |
| C23-C25 | `_elimination_jit`, right_inverse, null_space, solve, mat_mul on ZMod 2 matrices | loop invariants (row equivalence, echelon), row-space arguments |
| C26 | compute_topological_generations | loop invariant, cycle extraction by finiteness |
| C27 | find_cflow | soundness invariant; completeness by minimal counterexample |
| C28 | `Model/FindGpflow.lean`: flow-demand and order-demand matrices, right inverse, null space, the P-matrix loop with its incremental echelon form, layers | `Proofs/FindGpflow.lean` (loop invariants over GF(2)), `Proofs/FindGpflowMat.lean`, `Props/FindGpflow.lean`: soundness, and completeness through focusing of an arbitrary Pauli flow |
| C29 | check_well_formed ×3 | iff with textbook definition |
| C30 | flow → corrections → pattern | stabilizer argument on the state semantics |
| C31 | XZCorrections | order-theoretic reasoning |
| C32 | `Model/ToPauliFlow.lean`: the GF(2) system of each node, elimination, back substitution; to_causalflow, to_gflow | solutions of the system ↔ correction sets of Pauli flows; soundness and completeness |
| C33 | `Model/StdOpenGraph.lean`: to_opengraph, partial_order_layers, to_xzcorrections of a standardized pattern | graph, measurements and corrections against the commands of the pattern; the pattern generated from the corrections equals the pattern branch by branch (re-ordering of the commuting Pauli corrections) |
| C34 | `Model/GraphSim.lean`: all of `GraphState` | `Proofs/GraphState.lean`: stabilizer, local complementation and pivot identities on graph states of any size; `Proofs/CliffordKet.lean`: Clifford gates on a graph state |
| C35 | `Model/RemovePauli.lean`: all of `remove_pauli_measurements.py` and `Pattern.remove_pauli_measurements` | invariant relating the rewritten graph and its node annotations to the Pauli-pushed pattern (closed form of a standardized pattern, local-complement and pivot identities); decreasing measure for termination; every outcome of a deterministic pattern is possible (`NeverZero`) |
| C36-C39 | transpiler decompositions | matrix identities lifted to any register |
| C40 | NodeIndex | invariant over operation sequences |
| C41 | array kernels | loop invariants over indices |
| C42, C43 | projectors, Kraus channels | matrix algebra over ℂ |
| C44 | AffineExpression | algebra |
| C45, C46 | noise models, selectors | list induction |
| C47 | PauliString encodings | induction over positions |
| C48 | tableau updates, the whole of cm_berg_pass | rows as operators; invariant: the tableau is a conjugate of the initial one, processed rows are generators |
| C49 | pexp_ladder_pass, er_to_circuit | recursion on the ladder, conjugation of rotations |
| C50 | `Model/Fusion.lean`: all of `extraction.py` | loop invariant (edges left and edges given out partition the edges; counter = number of edges left), degrees at most two after the GHZ phase, decreasing measure |
| C52 | `Model/Extract.lean`: `is_focused`, `extraction.py` from flows, `extract_circuit` | the stabilizer of a focused correction set pulled through the map at angle 0 gives the images of X and Z of every input; a linear map is determined by these images up to a scalar; the measured angles give the Pauli exponentials one by one in the order of the layers |
| C51 | XZCorrections.from_measured_nodes_mapping | loop invariant on the dag and in-degrees, reduction to C26 |
| C53 | `Model/ToPattern.lean`: OpenGraph.to_pattern | composition of C27, C28, C29, C30, C31; phases uniform in the state and with an environment |
| C54 | `Model/Mc.lean`: `signals`, the loop of the `mc` method with a bound on its turns | one signal pushed to the end is a substitution in the domains; induction on the sequence against the loop of `direct`; uniqueness of parities |
| C56 | `Model/Tensor.lean` (numpy's reshape, tensordot, moveaxis, transpose on arrays of bits), `Model/DensityMatrix.lean` | entry formulas by axis calculus on lists of bits; traces by summing over subsets of nodes; spectral theorem for the constructor |
| C57 | `simulateDM` in `Model/DensityMatrix.lean` (backend, noise, confusion of results), `Spec/NoisySem.lean` (meaning of a sequence of commands and noises on density operators) | invariant of the run by induction on the sequence; library models by induction on their composition; `Props/SimHistory.lean`: the outcomes are the answers of the selector (also C10); `Props/WorkflowDensity.lean`: on a deterministic pattern every noiseless run gives the same density operator, that of the state vector |
| C58 | `Model/CircSim.lean`: `Circuit.simulate` on both backends, `Statevector.evolve` (einsum); `Spec/CircRun.lean`: probabilities of the outcomes of a circuit | invariant by induction on the instructions; each kernel against the operators of `Spec/Circuit.lean` |
| C59 | no new model: composition of C37/C38 (transpile), C10/C57 (runs of patterns) and C58 (runs of circuits); `Proofs/BranchProb.lean`: probabilities of branches command by command | the pattern *realizes* the circuit (`Realizes`), hence equal states; uniform branch probabilities give that runs of unitary patterns cannot fail |
| C60 | `Model/Readout.lean`: dictionaries, encodings, `isclose`; `Model/CircSim.lean`: `evolve`, `expectation_value`, `fidelity` | abstraction to functions on nodes (C58), sums over subsets, binary digits by induction |
| C61 | `Model/PatternFlow.lean`: the four methods of `Pattern`, on the models of C32 and C33 | standard form of the commands of `to_pattern` by induction on the measurement order (`Proofs/StdPatternCmds.lean`), then C29, C30, C32, C33, C51; simulations by C10 |
| C62 | `Model/OgCompose.lean`: `OpenGraph.compose`, loop by loop; specification `Spec/OgMerge.lean` | loop invariants over the mapping; the map of an open graph is a factor, controlled Zs and one operator per node (`linMap_locF`), so maps compose node by node; orders of flows put one after the other |
| C63 | `Model/TensorNet.lean`: `MBQCTensorNet` (tensors with named indices, `contract` = sum over all the indices), `TensorNetworkBackend`, the simulator loop on it | the invariant `Represents tn L J ψ`: summing the product of the tensors over the inner indices `J` gives the amplitudes of `ψ` on the dangling indices of the nodes `L`; preserved by each step; `prepare_graph_state` by induction on the edges |
| C64 | `Model/Qasm.lean`: `qasm3_exporter.py` and `angle_to_str`, the text as a list of tokens; `Spec/Qasm.lean`: tokens, grammar and meaning of the fragment of OpenQASM 3 that is written (independent of the exporter); `Spec/QasmRun.lean`: when a run does what a pattern does | the grammar is unambiguous; each command writes the text of statements, whose run multiplies the state as the command does (invariant `QInv`, measured qubits stay in the basis state of their outcome); rotations before measurements by conjugation of observables |
| C65 | `Model/PatternMap.lean`: `apply`, `map`, `infer_pauli_measurements`, `blochify`, `to_pauli_or_none` with tolerances (`math.isclose`, Python's `round`), patterns with parameters (`PPattern`); `Model/ParamStd.lean`: `standardize` on them | `PPattern.at v` gives values to the parameters; measurement by measurement, then a simulation of the loop of `from_pattern` by the loop on the pattern with values |
| C66 | `Model/RandomObjects.lean`: all of `random_objects.py`; the generator is an environment (`RandEnv`) whose answers are arbitrary within numpy's contract (`RandEnv.Ok`); Python iterables that can or cannot be iterated again (`PyIterable`) | `IsRandLayer`, `IsRandGate` are the documented shapes; `C66_rand_circuit_transpile` follows from C37; matrices by Mathlib (`PosSemidef`, `CFC.sqrt`, `Matrix.rank`); iterators and zero draws: negations |
| C67 | `Model/ParamCircuit.lean`: circuits whose angles are affine expressions, `visit`, `is_parameterized`, `replace_parameter(s)`, and the whole of `transpile` on them (`instructions_to_jcz`, `transpile_swaps`, `transpile_to_causalflow`, `to_pattern`, `from_pattern`, `to_space_optimal_pattern`); code that looks only at the nodes that are measured is reused on a skeleton | `PCircuit.at v`, `PPattern.at v` are the specification; simulation between the symbolic and the numeric transpiler, step by step (`ExRel`: same exception or related values), with measurements related by equality of observables; meaning from C37 |
| C68 | `Model/OgMap.lean`: `OpenGraph.map`, `to_bloch`, `infer_pauli_measurements`, `isclose`, `is_equal_structurally`, `to_causalflow`, `to_circuit`, `with_parameter(s)` of open graphs, flows and corrections | the map by equality of observables node by node (C65); flows by refinement of labels: a plane that becomes one of its axes satisfies P1-P9 with the same sets and order; `to_circuit` from C28 and C52; equality of maps for close open graphs from the normal form of C62 |
| C69 | `Model/PatternMin.lean`: `Pattern.minimize_space` (in place and copy) with `DEFAULT_HEURISTICS`, the `causal_flow` heuristic with the exceptions that it catches | every heuristic's answer is a valid order (C20, C51); the loop keeps the best candidate (C19); with a causal flow the measurement order by layers needs `n_outputs + 1` qubits, a lower bound for all rivals (C51) |
| C70 | `Model/PatternViews.lean`: `clifford_commands`, `connected_nodes`, `correction_commands`, `reorder_input_nodes`, `__eq__`, `StandardizedPattern.map`/`to_bloch`, `_duplicates_in_mapping` | decomposition of a standard sequence in its blocks, induction on the sequence from its end; C12 for the standardized pattern |
| C71 | `Model/PrettyPrint.lean`: `complex_to_str`, `angle_to_str` and the functions they call, a text being the list of its tokens; `Spec/PrintedNumber.lean`: how a reader evaluates the tokens; `Spec/PrintedText.lean`: how the characters are split in tokens (also for C72 and C80) | invariants of the loops of the squarefree decomposition; the token lists are read by induction on their shape; error bounds on square roots and exponentials; `Props/PrintText.lean`: two numbers never touch, so the longest-number rule finds the tokens again; a literal without a point reads as the natural number |
| C72 | `Model/PrintState.lean`: `statevec_to_str` with the common modulus; `Spec/PrintedState.lean`: how a reader splits the text in kets and coefficients | every printed number has one sign at most and is one term, a sum with spaces or a decimal with two parts; induction on the kets; Niven's theorem for the failure; the characters are split in these tokens (`Props/PrintText.lean`) |
| C73 | `Model/PrintPattern.lean`: `command_to_str`, `pattern_to_str`, `flow_to_str`, `xzcorr_to_str` as lists of tokens; `Spec/PrintedPattern.lean`: a recursive-descent reader | each printed part is read back with any continuation; induction on commands, items and layers |
| C74 | `Model/CliffordMatrix.lean`: `Clifford.try_from_matrix` with the tolerances of `np.allclose` and `math.isclose` | two different gates have entries whose 2x2 determinant has a modulus of at least 1/2 (decided on the exact tables), so a matrix close to a multiple of one gate is far from every multiple of another |
| C75 | `Model/FlowViews.lean`: `is_well_formed` catches `FlowError`; `to_dag` as the sets of its nodes and edges | every step of the checks raises nothing but `FlowError` once the domain and the image are checked (induction on layers and nodes), with C29; a walk goes to later and later layers |
| C76 | `Model/Eigenstate.lean`: `Pauli.eigenstate`, `BasicStates`, the density matrix of a state, `iterate`, the text; `Spec/PauliText.lean`: the value of the Python expression | the density matrix of a planar state is half the identity plus its observable; eigenvectors from projectors; the finite parts by evaluation |
| C77 | `Model/PatternRepr.lean`: `repr` of commands (the dataclass mixin) and patterns as Python tokens, `Pattern.__init__`; `Spec/PythonText.lean`: a reader of Python calls that binds positional, named and default arguments | each text of a value is read back and ends before a comma or parenthesis; the decomposition of each Clifford gate multiplies to it; induction on the commands |
| C78 | `Model/CircuitRepr.lean`: `repr` of instructions and circuits; `Spec/CircuitText.lean`: a reader of the calls | each instruction is read back with any continuation, the angle by the theorem on printed angles (C73); induction on the instructions; a witness for the unit of angles |
| C79 | `Model/Workflow.lean`: a call with its arguments, scripts; `Spec/Workflow.lean`: tidy patterns, valid arguments, `Optimized` | each call keeps tidy patterns tidy and gives an `Optimized` pattern (the theorems of the methods); `Optimized` composes; induction on the script; then the theorems on simulation (C10, C58, C59); `Props/WorkflowDensity.lean`: the same with the density-matrix backend |
| C80 | `Model/PrintDensity.lean`: `density_matrix_to_str` as characters (widths, right alignment); `Spec/PrintedMatrix.lean`: a reader of lines and cells, alignment | every printed number is the text of a cell (no space at its ends, no two consecutive spaces) by the cases of `complex_to_str`; induction on the cells and on the lines; each cell by C71; also as characters (`C80_text`) |
| C81 | `Model/NoiseObjects.lean`: the validator on floats with `nan` and infinities, noise objects that are assigned again, `command` of the models with the constructors' checks | cases of the two comparisons; induction on the assignments; channel by C56; cases of the command |
| C82 | `Model/AngleText.lean`: `angle_to_str` as characters in the three formats; `Spec/AngleText.lean`: a reader of each format | cases of the fraction; the reader splits the digits, the sign and the name of pi, and the numerator from the denominator |
| C55 | `Model/Parallelize.lean`: parallelize_pattern | the generations of C33 are a valid order of measurement; then C20, C19, C11 |

The status of each property is in `MANIFEST.json`.

## 3. Trusted base

* The kernel of Lean 4.33.0 and Mathlib's definitions (ℝ, ℂ, `Matrix`, `Finset`, `Relation.TransGen`, ...).
* Axioms: every theorem of `MANIFEST.json` depends on exactly `propext`, `Classical.choice` and `Quot.sound`
  (checked with `#print axioms`). No axiom is added, no compiled evaluation is used.
* The correspondence between the Python text and the model, function by function; each definition cites its lines.
  Everything below that is a *modelling decision* is trusted:
  * numbers: angles are real, amplitudes complex, exact arithmetic; rounding, `cmath.isclose` tolerances and
    overflow are not modelled; node labels are natural numbers;
  * containers: `dict` is an association list with insertion order and replacement in place (`PyDict.lean`), `set` is
    `Finset`; whenever the code iterates over a set the order is an arbitrary parameter (`SetOrd`) over which the
    theorem quantifies;
  * exceptions: `Except PyErr` (or `Option` where only one exception is possible); messages are not modelled;
  * random choices: a branch selector is an arbitrary function of the expectation value / history, so a theorem holds
    for every random generator; the numerical probability comparison itself is not modelled;
  * parallel loops (`numba.prange`): the iterations run in an arbitrary order given as a parameter; individual
    iterations are atomic. `np.empty` memory has arbitrary content;
  * `networkx.Graph`: a finite set of nodes and a list of edges in which each edge appears once; iteration orders of
    edges and of neighbours are parameters;
  * aliasing: Python objects are modelled by value. Where aliasing matters (in-place elimination, `Pattern.copy`) the
    comment of the definition says so.

## 4. What is modelled and what is not

| File of `graphix/` | Modelled | Not modelled |
|---|---|---|
| `fundamentals.py`, `pauli.py`, `clifford.py`, `_db.py`, `utils` | tables, arithmetic, matrices | printing |
| `measurements.py`, `command.py` | measurements, conversions, `clifford`, commands | pretty printing, `isclose` tolerances |
| `pattern.py` | construction, `check_runnability`, `shift_signals` (both methods), `parallelize_pattern`, `standardize`, `max_space`, `space_list`, `minimize_space`, `compose`, reindexing, `extract_*` used by these, `to_xzcorrections`, `to_causalflow`, `to_gflow`, `to_pauliflow` | drawing |
| `optimization.py` | `StandardizedPattern`, signals, domains, space-optimal ordering, Pauli pushing, extraction of open graph and corrections | see `MANIFEST.json` |
| `space_minimization.py` | all heuristics | |
| `sim/statevec.py`, `sim/base_backend.py`, `simulator.py` | kernels, `NodeIndex`, state-vector run of a pattern, `evolve`, expectation values, fidelity, dictionaries | tensor networks, dtype handling |
| `sim/density_matrix.py`, `linalg_validations.py` | all operations of `DensityMatrix`, runs of patterns with and without noise | symbolic entries; NaN (a division by a zero trace is an error in the model) |
| `_linalg.py` | all | numba specifics |
| `channels.py`, `noise_models/*`, `branch_selector.py`, `parameter.py` | constructors and their algebra | sympy |
| `opengraph.py`, `flow/*` | post-init checks, composition, flows, corrections, searches, layers, patterns from flows | drawing |
| `transpiler.py`, `instruction.py` | all instructions, decompositions, `transpile`, `transpile_swaps`, `Circuit.simulate` | backends instantiated by the user |
| `circ_ext/*` | Pauli strings, Clifford maps, tableau, both compilation passes, extraction from flows | `draw`-like and string methods |
| `graphsim.py` | all but drawing; the order of the edges of a networkx graph is abstracted | `draw` |
| `remove_pauli_measurements.py` | all (cutting, rewriting rules, removal of nodes, conversion back); the iteration order of sets is arbitrary | the warnings |
| `extraction.py` | all; the outer loop has a bound on its number of turns, and `Finishes` quantifies over it | self-loops |
| `sim/tensornet.py` | `MBQCTensorNet` (but the negative indices of qubits), `TensorNetworkBackend`, `outer_product` | `quimb` (trusted: new names for indices, contraction, `split`, renaming of clashing indices, conjugation), `decompose=True` of `evolve`, `copy(deep=True)`, the path optimisers |
| `qasm3_exporter.py`, `angle_to_str` of `pretty_print.py` (ASCII output) | all; the text is the list of its tokens, a float literal is an exact real number | comments and white space, symbolic angles; that the tokens are separated well by white space |
| `pattern.py` 1596-1622, 1695-1835 (`apply`, parameters), `measurements.py` tolerances | all, on real angles | aliasing of the domain sets shared by a pattern and its copy; subnormal/NaN/infinite tolerances |
| `random_objects` | everything, the draws being arbitrary | distributions of the draws, NaN of a division by zero, `stacklevel` |
| `pretty_print.py` | numbers, angles, state vectors, density matrices, patterns, flows and corrections (ASCII, one line) | symbolic angles; LaTeX and Unicode except for angles (`C82`) |
| `visualization.py` | nothing | everything |

## 5. Disagreements between the code and its documentation found by the proofs

Each has a theorem that states the negation on a concrete input, beside the strongest true statement.

* `instructions_to_jcz` stops at an instruction `I` and drops the rest of the circuit (C36, C37).
* `transpile_swaps` / output-node extraction: `KeyError` or classical outputs in the wrong order (C38).
* `shift_outcomes` is not an inverse for chained signals (C14); `space_list` ignores the inputs (C18).
* `compose` of two empty patterns raises (C22); `pauli_channel` uses probabilities instead of their roots (C43).
* adding affine expressions whose parameter cancels gives a wrong value (C44).
* `XZCorrections.check_well_formed` accepts corrections on nodes that are not in the graph; `is_compatible` raises on an
  open graph without measured layers (C31).
* `cm_berg_pass` raises on a Clifford map without qubits (C48); the docstring of `PauliExponential` has half the angle that
  `pexp_ladder_pass` implements (C49).
* `remove_local_clifford_commands` raises `PatternError` on an identity gate that is not on the highest node (C17).
* `XZCorrections.to_pauliflow` accepts X corrections on input nodes and then returns a flow that is not well formed (C32).
* `GraphState.s` is wrong on a hollow node with a loop and without a sign that has neighbours, and therefore
  `GraphState(vops={n: Clifford(15)})`; `vops={n: Clifford.I}` raises; `measure_z` ignores the choice on an isolated solid
  node although both outcomes are possible (C34).
* `remove_pauli_measurements` removes an isolated node measured along -X as if its outcome were 0, and does not reject
  preparations other than |+>, for which the result is wrong (C35).
* `graph_to_fusion_network` may loop forever when `max_ghz` is finite (complete graph with six nodes, `max_ghz=3`), may return
  GHZ clusters larger than `max_ghz`, and may label a graph with a cycle LINEAR (C50).
* the circuit extracted from a focused flow is wrong (an `X` is missing on the qubit) for the inputs that have a Pauli measurement with a
  negative sign: `C52_extract_circuit` says what it implements, `C52_extract_iff` that it is right only without such inputs, and
  `C52_negative_input` is a witness (C52).
* the signals returned by `shift_signals("mc")` are not those of `direct`: `shift_outcomes` with them goes from the unshifted to the
  shifted outcomes only (C54).
* `DensityMatrix` accepts a matrix of dtype float, on which `add_nodes` and `tensor` raise `TypeError`; `expectation_single` normalises the
  state in place; `project_qubit` on an outcome of probability zero gives NaN instead of the error of the state-vector backend (C56).
* `Circuit.rzz` accepts twice the same qubit; the state-vector backend simulates it, the density-matrix backend raises `ValueError` (C58_rzz_self).
* `check_runnability` accepts `E((u, u))`; the state-vector backend runs it, the density-matrix backend raises `ValueError` (C57_self_entangle).
* `parallelize_pattern` loses the last layer of measurements of a pattern without outputs (C55).
* `Statevector.to_dict` without qubits has the key `"0"` instead of the empty ket (C60_no_qubits).
* `Pattern.to_pauliflow` on a pattern with an X correction on an input returns a "flow" that is not a Pauli flow, although the pattern is not deterministic (C61_input_correction).
* `Pattern.to_pauliflow` may raise `FlowError` on the pattern of a Pauli flow, contrary to its documentation, because the layers are computed again from the corrections (C61_pauliflow_not_found).
* `Pattern.to_causalflow` and `to_gflow` succeed on some patterns that are not deterministic, because they do not check the Z corrections (C61_z_corrections_not_checked).
* `OpenGraph.compose` keeps an edge that both graphs have, although two controlled Zs cancel (C62_shared_edge), and applies the Clifford of a merged output after the edges of the second graph instead of before (C62_clifford_order).
* `OpenGraph.compose` with an empty first open graph and an empty mapping raises `ValueError` from `max` (in C62_compose).
* the tensor-network backend tells the branch selector that every outcome has probability 1/2, even when the branch is impossible (C63_impossible_branch); for a node without neighbours it computes the probability in the computational basis whatever the measurement is (C63_isolated_wrong); `MBQCTensorNet.copy()` loses the default outputs, so that `to_statevector()` of the copy raises (C63_copy).
* the OpenQASM 3 exporter writes `RZZ` as `crz`, which is another gate (C64_rzz_wrong); a node entangled with itself is written `cz q0, q0` (C64_self_entangle).
* `rand_gate` and `rand_circuit` iterate `pairs` and `parameters`, documented as `Iterable`, several times: with an iterator the later layers have no entangling gate, and the parameters are only used by `rx` (C66_rand_gate_iterator, C66_parameters_iterator). `rand_pauli_channel_kraus` raises `IndexError` when a draw is 0 (C66_rand_pauli_channel_zero).
* `Circuit.visit(copy=True)` (hence `replace_parameters(copy=True)`) returns a circuit that accepts gates on the qubits that were measured (C67_copy_forgets_measured); `Circuit.is_parameterized` ignores `j` gates (C67_is_parameterized_j).
* `minimize_space()` with the default heuristics raises `ValueError` on a pattern with a node that is not prepared in |+>, since `causal_flow` only catches `TypeError` and `FlowError` (C69_not_plus_raises).
* `connected_nodes` raises `IndexError` when the standardized sequence ends with an `E` command (C70_connected_nodes_fails); `clifford_commands` keeps the last of several Clifford commands on a node (C70_clifford_commands_fails).
* `complex_to_str` compares the squares with the tolerance: `2e-5` is printed as `0` with the default tolerance `1e-9` (C71_small_is_zero).
* `statevec_to_str` does not put in parentheses a phase that is a sum (`sqrt(2)/2(3/5 + 4/5i|0> + |1>)`; the comment in `_factor_uniform_magnitude` says that it never is one), nor a decimal coefficient with two parts (C72_bare_sum, C72_bare_decimal).
* `pattern_to_str(limit=0)` prints all commands but one and says that it omits one more than all of them (C73_limit_zero). `CLIFFORD_LABEL` has one label (`I^{1/3}`, `\sqrt{-I}`) for several gates, and 25 entries for 24 gates; the state of an `N` command is not printed (C73_clifford_label, C73_state_lost).
* `Clifford.try_from_matrix` ignores not only the global phase (as documented) but any nonzero factor: `2 * H` is `Clifford.H` (C74_roundtrip).
- `Pauli.eigenstate` ignores the unit of the Pauli: the eigenstate 0 of `-X` is that of `X` (`C76_eigenvector` gives the eigenvalue).
- The text of a circuit has angles in radians, while the constructors of the instructions take them in units of π, so `eval(repr(circuit))` is another circuit (`C78_angle_unit`); `3pi/2` is not even a Python expression.
- `Probability` accepts `nan` (no comparison with it is true): the noise is constructed, and the error comes from `to_krauschannel` (`C81_nan`).
