# Formal model of pycqed (pyscqed) in Lean 4

## Layout

* `lean/Verif/Prelude/*`  – Python-level vocabulary (dictionaries, errors, floats), generic lemmas.
* `lean/Verif/Model/*`    – the model: one Lean definition per Python function, each with a comment citing
  file and lines in `/repo` and naming every simplification.
* `lean/Verif/Spec/*`     – small specifications, written without the model's helper functions.
* `lean/Verif/Lemmas/*`   – supporting lemmas.
* `lean/Verif/Tests/*`    – the repository's own test cases run in the model (conformance, not proofs).
* `lean/Verif/Props/*`    – the property theorems (`C01_…`, `C02_…`), each followed by an `example` with a
  concrete non-trivial instance of its hypotheses.

A Python method that mutates `self` is modelled as a function `State → args → State × Except Err Result`:
the state survives an exception, so "a failing call changes nothing" is something that has to be proved.
Where the code iterates over a Python `set`, the iteration order is a universally quantified parameter.
Where the code has a `while` loop that need not terminate, the loop takes fuel and divergence is an outcome;
the property theorems hold for every fuel, and termination is a separate theorem.

If a property is false of the code, the theorem proved is the negation on a concrete history
(`Cnn_false_…`), together with a `Cnn_…_partial` theorem giving the exact conditions under which it holds.

## Trusted base

* Lean 4.33.0's kernel and Mathlib; axioms: at most `propext`, `Classical.choice`, `Quot.sound`.
* The reading of the Python source recorded in the comments of `Model/`; no code is executed or extracted.
* Library behaviour assumed: see "Library assumptions" below; what is and is not modelled: see "What is modelled, file by file".

## Plan per property

| id | model | proof |
|----|-------|-------|
| C01 | `Param` state machine, floats = rationals + nan/±inf, Python types as a sum type | invariant over call histories |
| C02 | `Param.linearSweep`, `np.linspace` in exact arithmetic | induction / algebra |
| C03 | whole `ParamCollection` state machine, digraph with Kahn acyclicity test as in networkx | Kahn test proved equivalent to "no closed walk", invariant over histories |
| C04 | `addParameterisation` | case analysis + Kahn correctness |
| C05 | `setParameterValue(s)` | case analysis |
| C06 | `_update_parameterisations`, expand loop, abstract symbolic engine with laws | inductive denotation as spec; loop invariants; for every set-iteration order |
| C07 | expand loop | termination by a weight measure, semantics by substitution lemma |
| C08, C09 | as C06 | frame lemmas + C06 |
| C10 | `setParameterValues` | false: witness; partial |
| C11 | `rmParameterisation` | false after an overwrite: witness; partial otherwise |
| C12 | `getParameterisationsInvolving` | direct dependents proved; transitive false: witness |
| C13 | `addParameter` | case analysis, injectivity of symbol naming |
| C14 | `rmParameter` | false: witness; partial |
| C15, C16 | `collapsedIndices`, `ndSweep` (meshgrid + flatten as row-major list) | induction on the number of dimensions |
| C17 | `computeFuncSweep` with a user function that may raise | induction |
| C18 | `getSweepResult` (scalar and list `ind_var`) | induction, argmin lemma |
| C19 | sweep / non-sweep dictionaries | reachability; substitution algebra |
| C20 | `CircuitGraph` state machine | false for duplicates: witness; partial |
| C21 | `CircuitGraph` state machine | invariant over histories |
| C22 | Kruskal over the ordered multigraph | forest invariant, counting |
| C23 | loop construction | false in general: witness; under node-order condition proved |
| C24, C26–C28 | bias/coupling state machine | invariants over histories |
| C25 | as C24 | false: witness; partial |
| C29–C33 | Mathlib matrices over commutative rings / ordered fields | algebra |
| C34 | classification loop | false: witness; partial |
| C35 | star rings | algebra |
| C36 | the four parameterising loops over a parameter collection with arbitrary engine (Model/Derived) | induction on the loop and on histories of calls; false in general: three witnesses |
| C37 | charge basis via discrete Fourier transform | roots of unity, diagonaliser-independence |
| C38 | ladder operators | algebra |
| C39 | tensor expansion | Kronecker algebra |
| C40 | `Model/Numerical.lean`: `NumericalSystem` as a state machine (substitution in one and in two stages, operator regeneration, sweep loop), the physics abstract | induction over the visited points, from C19; witness with the matrices of an LC circuit |
| C41 | the same; `addEvaluation`, the two evaluation loops, the pickled files, `getSweep` | induction over the points; C18 for the slices; witnesses |
| C42 | the same | induction over the evaluations |
| C43 | resonator strips | index algebra |
| C44–C46 | `Units` state machine over a field | invariant over histories; algebra |
| C47–C52, C56 | `util.py` functions | induction, algebra, witnesses |
| C53, C54 | `TempData` over a file-system map | invariant over interleavings |
| C55 | `latexify_param_name` on character lists | case analysis |
| C57, C58 | eigenvalue selection, dispersive shifts of `util.py` | case analysis on the selection rule; algebra |
| C59 | bias vector of the node fluxes, `quadEnergy` | algebra over incidence matrices; false: witness |
| C60 | `Transform` and the untransformed bias vectors | algebra; false: witness |
| C61 | `cooper_disp` and the sign rule of `dispProduct` | false: witness; partial |
| C62 | `fluxBasis`, `discretizedFluxBasis` | as C37; false: witness |
| C69 | `levelIndex`, `response` | permutation from distinct bare energies; false at resonance: witness |
| C63 | `currentOperator` over any *-algebra | algebra; derivative of the energy on states of definite phase or flux; false for the sign and the bias: witnesses |
| C64 | `voltageOperator`, `quadOp` over the reals | calculus; false: two coupled nodes |
| C65 | `matrixElement` | Hermiticity; false: charge operator of any oscillator basis |
| C66 | `hamiltonian` over any *-algebra and over the expanded operators of a circuit | algebra on products of commuting displacement operators; the standard bases meet the hypotheses |
| C70 | `linearPart`, `staticPart`, `hamiltonian` | induction over the branches |
| C71 | `hamiltonian` with the exponentials of the biases | periodicity of the exponential |
| C72 | `lcSystem` from `oscQ`, `oscP`, `hamiltonian` and the `Units` state machine | ladder algebra, prefactor algebra; false for the last level: witness for every odd truncation |
| C68 | the prefactor calls over a parameter collection with any lawful engine (Model/ResUnits) | induction over the calls and the constructions; false in general: witness; exact effect proved |
| C67 | Model/Potential on top of Model/Symbolic: the map of input names, which symbols lambdify needs, the value | branch fluxes as differences (C31), inductive form (C30), algebra of the name map; counterexamples |
| C73 | Model/Loaded.designCr, designLr (lines 745-746) over the reals, without unit prefactors (those are C68) | field arithmetic with square roots |
| C74 | Model/Loaded.loadedCircuit (693-702) builds the extended circuit by the modelled addBranch calls; the matrices are those of C29 | C74_energy from the quadratic forms of C29 for both circuits; polarisation; each column of the inverse is exhibited by continuing the circuit's column to the resonator nodes |
| C75 | Model/Loaded.loadedFrequency, loadedImpedance, loadedCoupling (718-736) on the inverse matrices of the extended circuit, rows found by node as in 710-714 | C74_inverse and C30_uncoupled at an indicator flux; bounds from positivity of the form of C29 |
| C76 | Model/Classical: `classicalJosephson`, `redBiasVector`, `classicalHamiltonian`; spec Spec/Classical: energies and node currents as sums over components | combine C29 (capacitances), C59 (biased inductors) and C31 (branch phases); derivatives by expanding the quadratic form and branch by branch; with mutual inductances (Spec/ClassicalMutual) from the operator identity of C103 over the complex numbers |
| C77 | Model/Energies: `report`, `getChargingEnergies`, `getFluxEnergies`, `getJosephsonEnergies`, `getPhaseSlipEnergies`, `singleParticleEnergies`; spec Spec/Energies: a quadratic form and cosines with named coefficients | expand the matrix products of the linear part; the sums over branches with non-zero energy by induction; false for the symbolic Josephson energies by a circuit with one junction |
| C78 | NS.setParameterValue, NS.setParameterValues, NS.substitute, NS.prepareOperators, NS.sets (a history) | post-state of substitution and preparation; frame of every call, failed or not; equality of the two post-states |
| C79 | paramSweep, NS.newSweep, addSweep, NS.postsub, NS.setParameterValues | frame of every step of a sweep, including those that raise; the values of the parameters are determined by the independent ones (C06); both systems are up to date (C78) |
| C80 | Verif/Model/Numerical.lean (configureOperator, opsOf, expand) | C80_unknown_node, C80_other_basis, C80_oscillator (frame), C80_again (idempotence through the dependency graph), C80_operators (from C78_current); the last sentence is false: C80_false_reconfigured |
| C81 | Model/Hamiltonian, Model/Operators, Model/Symbolic, Spec/CooperPair | displacement products move one pair along the branch; quadratic form of commuting diagonal charge operators; prefactors from C44 |
| C82 | as C81 | from C81_charge_hamiltonian: conserved sums by the incidence matrix; a branch quantity with integer loop sums is a potential difference up to integers (spanning walks), hence a diagonal unitary; reversal permutation |
| C83 | Model/Operators, Model/Hamiltonian, Model/Energies, Model/Units | exponential by diagonalisation (C38), prefactors from C44 |
| C85 | Model/Hamiltonian, Model/Operators | the textbook matrix elements of C81 make the smaller matrix a principal submatrix of the larger; Cauchy interlacing by counting dimensions (Lemmas/Interlace, Lemmas/LevelCount). False in the oscillator basis, where products of truncated operators leave a spurious top state (C85_false_oscillator) |
| C84 | Model/Collection, Model/CollectionBulk | induction on the list of names, with the invariant that parameters and symbols have the same names |
| C86 | Model/Assembly.assemble chains the modelled matrix and vector builders of the symbolic system (capacitance, inverse, branch inductance, Josephson and phase slip vectors, biases, branch terms) into the inputs of the numerical Hamiltonian of Model/Hamiltonian | quadratic form of the capacitance matrix is the electrostatic form of the netlist; it is positive semidefinite with kernel the nodes that float, so the determinant is non-zero iff all nodes are capacitively grounded; the sum over graph edges is the sum over the junction calls because the component map is a bijection; C81 gives the matrix elements |
| C87 | Model/Assembly, Model/Circuit, Model/Hamiltonian | C86 for both descriptions; capacitance matrices agree up to a permutation because their quadratic forms do; the matrix elements agree up to a permutation of the charge states and, since the one bias may count in the opposite direction, complex conjugation |
| C88 | Verif/Model/SweepArray.lean: numpy's stacking, reshape, transposition and column on arrays with any number of axes, on top of the selection of entries of Verif/Model/Sweep.lean; results of evaluations as arrays of numbers and opaque objects | row-major arithmetic for the reshape; composition with C18 (selection), C40 (state at each point) and the invariance of the sweeps under the substitutions of the run |
| C89 | Model/Construct.lean: construct follows the constructor up to the coordinate transforms; the inverse inductance matrix and the expressions for the resonators are arguments. | the history invariants of the circuit say which components, biases and resonators there are; each loop of the constructor is summarised by a relation that says which parameters it adds; writtenAs is injective. |
| C90 | the model of C86 (Model/Assembly.lean, Model/Hamiltonian.lean); the relation between the two descriptions is Parallel in Spec/Parallel.lean, which also states the current of a SQUID | C86_hamiltonian gives both Hamiltonians from the calls. Equal stored energies give equal capacitance matrices (a symmetric matrix is determined by its form). The junction terms agree after adding the terms of the parallel junctions, for the SQUID after multiplying each charge state by a phase that counts the pairs on the part of the circuit behind the SQUID. Levels are invariant under reordering, phases and complex conjugation. For circuits with inductors and phase slips (Props/ParallelCircuit.lean) C97_operator_partial gives both operators and the terms of the parallel components add |
| C91 | Model/Assembly.lean, Model/Hamiltonian.lean (the whole path from the calls to the numeric Hamiltonian); Spec/Response.lean says what more capacitance, the junction change and the electrostatic energy are, Spec/Levels.lean what a level is | The Hamiltonian is that of C86; a min-max argument over subspaces (Lemmas/Weyl.lean) turns bounds of the energies of all states into bounds of the level count; the inverse of a larger capacitance matrix has smaller energies; each junction term is a partial permutation whose energy is bounded by the norm of the state. |
| C92 | the model of C86 (Model/Assembly.lean, Model/Hamiltonian.lean); Spec/Moved.lean says what junctions in series and circuits that differ only in their flux biases are | C86_hamiltonian gives both Hamiltonians from the calls. Multiplying each charge state by a phase proportional to the pairs on the part of the circuit takes the flux from one junction to the other (Lemmas/Gauge.lean); the sense of the flux is undone by complex conjugation |
| C93 | the model of C86 (Model/Assembly.lean, Model/Hamiltonian.lean); Spec/Apart.lean says what a circuit of two parts is | C86_hamiltonian gives the three Hamiltonians from the calls. The capacitance matrix is made of two blocks because a symmetric matrix is determined by its energies; junctions of one part leave the pairs on the other alone; the levels of a sum of operators on different factors are found from the product of the two eigenbases |
| C94 | Model/Quantum.lean: the operator symbols and the four terms, as elements of the free algebra over the symbols | a substitution of operators for symbols is a homomorphism out of the free algebra and commutes with the sums and products of the code; the factors 2 pi of reduced and plain biases cancel |
| C95 | Model/Quantum.lean (symbols as name and commutativity), Model/Construct.lean (parameters) | a prefix without underscore and the index can be read off a name; decimal representation is injective |
| C96 | Model/Loops.lean: loops_map and loop_adjacency_map computed from the edges of the multigraph; the cycle basis of networkx is a parameter that satisfies its specification (Spec/Loops.lean CycleBasis) | C96_basis: a closed choice is projected to the simple graph, represented there by the cycles, and the rest is a unique combination of the loops of parallel branches (induction over each group of parallel branches); the keys that the code invents for parallel branches exist because keys are contiguous. C96_cycles, C96_branches, C96_shared, C96_shared_partial (ascending nodes), C96_false_shared. |
| C97 | Model/Circuit, Model/Symbolic, Model/Assembly and Model/Hamiltonian composed; the specification is Spec/NetlistOp.lean | the entries of the inverse inductance matrix by polarisation of C30_uncoupled; sums over the oriented circuit carried to the calls (sum_netlist); products of displacements by commutation of the operators of different nodes (C39_commute) |
| C98 | Model/Assembly and Model/Hamiltonian; the specification is Spec/CircuitResponse.lean with Spec/Levels.lean | the inverse is antitone in the order of forms, a quadratic form of Hermitian operators is a sum of forms of vectors, contractions bound the cosines, and Weyl's inequality |
| C99 | Model/Assembly and Model/Hamiltonian; the specification is Spec/Currents.lean with Spec/NetlistOp.lean | the rows of the branch terms are read off the description, the pseudo-inverse of a diagonal matrix is diagonal; the derivative is taken entry by entry |
| C100 | Model/Util createSubspaceOperators, opFunc, pauliCoefficients; Spec/Pauli.lean says what an eigensolver of 2 × 2 operators returns | both forms are the same list of 2 × 2 operators; the eigenvectors of a coupled operator are unique up to phases, which the gauge transformation removes |
| C101 | Model/Machine.lean puts the Hamiltonian of Model/Hamiltonian.lean into the state machine of Model/Numerical.lean: the matrices are read from the stored numeric attributes, the operators from circ_operators and the vectors; Spec/Machine.lean says when symbolic attributes are those of a circuit (SymbolicOf: what is asked of sympy) | C78 (the stored attributes are the values of the expressions), C06 (derived parameters are up to date) and C97 (the operator of the matrices is that of the netlist) for the Hamiltonian; C88 (the array of a sweep) on top of it for the levels |
| C102 | Model/Expressions.lean: getSymbolicExpressions on expressions, over any symbolic arithmetic (Arith); Spec/Expressions.lean: what is asked of sympy (ArithLaws) and the histories of use (Used); Lemmas/AstArith.lean shows that syntax trees with determinants and cofactors meet ArithLaws | parametricity of the matrix functions in the type of the entries (Lemmas/Expressions.lean), the collection left behind by the loops that name matrix entries (Lemmas/ExpressionFlow.lean), an invariant kept by every call (Prepared), then C101 for the Hamiltonian; for the levels of a sweep, every parametric parameter stands for a matrix entry or an oscillator (StandsIn), so that the hypotheses of C88 hold (Lemmas/SweepUse.lean) |
| C103 | Model/Circuit.lean (coupleBranches), Model/Symbolic.lean (branchInductance, inverseInductance), Model/Assembly.lean and Model/Hamiltonian.lean; Spec/NetlistMutual.lean gives the inductance matrix of the calls and the operator | induction over the calls after the last branch (couplings_run), the entries of the branch matrix (branch_entry), the pseudo-inverse in quadratic forms of operators (quadOp_pinv), and the loops of C97 (hamiltonian_core); for the use, the flow of the expressions of C102 with the pseudo-inverse of a positive block (pinv_supported, prepared_coupled), Spec/MutualUse.lean |
| C104 | Model/Circuit.lean (coupleResonator, removeAllResonators), Model/Symbolic.lean (capacitance, resonatorCap), Model/Assembly.lean and Model/Hamiltonian.lean; Spec/NetlistLoaded.lean gives the load of the calls and the energy | induction over the calls (resonators_run), the quadratic form of C29 with its loads, definiteness on the connections through capacitances (loaded_det), and the parts of C103 (hamiltonian_core, inductive_form); for the use, the flow of the expressions of C102 with the parameterisations of the resonators (create_resonators, resonator_value, prepared_both), Spec/LoadedUse.lean; for sweeps C88_levels and C88_levels_stored with the values of the resonators at the points (loaded_values), Spec/LoadedSweep.lean |
| C105 | Model/Lookup.lean on top of Model/Circuit.lean and Model/Symbolic.lean; Spec/Lookup.lean gives the capacitance between two nodes and at a node from the calls alone | Nodes and branches: the lists have no repetitions by the invariants of the construction calls, so a position is found exactly for the members. Matrix: the entry of the node given by its number is summed over the branches. Sparsity: counting the non-zero elements; the bound fails in the flux basis, where the operator has more elements than the count used, shown with a witness |
| C106 | Model/Hamiltonian.lean and Model/Assembly.lean (as C98); Spec/Mixture.lean says what values between two sets of values are | The vectors of junctions and phase slips and the inverse inductance matrix are linear in the mixed values, so the Hamiltonian is; the lowest level is the minimum of the energy over the states, by the spectral theorem |
| C107 | Model/Hamiltonian.lean, Model/Assembly.lean and Model/Operators.lean (as C98 and C37, C38); Spec/Reversal.lean says what the two reversals do with the operators of a node | The reversal is an antilinear (or linear) change of states of each node; it extends to the tensor product, maps the Hamiltonian to the one with reversed biases, and keeps the determinant of E - H and therefore the levels. The operators of the oscillator basis are reversed by complex conjugation and parity, those of the charge basis by the transposition of states |
| C108 | Model/Hamiltonian.lean and Model/Assembly.lean (currentOperator, voltageOperator, matrixElement, assemble); Spec/Reversal.lean as C107 | The reversal of C107 keeps the Hamiltonian at these biases and changes the sign of the current (or voltage) operator. The reversed eigenstate has the same energy and is therefore a multiple of the state by a number of modulus one, so the expectation value equals its negative |

## Axioms of each theorem

Checked with `#print axioms` / `collectAxioms` on every theorem named `Cnn_…`; nothing else occurs.

<!-- axioms: begin (generated by tools/design_axioms.py) -->
* no axioms: C47_hdot.
* `propext`: C04_refused_changes_nothing, C39_size_false, C52_false_other_weights.
* `Quot.sound`, `propext`: C01_nan_always_accepted, C01_setValue_stores, C05_parametric_entries_are_skipped, C05_parametric_set_is_noop, C09_refused_set_changes_nothing, C12_other_names, C14_others_readable_partial, C58_false_lamb_shift, C58_shifts, C68_partial, C68_product, C78_current, C78_one_many, C78_path_independent, C79_requests, C80_operators, C88_false_without_vectors, C88_split.
* `propext`, `Classical.choice`, `Quot.sound`: the other 455 property theorems: C01_false_current_bounds, C01_false_initial_value_checked, C01_rejected_call_changes_nothing, C01_setBounds_accepts_iff, C01_setValue_accepts_iff, C01_stored_value_was_inside_bounds, C02_false_infinite_end, C02_linear_sweep, C02_linear_sweep_accepts_iff, C03_false_for_expressions, C03_no_mention_cycle_partial, C03_no_recorded_cycle, C04_cycle_error_iff, C04_false_after_overwrite, C04_value_error_iff, C06_admissible_set_succeeds, C06_dependents_follow_bulk_set_partial, C06_dependents_follow_set_partial, C06_false_after_overwrite, C06_uncomputable_keeps_old_value, C07_expansion_meaning_partial, C07_expansion_terminates_partial, C07_false_symbolic_prefactor, C08_false_when_not_computable, C08_order_independent, C09_set_frame, C100_elements, C100_false, C100_phases, C100_swept_partial, C100_uncoupled, C101_hamiltonian_partial, C101_levels_partial, C101_unset, C102_hamiltonian_partial, C102_levels_partial, C102_levels_stored_partial, C102_sweep_partial, C102_symbolic_partial, C102_unset, C103_currents_partial, C103_directions_false, C103_hamiltonian_partial, C103_levels_partial, C103_levels_stored_partial, C103_operator_partial, C103_symbolic_partial, C104_exists, C104_hamiltonian_partial, C104_levels_partial, C104_levels_stored_partial, C104_load, C104_operator_partial, C104_symbolic_partial, C105_branches_partial, C105_capacitance_partial, C105_nodes, C105_sparsity_false, C105_sparsity_partial, C106_between, C106_concave, C107_charge, C107_charge_basis, C107_discretized, C107_flux_basis, C107_half, C107_oscillator, C107_quanta, C107_time, C108_current, C108_current_neutral, C108_selection, C108_voltage, C10_false, C10_prefix_stored_partial, C10_single_pair, C11_dependency_can_be_reversed_partial, C11_false_after_overwrite, C11_removal_partial, C12_direct_dependents_partial, C12_false_indirect, C13_existing_name_noop, C13_invalid_name, C13_new_name, C14_false, C14_false_every_set_raises, C15_false_after_linearSweep, C15_flat_index_bijection, C16_grid_values, C16_ndSweep_frame, C17_evaluates_each_point_once, C17_false_empty_specification, C17_false_repeated_name, C17_rejected_sweep_calls_nothing, C17_results_of_calls, C18_false_missing_static, C18_false_wrong_variable, C18_keyed_data, C18_multi_slice_partial, C18_one_parameter_partial, C18_single_slice_partial, C18_sweep_then_slice, C18_temporary_files, C19_false_unsettled, C19_partition_partial, C19_two_stage_substitution_partial, C20_duplicate_name_false, C20_internal_error_false, C20_invalid_name_errors, C20_invalid_name_partial, C20_set_order_false, C20_valid_call_succeeds_partial, C21_getComponentEdge, C21_getComponentEdge_total_partial, C21_isolated_loop_false, C21_listings_partial, C21_names, C21_one_kind, C22_closure_count_partial, C22_closures, C22_isolated_loop_false, C22_spanning_forest, C23_loop_members_partial, C23_loops_are_cycles_partial, C23_shared_loops, C23_wrong_loop_false, C24_biased_twice_false, C24_failed_call, C24_history, C24_no_second_bias_partial, C24_successful_call, C25_bias_detached_false, C25_capacitor_partial, C25_entries_kept, C26_capacitance_reused_false, C26_failed_call, C26_history, C26_successful_call, C26_vector, C26_vector_kept, C26_vector_zero, C27_coupled_twice_false, C27_failed_call, C27_history, C27_mutual_reused_false, C27_no_pair_twice_partial, C27_self_coupling_false, C27_successful_call, C28_failed_call, C28_history, C28_name_reused_false, C28_remove, C28_remove_undoes, C28_successful_call, C29_defined, C29_definite_partial, C29_no_ground, C29_quadratic_form, C29_quadratic_form_partial, C29_rows, C29_self_loop_false, C29_semidefinite_partial, C29_symmetric, C30_branch_matrix, C30_defined, C30_defined_false, C30_energy, C30_symmetric, C30_uncoupled, C31_difference, C31_kirchhoff, C31_listed_loops_partial, C31_offset, C31_phase_slip_bias_false, C32_gauge_false, C32_gauge_partial, C32_move_partial, C32_no_loop_check_false, C33_charging, C33_flux, C33_pairing, C33_symmetric, C34_false, C34_labels_partial, C34_total, C34_transformed_partial, C34_uncoupled_partial, C35_branch_phase, C35_cosine, C35_defined, C35_hermitian, C36_entries_partial, C36_false_crash, C36_false_many_nodes, C36_false_user_name, C36_inverse_partial, C36_matrices, C36_partial, C36_reserved, C36_user_partial, C37_any_phases, C37_charge_basis_partial, C37_phase_false, C38_commutator, C38_displacement, C38_getCommutator, C38_hermitian, C39_algebra_partial, C39_commute, C39_expansion_partial, C39_flux_false, C39_size_partial, C40_false_impedance, C40_one_file_per_point, C40_point_partial, C40_points, C40_sweep_partial, C41_false_dict, C41_false_duplicate, C41_multiple_partial, C41_single_partial, C42_elements, C42_missing_vectors, C42_response, C42_response_none, C42_same_point, C42_wrong_order, C43_conserves, C43_first_coupling, C43_hermitian, C43_strip, C43_uncoupled, C43_unphysical, C43_zero_strip, C44_consistent_partial, C44_current_voltage_bare, C44_failed_call_partial, C44_false_bare_unit, C44_false_zero_factor, C44_setCurrentUnit_effect, C44_setEnergyUnit_accepts, C44_setEnergyUnit_bare, C44_setEnergyUnit_effect, C44_setUnitPrefactor_effect, C44_setUnit_effect, C44_setVoltageUnit_effect, C45_energies_agree_partial, C45_false_josephson, C45_physical_partial, C46_instances_independent, C46_load_preset, C46_new_instance, C46_presets_unchanged, C47_false_one_argument, C47_mdot_product_partial, C47_mdot_three, C48_sorted_eigenpairs, C48_sorted_values, C49_coefficients_partial, C49_false_diagonal_operator, C49_matrix_elements_partial, C49_phase_independent, C50_cover, C50_reconstruct, C50_sequences, C50_states, C51_false_always_raises, C51_false_never_negative, C51_one_state_partial, C52_neighbours, C52_orthonormal, C52_states, C53_false_recycled_identity, C53_false_without_session, C53_part_survives, C54_clear_session, C54_remark_write_after_clear, C55_at_most_one_symbol, C55_injective, C55_plain, C55_raises_iff, C55_remark_repeated_symbol, C55_symbol, C56_array_partial, C56_false_mixes_parts, C56_float_real_partial, C57_false_default_sparse, C57_lowest_partial, C59_computed_partial, C59_energy_partial, C59_false, C60_false, C60_partial, C61_false, C61_identity_partial, C61_partial, C62_adjoint, C62_discretized_charge, C62_discretized_false, C62_discretized_grid, C62_false, C62_flux_basis_partial, C63_bias_false, C63_hermitian, C63_inductive_partial, C63_josephson_partial, C63_sign_false, C64_false, C64_uncoupled_partial, C65_diagonal_partial, C65_false, C65_real_partial, C66_bases, C66_circuit, C66_defined, C66_hermitian, C67_coupled_partial, C67_defaults, C67_defined, C67_false_inductor, C67_false_name, C67_false_sign, C67_false_transform, C67_linear_partial, C67_value_partial, C68_false, C69_resonance_false, C69_whole_spectrum_partial, C70_recombine, C71_periodic, C72_false, C72_levels_partial, C73_design, C74_energy, C74_inverse, C75_bounds, C75_inductance, C75_loaded, C76_coupled_energy_partial, C76_current_partial, C76_energy_partial, C76_false_transform, C76_voltage, C77_coefficients, C77_false, C77_report, C77_single_particle, C78_false_after_error, C79_false_pending, C79_false_values, C79_last_point_partial, C79_new_sweep, C79_pending, C79_undo_partial, C80_again, C80_false_reconfigured, C80_oscillator, C80_other_basis, C80_unknown_node, C81_charge_hamiltonian, C81_false_units, C81_no_inductors, C81_units, C82_gate_shift, C82_islands, C82_loop_fluxes, C82_reversal, C83_displacement, C83_false_SI, C83_josephson_partial, C83_phase_slip_partial, C84_add_parameters, C84_all_set, C84_failure, C84_get_symbols, C84_get_symbols_ok, C84_ready, C84_symbols, C84_unknown, C84_values, C85_elements, C85_false_oscillator, C85_hermitian, C85_levels, C86_hamiltonian, C86_quantisable, C87_circuit_partial, C87_false_order, C87_levels_partial, C88_levels, C88_levels_and_vectors, C88_levels_stored, C88_one_variable, C88_ragged, C88_several_variables, C89_again_partial, C89_clean_partial, C89_determined, C89_false_prefix, C89_false_resonator, C89_names, C89_parametric, C89_symbols, C89_unset, C90_circuit, C90_circuit_networks, C90_networks, C90_parallel, C90_squid, C91_capacitance, C91_charging, C91_junctions, C92_moved, C93_circuit, C93_parts, C94_classical, C94_defined, C94_false_energy, C94_printed, C94_terms, C95_biases, C95_branches_partial, C95_false_bias, C95_false_branches, C95_false_current, C95_operators, C95_parameters, C95_reduced_partial, C96_basis, C96_branches, C96_cycles, C96_false_shared, C96_shared, C96_shared_partial, C97_operator_partial, C97_quantisable, C98_bases, C98_drives, C98_floor, C98_values, C99_current, C99_current_coupled, C99_derivative, C99_mutual_false, C99_transform_false, C99_voltage, C99_voltage_loaded, ChargeNodes.basis, ChargeNodes.ops, CleanHistory.append, CleanReachable.good, CosTerm.data.eq_1, CosTerm.mk.inj, CosTerm.mk.injEq, CosTerm.mk.sizeOf_spec.
<!-- axioms: end -->

## Library assumptions

Facts about Python and the pinned libraries that the model builds in. They were not checked by running anything.

* **Floats** are rationals with nan and ±inf in the parameter code (`PF`), elements of a field in the matrix code, real or complex numbers in the
  operator code. Rounding, overflow and `tidyup` (dropping operator elements below 1e-12) are not modelled.
* **dict** keeps insertion order. Sets of strings are iterated in an arbitrary order (`HashOrder`), and so are the node and edge sets of
  circuit_graph.py (`Orc`).
* **sympy** in the parameter code is any `Engine`; what the proofs need is `Engine.Lawful`. `AstEngine` is an instance, so the laws are
  consistent. `pinv` is any matrix satisfying the Moore–Penrose conditions. The inverse capacitance matrix is undefined exactly when the
  determinant is 0. `Linv[i, j] == 0` is decided exactly. Float coefficients are kept, 1.0 included.
* **networkx**: `minimum_spanning_tree` is Kruskal's algorithm; components are listed by their first node; `subgraph(c).copy()` keeps the order
  of the graph unless `c` has fewer than half of the nodes; `all_simple_edge_paths` is a depth-first search; `is_directed_acyclic_graph` removes
  generations of nodes; `descendants` is reachability.
* **numpy**: `linspace`, `meshgrid(indexing="ij")`, `reshape` and `argmin` are as defined in `Model/Param` and `Model/Sweep`; `eigh` returns any
  unitary diagonalisation (`IsEigh`); `eigvalsh` the sorted roots of the characteristic polynomial (`IsEigvals`).
* **qutip**: `num`, `destroy` and `tensor` are the matrices defined in `Model/Operators`; `eigenstates` returns ascending eigenvalues and
  orthonormal vectors with arbitrary phases (`IsEigenstates`).
* **scipy** `eigsh`: `SA` selects the smallest eigenvalues and an absent option the largest in magnitude. Other options are not modelled
  (`select` treats them as absent; no theorem is about them).
* **files**: a map from paths to stored objects and a list of directories; pickling is the identity; the only I/O errors are a missing
  directory or file.

## What is modelled, file by file

| file | modelled in | not modelled, beyond the uncited functions below |
|------|-------------|--------------------------------------------------|
| parameters.py | `Model/Param`, `Collection`, `CollectionBulk`, `DiGraph`, `Sweep`, over `Engine` and `AstEngine` | printed messages |
| circuit_graph.py | `Model/MultiGraph`, `Circuit`, `Loops` | drawing; the listing order of the directed graphs is simplified; the cycle basis of networkx is a parameter with a specification |
| symbolic_system.py | `Model/Symbolic`, `Derived`, `Loaded`, `Potential`, `Energies`, `Construct`, `Classical`, `Quantum` | printing; matrices and energies are modelled by values, not as expressions; the quantum Hamiltonian is an expression in the operators only |
| numerical_system.py | `Model/Operators`, `Hamiltonian`, `Assembly`, `Resonator`, `Numerical`, `NumericalSet`, `SweepArray`, `ResUnits`, `Potential`, `Lookup` | CSR conversion, `tidyup`, progress bars, timings |
| units.py | `Model/Units` | `system`, the LaTeX tables, the `convert*` methods (they do nothing), negative factors and zero factors other than those of `F` and `H` |
| physical_constants.py | `Model/Units`, with decimal values; variables in `Model/Operators` | constants not used by units.py |
| util.py | `Model/Util`, `TempData` | broadcasting in `hdot`, rounding to complex64 |
| dataspec.py | `Model/TempData` | threads, messages, other I/O errors, `newPrefix` (empty) |
| text2latex.py | `Model/Latex` | |

The simplifications of a definition are stated in its comment. Functions of which no line is cited by a comment in `Model/` (a cited function need
not be modelled in full):

<!-- uncited: begin (generated by tools/design_sections.py) -->
* circuit_graph.py: `coupleResonatorInductively` 167-170, `drawGraphViz` 359-382.
* numerical_system.py: `getCircuitGraph` 76-77, `getSymbolicSystem` 79-80, `getParameterValues` 840-841, `getParameterValuesDict` 844-845, `getParameterSweep` 847-848, `getParameterNames` 850-851, `getPrefactor` 853-854, `_init_qobj_vector` 1057-1061, `_get_critical_currents` 1307-1311, `_get_symbolic_inductive_energy` 1313-1317.
* symbolic_system.py: `getPhaseSlipEnergies` 476-477, `_add_loop_dofs` 633-634, `_create_resonator_terms` 679-688.
* text2latex.py: `latexify_param_name` 53-70.
* util.py: `getExpectationValues` 404-407, `_get_basis_states` 514-516.
<!-- uncited: end -->

`latexify_param_name` is modelled in `Model/Latex` although it is listed: that comment is not parsed by the tool.

## Findings

Properties for which a theorem exhibits a concrete counterexample. For those marked proved, the counterexample concerns a stronger reading
or shows that a proviso is needed.

<!-- findings: begin (generated by tools/design_sections.py) -->
* **C01** (proved) A successful setValue leaves the value strictly inside the bounds. Proved over all call histories. The _false_ theorems are remarks on stronger readings (bounds changed later, initial value unchecked). Counterexamples: `C01_false_current_bounds`, `C01_false_initial_value_checked`.
* **C02** (proved) linearSweep produces the requested grid inside the bounds. Exact rational arithmetic; C02_false_infinite_end shows that with an infinite end point the sweep is NaN. Counterexamples: `C02_false_infinite_end`.
* **C03** (proved) The parameterisation dependency graph never becomes cyclic. The property (recorded dependencies) is proved for every history. C03_false_for_expressions: the expressions themselves can become cyclic through a symbolic prefactor. Counterexamples: `C03_false_for_expressions`.
* **C04** (proved) A refused parameterisation leaves the collection untouched. Atomicity for every state; the cycle error is characterised against the recorded dependencies on clean histories; C04_false_after_overwrite shows the characterisation fails after a parameterisation was overwritten (stale edges). Counterexamples: `C04_false_after_overwrite`.
* **C06** (partial) Dependents follow their sources after a successful set. Proved on all clean histories (no rmParameter, no overwritten parameterisation, distinct symbols, numeric prefactors) for every set-iteration order and every lawful engine; C06_false_after_overwrite is a counterexample outside. Counterexamples: `C06_false_after_overwrite`.
* **C07** (partial) Expanding a parametric expression terminates in independent parameters. Termination and meaning proved on clean histories; C07_false_symbolic_prefactor: divergence with a symbolic prefactor. Counterexamples: `C07_false_symbolic_prefactor`.
* **C08** (proved) Setting independent parameters is order independent. Under the stated provisos; C08_false_when_not_computable shows the proviso is needed. Counterexamples: `C08_false_when_not_computable`.
* **C10** (partial) setParameterValues is all-or-nothing. False of the code (C10_false); proved: exactly the pairs before the failing one are stored. Counterexamples: `C10_false`.
* **C11** (partial) Removing a parameterisation frees the parameter and its dependencies. False after an overwrite (C11_false_after_overwrite); proved on clean histories. Counterexamples: `C11_false_after_overwrite`.
* **C12** (partial) getParameterisationsInvolving returns exactly the dependents. Direct dependents proved; the transitive reading is false (C12_false_indirect). Counterexamples: `C12_false_indirect`.
* **C14** (partial) Removing a parameter leaves a usable collection. False of the code (C14_false): after removing a parameter every later set raises; proved: the remaining parameters stay readable. Counterexamples: `C14_false_every_set_raises`, `C14_false`.
* **C15** (proved) Flat sweep index is a bijection. Exact integer arithmetic. C15_false_after_linearSweep is a remark: a later linearSweep on a swept parameter changes the sizes used. Counterexamples: `C15_false_after_linearSweep`.
* **C17** (proved) A sweep evaluates the function once per point with the right values. For specifications that are not empty and have distinct names; the _false_ theorems show both provisos are needed. Counterexamples: `C17_false_empty_specification`, `C17_false_repeated_name`.
* **C18** (partial) getSweepResult returns the requested slice. Proved for every complete choice of independent and static variables, RAM and temporary files; false when a static variable is missing, and for one swept parameter the variable name is ignored. Counterexamples: `C18_false_missing_static`, `C18_false_wrong_variable`.
* **C19** (partial) Swept and unswept parameters partition the substitution. Partition proved on clean histories for independent swept names; two-stage substitution proved for settled states; C19_false_unsettled: a parameterisation added since the last set is substituted with its stale value. Counterexamples: `C19_false_unsettled`.
* **C20** (partial) A rejected addBranch leaves the circuit unchanged. Invalid names are rejected without effect, and valid calls on grown circuits succeed; false for duplicate names (permanently corrupts the circuit) and for two internal failures (NameError, KeyError). Counterexamples: `C20_duplicate_name_false`, `C20_internal_error_false`, `C20_set_order_false`.
* **C21** (partial) Component names identify branches. Names, kinds and lookups proved; listings and total lookup need that no conductive self-loop sits on an otherwise isolated node (false there). Counterexamples: `C21_isolated_loop_false`.
* **C22** (partial) Closure branches are the independent loops of the conductive circuit. Spanning forest and closures proved for every history; the closure count needs that no conductive self-loop sits on an otherwise isolated node (false there). Counterexamples: `C22_isolated_loop_false`.
* **C23** (partial) Every superconducting loop is a genuine cycle. Membership proved for every circuit; genuine cycles proved for circuits grown along conductive branches; false otherwise, with a witness. Counterexamples: `C23_wrong_loop_false`.
* **C24** (partial) Flux biases obey the loop rules. Rules proved for every history, except that a branch can be biased twice after a later branch reverses its edge (false, witness); proved when the branches come before the biases. Counterexamples: `C24_biased_twice_false`.
* **C25** (partial) Flux biases remain attached to the branch they were added to. False: a later branch can reverse the edge. Proved for capacitors, and the stored entries always keep naming the same component. Counterexamples: `C25_bias_detached_false`.
* **C26** (partial) Charge biases obey the node rules. Proved for every history except that the name of a coupling capacitance can be reused (false, witness). Counterexamples: `C26_capacitance_reused_false`.
* **C27** (partial) Inductive couplings join two distinct inductors. Inductors, unique mutual inductances and atomicity proved for every history; self-coupling, repeated coupling after a reversal and reuse of the name by a flux bias are witnesses of falsity; no pair twice proved when the branches come first. Counterexamples: `C27_self_coupling_false`, `C27_coupled_twice_false`, `C27_mutual_reused_false`.
* **C28** (partial) Resonator couplings obey the node rules and can be removed. Proved for every history except that the coupling capacitance can be reused (false, witness). Counterexamples: `C28_name_reused_false`.
* **C29** (partial) Capacitance matrix is the circuit's charging energy form. Symmetry, the quadratic form and (semi)definiteness proved for every history of builder calls without capacitive self-loops; a capacitor joining a node to itself is counted, so the form is wrong there (C29_self_loop_false). Counterexamples: `C29_self_loop_false`.
* **C30** (partial) Inverse inductance matrix is the circuit's inductive energy form. Proved for every history; the matrix is undefined (TypeError / ValueError) or wrong in the cases of C30_defined_false. sympy's pinv is assumed to be a Moore-Penrose inverse (IsPinv). Counterexamples: `C30_defined_false`.
* **C31** (partial) Branch phases satisfy the flux quantisation around each loop. Kirchhoff's law proved for every closed walk; for the listed loops under the hypotheses of C23. A bias on a phase-slip wire enters no equation (C31_phase_slip_bias_false). Counterexamples: `C31_phase_slip_bias_false`.
* **C32** (partial) Moving a flux bias between edges of a loop is a gauge choice. A move keeps the flux through every closed walk that crosses both branches in the same direction (C32_gauge_partial); no common-loop check exists (C32_no_loop_check_false) and orientation is ignored (C32_gauge_false). Counterexamples: `C32_no_loop_check_false`, `C32_gauge_false`.
* **C34** (partial) Modes coupled through inductors are never given a charge basis, uncoupled ones always are. The classification terminates and is characterised for every matrix; labels can be overwritten (C34_false: a coupled mode is labelled as island). Counterexamples: `C34_false`.
* **C36** (partial) User component names never collide with the system's derived parameters. C36_user_partial (components whose names are not of the form C/L + digits (+ i) keep symbol, value, bounds and parameterisation through any history of calls, successful or raising), C36_partial (entries of the returned matrix, up to 111 nodes, after any history), C36_inverse_partial (both matrices of getInverseCapacitanceMatrix), C36_matrices, C36_entries_partial, C36_reserved. C36_false_user_name: a user's C11 is overwritten; C36_false_crash: AssertionError; C36_false_many_nodes: entries (1,111) and (11,11) share a name. Counterexamples: `C36_false_user_name`, `C36_false_crash`, `C36_false_many_nodes`.
* **C37** (partial) Charge basis displacement operators are exact. Exact operators for every truncation when the number-operator eigenvectors come with equal phases (C37_charge_basis_partial); for arbitrary phases characterised in C37_any_phases; with unequal signs the edge states are coupled (C37_phase_false). Counterexamples: `C37_phase_false`.
* **C39** (partial) Hilbert space size and operator expansion agree. Charge and oscillator bases of any number and size of nodes; flux bases have no identity in the expansion and no factor in the reported size (C39_flux_false, C39_size_false). Counterexamples: `C39_size_false`, `C39_flux_false`.
* **C40** (partial) The swept Hamiltonian is the Hamiltonian at that point. C40_point_partial (state at any visited point) and C40_sweep_partial (files of a sweep): everything a Hamiltonian, current or voltage operator is made of equals that of a fresh system at that point; the operator vectors only if no affected parameter occurs in the impedance of an oscillator. C40_false_impedance: sweeping the inductance of an LC circuit uses the charge and flux operators of the old impedance; the matrices differ. Also assumed: parametric parameters up to date before the sweep, expressions defined. Counterexamples: `C40_false_impedance`.
* **C41** (partial) Sweep results are returned under the requested evaluation. C41_multiple_partial (two or more different evaluations), C41_single_partial (one, not an energy of all nodes). C41_false_duplicate: of two requests of the same kind the first is lost; C41_false_dict: an energy of all nodes alone cannot be read back (KeyError). Counterexamples: `C41_false_duplicate`, `C41_false_dict`.
* **C44** (partial) Unit prefactors are always consistent with the chosen units. Proved for all histories without setUnit on a bare unit and with positive factors, with the exact effect of every setter; C44_false_bare_unit and C44_false_zero_factor are the counterexamples outside. Counterexamples: `C44_false_bare_unit`, `C44_false_zero_factor`.
* **C45** (partial) Physical predictions do not depend on the unit system. Physical meaning of each prefactor proved for every reachable unit system; false for Josephson (and phase-slip) energies unless Wb is the flux quantum (C is 2e): C45_false_josephson. Counterexamples: `C45_false_josephson`.
* **C47** (partial) mdot is the matrix product of its arguments. For two or more matrices over any semiring mdot is the left-to-right product including shape errors; false for one argument (returns 0.0). Counterexamples: `C47_false_one_argument`.
* **C49** (partial) Pauli coefficients reproduce the reduced two-level Hamiltonian. Proved when no entry of the first row of the operator's eigenvector matrix is zero; false (NaN) otherwise. Rounding to complex64 is not modelled. Counterexamples: `C49_false_diagonal_operator`.
* **C51** (partial) isStoquastic gives a verdict for every Hermitian matrix. False: IndexError for every Hamiltonian with at least two states at the default orders, and never False. Counterexamples: `C51_false_always_raises`, `C51_false_never_negative`.
* **C52** (partial) Neighbours on the hypercube and bit-string states. Neighbours for weight one and orthonormal states proved; other Hamming weights return the empty list. Counterexamples: `C52_false_other_weights`.
* **C53** (proved) Temporary parts are never overwritten within a session. For every interleaving over distinct identities. The _false_ theorems are remarks on stronger readings (no session opened; identity recycled). Counterexamples: `C53_false_without_session`, `C53_false_recycled_identity`.
* **C56** (partial) sanFloat/sanArray remove numerical noise only. Arrays and real floats proved; sanFloat adds real and imaginary part of a complex number. Counterexamples: `C56_false_mixes_parts`.
* **C57** (partial) Diagonalisers return the lowest eigenvalues. Proved for the option SA (the default of NumericalSystem) and the dense solver; false for the own defaults of diagSparseH (largest magnitude). The selection rule of eigsh is modelled, see DESIGN.md. Counterexamples: `C57_false_default_sparse`.
* **C58** (partial) Dressed-energy shifts are the documented energy differences. AC-Stark and resonator shift proved; getCircuitLambShift returns energies, not gaps. Counterexamples: `C58_false_lamb_shift`.
* **C59** (partial) Each flux bias enters the inductive energy on its own branch. The biased energy computed by the code is characterised exactly; it is the physical one when every biased inductor is grounded (C59_energy_partial) and wrong otherwise (C59_false). Counterexamples: `C59_false`.
* **C60** (partial) Bias vectors transform with the coordinates. Only transforms that fix the bias vectors keep the energy (C60_partial); witness R = (2) in C60_false. Counterexamples: `C60_false`.
* **C61** (partial) Josephson phases in transformed coordinates. Correct when the computed displacement equals the coefficient (C61_partial), in particular without a transform (C61_identity_partial); witness R = (2) in C61_false. Counterexamples: `C61_false`.
* **C62** (partial) Flux-basis operators. The corner element is subtracted from a matrix that does not contain it (C62_false, C62_discretized_false); the rest is as documented (C62_flux_basis_partial). Counterexamples: `C62_false`, `C62_discretized_false`.
* **C69** (partial) The resonator response lists the whole spectrum. Holds when the bare energies are pairwise different (C69_whole_spectrum_partial); at resonance one eigenvalue is listed twice (C69_resonance_false). Counterexamples: `C69_resonance_false`.
* **C63** (partial) Branch current operators. Hermitian for every circuit (C63_hermitian). On states of definite phase the junction current is minus the derivative of its energy (C63_josephson_partial, C63_sign_false), the inductor current plus the derivative (C63_inductive_partial) without the bias (C63_bias_false). Counterexamples: `C63_sign_false`, `C63_bias_false`.
* **C64** (partial) Node voltage operators. Holds for nodes without capacitive coupling (C64_uncoupled_partial); the off-diagonal elements of the inverse capacitance matrix are ignored (C64_false). Counterexamples: `C64_false`.
* **C65** (partial) Matrix elements of currents and voltages. Exact for expectation values and for real matrices and vectors; the imaginary part is dropped, so charge matrix elements between oscillator levels are reported as 0 (C65_false). Counterexamples: `C65_false`.
* **C72** (partial) Levels of an LC oscillator. All levels but the last are exact in every reachable unit system (C72_levels_partial); the last state kept has the energy (n-1)/2 quanta, a spurious level inside the spectrum (C72_false). Counterexamples: `C72_false`.
* **C68** (partial) Building another numerical system does not change the symbolic system it is built on. C68_product gives the exact effect of any sequence of constructions: every derived parameter of a resonator is multiplied by the factors of all units so far; everything else is kept. C68_partial: nothing changes if the factors are one (in particular without resonators). C68_false: two constructions with a factor 1000 give a capacitance 1000 times that of one. Counterexamples: `C68_false`.
* **C67** (partial) The classical potential function is the potential energy. False of the code: the junction energies enter with the wrong sign (C67_false_sign), transforms are ignored in the junction fluxes (C67_false_transform), a bias on an inductor (C67_false_inductor) and a bias suffix equal to a node number (C67_false_name) make the construction fail. Proved: exactly when the function can be built (C67_defined), its inputs and its exact value (C67_value_partial), correctness for circuits without junctions (C67_linear_partial), the default inputs are accepted and give minus the junction energy at zero flux (C67_defaults). C67_coupled_partial is the value with mutual inductances and resonators; the others are for uncoupled inductors. Counterexamples: `C67_false_sign`, `C67_false_transform`, `C67_false_inductor`, `C67_false_name`.
* **C76** (partial) The classical Hamiltonian is the stored energy and generates the circuit equations. Proved without transform for uncoupled components, and for netlists with mutual inductances and resonators whose inductance matrix is invertible (C76_coupled_energy_partial, energy and node currents); capacitors join different nodes and biased inductors are as in C59. False with a transform: the junction terms ignore it (C76_false_transform). The expression has separate symbols for a flux and its reduced flux; the theorems set the second to 2π/Φ0 times the first, which the user has to do. Counterexamples: `C76_false_transform`.
* **C77** (partial) Reported energies are the coefficients of the Hamiltonian. Proved for the numerical system in every basis and for the symbolic single-particle charging energies. False for the symbolic getJosephsonEnergies: it multiplies by Φ0/2π although the Hamiltonians use the parameter as an energy (C77_false). Counterexamples: `C77_false`.
* **C78** (partial) Setting parameters keeps a numerical system up to date. proved for every history that ends in a successful call; false after a call that raises (C78_false_after_error: setParameterValue("C", 0) raises TypeError, the parameter is 0 afterwards and the matrices are still those of C = 1) Counterexamples: `C78_false_after_error`.
* **C79** (partial) What a parameter sweep leaves behind. proved: what is pending, the undo (provided the set itself returns and the parametric parameters hold computable values before), the state at the last point. False that the sweep restores the values (C79_false_values: a Hamiltonian taken right after a sweep of an inductance mixes old operator vectors with new matrices) and that a failed sweep does not affect the next one (C79_false_pending) Counterexamples: `C79_false_values`, `C79_false_pending`.
* **C80** (partial) Choosing the basis of a node. The last sentence of the statement is false (C80_false_reconfigured): on a node without inductance the oscillator basis is accepted, its impedance never gets a value, and every later set raises, also after the charge basis has been chosen instead. The other sentences are proved for all states. Counterexamples: `C80_false_reconfigured`.
* **C81** (proved) Charge-basis Hamiltonian of a Josephson circuit. proved with the units condition in the statement; C81_false_units shows that the charge basis ignores any other charge unit Counterexamples: `C81_false_units`.
* **C83** (partial) Junctions and phase slips in physical units. displacements proved in every unit system; the energies are right exactly when the flux unit is the flux quantum (charge unit 2e), false in SI units (C83_false_SI) Counterexamples: `C83_false_SI`.
* **C85** (partial) Larger truncations never raise a level. C85_levels holds for all circuits in the charge basis. In the oscillator basis it is false for every number of states and every LC circuit (C85_false_oscillator). Counterexamples: `C85_false_oscillator`.
* **C87** (partial) The energies do not depend on how the circuit is written down. proved with at most one flux bias different from zero; false with two: the direction in which a bias counts depends on the order of the addBranch calls (C87_false_order); C87_circuit_partial: circuits with inductors and phase slips in any bases, with any number of biases that both graphs list in the same direction Counterexamples: `C87_false_order`.
* **C88** (partial) Row l of a swept array is level l along the sweep. C88_false_without_vectors: when eigenvectors were not kept, getEigenValuesAndVectors does not raise but returns the levels at the first two points of the sweep. Counterexamples: `C88_false_without_vectors`.
* **C89** (partial) A new system has exactly the parameters its circuit names, unset and with distinct symbols. C89_names, C89_unset, C89_parametric, C89_symbols, C89_determined; C89_clean_partial: up to 111 nodes and without the second pass that mode_transform can cause, the collection is cleanly reachable. C89_false_prefix: with dof_prefixes whose charge prefix is C the charge bias 1 and the capacitor C1 are one parameter. C89_false_resonator: a gate capacitor C1r becomes the computed capacitance of a resonator on node 1. Counterexamples: `C89_false_prefix`, `C89_false_resonator`.
* **C94** (partial) The Hamiltonian that is printed is the one that is diagonalised. C94_terms, C94_printed, C94_defined, C94_classical. C94_false_energy: the coefficient printed for a junction is its critical current, not the Josephson energy Phi0 I/2pi that getJosephsonEnergies reports. Counterexamples: `C94_false_energy`.
* **C95** (partial) No two quantities share a symbol. C95_operators, C95_parameters, C95_biases; C95_reduced_partial with C95_false_bias: in an rf SQUID with the bias 1 on the junction the classical Josephson energy is -cos(2 phi_1). C95_branches_partial with C95_false_branches: the branches 1-23 and 12-3 share all symbols. C95_false_current: the node currents and voltages of getCurrentVector and getVoltageVector are the symbols of junctions and phase slips numbered like the nodes. Counterexamples: `C95_false_bias`, `C95_false_current`, `C95_false_branches`.
* **C96** (partial) The listed loops are independent, complete and consist of branches. C96_shared_partial needs nodes mentioned in ascending order; C96_false_shared is a circuit with two loops across one branch that are not adjacent in the loop graph, because the loops of two branches keep the order of the graph and the others are sorted. Counterexamples: `C96_false_shared`.
* **C99** (partial) The current and voltage operators of any circuit. C99_transform_false: with a transform the inverse inductance of the branch is transformed as well as the flux, so the current of an inductor is wrong. C99_mutual_false: with a mutual inductance the current of an inductor leaves out what its partner contributes. The inductor current leaves out the flux bias (C99_derivative). With mutual inductances and resonators C99_current_coupled and C99_voltage_loaded state what is computed. Counterexamples: `C99_transform_false`, `C99_mutual_false`.
* **C100** (partial) The two ways of giving the computational operator agree over a sweep. C100_false: if the second state is multiplied by i, the coefficients from the operator do not change, but those from the real parts of the matrix elements become NaN (finding: getVoltageMatrixElement and getCurrentMatrixElement return only real parts, so the workflow of examples/local-basis-example.py depends on the phases of the eigenvectors). Counterexamples: `C100_false`.
* **C103** (partial) From the calls to the operator and its use, with mutual inductances. C103_directions_false: a mutual inductance counts in the directions in which the oriented graph lists the two inductors, not in those in which they were added, so that its sign can be the opposite one; the partial theorems state the directions. C103_symbolic_partial, C103_hamiltonian_partial and C103_levels_partial carry the operator to the symbolic attributes, to getHamiltonian of a used system and to the levels of its sweeps (C103_levels_stored_partial when the impedances change); they assume of the computer algebra that it inverts the block of the inductors when that is positive definite (CoupledLaws, met by Ast.coupled_laws). Missing: biased inductors at a node with another inductor or away from the ground (C59_false), inductors coupled to themselves and branches added after a mutual inductance (C27), transforms; for resonators see C104. Counterexamples: `C103_directions_false`.
* **C105** (partial) Node numbers, branch numbers and the sparsity of operators. Proved for all circuits. Missing because false of the code: isolated conductive self-loops are not in the edge list (C21_isolated_loop_false); sparsity is outside [0,1] in the flux basis (C105_sparsity_false: -8). Capacitors from a node to itself are left out of the matrix entries (C29_self_loop_false). A zero stored explicitly in the CSR data would be counted as non-zero by scipy and is not modelled. Counterexamples: `C105_sparsity_false`.
<!-- findings: end -->

## Testing the theorems

`seeded/LOG.jsonl` records one line per wrong program: the definition edited in a scratch copy, the edit, the claim it breaks, and the theorems and
lemmas whose proofs fail. `tools/mutate.py` applies the edits; `tools/deps.lean.txt` lists which property theorems rest on a failing lemma.

How to read the log: `failed` are property theorems whose own proof broke. `failed_through_lemmas` are those that rest on a lemma whose proof
broke; this is an upper bound, since such a theorem might be provable for the wrong program in another way. Where only lemmas broke, the
log alone therefore does not show that the statement of the claim rejects the edit.
