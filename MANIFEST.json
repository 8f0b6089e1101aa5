{"claims": [
 {"property": "C01", "status": "proved", "theorems": ["Verif.Props.C01_setValue_accepts_iff", "Verif.Props.C01_setValue_stores", "Verif.Props.C01_rejected_call_changes_nothing", "Verif.Props.C01_stored_value_was_inside_bounds", "Verif.Props.C01_false_current_bounds", "Verif.Props.C01_false_initial_value_checked", "Verif.Props.C01_nan_always_accepted", "Verif.Props.C01_setBounds_accepts_iff"], "note": "Proved over all call histories. The _false_ theorems are remarks on stronger readings (bounds changed later, initial value unchecked)."},
 {"property": "C02", "status": "proved", "theorems": ["Verif.Props.C02_linear_sweep", "Verif.Props.C02_linear_sweep_accepts_iff", "Verif.Props.C02_false_infinite_end"], "note": "Exact rational arithmetic; C02_false_infinite_end shows that with an infinite end point the sweep is NaN."},
 {"property": "C03", "status": "proved", "theorems": ["Verif.Props.C03_no_recorded_cycle", "Verif.Props.C03_no_mention_cycle_partial", "Verif.Props.C03_false_for_expressions"], "note": "The property (recorded dependencies) is proved for every history. C03_false_for_expressions: the expressions themselves can become cyclic through a symbolic prefactor."},
 {"property": "C04", "status": "proved", "theorems": ["Verif.Props.C04_refused_changes_nothing", "Verif.Props.C04_value_error_iff", "Verif.Props.C04_cycle_error_iff", "Verif.Props.C04_false_after_overwrite"], "note": "Atomicity for every state; the cycle error is characterised against the recorded dependencies on clean histories; C04_false_after_overwrite shows the characterisation fails after a parameterisation was overwritten (stale edges)."},
 {"property": "C05", "status": "proved", "theorems": ["Verif.Props.C05_parametric_set_is_noop", "Verif.Props.C05_parametric_entries_are_skipped"], "note": ""},
 {"property": "C06", "status": "partial", "theorems": ["Verif.Props.C06_dependents_follow_set_partial", "Verif.Props.C06_dependents_follow_bulk_set_partial", "Verif.Props.C06_admissible_set_succeeds", "Verif.Props.C06_false_after_overwrite", "Verif.Props.C06_uncomputable_keeps_old_value"], "note": "Proved on all clean histories (no rmParameter, no overwritten parameterisation, distinct symbols, numeric prefactors) for every set-iteration order and every lawful engine; C06_false_after_overwrite is a counterexample outside."},
 {"property": "C07", "status": "partial", "theorems": ["Verif.Props.C07_expansion_terminates_partial", "Verif.Props.C07_expansion_meaning_partial", "Verif.Props.C07_false_symbolic_prefactor"], "note": "Termination and meaning proved on clean histories; C07_false_symbolic_prefactor: divergence with a symbolic prefactor."},
 {"property": "C08", "status": "proved", "theorems": ["Verif.Props.C08_order_independent", "Verif.Props.C08_false_when_not_computable"], "note": "Under the stated provisos; C08_false_when_not_computable shows the proviso is needed."},
 {"property": "C09", "status": "proved", "theorems": ["Verif.Props.C09_refused_set_changes_nothing", "Verif.Props.C09_set_frame"], "note": ""},
 {"property": "C10", "status": "partial", "theorems": ["Verif.Props.C10_false", "Verif.Props.C10_prefix_stored_partial", "Verif.Props.C10_single_pair"], "note": "False of the code (C10_false); proved: exactly the pairs before the failing one are stored."},
 {"property": "C11", "status": "partial", "theorems": ["Verif.Props.C11_false_after_overwrite", "Verif.Props.C11_removal_partial", "Verif.Props.C11_dependency_can_be_reversed_partial"], "note": "False after an overwrite (C11_false_after_overwrite); proved on clean histories."},
 {"property": "C12", "status": "partial", "theorems": ["Verif.Props.C12_direct_dependents_partial", "Verif.Props.C12_other_names", "Verif.Props.C12_false_indirect"], "note": "Direct dependents proved; the transitive reading is false (C12_false_indirect)."},
 {"property": "C13", "status": "proved", "theorems": ["Verif.Props.C13_existing_name_noop", "Verif.Props.C13_invalid_name", "Verif.Props.C13_new_name"], "note": ""},
 {"property": "C14", "status": "partial", "theorems": ["Verif.Props.C14_false_every_set_raises", "Verif.Props.C14_false", "Verif.Props.C14_others_readable_partial"], "note": "False of the code (C14_false): after removing a parameter every later set raises; proved: the remaining parameters stay readable."},
 {"property": "C15", "status": "proved", "theorems": ["Verif.Props.C15_flat_index_bijection", "Verif.Props.C15_false_after_linearSweep"], "note": "Exact integer arithmetic. C15_false_after_linearSweep is a remark: a later linearSweep on a swept parameter changes the sizes used."},
 {"property": "C16", "status": "proved", "theorems": ["Verif.Props.C16_grid_values", "Verif.Props.C16_ndSweep_frame"], "note": ""},
 {"property": "C17", "status": "proved", "theorems": ["Verif.Props.C17_evaluates_each_point_once", "Verif.Props.C17_results_of_calls", "Verif.Props.C17_rejected_sweep_calls_nothing", "Verif.Props.C17_false_empty_specification", "Verif.Props.C17_false_repeated_name"], "note": "For specifications that are not empty and have distinct names; the _false_ theorems show both provisos are needed."},
 {"property": "C18", "status": "partial", "theorems": ["Verif.Props.C18_single_slice_partial", "Verif.Props.C18_multi_slice_partial", "Verif.Props.C18_one_parameter_partial", "Verif.Props.C18_sweep_then_slice", "Verif.Props.C18_false_missing_static", "Verif.Props.C18_false_wrong_variable", "Verif.Props.C18_temporary_files", "Verif.Props.C18_keyed_data"], "note": "Proved for every complete choice of independent and static variables, RAM and temporary files; false when a static variable is missing, and for one swept parameter the variable name is ignored."},
 {"property": "C19", "status": "partial", "theorems": ["Verif.Props.C19_partition_partial", "Verif.Props.C19_two_stage_substitution_partial", "Verif.Props.C19_false_unsettled"], "note": "Partition proved on clean histories for independent swept names; two-stage substitution proved for settled states; C19_false_unsettled: a parameterisation added since the last set is substituted with its stale value."},
 {"property": "C20", "status": "partial", "theorems": ["Verif.Props.C20_invalid_name_partial", "Verif.Props.C20_invalid_name_errors", "Verif.Props.C20_duplicate_name_false", "Verif.Props.C20_internal_error_false", "Verif.Props.C20_set_order_false", "Verif.Props.C20_valid_call_succeeds_partial"], "note": "Invalid names are rejected without effect, and valid calls on grown circuits succeed; false for duplicate names (permanently corrupts the circuit) and for two internal failures (NameError, KeyError)."},
 {"property": "C21", "status": "partial", "theorems": ["Verif.Props.C21_names", "Verif.Props.C21_one_kind", "Verif.Props.C21_getComponentEdge", "Verif.Props.C21_getComponentEdge_total_partial", "Verif.Props.C21_listings_partial", "Verif.Props.C21_isolated_loop_false"], "note": "Names, kinds and lookups proved; listings and total lookup need that no conductive self-loop sits on an otherwise isolated node (false there)."},
 {"property": "C22", "status": "partial", "theorems": ["Verif.Props.C22_spanning_forest", "Verif.Props.C22_closures", "Verif.Props.C22_closure_count_partial", "Verif.Props.C22_isolated_loop_false"], "note": "Spanning forest and closures proved for every history; the closure count needs that no conductive self-loop sits on an otherwise isolated node (false there)."},
 {"property": "C23", "status": "partial", "theorems": ["Verif.Props.C23_loop_members_partial", "Verif.Props.C23_loops_are_cycles_partial", "Verif.Props.C23_wrong_loop_false", "Verif.Props.C23_shared_loops"], "note": "Membership proved for every circuit; genuine cycles proved for circuits grown along conductive branches; false otherwise, with a witness."},
 {"property": "C24", "status": "partial", "theorems": ["Verif.Props.C24_failed_call", "Verif.Props.C24_successful_call", "Verif.Props.C24_history", "Verif.Props.C24_biased_twice_false", "Verif.Props.C24_no_second_bias_partial"], "note": "Rules proved for every history, except that a branch can be biased twice after a later branch reverses its edge (false, witness); proved when the branches come before the biases."},
 {"property": "C25", "status": "partial", "theorems": ["Verif.Props.C25_bias_detached_false", "Verif.Props.C25_entries_kept", "Verif.Props.C25_capacitor_partial"], "note": "False: a later branch can reverse the edge. Proved for capacitors, and the stored entries always keep naming the same component."},
 {"property": "C26", "status": "partial", "theorems": ["Verif.Props.C26_vector_zero", "Verif.Props.C26_vector", "Verif.Props.C26_vector_kept", "Verif.Props.C26_failed_call", "Verif.Props.C26_history", "Verif.Props.C26_successful_call", "Verif.Props.C26_capacitance_reused_false"], "note": "Proved for every history except that the name of a coupling capacitance can be reused (false, witness)."},
 {"property": "C27", "status": "partial", "theorems": ["Verif.Props.C27_failed_call", "Verif.Props.C27_successful_call", "Verif.Props.C27_history", "Verif.Props.C27_self_coupling_false", "Verif.Props.C27_coupled_twice_false", "Verif.Props.C27_mutual_reused_false", "Verif.Props.C27_no_pair_twice_partial"], "note": "Inductors, unique mutual inductances and atomicity proved for every history; self-coupling, repeated coupling after a reversal and reuse of the name by a flux bias are witnesses of falsity; no pair twice proved when the branches come first."},
 {"property": "C28", "status": "partial", "theorems": ["Verif.Props.C28_failed_call", "Verif.Props.C28_history", "Verif.Props.C28_successful_call", "Verif.Props.C28_remove", "Verif.Props.C28_remove_undoes", "Verif.Props.C28_name_reused_false"], "note": "Proved for every history except that the coupling capacitance can be reused (false, witness)."},
 {"property": "C29", "status": "partial", "theorems": ["Verif.Props.C29_symmetric", "Verif.Props.C29_rows", "Verif.Props.C29_quadratic_form", "Verif.Props.C29_quadratic_form_partial", "Verif.Props.C29_semidefinite_partial", "Verif.Props.C29_definite_partial", "Verif.Props.C29_defined", "Verif.Props.C29_no_ground", "Verif.Props.C29_self_loop_false"], "note": "Symmetry, the quadratic form and (semi)definiteness proved for every history of builder calls without capacitive self-loops; a capacitor joining a node to itself is counted, so the form is wrong there (C29_self_loop_false)."},
 {"property": "C30", "status": "partial", "theorems": ["Verif.Props.C30_branch_matrix", "Verif.Props.C30_symmetric", "Verif.Props.C30_energy", "Verif.Props.C30_uncoupled", "Verif.Props.C30_defined", "Verif.Props.C30_defined_false"], "note": "Proved for every history; the matrix is undefined (TypeError / ValueError) or wrong in the cases of C30_defined_false. sympy's pinv is assumed to be a Moore-Penrose inverse (IsPinv)."},
 {"property": "C31", "status": "partial", "theorems": ["Verif.Props.C31_difference", "Verif.Props.C31_kirchhoff", "Verif.Props.C31_offset", "Verif.Props.C31_listed_loops_partial", "Verif.Props.C31_phase_slip_bias_false"], "note": "Kirchhoff's law proved for every closed walk; for the listed loops under the hypotheses of C23. A bias on a phase-slip wire enters no equation (C31_phase_slip_bias_false)."},
 {"property": "C32", "status": "partial", "theorems": ["Verif.Props.C32_move_partial", "Verif.Props.C32_gauge_partial", "Verif.Props.C32_no_loop_check_false", "Verif.Props.C32_gauge_false"], "note": "A move keeps the flux through every closed walk that crosses both branches in the same direction (C32_gauge_partial); no common-loop check exists (C32_no_loop_check_false) and orientation is ignored (C32_gauge_false)."},
 {"property": "C33", "status": "proved", "theorems": ["Verif.Props.C33_charging", "Verif.Props.C33_flux", "Verif.Props.C33_pairing", "Verif.Props.C33_symmetric"], "note": "Charging energy, flux energy, pairing and symmetry proved for every invertible transform of any size."},
 {"property": "C34", "status": "partial", "theorems": ["Verif.Props.C34_total", "Verif.Props.C34_labels_partial", "Verif.Props.C34_uncoupled_partial", "Verif.Props.C34_transformed_partial", "Verif.Props.C34_false"], "note": "The classification terminates and is characterised for every matrix; labels can be overwritten (C34_false: a coupled mode is labelled as island)."},
 {"property": "C35", "status": "proved", "theorems": ["Verif.Props.C35_defined", "Verif.Props.C35_hermitian", "Verif.Props.C35_cosine", "Verif.Props.C35_branch_phase"], "note": "Proved in an arbitrary complex star algebra with the displacement operators of different nodes commuting; unitarity is not needed for Hermiticity. The loop of the code is defined exactly when no branch joins a node to itself (C35_defined)."},
 {"property": "C36", "status": "partial", "theorems": ["Verif.Props.C36_entries_partial", "Verif.Props.C36_matrices", "Verif.Props.C36_reserved", "Verif.Props.C36_user_partial", "Verif.Props.C36_partial", "Verif.Props.C36_inverse_partial", "Verif.Props.C36_false_user_name", "Verif.Props.C36_false_crash", "Verif.Props.C36_false_many_nodes"], "note": "C36_user_partial (components whose names are not of the form C/L + digits (+ i) keep symbol, value, bounds and parameterisation through any history of calls, successful or raising), C36_partial (entries of the returned matrix, up to 111 nodes, after any history), C36_inverse_partial (both matrices of getInverseCapacitanceMatrix), C36_matrices, C36_entries_partial, C36_reserved. C36_false_user_name: a user's C11 is overwritten; C36_false_crash: AssertionError; C36_false_many_nodes: entries (1,111) and (11,11) share a name."},
 {"property": "C37", "status": "partial", "theorems": ["Verif.Props.C37_any_phases", "Verif.Props.C37_charge_basis_partial", "Verif.Props.C37_phase_false"], "note": "Exact operators for every truncation when the number-operator eigenvectors come with equal phases (C37_charge_basis_partial); for arbitrary phases characterised in C37_any_phases; with unequal signs the edge states are coupled (C37_phase_false)."},
 {"property": "C38", "status": "proved", "theorems": ["Verif.Props.C38_hermitian", "Verif.Props.C38_commutator", "Verif.Props.C38_getCommutator", "Verif.Props.C38_displacement"], "note": "Every number of levels, impedance and unit prefactor; displacement operators are the matrix exponentials whatever the diagonaliser returns."},
 {"property": "C39", "status": "partial", "theorems": ["Verif.Props.C39_expansion_partial", "Verif.Props.C39_commute", "Verif.Props.C39_algebra_partial", "Verif.Props.C39_size_partial", "Verif.Props.C39_size_false", "Verif.Props.C39_flux_false"], "note": "Charge and oscillator bases of any number and size of nodes; flux bases have no identity in the expansion and no factor in the reported size (C39_flux_false, C39_size_false)."},
 {"property": "C40", "status": "partial", "theorems": ["Verif.Props.C40_point_partial", "Verif.Props.C40_sweep_partial", "Verif.Props.C40_false_impedance", "Verif.Props.C40_points", "Verif.Props.C40_one_file_per_point"], "note": "C40_point_partial (state at any visited point) and C40_sweep_partial (files of a sweep): everything a Hamiltonian, current or voltage operator is made of equals that of a fresh system at that point; the operator vectors only if no affected parameter occurs in the impedance of an oscillator. C40_false_impedance: sweeping the inductance of an LC circuit uses the charge and flux operators of the old impedance; the matrices differ. Also assumed: parametric parameters up to date before the sweep, expressions defined."},
 {"property": "C41", "status": "partial", "theorems": ["Verif.Props.C41_multiple_partial", "Verif.Props.C41_single_partial", "Verif.Props.C41_false_duplicate", "Verif.Props.C41_false_dict"], "note": "C41_multiple_partial (two or more different evaluations), C41_single_partial (one, not an energy of all nodes). C41_false_duplicate: of two requests of the same kind the first is lost; C41_false_dict: an energy of all nodes alone cannot be read back (KeyError)."},
 {"property": "C42", "status": "proved", "theorems": ["Verif.Props.C42_elements", "Verif.Props.C42_wrong_order", "Verif.Props.C42_missing_vectors", "Verif.Props.C42_same_point", "Verif.Props.C42_response", "Verif.Props.C42_response_none"], "note": "C42_wrong_order, C42_missing_vectors (evaluations that read eigenvectors; an empty list of elements or a missing coupling node reads none), C42_same_point."},
 {"property": "C43", "status": "proved", "theorems": ["Verif.Props.C43_hermitian", "Verif.Props.C43_strip", "Verif.Props.C43_conserves", "Verif.Props.C43_unphysical", "Verif.Props.C43_zero_strip", "Verif.Props.C43_first_coupling", "Verif.Props.C43_uncoupled"], "note": "Hermitian, equal to the rotating-wave Hamiltonian on the existing states, bare energies without coupling; eigvalsh is modelled as the sorted roots of the characteristic polynomial."},
 {"property": "C44", "status": "partial", "theorems": ["Verif.Props.C44_consistent_partial", "Verif.Props.C44_failed_call_partial", "Verif.Props.C44_setUnit_effect", "Verif.Props.C44_setUnitPrefactor_effect", "Verif.Props.C44_setEnergyUnit_effect", "Verif.Props.C44_setCurrentUnit_effect", "Verif.Props.C44_setVoltageUnit_effect", "Verif.Props.C44_false_bare_unit", "Verif.Props.C44_false_zero_factor", "Verif.Props.C44_setEnergyUnit_bare", "Verif.Props.C44_current_voltage_bare", "Verif.Props.C44_setEnergyUnit_accepts"], "note": "Proved for all histories without setUnit on a bare unit and with positive factors, with the exact effect of every setter; C44_false_bare_unit and C44_false_zero_factor are the counterexamples outside."},
 {"property": "C45", "status": "partial", "theorems": ["Verif.Props.C45_physical_partial", "Verif.Props.C45_energies_agree_partial", "Verif.Props.C45_false_josephson"], "note": "Physical meaning of each prefactor proved for every reachable unit system; false for Josephson (and phase-slip) energies unless Wb is the flux quantum (C is 2e): C45_false_josephson."},
 {"property": "C46", "status": "proved", "theorems": ["Verif.Props.C46_new_instance", "Verif.Props.C46_load_preset", "Verif.Props.C46_instances_independent", "Verif.Props.C46_presets_unchanged"], "note": "Preset cells are heap cells shared by reference; C46_presets_unchanged has no restriction on the calls."},
 {"property": "C47", "status": "partial", "theorems": ["Verif.Props.C47_mdot_product_partial", "Verif.Props.C47_mdot_three", "Verif.Props.C47_false_one_argument", "Verif.Props.C47_hdot"], "note": "For two or more matrices over any semiring mdot is the left-to-right product including shape errors; false for one argument (returns 0.0)."},
 {"property": "C48", "status": "proved", "theorems": ["Verif.Props.C48_sorted_eigenpairs", "Verif.Props.C48_sorted_values"], "note": "Sorting part of the diagonalisers for every backend result; that the backend returns eigenpairs is the hypothesis on scipy."},
 {"property": "C49", "status": "partial", "theorems": ["Verif.Props.C49_matrix_elements_partial", "Verif.Props.C49_coefficients_partial", "Verif.Props.C49_phase_independent", "Verif.Props.C49_false_diagonal_operator"], "note": "Proved when no entry of the first row of the operator's eigenvector matrix is zero; false (NaN) otherwise. Rounding to complex64 is not modelled."},
 {"property": "C50", "status": "proved", "theorems": ["Verif.Props.C50_cover", "Verif.Props.C50_reconstruct", "Verif.Props.C50_sequences", "Verif.Props.C50_states"], "note": "Every size and every sequence length."},
 {"property": "C51", "status": "partial", "theorems": ["Verif.Props.C51_false_always_raises", "Verif.Props.C51_false_never_negative", "Verif.Props.C51_one_state_partial"], "note": "False: IndexError for every Hamiltonian with at least two states at the default orders, and never False."},
 {"property": "C52", "status": "partial", "theorems": ["Verif.Props.C52_neighbours", "Verif.Props.C52_false_other_weights", "Verif.Props.C52_states", "Verif.Props.C52_orthonormal"], "note": "Neighbours for weight one and orthonormal states proved; other Hamming weights return the empty list."},
 {"property": "C53", "status": "proved", "theorems": ["Verif.Props.C53_part_survives", "Verif.Props.C53_false_without_session", "Verif.Props.C53_false_recycled_identity"], "note": "For every interleaving over distinct identities. The _false_ theorems are remarks on stronger readings (no session opened; identity recycled)."},
 {"property": "C54", "status": "proved", "theorems": ["Verif.Props.C54_clear_session", "Verif.Props.C54_remark_write_after_clear"], "note": "C54_remark_write_after_clear: writing again without a new session goes to the current directory."},
 {"property": "C55", "status": "proved", "theorems": ["Verif.Props.C55_at_most_one_symbol", "Verif.Props.C55_symbol", "Verif.Props.C55_plain", "Verif.Props.C55_raises_iff", "Verif.Props.C55_injective", "Verif.Props.C55_remark_repeated_symbol"], "note": "C55_remark_repeated_symbol documents where the result repeats the symbol."},
 {"property": "C56", "status": "partial", "theorems": ["Verif.Props.C56_array_partial", "Verif.Props.C56_float_real_partial", "Verif.Props.C56_false_mixes_parts"], "note": "Arrays and real floats proved; sanFloat adds real and imaginary part of a complex number."},
 {"property": "C57", "status": "partial", "theorems": ["Verif.Props.C57_lowest_partial", "Verif.Props.C57_false_default_sparse"], "note": "Proved for the option SA (the default of NumericalSystem) and the dense solver; false for the own defaults of diagSparseH (largest magnitude). The selection rule of eigsh is modelled, see DESIGN.md."},
 {"property": "C58", "status": "partial", "theorems": ["Verif.Props.C58_shifts", "Verif.Props.C58_false_lamb_shift"], "note": "AC-Stark and resonator shift proved; getCircuitLambShift returns energies, not gaps."},
 {"property": "C59", "status": "partial", "theorems": ["Verif.Props.C59_computed_partial", "Verif.Props.C59_energy_partial", "Verif.Props.C59_false"], "note": "The biased energy computed by the code is characterised exactly; it is the physical one when every biased inductor is grounded (C59_energy_partial) and wrong otherwise (C59_false)."},
 {"property": "C60", "status": "partial", "theorems": ["Verif.Props.C60_partial", "Verif.Props.C60_false"], "note": "Only transforms that fix the bias vectors keep the energy (C60_partial); witness R = (2) in C60_false."},
 {"property": "C61", "status": "partial", "theorems": ["Verif.Props.C61_partial", "Verif.Props.C61_identity_partial", "Verif.Props.C61_false"], "note": "Correct when the computed displacement equals the coefficient (C61_partial), in particular without a transform (C61_identity_partial); witness R = (2) in C61_false."},
 {"property": "C62", "status": "partial", "theorems": ["Verif.Props.C62_flux_basis_partial", "Verif.Props.C62_false", "Verif.Props.C62_discretized_false", "Verif.Props.C62_discretized_grid", "Verif.Props.C62_adjoint", "Verif.Props.C62_discretized_charge"], "note": "The corner element is subtracted from a matrix that does not contain it (C62_false, C62_discretized_false); the rest is as documented (C62_flux_basis_partial)."},
 {"property": "C69", "status": "partial", "theorems": ["Verif.Props.C69_whole_spectrum_partial", "Verif.Props.C69_resonance_false"], "note": "Holds when the bare energies are pairwise different (C69_whole_spectrum_partial); at resonance one eigenvalue is listed twice (C69_resonance_false)."},
 {"property": "C63", "status": "partial", "theorems": ["Verif.Props.C63_hermitian", "Verif.Props.C63_josephson_partial", "Verif.Props.C63_inductive_partial", "Verif.Props.C63_sign_false", "Verif.Props.C63_bias_false"], "note": "Hermitian for every circuit (C63_hermitian). On states of definite phase the junction current is minus the derivative of its energy (C63_josephson_partial, C63_sign_false), the inductor current plus the derivative (C63_inductive_partial) without the bias (C63_bias_false)."},
 {"property": "C64", "status": "partial", "theorems": ["Verif.Props.C64_uncoupled_partial", "Verif.Props.C64_false"], "note": "Holds for nodes without capacitive coupling (C64_uncoupled_partial); the off-diagonal elements of the inverse capacitance matrix are ignored (C64_false)."},
 {"property": "C65", "status": "partial", "theorems": ["Verif.Props.C65_diagonal_partial", "Verif.Props.C65_real_partial", "Verif.Props.C65_false"], "note": "Exact for expectation values and for real matrices and vectors; the imaginary part is dropped, so charge matrix elements between oscillator levels are reported as 0 (C65_false)."},
 {"property": "C66", "status": "proved", "theorems": ["Verif.Props.C66_hermitian", "Verif.Props.C66_defined", "Verif.Props.C66_bases", "Verif.Props.C66_circuit"], "note": "C66_hermitian for any operators with adjoints; C66_bases and C66_circuit for the charge and oscillator bases of a circuit without coordinate transform; C66_defined for the only failure. The symmetry of the inverse matrices is a hypothesis (C29, C30)."},
 {"property": "C70", "status": "proved", "theorems": ["Verif.Props.C70_recombine"], "note": "Every circuit without phase-slip energies (C70_recombine)."},
 {"property": "C71", "status": "proved", "theorems": ["Verif.Props.C71_periodic"], "note": "C71_periodic, for biases in the units of the exponentials (flux quanta and Cooper pairs)."},
 {"property": "C72", "status": "partial", "theorems": ["Verif.Props.C72_levels_partial", "Verif.Props.C72_false"], "note": "All levels but the last are exact in every reachable unit system (C72_levels_partial); the last state kept has the energy (n-1)/2 quanta, a spurious level inside the spectrum (C72_false)."},
 {"property": "C68", "status": "partial", "theorems": ["Verif.Props.C68_product", "Verif.Props.C68_partial", "Verif.Props.C68_false"], "note": "C68_product gives the exact effect of any sequence of constructions: every derived parameter of a resonator is multiplied by the factors of all units so far; everything else is kept. C68_partial: nothing changes if the factors are one (in particular without resonators). C68_false: two constructions with a factor 1000 give a capacitance 1000 times that of one."},
 {"property": "C67", "status": "partial", "theorems": ["Verif.Props.C67_coupled_partial", "Verif.Props.C67_value_partial", "Verif.Props.C67_linear_partial", "Verif.Props.C67_defined", "Verif.Props.C67_defaults", "Verif.Props.C67_false_sign", "Verif.Props.C67_false_transform", "Verif.Props.C67_false_inductor", "Verif.Props.C67_false_name"], "note": "False of the code: the junction energies enter with the wrong sign (C67_false_sign), transforms are ignored in the junction fluxes (C67_false_transform), a bias on an inductor (C67_false_inductor) and a bias suffix equal to a node number (C67_false_name) make the construction fail. Proved: exactly when the function can be built (C67_defined), its inputs and its exact value (C67_value_partial), correctness for circuits without junctions (C67_linear_partial), the default inputs are accepted and give minus the junction energy at zero flux (C67_defaults). C67_coupled_partial is the value with mutual inductances and resonators; the others are for uncoupled inductors."},
 {"property": "C73", "status": "proved", "theorems": ["Verif.Props.C73_design"], "note": "C73_design. Real arithmetic; unit prefactors are C68."},
 {"property": "C74", "status": "proved", "theorems": ["Verif.Props.C74_energy", "Verif.Props.C74_inverse"], "note": "C74_energy, C74_inverse. Circuits without capacitors joining a node to itself (where C29 is false of the code)."},
 {"property": "C75", "status": "proved", "theorems": ["Verif.Props.C75_inductance", "Verif.Props.C75_loaded", "Verif.Props.C75_bounds"], "note": "C75_inductance, C75_loaded, C75_bounds. Circuits without mutual inductances; the pseudo-inverse is assumed to satisfy the Moore-Penrose conditions."},
 {"property": "C76", "status": "partial", "theorems": ["Verif.Props.C76_energy_partial", "Verif.Props.C76_voltage", "Verif.Props.C76_current_partial", "Verif.Props.C76_false_transform", "Verif.Props.C76_coupled_energy_partial"], "note": "Proved without transform for uncoupled components, and for netlists with mutual inductances and resonators whose inductance matrix is invertible (C76_coupled_energy_partial, energy and node currents); capacitors join different nodes and biased inductors are as in C59. False with a transform: the junction terms ignore it (C76_false_transform). The expression has separate symbols for a flux and its reduced flux; the theorems set the second to 2\u03c0/\u03a60 times the first, which the user has to do."},
 {"property": "C77", "status": "partial", "theorems": ["Verif.Props.C77_report", "Verif.Props.C77_coefficients", "Verif.Props.C77_single_particle", "Verif.Props.C77_false"], "note": "Proved for the numerical system in every basis and for the symbolic single-particle charging energies. False for the symbolic getJosephsonEnergies: it multiplies by \u03a60/2\u03c0 although the Hamiltonians use the parameter as an energy (C77_false)."},
 {"property": "C78", "status": "partial", "theorems": ["Verif.Props.C78_current", "Verif.Props.C78_path_independent", "Verif.Props.C78_one_many", "Verif.Props.C78_false_after_error"], "note": "proved for every history that ends in a successful call; false after a call that raises (C78_false_after_error: setParameterValue(\"C\", 0) raises TypeError, the parameter is 0 afterwards and the matrices are still those of C = 1)"},
 {"property": "C79", "status": "partial", "theorems": ["Verif.Props.C79_requests", "Verif.Props.C79_new_sweep", "Verif.Props.C79_pending", "Verif.Props.C79_undo_partial", "Verif.Props.C79_last_point_partial", "Verif.Props.C79_false_values", "Verif.Props.C79_false_pending"], "note": "proved: what is pending, the undo (provided the set itself returns and the parametric parameters hold computable values before), the state at the last point. False that the sweep restores the values (C79_false_values: a Hamiltonian taken right after a sweep of an inductance mixes old operator vectors with new matrices) and that a failed sweep does not affect the next one (C79_false_pending)"},
 {"property": "C80", "status": "partial", "theorems": ["Verif.Props.C80_unknown_node", "Verif.Props.C80_other_basis", "Verif.Props.C80_oscillator", "Verif.Props.C80_again", "Verif.Props.C80_operators", "Verif.Props.C80_false_reconfigured"], "note": "The last sentence of the statement is false (C80_false_reconfigured): on a node without inductance the oscillator basis is accepted, its impedance never gets a value, and every later set raises, also after the charge basis has been chosen instead. The other sentences are proved for all states."},
 {"property": "C81", "status": "proved", "theorems": ["Verif.Props.C81_charge_hamiltonian", "Verif.Props.C81_no_inductors", "Verif.Props.C81_units", "Verif.Props.C81_false_units"], "note": "proved with the units condition in the statement; C81_false_units shows that the charge basis ignores any other charge unit"},
 {"property": "C82", "status": "proved", "theorems": ["Verif.Props.C82_islands", "Verif.Props.C82_gate_shift", "Verif.Props.C82_loop_fluxes", "Verif.Props.C82_reversal"], "note": ""},
 {"property": "C83", "status": "partial", "theorems": ["Verif.Props.C83_displacement", "Verif.Props.C83_josephson_partial", "Verif.Props.C83_phase_slip_partial", "Verif.Props.C83_false_SI"], "note": "displacements proved in every unit system; the energies are right exactly when the flux unit is the flux quantum (charge unit 2e), false in SI units (C83_false_SI)"},
 {"property": "C85", "status": "partial", "theorems": ["Verif.Props.C85_hermitian", "Verif.Props.C85_elements", "Verif.Props.C85_levels", "Verif.Props.C85_false_oscillator"], "note": "C85_levels holds for all circuits in the charge basis. In the oscillator basis it is false for every number of states and every LC circuit (C85_false_oscillator)."},
 {"property": "C84", "status": "proved", "theorems": ["Verif.Props.C84_values", "Verif.Props.C84_unknown", "Verif.Props.C84_all_set", "Verif.Props.C84_ready", "Verif.Props.C84_get_symbols", "Verif.Props.C84_get_symbols_ok", "Verif.Props.C84_add_parameters", "Verif.Props.C84_failure", "Verif.Props.C84_symbols"], "note": "Type checks of names and overrides are outside the model."},
 {"property": "C86", "status": "proved", "theorems": ["Verif.Props.C86_quantisable", "Verif.Props.C86_hamiltonian"], "note": "the direction in which a flux bias counts is a sign fixed by the netlist (see C67 for the convention); inductors, mutual inductances, resonators and transforms are excluded"},
 {"property": "C87", "status": "partial", "theorems": ["Verif.Props.C87_levels_partial", "Verif.Props.C87_false_order", "Verif.Props.C87_circuit_partial"], "note": "proved with at most one flux bias different from zero; false with two: the direction in which a bias counts depends on the order of the addBranch calls (C87_false_order); C87_circuit_partial: circuits with inductors and phase slips in any bases, with any number of biases that both graphs list in the same direction"},
 {"property": "C88", "status": "partial", "theorems": ["Verif.Props.C88_one_variable", "Verif.Props.C88_several_variables", "Verif.Props.C88_ragged", "Verif.Props.C88_levels", "Verif.Props.C88_levels_stored", "Verif.Props.C88_split", "Verif.Props.C88_levels_and_vectors", "Verif.Props.C88_false_without_vectors"], "note": "C88_false_without_vectors: when eigenvectors were not kept, getEigenValuesAndVectors does not raise but returns the levels at the first two points of the sweep."},
 {"property": "C89", "status": "partial", "theorems": ["Verif.Props.C89_names", "Verif.Props.C89_unset", "Verif.Props.C89_parametric", "Verif.Props.C89_symbols", "Verif.Props.C89_determined", "Verif.Props.C89_false_prefix", "Verif.Props.C89_false_resonator", "Verif.Props.C89_again_partial", "Verif.Props.C89_clean_partial"], "note": "C89_names, C89_unset, C89_parametric, C89_symbols, C89_determined; C89_clean_partial: up to 111 nodes and without the second pass that mode_transform can cause, the collection is cleanly reachable. C89_false_prefix: with dof_prefixes whose charge prefix is C the charge bias 1 and the capacitor C1 are one parameter. C89_false_resonator: a gate capacitor C1r becomes the computed capacitance of a resonator on node 1."},
 {"property": "C90", "status": "proved", "theorems": ["Verif.Props.C90_networks", "Verif.Props.C90_parallel", "Verif.Props.C90_squid", "Verif.Props.C90_circuit", "Verif.Props.C90_circuit_networks"], "note": "C90_squid assumes that the other junctions do not connect the two nodes: in a second loop the phase of the SQUID cannot be removed. With several flux biases even redrawing changes the levels (C87_false_order), so one bias is assumed throughout. C90_circuit and C90_circuit_networks: the same with inductors and phase slips in any bases, with any number of flux biases listed in the same directions by both graphs."},
 {"property": "C91", "status": "proved", "theorems": ["Verif.Props.C91_capacitance", "Verif.Props.C91_junctions", "Verif.Props.C91_charging"], "note": "C91_capacitance: more capacitance, no level rises. C91_junctions: each level moves by at most the junction change. C91_charging: levels against electrostatic energies."},
 {"property": "C92", "status": "proved", "theorems": ["Verif.Props.C92_moved"], "note": "C92_moved. With junctions that are not in series the two biases thread different loops, and the levels do differ."},
 {"property": "C93", "status": "proved", "theorems": ["Verif.Props.C93_parts", "Verif.Props.C93_circuit"], "note": "C93_parts. The parts may have their flux biases counted in other senses than the whole: each part has one bias, so this does not change its levels. C93_circuit: circuits with inductors and phase slips in any bases, with any number of biases that the whole lists in the directions of the parts."},
 {"property": "C94", "status": "partial", "theorems": ["Verif.Props.C94_terms", "Verif.Props.C94_printed", "Verif.Props.C94_defined", "Verif.Props.C94_classical", "Verif.Props.C94_false_energy"], "note": "C94_terms, C94_printed, C94_defined, C94_classical. C94_false_energy: the coefficient printed for a junction is its critical current, not the Josephson energy Phi0 I/2pi that getJosephsonEnergies reports."},
 {"property": "C95", "status": "partial", "theorems": ["Verif.Props.C95_operators", "Verif.Props.C95_parameters", "Verif.Props.C95_biases", "Verif.Props.C95_reduced_partial", "Verif.Props.C95_false_bias", "Verif.Props.C95_false_current", "Verif.Props.C95_branches_partial", "Verif.Props.C95_false_branches"], "note": "C95_operators, C95_parameters, C95_biases; C95_reduced_partial with C95_false_bias: in an rf SQUID with the bias 1 on the junction the classical Josephson energy is -cos(2 phi_1). C95_branches_partial with C95_false_branches: the branches 1-23 and 12-3 share all symbols. C95_false_current: the node currents and voltages of getCurrentVector and getVoltageVector are the symbols of junctions and phase slips numbered like the nodes."},
 {"property": "C96", "status": "partial", "theorems": ["Verif.Props.C96_basis", "Verif.Props.C96_cycles", "Verif.Props.C96_branches", "Verif.Props.C96_shared", "Verif.Props.C96_shared_partial", "Verif.Props.C96_false_shared"], "note": "C96_shared_partial needs nodes mentioned in ascending order; C96_false_shared is a circuit with two loops across one branch that are not adjacent in the loop graph, because the loops of two branches keep the order of the graph and the others are sorted."},
 {"property": "C97", "status": "partial", "theorems": ["Verif.Props.C97_quantisable", "Verif.Props.C97_operator_partial"], "note": "Partial: a biased inductor must join the ground to a node without another inductor (otherwise false, C59_false); no mutual inductances; no transform; no resonators."},
 {"property": "C98", "status": "proved", "theorems": ["Verif.Props.C98_values", "Verif.Props.C98_drives", "Verif.Props.C98_bases", "Verif.Props.C98_floor"], "note": "C98_bases shows that the displacements of the oscillator basis and of the charge basis (eigenvectors with equal phases, see C37) lengthen no state."},
 {"property": "C99", "status": "partial", "theorems": ["Verif.Props.C99_current", "Verif.Props.C99_derivative", "Verif.Props.C99_transform_false", "Verif.Props.C99_voltage", "Verif.Props.C99_current_coupled", "Verif.Props.C99_mutual_false", "Verif.Props.C99_voltage_loaded"], "note": "C99_transform_false: with a transform the inverse inductance of the branch is transformed as well as the flux, so the current of an inductor is wrong. C99_mutual_false: with a mutual inductance the current of an inductor leaves out what its partner contributes. The inductor current leaves out the flux bias (C99_derivative). With mutual inductances and resonators C99_current_coupled and C99_voltage_loaded state what is computed."},
 {"property": "C100", "status": "partial", "theorems": ["Verif.Props.C100_elements", "Verif.Props.C100_swept_partial", "Verif.Props.C100_phases", "Verif.Props.C100_uncoupled", "Verif.Props.C100_false"], "note": "C100_false: if the second state is multiplied by i, the coefficients from the operator do not change, but those from the real parts of the matrix elements become NaN (finding: getVoltageMatrixElement and getCurrentMatrixElement return only real parts, so the workflow of examples/local-basis-example.py depends on the phases of the eigenvectors)."},
 {"property": "C101", "status": "partial", "theorems": ["Verif.Props.C101_hamiltonian_partial", "Verif.Props.C101_levels_partial", "Verif.Props.C101_unset"], "note": "C101_hamiltonian_partial, C101_levels_partial: missing are the restrictions of C97 (mutual inductances, resonators, biases of inductors outside GroundedBiases, see C59_false) and sweeps that change the impedance of an oscillator (C40_false). SymbolicOf is a hypothesis about sympy and is proved for the example, an rf SQUID."},
 {"property": "C102", "status": "partial", "theorems": ["Verif.Props.C102_symbolic_partial", "Verif.Props.C102_hamiltonian_partial", "Verif.Props.C102_sweep_partial", "Verif.Props.C102_unset", "Verif.Props.C102_levels_partial", "Verif.Props.C102_levels_stored_partial"], "note": "C102_symbolic_partial, C102_hamiltonian_partial, C102_sweep_partial, C102_levels_partial: the last one goes from the calls to the levels of a sweep and assumes of the system in between only that the frequencies and impedances of the oscillators can be computed and that the impedances do not depend on what is swept; for sweeps that change them C102_levels_stored_partial states what is computed instead (C40_false_impedance). Missing are mutual inductances (C103), resonators (C104) and coordinate transforms, circuits with more than 111 nodes, and netlists with names of matrix elements, for which the claim is false (C36_false_user_name). ArithLaws is the hypothesis about sympy; it is met by the arithmetic of Lemmas/AstArith.lean."},
 {"property": "C103", "status": "partial", "theorems": ["Verif.Props.C103_symbolic_partial", "Verif.Props.C103_hamiltonian_partial", "Verif.Props.C103_currents_partial", "Verif.Props.C103_operator_partial", "Verif.Props.C103_directions_false", "Verif.Props.C103_levels_partial", "Verif.Props.C103_levels_stored_partial"], "note": "C103_directions_false: a mutual inductance counts in the directions in which the oriented graph lists the two inductors, not in those in which they were added, so that its sign can be the opposite one; the partial theorems state the directions. C103_symbolic_partial, C103_hamiltonian_partial and C103_levels_partial carry the operator to the symbolic attributes, to getHamiltonian of a used system and to the levels of its sweeps (C103_levels_stored_partial when the impedances change); they assume of the computer algebra that it inverts the block of the inductors when that is positive definite (CoupledLaws, met by Ast.coupled_laws). Missing: biased inductors at a node with another inductor or away from the ground (C59_false), inductors coupled to themselves and branches added after a mutual inductance (C27), transforms; for resonators see C104."},
 {"property": "C104", "status": "partial", "theorems": ["Verif.Props.C104_levels_partial", "Verif.Props.C104_levels_stored_partial", "Verif.Props.C104_symbolic_partial", "Verif.Props.C104_hamiltonian_partial", "Verif.Props.C104_operator_partial", "Verif.Props.C104_exists", "Verif.Props.C104_load"], "note": "Proved for all circuits and values without transforms. Missing: as for C103 (biased inductors at a node with another inductor or away from the ground, C59_false; inductors coupled to themselves and branches after a mutual inductance, C27; transforms). C104_symbolic_partial, C104_hamiltonian_partial and C104_levels_partial carry the operator to the symbolic attributes, to getHamiltonian of a used system and to the levels of its sweeps (C104_levels_stored_partial when the impedances of oscillators change), and there the resonator capacitances are 1/(2 pi f Z); they ask that no resonator was removed and that no component has the name of a computed parameter of a resonator (C89_false_resonator), and assume of the computer algebra LoadedLaws and ResonatorLaws, met by Ast.loaded_laws and some_laws."},
 {"property": "C105", "status": "partial", "theorems": ["Verif.Props.C105_nodes", "Verif.Props.C105_branches_partial", "Verif.Props.C105_capacitance_partial", "Verif.Props.C105_sparsity_partial", "Verif.Props.C105_sparsity_false"], "note": "Proved for all circuits. Missing because false of the code: isolated conductive self-loops are not in the edge list (C21_isolated_loop_false); sparsity is outside [0,1] in the flux basis (C105_sparsity_false: -8). Capacitors from a node to itself are left out of the matrix entries (C29_self_loop_false). A zero stored explicitly in the CSR data would be counted as non-zero by scipy and is not modelled."},
 {"property": "C106", "status": "proved", "theorems": ["Verif.Props.C106_between", "Verif.Props.C106_concave"], "note": "Proved for all circuits without mutual inductances and resonators."},
 {"property": "C107", "status": "proved", "theorems": ["Verif.Props.C107_quanta", "Verif.Props.C107_half", "Verif.Props.C107_time", "Verif.Props.C107_charge", "Verif.Props.C107_oscillator", "Verif.Props.C107_charge_basis", "Verif.Props.C107_flux_basis", "Verif.Props.C107_discretized"], "note": "Proved for all circuits. For the first claim nodes in a flux basis are not covered; in the charge and flux bases the phases of the basis states are assumed equal, as in C37."},
 {"property": "C108", "status": "proved", "theorems": ["Verif.Props.C108_current", "Verif.Props.C108_voltage", "Verif.Props.C108_current_neutral", "Verif.Props.C108_selection"], "note": "Proved for all circuits. The theorems assume the reversal of C107 at each node, which C107_oscillator, C107_charge_basis and, for the charge reversal, C107_flux_basis and C107_discretized provide. In flux bases the current is covered without charge biases (C108_current_neutral)."}
]}
