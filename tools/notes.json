{
"C01": {"status": "proved", "note": "Proved over all call histories. The _false_ theorems are remarks on stronger readings (bounds changed later, initial value unchecked)."},
"C02": {"status": "proved", "note": "Exact rational arithmetic; C02_false_infinite_end shows that with an infinite end point the sweep is NaN."},
"C03": {"status": "proved", "note": "The property (recorded dependencies) is proved for every history. C03_false_for_expressions: the expressions themselves can become cyclic through a symbolic prefactor."},
"C04": {"status": "proved", "note": "Atomicity for every state; the cycle error is characterised against the recorded dependencies on clean histories; C04_false_after_overwrite shows the characterisation fails after a parameterisation was overwritten (stale edges)."},
"C05": {"status": "proved", "note": ""},
"C06": {"status": "partial", "note": "Proved on all clean histories (no rmParameter, no overwritten parameterisation, distinct symbols, numeric prefactors) for every set-iteration order and every lawful engine; C06_false_after_overwrite is a counterexample outside."},
"C07": {"status": "partial", "note": "Termination and meaning proved on clean histories; C07_false_symbolic_prefactor: divergence with a symbolic prefactor."},
"C08": {"status": "proved", "note": "Under the stated provisos; C08_false_when_not_computable shows the proviso is needed."},
"C09": {"status": "proved", "note": ""},
"C10": {"status": "partial", "note": "False of the code (C10_false); proved: exactly the pairs before the failing one are stored."},
"C11": {"status": "partial", "note": "False after an overwrite (C11_false_after_overwrite); proved on clean histories."},
"C12": {"status": "partial", "note": "Direct dependents proved; the transitive reading is false (C12_false_indirect)."},
"C13": {"status": "proved", "note": ""},
"C14": {"status": "partial", "note": "False of the code (C14_false): after removing a parameter every later set raises; proved: the remaining parameters stay readable."},
"C15": {"status": "proved", "note": "Exact integer arithmetic. C15_false_after_linearSweep is a remark: a later linearSweep on a swept parameter changes the sizes used."},
"C16": {"status": "proved", "note": ""},
"C17": {"status": "proved", "note": "For specifications that are not empty and have distinct names; the _false_ theorems show both provisos are needed."},
"C18": {"status": "partial", "note": "Proved for every complete choice of independent and static variables, RAM and temporary files; false when a static variable is missing, and for one swept parameter the variable name is ignored."},
"C19": {"status": "partial", "note": "Partition proved on clean histories for independent swept names; two-stage substitution proved for settled states; C19_false_unsettled: a parameterisation added since the last set is substituted with its stale value."},
"C53": {"status": "proved", "note": "For every interleaving over distinct identities. The _false_ theorems are remarks on stronger readings (no session opened; identity recycled)."},
"C54": {"status": "proved", "note": "C54_remark_write_after_clear: writing again without a new session goes to the current directory."},
"C55": {"status": "proved", "note": "C55_remark_repeated_symbol documents where the result repeats the symbol."},
"C44": {"status": "partial", "note": "Proved for all histories without setUnit on a bare unit and with positive factors, with the exact effect of every setter; C44_false_bare_unit and C44_false_zero_factor are the counterexamples outside."},
"C45": {"status": "partial", "note": "Physical meaning of each prefactor proved for every reachable unit system; false for Josephson (and phase-slip) energies unless Wb is the flux quantum (C is 2e): C45_false_josephson."},
"C46": {"status": "proved", "note": "Preset cells are heap cells shared by reference; C46_presets_unchanged has no restriction on the calls."},
"C47": {"note": "For two or more matrices over any semiring mdot is the left-to-right product including shape errors; false for one argument (returns 0.0)."},
"C48": {"note": "Sorting part of the diagonalisers for every backend result; that the backend returns eigenpairs is the hypothesis on scipy."},
"C49": {"note": "Proved when no entry of the first row of the operator's eigenvector matrix is zero; false (NaN) otherwise. Rounding to complex64 is not modelled."},
"C50": {"note": "Every size and every sequence length."},
"C51": {"note": "False: IndexError for every Hamiltonian with at least two states at the default orders, and never False."},
"C52": {"note": "Neighbours for weight one and orthonormal states proved; other Hamming weights return the empty list."},
"C56": {"note": "Arrays and real floats proved; sanFloat adds real and imaginary part of a complex number."},
"C57": {"note": "Proved for the option SA (the default of NumericalSystem) and the dense solver; false for the own defaults of diagSparseH (largest magnitude). The selection rule of eigsh is modelled, see DESIGN.md."},
"C58": {"note": "AC-Stark and resonator shift proved; getCircuitLambShift returns energies, not gaps."},
"C20": {"note": "Invalid names are rejected without effect, and valid calls on grown circuits succeed; false for duplicate names (permanently corrupts the circuit) and for two internal failures (NameError, KeyError)."},
"C21": {"note": "Names, kinds and lookups proved; listings and total lookup need that no conductive self-loop sits on an otherwise isolated node (false there)."},
"C22": {"note": "Spanning forest and closures proved for every history; the closure count needs that no conductive self-loop sits on an otherwise isolated node (false there)."},
"C23": {"note": "Membership proved for every circuit; genuine cycles proved for circuits grown along conductive branches; false otherwise, with a witness."},
"C24": {"note": "Rules proved for every history, except that a branch can be biased twice after a later branch reverses its edge (false, witness); proved when the branches come before the biases."},
"C25": {"note": "False: a later branch can reverse the edge. Proved for capacitors, and the stored entries always keep naming the same component."},
"C26": {"note": "Proved for every history except that the name of a coupling capacitance can be reused (false, witness)."},
"C27": {"note": "Inductors, unique mutual inductances and atomicity proved for every history; self-coupling, repeated coupling after a reversal and reuse of the name by a flux bias are witnesses of falsity; no pair twice proved when the branches come first."},
"C28": {"note": "Proved for every history except that the coupling capacitance can be reused (false, witness)."},
"C29": {"note": "Symmetry, the quadratic form and (semi)definiteness proved for every history of builder calls without capacitive self-loops; a capacitor joining a node to itself is counted, so the form is wrong there (C29_self_loop_false)."},
"C30": {"note": "Proved for every history; the matrix is undefined (TypeError / ValueError) or wrong in the cases of C30_defined_false. sympy's pinv is assumed to be a Moore-Penrose inverse (IsPinv)."},
"C31": {"note": "Kirchhoff's law proved for every closed walk; for the listed loops under the hypotheses of C23. A bias on a phase-slip wire enters no equation (C31_phase_slip_bias_false)."},
"C32": {"note": "A move keeps the flux through every closed walk that crosses both branches in the same direction (C32_gauge_partial); no common-loop check exists (C32_no_loop_check_false) and orientation is ignored (C32_gauge_false)."},
"C33": {"note": "Charging energy, flux energy, pairing and symmetry proved for every invertible transform of any size."},
"C34": {"note": "The classification terminates and is characterised for every matrix; labels can be overwritten (C34_false: a coupled mode is labelled as island)."},
"C35": {"note": "Proved in an arbitrary complex star algebra with the displacement operators of different nodes commuting; unitarity is not needed for Hermiticity. The loop of the code is defined exactly when no branch joins a node to itself (C35_defined)."},
"C59": {"note": "The biased energy computed by the code is characterised exactly; it is the physical one when every biased inductor is grounded (C59_energy_partial) and wrong otherwise (C59_false)."},
"C60": {"note": "Only transforms that fix the bias vectors keep the energy (C60_partial); witness R = (2) in C60_false."},
"C61": {"note": "Correct when the computed displacement equals the coefficient (C61_partial), in particular without a transform (C61_identity_partial); witness R = (2) in C61_false."},
"C37": {"note": "Exact operators for every truncation when the number-operator eigenvectors come with equal phases (C37_charge_basis_partial); for arbitrary phases characterised in C37_any_phases; with unequal signs the edge states are coupled (C37_phase_false)."},
"C38": {"note": "Every number of levels, impedance and unit prefactor; displacement operators are the matrix exponentials whatever the diagonaliser returns."},
"C39": {"note": "Charge and oscillator bases of any number and size of nodes; flux bases have no identity in the expansion and no factor in the reported size (C39_flux_false, C39_size_false)."},
"C43": {"note": "Hermitian, equal to the rotating-wave Hamiltonian on the existing states, bare energies without coupling; eigvalsh is modelled as the sorted roots of the characteristic polynomial."},
"C62": {"note": "The corner element is subtracted from a matrix that does not contain it (C62_false, C62_discretized_false); the rest is as documented (C62_flux_basis_partial)."},
"C69": {"note": "Holds when the bare energies are pairwise different (C69_whole_spectrum_partial); at resonance one eigenvalue is listed twice (C69_resonance_false)."},
"C63": {"note": "Hermitian for every circuit (C63_hermitian). On states of definite phase the junction current is minus the derivative of its energy (C63_josephson_partial, C63_sign_false), the inductor current plus the derivative (C63_inductive_partial) without the bias (C63_bias_false)."},
"C64": {"note": "Holds for nodes without capacitive coupling (C64_uncoupled_partial); the off-diagonal elements of the inverse capacitance matrix are ignored (C64_false)."},
"C65": {"note": "Exact for expectation values and for real matrices and vectors; the imaginary part is dropped, so charge matrix elements between oscillator levels are reported as 0 (C65_false)."},
"C66": {"note": "C66_hermitian for any operators with adjoints; C66_bases and C66_circuit for the charge and oscillator bases of a circuit without coordinate transform; C66_defined for the only failure. The symmetry of the inverse matrices is a hypothesis (C29, C30)."},
"C70": {"note": "Every circuit without phase-slip energies (C70_recombine)."},
"C71": {"note": "C71_periodic, for biases in the units of the exponentials (flux quanta and Cooper pairs)."},
"C72": {"note": "All levels but the last are exact in every reachable unit system (C72_levels_partial); the last state kept has the energy (n-1)/2 quanta, a spurious level inside the spectrum (C72_false)."},
"C40": {"note": "C40_point_partial (state at any visited point) and C40_sweep_partial (files of a sweep): everything a Hamiltonian, current or voltage operator is made of equals that of a fresh system at that point; the operator vectors only if no affected parameter occurs in the impedance of an oscillator. C40_false_impedance: sweeping the inductance of an LC circuit uses the charge and flux operators of the old impedance; the matrices differ. Also assumed: parametric parameters up to date before the sweep, expressions defined."},
"C41": {"note": "C41_multiple_partial (two or more different evaluations), C41_single_partial (one, not an energy of all nodes). C41_false_duplicate: of two requests of the same kind the first is lost; C41_false_dict: an energy of all nodes alone cannot be read back (KeyError)."},
"C42": {"note": "C42_wrong_order, C42_missing_vectors (evaluations that read eigenvectors; an empty list of elements or a missing coupling node reads none), C42_same_point."},
"C36": {"note": "C36_user_partial (components whose names are not of the form C/L + digits (+ i) keep symbol, value, bounds and parameterisation through any history of calls, successful or raising), C36_partial (entries of the returned matrix, up to 111 nodes, after any history), C36_inverse_partial (both matrices of getInverseCapacitanceMatrix), C36_matrices, C36_entries_partial, C36_reserved. C36_false_user_name: a user's C11 is overwritten; C36_false_crash: AssertionError; C36_false_many_nodes: entries (1,111) and (11,11) share a name."},
"C68": {"note": "C68_product gives the exact effect of any sequence of constructions: every derived parameter of a resonator is multiplied by the factors of all units so far; everything else is kept. C68_partial: nothing changes if the factors are one (in particular without resonators). C68_false: two constructions with a factor 1000 give a capacitance 1000 times that of one."},
"C67": {"note": "False of the code: the junction energies enter with the wrong sign (C67_false_sign), transforms are ignored in the junction fluxes (C67_false_transform), a bias on an inductor (C67_false_inductor) and a bias suffix equal to a node number (C67_false_name) make the construction fail. Proved: exactly when the function can be built (C67_defined), its inputs and its exact value (C67_value_partial), correctness for circuits without junctions (C67_linear_partial), the default inputs are accepted and give minus the junction energy at zero flux (C67_defaults). C67_coupled_partial is the value with mutual inductances and resonators; the others are for uncoupled inductors.", "status": "partial"},
"C73": {"note": "C73_design. Real arithmetic; unit prefactors are C68."},
"C74": {"note": "C74_energy, C74_inverse. Circuits without capacitors joining a node to itself (where C29 is false of the code)."},
"C75": {"note": "C75_inductance, C75_loaded, C75_bounds. Circuits without mutual inductances; the pseudo-inverse is assumed to satisfy the Moore-Penrose conditions."},
"C76": {"note": "Proved without transform for uncoupled components, and for netlists with mutual inductances and resonators whose inductance matrix is invertible (C76_coupled_energy_partial, energy and node currents); capacitors join different nodes and biased inductors are as in C59. False with a transform: the junction terms ignore it (C76_false_transform). The expression has separate symbols for a flux and its reduced flux; the theorems set the second to 2π/Φ0 times the first, which the user has to do."},
"C77": {"note": "Proved for the numerical system in every basis and for the symbolic single-particle charging energies. False for the symbolic getJosephsonEnergies: it multiplies by Φ0/2π although the Hamiltonians use the parameter as an energy (C77_false)."},
"C78": {"note": "proved for every history that ends in a successful call; false after a call that raises (C78_false_after_error: setParameterValue(\"C\", 0) raises TypeError, the parameter is 0 afterwards and the matrices are still those of C = 1)", "status": "partial"},
"C79": {"note": "proved: what is pending, the undo (provided the set itself returns and the parametric parameters hold computable values before), the state at the last point. False that the sweep restores the values (C79_false_values: a Hamiltonian taken right after a sweep of an inductance mixes old operator vectors with new matrices) and that a failed sweep does not affect the next one (C79_false_pending)", "status": "partial"},
"C80": {"note": "The last sentence of the statement is false (C80_false_reconfigured): on a node without inductance the oscillator basis is accepted, its impedance never gets a value, and every later set raises, also after the charge basis has been chosen instead. The other sentences are proved for all states.", "status": "partial"},
"C81": {"note": "proved with the units condition in the statement; C81_false_units shows that the charge basis ignores any other charge unit", "status": "proved"},
"C82": {"note": ""},
"C83": {"note": "displacements proved in every unit system; the energies are right exactly when the flux unit is the flux quantum (charge unit 2e), false in SI units (C83_false_SI)"},
"C85": {"note": "C85_levels holds for all circuits in the charge basis. In the oscillator basis it is false for every number of states and every LC circuit (C85_false_oscillator)."},
"C84": {"note": "Type checks of names and overrides are outside the model.", "status": "proved"},
"C86": {"note": "the direction in which a flux bias counts is a sign fixed by the netlist (see C67 for the convention); inductors, mutual inductances, resonators and transforms are excluded"},
"C87": {"note": "proved with at most one flux bias different from zero; false with two: the direction in which a bias counts depends on the order of the addBranch calls (C87_false_order); C87_circuit_partial: circuits with inductors and phase slips in any bases, with any number of biases that both graphs list in the same direction"},
"C88": {"note": "C88_false_without_vectors: when eigenvectors were not kept, getEigenValuesAndVectors does not raise but returns the levels at the first two points of the sweep."},
"C89": {"note": "C89_names, C89_unset, C89_parametric, C89_symbols, C89_determined; C89_clean_partial: up to 111 nodes and without the second pass that mode_transform can cause, the collection is cleanly reachable. C89_false_prefix: with dof_prefixes whose charge prefix is C the charge bias 1 and the capacitor C1 are one parameter. C89_false_resonator: a gate capacitor C1r becomes the computed capacitance of a resonator on node 1."},
"C90": {"note": "C90_squid assumes that the other junctions do not connect the two nodes: in a second loop the phase of the SQUID cannot be removed. With several flux biases even redrawing changes the levels (C87_false_order), so one bias is assumed throughout. C90_circuit and C90_circuit_networks: the same with inductors and phase slips in any bases, with any number of flux biases listed in the same directions by both graphs."},
"C91": {"note": "C91_capacitance: more capacitance, no level rises. C91_junctions: each level moves by at most the junction change. C91_charging: levels against electrostatic energies."},
"C92": {"note": "C92_moved. With junctions that are not in series the two biases thread different loops, and the levels do differ."},
"C93": {"note": "C93_parts. The parts may have their flux biases counted in other senses than the whole: each part has one bias, so this does not change its levels. C93_circuit: circuits with inductors and phase slips in any bases, with any number of biases that the whole lists in the directions of the parts."},
"C94": {"note": "C94_terms, C94_printed, C94_defined, C94_classical. C94_false_energy: the coefficient printed for a junction is its critical current, not the Josephson energy Phi0 I/2pi that getJosephsonEnergies reports."},
"C95": {"note": "C95_operators, C95_parameters, C95_biases; C95_reduced_partial with C95_false_bias: in an rf SQUID with the bias 1 on the junction the classical Josephson energy is -cos(2 phi_1). C95_branches_partial with C95_false_branches: the branches 1-23 and 12-3 share all symbols. C95_false_current: the node currents and voltages of getCurrentVector and getVoltageVector are the symbols of junctions and phase slips numbered like the nodes."},
"C96": {"note": "C96_shared_partial needs nodes mentioned in ascending order; C96_false_shared is a circuit with two loops across one branch that are not adjacent in the loop graph, because the loops of two branches keep the order of the graph and the others are sorted."},
"C97": {"note": "Partial: a biased inductor must join the ground to a node without another inductor (otherwise false, C59_false); no mutual inductances; no transform; no resonators."},
"C98": {"note": "C98_bases shows that the displacements of the oscillator basis and of the charge basis (eigenvectors with equal phases, see C37) lengthen no state."},
"C99": {"note": "C99_transform_false: with a transform the inverse inductance of the branch is transformed as well as the flux, so the current of an inductor is wrong. C99_mutual_false: with a mutual inductance the current of an inductor leaves out what its partner contributes. The inductor current leaves out the flux bias (C99_derivative). With mutual inductances and resonators C99_current_coupled and C99_voltage_loaded state what is computed.", "status": "partial"},
"C100": {"note": "C100_false: if the second state is multiplied by i, the coefficients from the operator do not change, but those from the real parts of the matrix elements become NaN (finding: getVoltageMatrixElement and getCurrentMatrixElement return only real parts, so the workflow of examples/local-basis-example.py depends on the phases of the eigenvectors).", "status": "partial"},
"C101": {"note": "C101_hamiltonian_partial, C101_levels_partial: missing are the restrictions of C97 (mutual inductances, resonators, biases of inductors outside GroundedBiases, see C59_false) and sweeps that change the impedance of an oscillator (C40_false). SymbolicOf is a hypothesis about sympy and is proved for the example, an rf SQUID.", "status": "partial"},
"C102": {"note": "C102_symbolic_partial, C102_hamiltonian_partial, C102_sweep_partial, C102_levels_partial: the last one goes from the calls to the levels of a sweep and assumes of the system in between only that the frequencies and impedances of the oscillators can be computed and that the impedances do not depend on what is swept; for sweeps that change them C102_levels_stored_partial states what is computed instead (C40_false_impedance). Missing are mutual inductances (C103), resonators (C104) and coordinate transforms, circuits with more than 111 nodes, and netlists with names of matrix elements, for which the claim is false (C36_false_user_name). ArithLaws is the hypothesis about sympy; it is met by the arithmetic of Lemmas/AstArith.lean.", "status": "partial"},
"C103": {"note": "C103_directions_false: a mutual inductance counts in the directions in which the oriented graph lists the two inductors, not in those in which they were added, so that its sign can be the opposite one; the partial theorems state the directions. C103_symbolic_partial, C103_hamiltonian_partial and C103_levels_partial carry the operator to the symbolic attributes, to getHamiltonian of a used system and to the levels of its sweeps (C103_levels_stored_partial when the impedances change); they assume of the computer algebra that it inverts the block of the inductors when that is positive definite (CoupledLaws, met by Ast.coupled_laws). Missing: biased inductors at a node with another inductor or away from the ground (C59_false), inductors coupled to themselves and branches added after a mutual inductance (C27), transforms; for resonators see C104.", "status": "partial"},
"C104": {"note": "Proved for all circuits and values without transforms. Missing: as for C103 (biased inductors at a node with another inductor or away from the ground, C59_false; inductors coupled to themselves and branches after a mutual inductance, C27; transforms). C104_symbolic_partial, C104_hamiltonian_partial and C104_levels_partial carry the operator to the symbolic attributes, to getHamiltonian of a used system and to the levels of its sweeps (C104_levels_stored_partial when the impedances of oscillators change), and there the resonator capacitances are 1/(2 pi f Z); they ask that no resonator was removed and that no component has the name of a computed parameter of a resonator (C89_false_resonator), and assume of the computer algebra LoadedLaws and ResonatorLaws, met by Ast.loaded_laws and some_laws.", "status": "partial"},
"C105": {"note": "Proved for all circuits. Missing because false of the code: isolated conductive self-loops are not in the edge list (C21_isolated_loop_false); sparsity is outside [0,1] in the flux basis (C105_sparsity_false: -8). Capacitors from a node to itself are left out of the matrix entries (C29_self_loop_false). A zero stored explicitly in the CSR data would be counted as non-zero by scipy and is not modelled."},
"C106": {"note": "Proved for all circuits without mutual inductances and resonators."},
"C107": {"note": "Proved for all circuits. For the first claim nodes in a flux basis are not covered; in the charge and flux bases the phases of the basis states are assumed equal, as in C37."},
"C108": {"note": "Proved for all circuits. The theorems assume the reversal of C107 at each node, which C107_oscillator, C107_charge_basis and, for the charge reversal, C107_flux_basis and C107_discretized provide. In flux bases the current is covered without charge biases (C108_current_neutral)."}
}
