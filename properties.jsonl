{"id": "C01", "title": "A successful setValue leaves the value strictly inside the bounds", "statement": "After any history of construct/setValue/setBounds/linearSweep calls on a parameter created without an initial value, a stored number was strictly inside the bounds in force when it was stored (or is NaN, which no bound rejects), and every rejected call leaves value, bounds and sweep exactly as they were.", "quantifier": "every initial bounds, every value (ints, floats, NaN, infinities, wrong types) and every finite history of calls on one parameter", "why_tests_cant": "the value, the bounds and the order of the calls range over infinite sets; a test fixes a handful of them", "anchors": ["pyscqed/parameters.py:Param.__init__", "pyscqed/parameters.py:Param.setValue", "pyscqed/parameters.py:Param.setBounds"]}
{"id": "C02", "title": "linearSweep produces the requested grid inside the bounds", "statement": "If linearSweep(start, end, N) succeeds the stored sweep has exactly N points, point i is start + i*(end-start)/(N-1) (just start when N = 1), the first is start and the last is end when N >= 2, and every point lies within the bounds; if it raises nothing is stored.", "quantifier": "every start, end, N and bounds", "why_tests_cant": "universally quantified over the reals (modelled exactly) and over N", "anchors": ["pyscqed/parameters.py:Param.linearSweep"]}
{"id": "C03", "title": "The parameterisation dependency graph never becomes cyclic", "statement": "After any sequence of parameter additions, removals, parameterisations, value changes and parameterisation removals, whether the individual calls succeed or raise, no parameter depends on itself through the recorded dependencies.", "quantifier": "every finite history of ParamCollection calls, including failing ones", "why_tests_cant": "it is an invariant over unbounded histories; a test explores only the histories it writes down", "anchors": ["pyscqed/parameters.py:ParamCollection.addParameterisation", "pyscqed/parameters.py:ParamCollection.rmParameterisation", "pyscqed/parameters.py:ParamCollection.addParameter", "pyscqed/parameters.py:ParamCollection.rmParameter"]}
{"id": "C04", "title": "A refused parameterisation leaves the collection untouched", "statement": "If addParameterisation raises (unknown name, unknown symbol, dependency cycle) every subsequent observation of the collection is the same as if it had not been called; and it raises the cycle error exactly when the new dependencies together with the recorded ones contain a cycle.", "quantifier": "every reachable collection state, every name and every expression", "why_tests_cant": "failure atomicity must hold in every state and for every failing input", "anchors": ["pyscqed/parameters.py:ParamCollection.addParameterisation"]}
{"id": "C05", "title": "Parametric parameters cannot be set directly", "statement": "setParameterValue and setParameterValues on a parameter that has a parameterisation do not store the given value: setParameterValue leaves the whole collection unchanged, and in setParameterValues the pair is skipped.", "quantifier": "every reachable state, parametric name and value", "why_tests_cant": "ranges over all states and values", "anchors": ["pyscqed/parameters.py:ParamCollection.setParameterValue", "pyscqed/parameters.py:ParamCollection.setParameterValues"]}
{"id": "C06", "title": "Dependents follow their sources after a successful set", "statement": "After a successful setParameterValue(s) every parametric parameter whose underlying independent parameters all have a value holds the value obtained by recursively evaluating the parameterisations at the independent values, provided that value evaluates to a number the parameter's bounds admit and its parameterisation has at least one independent source.", "quantifier": "every acyclic parameterisation graph of any size and depth, every expression and every assignment", "why_tests_cant": "chains of dependencies have unbounded depth and the substitution strategy visits nodes in an order depending on insertion history", "anchors": ["pyscqed/parameters.py:ParamCollection.setParameterValue", "pyscqed/parameters.py:ParamCollection._update_parameterisations", "pyscqed/parameters.py:ParamCollection.getParametricExpression"]}
{"id": "C07", "title": "Expanding a parametric expression terminates in independent parameters", "statement": "getParametricExpression(name, expand=True) terminates for every acyclic set of parameterisations; the expression returned contains no parametric symbol and evaluates, at any values of the independent parameters, to the recursive evaluation of the parameterisations.", "quantifier": "every acyclic set of parameterisations and every valuation", "why_tests_cant": "termination and equality of a fixpoint iteration for graphs of unbounded depth", "anchors": ["pyscqed/parameters.py:ParamCollection.getParametricExpression"]}
{"id": "C08", "title": "Setting independent parameters is order independent", "statement": "Setting two different independent parameters in either order gives the same values for all parameters, when both calls succeed and every dependent that can be computed is admitted by its bounds.", "quantifier": "every reachable state, pair of independent parameters and pair of values", "why_tests_cant": "a commutation property over all states", "anchors": ["pyscqed/parameters.py:ParamCollection.setParameterValue", "pyscqed/parameters.py:ParamCollection._update_parameterisations"]}
{"id": "C09", "title": "A set only affects the parameter and what depends on it", "statement": "Outside the named parameter and the parametric parameters, a setParameterValue call changes no value; no set call changes the parameter names, symbols, bounds, parameterisations or dependencies; a failed call on an unknown or out-of-bounds value changes nothing.", "quantifier": "every reachable state, name and value", "why_tests_cant": "a frame condition over all states", "anchors": ["pyscqed/parameters.py:ParamCollection.setParameterValue", "pyscqed/parameters.py:ParamCollection._update_parameterisations", "pyscqed/parameters.py:Param.setValue"]}
{"id": "C10", "title": "setParameterValues is all-or-nothing", "statement": "If a bulk setParameterValues call raises, no parameter has changed.", "quantifier": "every state and list of (name, value) pairs", "why_tests_cant": "failure atomicity for every failing position", "anchors": ["pyscqed/parameters.py:ParamCollection.setParameterValues"]}
{"id": "C11", "title": "Removing a parameterisation frees the parameter and its dependencies", "statement": "After rmParameterisation(name), name can be set directly again, and no dependency of name on its former sources is left, so previously refused parameterisations of the sources by name become possible and later sets do not fail because of the removed one.", "quantifier": "every history of parameterisations, overwrites and removals", "why_tests_cant": "the stale-dependency state only arises after particular histories", "anchors": ["pyscqed/parameters.py:ParamCollection.rmParameterisation", "pyscqed/parameters.py:ParamCollection.addParameterisation"]}
{"id": "C12", "title": "getParameterisationsInvolving returns exactly the dependents", "statement": "For independent parameter names, getParameterisationsInvolving returns, without repetition, exactly the parametric parameters whose parameterisation depends on one of them (directly, or through other parameterisations); an unknown name raises and a parametric name gives the empty list.", "quantifier": "every dependency graph and list of names", "why_tests_cant": "reachability in graphs of unbounded size", "anchors": ["pyscqed/parameters.py:ParamCollection.getParameterisationsInvolving"]}
{"id": "C13", "title": "addParameter never disturbs an existing parameter", "statement": "addParameter with an already used name changes nothing; with a new valid name it adds exactly that parameter with no value, retrievable by name and by symbol; an invalid name raises and changes nothing.", "quantifier": "every reachable state and name", "why_tests_cant": "over all states and names", "anchors": ["pyscqed/parameters.py:ParamCollection.addParameter", "pyscqed/parameters.py:ParamCollection.getSymbol", "pyscqed/parameters.py:ParamCollection.getParameterFromSymbol"]}
{"id": "C14", "title": "Removing a parameter leaves a usable collection", "statement": "After rmParameter(name) the remaining parameters can still be set and read.", "quantifier": "every reachable state and name", "why_tests_cant": "the failing case needs a parameter with recorded dependencies removed in the right order", "anchors": ["pyscqed/parameters.py:ParamCollection.rmParameter", "pyscqed/parameters.py:ParamCollection._update_parameterisations"]}
{"id": "C15", "title": "Flat sweep index is a bijection", "statement": "collapsedIndices maps the index tuples of a sweep one-to-one onto 0 .. (number of points)-1, in row-major order: lexicographically larger tuples get larger flat indices.", "quantifier": "every number of dimensions, every sizes and every index tuple", "why_tests_cant": "dimension and sizes are unbounded", "anchors": ["pyscqed/parameters.py:ParamCollection.collapsedIndices"]}
{"id": "C16", "title": "Sweep grid holds the value of each parameter at each point", "statement": "After ndSweep, for each index tuple (i_1..i_n) the flat grid of the j-th swept parameter holds, at collapsedIndices(i_1..i_n), the i_j-th point of its own sweep, and the number of points is the product of the sizes.", "quantifier": "every sweep specification with distinct parameters, any dimension and sizes", "why_tests_cant": "dimension and sizes are unbounded; the grid construction (meshgrid, reshape) is exercised by tests only in 1 or 2 dimensions", "anchors": ["pyscqed/parameters.py:ParamCollection.ndSweep", "pyscqed/parameters.py:ParamCollection.collapsedIndices"]}
{"id": "C17", "title": "A sweep evaluates the function once per point with the right values", "statement": "computeFuncSweep calls the user function exactly once for each point of the grid, in flat-index order, and the call for point k receives exactly the swept parameters, each with its grid value at point k; results are stored in the same order, and if the function raises at a point the results of exactly the earlier points are kept.", "quantifier": "every sweep and user function", "why_tests_cant": "over all grids and functions", "anchors": ["pyscqed/parameters.py:ParamCollection.computeFuncSweep", "pyscqed/parameters.py:ParamCollection.ndSweep"]}
{"id": "C18", "title": "getSweepResult returns the requested slice", "statement": "For a sweep over n parameters, getSweepResult(ind_var, static_vars) returns, for each point i of ind_var, the datum stored at the grid point with ind_var at i and each static parameter at the sweep point nearest its requested value (first one on ties).", "quantifier": "every dimension, sizes, choice of independent variable and static values", "why_tests_cant": "dimension and requested values unbounded", "anchors": ["pyscqed/parameters.py:ParamCollection.getSweepResult", "pyscqed/parameters.py:ParamCollection.collapsedIndices"]}
{"id": "C19", "title": "Swept and unswept parameters partition the substitution", "statement": "Substituting the unswept parameters first and the swept ones afterwards gives the same expression value as substituting all at once: every parameter with a value is in exactly one of the two dictionaries and both report current values.", "quantifier": "every state, sweep specification and expression", "why_tests_cant": "over all expressions and states", "anchors": ["pyscqed/parameters.py:ParamCollection.getSweepParametersDict", "pyscqed/parameters.py:ParamCollection.getNonSweepParametersDict", "pyscqed/numerical_system.py:NumericalSystem._presub", "pyscqed/numerical_system.py:NumericalSystem._postsub"]}
{"id": "C20", "title": "A rejected addBranch leaves the circuit unchanged", "statement": "If addBranch raises, the circuit is as before the call, and later valid addBranch calls succeed.", "quantifier": "every circuit and every invalid call", "why_tests_cant": "failure atomicity over all circuits", "anchors": ["pyscqed/circuit_graph.py:CircuitGraph.addBranch", "pyscqed/circuit_graph.py:CircuitGraph._update_components_map"]}
{"id": "C21", "title": "Component names identify branches", "statement": "After any sequence of successful addBranch calls each component name labels exactly one branch, getComponentEdge(name) returns an edge carrying that component, each edge belongs to exactly one of the capacitive/inductive/Josephson/phase-slip classes, and the get*Edges listings are exactly the components added with the corresponding prefix.", "quantifier": "every history of successful addBranch calls", "why_tests_cant": "over all circuits", "anchors": ["pyscqed/circuit_graph.py:CircuitGraph.addBranch", "pyscqed/circuit_graph.py:CircuitGraph.getComponentEdge", "pyscqed/circuit_graph.py:CircuitGraph.getCapacitiveEdges", "pyscqed/circuit_graph.py:CircuitGraph.isInductiveEdge"]}
{"id": "C22", "title": "Closure branches are the independent loops of the conductive circuit", "statement": "For every circuit the branches selected as spanning tree form a spanning forest of the conductive circuit (acyclic, same connectivity) and the number of closure branches is edges - nodes + connected components.", "quantifier": "every circuit graph of any size, with parallel branches", "why_tests_cant": "a graph-theoretic invariant over all multigraphs", "anchors": ["pyscqed/circuit_graph.py:CircuitGraph._get_spanning_tree", "pyscqed/circuit_graph.py:CircuitGraph._get_closure_branches", "pyscqed/circuit_graph.py:CircuitGraph._get_conductive_graph"]}
{"id": "C23", "title": "Every superconducting loop is a genuine cycle", "statement": "Each listed superconducting loop consists of one closure branch and spanning-tree branches and is a closed cycle of the circuit; each closure branch is in exactly its own loop.", "quantifier": "every circuit", "why_tests_cant": "the tree-path search silently relies on the order in which nodes were added; small test circuits do not show it", "anchors": ["pyscqed/circuit_graph.py:CircuitGraph._get_sc_loops", "pyscqed/circuit_graph.py:CircuitGraph.sc_loops"]}
{"id": "C24", "title": "Flux biases obey the loop rules", "statement": "After any history, each flux bias sits on a conductive branch that was in a superconducting loop when added; no branch carries two biases and no suffix is used twice; a bias has a mutual inductance only if the branch is inductive; failed calls change nothing.", "quantifier": "every history of circuit construction and biasing calls", "why_tests_cant": "an invariant over histories", "anchors": ["pyscqed/circuit_graph.py:CircuitGraph.addFluxBias", "pyscqed/circuit_graph.py:CircuitGraph.isEdgeInSuperconductingLoop"]}
{"id": "C25", "title": "Flux biases remain attached to the branch they were added to", "statement": "Adding further branches to a circuit never detaches or reorients an existing flux bias or inductive coupling: the biased edge remains an edge of the oriented superconducting circuit.", "quantifier": "every history with biases added before branches", "why_tests_cant": "depends on how the spanning tree changes when branches are added later", "anchors": ["pyscqed/circuit_graph.py:CircuitGraph.addFluxBias", "pyscqed/circuit_graph.py:CircuitGraph.addBranch", "pyscqed/circuit_graph.py:CircuitGraph._get_sc_circuit"]}
{"id": "C26", "title": "Charge biases obey the node rules", "statement": "After any history each node carries at most one charge bias, no suffix or coupling capacitance name is used twice, and failed calls change nothing.", "quantifier": "every history", "why_tests_cant": "an invariant over histories", "anchors": ["pyscqed/circuit_graph.py:CircuitGraph.addChargeBias"]}
{"id": "C27", "title": "Inductive couplings join two distinct inductors", "statement": "After any history each recorded coupling joins two different inductive branches, no pair is coupled twice and no mutual inductance name is used twice; failed calls change nothing.", "quantifier": "every history", "why_tests_cant": "an invariant over histories", "anchors": ["pyscqed/circuit_graph.py:CircuitGraph.coupleBranchesInductively"]}
{"id": "C28", "title": "Resonator couplings obey the node rules and can be removed", "statement": "After any history each node has at most one resonator, component names of resonators are not used elsewhere, failed calls change nothing, and removeAllResonators undoes exactly the resonator couplings.", "quantifier": "every history", "why_tests_cant": "an invariant over histories", "anchors": ["pyscqed/circuit_graph.py:CircuitGraph.coupleResonatorCapacitively", "pyscqed/circuit_graph.py:CircuitGraph.removeAllResonators"]}
{"id": "C29", "title": "Capacitance matrix is the circuit's charging energy form", "statement": "The capacitance matrix is symmetric, and its quadratic form at node voltages v (ground at 0) equals the sum over capacitors of C*(v_i - v_j)^2 plus the sum over charge biases of Cg*v_i^2; with non-negative capacitances it is positive semidefinite, and positive definite when every node is connected to ground through positive capacitances.", "quantifier": "every circuit and every capacitance values", "why_tests_cant": "a matrix identity for all sizes", "anchors": ["pyscqed/symbolic_system.py:SymbolicSystem.getCapacitanceMatrix"]}
{"id": "C30", "title": "Inverse inductance matrix is the circuit's inductive energy form", "statement": "The inverse inductance matrix is symmetric and, for uncoupled inductors, its quadratic form at node fluxes is the sum over inductors of (flux difference)^2/L; with mutual couplings it is R^T M^+ R with M the symmetric branch inductance matrix.", "quantifier": "every circuit and inductance values", "why_tests_cant": "a matrix identity for all sizes", "anchors": ["pyscqed/symbolic_system.py:SymbolicSystem.getInductanceMatrix", "pyscqed/symbolic_system.py:SymbolicSystem.getInverseInductanceMatrix", "pyscqed/symbolic_system.py:SymbolicSystem._get_topology_matrices"]}
{"id": "C31", "title": "Branch phases satisfy the flux quantisation around each loop", "statement": "The incidence matrix makes branch fluxes node-flux differences, so around every closed loop the signed branch fluxes sum to zero and adding the bias vector gives exactly the signed sum of the biases placed in the loop.", "quantifier": "every circuit, loop and node fluxes", "why_tests_cant": "for all loops of all circuits", "anchors": ["pyscqed/symbolic_system.py:SymbolicSystem._get_topology_matrices", "pyscqed/symbolic_system.py:SymbolicSystem.getFluxBiasVector"]}
{"id": "C32", "title": "Moving a flux bias between edges of a loop is a gauge choice", "statement": "moveFluxBias moves a bias between branches only, removing it from the source branch, and fails without effect when the branches are not in a common loop.", "quantifier": "every circuit, bias and branch pair", "why_tests_cant": "over all circuits", "anchors": ["pyscqed/symbolic_system.py:SymbolicSystem.moveFluxBias"]}
{"id": "C33", "title": "Charging and flux energies are invariant under coordinate transforms", "statement": "Transforming the coordinates by an invertible matrix and the capacitance / inverse inductance matrices by the code's congruences leaves both energies and the canonical pairing unchanged.", "quantifier": "every invertible transform and matrices of any size", "why_tests_cant": "a matrix identity for all sizes", "anchors": ["pyscqed/symbolic_system.py:SymbolicSystem.setTransform", "pyscqed/symbolic_system.py:SymbolicSystem.getChargingEnergies", "pyscqed/symbolic_system.py:SymbolicSystem.getFluxEnergies"]}
{"id": "C34", "title": "Modes coupled through inductors are never given a charge basis, uncoupled ones always are", "statement": "A coordinate is labelled as oscillator mode exactly when its row of the (transformed) inverse inductance matrix has a nonzero entry.", "quantifier": "every inverse inductance matrix of any size", "why_tests_cant": "the classification loop overwrites earlier labels; only particular coupling patterns with three modes show it", "anchors": ["pyscqed/symbolic_system.py:SymbolicSystem._create_coordinate_transforms"]}
{"id": "C35", "title": "Josephson and phase-slip terms are Hermitian and reduce to cosines", "statement": "For commuting unitary displacement operators the quantum Josephson energy -EJ/2 (prod D e^{i phi} + h.c.) is Hermitian for every branch, every flux bias and every orientation, and equals -EJ cos of the branch phase on simultaneous eigenstates.", "quantifier": "every circuit, branch and bias", "why_tests_cant": "operator identities in arbitrary star algebras", "anchors": ["pyscqed/symbolic_system.py:SymbolicSystem.getQuantumJosephsonEnergies", "pyscqed/symbolic_system.py:SymbolicSystem.getQuantumPhaseSlipEnergies"]}
{"id": "C36", "title": "User component names never collide with the system's derived parameters", "statement": "Every component value supplied by the user is used for that component only: the derived matrix-entry parameters created internally have names different from the user's components and from each other.", "quantifier": "every circuit and naming of components", "why_tests_cant": "names are arbitrary strings", "anchors": ["pyscqed/symbolic_system.py:SymbolicSystem.getCapacitanceMatrix", "pyscqed/symbolic_system.py:SymbolicSystem.getInverseCapacitanceMatrix", "pyscqed/symbolic_system.py:SymbolicSystem.getInductanceMatrix"]}
{"id": "C37", "title": "Charge basis displacement operators are exact", "statement": "For every truncation t the charge-basis operators have dimension 2t+1, the charge operator has eigenvalues t, t-1, ..., -t on the basis states and the displacement operator shifts the charge by exactly one, [Q, D] = D, annihilating the edge state; both are obtained from diagonalising the flux operator, independent of the numerical phases chosen by the diagonaliser.", "quantifier": "every truncation", "why_tests_cant": "the dimension is unbounded", "anchors": ["pyscqed/numerical_system.py:NumericalSystem._get_charge_basis_operators (charge basis section 1111-1157)"]}
{"id": "C38", "title": "Oscillator basis operators are canonical up to the truncation edge", "statement": "For every truncation n the oscillator charge and flux operators are Hermitian and their commutator is i (in the code's units) times the identity except in the last diagonal entry; getCommutator's correction accounts for exactly that entry.", "quantifier": "every truncation and impedance", "why_tests_cant": "the dimension is unbounded", "anchors": ["pyscqed/numerical_system.py:NumericalSystem.getCommutator", "pyscqed/numerical_system.py:NumericalSystem (oscillator basis section 1064-1109)"]}
{"id": "C39", "title": "Hilbert space size and operator expansion agree", "statement": "getHilbertSpaceSize is the product of the per-node dimensions, every expanded operator acts on that space, operators of different nodes commute and operator products on one node are preserved by the expansion.", "quantifier": "every list of node configurations", "why_tests_cant": "number of nodes and truncations unbounded", "anchors": ["pyscqed/numerical_system.py:NumericalSystem.getHilbertSpaceSize", "pyscqed/numerical_system.py:NumericalSystem.getExpandedOperatorsMap"]}
{"id": "C40", "title": "The swept Hamiltonian is the Hamiltonian at that point", "statement": "At every point of a parameter sweep the Hamiltonian (and current/voltage operators) used equals the one obtained by setting those parameter values on a fresh system and calling getHamiltonian.", "quantifier": "every system, sweep and point", "why_tests_cant": "relates two different code paths for all systems", "anchors": ["pyscqed/numerical_system.py:NumericalSystem.paramSweep", "pyscqed/numerical_system.py:NumericalSystem._presub", "pyscqed/numerical_system.py:NumericalSystem._postsub", "pyscqed/numerical_system.py:NumericalSystem.substitute"]}
{"id": "C41", "title": "Sweep results are returned under the requested evaluation", "statement": "For every list of requested evaluations, getSweep returns for each of them the values computed by that evaluation at each point.", "quantifier": "every list of evaluations and every sweep", "why_tests_cant": "over all lists of evaluations", "anchors": ["pyscqed/numerical_system.py:NumericalSystem.addEvaluation", "pyscqed/numerical_system.py:NumericalSystem.paramSweep", "pyscqed/numerical_system.py:NumericalSystem.getSweep", "pyscqed/numerical_system.py:NumericalSystem._evaluate_multiple"]}
{"id": "C42", "title": "Evaluations that need eigenvectors fail early, not with wrong data", "statement": "An evaluation list in which a dependent quantity comes before the Hamiltonian, or needs eigenvectors that are not computed, raises at the first point and stores nothing; otherwise each dependent evaluation is computed from the eigenpairs of the same point; stored current and voltage matrix elements are those between the states that the pairs of indices name, in order; a stored resonator response is that of the given node from the eigenpairs of the point, and None without a node.", "quantifier": "every list of evaluations", "why_tests_cant": "over all lists", "anchors": ["pyscqed/numerical_system.py:NumericalSystem._evaluate_multiple", "pyscqed/numerical_system.py:NumericalSystem._evaluate_single"]}
{"id": "C43", "title": "Resonator response matrices are Hermitian and rotating-wave", "statement": "Each strip matrix built by getResonatorResponse is Hermitian, its couplings connect only circuit level i with n photons to levels with neighbouring photon number and equal total excitations, and the zero-excitation strip is diagonal.", "quantifier": "every number of levels, strips and coupling values", "why_tests_cant": "matrix size unbounded", "anchors": ["pyscqed/numerical_system.py:NumericalSystem.getResonatorResponse"]}
{"id": "C44", "title": "Unit prefactors are always consistent with the chosen units", "statement": "After any sequence of successful unit changes each prefactor equals its defining formula in the current units; failed calls leave units and prefactors unchanged.", "quantifier": "every history of unit calls", "why_tests_cant": "an invariant over histories", "anchors": ["pyscqed/units.py:Units.setUnit", "pyscqed/units.py:Units.setEnergyUnit", "pyscqed/units.py:Units.setUnitPrefactor", "pyscqed/units.py:Units._updatePrefactors"]}
{"id": "C45", "title": "Physical predictions do not depend on the unit system", "statement": "For every two unit systems the physical charging, inductive and Josephson energies, computed as prefactor times circuit value expressed in those units times the energy unit, agree.", "quantifier": "every unit system and every component value", "why_tests_cant": "over all unit systems", "anchors": ["pyscqed/units.py:Units._updatePrefactors", "pyscqed/units.py:Units prefactor formulas"]}
{"id": "C46", "title": "Unit presets are never modified", "statement": "No operation on a Units object changes the presets used to construct later objects.", "quantifier": "every history on every number of Units objects", "why_tests_cant": "an aliasing property over histories", "anchors": ["pyscqed/units.py:Units.__init__", "pyscqed/units.py:Units.setUnit"]}
{"id": "C47", "title": "mdot is the matrix product of its arguments", "statement": "mdot(A1, ..., An) equals A1 A2 ... An for every n >= 1 (with the shape errors of the pairwise products), and hdot is the entrywise (Hadamard) product.", "quantifier": "every number of arguments and every matrices", "why_tests_cant": "number of arguments unbounded", "anchors": ["pyscqed/util.py:mdot", "pyscqed/util.py:hdot"]}
{"id": "C48", "title": "Diagonalisation returns sorted eigenpairs", "statement": "The eigenvalues returned are in ascending order and the k-th returned vector is an eigenvector for the k-th returned value, whatever order the backend produced.", "quantifier": "every backend result of any size", "why_tests_cant": "over all spectra including degenerate ones", "anchors": ["pyscqed/util.py:diagSparseH", "pyscqed/util.py:diagDenseH"]}
{"id": "C49", "title": "Pauli coefficients reproduce the reduced two-level Hamiltonian", "statement": "The coefficients returned by pauliCoefficients satisfy hx^2+hy^2+hz^2 = ((E1-E0)/2)^2 and reconstruct the Hermitian 2x2 Hamiltonian with those eigenpairs.", "quantifier": "every pair of energies and orthonormal eigenvectors", "why_tests_cant": "over all complex amplitudes", "anchors": ["pyscqed/util.py:pauliCoefficients"]}
{"id": "C50", "title": "Permutation-matrix decomposition is complete", "statement": "The M permutation matrices cover every matrix position exactly once so the decomposition coefficients reproduce the matrix, and the list of index sequences contains exactly the sequences of nonzero shifts that return to the start; the states visited along a sequence are the start moved by the partial sums.", "quantifier": "every matrix size M and every sequence length", "why_tests_cant": "sizes unbounded", "anchors": ["pyscqed/util.py:_get_permutation_matrices", "pyscqed/util.py:_get_decomposition", "pyscqed/util.py:_get_k_ij_map", "pyscqed/util.py:_get_unique_sequences", "pyscqed/util.py:_get_state_indices"]}
{"id": "C51", "title": "isStoquastic gives a verdict for every Hermitian matrix", "statement": "isStoquastic returns True or False for every matrix; True for matrices with non-positive real off-diagonal elements.", "quantifier": "every Hermitian matrix", "why_tests_cant": "over all matrices", "anchors": ["pyscqed/util.py:isStoquastic", "pyscqed/util.py:_get_coefficient"]}
{"id": "C52", "title": "Neighbours on the hypercube and bit-string states", "statement": "getNeighbours returns exactly the basis states at Hamming distance one, and stateFromBitstring gives distinct orthonormal product states for distinct bit strings.", "quantifier": "every number of qubits and bit string", "why_tests_cant": "length unbounded", "anchors": ["pyscqed/util.py:getNeighbours", "pyscqed/util.py:stateFromBitstring"]}
{"id": "C53", "title": "Temporary parts are never overwritten within a session", "statement": "Within one session every writePart returns a new file name and every previously returned name still reads back the data written to it, whatever other live objects write.", "quantifier": "every interleaving of writes by any number of objects with distinct identities", "why_tests_cant": "over all interleavings", "anchors": ["pyscqed/dataspec.py:TempData.newSession", "pyscqed/dataspec.py:TempData.writePart", "pyscqed/dataspec.py:TempData.readPart"]}
{"id": "C54", "title": "Clearing a session removes only that session's files", "statement": "clearSessionData deletes exactly the files under the object's own session directory and leaves all other sessions' parts readable; the object can then start a new session.", "quantifier": "every file system state and interleaving", "why_tests_cant": "over all states", "anchors": ["pyscqed/dataspec.py:TempData.clearSessionData"]}
{"id": "C55", "title": "latexify_param_name distinguishes parameter names", "statement": "Different parameter names give different LaTeX strings, at most one Greek prefix matches, and the result is the matched symbol (or the first character) with the rest as subscript; only the empty name raises.", "quantifier": "every string", "why_tests_cant": "strings are unbounded", "anchors": ["pyscqed/text2latex.py:latexify_param_name"]}
{"id": "C56", "title": "sanFloat/sanArray remove numerical noise only", "statement": "sanitising keeps the value of real numbers up to the stated tolerance and never mixes real and imaginary parts.", "quantifier": "every complex number", "why_tests_cant": "over all numbers", "anchors": ["pyscqed/util.py:sanFloat", "pyscqed/util.py:sanArray"]}
{"id": "C57", "title": "Diagonalisers return the lowest eigenvalues", "statement": "The eigenvalues returned by the sparse and dense diagonalisers with their default options are the requested number of lowest eigenvalues of the matrix, in ascending order.", "quantifier": "every spectrum and every number of requested eigenvalues", "why_tests_cant": "over all spectra; a positive spectrum and a negative one behave differently", "anchors": ["pyscqed/util.py:diagSparseH", "pyscqed/util.py:diagDenseH", "pyscqed/numerical_system.py:NumericalSystem.setDiagConfig"]}
{"id": "C58", "title": "Dressed-energy shifts are the documented energy differences", "statement": "For every array of dressed energies returned by getResonatorResponse, getACStarkShift, getResonatorShift and getCircuitLambShift read only entries inside the array and return the documented gaps between the states at the documented photon numbers.", "quantifier": "every number of levels and photons and every array of energies", "why_tests_cant": "array sizes are unbounded", "anchors": ["pyscqed/util.py:getACStarkShift", "pyscqed/util.py:getResonatorShift", "pyscqed/util.py:getCircuitLambShift"]}
{"id": "C59", "title": "Each flux bias enters the inductive energy on its own branch", "statement": "With all node fluxes at zero, the inductive energy is that of the branch inductances holding the applied branch fluxes: a bias on an inductor shifts the flux of that inductor and of no other.", "quantifier": "every circuit, bias assignment and component value", "why_tests_cant": "circuits are unbounded; single-inductor circuits do not show the difference", "anchors": ["pyscqed/symbolic_system.py:SymbolicSystem.getFluxBiasVector", "pyscqed/symbolic_system.py:SymbolicSystem.getClassicalHamiltonian"]}
{"id": "C60", "title": "Bias vectors transform with the coordinates", "statement": "Setting an invertible coordinate transform leaves the total biased energy of every physical state unchanged: the charge and flux bias vectors are transformed like the coordinates.", "quantifier": "every invertible transform, matrix and bias vector of any size", "why_tests_cant": "a matrix identity for all sizes", "anchors": ["pyscqed/symbolic_system.py:SymbolicSystem.setTransform", "pyscqed/symbolic_system.py:SymbolicSystem.getClassicalHamiltonian"]}
{"id": "C61", "title": "Josephson phases in transformed coordinates", "statement": "After a coordinate transform the argument of every Josephson cosine is the phase of the branch expressed in the new coordinates, i.e. each displacement operator moves its coordinate by the coefficient with which it enters that branch phase.", "quantifier": "every circuit, branch and invertible transform", "why_tests_cant": "over all circuits and transforms; permutations and signs do not show the difference", "anchors": ["pyscqed/symbolic_system.py:SymbolicSystem._create_node_dofs", "pyscqed/symbolic_system.py:SymbolicSystem.getQuantumJosephsonEnergies", "pyscqed/numerical_system.py:NumericalSystem._get_oscillator_basis"]}
{"id": "C62", "title": "Flux-basis operators", "statement": "In the flux basis of any truncation the flux operator is diagonal with the documented grid and the Josephson displacement operator is diagonal and unitary with the phases of that grid.", "quantifier": "every truncation", "why_tests_cant": "truncations are unbounded; the diagonaliser's phases are unspecified", "anchors": ["pyscqed/numerical_system.py:NumericalSystem._flux_basis", "pyscqed/numerical_system.py:NumericalSystem._discretized_flux_basis"]}
{"id": "C69", "title": "The resonator response lists the whole spectrum", "statement": "Each row of the array returned by getResonatorResponse contains every eigenvalue of its excitation strip exactly once, also when circuit and resonator are in resonance.", "quantifier": "every spectrum, resonator frequency, coupling and number of levels", "why_tests_cant": "over all spectra; coincidences of bare energies are isolated points", "anchors": ["pyscqed/numerical_system.py:NumericalSystem.getResonatorResponse"]}
{"id": "C63", "title": "Branch current operators", "statement": "The current operator of a branch is Hermitian and is the derivative of the energy of that branch with respect to its flux, with the same sign convention for inductors and junctions and including the flux bias applied to the branch.", "quantifier": "every circuit, branch, bias, unit system and state", "why_tests_cant": "over all states and component values; expectation values in symmetric states vanish", "anchors": ["pyscqed/numerical_system.py:NumericalSystem.getCurrentOperator"]}
{"id": "C64", "title": "Node voltage operators", "statement": "The voltage operator of a node is the derivative of the charging energy with respect to the charge of that node, so a charge on any capacitively coupled node contributes.", "quantifier": "every capacitance matrix, charge and bias vector, node", "why_tests_cant": "over all matrices", "anchors": ["pyscqed/numerical_system.py:NumericalSystem.getVoltageOperator"]}
{"id": "C65", "title": "Matrix elements of currents and voltages", "statement": "getCurrentMatrixElement and getVoltageMatrixElement return the matrix elements of the operator between the given states.", "quantifier": "every operator and pair of states", "why_tests_cant": "over all operators and states", "anchors": ["pyscqed/numerical_system.py:NumericalSystem.getCurrentMatrixElement", "pyscqed/numerical_system.py:NumericalSystem.getVoltageMatrixElement"]}
{"id": "C66", "title": "The Hamiltonian is Hermitian", "statement": "getHamiltonian returns a Hermitian operator for every circuit, basis choice, truncation, bias and component value, and fails only for a junction or phase slip that joins a node to itself.", "quantifier": "every circuit, basis choice, truncation, bias and component value", "why_tests_cant": "over all circuits and truncations", "anchors": ["pyscqed/numerical_system.py:NumericalSystem.getHamiltonian"]}
{"id": "C70", "title": "Static parts recombine to the Hamiltonian", "statement": "Summing the linear part and, for every junction, the static Josephson parts multiplied by the exponentials of its flux bias gives getHamiltonian of a circuit without phase slips.", "quantifier": "every circuit, bias and component value", "why_tests_cant": "over all circuits and biases", "anchors": ["pyscqed/numerical_system.py:NumericalSystem.getLinearPart", "pyscqed/numerical_system.py:NumericalSystem.getStaticJosephsonPart", "pyscqed/numerical_system.py:NumericalSystem.getHamiltonian"]}
{"id": "C71", "title": "Periodicity in the applied biases", "statement": "Changing the flux bias of junctions by whole flux quanta, or the charge bias of phase slips by whole Cooper pairs, leaves the Hamiltonian unchanged.", "quantifier": "every circuit, bias and integer", "why_tests_cant": "over all integers and circuits", "anchors": ["pyscqed/numerical_system.py:NumericalSystem.getHamiltonian", "pyscqed/numerical_system.py:NumericalSystem.substitute"]}
{"id": "C72", "title": "Levels of an LC oscillator", "statement": "A node with capacitance C and inductance L to ground, in the oscillator basis with n levels, has the energies ħω(k+1/2), k < n, with ω = 1/√(LC), in the configured energy unit.", "quantifier": "every unit system reached by calls on Units, capacitance, inductance and truncation", "why_tests_cant": "over all unit systems and truncations", "anchors": ["pyscqed/numerical_system.py:NumericalSystem._get_oscillator_basis", "pyscqed/numerical_system.py:NumericalSystem.getHamiltonian", "pyscqed/units.py:Units._updatePrefactors"]}
{"id": "C68", "title": "Building another numerical system does not change the symbolic system it is built on", "statement": "Creating a second numerical system (with the same or other units) from one symbolic system leaves the values of all parameters, in particular the derived capacitance, inductance, coupling, frequency and impedance of the resonators, what a single creation with those units gives.", "quantifier": "every symbolic system with any number of resonators, every sequence of constructions and units", "why_tests_cant": "a history property over an arbitrary number of constructions sharing one mutable object", "anchors": ["pyscqed/numerical_system.py:NumericalSystem.__init__", "pyscqed/numerical_system.py:NumericalSystem._set_parameter_units", "pyscqed/parameters.py:ParamCollection.addParameterisationPrefactor"]}
{"id": "C67", "title": "The classical potential function is the potential energy", "statement": "getClassicalPotentialFunction returns, for every circuit whose parameters have values, a function of the node fluxes and flux biases whose value is the potential energy of the circuit: minus the sum over the junctions of Ej I cos(2 pi (flux difference + bias)) plus half the sum over the inductors of El (flux difference)^2 / L; it names its inputs, and refuses a call that lacks one of them.", "quantifier": "all circuits, component values, biases, node fluxes and bias values", "why_tests_cant": "The value must be right at every point of a continuous domain for every circuit; a plot of one circuit shows neither the sign convention nor the circuits for which the function cannot be built.", "anchors": ["pyscqed/numerical_system.py:ClassicalPotentialBuilder", "pyscqed/numerical_system.py:NumericalSystem.getClassicalPotentialFunction", "pyscqed/symbolic_system.py:SymbolicSystem.getClassicalJosephsonEnergies"]}
{"id": "C73", "title": "Design frequency and impedance are realised", "statement": "The capacitance and inductance that a resonator's parameterisation derives from its design frequency and impedance are positive, give back exactly that frequency, 1 / (2 pi sqrt(L C)), and impedance, sqrt(L / C), and are the only positive values that do.", "quantifier": "all positive frequencies and impedances", "why_tests_cant": "The round trip must hold for every pair of real design values; sampled values cannot exclude a wrong constant or exponent that cancels for some of them.", "anchors": ["pyscqed/symbolic_system.py:SymbolicSystem._create_loaded_resonator_parameters"]}
{"id": "C74", "title": "Replacing resonators by their series capacitance leaves the circuit unchanged", "statement": "The system in which a resonator only adds the series capacitance of coupler and resonator at its node, and the extended system in which it is written out as branches with a node of its own (used for the loaded parameters), agree: their charging energies differ by one square per resonator, the extended capacitance matrix is invertible whenever the circuit's is, both inverses agree between circuit nodes, and the remaining entries are those of capacitive dividers.", "quantifier": "all circuits without capacitors joining a node to itself, any number of resonators, all component values with Cc + Cr nonzero", "why_tests_cant": "It relates two matrices of different size for every circuit graph and every number of resonators; tests fix both.", "anchors": ["pyscqed/symbolic_system.py:SymbolicSystem._create_loaded_resonator_parameters", "pyscqed/symbolic_system.py:SymbolicSystem.getCapacitanceMatrix", "pyscqed/circuit_graph.py:CircuitGraph.removeAllResonators", "pyscqed/circuit_graph.py:CircuitGraph.addBranch"]}
{"id": "C75", "title": "Loaded frequency, impedance and coupling", "statement": "The loaded frequency, impedance and coupling that the code reads off the extended circuit are sqrt(a / Lr), sqrt(a Lr) and k y / sqrt(2 sqrt(a Lr)), where y is the circuit's inverse capacitance at the coupled node, k = Cc / (Cc + Cr) and a = 1 / (Cc + Cr) + k^2 y; and with positive values loading only lowers the frequency, not below that with the coupler grounded: 1 / (Lr (Cc + Cr)) <= frl^2 <= 1 / (Lr Cr).", "quantifier": "all circuits without mutual inductances and without capacitors joining a node to itself, any number of resonators, all component values for which the circuit's capacitance matrix is invertible", "why_tests_cant": "The entries are read from the inverse of a matrix whose size and sparsity vary with the circuit; an index slip shows only for particular node orders.", "anchors": ["pyscqed/symbolic_system.py:SymbolicSystem._create_loaded_resonator_parameters", "pyscqed/symbolic_system.py:SymbolicSystem.getInverseCapacitanceMatrix", "pyscqed/symbolic_system.py:SymbolicSystem.getInverseInductanceMatrix"]}
{"id": "C76", "title": "The classical Hamiltonian is the stored energy and generates the circuit equations", "statement": "The classical Hamiltonian, at the charges that belong to given node voltages and at given node fluxes, is the energy stored in the capacitors, gate capacitors, resonator loads, inductors and junctions of the circuit. Its derivative by a node charge is the node voltage; its derivative by a node flux is the current that leaves the node through the inductors and junctions.", "quantifier": "every circuit, all component values, all biases, every node voltage and flux, with or without a coordinate transform", "why_tests_cant": "it is an identity between an expression built from matrices and pseudo-inverses and a sum over components, for every topology and every real value; tests compare a few circuits symbolically", "anchors": ["pyscqed/symbolic_system.py: getClassicalHamiltonian, getChargingEnergies, getFluxEnergies, getClassicalJosephsonEnergies, getRedFluxVector, getFluxBiasVector"]}
{"id": "C77", "title": "Reported energies are the coefficients of the Hamiltonian", "statement": "The energies a user reads off (charging, flux, Josephson and phase-slip energies of a numerical system; single-particle charging and Josephson energies of a symbolic system) are the coefficients of the corresponding terms of the Hamiltonian. Asking for one node or branch gives the same number as the dictionary of all; an unknown node or branch is an error.", "quantifier": "every circuit, all component values, biases and units, every node and branch, every choice of operator bases", "why_tests_cant": "the relation is an identity of operators for every circuit and every basis; tests compare numbers for a few circuits in one basis", "anchors": ["pyscqed/numerical_system.py: getChargingEnergies, getFluxEnergies, getJosephsonEnergies, getPhaseSlipEnergies, getHamiltonian", "pyscqed/symbolic_system.py: getSingleParticleChargingEnergies, getJosephsonEnergies, getClassicalHamiltonian"]}
{"id": "C78", "title": "Setting parameters keeps a numerical system up to date", "statement": "After setParameterValue or setParameterValues of a NumericalSystem returns, the numeric matrices, the operators of every node and the operator vectors are those of the present parameter values. They depend on the values only, not on the order or number of the calls that led there, including calls that raised. For an independent parameter the two methods do the same.", "quantifier": "all systems, all sequences of setParameterValue / setParameterValues calls with any arguments (failing calls included), all parameter values, all set iteration orders", "why_tests_cant": "A stale matrix or operator after some particular sequence of sets gives a plausible but wrong spectrum; tests try a few sequences only.", "anchors": ["pyscqed/numerical_system.py: setParameterValue", "pyscqed/numerical_system.py: setParameterValues", "pyscqed/numerical_system.py: substitute", "pyscqed/numerical_system.py: prepareOperators"]}
{"id": "C79", "title": "What a parameter sweep leaves behind", "statement": "After paramSweep ends normally the system is at the last point of the grid and no sweep specification or evaluation is pending; after it raises they are pending for the next sweep. In both cases setting the swept parameters back to their former values restores every parameter, matrix and operator, and hence every evaluation, to what it was before the sweep.", "quantifier": "all systems that are up to date before the sweep, all sweeps over independent parameters (any number of dimensions and points, any evaluations), ending normally or raising at any point", "why_tests_cant": "Leftovers of a sweep only show in a later call, and depend on where the sweep stopped.", "anchors": ["pyscqed/numerical_system.py: paramSweep", "pyscqed/numerical_system.py: newSweep", "pyscqed/numerical_system.py: addSweep", "pyscqed/numerical_system.py: _postsub", "pyscqed/numerical_system.py: _init_sweep_data"]}
{"id": "C80", "title": "Choosing the basis of a node", "statement": "configureOperator refuses a node that is not in the circuit and changes nothing; otherwise it changes only the configuration of its node. The oscillator basis gives the node a frequency and an impedance parameter that follow the components; other bases touch no parameter. Configuring a node again only replaces its truncation, and after the next successful set the operators of each node are those of its basis, truncation and present impedance. Choosing another basis makes the system as if that basis had been chosen first.", "quantifier": "all states of a numerical system, all nodes, truncations and bases, all expressions of the inverse matrices, all histories of parameter sets", "why_tests_cant": "A test configures a few circuits once; that nothing else changes, and that a choice can be repeated or taken back, is a statement about all states and histories.", "anchors": ["pyscqed/numerical_system.py: configureOperator, getOperatorList, getExpandedOperatorsMap, prepareOperators, setParameterValue"]}
{"id": "C81", "title": "Charge-basis Hamiltonian of a Josephson circuit", "statement": "For a circuit of capacitors and Josephson junctions without a transform, all nodes in the charge basis, the matrix returned by getHamiltonian has, between charge states, exactly the textbook elements: the electrostatic energy of the Cooper pairs on the nodes including the gate charges on the diagonal, and -EJ/2 times the phase of the flux bias for each junction crossed by one pair, in either direction; nothing else. In units that count charge in Cooper pairs and flux in flux quanta (the presets CQED1 and CQED2) these are the physical energies, (2e)^2/2C and Phi0 Ic/2pi, in the chosen energy unit.", "quantifier": "every circuit history, truncation of every node, component values, gate charges, flux biases, charge states and clean unit history", "why_tests_cant": "the matrix depends on the graph, tensor products, the diagonaliser's eigenvectors and the units together; tests compare a few spectra of known circuits at given truncations", "anchors": ["pyscqed/numerical_system.py: getHamiltonian, getLinearPart", "pyscqed/operators.py / charge basis operators", "pyscqed/units.py: prefactors"]}
{"id": "C82", "title": "Symmetries of the charge-basis Hamiltonian", "statement": "For a circuit of capacitors and junctions in the charge basis: (a) the number of pairs on a set of nodes not joined to the rest by junctions is conserved; (b) changing gate charges by whole pairs only renumbers the charge states; (c) the levels depend on the flux biases only through the sums around closed loops of junctions, and on those only modulo the flux quantum, so the branch that carries the bias does not matter; (d) reversing all gate charges and flux biases leaves the levels as they are.", "quantifier": "every circuit history, truncations, component values, biases, sets of nodes and closed walks", "why_tests_cant": "symmetries relate infinitely many pairs of bias points; tests sample a few", "anchors": ["pyscqed/numerical_system.py: getHamiltonian", "pyscqed/circuit_graph.py: addFluxBias, addChargeBias"]}
{"id": "C83", "title": "Junctions and phase slips in physical units", "statement": "In every reachable system of units the displacement operators of an oscillator node are exp(2 pi i a Phi/Phi0) and exp(2 pi i b Q/2e) of the node's flux and charge operators in physical units, and the energies reported for junctions and phase slips are Phi0 Ic/2pi and 2e Vc/2pi in the energy unit.", "quantifier": "every clean unit history, truncation, impedance, displacement, circuit and component values, and every choice of eigenvectors by the diagonaliser", "why_tests_cant": "depends on the product of several unit prefactors and on the exponential of a matrix; tests use the default units only", "anchors": ["pyscqed/numerical_system.py: _get_oscillator_basis, getJosephsonEnergies, getPhaseSlipEnergies", "pyscqed/units.py: prefactors"]}
{"id": "C85", "title": "Larger truncations never raise a level", "statement": "For a circuit of capacitors and junctions in the charge basis, the matrix element between two charge states does not depend on how many further states are kept, and for every k the k-th lowest level (counted with multiplicity) of the Hamiltonian never rises when truncations are enlarged, so levels converge from above. The same is expected of the oscillator basis.", "quantifier": "every circuit history, pair of truncations with one at least the other on every node, component values, biases, k and energy; for oscillators every unit system, LC values and number of states", "why_tests_cant": "a test compares the levels for a few truncations; the claim is about every pair of truncations and every level", "anchors": ["pyscqed/numerical_system.py: getHamiltonian, configureOperator", "pyscqed/operators.py: charge basis, oscillator basis"]}
{"id": "C84", "title": "Bulk reads and additions agree with single ones", "statement": "Reading many values at once gives for exactly the names asked for what reading them one by one gives, or fails with ValueError if one is unknown. allParametersSet is True exactly when every parameter has a value; parameterisationParametersSet is True exactly when all parameters the parameterisation is recorded to depend on have values. getSymbols and addParameters make exactly the missing parameters, without values, leave existing ones as they are whatever override is given, and touch no parameterisation; they fail exactly on an empty name, a name with a space or a missing override, and then exactly the names before it have been added.", "quantifier": "every reachable collection, list of names (with repetitions) and list of overrides", "why_tests_cant": "the lists of names, their order and repetitions and the histories before them are unbounded", "anchors": ["pyscqed/parameters.py: ParamCollection.getParameterValues, allParametersSet, parameterisationParametersSet, getSymbols, addParameters"]}
{"id": "C86", "title": "The Hamiltonian of a Josephson circuit is the one a physicist reads off the netlist", "statement": "Describe a circuit of capacitors and junctions by addBranch, addFluxBias and addChargeBias calls that all succeed, give the parameters values and put every node into the charge basis. The matrices of the Hamiltonian are computed exactly when every node is connected to the ground through non-zero capacitances (otherwise the inversion raises). If they are, the Hamiltonian is the operator read off the calls: the electrostatic energy of the Cooper pairs and gate charges in the capacitances that were added (including gate capacitances), minus, for each junction that was added, half its Josephson energy times the transfer of one pair across that junction with the phase of the flux bias given to it.", "quantifier": "all histories of successful calls describing capacitors and junctions between different nodes with flux and charge biases, every order of Python sets, all non-negative capacitances, all critical currents and bias values, all truncations, all systems of units with charge unit 2e and flux unit Phi0, all eigenvectors chosen by the solver", "why_tests_cant": "tests compare the lowest levels of a few known circuits; the claim is about every netlist, every parameter value and every truncation, from the calls through the graph, the capacitance matrix and its inverse, to the matrix elements", "anchors": ["pyscqed/circuit_graph.py:addBranch", "pyscqed/circuit_graph.py:addFluxBias", "pyscqed/circuit_graph.py:addChargeBias", "pyscqed/symbolic_system.py:SymbolicSystem", "pyscqed/numerical_system.py:getHamiltonian"]}
{"id": "C87", "title": "The energies do not depend on how the circuit is written down", "statement": "Describe the same circuit of capacitors and junctions in two ways: other numbers for the nodes, the branches added in another order, each from either end, and the same biases. Then one description can be quantised if and only if the other can, and the two Hamiltonians have the same levels with the same multiplicities. The same holds for circuits with inductors and phase slips and for any choice of bases, as long as both descriptions count the flux biases in the same direction.", "quantifier": "all pairs of histories describing the same circuit up to renaming nodes, reordering and reversing branches, every order of Python sets in each, all non-negative capacitances, all critical currents and biases, all truncations, all systems of units with charge unit 2e and flux unit Phi0", "why_tests_cant": "the number of orders and numberings grows factorially, and the oriented graph, the tensor order and the matrices all depend on them", "anchors": ["pyscqed/circuit_graph.py: addBranch, addFluxBias, addChargeBias", "pyscqed/symbolic_system.py: SymbolicSystem", "pyscqed/numerical_system.py: getHamiltonian"]}
{"id": "C88", "title": "Row l of a swept array is level l along the sweep", "statement": "When the results at the points of a sweep are arrays, the array returned by getSweep/getSweepResult has the axes of one result in reverse order followed by the independent variables, last one first. After a sweep of the energy levels, a[l, i] (a[l, 0, i] and a[l, 1, i] with eigenvectors) is the l-th level (and its vector) of the system set directly to the i-th value of the independent parameter and to the sweep points nearest the requested values of the others; getEigenValuesAndVectors separates the two. Results of different shapes make the request raise.", "quantifier": "every circuit and numerical system that is ready for a sweep, every sweep specification, every independent variable and static values, every number of levels, every shape of the results", "why_tests_cant": "the axes come from a stack, a reshape and a transposition whose effect depends on every size; a test with equal sizes or one parameter cannot tell a transposed array from the right one", "anchors": ["pyscqed/parameters.py: ParamCollection.getSweepResult", "pyscqed/numerical_system.py: NumericalSystem.getSweep, paramSweep", "pyscqed/util.py: getEigenValuesAndVectors"]}
{"id": "C89", "title": "A new system has exactly the parameters its circuit names, unset and with distinct symbols", "statement": "Describe a circuit by calls that all succeed and construct a SymbolicSystem from it. Then getParameterNamesList lists, once each, the components named in the calls, phi+suffix for every flux bias, Q+suffix for every charge bias, the eight parameters of every coupled resonator, and one L{i}{j}i for each entry of the inverse inductance matrix that is not zero and has more than one symbol; nothing else. None has a value and allParametersSet is False. The parametric ones are the five computed ones of each resonator and the matrix entries. Every parameter has its own symbol, from which getParameterFromSymbol finds it again, and none takes the symbol of a physical constant. The coefficients of the Hamiltonian depend on nothing but the listed parameters. The collection is one that theorems about collections apply to.", "quantifier": "every history of circuit calls that all succeed (without removeAllResonators), every matrix of expressions, every engine of expressions", "why_tests_cant": "the names are arbitrary strings and the circuit is of arbitrary size; a test sees a few circuits", "anchors": ["pyscqed/symbolic_system.py: SymbolicSystem.__init__, _create_circuit_symbols, _create_flux_bias_symbols, _create_charge_bias_symbols, _create_loaded_resonator_parameters, _create_coordinate_transforms", "pyscqed/parameters.py: ParamCollection.addParameter, addParameters, addParameterisation, getParameterNamesList, getParameterSymbolsList"]}
{"id": "C90", "title": "Components in parallel act as one component", "statement": "Describe a circuit of capacitors, junctions, gates and at most one flux bias with addBranch/addChargeBias/addFluxBias, and a second one in which two components between the same two nodes are replaced by one: two capacitors by one with the sum of the capacitances, two unbiased junctions by one with the sum of the critical currents, or a flux-biased pair of junctions (a SQUID that no other junctions bridge) by one unbiased junction with critical current sqrt(I1^2 + I2^2 + 2 I1 I2 cos 2 pi phi). In the charge basis with the same cutoffs, the Hamiltonians of the two circuits have exactly the same energy levels with the same multiplicities, and the second can be quantised if the first can. More generally, networks of capacitors and gate capacitors that store the same energy at all node voltages are interchangeable (so a gate capacitor counts as a capacitor to the ground). Circuits may also contain inductors and phase slips, in any bases: two unbiased inductors act as one with the inverse of the summed inverses, two phase slips as one with the summed energy; then any number of flux biases is allowed as long as both circuits count them in the same direction.", "quantifier": "all circuits of capacitors and junctions with charge biases and at most one flux bias, all component values, fluxes and gate charges, all cutoffs, all unit systems with flux unit phi0 and charge unit 2e, all ways Python orders its sets", "why_tests_cant": "the claim compares the spectra of two different circuits for all values of continuous parameters and all sizes; a test compares a few numerically diagonalised examples up to rounding", "anchors": ["pyscqed/circuit_graph.py: addBranch, addChargeBias, addFluxBias", "pyscqed/symbolic_system.py: _create_capacitance_matrix, getJosephsonEnergies, _create_flux_biases", "pyscqed/numerical_system.py: getHamiltonian, newBranchOperator"]}
{"id": "C91", "title": "How the energies answer to the component values and the flux", "statement": "For a circuit of capacitors and Josephson junctions diagonalized in the charge basis at any truncations: making capacitors or gate capacitors larger (everything else equal) never raises any energy level; changing critical currents and flux biases moves every level by at most the change of the Josephson energies plus the Josephson energies times the phase change 2*pi*dflux (in the flux direction the system uses); and every level lies within the sum of the Josephson energies of the electrostatic energy of the corresponding charge state, the lowest level never above the electrostatic energy of any charge state.", "quantifier": "every sequence of successful addBranch/addFluxBias/addChargeBias calls that describes such a circuit, all component values, charge and flux biases, truncations and unit settings with pairs of 2e and flux quanta, every level", "why_tests_cant": "The statements bound all levels for a continuum of component values and all circuits at once; a test evaluates a few values of a few circuits.", "anchors": ["pyscqed/numerical_system.py: NumericalSystem, getHamiltonian, setParameterValue", "pyscqed/symbolic_system.py: getQuadraticEnergies, getQuantumHamiltonian, getInverseCapacitanceMatrix"]}
{"id": "C92", "title": "It does not matter which junction of a loop carries the flux bias", "statement": "Describe a circuit of capacitors, junctions and gates twice, once with addFluxBias on one junction and once, with the same (or the opposite) flux, on another junction in series with it: the two are the only junctions between some part of the circuit and the rest, so that every loop of junctions through one goes through the other. In the charge basis with the same cutoffs, both circuits have exactly the same energy levels with the same multiplicities.", "quantifier": "all circuits of capacitors and junctions with charge biases and one flux bias, all pairs of junctions in series, all component values, fluxes and gate charges, all cutoffs, all unit systems with flux unit phi0 and charge unit 2e, all ways Python orders its sets", "why_tests_cant": "the claim compares the spectra of two circuits for all values of continuous parameters and all sizes; a test compares a few numerically diagonalised examples up to rounding", "anchors": ["pyscqed/circuit_graph.py: addFluxBias, addBranch", "pyscqed/symbolic_system.py: _create_flux_biases, getJosephsonEnergies", "pyscqed/numerical_system.py: getHamiltonian"]}
{"id": "C93", "title": "Parts of a circuit that share only the ground do not influence each other", "statement": "Describe with addBranch/addChargeBias/addFluxBias a circuit of capacitors, junctions and gates that consists of two circuits with no node but the ground in common, each with at most one flux bias. In the charge basis with the same cutoffs, the energy levels of the whole are exactly the sums of a level of the one part and a level of the other, with the multiplicities this gives, and the whole can be quantised if the parts can. The same holds in any bases for parts with inductors, phase slips and any number of flux biases that the whole counts in the same direction as the parts.", "quantifier": "all pairs of circuits of capacitors and junctions with charge biases and at most one flux bias each, all orders in which their branches and biases are added to the whole, all component values, fluxes and gate charges, all cutoffs, all unit systems with flux unit phi0 and charge unit 2e, all ways Python orders its sets", "why_tests_cant": "the claim compares the whole spectra of three circuits for all values of continuous parameters and all sizes; a test compares a few numerically diagonalised examples up to rounding", "anchors": ["pyscqed/circuit_graph.py: addBranch, addFluxBias, addChargeBias", "pyscqed/symbolic_system.py: _create_capacitance_matrix, getJosephsonEnergies", "pyscqed/numerical_system.py: getHamiltonian, getOperatorList"]}
{"id": "C94", "title": "The Hamiltonian that is printed is the one that is diagonalised", "statement": "The expression returned by getQuantumHamiltonian of a SymbolicSystem, with component values and biases replaced by their values and the operator symbols replaced by the operators of the chosen bases, is the Hamiltonian of the NumericalSystem for the same circuit when all unit prefactors are 1; with other units each of its four terms is multiplied by the prefactor of its kind. This holds after any moves of the flux biases and under any coordinate transform. The expression exists unless a junction or phase slip joins a node to itself. With numbers exp(i phi) for the displacement operators it is the classical Hamiltonian plus the phase-slip terms.", "quantifier": "all circuits built by addBranch, addChargeBias and addFluxBias, all component and bias values, all invertible transforms, all bases, cutoffs and operators, all moves of flux biases, all unit systems", "why_tests_cant": "the claim equates a symbolic expression with matrices of any size, for every circuit; a test can substitute small matrices in a few expressions", "anchors": ["pyscqed/symbolic_system.py: getQuantumHamiltonian, getChargingEnergies, getFluxEnergies, getQuantumJosephsonEnergies, getQuantumPhaseSlipEnergies, getClassicalHamiltonian, getJosephsonEnergies", "pyscqed/numerical_system.py: getHamiltonian, getOperatorList"]}
{"id": "C95", "title": "No two quantities share a symbol", "statement": "In the expressions of a SymbolicSystem with the default prefixes two different quantities have different symbols: the six operators of every node, the parameters, and the flux, reduced flux, charge and reduced charge biases. The reduced flux of a node (used by getClassicalHamiltonian) differs from a reduced flux bias unless the bias has the number of the node as its suffix. The symbols of branches differ if nodes have one digit.", "quantifier": "all circuits, all node numbers, all suffixes, all component names, all resonators", "why_tests_cant": "collisions depend on how names and numbers run together; a test tries a few names", "anchors": ["pyscqed/symbolic_system.py: _create_node_dofs, _add_branch_dofs, getRedFluxVector, getVoltageVector, getCurrentVector, _create_flux_bias_symbols, _create_charge_bias_symbols, _create_parameters"]}
{"id": "C96", "title": "The listed loops are independent, complete and consist of branches", "statement": "After every successful addBranch, loops_map lists closed loops made of branches of the circuit from which every closed loop, or union of closed loops, is obtained in exactly one way by putting some of them together (branches met twice cancel). If no branch joins a node to itself each of them is a cycle without repeated nodes or branches. Every entry of loop_adjacency_map names two different loops and branches that both contain. If the nodes are first mentioned in ascending order the entries are exactly the pairs of loops with a common branch, with exactly the common branches; for other orders pairs can be missing, as a concrete circuit shows.", "quantifier": "all circuits built by any calls, any number of parallel branches, any cycle basis that networkx may return for the graph without parallel branches, all closed sets of branches", "why_tests_cant": "independence and completeness range over all closed sets of branches of graphs of any size; a test can only list the loops of a few graphs", "anchors": ["pyscqed/circuit_graph.py: addBranch, _get_loop_graph, loops_map, loop_adjacency_map, drawGraphViz"]}
{"id": "C97", "title": "The diagonalised Hamiltonian of any circuit is the one read off its description", "statement": "For every circuit of capacitors, inductors, junctions and phase slips described by successful calls, and for every choice of basis, truncation and node operators, getHamiltonian returns the operator read off the calls: charging energy in the capacitances, (Φa-Φb+bias)²/2L for every inductor, the cosine of every junction and of every phase slip between the nodes it was added between, with the ground at rest, the flux bias given to each component and the gate charges of the nodes. It exists exactly if every node is connected to the ground through non-zero capacitances.", "quantifier": "all call histories of branches, flux biases and charge biases; all component and bias values; all bases, truncations and node operators that can be put on the whole space", "why_tests_cant": "a test compares a few circuits in one basis with known spectra; the claim is about every topology, every mix of components and every basis", "anchors": ["pyscqed/numerical_system.py: getHamiltonian, getLinearPart, prepareOperators, substitute", "pyscqed/symbolic_system.py: getInverseCapacitanceMatrix, getInverseInductanceMatrix, getJosephsonVector, getPhaseSlipVector, getFluxBiasMatrix, getChargeBiasVector", "pyscqed/circuit_graph.py: addBranch, addFluxBias, addChargeBias"]}
{"id": "C98", "title": "How the energies of any circuit respond to component values and drives", "statement": "For every circuit of capacitors, inductors, junctions and phase slips, every coordinate transform and every basis: making any capacitance, gate capacitance or (positive) inductance larger never raises any energy level; changing critical currents, fluxes of junctions or phase-slip amplitudes moves no level by more than the changes of the Josephson and phase-slip energies plus 2π times the Josephson energies times the changes of the fluxes; and no level is below minus the sum of the Josephson and phase-slip energies.", "quantifier": "all call histories of branches and biases; all component values with non-negative capacitances and positive inductances and all changes of them; all biases, transforms, truncations and node operators (Hermitian, with adjoint displacements that lengthen no state); every level", "why_tests_cant": "a sweep compares finitely many values of one circuit; the claims hold for every level of every circuit and every pair of values", "anchors": ["pyscqed/numerical_system.py: getHamiltonian, getLinearPart, substitute, paramSweep, diagonalize", "pyscqed/symbolic_system.py: getInverseCapacitanceMatrix, getInverseInductanceMatrix, getJosephsonVector, getPhaseSlipVector"]}
{"id": "C99", "title": "The current and voltage operators of any circuit", "statement": "For every circuit of capacitors, inductors, junctions and phase slips (no transform): the current operator of a branch is (Φ_a - Φ_b)/L for an inductor and minus the critical current times the sine of the phase difference with the flux bias for a junction, in the units chosen; every other branch is refused; the voltage operator of a node is the charge with its gate charge times the diagonal of the inverse capacitance matrix. The current operator of a junction is, up to a constant of the units, the derivative of the Hamiltonian by the flux bias of the junction. With a coordinate transform the current of an inductor is wrong (shown for an inductor with a capacitor: a factor 4), and with a mutual inductance too: what the current of the partner contributes is left out.", "quantifier": "all call histories of branches and biases; all component values; all biases, truncations and node operators; every branch and node", "why_tests_cant": "a test reads the current of a few branches of a few circuits; the claim ties the operator of every branch of every circuit to the description and to the Hamiltonian", "anchors": ["pyscqed/numerical_system.py: getCurrentOperator, getVoltageOperator", "pyscqed/symbolic_system.py: getInverseInductanceMatrix, getJosephsonVector, getFluxBiasVector"]}
{"id": "C100", "title": "The two ways of giving the computational operator agree over a sweep", "statement": "pauliCoefficients gives the same coefficients at every point of a sweep for an operator on the Hilbert space and for the list that createSubspaceOperators makes of its four matrix elements. If the operator couples the two states at every point, every point has coefficients and they depend neither on the phases with which the levels were returned nor on the eigensolver. A point whose states are not coupled has no coefficients (NaN). With the matrix elements that a sweep of currents or voltages returns (their real parts) the two forms agree for real operators and states, and not in general.", "quantifier": "all sweeps (any number of points, any energies, any states on any Hilbert space), all operators, all eigensolvers, all phases of the states", "why_tests_cant": "a test compares the two forms on one sweep with the phases one eigensolver happens to return; the claim is for all phases, and the counterexample needs a phase that a test does not choose", "anchors": ["pyscqed/util.py: createSubspaceOperators, pauliCoefficients", "pyscqed/numerical_system.py: getCurrentMatrixElement, getVoltageMatrixElement"]}
{"id": "C101", "title": "From the calls that describe a circuit to its levels over a sweep", "statement": "Describe a circuit with addBranch, addFluxBias and addChargeBias, make its numerical system, configure the bases of its nodes and set its parameters: getHamiltonian returns the operator that physics assigns to the netlist at the present parameter values, with charging energies from the capacitors, inductive energies at the fluxes across the biased inductors, and a cosine for each junction and each phase slip, on the operators that the bases give the nodes. Sweep any of its parameters and ask getSweep for the levels as a function of one of them: entry l, i of the returned array is the l-th level of that operator at the i-th value of the parameter, at the sweep points nearest the requested values of the other swept parameters, and at the present values of all others.", "quantifier": "all circuits of capacitors, inductors, junctions and phase slips with flux and charge biases, all physical parameter values, all bases and operators of the nodes, all unit systems, all sweeps over any number of parameters, all eigensolvers", "why_tests_cant": "a test follows one circuit through the chain of calls; that every number of every attribute ends in the right place of the operator for every netlist, and stays there at every point of every sweep, is not a finite check", "anchors": ["pyscqed/numerical_system.py: setParameterValues, substitute, prepareOperators, getExpandedOperatorsMap, getHamiltonian, paramSweep, getSweep", "pyscqed/symbolic_system.py: getInverseCapacitanceMatrix, getInverseInductanceMatrix, getFluxBiasVectorInd, getChargeBiasVector", "pyscqed/circuit_graph.py: addBranch, addFluxBias, addChargeBias"]}
{"id": "C102", "title": "The symbolic attributes of a circuit are its matrices, and stay so in use", "statement": "Describe a circuit with addBranch, addFluxBias and addChargeBias and make its symbolic and its numerical system. The expressions that the numerical system stores for the inverse capacitances, inverse inductances, junctions, phase slips, gate charges and fluxes have, at all parameter values at which the circuit can be quantised, the values of the matrices and vectors of the circuit, also where an entry was replaced by the symbol of a derived parameter. This remains so whatever bases are configured, values set and sweeps laid out afterwards, so that getHamiltonian always returns the operator read off the netlist at the present values. When such a system is swept, the levels that are returned for a variable are those of this operator at the points of the sweep.", "quantifier": "all circuits of capacitors, inductors, junctions and phase slips with flux and charge biases in which no component has the name of a matrix element, all histories of configureOperator and setParameterValues, all sweeps, all physical parameter values, all implementations of symbolic arithmetic that compute correctly", "why_tests_cant": "a test compares one matrix of one circuit at one set of values; that an entry, the symbol put in its place, and the parameterisation of that symbol agree for every circuit at all values after every history is not a finite check", "anchors": ["pyscqed/numerical_system.py: __init__, getSymbolicExpressions, configureOperator, setParameterValues, getHamiltonian", "pyscqed/symbolic_system.py: __init__, getCapacitanceMatrix, getInverseCapacitanceMatrix, getInverseInductanceMatrix, getJosephsonVector, getPhaseSlipVector, getChargeBiasVector, getFluxBiasVector", "pyscqed/parameters.py: addParameterisation", "pyscqed/numerical_system.py: paramSweep, getSweep"]}
{"id": "C103", "title": "From the calls to the operator and its use, with mutual inductances", "statement": "Describe a circuit with addBranch, addFluxBias, addChargeBias and, after the last branch, coupleBranchesInductively. Whatever the order and the values, if every node is connected to the ground through capacitors the Hamiltonian exists, and its inductive part is half the sum of current times flux over the inductors, for any currents that produce the fluxes of the inductors through the self and mutual inductances of the calls; if the inductance matrix is invertible this is El/2 times the form of its inverse at the fluxes. All other parts are those of the circuit without inductors. The symbolic attributes of such a circuit have the values of these matrices at all values for which the inductors store positive energy, and after any use of the numerical system that ends in a successful setParameterValues getHamiltonian returns this operator at the values set. When such a system is swept, the levels that are returned for a variable are those of this operator at the points of the sweep.", "quantifier": "all circuits of capacitors, inductors, junctions and phase slips with flux and charge biases and any number of mutual inductances between different inductors, all values of components and biases with non-negative capacitances, all bases, truncations and operators of the nodes", "why_tests_cant": "the mutual inductances enter through a pseudo-inverse of a matrix over all branches of the oriented graph, so that each entry of the Hamiltonian depends on the whole circuit; a test checks a few numbers of one circuit", "anchors": ["pyscqed/circuit_graph.py: coupleBranchesInductively, addBranch, addFluxBias, addChargeBias", "pyscqed/symbolic_system.py: getBranchInductanceMatrix, getInverseInductanceMatrix", "pyscqed/numerical_system.py: getHamiltonian, getLinearPart", "pyscqed/symbolic_system.py: getSymbolicExpressions", "pyscqed/numerical_system.py: setParameterValues, configureOperator", "pyscqed/numerical_system.py: paramSweep, getSweep"]}
{"id": "C104", "title": "From the calls to the operator and its use, with resonators", "statement": "Describe a circuit with addBranch, addFluxBias, addChargeBias, coupleBranchesInductively after the last branch, and coupleResonatorCapacitively and removeAllResonators at any time. The Hamiltonian exists exactly if every node is connected to the ground through non-zero capacitances, where a resonator counts if neither its capacitance nor that of its coupling is zero. It is the Hamiltonian read off the calls: a resonator that was coupled and not removed since adds to the capacitance of its node the coupling capacitance in series with the resonator capacitance, which is the energy of a floating resonator, and changes nothing else. The symbolic attributes of such a circuit have the values of these matrices, and after any use of the numerical system that ends in a successful setParameterValues getHamiltonian returns this operator at the values set, with the resonator capacitance 1/(2 pi f Z) for the frequency and the impedance of the resonator. When such a system is swept, the levels that are returned for a variable are those of this operator at the points of the sweep, with the resonator capacitances of those points.", "quantifier": "all circuits of capacitors, inductors, junctions and phase slips with flux and charge biases, mutual inductances and resonators, in any order of the calls, all values with non-negative capacitances, all bases, truncations and operators of the nodes", "why_tests_cant": "the load of a resonator enters the inverse of the whole capacitance matrix, and resonators can be coupled and removed any number of times between other calls; a test checks a few numbers of one circuit", "anchors": ["pyscqed/circuit_graph.py: coupleResonatorCapacitively, removeAllResonators", "pyscqed/symbolic_system.py: getCapacitanceMatrix, getInverseCapacitanceMatrix", "pyscqed/numerical_system.py: getHamiltonian", "pyscqed/symbolic_system.py: _create_loaded_resonator_parameters, getSymbolicExpressions", "pyscqed/numerical_system.py: setParameterValues, configureOperator", "pyscqed/numerical_system.py: paramSweep, getSweep"]}
{"id": "C105", "title": "Node numbers, branch numbers and the sparsity of operators", "statement": "getNodeList returns the nodes of the circuit other than the ground, each once, and getNodeIndex gives the position of a node in that list and raises for any other node. getEdgeList and getEdgeIndex do the same for the inductors, junctions and phase slips added with addBranch, and raise for capacitors. The capacitance matrix, read with these numbers, has off the diagonal minus the capacitance between the two nodes and on the diagonal the capacitance of all capacitors at the node with its gate capacitance and resonator load. sparsity returns the fraction of zero elements of an operator, between 0 and 1.", "quantifier": "all sequences of accepted construction calls, all nodes and branches, all values of the components, all truncations of the bases and all operators of the circuit", "why_tests_cant": "A test compares a few circuits with nodes in the order they were added. The numbers have to address the same rows and columns for every order of calls and every topology, and the fraction has to be right for every truncation.", "anchors": ["pyscqed/numerical_system.py: NumericalSystem.getNodeList", "pyscqed/numerical_system.py: NumericalSystem.getNodeIndex", "pyscqed/numerical_system.py: NumericalSystem.getEdgeList", "pyscqed/numerical_system.py: NumericalSystem.getEdgeIndex", "pyscqed/numerical_system.py: NumericalSystem.sparsity", "pyscqed/symbolic_system.py: SymbolicSystem.getCapacitanceMatrix"]}
{"id": "C106", "title": "The ground energy is concave in the values the Hamiltonian is linear in", "statement": "For every circuit of capacitors, inductors, junctions and phase slips with fixed biases, every coordinate transform and every basis: if critical currents, phase-slip amplitudes and inverse inductances are mixed in the proportion c to 1-c between two sets of values (same capacitances), the Hamiltonian is the same mixture of the two Hamiltonians, and its lowest level is not below the same mixture of the two lowest levels. A sweep of a critical current, a phase-slip amplitude or an inverse inductance therefore shows a ground level that is concave.", "quantifier": "all sequences of accepted construction calls without mutual inductances and resonators, all component values with positive inductances, all biases, all proportions c from 0 to 1, all transforms, all bases and truncations", "why_tests_cant": "A test sees a few points of a few sweeps. Concavity is a statement about all pairs of values, and it fails for every circuit as soon as one term is weighted with the wrong power of its value.", "anchors": ["pyscqed/numerical_system.py: NumericalSystem.getHamiltonian", "pyscqed/numerical_system.py: NumericalSystem.getLinearPart", "pyscqed/symbolic_system.py: SymbolicSystem.getJosephsonVector", "pyscqed/symbolic_system.py: SymbolicSystem.getPhaseSlipVector", "pyscqed/symbolic_system.py: SymbolicSystem.getInverseInductanceMatrix"]}
{"id": "C107", "title": "Reversing the fluxes, or the fluxes and the charges, does not change the energies", "statement": "For every circuit, with mutual inductances, resonators and coordinate transforms: if the Hamiltonian can be built for some values and biases, it can be built with all flux biases negated and has the same energy levels; and it can be built with all flux biases and all charge biases negated and has the same energy levels. Each node may be in the oscillator basis or in the charge basis, and for the second claim also in a flux basis. Whole flux quanta on junctions change nothing, so the energies at fluxes m - phi are those at phi for whole numbers m that are zero on inductors. A sweep of the flux of one junction is therefore symmetric about 0 and about half a flux quantum when the other fluxes are zero.", "quantifier": "all circuits, all component values, all flux and charge biases, all coordinate transforms, all truncations, all numbers of levels, all nodes in charge bases (with equal phases of the basis states) or oscillator bases, all diagonalisations the basis constructors may return", "why_tests_cant": "A test compares a few points of a few sweeps. The symmetry must hold for every circuit and is broken by a sign error in one term, which a test at zero bias or of another circuit does not show.", "anchors": ["pyscqed/numerical_system.py: NumericalSystem.getHamiltonian", "pyscqed/numerical_system.py: NumericalSystem.getLinearPart", "pyscqed/numerical_system.py: NumericalSystem._get_oscillator_basis, NumericalSystem._get_charge_basis", "pyscqed/symbolic_system.py: SymbolicSystem.getFluxBiasVector", "pyscqed/symbolic_system.py: SymbolicSystem.getChargeBiasVector"]}
{"id": "C108", "title": "At zero or half a flux quantum a non-degenerate state carries no current, without charge biases no voltage, and transitions obey a selection rule", "statement": "For every circuit, with mutual inductances, resonators and coordinate transforms: if every flux bias of a junction is a multiple of half a flux quantum and the flux biases of inductors are zero, then in every eigenstate whose energy no other state has, the current matrix element of the state with itself is zero for every branch that has a current operator, whatever the charge biases. If moreover the charge biases are zero, the voltage matrix element of the state with itself is zero for every node. In that case currents and voltages also drive no loop of three transitions: for three non-degenerate eigenstates 1, 2, 3 and any three current or voltage operators, one of the matrix elements 1-2, 2-3, 1-3 is zero.", "quantifier": "all circuits, all component values, all flux biases that are multiples of half a flux quantum, all charge biases (zero for the voltage), all coordinate transforms, all truncations, all branches and nodes, all non-degenerate eigenstates, all bases in which the reversal exists (charge and oscillator bases; flux bases too if there are no charge biases)", "why_tests_cant": "A test computes the current at a few bias points of a few circuits. A wrong sign or phase in one term of the current operator or of the Hamiltonian gives a persistent current at a symmetry point only for circuits that have this term.", "anchors": ["pyscqed/numerical_system.py: NumericalSystem.getHamiltonian", "pyscqed/numerical_system.py: NumericalSystem.getCurrentOperator", "pyscqed/numerical_system.py: NumericalSystem.getCurrentMatrixElement", "pyscqed/numerical_system.py: NumericalSystem.getVoltageOperator", "pyscqed/numerical_system.py: NumericalSystem.getVoltageMatrixElement"]}
