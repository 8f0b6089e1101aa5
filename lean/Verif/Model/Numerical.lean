import Verif.Model.Sweep

/-!
# `NumericalSystem` as a state machine: substitution, operators, sweeps, evaluations (pyscqed/numerical_system.py)

What the methods compute from the numeric attributes and operators is given by a `Phys`; `Verif.Model.Hamiltonian`, `Verif.Model.Operators`
and `Verif.Model.Resonator` model those computations.  The code of `progress.bar` and the timings are not modelled.
-/

namespace Verif.Num

open Verif

/-- The symbolic attributes that are turned into numbers, with their entries in row order (numerical_system.py 280-297).  `Pb` is only
set by `substitute` and used nowhere; it is left out. -/
inductive Attr
  | Cinv | Linv | J | Ps | Qb | Qbt | Pbm | Pbi | LinvB
  deriving DecidableEq, Repr

/-- The basis names of `configureOperator` (numerical_system.py 126-131). -/
inductive BasisName
  | charge | oscillator | flux | discretizedFlux | unknown
  deriving DecidableEq, Repr

/-- An entry of `operator_data` (numerical_system.py 154-160). -/
structure OpCfg (E : Type) where
  trunc : ℕ
  basis : BasisName
  impedance : Option E
  deriving DecidableEq

/-- The methods that can be evaluated in a sweep (numerical_system.py 499-507). -/
inductive Method
  | getHamiltonian | getResonatorResponse | getCurrentMatrixElement | getVoltageMatrixElement
  | getChargingEnergies | getFluxEnergies | getJosephsonEnergies
  deriving DecidableEq, Repr

/-- The keyword arguments of those methods.  Simplification: only the arguments the methods accept can be given. -/
structure Kw where
  edge : Option (ℕ × ℕ × ℕ) := none
  node : Option ℕ := none
  elements : Option (List (ℤ × ℤ)) := none
  cpl_node : Option ℕ := none
  nmax : ℕ := 100
  deriving DecidableEq, Repr

/-- An evaluation (numerical_system.py 499-507, 868-875). -/
structure Entry where
  eval : Method
  diag : Bool
  depends : Option Method
  kwargs : Kw := {}
  deriving DecidableEq, Repr

/-- `__eval_spec` (numerical_system.py 499-507). -/
def evalSpec : Dict String Entry :=
  [("Hamiltonian", ⟨.getHamiltonian, true, none, {}⟩),
   ("Resonator", ⟨.getResonatorResponse, false, some .getHamiltonian, {}⟩),
   ("Current", ⟨.getCurrentMatrixElement, false, some .getHamiltonian, {}⟩),
   ("Voltage", ⟨.getVoltageMatrixElement, false, some .getHamiltonian, {}⟩),
   ("ChargingEnergy", ⟨.getChargingEnergies, false, none, {}⟩),
   ("FluxEnergy", ⟨.getFluxEnergies, false, none, {}⟩),
   ("JosephsonEnergy", ⟨.getJosephsonEnergies, false, none, {}⟩)]

/-- The string under which a result is stored: the name of the method. -/
def Method.name : Method → String
  | .getHamiltonian => "getHamiltonian"
  | .getResonatorResponse => "getResonatorResponse"
  | .getCurrentMatrixElement => "getCurrentMatrixElement"
  | .getVoltageMatrixElement => "getVoltageMatrixElement"
  | .getChargingEnergies => "getChargingEnergies"
  | .getFluxEnergies => "getFluxEnergies"
  | .getJosephsonEnergies => "getJosephsonEnergies"

/-- The attributes of a `NumericalSystem` and of its symbolic system that matter for sweeps (numerical_system.py 33-58).  `O` holds the
six operators of a node on the whole space; `Qnp` and `Pnp` are built from `circ` in one go: `vec`. -/
structure NS (E R O : Type) where
  sw : SW E R
  exprs : Attr → List E
  pre : Attr → List E := fun _ => []
  num : Dict Attr (List PF) := []
  nodes : List ℕ
  cfg : Dict ℕ (OpCfg E) := []
  circ : Dict ℕ O := []
  vec : Option (List O) := none
  regen : List ℕ := []
  specs : List SweepSpec := []
  evals : List Entry := []

namespace NS

variable {E R O : Type}

/-- The parameter of the impedance of an oscillator, `"Zosc%i" % node`. -/
def zName (node : ℕ) : String := "Zosc" ++ toString node

/-- The parameter of the frequency of an oscillator, `"fosc%i" % node`. -/
def fName (node : ℕ) : String := "fosc" ++ toString node

/-- `configureOperator` (numerical_system.py 133-160).  `freq` and `imp` are the expressions `√(Linv Cinv)` and `√(Cinv / Linv)` of the
diagonal elements of that node. -/
def configureOperator (eng : Engine E) (st : NS E R O) (freq imp : ℕ → E) (node trunc : ℕ) (basis : BasisName) : NS E R O × Except Err Unit :=
  if node ∉ st.nodes then (st, .error .userError)
  else if basis = .oscillator then
    match st.sw.pc.addParameter (fName node) with
    | (pc, .error e) => ({ st with sw := { st.sw with pc := pc } }, .error e)
    | (pc, .ok ()) =>
    match pc.addParameterisation eng (fName node) (freq node) with
    | (pc, .error e) => ({ st with sw := { st.sw with pc := pc } }, .error e)
    | (pc, .ok ()) =>
    match pc.addParameter (zName node) with
    | (pc, .error e) => ({ st with sw := { st.sw with pc := pc } }, .error e)
    | (pc, .ok ()) =>
    match pc.addParameterisation eng (zName node) (imp node) with
    | (pc, .error e) => ({ st with sw := { st.sw with pc := pc } }, .error e)
    | (pc, .ok ()) => ({ st with sw := { st.sw with pc := pc }, cfg := st.cfg.set node ⟨trunc, basis, some (imp node)⟩ }, .ok ())
  else ({ st with cfg := st.cfg.set node ⟨trunc, basis, none⟩ }, .ok ())

/-- The Hilbert space factors `Ilist` (numerical_system.py 195-203). -/
def shape (st : NS E R O) : Except Err (List (ℕ × BasisName)) :=
  st.nodes.mapM fun node => match st.cfg.get? node with
    | none => .error .keyError
    | some c => .ok (c.trunc, c.basis)

/-- `getOperatorList` expanded to the whole space (numerical_system.py 162-182, 213-251; the basis functions are in `Verif.Model.Operators`): only the oscillator basis uses the
value of a parameter.  `gen` makes the operators from the space, the node and the impedance. -/
def opsOf (gen : List (ℕ × BasisName) → ℕ → Option PF → Except Err O) (st : NS E R O) (sh : List (ℕ × BasisName)) (node : ℕ) : Except Err O :=
  match st.cfg.get? node with
  | none => .error .keyError
  | some c =>
    if c.basis = .oscillator then
      match st.sw.pc.getParameterValue (zName node) with
      | .error e => .error e
      | .ok none => .error .typeError
      | .ok (some z) => gen sh node (some z)
    else gen sh node none

/-- `nodes is None or node in nodes` (numerical_system.py 209-211). -/
def selected (only : Option (List ℕ)) (node : ℕ) : Bool :=
  match only with
  | none => true
  | some l => decide (node ∈ l)

/-- The loop of `getExpandedOperatorsMap` (numerical_system.py 207-253). -/
def expandLoop (gen : List (ℕ × BasisName) → ℕ → Option PF → Except Err O) (st : NS E R O) (sh : List (ℕ × BasisName)) (only : Option (List ℕ)) :
    List ℕ → Dict ℕ O → Dict ℕ O × Except Err Unit
  | [], circ => (circ, .ok ())
  | node :: rest, circ =>
    if selected only node then
      match st.opsOf gen sh node with
      | .error e => (circ, .error e)
      | .ok o => expandLoop gen st sh only rest (circ.set node o)
    else expandLoop gen st sh only rest circ

/-- `getExpandedOperatorsMap` (numerical_system.py 185-253). -/
def expand (gen : List (ℕ × BasisName) → ℕ → Option PF → Except Err O) (st : NS E R O) (only : Option (List ℕ)) : NS E R O × Except Err Unit :=
  match st.shape with
  | .error e => (st, .error e)
  | .ok sh =>
    match expandLoop gen st sh only st.nodes st.circ with
    | (circ, r) => ({ st with circ := circ }, r)

/-- `getChargeOpVector` and `getFluxOpVector` (numerical_system.py 259-271). -/
def vectors (st : NS E R O) : NS E R O × Except Err Unit :=
  match st.nodes.mapM (fun node => st.circ.get? node) with
  | none => (st, .error .keyError)
  | some l => ({ st with vec := some l }, .ok ())

/-- `prepareOperators` (numerical_system.py 302-305). -/
def prepareOperators (gen : List (ℕ × BasisName) → ℕ → Option PF → Except Err O) (st : NS E R O) : NS E R O × Except Err Unit :=
  match st.expand gen none with
  | (st, .error e) => (st, .error e)
  | (st, .ok ()) => st.vectors

/-- `np.asmatrix(M.subs(subs), dtype=np.float64)` entry by entry: TypeError if a symbol remains. -/
def toNumbers (eng : Engine E) (d : Dict Sym (Option PF)) : List E → Except Err (List PF)
  | [] => .ok []
  | e :: es =>
    match eng.toFloat (subsDict eng e d) with
    | none => .error .typeError
    | some x =>
      match toNumbers eng d es with
      | .error err => .error err
      | .ok xs => .ok (x :: xs)

/-- The assignments of `substitute` and `_postsub`, one attribute after the other. -/
def assignNumbers (eng : Engine E) (exprs : Attr → List E) (d : Dict Sym (Option PF)) : List Attr → Dict Attr (List PF) →
    Dict Attr (List PF) × Except Err Unit
  | [], num => (num, .ok ())
  | a :: as, num =>
    match toNumbers eng d (exprs a) with
    | .error e => (num, .error e)
    | .ok xs => assignNumbers eng exprs d as (num.set a xs)

/-- The order of the assignments in `substitute` (numerical_system.py 324-355). -/
def substituteOrder : List Attr := [.Cinv, .Linv, .J, .Ps, .Qb, .Qbt, .Pbm, .Pbi, .LinvB]

/-- The order of the assignments in `_postsub` (numerical_system.py 404-415). -/
def postsubOrder : List Attr := [.Cinv, .Linv, .J, .Ps, .LinvB, .Qb, .Qbt, .Pbm, .Pbi]

/-- `substitute` (numerical_system.py 319-355). -/
def substitute (eng : Engine E) (st : NS E R O) : NS E R O × Except Err Unit :=
  match st.sw.pc.getSymbolValuesDict with
  | .error e => (st, .error e)
  | .ok d =>
    match assignNumbers eng st.exprs d substituteOrder st.num with
    | (num, r) => ({ st with num := num }, r)

/-- `setParameterValues` (numerical_system.py 831-837). -/
def setParameterValues (eng : Engine E) (ho : HashOrder) (fuel : ℕ) (gen : List (ℕ × BasisName) → ℕ → Option PF → Except Err O)
    (st : NS E R O) (args : List PC.BulkArg) : NS E R O × Except Err Unit :=
  match st.sw.pc.setParameterValues eng ho fuel args with
  | (pc, .error e) => ({ st with sw := { st.sw with pc := pc } }, .error e)
  | (pc, .ok ()) =>
    let st := { st with sw := { st.sw with pc := pc } }
    if pc.allParametersSet then
      match st.substitute eng with
      | (st, .error e) => (st, .error e)
      | (st, .ok ()) => st.prepareOperators gen
    else (st, .error .assertionError)

/-- `_get_regen_coordinate_nodes` (numerical_system.py 378-393). -/
def regenNodes (eng : Engine E) (st : NS E R O) (ho : HashOrder) : Except Err (List ℕ) :=
  match st.sw.getSweepParametersDict ho with
  | .error e => .error e
  | .ok d => .ok ((st.cfg.filter fun nc => decide (nc.2.basis = .oscillator) &&
      (match nc.2.impedance with
        | none => false
        | some imp => (eng.free imp).any fun s => decide (s ∈ d.keys))).map Prod.fst)

/-- `_presub` (numerical_system.py 357-376).  Simplification: the expressions are those of the construction of the object (the code asks
the symbolic system again); a product with the numeric matrix `Rnb` commutes with the substitution. -/
def presub (eng : Engine E) (st : NS E R O) (ho : HashOrder) : NS E R O × Except Err Unit :=
  match st.sw.getNonSweepParametersDict ho with
  | .error e => (st, .error e)
  | .ok d =>
    let st := { st with pre := fun a => (st.exprs a).map fun e => subsDict eng e d }
    match st.regenNodes eng ho with
    | .error e => (st, .error e)
    | .ok l => ({ st with regen := l }, .ok ())

/-- `_postsub(params)` (numerical_system.py 395-437). -/
def postsub (eng : Engine E) (ho : HashOrder) (fuel : ℕ) (gen : List (ℕ × BasisName) → ℕ → Option PF → Except Err O)
    (st : NS E R O) (params : Dict String PF) : NS E R O × Except Err Unit :=
  match st.sw.pc.setParameterValues eng ho fuel [.dict (params.map fun p => (p.1, PyVal.np p.2))] with
  | (pc, .error e) => ({ st with sw := { st.sw with pc := pc } }, .error e)
  | (pc, .ok ()) =>
    let st := { st with sw := { st.sw with pc := pc } }
    match st.sw.getSweepParametersDict ho with
    | .error e => (st, .error e)
    | .ok d =>
      match assignNumbers eng st.pre d postsubOrder st.num with
      | (num, .error e) => ({ st with num := num }, .error e)
      | (num, .ok ()) =>
        let st := { st with num := num }
        if st.regen = [] then (st, .ok ()) else st.expand gen (some st.regen)

end NS

/-! ### Evaluations -/

/-- What an evaluation yields: an eigenvalue and an eigenvector array (as a tuple), an array of eigenvalues, an array of matrix
elements, None, or something else (a number, a dictionary of numbers, a resonator response); `empty` is the initial `[]`. -/
inductive Res (X V R : Type)
  | eig (es : List X) (vs : List V)
  | vals (es : List X)
  | elems (xs : List X)
  | none
  | number (r : R)
  | dict (r : R)
  | empty
  deriving DecidableEq

/-- The result of `E, V = dep` (numerical_system.py 1010): two arrays, or two numbers if `dep` is an array of two eigenvalues. -/
inductive Unpacked (X V : Type)
  | arrays (es : List X) (vs : List V)
  | scalars (a b : X)

/-- `E, V = dep`: fails unless `dep` has exactly two items. -/
def unpack {X V R : Type} : Res X V R → Option (Unpacked X V)
  | .eig es vs => some (.arrays es vs)
  | .vals [a, b] => some (.scalars a b)
  | .elems [a, b] => some (.scalars a b)
  | _ => none

/-- The numerical computations, from the numeric attributes (by attribute), the operators (by node), the operator vectors and the parameter
values (by name).  `H` are Hamiltonians, `P` other operators, `X` numbers, `V` vectors. -/
structure Phys (O H P X V R : Type) where
  gen : List (ℕ × BasisName) → ℕ → Option PF → Except Err O
  ham : (Attr → Option (List PF)) → (ℕ → Option O) → Option (List O) → Except Err H
  solve : H → Except Err (List X × List V)
  curOp : (Attr → Option (List PF)) → (ℕ → Option O) → ℕ × ℕ × ℕ → Except Err P
  volOp : (Attr → Option (List PF)) → Option (List O) → ℕ → Except Err P
  elem : P → V → V → X
  resp : (Attr → Option (List PF)) → Option (List O) → (String → Except Err (Option PF)) → ℕ → ℕ → List X → List V → Except Err R
  energy : Method → (Attr → Option (List PF)) → Option (ℕ × ℕ × ℕ) → Option ℕ → Except Err R

section

variable {E O H P X V R Q : Type}

/-- `V[i]` for an array. -/
def pyIndex {α : Type} (l : List α) (i : ℤ) : Except Err α :=
  let j := if i < 0 then i + l.length else i
  if j < 0 then .error .indexError
  else match l[j.toNat]? with
    | none => .error .indexError
    | some v => .ok v

/-- The loop over the elements (numerical_system.py 663-667): indexing a number raises. -/
def elemLoop (ph : Phys O H P X V R) (op : P) (a : Unpacked X V) : List (ℤ × ℤ) → Except Err (List X)
  | [] => .ok []
  | (i, j) :: rest =>
    match a with
    | .scalars _ _ => .error .indexError
    | .arrays es vs =>
      match pyIndex vs i with
      | .error e => .error e
      | .ok v =>
        match pyIndex vs j with
        | .error e => .error e
        | .ok w =>
          match elemLoop ph op (.arrays es vs) rest with
          | .error e => .error e
          | .ok xs => .ok (ph.elem op v w :: xs)

/-- A call of one of the methods with the eigenpairs (`V is not None`) or without (numerical_system.py 949, 1015-1018). -/
def callMethod (ph : Phys O H P X V R) (st : NS E Q O) (m : Method) (arg : Option (Unpacked X V)) (k : Kw) : Except Err (H ⊕ Res X V R) :=
  match m, arg with
  | .getHamiltonian, none =>
    match ph.ham st.num.get? st.circ.get? st.vec with
    | .error e => .error e
    | .ok h => .ok (.inl h)
  | .getHamiltonian, some _ => .error .typeError
  | .getCurrentMatrixElement, some a =>
    match k.edge with
    | none => .error .userError
    | some edge =>
      match ph.curOp st.num.get? st.circ.get? edge with
      | .error e => .error e
      | .ok op =>
        match k.elements with
        | none => .error .userError
        | some l =>
          match elemLoop ph op a l with
          | .error e => .error e
          | .ok xs => .ok (.inr (.elems xs))
  | .getVoltageMatrixElement, some a =>
    match k.node with
    | none => .error .userError
    | some node =>
      match ph.volOp st.num.get? st.vec node with
      | .error e => .error e
      | .ok op =>
        match k.elements with
        | none => .error .userError
        | some l =>
          match elemLoop ph op a l with
          | .error e => .error e
          | .ok xs => .ok (.inr (.elems xs))
  | .getResonatorResponse, some a =>
    match k.cpl_node with
    | none => .ok (.inr .none)
    | some node =>
      match a with
      | .scalars _ _ => .error .indexError
      | .arrays es vs =>
        match ph.resp st.num.get? st.vec st.sw.pc.getParameterValue node k.nmax es vs with
        | .error e => .error e
        | .ok r => .ok (.inr (.number r))
  | .getCurrentMatrixElement, none => .error .typeError
  | .getVoltageMatrixElement, none => .error .typeError
  | .getResonatorResponse, none => .error .typeError
  | m, none =>
    match ph.energy m st.num.get? k.edge k.node with
    | .error e => .error e
    | .ok r => if k.edge = none ∧ k.node = none then .ok (.inr (.dict r)) else .ok (.inr (.number r))
  | _, some _ => .error .typeError

/-- `diagonalize` (numerical_system.py 790-810) with `get_vectors` as configured. -/
def diagonalize (ph : Phys O H P X V R) (getVectors : Bool) (h : H) : Except Err (Res X V R) :=
  match ph.solve h with
  | .error e => .error e
  | .ok (es, vs) => if getVectors then .ok (.eig es vs) else .ok (.vals es)

/-- A call followed by the diagonalisation if the entry asks for it (numerical_system.py 949-954, 1015-1025); only the Hamiltonian is
diagonalised. -/
def evalEntry (ph : Phys O H P X V R) (gv : Bool) (st : NS E Q O) (entry : Entry) (arg : Option (Unpacked X V)) : Except Err (Res X V R) :=
  match callMethod ph st entry.eval arg entry.kwargs with
  | .error e => .error e
  | .ok (.inl h) => if entry.diag then diagonalize ph gv h else .error .userError
  | .ok (.inr r) => if entry.diag then .error .userError else .ok r

/-- The evaluations at one point (numerical_system.py 996-1032): the results of the point, in which later entries find earlier ones. -/
def evalEntries (ph : Phys O H P X V R) (gv : Bool) (st : NS E Q O) : List Entry → Dict Method (Res X V R) → Except Err (Dict Method (Res X V R))
  | [], results => .ok results
  | entry :: rest, results =>
    match entry.depends with
    | none =>
      match evalEntry ph gv st entry none with
      | .error e => .error e
      | .ok r => evalEntries ph gv st rest (results.set entry.eval r)
    | some m =>
      match results.get? m with
      | none => .error .userError
      | some dep =>
        match unpack dep with
        | none => .error .userError
        | some a =>
          match evalEntry ph gv st entry (some a) with
          | .error e => .error e
          | .ok r => evalEntries ph gv st rest (results.set entry.eval r)

/-- What is written to a temporary file: in a sweep with several evaluations the dictionary of their results, in a sweep with one its
result, which may itself be a dictionary (of nodes or edges, which no method name is). -/
def pickleMany (results : Dict Method (Res X V R)) : SW.Pickled (Res X V R) := .keyed (results.map fun p => (p.1.name, p.2))

/-- See `pickleMany`. -/
def pickleOne : Res X V R → SW.Pickled (Res X V R)
  | .dict _ => .keyed []
  | r => .plain r

/-- The loop of `_evaluate_multiple` (numerical_system.py 977-1049) over the points of the sweep.  `results` is kept from one point to the
next. -/
def multiLoop (eng : Engine E) (ho : HashOrder) (fuel : ℕ) (ph : Phys O H P X V R) (gv : Bool) (entries : List Entry) :
    List (Dict String PF) → NS E Q O → Dict Method (Res X V R) → NS E Q O × List (SW.Pickled (Res X V R)) × Except Err Unit
  | [], st, _ => (st, [], .ok ())
  | p :: ps, st, results =>
    match st.postsub eng ho fuel ph.gen p with
    | (st, .error e) => (st, [], .error e)
    | (st, .ok ()) =>
      match evalEntries ph gv st entries results with
      | .error e => (st, [], .error e)
      | .ok results =>
        match multiLoop eng ho fuel ph gv entries ps st results with
        | (st, files, r) => (st, pickleMany results :: files, r)

/-- The loop of `_evaluate_single` (numerical_system.py 934-975). -/
def singleLoop (eng : Engine E) (ho : HashOrder) (fuel : ℕ) (ph : Phys O H P X V R) (gv : Bool) (entry : Entry) :
    List (Dict String PF) → NS E Q O → NS E Q O × List (SW.Pickled (Res X V R)) × Except Err Unit
  | [], st => (st, [], .ok ())
  | p :: ps, st =>
    match st.postsub eng ho fuel ph.gen p with
    | (st, .error e) => (st, [], .error e)
    | (st, .ok ()) =>
      match evalEntry ph gv st entry none with
      | .error e => (st, [], .error e)
      | .ok r =>
        match singleLoop eng ho fuel ph gv entry ps st with
        | (st, files, o) => (st, pickleOne r :: files, o)

/-- The points of the grid: `{k: v[i] for k, v in sweep_grid_c.items()}` for `i` below `sweep_grid_npts` (numerical_system.py 946, 991). -/
def gridPoints (sw : SW E Q) : Except Err (List (Dict String PF)) :=
  match sw.c, sw.npts with
  | some c, some n => .ok ((List.range n.toNat).map fun i => c.map fun kv => (kv.1, kv.2.getD i PF.nan))
  | _, _ => .error .attributeError

/-- `addEvaluation` (numerical_system.py 868-875). -/
def addEvaluation (st : NS E Q O) (evaluable : String) (k : Kw) : NS E Q O × Except Err Unit :=
  match evalSpec.get? evaluable with
  | none => (st, .error .userError)
  | some e => ({ st with evals := st.evals ++ [{ e with kwargs := k }] }, .ok ())

/-- `addSweep` (numerical_system.py 864-865). -/
def addSweep (st : NS E Q O) (name : String) (start stop : PyVal) (N : CountArg) : NS E Q O × Except Err Unit :=
  match st.sw.paramSweepSpec name start stop N with
  | .error e => (st, .error e)
  | .ok s => ({ st with specs := st.specs ++ [s] }, .ok ())

/-- The initial results: an empty list for each method (numerical_system.py 979-981). -/
def initResults (entries : List Entry) : Dict Method (Res X V R) :=
  entries.foldl (fun d (e : Entry) => Dict.set d e.eval .empty) []

/-- The evaluations of a sweep (numerical_system.py 909-912). -/
def evaluate (eng : Engine E) (ho : HashOrder) (fuel : ℕ) (ph : Phys O H P X V R) (gv : Bool) (entries : List Entry) (pts : List (Dict String PF))
    (st : NS E Q O) : NS E Q O × List (SW.Pickled (Res X V R)) × Except Err Unit :=
  match entries with
  | [entry] => singleLoop eng ho fuel ph gv entry pts st
  | entries => multiLoop eng ho fuel ph gv entries pts st (initResults entries)

/-- `paramSweep` (numerical_system.py 885-928).  The second component is the list of the contents of the temporary files it wrote, in
order (`Verif.Model.TempData` models the files themselves); the list of their names is returned.  The specifications and evaluations
are only reset on success. -/
def paramSweep (eng : Engine E) (ho : HashOrder) (fuel : ℕ) (ph : Phys O H P X V R) (gv : Bool) (st : NS E Q O) :
    NS E Q O × List (SW.Pickled (Res X V R)) × Except Err Unit :=
  let st := if st.evals.length = 0 then { st with evals := [⟨.getHamiltonian, true, none, {}⟩] } else st
  match st.sw.ndSweep st.specs with
  | (sw, .error e) => ({ st with sw := sw }, [], .error e)
  | (sw, .ok ()) =>
    match ({ st with sw := sw } : NS E Q O).presub eng ho with
    | (st, .error e) => (st, [], .error e)
    | (st, .ok ()) =>
      match gridPoints st.sw with
      | .error e => (st, [], .error e)
      | .ok pts =>
        match evaluate eng ho fuel ph gv st.evals pts st with
        | (st, files, .error e) => (st, files, .error e)
        | (st, files, .ok ()) => ({ st with specs := [], evals := [] }, files, .ok ())

/-- `getSweep` (numerical_system.py 879-883) on the files of a sweep: file `i` is called `names i`. -/
def getSweep (sw : SW E (Res X V R)) (files : List (SW.Pickled (Res X V R))) (names : ℕ → String) (disk : String → Option (SW.Pickled (Res X V R)))
    (ind : String) (static : List (String × PF)) (evaluable : String) : Except Err (List PF × List (Res X V R) × List (String × PF)) :=
  match evalSpec.get? evaluable with
  | none => .error .userError
  | some e => sw.getSweepResult disk ind static (.list ((List.range files.length).map fun i => .file (names i))) (some e.eval.name)

end

end Verif.Num
