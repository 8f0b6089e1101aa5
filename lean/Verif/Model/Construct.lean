import Verif.Model.CollectionBulk
import Verif.Model.Loaded
import Verif.Model.Derived

/-!
# The parameters of a new `SymbolicSystem` (pyscqed/symbolic_system.py, `__init__`)

The constructor fills the inherited `ParamCollection` from the circuit.  `E` are sympy expressions.  A constructor that raises yields no
object; the state it leaves behind is not part of the model.
-/

namespace Verif.PC

variable {E : Type}

/-- `getParameterNamesList` (parameters.py 336-342). -/
def getParameterNamesList (st : PC E) : List String := st.coll.keys

/-- `getParameterSymbolsList` (parameters.py 344-350). -/
def getParameterSymbolsList (st : PC E) : List Sym := st.symMap.values

end Verif.PC

namespace Verif.Sym

open Verif Verif.Circuit

variable {E : Type}

/-- The first two entries of `dof_prefixes` that name parameters (symbolic_system.py 15, 52-55): the flux and the charge prefix. -/
structure Prefixes where
  flux : String
  charge : String
  deriving DecidableEq, Repr

/-- The default argument (symbolic_system.py 15). -/
def Prefixes.default : Prefixes := ⟨"\\Phi", "Q"⟩

/-- `"%s_{%s}" % (prefix, suffix)`. -/
def biasSymbol (pfx suffix : String) : Sym := pfx ++ "_{" ++ suffix ++ "}"

/-- `_create_circuit_symbols` (symbolic_system.py 646-671), with the names in the order of the four loops.  `circuit_params` holds the symbols
that the collection makes for the same names. -/
def circuitNames (g : CG) : List String :=
  g.graph.view.map Prod.snd ++ g.coupled.keys ++ g.chargeBias.values.filterMap Bias.comp ++ g.fluxBias.values.filterMap Bias.comp

/-- The loop over the flux biases (symbolic_system.py 766-775).  A biased edge that is not a branch of the oriented circuit is a `KeyError`;
a suffix with a space makes `sy.symbols` return a tuple, which cannot be added to a number.  The bias dictionaries are
`createFluxBiases`. -/
def addFluxParameters (p : Prefixes) (g : CG) : List (Edge × Bias) → PC E → PC E × Except Err Unit
  | [], pc => (pc, .ok ())
  | (e, b) :: l, pc =>
    if e ∉ edges g then (pc, .error .keyError)
    else if b.suffix.toList.contains ' ' then (pc, .error .typeError)
    else match pc.addParameter ("phi" ++ b.suffix) (some (biasSymbol p.flux b.suffix)) with
      | (pc, .error x) => (pc, .error x)
      | (pc, .ok ()) => addFluxParameters p g l pc

/-- The loop over the charge biases (symbolic_system.py 784-792).  A suffix with a space makes `sy.symbols` return a tuple, which
`addParameter` refuses. -/
def addChargeParameters (p : Prefixes) : List Bias → PC E → PC E × Except Err Unit
  | [], pc => (pc, .ok ())
  | b :: l, pc =>
    if b.suffix.toList.contains ' ' then (pc, .error .typeError)
    else match pc.addParameter (p.charge ++ b.suffix) (some (biasSymbol p.charge b.suffix)) with
      | (pc, .error x) => (pc, .error x)
      | (pc, .ok ()) => addChargeParameters p l pc

/-- The coupled resonators (symbolic_system.py 697-699, 673-677: `_has_resonators` says that there is one). -/
def resonatorsOf (g : CG) : List Resonator := g.resonators.values.filterMap id

/-- `resonator.values()` (circuit_graph.py 150-159). -/
def Resonator.names (r : Resonator) : List String := [r.coupling, r.fr, r.zr, r.cr, r.lr, r.gc, r.frl, r.zrl]

/-- The expressions given to one resonator (symbolic_system.py 724-755). -/
structure ResExprs (E : Type) where
  cr : E
  lr : E
  frl : E
  zrl : E
  gc : E

/-- The five parameterisations of one resonator (symbolic_system.py 745-755). -/
def resPairs (r : Resonator) (x : ResExprs E) : List (String × E) := [(r.cr, x.cr), (r.lr, x.lr), (r.frl, x.frl), (r.zrl, x.zrl), (r.gc, x.gc)]

/-- A sequence of `addParameterisation`. -/
def addParameterisations (eng : Engine E) : List (String × E) → PC E → PC E × Except Err Unit
  | [], pc => (pc, .ok ())
  | (n, e) :: l, pc =>
    match pc.addParameterisation eng n e with
    | (pc, .error x) => (pc, .error x)
    | (pc, .ok ()) => addParameterisations eng l pc

/-- `_create_loaded_resonator_parameters` (symbolic_system.py 690-755).  Simplification: the branches of all resonators are added to the copy
before the parameters; `ex` gives the expressions taken from the inner `SymbolicSystem` of the extended circuit (their values are in
`Verif.Model.Loaded`), and may raise. -/
def addResonatorParameters (eng : Engine E) (o : Orc) (ex : Resonator → Except Err (ResExprs E)) (g : CG) (pc : PC E) : PC E × Except Err Unit :=
  match (loadedCircuit o g).2 with
  | .error e => (pc, .error e)
  | .ok () =>
    match pc.addParameters ((resonatorsOf g).flatMap Resonator.names) with
    | (pc, .error e) => (pc, .error e)
    | (pc, .ok ()) =>
      match (resonatorsOf g).mapM fun r => (ex r).map (resPairs r) with
      | .error e => (pc, .error e)
      | .ok ps => addParameterisations eng ps.flatten pc

/-- `_create_circuit_symbols`, `_create_flux_bias_symbols`, `_create_charge_bias_symbols` and the resonators, in the order of the constructor
(symbolic_system.py 66-74). -/
def createParameters (eng : Engine E) (p : Prefixes) (o : Orc) (ex : Resonator → Except Err (ResExprs E)) (g : CG) (pc : PC E) : PC E × Except Err Unit :=
  match pc.addParameters (circuitNames g) with
  | (pc, .error e) => (pc, .error e)
  | (pc, .ok ()) =>
    match addFluxParameters p g g.fluxBias pc with
    | (pc, .error e) => (pc, .error e)
    | (pc, .ok ()) =>
      match addChargeParameters p g.chargeBias.values pc with
      | (pc, .error e) => (pc, .error e)
      | (pc, .ok ()) => if (resonatorsOf g).isEmpty then (pc, .ok ()) else addResonatorParameters eng o ex g pc

/-- `_create_coordinate_transforms` (symbolic_system.py 794-856) as far as the parameters go: `getInverseInductanceMatrix()` is called with
`parameterise=True`, and a second time (`again`) when the eigenvectors asked for by `mode_transform` contain symbols.  `Linv` is the matrix of
expressions that the method has computed. -/
def transformParameters (eng : Engine E) (isZero : E → Bool) (symE : Sym → E) (n : ℕ) (Linv : ℕ → ℕ → E) (again : Bool) (pc : PC E) :
    PC E × Except Err Unit :=
  match Derived.parameterise eng isZero symE 'L' true n pc Linv with
  | (pc, .error e) => (pc, .error e)
  | (pc, .ok _) =>
    if again then
      match Derived.parameterise eng isZero symE 'L' true n pc Linv with
      | (pc, .error e) => (pc, .error e)
      | (pc, .ok _) => (pc, .ok ())
    else (pc, .ok ())

/-- `SymbolicSystem.__init__` (symbolic_system.py 15-85): the collection of the new object.  What follows the coordinate transforms does not
touch the parameters. -/
def construct (eng : Engine E) (isZero : E → Bool) (symE : Sym → E) (p : Prefixes) (o : Orc) (ex : Resonator → Except Err (ResExprs E))
    (Linv : Except Err (ℕ → ℕ → E)) (again : Bool) (g : CG) : Except Err (PC E) :=
  if 0 ∉ g.graph.nodes then .error .userError
  else
    match PC.new [] with
    | .error e => .error e
    | .ok pc =>
      match createParameters eng p o ex g pc with
      | (_, .error e) => .error e
      | (pc, .ok ()) =>
        match Linv with
        | .error e => .error e
        | .ok M =>
          match transformParameters eng isZero symE (nodes g).length M again pc with
          | (_, .error e) => .error e
          | (pc, .ok ()) => .ok pc

end Verif.Sym
