import Verif.Model.Assembly
import Verif.Model.Classical
import Mathlib.Algebra.FreeAlgebra

/-!
# The symbols of a `SymbolicSystem` and the quantum Hamiltonian written with them (pyscqed/symbolic_system.py)

Expressions in the operators are elements of the free algebra over the non-commutative symbols; the component values and biases
in them have been replaced by numbers.
-/

namespace Verif.Sym

open Verif Verif.Circuit Verif.Num Complex

/-- A sympy symbol: two symbols are the same if name and assumptions agree. -/
structure Symb where
  name : String
  commutative : Bool
  deriving DecidableEq, Repr

/-- `dof_prefixes` (symbolic_system.py 15, 50-53). -/
structure DofPrefixes where
  flux : String
  redflux : String
  charge : String
  redcharge : String

/-- The default argument (symbolic_system.py 15). -/
def DofPrefixes.default : DofPrefixes := ⟨"\\Phi", "\\phi", "Q", "q"⟩

/-- `"%s_{%i}" % (prefix, node)`. -/
def nodeName (pfx : String) (n : Node) : String := pfx ++ "_{" ++ toString n ++ "}"

/-- `"%s_{%i%i-%i}" % (prefix, edge[0], edge[1], edge[2])`. -/
def branchName (pfx : String) (e : Edge) : String :=
  pfx ++ "_{" ++ toString e.1 ++ toString e.2.1 ++ "-" ++ toString e.2.2 ++ "}"

/-- An entry of `node_dofs` (symbolic_system.py 567-577). -/
structure Dofs where
  flux : Symb
  charge : Symb
  D : Symb
  Ddag : Symb
  S : Symb
  Sdag : Symb

/-- The body of the loop of `_create_node_dofs` (symbolic_system.py 567-577). -/
def nodeDofs (p : DofPrefixes) (n : Node) : Dofs :=
  ⟨⟨nodeName p.flux n, false⟩, ⟨nodeName p.charge n, false⟩, ⟨nodeName "D" n, false⟩, ⟨nodeName "D^{\\dagger}" n, false⟩,
    ⟨nodeName "S" n, false⟩, ⟨nodeName "S^{\\dagger}" n, false⟩⟩

/-- The reduced flux of a node: `getRedFluxVector` (symbolic_system.py 243-248) and the second entry of `classical_node_dofs`
(578-584). -/
def redFluxSymbol (p : DofPrefixes) (n : Node) : Symb := ⟨nodeName p.redflux n, true⟩

/-- `getVoltageVector` (symbolic_system.py 124-125). -/
def voltageSymbol (n : Node) : Symb := ⟨nodeName "V" n, true⟩

/-- `getCurrentVector` (symbolic_system.py 250-251). -/
def currentSymbol (n : Node) : Symb := ⟨nodeName "I" n, true⟩

/-- The symbol of a component (symbolic_system.py 651). -/
def componentSymbol (c : String) : Symb := ⟨String.ofList (c.toList.take 1) ++ "_{" ++ String.ofList (c.toList.drop 1) ++ "}", true⟩

/-- The symbol of a bias: flux (symbolic_system.py 768), reduced flux (770), charge (787) and reduced charge (789), by the prefix.  `sympy.symbols` would
make several symbols of a suffix with commas, spaces or colons; here the whole suffix is taken as it is. -/
def biasSymb (pfx suffix : String) : Symb := ⟨pfx ++ "_{" ++ suffix ++ "}", true⟩

/-- An entry of `branch_dofs`, and the flux, reduced flux and charge of `classical_branch_dofs` (symbolic_system.py 613-631). -/
def branchDofs (p : DofPrefixes) (e : Edge) : List Symb × List Symb :=
  ([⟨branchName p.flux e, false⟩, ⟨branchName p.charge e, false⟩, ⟨branchName "D" e, false⟩, ⟨branchName "D^{\\dagger}" e, false⟩],
    [⟨branchName p.flux e, true⟩, ⟨branchName p.redflux e, true⟩, ⟨branchName p.charge e, true⟩])

/-- Expressions in the operators. -/
abbrev QExpr := FreeAlgebra ℂ Symb

/-- The four terms of `getQuantumHamiltonian` (symbolic_system.py 547-551). -/
structure QuantumTerms where
  charging : QExpr
  flux : QExpr
  josephson : QExpr
  slip : QExpr

/-- One of the symbols of a coordinate, by coordinate number: the entries of `getChargeVector` (symbolic_system.py 121-122), `getFluxVector`
(236-241), `jdisp_vector` and the like (587-602). -/
noncomputable def dofAt (p : DofPrefixes) (g : CG) (sel : Dofs → Symb) (j : ℕ) : QExpr :=
  match (nodes g)[j]? with
  | some n => FreeAlgebra.ι ℂ (sel (nodeDofs p n))
  | none => 0

/-- `exp(1j x)` with a number `x` (symbolic_system.py 427-428, 485-486). -/
noncomputable def phaseExp (x : ℝ) : QExpr := algebraMap ℂ QExpr (exp (I * x))

/-- The branches whose component has the prefix: those with an entry other than 0 in `getJosephsonVector` or `getPhaseSlipVector`
(symbolic_system.py 397-402, 468-474).  The entry is a symbol here, not a number. -/
def branchesWith (g : CG) (c : Char) : List (Fin (edges g).length) :=
  (List.finRange (edges g).length).filter fun i => ((g.cmap.get? ((edges g).get i)).bind pre) = some c

/-- `getQuantumHamiltonian` (symbolic_system.py 547-551) term by term: `getChargingEnergies` (529-533), `getFluxEnergies` (535-539),
`getQuantumJosephsonEnergies` (418-463) and `getQuantumPhaseSlipEnergies` (479-521).  `Cinv` and `Linv` are the matrices of
`getInverseCapacitanceMatrix` and `getInverseInductanceMatrix`, `R` the transform; `x` and `redq` are the values of the biases.  `none` is the
`IndexError` of a junction or phase slip from a node to itself. -/
noncomputable def quantumTerms (p : DofPrefixes) (g : CG) (b : Biases) (val : String → ℝ) (x : BiasVals) (redq : String → ℝ)
    (Cinv Linv R : Matrix (Fin (nodes g).length) (Fin (nodes g).length) ℝ) : Option QuantumTerms :=
  let terms := fun i : Fin (edges g).length =>
    branchTerms g (fun a j => if h : a < (nodes g).length ∧ j < (nodes g).length then R⁻¹ ⟨a, h.1⟩ ⟨j, h.2⟩ else 0) ((edges g).get i)
  let qbias := (Mat.block (incidence (K := ℝ) g) (nodes g).length (edges g).length).transpose.mulVec fun i => chargeBiasVector redq g i
  match branchSum (num QExpr (1 / 2)) (dofAt p g Dofs.D) (dofAt p g Dofs.Ddag) ((branchesWith g 'I').map fun i : Fin (edges g).length =>
      ⟨num QExpr (josephsonVector val g i), phaseExp (redBiasVector x.red g b i), phaseExp (-(redBiasVector x.red g b i)), terms i⟩) 0 with
  | none => none
  | some Ej =>
    match branchSum (num QExpr (1 / 2)) (dofAt p g Dofs.S) (dofAt p g Dofs.Sdag) ((branchesWith g 'V').map fun i : Fin (edges g).length =>
        ⟨num QExpr (phaseSlipVector val g i), phaseExp (qbias i), phaseExp (-(qbias i)), terms i⟩) 0 with
    | none => none
    | some Ep => some {
        charging := num QExpr (1 / 2) * quadOp (num QExpr) Cinv fun i => dofAt p g Dofs.charge i + num QExpr (chargeBiasVector x.charge g i)
        flux := num QExpr (1 / 2) * quadOp (num QExpr) Linv fun i => dofAt p g Dofs.flux i + num QExpr (fluxBiasNodes x.flux g b i)
        josephson := Ej
        slip := Ep }

/-- The sum (symbolic_system.py 547-551). -/
noncomputable def QuantumTerms.hamiltonian (e : QuantumTerms) : QExpr := e.charging + e.flux + e.josephson + e.slip

end Verif.Sym
