import Verif.Model.Construct
import Verif.Model.Assembly
import Verif.Model.Numerical

/-!
# The symbolic expressions of a circuit (pyscqed/symbolic_system.py, numerical_system.py `getSymbolicExpressions`)

The matrices of `Verif.Model.Symbolic` with expressions for entries, inverted by sympy and parameterised as in `Verif.Model.Derived`.  Without
a coordinate transform.  The factors `1.0` of the flux biases (symbolic_system.py 284, 305, 760) are left out.
-/

namespace Verif.Sym

open Verif Verif.Circuit

/-- The operations of sympy on expressions and matrices of expressions that the code uses beside those of `Engine`. -/
structure Arith (E : Type) where
  /-- `sy.symbols(s)` -/
  sym : Verif.Sym → E
  /-- `a + b` -/
  add : E → E → E
  /-- `a - b` -/
  sub : E → E → E
  /-- `a / b` -/
  div : E → E → E
  /-- `e == 0` -/
  isZero : E → Bool
  /-- `M**(-1)` for an `n × n` matrix, and the test for complex infinities (symbolic_system.py 196-207); it raises if `M` is singular. -/
  inverse : ℕ → (ℕ → ℕ → E) → Except Err (ℕ → ℕ → E)
  /-- `M.pinv()` for an `n × n` matrix (symbolic_system.py 369, 387). -/
  pinv : ℕ → (ℕ → ℕ → E) → Except Err (ℕ → ℕ → E)

variable {E : Type}

/-- `circuit_params[c]`: `sy.symbols("%s_{%s}" % (c[0], c[1:]))` (symbolic_system.py 646-671). -/
def Arith.component (A : Arith E) (c : String) : E := A.sym ((Param.symbolOf c).getD "")

/-- `Cc*Cr/(Cc + Cr)` (symbolic_system.py 161-164). -/
def Arith.resonator (eng : Engine E) (A : Arith E) (r : Resonator) : E :=
  A.div (eng.mul (A.component r.coupling) (A.component r.cr)) (A.add (A.component r.coupling) (A.component r.cr))

/-- `getCapacitanceMatrix(parameterise=False)` (symbolic_system.py 137-178). -/
def capacitanceExpr (eng : Engine E) (A : Arith E) (g : CG) : Except Err (Mat E) :=
  @capacitance E ⟨eng.lit (.fin 0)⟩ ⟨A.add⟩ ⟨A.sub⟩ A.component (A.resonator eng) g

/-- `getInductanceMatrix(mode="branch")` (symbolic_system.py 315-340, 360-361). -/
def branchInductanceExpr (eng : Engine E) (A : Arith E) (g : CG) : Except Err (Mat E) :=
  @branchInductance E ⟨eng.lit (.fin 0)⟩ A.component g

/-- An entry of a product of matrices: the sum of the products. -/
def Arith.dot (eng : Engine E) (A : Arith E) (n : ℕ) (x y : ℕ → E) : E :=
  (List.range n).foldl (fun acc k => A.add acc (eng.mul (x k) (y k))) (eng.lit (.fin 0))

/-- `Rbn` (symbolic_system.py 636-644). -/
def incidenceExpr (eng : Engine E) (g : CG) : Mat E := fun i b => eng.lit (.fin (incidence (K := ℚ) g i b))

/-- `getInverseInductanceMatrix(mode="branch")` (symbolic_system.py 363-365, 386-387). -/
def branchInverseExpr (eng : Engine E) (A : Arith E) (g : CG) : Except Err (Mat E) :=
  match branchInductanceExpr eng A g with
  | .error e => .error e
  | .ok M => A.pinv (edges g).length M

/-- `Rbn * B * Rnb` (symbolic_system.py 369). -/
def toNodesExpr (eng : Engine E) (A : Arith E) (g : CG) (B : Mat E) : Mat E := fun i j =>
  A.dot eng (edges g).length (fun b => A.dot eng (edges g).length (incidenceExpr eng g i) fun a => B a b) (incidenceExpr eng g j)

/-- `getInverseInductanceMatrix(mode="node", parameterise=False)` (symbolic_system.py 363-372). -/
def inverseInductanceExpr (eng : Engine E) (A : Arith E) (g : CG) : Except Err (Mat E) :=
  match branchInverseExpr eng A g with
  | .error e => .error e
  | .ok B => .ok (toNodesExpr eng A g B)

/-- `getInverseCapacitanceMatrix()` (symbolic_system.py 194-224), with `getCapacitanceMatrix()` (137-190): both matrices are
parameterised. -/
def inverseCapacitancePar (eng : Engine E) (A : Arith E) (g : CG) (pc : PC E) : PC E × Except Err (Mat E) :=
  match capacitanceExpr eng A g with
  | .error e => (pc, .error e)
  | .ok C =>
    match Derived.parameterise eng A.isZero A.sym 'C' false (nodes g).length pc C with
    | (pc, .error e) => (pc, .error e)
    | (pc, .ok C) =>
      match A.inverse (nodes g).length C with
      | .error e => (pc, .error e)
      | .ok N => Derived.parameterise eng A.isZero A.sym 'C' true (nodes g).length pc N

/-- `getInverseInductanceMatrix()` (symbolic_system.py 363-384). -/
def inverseInductancePar (eng : Engine E) (A : Arith E) (g : CG) (pc : PC E) : PC E × Except Err (Mat E) :=
  match inverseInductanceExpr eng A g with
  | .error e => (pc, .error e)
  | .ok M => Derived.parameterise eng A.isZero A.sym 'L' true (nodes g).length pc M

/-- The collection of a new `SymbolicSystem` (symbolic_system.py 15-85) without a transform; `again` if the eigenvectors of the modes contain
symbols. -/
def systemParameters (eng : Engine E) (A : Arith E) (o : Orc) (ex : Resonator → Except Err (ResExprs E)) (again : Bool) (g : CG) :
    Except Err (PC E) :=
  construct eng A.isZero A.sym Prefixes.default o ex (inverseInductanceExpr eng A g) again g

/-- The entries of an `n × m` matrix, row after row. -/
def rowsE (n m : ℕ) (M : Mat E) : List E := (List.range n).flatMap fun i => (List.range m).map fun j => M i j

/-- The entries of a vector. -/
def entriesE (n : ℕ) (x : ℕ → E) : List E := (List.range n).map x

/-- The attributes set by `getSymbolicExpressions` (numerical_system.py 283-302), from `Cinv`, `Linv` and `Linv_b`. -/
def attributes (eng : Engine E) (A : Arith E) (g : CG) (b : Biases) (Cinv Linv LinvB : Mat E) : Num.Attr → List E :=
  let zero : Zero E := ⟨eng.lit (.fin 0)⟩
  let phi := fun s => A.sym (biasSymbol Prefixes.default.flux s)
  let q := fun s => A.sym (biasSymbol Prefixes.default.charge s)
  let N := (nodes g).length
  let B := (edges g).length
  fun
    | .Cinv => rowsE N N Cinv
    | .Linv => rowsE N N Linv
    | .LinvB => rowsE B B LinvB
    | .J => entriesE B (josephsonVector A.component g)
    | .Ps => entriesE B (Num.phaseSlipVector A.component g)
    | .Qb => entriesE N (chargeBiasVector q g)
    | .Qbt => entriesE B fun k => A.dot eng N (fun i => incidenceExpr eng g i k) (chargeBiasVector q g)
    | .Pbm => rowsE B B fun i j => if i = j then fluxBiasVector phi g b i else zero.zero
    | .Pbi => entriesE N fun i => A.dot eng B (incidenceExpr eng g i) (fluxBiasVectorInd phi g b)

/-- `getSymbolicExpressions` (numerical_system.py 283-302): the attributes and the collection that the calls leave behind.  `Cinv_n` is computed
(line 291) and never read. -/
def symbolicExpressions (eng : Engine E) (A : Arith E) (g : CG) (b : Biases) (pc : PC E) : PC E × Except Err (Num.Attr → List E) :=
  match inverseCapacitancePar eng A g pc with
  | (pc, .error e) => (pc, .error e)
  | (pc, .ok Cinv) =>
    match inverseInductancePar eng A g pc with
    | (pc, .error e) => (pc, .error e)
    | (pc, .ok Linv) =>
      match branchInverseExpr eng A g with
      | .error e => (pc, .error e)
      | .ok LinvB =>
        match inverseCapacitancePar eng A g pc with
        | (pc, .error e) => (pc, .error e)
        | (pc, .ok _) => (pc, .ok (attributes eng A g b Cinv Linv LinvB))

/-- A new `NumericalSystem` of a circuit without resonators (numerical_system.py 33-58), from the collection of its `SymbolicSystem`:
`_set_parameter_units` (1271-1287) has nothing to do then. -/
def numericalSystem {R O : Type} (eng : Engine E) (A : Arith E) (g : CG) (b : Biases) (pc : PC E) : Except Err (Num.NS E R O) :=
  match symbolicExpressions eng A g b pc with
  | (_, .error e) => .error e
  | (pc, .ok exprs) => .ok { sw := { pc := pc }, exprs := exprs, nodes := nodes g }

end Verif.Sym
