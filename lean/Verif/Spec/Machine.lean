import Verif.Model.Machine
import Verif.Spec.Numerical
import Verif.Spec.Construct
import Verif.Spec.NetlistOp

/-!
# When the symbolic attributes of a numerical system are the matrices of a circuit
-/

namespace Verif.Spec

open Verif Verif.Num Verif.Sym Verif.Circuit

variable {E D R O : Type}

/-- The list holds the entries of the matrix, row after row. -/
def RowsOf {n m : ℕ} (M : Matrix (Fin n) (Fin m) ℝ) (l : List ℚ) : Prop :=
  ∀ (i : Fin n) (j : Fin m), ∃ x : ℚ, l[(i : ℕ) * m + j]? = some x ∧ (x : ℝ) = M i j

/-- The list holds the entries of the vector. -/
def EntriesOf {n : ℕ} (f : Fin n → ℝ) (l : List ℚ) : Prop := ∀ i : Fin n, ∃ x : ℚ, l[(i : ℕ)]? = some x ∧ (x : ℝ) = f i

/-- The numbers `x` of the attributes are the matrices and vectors `s`; the flux biases of the branches are on the diagonal of a matrix. -/
structure AttrsOf {n m : ℕ} (s : Sys PUnit n m) (x : Attr → List ℚ) : Prop where
  Cinv : RowsOf s.Cinv (x .Cinv)
  Linv : RowsOf s.Linv (x .Linv)
  LinvB : RowsOf s.LinvB (x .LinvB)
  J : EntriesOf s.J (x .J)
  Ps : EntriesOf s.Ps (x .Ps)
  Qb : EntriesOf s.Qb (x .Qb)
  Qbt : EntriesOf s.Qbt (x .Qbt)
  Pbi : EntriesOf s.Pbi (x .Pbi)
  Pbm : RowsOf (Matrix.diagonal s.Pb) (x .Pbm)

/-- At the parameter values of `pc` the expression has the value `d`. -/
def ValueIs (eng : Engine E) (law : eng.Lawful D) (pc : PC E) (e : E) (d : D) : Prop :=
  ∃ ρ, law.eval ρ e = some d ∧
    ∀ s ∈ eng.free e, ∃ n f, pc.getSymbol n = .ok s ∧ pc.getParameterValue n = .ok (some f) ∧ ρ s = law.ofPF f

/-- At the parameter values of `pc` the symbolic attributes have the values of the matrices and vectors `s`. -/
def Expresses (eng : Engine E) (law : eng.Lawful D) (pc : PC E) (exprs : Attr → List E) {n m : ℕ} (s : Sys PUnit n m) : Prop :=
  ∃ x : Attr → List ℚ, AttrsOf s x ∧ ∀ a, List.Forall₂ (fun e q => ValueIs eng law pc e (law.ofPF (.fin q))) (exprs a) (x a)

/-- Every parametric parameter that depends on an independent one and can be computed holds its computed value. -/
def UpToDate (eng : Engine E) (law : eng.Lawful D) (pc : PC E) : Prop :=
  ∀ k f, HasSource eng pc k → Computable eng law pc k f → pc.getParameterValue k = .ok (some f)

/-- The values that the parameters of a circuit hold: of the components, and of the flux and charge biases, which go by `phi` and `Q` and their
suffix. -/
def ValuesOf (h : List Circuit.Call) (pc : PC E) (v : String → ℚ) : Prop :=
  ∀ c n, c ∈ h → Declares c n → pc.getParameterValue n = .ok (some (.fin (v n)))

/-- Values for which the circuit can be quantised: capacitances not negative, every node connected to the ground through capacitors,
inductances not zero, and flux biases of inductors only where they are treated correctly (see `C59_false`). -/
structure PhysicalValues (h : List Circuit.Call) (v : String → ℚ) : Prop where
  caps : NonnegCaps (fun c => (v c : ℝ)) h
  ground : ∀ n ∈ nodesOf (branches h), Conn (capacitiveNet (fun c => (v c : ℝ)) h) n 0
  inductors : ∀ br ∈ branchesOf 'L' (branches h), v br.2.2 ≠ 0
  biases : GroundedBiases (fun s => (v ("phi" ++ s) : ℝ)) h

/-- The symbolic attributes are the matrices and vectors of the circuit `g` (described by the calls `h`, with its flux biases assigned to
branches in `b`), at all values of the parameters for which it can be quantised: this is what is asked of sympy's substitutions and inverses.  The attributes may
mention the derived parameters of the matrix elements, which then have to be up to date and to accept what they accepted in `pc₀`. -/
def SymbolicOf (eng : Engine E) (law : eng.Lawful D) (h : List Circuit.Call) (g : CG) (b : Biases)
    (pinv : Matrix (Fin (edges g).length) (Fin (edges g).length) ℝ → Matrix (Fin (edges g).length) (Fin (edges g).length) ℝ) (u : Prefs)
    (pc₀ : PC E) (exprs : Attr → List E) : Prop :=
  ∀ (pc : PC E) (v : String → ℚ) (s : Sys PUnit (nodes g).length (edges g).length), pc.symMap = pc₀.symMap → pc.parz = pc₀.parz →
    (∀ k f, Admits pc₀ k f → Admits pc k f) → UpToDate eng law pc → ValuesOf h pc v → PhysicalValues h v →
    assemble g b (fun c => (v c : ℝ)) (fun s => (v ("phi" ++ s) : ℝ)) (fun s => (v ("Q" ++ s) : ℝ)) ⟨false, 1⟩ pinv u = .ok s →
    Expresses eng law pc exprs s

/-- The values of the parameters of a circuit at the point `d` of a sweep: those of the point, and for the parameters that are not swept those
that they have (in `pc`). -/
def PointValues (h : List Circuit.Call) (pc : PC E) (d : Dict String PF) (v : String → ℚ) : Prop :=
  ∀ c n, c ∈ h → Declares c n → d.get? n = some (.fin (v n)) ∨
    (d.get? n = none ∧ ¬ Parametric pc n ∧ pc.getParameterValue n = .ok (some (.fin (v n))))

/-- The impedance with which the operators of a node are made: the value of the parameter of that name for an oscillator. -/
def ImpedanceIs (st : NS E R O) (node : ℕ) (b : Basis) (z : Option PF) : Prop :=
  if b = .oscillator then ∃ x, z = some x ∧ st.sw.pc.getParameterValue (NS.zName node) = .ok (some x) else z = none

end Verif.Spec
