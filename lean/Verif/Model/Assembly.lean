import Verif.Model.Hamiltonian
import Verif.Model.Potential

/-!
# From the circuit and its parameter values to the numbers of the Hamiltonian (pyscqed/numerical_system.py 283-357)
-/

namespace Verif.Num

open Verif Verif.Sym Verif.Circuit Matrix

/-- `getPhaseSlipVector` (symbolic_system.py 468-474). -/
def phaseSlipVector {K : Type} [Zero K] (val : String → K) (g : CG) (i : ℕ) : K :=
  match (edges g)[i]? with
  | some e => match g.cmap.get? e with
    | some c => if pre c = some 'V' then val c else 0
    | none => 0
  | none => 0

/-- `isInductiveEdge`, `isJosephsonEdge` for a branch (circuit_graph.py; numerical_system.py 602-640). -/
def kindOf (g : CG) (e : Edge) : Kind :=
  if isEdgeOf g 'L' e = .ok true then .inductive else if isEdgeOf g 'I' e = .ok true then .josephson else .other

/-- `Linv_b`, `getInverseInductanceMatrix(mode='branch')` (symbolic_system.py 385-389), from the pseudo-inverse `B` of the branch matrix. -/
noncomputable def branchInverse (g : CG) (t : Transform ℝ (nodes g).length) (B : Matrix (Fin (edges g).length) (Fin (edges g).length) ℝ) :
    Matrix (Fin (edges g).length) (Fin (edges g).length) ℝ :=
  if t.use then
    (Mat.block (incidence (K := ℝ) g) (nodes g).length (edges g).length).transpose * (t.R⁻¹).transpose *
      Mat.block (incidence (K := ℝ) g) (nodes g).length (edges g).length * B *
      (Mat.block (incidence (K := ℝ) g) (nodes g).length (edges g).length).transpose * t.R⁻¹ *
      Mat.block (incidence (K := ℝ) g) (nodes g).length (edges g).length
  else B

/-- `getSymbolicExpressions` and `substitute` (numerical_system.py 283-302, 318-357): the matrices and vectors of the circuit at the values
`val` of the components, `phi` of the flux biases and `q` of the charge biases.  The operators are put in by `Sys.withNodes`.
Simplifications: the entries are computed from the values, not substituted into the symbolic expressions (the `parameterise` step in between
is in `Verif.Model.Derived`), so a matrix that is singular only at these values is an error here too; `pinv` is sympy's pseudo-inverse. -/
noncomputable def assemble (g : CG) (b : Biases) (val phi q : String → ℝ) (t : Transform ℝ (nodes g).length)
    (pinv : Matrix (Fin (edges g).length) (Fin (edges g).length) ℝ → Matrix (Fin (edges g).length) (Fin (edges g).length) ℝ) (u : Prefs) :
    Except Err (Sys PUnit (nodes g).length (edges g).length) :=
  match capacitance val (resonatorCap val) g with
  | .error e => .error e
  | .ok C => match inverseCapacitance t (C.block (nodes g).length (nodes g).length) with
    | none => .error .valueError
    | some Ci => match branchInductance val g with
      | .error e => .error e
      | .ok M => .ok {
          Cinv := Ci
          Linv := transformInductance t (toNodes g (pinv (M.block _ _)))
          LinvB := branchInverse g t (pinv (M.block _ _))
          J := fun i => josephsonVector val g i
          Ps := fun i => phaseSlipVector val g i
          Pb := fun i => fluxBiasVector phi g b i
          Qbt := (Mat.block (incidence (K := ℝ) g) (nodes g).length (edges g).length).transpose.mulVec fun i => chargeBiasVector q g i
          Qb := fun i => chargeBiasVector q g i
          Pbi := fluxBiasNodes phi g b
          kind := fun i => kindOf g ((edges g).get i)
          terms := fun i => branchTerms g (fun a j => if h : a < (nodes g).length ∧ j < (nodes g).length then t.R⁻¹ ⟨a, h.1⟩ ⟨j, h.2⟩ else 0)
            ((edges g).get i)
          Q := fun _ => ⟨⟩
          P := fun _ => ⟨⟩
          flux := fun _ => ⟨⟩
          D := fun _ => ⟨⟩
          Ddag := fun _ => ⟨⟩
          S := fun _ => ⟨⟩
          Sdag := fun _ => ⟨⟩
          u := u }

end Verif.Num
