import Verif.Model.Potential

/-!
# The classical Hamiltonian (pyscqed/symbolic_system.py, `getClassicalHamiltonian`)

The value of the expression when the symbols of charges `Q_n`, fluxes `Φ_n`, reduced fluxes `φ_n` and biases have given values.  The
expression has separate symbols for a flux and the reduced flux of the same node; so has the model.
-/

namespace Verif.Sym

open Verif Verif.Circuit

/-- `getFluxBiasVector(mode="branch", form="phase")` (symbolic_system.py 279-299): the reduced biases of the Josephson branches. -/
def redBiasVector {K : Type} [Zero K] (red : String → K) (g : CG) (b : Biases) (i : ℕ) : K :=
  match (edges g)[i]? with
  | some e => if (isEdgeOf g 'I' e) = .ok true then biasVal red b.red e else 0
  | none => 0

/-- `getClassicalJosephsonEnergies` (symbolic_system.py 411-416) with `getRedFluxVector(mode="branch")` (243-248): the reduced fluxes are
multiplied by `Rnb` only, with or without a transform. -/
noncomputable def classicalJosephson (g : CG) (b : Biases) (val red : String → ℝ) (p : Fin (nodes g).length → ℝ) : ℝ :=
  ∑ i : Fin (edges g).length, -(josephsonVector val g i) * Real.cos (branchFluxes g p i + redBiasVector red g b i)

/-- The values of the symbols of the coordinates: `Q_n`, `Φ_n` and `φ_n`. -/
structure Coords (n : ℕ) where
  Q : Fin n → ℝ
  P : Fin n → ℝ
  p : Fin n → ℝ

/-- The values of the bias symbols, by suffix. -/
structure BiasVals where
  charge : String → ℝ
  flux : String → ℝ
  red : String → ℝ

/-- `getClassicalHamiltonian` (symbolic_system.py 542-545).  `Cinv` and `Linv` are the matrices of `getInverseCapacitanceMatrix` and
`getInverseInductanceMatrix`, transformed if a transform is used. -/
noncomputable def classicalHamiltonian (g : CG) (b : Biases) (val : String → ℝ) (x : BiasVals)
    (Cinv Linv : Matrix (Fin (nodes g).length) (Fin (nodes g).length) ℝ) (c : Coords (nodes g).length) : ℝ :=
  quadEnergy Cinv c.Q (fun i => chargeBiasVector x.charge g i) + quadEnergy Linv c.P (fluxBiasNodes x.flux g b) +
    classicalJosephson g b val x.red c.p

/-- `getJosephsonEnergies` of the symbolic system (symbolic_system.py 404-409): by branch number. -/
noncomputable def symbolicJosephsonEnergy (g : CG) (val : String → ℝ) (Phi0 : ℝ) (i : ℕ) : ℝ := Phi0 * josephsonVector val g i / (2 * Real.pi)

end Verif.Sym
