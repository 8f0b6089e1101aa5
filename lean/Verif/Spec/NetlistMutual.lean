import Verif.Spec.NetlistOp
import Mathlib.LinearAlgebra.Matrix.NonsingularInverse

/-!
# The operator of a circuit with mutual inductances
-/

namespace Verif.Spec

open Verif.Circuit Complex

/-- The calls describe a circuit of capacitors, inductors, junctions and phase slips between different nodes, one of them the ground, with
flux and charge biases, no bias of an inductor through a mutual inductance, and, after the last branch, mutual inductances between different
inductors. -/
structure CoupledNetlist (h : List Call) : Prop where
  calls : ∀ x ∈ h, (∃ o a b c, x = .addBranch o a b c) ∨ (∃ c s m, x = .addFluxBias c s m ∧ (startsWith c 'L' = true → m = none)) ∨
    (∃ n s c, x = .addChargeBias n s c) ∨ ∃ c c' m, x = .coupleBranches c c' m ∧ c ≠ c'
  after : ∀ l o a b c l', h = l ++ .addBranch o a b c :: l' → ∀ c₁ c₂ m, .coupleBranches c₁ c₂ m ∉ l
  ends : ∀ b ∈ branches h, b.1 ≠ b.2.1
  ground : 0 ∈ nodesOf (branches h)

/-- The mutual inductances of the calls: the two inductors and the name of the mutual inductance. -/
def couplings (h : List Call) : List (String × String × String) :=
  h.filterMap fun x => match x with
    | .coupleBranches c c' m => some (c, c', m)
    | _ => none

/-- The mutual inductance of two inductors: the sum over the calls that couple them, in either order. -/
def mutualOf (val : String → ℝ) (h : List Call) (c c' : String) : ℝ :=
  (((couplings h).filter fun k => (k.1 = c ∧ k.2.1 = c') ∨ (k.1 = c' ∧ k.2.1 = c)).map fun k => val k.2.2).sum

/-- The inductance matrix of the netlist: self-inductances on the diagonal, mutual inductances elsewhere.  `sgn c` is 1 if the currents in the
inductor `c` are counted in the direction in which the mutual inductances are meant, and -1 if they are counted in the other one. -/
def inductanceOf (val : String → ℝ) (sgn : String → ℝ) (h : List Call) (c c' : String) : ℝ :=
  if c = c' then val c else sgn c * sgn c' * mutualOf val h c c'

/-- The flux of an inductor: the difference of the fluxes of its nodes, plus its bias. -/
noncomputable def inductorFlux {A : Type} [Ring A] [Algebra ℂ A] (nodes : List ℕ) (f : String → ℝ) (P : Fin nodes.length → A) (b : ℕ × ℕ × String) : A :=
  atNumber nodes P 0 b.1 - atNumber nodes P 0 b.2.1 + ((f b.2.2 : ℝ) : ℂ) • 1

/-- `J` are currents in the inductors that produce the fluxes `X` through the self and mutual inductances. -/
def Produces {A : Type} [Ring A] [Algebra ℂ A] (val sgn : String → ℝ) (h : List Call) (J : String → A) (X : ℕ × ℕ × String → A) : Prop :=
  ∀ b ∈ branchesOf 'L' (branches h),
    ((branchesOf 'L' (branches h)).map fun b' => ((inductanceOf val sgn h b.2.2 b'.2.2 : ℝ) : ℂ) • J b'.2.2).sum = X b

/-- The inductance matrix of the netlist, with rows and columns in the order in which the inductors were added. -/
def inductanceMatrix (val sgn : String → ℝ) (h : List Call) :
    Matrix (Fin (branchesOf 'L' (branches h)).length) (Fin (branchesOf 'L' (branches h)).length) ℝ :=
  fun i j => inductanceOf val sgn h ((branchesOf 'L' (branches h)).get i).2.2 ((branchesOf 'L' (branches h)).get j).2.2

/-- The Hamiltonian of a circuit with mutual inductances: the circuit without inductors (`El = 0` in the operator of the netlist), plus
`El/2 Σ Λ⁻¹_bb' X_b X_b'`, `X` the fluxes of the inductors and `Λ` the inductance matrix. -/
noncomputable def mutualOperator {A : Type} [Ring A] [Algebra ℂ A] (nodes : List ℕ) (h : List Call) (Ec El Ej Ep : ℝ)
    (C : Matrix (Fin nodes.length) (Fin nodes.length) ℝ) (val sgn : String → ℝ) (ng : ℕ → ℝ) (f : String → ℝ) (o : NodeOperators A nodes.length) : A :=
  netlistOperator nodes h Ec 0 Ej Ep C val ng f o + ((El / 2 : ℝ) : ℂ) • ∑ i, ∑ j, (((inductanceMatrix val sgn h)⁻¹ i j : ℝ) : ℂ) •
    (inductorFlux nodes f o.P ((branchesOf 'L' (branches h)).get i) * inductorFlux nodes f o.P ((branchesOf 'L' (branches h)).get j))

end Verif.Spec
