import Verif.Spec.Netlist
import Mathlib.Algebra.Algebra.Basic

/-!
# The operator of a circuit, read off the calls that describe the circuit
-/

namespace Verif.Spec

open Verif.Circuit Complex

/-- The calls describe a circuit of capacitors, inductors, junctions and phase slips between different nodes, one of them the ground, with
flux and charge biases; no bias of an inductor comes through a mutual inductance. -/
structure CircuitNetlist (h : List Call) : Prop where
  calls : ∀ x ∈ h, (∃ o a b c, x = .addBranch o a b c) ∨ (∃ c s m, x = .addFluxBias c s m ∧ (startsWith c 'L' = true → m = none)) ∨
    ∃ n s c, x = .addChargeBias n s c
  ends : ∀ b ∈ branches h, b.1 ≠ b.2.1
  ground : 0 ∈ nodesOf (branches h)

/-- Every flux bias of an inductor is on an inductor from the ground to a node without other inductors. -/
def GroundedBiases (φ : String → ℝ) (h : List Call) : Prop :=
  ∀ b ∈ branchesOf 'L' (branches h), fluxOn φ h b.2.2 ≠ 0 → ∃ n, n ≠ 0 ∧ ((b.1 = 0 ∧ b.2.1 = n) ∨ (b.1 = n ∧ b.2.1 = 0)) ∧
    ∀ b' ∈ branchesOf 'L' (branches h), b' ≠ b → b'.1 ≠ n ∧ b'.2.1 ≠ n

/-- A quantity of the nodes by node number; the ground has the value `ground`. -/
def atNumber {A : Type} (nodes : List ℕ) (f : Fin nodes.length → A) (ground : A) (n : ℕ) : A :=
  if hn : nodes.idxOf n < nodes.length then f ⟨nodes.idxOf n, hn⟩ else ground

/-- The operators of the nodes of a circuit: charge, flux, the displacements of the charge by a pair, the displacements of the flux. -/
structure NodeOperators (A : Type) (n : ℕ) where
  Q : Fin n → A
  P : Fin n → A
  D : Fin n → A
  Ddag : Fin n → A
  S : Fin n → A
  Sdag : Fin n → A

/-- The Hamiltonian of the circuit described by the calls `h`: `C` is the capacitance matrix, `Ec`, `El`, `Ej`, `Ep` the units of the energies,
`val` the values of the components, `ng` the gate charges, `f c` the bias flux of the component `c` (in flux quanta) from its first to its
second node.
Charging energy, inductors `(Φ_a - Φ_b + f)² / 2L`, junctions `-I cos(2π(Φ_a - Φ_b + f))` and phase slips `-V cos(2π(Q_a - Q_b + n_a - n_b))`;
the cosines in terms of displacement operators. -/
noncomputable def netlistOperator {A : Type} [Ring A] [Algebra ℂ A] (nodes : List ℕ) (h : List Call) (Ec El Ej Ep : ℝ)
    (C : Matrix (Fin nodes.length) (Fin nodes.length) ℝ) (val : String → ℝ) (ng : ℕ → ℝ) (f : String → ℝ) (o : NodeOperators A nodes.length) : A :=
  ((Ec / 2 : ℝ) : ℂ) • (∑ i, ∑ j, ((C⁻¹ i j : ℝ) : ℂ) • ((o.Q i + ((ng (nodes.get i) : ℝ) : ℂ) • 1) * (o.Q j + ((ng (nodes.get j) : ℝ) : ℂ) • 1))) +
  ((branchesOf 'L' (branches h)).map fun b => ((El / (2 * val b.2.2) : ℝ) : ℂ) •
    (atNumber nodes o.P 0 b.1 - atNumber nodes o.P 0 b.2.1 + ((f b.2.2 : ℝ) : ℂ) • 1) ^ 2).sum -
  ((branchesOf 'I' (branches h)).map fun b => ((Ej * val b.2.2 / 2 : ℝ) : ℂ) •
    (exp (2 * Real.pi * f b.2.2 * I) • (atNumber nodes o.D 1 b.1 * atNumber nodes o.Ddag 1 b.2.1) +
      exp (-(2 * Real.pi * f b.2.2 * I)) • (atNumber nodes o.Ddag 1 b.1 * atNumber nodes o.D 1 b.2.1))).sum -
  ((branchesOf 'V' (branches h)).map fun b =>
    let q := (if b.1 = 0 then 0 else ng b.1) - if b.2.1 = 0 then 0 else ng b.2.1
    ((Ep * val b.2.2 / 2 : ℝ) : ℂ) •
    (exp (2 * Real.pi * q * I) • (atNumber nodes o.S 1 b.1 * atNumber nodes o.Sdag 1 b.2.1) +
      exp (-(2 * Real.pi * q * I)) • (atNumber nodes o.Sdag 1 b.1 * atNumber nodes o.S 1 b.2.1))).sum

end Verif.Spec
