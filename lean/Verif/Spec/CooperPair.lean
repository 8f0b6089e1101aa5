import Verif.Model.Hamiltonian

/-!
# Cooper pairs on the nodes of a circuit: the textbook Hamiltonian of a Josephson circuit
-/

namespace Verif.Spec

open Verif.Num Complex

/-- A basis state of `n` nodes in the charge basis; node `i` keeps the charges `-tr i .. tr i`. -/
abbrev ChargeState {n : ℕ} (tr : Fin n → ℕ) := (i : Fin n) → Fin (NodeCfg.mk (tr i) .charge).dim

/-- The number of excess Cooper pairs on node `i`: the states of a node are listed from the highest charge to the lowest. -/
def excess {n : ℕ} {tr : Fin n → ℕ} (x : ChargeState tr) (i : Fin n) : ℤ := (tr i : ℤ) - ((x i : ℕ) : ℤ)

/-- What the number of pairs on node `v` gains when one pair crosses a junction from its second to its first node. -/
def gains (e : ℕ × ℕ × ℕ) (v : ℕ) : ℤ := (if v = e.1 then 1 else 0) - (if v = e.2.1 then 1 else 0)

/-- State `x` is `y` after one pair has crossed the junction `e` from its second to its first node. -/
def Crossed (nodes : List ℕ) {tr : Fin nodes.length → ℕ} (e : ℕ × ℕ × ℕ) (x y : ChargeState tr) : Prop :=
  ∀ i, excess x i = excess y i + gains e (nodes.get i)

/-- The textbook matrix element between charge states: the electrostatic energy of `x` (with the gate charges `ng`), and for each junction
`-EJ/2` times the phase of its flux bias (in flux quanta) for one pair crossing it, in one or the other direction.
`K i j` is twice the energy of one pair on node `i` due to one pair on node `j`. -/
noncomputable def textbook (nodes : List ℕ) (edges : List (ℕ × ℕ × ℕ)) {tr : Fin nodes.length → ℕ}
    (K : Fin nodes.length → Fin nodes.length → ℝ) (ng : Fin nodes.length → ℝ) (EJ φ : Fin edges.length → ℝ) (x y : ChargeState tr) : ℂ :=
  open Classical in
  (if x = y then ((1 / 2 * ∑ i, ∑ j, K i j * (excess x i + ng i) * (excess x j + ng j) : ℝ) : ℂ) else 0) -
    ∑ k, (EJ k / 2 : ℂ) * ((if Crossed nodes (edges.get k) x y then exp (2 * Real.pi * φ k * I) else 0) +
      (if Crossed nodes (edges.get k) y x then exp (-(2 * Real.pi * φ k * I)) else 0))

end Verif.Spec
