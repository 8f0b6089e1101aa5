import Verif.Spec.CooperPair
import Verif.Spec.Symbolic

/-!
# The Hamiltonian of a Josephson circuit, read off the calls that describe the circuit
-/

namespace Verif.Spec

open Verif.Circuit Complex

/-- The calls describe a circuit of capacitors and junctions between different nodes, one of them the ground, with flux and charge biases. -/
structure JosephsonNetlist (h : List Call) : Prop where
  calls : ∀ x ∈ h, (∃ o a b c, x = .addBranch o a b c) ∨ (∃ c s m, x = .addFluxBias c s m) ∨ ∃ n s c, x = .addChargeBias n s c
  letters : ∀ b ∈ branches h, startsWith b.2.2 'C' = true ∨ startsWith b.2.2 'I' = true
  ends : ∀ b ∈ branches h, b.1 ≠ b.2.1
  ground : 0 ∈ nodesOf (branches h)

/-- The flux bias given to a component, in flux quanta (0 if none was given); `φ` are the values of the suffixes. -/
noncomputable def fluxOn (φ : String → ℝ) (h : List Call) (c : String) : ℝ :=
  ((h.filterMap fun x => match x with
    | .addFluxBias c' (some s) _ => if c' = c then some (φ s) else none
    | _ => none).head?).getD 0

/-- The charge bias given to a node, in Cooper pairs (0 if none was given). -/
noncomputable def gateCharge (q : String → ℝ) (h : List Call) (n : ℕ) : ℝ :=
  ((h.filterMap fun x => match x with
    | .addChargeBias n' (some s) _ => if n' = n then some (q s) else none
    | _ => none).head?).getD 0

/-- The gate capacitance given to a node (0 if none was given). -/
noncomputable def gateCap (val : String → ℝ) (h : List Call) (n : ℕ) : ℝ :=
  ((h.filterMap fun x => match x with
    | .addChargeBias n' _ (some c) => if n' = n then some (val c) else none
    | _ => none).head?).getD 0

/-- Twice the energy of the capacitors and gate capacitors at the node voltages `v`. -/
noncomputable def electrostaticForm (val : String → ℝ) (h : List Call) (v : ℕ → ℝ) : ℝ :=
  capacitorForm val (branches h) v + ∑ n ∈ nodesOf (branches h), gateCap val h n * v n ^ 2

/-- The component values are capacitances: not negative. -/
def NonnegCaps (val : String → ℝ) (h : List Call) : Prop :=
  (∀ b ∈ branchesOf 'C' (branches h), 0 ≤ val b.2.2) ∧ ∀ n ∈ nodesOf (branches h), 0 ≤ gateCap val h n

/-- The connections through non-zero capacitances; a gate capacitor connects its node to the ground. -/
noncomputable def capacitiveNet (val : String → ℝ) (h : List Call) : List (ℕ × ℕ × ℕ) :=
  wires ((branchesOf 'C' (branches h)).filter fun b => val b.2.2 ≠ 0) ++
    ((nodesOf (branches h)).toList.filter fun n => gateCap val h n ≠ 0).map fun n => (n, 0, 0)

/-- The matrix element between charge states of the circuit described by the calls `h`: `C` is the capacitance matrix, `qp` the charge of a
pair, `EJ c` the Josephson energy of the junction `c`, and `f c` the bias flux through it (in flux quanta) from its first to its second
node. -/
noncomputable def netlistElement (nodes : List ℕ) (h : List Call) {tr : Fin nodes.length → ℕ} (qp : ℝ)
    (C : Matrix (Fin nodes.length) (Fin nodes.length) ℝ) (ng : ℕ → ℝ) (EJ f : String → ℝ) (x y : ChargeState tr) : ℂ :=
  open Classical in
  (if x = y then ((1 / 2 * ∑ i, ∑ j, qp ^ 2 * C⁻¹ i j * (excess x i + ng (nodes.get i)) * (excess x j + ng (nodes.get j)) : ℝ) : ℂ) else 0) -
    ((branchesOf 'I' (branches h)).map fun b => (EJ b.2.2 / 2 : ℂ) *
      ((if Crossed nodes (b.1, b.2.1, 0) x y then exp (2 * Real.pi * f b.2.2 * I) else 0) +
        (if Crossed nodes (b.1, b.2.1, 0) y x then exp (-(2 * Real.pi * f b.2.2 * I)) else 0))).sum

end Verif.Spec
