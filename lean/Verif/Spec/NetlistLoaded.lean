import Verif.Spec.NetlistOp

/-!
# Circuits with resonators
-/

namespace Verif.Spec

open Verif.Circuit

/-- The calls describe a circuit of capacitors, inductors, junctions and phase slips between different nodes, one of them the ground, with
flux and charge biases, no bias of an inductor through a mutual inductance, mutual inductances between different inductors after the last branch,
and resonators that are coupled or removed at any time. -/
structure LoadedNetlist (h : List Call) : Prop where
  biases : ∀ c s m, Call.addFluxBias c s m ∈ h → startsWith c 'L' = true → m = none
  mutuals : ∀ c c' m, Call.coupleBranches c c' m ∈ h → c ≠ c'
  after : ∀ l o a b c l', h = l ++ .addBranch o a b c :: l' → ∀ c₁ c₂ m, .coupleBranches c₁ c₂ m ∉ l
  ends : ∀ b ∈ branches h, b.1 ≠ b.2.1
  ground : 0 ∈ nodesOf (branches h)

/-- The capacitor through which a resonator is coupled to the node: that of the call that coupled it, unless the resonators were removed
since. -/
def resonatorAt (h : List Call) (n : ℕ) : Option String :=
  h.foldl (fun r x => match x with
    | .coupleResonator n' c => if n' = n then some c else r
    | .removeAllResonators => none
    | _ => r) none

/-- The name of the capacitance of the resonator at a node, `C1r` for node 1. -/
def resonatorName (n : ℕ) : String := "C" ++ toString n ++ "r"

/-- The capacitance with which the resonator loads the node: coupling capacitance and resonator capacitance in series. -/
noncomputable def loadAt (val : String → ℝ) (h : List Call) (n : ℕ) : ℝ :=
  match resonatorAt h n with
  | some c => val c * val (resonatorName n) / (val c + val (resonatorName n))
  | none => 0

/-- Twice the energy of the capacitors, gate capacitors and resonators at the node voltages `v`. -/
noncomputable def loadedForm (val : String → ℝ) (h : List Call) (v : ℕ → ℝ) : ℝ :=
  capacitorForm val (branches h) v + ∑ n ∈ nodesOf (branches h), (gateCap val h n + loadAt val h n) * v n ^ 2

/-- All capacitances are positive or zero, also those of the resonators. -/
def NonnegLoads (val : String → ℝ) (h : List Call) : Prop :=
  NonnegCaps val h ∧ ∀ n c, resonatorAt h n = some c → 0 ≤ val c ∧ 0 ≤ val (resonatorName n)

/-- The connections through non-zero capacitances; a gate capacitor connects its node to the ground, and so does a resonator with its coupling
capacitor. -/
noncomputable def loadedNet (val : String → ℝ) (h : List Call) : List (ℕ × ℕ × ℕ) :=
  wires ((branchesOf 'C' (branches h)).filter fun b => val b.2.2 ≠ 0) ++
    ((nodesOf (branches h)).toList.filter fun n => gateCap val h n + loadAt val h n ≠ 0).map fun n => (n, 0, 0)

end Verif.Spec
