import Verif.Spec.Netlist

/-!
# A flux bias attached to another junction of its loop
-/

namespace Verif.Spec

open Verif.Circuit

/-- The calls `h'` describe the circuit of the calls `h`, except for the flux biases. -/
structure SameButFlux (h h' : List Call) : Prop where
  branches : (branches h').Perm (branches h)
  charge : ∀ q n, gateCharge q h' n = gateCharge q h n
  caps : ∀ val n, gateCap val h' n = gateCap val h n

/-- The junctions `x` and `y` are in series: they are the only junctions between the nodes in `S` and the other nodes, among which is the ground.  (Every loop of junctions
that goes through one of them also goes through the other.) -/
structure InSeries (h : List Call) (S : Set ℕ) (x y : String) : Prop where
  ground : 0 ∉ S
  first : ∃ d ∈ branchesOf 'I' (branches h), d.2.2 = x
  second : ∃ d ∈ branchesOf 'I' (branches h), d.2.2 = y
  between : ∀ d ∈ branchesOf 'I' (branches h), (d.1 ∈ S ↔ d.2.1 ∈ S) ↔ d.2.2 ≠ x ∧ d.2.2 ≠ y

end Verif.Spec
