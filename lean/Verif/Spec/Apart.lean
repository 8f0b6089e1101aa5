import Verif.Spec.Netlist

/-!
# A circuit of two parts that share only the ground
-/

namespace Verif.Spec

open Verif.Circuit

/-- The calls `h` describe the circuit made of those of `h1` and of `h2`, which have no node but the ground in common.  The biases and gate capacitances are those of the parts. -/
structure Apart (h h1 h2 : List Call) : Prop where
  branches : (branches h).Perm (branches h1 ++ branches h2)
  common : ∀ n, n ∈ nodesOf (Spec.branches h1) → n ∈ nodesOf (Spec.branches h2) → n = 0
  charge1 : ∀ q, ∀ n ∈ nodesOf (Spec.branches h1), gateCharge q h n = gateCharge q h1 n
  charge2 : ∀ q, ∀ n ∈ nodesOf (Spec.branches h2), gateCharge q h n = gateCharge q h2 n
  caps1 : ∀ val, ∀ n ∈ nodesOf (Spec.branches h1), gateCap val h n = gateCap val h1 n
  caps2 : ∀ val, ∀ n ∈ nodesOf (Spec.branches h2), gateCap val h n = gateCap val h2 n
  flux1 : ∀ φ, ∀ b ∈ Spec.branches h1, fluxOn φ h b.2.2 = fluxOn φ h1 b.2.2
  flux2 : ∀ φ, ∀ b ∈ Spec.branches h2, fluxOn φ h b.2.2 = fluxOn φ h2 b.2.2

end Verif.Spec
