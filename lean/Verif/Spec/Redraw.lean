import Verif.Spec.Netlist

/-!
# The same circuit described differently
-/

namespace Verif.Spec

open Verif.Circuit

/-- The branch `b'` is the branch `b` after the nodes are renamed by `ρ`; its ends may be given in the other order. -/
def SameBranch (ρ : ℕ → ℕ) (b b' : ℕ × ℕ × String) : Prop :=
  b'.2.2 = b.2.2 ∧ (b'.1 = ρ b.1 ∧ b'.2.1 = ρ b.2.1 ∨ b'.1 = ρ b.2.1 ∧ b'.2.1 = ρ b.1)

/-- The calls `h'` describe the circuit of the calls `h`, with the nodes renamed by `ρ` (the ground stays the ground) and the branches added
in any order, each from either end; the biases and gate capacitances are those of `h`. -/
structure Redrawn (ρ : ℕ → ℕ) (h h' : List Call) : Prop where
  inj : Function.Injective ρ
  ground : ρ 0 = 0
  branches : ∃ l, l.Perm (branches h') ∧ List.Forall₂ (SameBranch ρ) (branches h) l
  flux : ∀ φ c, fluxOn φ h' c = fluxOn φ h c
  charge : ∀ q n, gateCharge q h' (ρ n) = gateCharge q h n
  caps : ∀ val n, gateCap val h' (ρ n) = gateCap val h n

/-- At most one junction is given a flux bias different from zero. -/
def OneBias (φ : String → ℝ) (h : List Call) : Prop :=
  ∀ c c', fluxOn φ h c ≠ 0 → fluxOn φ h c' ≠ 0 → c = c'

end Verif.Spec
