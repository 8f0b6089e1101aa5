import Verif.Spec.Symbolic

/-!
# Capacitances between nodes
-/

namespace Verif.Spec

variable {K : Type}

/-- The capacitance between two nodes: the sum over the capacitors that join them. -/
def capacitanceBetween [CommRing K] (val : String → K) (bs : List (ℕ × ℕ × String)) (n m : ℕ) : K :=
  (((branchesOf 'C' bs).filter fun b => (b.1 = n ∧ b.2.1 = m) ∨ (b.1 = m ∧ b.2.1 = n)).map fun b => val b.2.2).sum

/-- The capacitance of the capacitors at a node. -/
def capacitanceAt [CommRing K] (val : String → K) (bs : List (ℕ × ℕ × String)) (n : ℕ) : K :=
  (((branchesOf 'C' bs).filter fun b => b.1 = n ∨ b.2.1 = n).map fun b => val b.2.2).sum

end Verif.Spec
