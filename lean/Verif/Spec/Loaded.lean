import Verif.Spec.Symbolic
import Mathlib.Data.Real.Basic

/-!
# Vocabulary for resonators coupled to a circuit
-/

namespace Verif.Spec

open Verif.Circuit

/-- A resonator written out: the circuit node, the node of the resonator, and the names of its coupling capacitor, capacitor and inductor. -/
structure Load where
  node : ℕ
  res : ℕ
  cc : String
  cr : String
  lr : String
  deriving DecidableEq

/-- Twice the energy of coupling capacitor and resonator capacitor at node voltages `v`, less what is left if the resonator node floats:
`(Cc + Cr) (v_res - Cc / (Cc + Cr) v_node)²`. -/
noncomputable def floatForm (val : String → ℝ) (l : Load) (v : ℕ → ℝ) : ℝ :=
  (val l.cc + val l.cr) * (v l.res - val l.cc / (val l.cc + val l.cr) * v l.node) ^ 2

end Verif.Spec
