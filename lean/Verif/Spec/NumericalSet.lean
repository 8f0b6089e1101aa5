import Verif.Model.NumericalSet

/-!
# A numerical system that is up to date
-/

namespace Verif.Spec

open Verif Verif.Num

variable {E R O : Type}

/-- The numeric attributes, the operators and the operator vectors of a system are those of its present parameter values: each number is its
expression with the values substituted, the operators of each node are made for the present impedance, the vectors hold those operators. -/
structure Current (eng : Engine E) (gen : List (ℕ × BasisName) → ℕ → Option PF → Except Err O) (st : NS E R O) : Prop where
  numbers : ∃ d, st.sw.pc.getSymbolValuesDict = .ok d ∧ ∀ a, ∃ xs, st.num.get? a = some xs ∧
    (st.exprs a).map (fun e => eng.toFloat (subsDict eng e d)) = xs.map some
  operators : ∃ sh, st.shape = .ok sh ∧ ∀ node ∈ st.nodes, ∃ o, st.opsOf gen sh node = .ok o ∧ st.circ.get? node = some o
  vectors : ∃ l, st.vec = some l ∧ st.nodes.map (fun node => st.circ.get? node) = l.map some

end Verif.Spec
