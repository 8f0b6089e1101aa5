import Verif
open Lean

/-- Print, for each property theorem, the axioms it depends on. -/
def listAxioms : CoreM Unit := do
  let env ← getEnv
  for (n, ci) in env.constants.map₁.toList do
    if (`Verif.Props).isPrefixOf n && (n.toString.startsWith "Verif.Props.C") && !n.isInternal then
      match ci with
      | .thmInfo _ => do
        let ax ← collectAxioms n
        IO.println s!"{n} {String.intercalate " " ((ax.toList.map toString).mergeSort (· ≤ ·))}"
      | _ => pure ()

#eval listAxioms
