import Verif
open Lean

/-- Print, for each property theorem, the constants of this project it depends on. -/
def deps : CoreM Unit := do
  let env ← getEnv
  let inV (n : Name) : Bool := (`Verif).isPrefixOf n
  for (n, _) in env.constants.map₁.toList do
    if (`Verif.Props).isPrefixOf n && (n.toString.startsWith "Verif.Props.C") && !n.isInternal then
      let mut seen : NameSet := {}
      let mut todo : List Name := [n]
      let mut fuel := 100000
      while fuel > 0 && !todo.isEmpty do
        fuel := fuel - 1
        match todo with
        | [] => pure ()
        | m :: rest =>
          todo := rest
          if let some ci := env.find? m then
            let used := ci.type.getUsedConstants ++ (match ci.value? (allowOpaque := true) with | some v => v.getUsedConstants | none => #[])
            for u in used do
              if inV u && !seen.contains u then
                seen := seen.insert u
                todo := u :: todo
      IO.println s!"{n} {String.intercalate " " (seen.toList.map toString)}"

#eval deps
