import Verif.Prelude.Py

/-!
# Model of `pyscqed/text2latex.py`

Strings are handled as character lists inside the definitions.
-/

namespace Verif.Latex

open Verif

/-- `supported_symbols` (text2latex.py 9-50), in insertion order. -/
def supportedSymbols : List (String × String) :=
  [("alpha", "\\alpha"), ("beta", "\\beta"), ("gamma", "\\gamma"),
   ("delta", "\\delta"), ("epsilon", "\\epsilon"), ("varepsilon", "\\varepsilon"),
   ("zeta", "\\zeta"), ("eta", "\\eta"), ("theta", "\\theta"),
   ("vartheta", "\\vartheta"), ("kappa", "\\kappa"), ("lambda", "\\lambda"),
   ("mu", "\\mu"), ("nu", "\\nu"), ("xi", "\\xi"),
   ("pi", "\\pi"), ("varpi", "\\varpi"), ("rho", "\\rho"),
   ("varrho", "\\varrho"), ("sigma", "\\sigma"), ("varsigma", "\\varsigma"),
   ("tau", "\\tau"), ("upsilon", "\\upsilon"), ("phi", "\\phi"),
   ("varphi", "\\varphi"), ("chi", "\\chi"), ("psi", "\\psi"),
   ("omega", "\\omega"), ("Gamma", "\\Gamma"), ("Delta", "\\Delta"),
   ("Theta", "\\Theta"), ("Lambda", "\\Lambda"), ("Xi", "\\Xi"),
   ("Pi", "\\Pi"), ("Sigma", "\\Sigma"), ("Upsilon", "\\Upsilon"),
   ("Phi", "\\Phi"), ("Psi", "\\Psi"), ("Omega", "\\Omega")]

/-- `str.rfind(pat)` for a pattern that is not empty: the last position at which `pat` occurs. -/
def rfind (pat : List Char) : List Char → Option ℕ
  | [] => none
  | c :: cs =>
    match rfind pat cs with
    | some i => some (i + 1)
    | none => if pat.isPrefixOf (c :: cs) then some 0 else none

/-- The loop finding the first symbol `s` with `param_string.rfind(s) == 0` (text2latex.py 58-62). -/
def findSymbol (name : List Char) : List (String × String) → Option (String × String)
  | [] => none
  | p :: rest => if rfind p.1.toList name = some 0 then some p else findSymbol name rest

/-- `latexify_param_name` (text2latex.py 53-70).  The empty name fails at `param_string[0]`. -/
def latexify (name : String) : Except Err String :=
  match findSymbol name.toList supportedSymbols with
  | some p => .ok (p.2 ++ "_\\mathrm{" ++ String.ofList (name.toList.drop p.1.toList.length) ++ "}")
  | none =>
    match name.toList with
    | [] => .error .indexError
    | c :: cs => .ok (String.ofList [c] ++ "_\\mathrm{" ++ String.ofList cs ++ "}")

end Verif.Latex
