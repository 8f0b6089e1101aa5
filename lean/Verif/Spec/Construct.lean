import Verif.Model.Circuit

/-!
# The parameters of a circuit, read off the calls that describe it
-/

namespace Verif.Spec

open Verif.Circuit

/-- The names that belong to a resonator coupled to a node through the capacitor `c`. -/
def resonatorNames (n : ℕ) (c : String) : List String :=
  [c, s!"f{n}r", s!"Z{n}r", s!"C{n}r", s!"L{n}r", s!"g{n}r", s!"f{n}rl", s!"Z{n}rl"]

/-- Those of them that are computed from the others. -/
def resonatorComputed (n : ℕ) : List String := [s!"C{n}r", s!"L{n}r", s!"f{n}rl", s!"Z{n}rl", s!"g{n}r"]

/-- The parameters that a call asks for: the components it names, `phi` and the suffix for a flux bias, `Q` and the suffix for a charge bias,
and those of a resonator. -/
inductive Declares : Call → String → Prop
  | branch (o : Orc) (a b : ℕ) (c : String) : Declares (.addBranch o a b c) c
  | mutual (a b m : String) : Declares (.coupleBranches a b m) m
  | gate (n : ℕ) (s : Option String) (c : String) : Declares (.addChargeBias n s (some c)) c
  | charge (n : ℕ) (s : String) (c : Option String) : Declares (.addChargeBias n (some s) c) ("Q" ++ s)
  | coil (c : String) (s : Option String) (m : String) : Declares (.addFluxBias c s (some m)) m
  | flux (c s : String) (m : Option String) : Declares (.addFluxBias c (some s) m) ("phi" ++ s)
  | resonator (n : ℕ) (c k : String) (h : k ∈ resonatorNames n c) : Declares (.coupleResonator n c) k

/-- How a parameter is written: `\Phi_{s}` for the flux bias `phis`, and otherwise the first character with the others as index. -/
def writtenAs (name : String) : String :=
  match name.toList with
  | 'p' :: 'h' :: 'i' :: s => "\\Phi_{" ++ String.ofList s ++ "}"
  | c :: s => String.ofList [c] ++ "_{" ++ String.ofList s ++ "}"
  | [] => ""

/-- No resonator is removed. -/
def KeepsResonators (h : List Call) : Prop := ∀ x ∈ h, x ≠ .removeAllResonators

end Verif.Spec
