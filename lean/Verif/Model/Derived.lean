import Verif.Model.Collection

/-!
# The derived parameters of the matrices (pyscqed/symbolic_system.py)

`getCapacitanceMatrix`, `getInverseCapacitanceMatrix`, `getInductanceMatrix` and `getInverseInductanceMatrix` replace the entries of the
matrix they have computed by parameters of their own.  The four loops are the same but for the names.  `E` are sympy expressions; the
matrices themselves are in `Verif.Model.Symbolic`.
-/

namespace Verif.Derived

open Verif

variable {E : Type}

/-- `"C%i%i"`, `"C%i%ii"`, `"L%i%i"`, `"L%i%ii"` (symbolic_system.py 186, 218, 354, 380). -/
def dname (letter : Char) (inv : Bool) (i j : ℕ) : String :=
  String.ofList (letter :: ((toString i).toList ++ (toString j).toList ++ if inv then ['i'] else []))

/-- `M[i, j] = x`. -/
def setAt (M : ℕ → ℕ → E) (i j : ℕ) (x : E) : ℕ → ℕ → E := fun a b => if a = i ∧ b = j then x else M a b

/-- `for i in range(n): for j in range(i, n)`. -/
def upper (n : ℕ) : List (ℕ × ℕ) := (List.range n).flatMap fun i => ((List.range n).filter fun j => decide (i ≤ j)).map fun j => (i, j)

/-- `M[i, j] == 0 or len(M[i, j].free_symbols) < 2`. -/
def skipped (eng : Engine E) (isZero : E → Bool) (e : E) : Bool := isZero e || decide ((eng.free e).length < 2)

/-- The loop that parameterises the matrix elements (symbolic_system.py 180-190, 212-222, 348-358, 374-384).  `isZero` is sympy's `== 0`,
`symE` the expression that is a symbol. -/
def parLoop (eng : Engine E) (isZero : E → Bool) (symE : Sym → E) (name : ℕ → ℕ → String) : List (ℕ × ℕ) → PC E → (ℕ → ℕ → E) →
    PC E × Except Err (ℕ → ℕ → E)
  | [], pc, M => (pc, .ok M)
  | (i, j) :: rest, pc, M =>
    if skipped eng isZero (M i j) then parLoop eng isZero symE name rest pc M
    else
      match pc.addParameter (name i j) with
      | (pc, .error e) => (pc, .error e)
      | (pc, .ok ()) =>
        match pc.addParameterisation eng (name i j) (M i j) with
        | (pc, .error e) => (pc, .error e)
        | (pc, .ok ()) =>
          match pc.getSymbol (name i j) with
          | .error e => (pc, .error e)
          | .ok s => parLoop eng isZero symE name rest pc (setAt (setAt M i j (symE s)) j i (symE s))

/-- One of the four methods, on an `n × n` matrix. -/
def parameterise (eng : Engine E) (isZero : E → Bool) (symE : Sym → E) (letter : Char) (inv : Bool) (n : ℕ) (pc : PC E) (M : ℕ → ℕ → E) :
    PC E × Except Err (ℕ → ℕ → E) :=
  parLoop eng isZero symE (dname letter inv) (upper n) pc M

/-- `getInverseCapacitanceMatrix` (symbolic_system.py 194-224): it parameterises the capacitance matrix, then its inverse, which is
computed by `inverse`. -/
def inverseCapacitance (eng : Engine E) (isZero : E → Bool) (symE : Sym → E) (inverse : (ℕ → ℕ → E) → ℕ → ℕ → E) (n : ℕ) (pc : PC E)
    (M : ℕ → ℕ → E) : PC E × Except Err (ℕ → ℕ → E) :=
  match parameterise eng isZero symE 'C' false n pc M with
  | (pc, .error e) => (pc, .error e)
  | (pc, .ok M') => parameterise eng isZero symE 'C' true n pc (inverse M')

end Verif.Derived
