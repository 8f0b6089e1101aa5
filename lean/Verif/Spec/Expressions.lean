import Mathlib.LinearAlgebra.Matrix.NonsingularInverse
import Verif.Model.Expressions
import Verif.Spec.Machine
import Verif.Spec.Derived

/-!
# What is asked of sympy's arithmetic
-/

namespace Verif.Spec

open Verif Verif.Sym Matrix

variable {E D : Type}

/-- sympy's operations on expressions and matrices give expressions with the right values and bring in no symbols.  Inverses are asked for only at values
where the matrix is symmetric and positive definite, pseudo-inverses only of matrices that are written as diagonal matrices, at values where
no entry of the diagonal that is written as something else than 0 is 0. -/
structure ArithLaws (eng : Engine E) (law : eng.Lawful D) (A : Arith E) : Prop where
  numbers : ∀ q : ℚ, law.toPF (law.ofPF (.fin q)) = some (.fin q)
  mul : ∀ x y : ℚ, law.mulD (law.ofPF (.fin x)) (law.ofPF (.fin y)) = law.ofPF (.fin (x * y))
  sym : ∀ ρ s, law.eval ρ (A.sym s) = some (ρ s)
  add : ∀ ρ a b (x y : ℚ), law.eval ρ a = some (law.ofPF (.fin x)) → law.eval ρ b = some (law.ofPF (.fin y)) →
    law.eval ρ (A.add a b) = some (law.ofPF (.fin (x + y)))
  sub : ∀ ρ a b (x y : ℚ), law.eval ρ a = some (law.ofPF (.fin x)) → law.eval ρ b = some (law.ofPF (.fin y)) →
    law.eval ρ (A.sub a b) = some (law.ofPF (.fin (x - y)))
  inverse : ∀ ρ n M N (X : Matrix (Fin n) (Fin n) ℚ), A.inverse n M = .ok N → (∀ i j : Fin n, law.eval ρ (M i j) = some (law.ofPF (.fin (X i j)))) →
    X.transpose = X → (∀ x : Fin n → ℚ, x ≠ 0 → 0 < x ⬝ᵥ X.mulVec x) →
    ∀ i j : Fin n, law.eval ρ (N i j) = some (law.ofPF (.fin (X⁻¹ i j)))
  pinv : ∀ ρ n M N (d : ℕ → ℚ), A.pinv n M = .ok N → (∀ i < n, ∀ j < n, i ≠ j → M i j = eng.lit (.fin 0)) →
    (∀ i < n, law.eval ρ (M i i) = some (law.ofPF (.fin (d i)))) → (∀ i < n, d i ≠ 0 ∨ M i i = eng.lit (.fin 0)) →
    ∀ i < n, ∀ j < n, law.eval ρ (N i j) = some (law.ofPF (.fin (if i = j then (d i)⁻¹ else 0)))
  free_sym : ∀ s, ∀ x ∈ eng.free (A.sym s), x = s
  free_add : ∀ a b, ∀ x ∈ eng.free (A.add a b), x ∈ eng.free a ∨ x ∈ eng.free b
  free_sub : ∀ a b, ∀ x ∈ eng.free (A.sub a b), x ∈ eng.free a ∨ x ∈ eng.free b
  free_inverse : ∀ n M N, A.inverse n M = .ok N → ∀ i < n, ∀ j < n, ∀ x ∈ eng.free (N i j), ∃ a < n, ∃ b < n, x ∈ eng.free (M a b)
  free_pinv : ∀ n M N, A.pinv n M = .ok N → ∀ i < n, ∀ j < n, ∀ x ∈ eng.free (N i j), ∃ a < n, ∃ b < n, x ∈ eng.free (M a b)

/-- A parameter of a resonator that is computed from the others. -/
def Computed (h : List Circuit.Call) (k : String) : Prop := ∃ n c, .coupleResonator n c ∈ h ∧ k ∈ resonatorComputed n

/-- From the system `st` to the system `st'` by successful calls of `configureOperator` and `setParameterValues`, in any order. -/
inductive Used {R O : Type} (eng : Engine E) (gen : List (ℕ × Num.BasisName) → ℕ → Option PF → Except Err O) (freq imp : ℕ → E) (st : Num.NS E R O) :
    Num.NS E R O → Prop
  | start : Used eng gen freq imp st st
  | configure {s s' : Num.NS E R O} (node trunc : ℕ) (basis : Num.BasisName) : Used eng gen freq imp st s →
      s.configureOperator eng freq imp node trunc basis = (s', .ok ()) → Used eng gen freq imp st s'
  | set {s s' : Num.NS E R O} (ho : HashOrder) (fuel : ℕ) (args : List PC.BulkArg) : Used eng gen freq imp st s →
      s.setParameterValues eng ho fuel gen args = (s', .ok ()) → Used eng gen freq imp st s'

end Verif.Spec
