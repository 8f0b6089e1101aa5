import Verif.Model.Param
import Mathlib.Logic.Function.Basic

/-!
# The symbolic engine (sympy) as seen by the code

The code uses sympy expressions through four operations only: `free_symbols`, `subs` with a single
replacement, multiplication (prefactors) and `float(expr)`.  The model is parametric in an engine
providing them, so it makes no commitment on how sympy simplifies; what the proofs need from sympy is
collected in `Engine.Lawful`.
-/

namespace Verif

/-- The operations on expressions. -/
structure Engine (E : Type) where
  /-- `list(e.free_symbols)`: the set in its (arbitrary) iteration order. -/
  free : E → List Sym
  /-- `e.subs({s: r})` -/
  subs : E → Sym → E → E
  /-- a float literal -/
  lit : PF → E
  /-- `a * b` -/
  mul : E → E → E
  /-- `float(e)`; `none` means it raises. -/
  toFloat : E → Option PF

/-- What is assumed of sympy.  `D` is the domain of values and `eval ρ e = some d` says that `e` is
defined with value `d` when the symbols have the values `ρ`.  Simplification during substitution may
make an expression *more* defined (`x/x` becomes `1`), never change a defined value. -/
structure Engine.Lawful {E : Type} (eng : Engine E) (D : Type) where
  eval : (Sym → D) → E → Option D
  ofPF : PF → D
  toPF : D → Option PF
  mulD : D → D → D
  free_nodup : ∀ e, (eng.free e).Nodup
  free_subs : ∀ e s r x, x ∈ eng.free (eng.subs e s r) → (x ∈ eng.free e ∧ x ≠ s) ∨ x ∈ eng.free r
  subs_of_not_free : ∀ e s r, s ∉ eng.free e → eng.subs e s r = e
  free_lit : ∀ f, eng.free (eng.lit f) = []
  free_mul : ∀ a b x, x ∈ eng.free (eng.mul a b) → x ∈ eng.free a ∨ x ∈ eng.free b
  eval_congr : ∀ ρ ρ' e, (∀ s ∈ eng.free e, ρ s = ρ' s) → eval ρ e = eval ρ' e
  eval_subs : ∀ ρ e s r x d, eval ρ r = some x → eval (Function.update ρ s x) e = some d →
    eval ρ (eng.subs e s r) = some d
  eval_lit : ∀ ρ f, eval ρ (eng.lit f) = some (ofPF f)
  eval_mul : ∀ ρ a b x y, eval ρ a = some x → eval ρ b = some y →
    eval ρ (eng.mul a b) = some (mulD x y)
  toFloat_closed : ∀ ρ e d, eng.free e = [] → eval ρ e = some d → eng.toFloat e = toPF d
  toFloat_open : ∀ e, eng.free e ≠ [] → eng.toFloat e = none

/-- Iteration order of Python sets of strings: an arbitrary rearrangement (string hashing is seeded at
interpreter start-up). -/
structure HashOrder where
  ord : List String → List String
  perm : ∀ l, (ord l).Perm l

/-- Iteration in insertion order. -/
def HashOrder.id : HashOrder := ⟨fun l => l, fun _ => List.Perm.refl _⟩

/-- Iteration in reverse insertion order. -/
def HashOrder.rev : HashOrder := ⟨List.reverse, fun l => List.reverse_perm l⟩

end Verif
