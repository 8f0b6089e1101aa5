import Mathlib.Data.Rat.Defs
import Mathlib.Algebra.Order.Ring.Rat

/-!
# Python values used by the model: exceptions, floats, dynamically typed scalars
-/

namespace Verif

/-- The exception classes the code raises (or that Python / a library raises inside it).
`diverge` is not an exception: it marks a loop that ran out of fuel. -/
inductive Err
  | typeError | valueError | keyError | indexError | assertionError | attributeError
  | nameError | networkxError | zeroDivision | userError | diverge
  deriving DecidableEq, Repr

/-- Python floats: IEEE special values, and finite values idealised as exact rationals
(rounding, overflow and signed zero are not modelled). -/
inductive PF
  | nan | ninf | fin (q : ℚ) | pinf
  deriving DecidableEq, Repr

namespace PF

/-- `x <= y` (False as soon as one side is NaN) -/
def le : PF → PF → Bool
  | nan, _ => false
  | _, nan => false
  | ninf, _ => true
  | _, pinf => true
  | fin a, fin b => decide (a ≤ b)
  | pinf, _ => false
  | fin _, ninf => false

/-- `x < y` (False as soon as one side is NaN) -/
def lt : PF → PF → Bool
  | nan, _ => false
  | _, nan => false
  | ninf, ninf => false
  | ninf, _ => true
  | pinf, _ => false
  | fin a, fin b => decide (a < b)
  | fin _, ninf => false
  | fin _, pinf => true

/-- IEEE addition on the idealised floats. -/
def add : PF → PF → PF
  | nan, _ => nan
  | _, nan => nan
  | ninf, pinf => nan
  | pinf, ninf => nan
  | ninf, _ => ninf
  | _, ninf => ninf
  | pinf, _ => pinf
  | _, pinf => pinf
  | fin a, fin b => fin (a + b)

/-- Negation. -/
def neg : PF → PF
  | nan => nan
  | ninf => pinf
  | pinf => ninf
  | fin a => fin (-a)

/-- Subtraction. -/
def sub (x y : PF) : PF := add x (neg y)

/-- Product with a finite number (`k * x`; `0 * inf` is NaN). -/
def smul (k : ℚ) : PF → PF
  | nan => nan
  | ninf => if k = 0 then nan else if 0 < k then ninf else pinf
  | pinf => if k = 0 then nan else if 0 < k then pinf else ninf
  | fin a => fin (k * a)

theorem lt_of_not_le {x y : PF} (hx : x ≠ nan) (hy : y ≠ nan) (h : le x y = false) :
    lt y x = true := by
  cases x <;> cases y <;> simp_all [le, lt]

theorem le_of_not_lt {x y : PF} (hx : x ≠ nan) (hy : y ≠ nan) (h : lt x y = false) :
    le y x = true := by
  cases x <;> cases y <;> simp_all [le, lt]

end PF

/-- A dynamically typed scalar argument.  `other` is any object whose `type()` is none of
`int`, `float`, `numpy.float64` (strings, booleans, `numpy.int64`, `None`, …). -/
inductive PyVal
  | int (z : ℤ) | float (f : PF) | np (f : PF) | other
  deriving DecidableEq, Repr

namespace PyVal

/-- `type(v) in [int, float, np.float64]` followed by `float(v)`.
Simplification: an `int` too large for a float is converted exactly instead of raising OverflowError. -/
def toFloat? : PyVal → Option PF
  | int z => some (PF.fin z)
  | float f => some f
  | np f => some f
  | other => none

end PyVal

end Verif
