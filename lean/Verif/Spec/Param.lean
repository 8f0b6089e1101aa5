import Verif.Model.Param
import Mathlib.Algebra.Order.Ring.Rat
import Mathlib.Order.WithBot

/-!
# Specification vocabulary for `Param`

Independent of the comparison functions of the model: floats other than NaN are points of the
extended rational line.
-/

namespace Verif.Spec

open Verif

/-- The extended rational number a float denotes; NaN denotes none. -/
def ext : PF → Option (WithBot (WithTop ℚ))
  | .nan => none
  | .ninf => some ⊥
  | .pinf => some ((⊤ : WithTop ℚ) : WithBot (WithTop ℚ))
  | .fin q => some ((q : WithTop ℚ) : WithBot (WithTop ℚ))

/-- `v` is a number strictly between `lo` and `hi`, all three being numbers. -/
def StrictlyBetween (lo v hi : PF) : Prop :=
  ∃ l x h, ext lo = some l ∧ ext v = some x ∧ ext hi = some h ∧ l < x ∧ x < h

/-- `v` is a number between `lo` and `hi` inclusive. -/
def Between (lo v hi : PF) : Prop :=
  ∃ l x h, ext lo = some l ∧ ext v = some x ∧ ext hi = some h ∧ l ≤ x ∧ x ≤ h

/-- One call of a mutating method of `Param`. -/
inductive ParamCall
  | setValue (v : PyVal)
  | setBounds (b : BoundsArg)
  | linearSweep (start stop : PyVal) (n : CountArg)

/-- The instance after the call (which may have raised). -/
def ParamCall.after (p : Param) : ParamCall → Param
  | .setValue v => (p.setValue v).1
  | .setBounds b => (p.setBounds b).1
  | .linearSweep a b n => (p.linearSweep a b n).1

/-- The call raised an exception. -/
def ParamCall.raises (p : Param) : ParamCall → Prop
  | .setValue v => ∃ e, (p.setValue v).2 = .error e
  | .setBounds b => ∃ e, (p.setBounds b).2 = .error e
  | .linearSweep a b n => ∃ e, (p.linearSweep a b n).2 = .error e

/-- The instance after a history of calls. -/
def runParam (p : Param) (h : List ParamCall) : Param := h.foldl ParamCall.after p

end Verif.Spec
