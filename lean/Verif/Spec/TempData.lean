import Verif.Model.TempData

/-!
# Specification vocabulary for temporary data
-/

namespace Verif.Spec

open Verif Verif.Temp

variable {A : Type}

/-- A call on one of the live `TempData` instances, or the creation of one. -/
inductive TCall (A : Type)
  | new
  | newSession (i : ℕ)
  | writePart (i : ℕ) (a : A)
  | clearSession (i : ℕ)

/-- Run a call.  Instance `i` always opens its sessions with its own identity `ident i`. -/
def TCall.run (root : Path) (ident : ℕ → ℕ) (w : World A) : TCall A → World A
  | .new => Temp.new root w
  | .newSession i => (Temp.newSession root w i (ident i)).1
  | .writePart i a => (Temp.writePart w i a).1
  | .clearSession i => (Temp.clearSession w i).1

/-- The name a call returned, if it was a write that succeeded. -/
def TCall.written (w : World A) : TCall A → Option Path
  | .writePart i a => (Temp.writePart w i a).2.toOption
  | _ => none

def runT (root : Path) (ident : ℕ → ℕ) (w : World A) (h : List (TCall A)) : World A :=
  h.foldl (TCall.run root ident) w

/-- The file names returned by the successful writes of a history. -/
def writtenT (root : Path) (ident : ℕ → ℕ) : World A → List (TCall A) → List Path
  | _, [] => []
  | w, c :: h => (c.written w).toList ++ writtenT root ident (c.run root ident w) h

/-- The session directory of the instance with identity `n`. -/
def sessionDir (root : Path) (n : ℕ) : Path := root ++ "session-".toList ++ numeral 16 n ++ "/".toList

end Verif.Spec
