import Verif.Spec.Collection
import Verif.Model.Derived

/-!
# Vocabulary for the derived parameters
-/

namespace Verif.Spec

open Verif

/-- A name of the form of the derived parameters: C or L, at least two digits, perhaps an i. -/
def Reserved (name : String) : Prop :=
  ∃ c ds, (c = 'C' ∨ c = 'L') ∧ 2 ≤ ds.length ∧ (∀ d ∈ ds, Char.isDigit d = true) ∧ (name.toList = c :: ds ∨ name.toList = c :: (ds ++ ['i']))

/-- The collection knows the parameter and its symbol, its value, its bounds and its parameterisation as `pc` does. -/
def SameParam {E : Type} (pc pc' : PC E) (k : String) : Prop :=
  pc'.coll.get? k = pc.coll.get? k ∧ pc'.getSymbol k = pc.getSymbol k ∧ pc'.parz.get? k = pc.parz.get? k

/-- A history of calls of the four methods, on any matrices, whether they succeed or raise. -/
inductive DerivedCalls {E : Type} (eng : Engine E) (isZero : E → Bool) (symE : Sym → E) (pc : PC E) : PC E → Prop
  | none : DerivedCalls eng isZero symE pc pc
  | call {pc1 pc2 : PC E} (c : Char) (inv : Bool) (n : ℕ) (M : ℕ → ℕ → E) {r : Except Err (ℕ → ℕ → E)} : DerivedCalls eng isZero symE pc pc1 →
      (c = 'C' ∨ c = 'L') → Derived.parameterise eng isZero symE c inv n pc1 M = (pc2, r) → DerivedCalls eng isZero symE pc pc2

/-- What a method does to the entry: an entry with fewer than two symbols stays; any other becomes the symbol of a parameter of its own, whose
parameterisation is the entry. -/
def EntryOk {E : Type} (eng : Engine E) (isZero : E → Bool) (symE : Sym → E) (pc' : PC E) (entry entry' : E) (name : String) : Prop :=
  ((isZero entry = true ∨ (eng.free entry).length < 2) → entry' = entry) ∧
  (isZero entry = false → 2 ≤ (eng.free entry).length → ∃ s, entry' = symE s ∧ pc'.getSymbol name = .ok s ∧
    pc'.getParametricExpression eng 0 name false = .ok entry ∧ ∀ k, Param.symbolOf k = some s → k = name)

/-- The reserved names that the collection knows carry the symbol made from the name. -/
def Own {E : Type} (pc : PC E) : Prop :=
  ∀ k, Reserved k → pc.coll.has k = true → ∃ s, Param.symbolOf k = some s ∧ pc.getSymbol k = .ok s

end Verif.Spec
