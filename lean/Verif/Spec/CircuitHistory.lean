import Mathlib.Data.Finset.Dedup
import Verif.Spec.Circuit
import Verif.Model.Circuit

/-!
# Vocabulary for histories of `CircuitGraph` calls

What a history of calls *should* describe, computed from the calls alone.
-/

namespace Verif.Spec

open Verif.Circuit

/-- A component name that `addBranch` accepts: it starts with C, L, I or V. -/
def validName (c : String) : Bool := match c.toList with
  | [] => false
  | p :: _ => p ∈ ['C', 'L', 'I', 'V']

/-- The branch that a call describes. -/
def branchOf : Call → Option (ℕ × ℕ × String)
  | .addBranch _ a b c => if validName c then some (a, b, c) else none
  | _ => none

/-- The branches described by a history: two nodes and a component name each. -/
def branches (h : List Call) : List (ℕ × ℕ × String) := h.filterMap branchOf

/-- The name starts with the letter. -/
def startsWith (c : String) (p : Char) : Bool := c.toList.head? = some p

/-- The branches that are not capacitors. -/
def conductors (bs : List (ℕ × ℕ × String)) : List (ℕ × ℕ × String) := bs.filter fun b => ! startsWith b.2.2 'C'

/-- The nodes that the branches mention. -/
def nodesOf (bs : List (ℕ × ℕ × String)) : Finset ℕ := (bs.flatMap fun b => [b.1, b.2.1]).toFinset

/-- Branches as edges (the key does not matter for connectivity). -/
def wires (bs : List (ℕ × ℕ × String)) : List (ℕ × ℕ × ℕ) := bs.map fun b => (b.1, b.2.1, 0)

/-- One node from each connected component. -/
structure Representatives (es : List (ℕ × ℕ × ℕ)) (ns reps : Finset ℕ) : Prop where
  sub : reps ⊆ ns
  cover : ∀ n ∈ ns, ∃ r ∈ reps, Conn es n r
  apart : ∀ r ∈ reps, ∀ r' ∈ reps, Conn es r r' → r = r'

/-- `g` is the state after a history of calls (some may have raised) whose last `addBranch` succeeded. -/
def Settled (h : List Call) (g : CG) : Prop :=
  ∃ l o a b c l', h = l ++ Call.addBranch o a b c :: l' ∧ (∀ x ∈ h, x.OK) ∧ (addBranch o (run {} l) a b c).2 = .ok () ∧
    (∀ x ∈ l', ∀ o a b c, x ≠ Call.addBranch o a b c) ∧ g = run {} h

/-- No conductive branch joins a node without other conductive neighbours to itself. -/
def NoIsolatedLoop (bs : List (ℕ × ℕ × String)) : Prop :=
  ∀ b ∈ conductors bs, b.1 = b.2.1 → ∃ b' ∈ conductors bs, b'.1 ≠ b'.2.1 ∧ (b'.1 = b.1 ∨ b'.2.1 = b.1)

/-- The position at which a node is first mentioned. -/
def firstSeen (bs : List (ℕ × ℕ × String)) (n : ℕ) : ℕ := (bs.flatMap fun b => [b.1, b.2.1]).idxOf n

/-- The circuit grows along conductive branches: a node that is conductively connected to a node mentioned earlier has a
conductive branch to *some* node mentioned earlier. -/
def Grown (bs : List (ℕ × ℕ × String)) : Prop :=
  ∀ n ∈ nodesOf bs, (∃ m ∈ nodesOf bs, firstSeen bs m < firstSeen bs n ∧ Conn (wires (conductors bs)) m n) →
    ∃ b ∈ conductors bs, (b.1 = n ∧ firstSeen bs b.2.1 < firstSeen bs n) ∨ (b.2.1 = n ∧ firstSeen bs b.1 < firstSeen bs n)

/-- The sets of nodes of the call are iterated in the order in which the nodes were added (so it is in CPython when the
nodes are 0, 1, 2, … in order of appearance). -/
def KeepsOrder (x : Call) : Prop := ∀ o a b c, x = Call.addBranch o a b c → ∀ l, o.nodeOrd l = l

end Verif.Spec
