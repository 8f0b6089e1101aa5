import Mathlib.Data.ZMod.Basic
import Mathlib.Algebra.BigOperators.Fin
import Verif.Model.MultiGraph

/-!
# What the independent loops of a circuit are
-/

namespace Verif.Spec

open Verif.Circuit

/-- The name of a branch with the lower node first. -/
def named (e : Edge) : Edge := if e.1 ≤ e.2.1 then e else (e.2.1, e.1, e.2.2)

/-- The parity of the number of times a branch occurs in a list, whichever of its nodes comes first. -/
def parity (l : List Edge) (e : Edge) : ZMod 2 := ((l.map named).count e : ℕ)

/-- How often a branch ends on a node. -/
def endsOn (e : Edge) (n : Node) : ZMod 2 := (if e.1 = n then 1 else 0) + (if e.2.1 = n then 1 else 0)

/-- A choice of branches (given by the parity of the number of times each is taken) in which every node has even degree. -/
structure Closed (bs : List Edge) (f : Edge → ZMod 2) : Prop where
  branches : ∀ e, f e ≠ 0 → ∃ b ∈ bs, named b = e
  even : ∀ n, ((bs.map named).map fun e => f e * endsOn e n).sum = 0

/-- A set of independent loops that generates all others: every closed choice of branches is obtained in exactly one way by putting some of the
loops together. -/
structure LoopBasis (bs : List Edge) (loops : List (List Edge)) : Prop where
  closed : ∀ l ∈ loops, Closed bs (parity l)
  unique : ∀ f, Closed bs f → ∃! a : Fin loops.length → ZMod 2, ∀ e, f e = ∑ i, a i * parity (loops.get i) e

/-- The branches between each node of a list and the next one, and from the last to the first. -/
def around (c : List Node) : List Edge := (c.zip (c.rotate 1)).map fun p => (p.1, p.2, 0)

/-- What `nx.cycle_basis` returns for a graph without parallel edges: cycles of different nodes joined by edges, which are a basis. -/
structure CycleBasis (pairs : List (Node × Node)) (cyc : List (List Node)) : Prop where
  nodes : ∀ c ∈ cyc, c ≠ [] ∧ c.length ≠ 2 ∧ c.Nodup
  edges : ∀ c ∈ cyc, ∀ e ∈ around c, (e.1, e.2.1) ∈ pairs ∨ (e.2.1, e.1) ∈ pairs
  basis : LoopBasis (pairs.map fun p => (p.1, p.2, 0)) (cyc.map around)

/-- A cycle of branches: they are different and lead around a list of different nodes. -/
def IsCycle (l : List Edge) : Prop :=
  l ≠ [] ∧ (l.map named).Nodup ∧ ∃ c : List Node, c.Nodup ∧ l.map (fun e => named (e.1, e.2.1, 0)) = (around c).map named

end Verif.Spec
