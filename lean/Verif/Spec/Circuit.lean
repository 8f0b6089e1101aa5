import Mathlib.Logic.Relation
import Mathlib.Data.List.Nodup

/-!
# Graph vocabulary for the circuit properties, independent of the model

An edge is a triple (node, node, key).
-/

namespace Verif.Spec

/-- Two nodes are connected by a set of edges (ignoring directions). -/
def Conn (es : List (ℕ × ℕ × ℕ)) : ℕ → ℕ → Prop :=
  Relation.EqvGen fun u v => ∃ e ∈ es, e.1 = u ∧ e.2.1 = v

/-- A forest: no edge is repeated, and the ends of every edge are disconnected once it is removed (no cycles). -/
def Forest (es : List (ℕ × ℕ × ℕ)) : Prop :=
  es.Nodup ∧ ∀ e ∈ es, ¬ Conn (es.erase e) e.1 e.2.1

/-- A directed walk along edges of `es` from `u` to `v`. -/
inductive DiWalk (es : List (ℕ × ℕ × ℕ)) : ℕ → List (ℕ × ℕ × ℕ) → ℕ → Prop
  | nil (u : ℕ) : DiWalk es u [] u
  | cons {e : ℕ × ℕ × ℕ} {p : List (ℕ × ℕ × ℕ)} {v : ℕ} (h : e ∈ es) (w : DiWalk es e.2.1 p v) : DiWalk es e.1 (e :: p) v

/-- The nodes that a directed walk from `u` visits. -/
def visited (u : ℕ) (p : List (ℕ × ℕ × ℕ)) : List ℕ := u :: p.map fun e => e.2.1

/-- A set of edges is a simple cycle closed by the edge `cl`: it consists of `cl` and two directed paths from a common
node to the two ends of `cl`, which meet nowhere else and visit no node twice. -/
def SimpleCycle (es : List (ℕ × ℕ × ℕ)) (cl : ℕ × ℕ × ℕ) (loop : List (ℕ × ℕ × ℕ)) : Prop :=
  ∃ m p q, DiWalk es m p cl.1 ∧ DiWalk es m q cl.2.1 ∧ (visited m p).Nodup ∧ (visited m q).Nodup ∧
    (∀ x, x ∈ visited m p → x ∈ visited m q → x = m) ∧
    ∀ e, e ∈ loop ↔ e = cl ∨ e ∈ p ∨ e ∈ q

end Verif.Spec
