import Verif.Spec.CircuitHistory
import Mathlib.Algebra.BigOperators.Ring.Finset
import Mathlib.Algebra.Field.Basic
import Mathlib.LinearAlgebra.Matrix.Notation

/-!
# Vocabulary for the circuit matrices

The energies of a circuit, written from its list of branches.
-/

namespace Verif.Spec

open Verif.Circuit

variable {K : Type}

/-- The branches whose component starts with the letter. -/
def branchesOf (p : Char) (bs : List (ℕ × ℕ × String)) : List (ℕ × ℕ × String) := bs.filter fun b => startsWith b.2.2 p

/-- Twice the charging energy of the capacitors at node voltages `v`: the sum of `C (v_a - v_b)²`. -/
def capacitorForm [CommRing K] (val : String → K) (bs : List (ℕ × ℕ × String)) (v : ℕ → K) : K :=
  ((branchesOf 'C' bs).map fun b => val b.2.2 * (v b.1 - v b.2.1) ^ 2).sum

/-- The capacitance through which a node is biased (0 without gate capacitor). -/
def gateCapacitance [Zero K] (val : String → K) (g : CG) (n : ℕ) : K :=
  match (g.chargeBias.get? n).bind Bias.comp with
  | some c => val c
  | none => 0

/-- The series capacitance of coupling capacitor and resonator (0 without resonator). -/
def resonatorLoad [Field K] (val : String → K) (g : CG) (n : ℕ) : K :=
  match (g.resonators.get? n).join with
  | some r => val r.coupling * val r.cr / (val r.coupling + val r.cr)
  | none => 0

/-- All calls of a history succeeded. -/
def AllOk (h : List Call) : Prop := ∀ l c l', h = l ++ c :: l' → (step (run {} l) c).2 = .ok ()

/-- The Moore–Penrose conditions: `B` is the pseudo-inverse of the matrix `A` with entries in an ordered field. -/
structure IsPinv {n : ℕ} [CommRing K] (A B : Matrix (Fin n) (Fin n) K) : Prop where
  aba : A * B * A = A
  bab : B * A * B = B
  ab : (A * B).transpose = A * B
  ba : (B * A).transpose = B * A

/-- Twice the energy of uncoupled inductors at node fluxes `φ`: the sum of `(φ_a - φ_b)² / L`. -/
def inductorForm [Field K] (val : String → K) (bs : List (ℕ × ℕ × String)) (φ : ℕ → K) : K :=
  ((branchesOf 'L' bs).map fun b => (φ b.1 - φ b.2.1) ^ 2 / val b.2.2).sum

/-- A walk along edges in either direction; `true` marks an edge passed from its first to its second node. -/
inductive SignedWalk (es : List (ℕ × ℕ × ℕ)) : ℕ → List ((ℕ × ℕ × ℕ) × Bool) → ℕ → Prop
  | nil (u : ℕ) : SignedWalk es u [] u
  | fwd {e : ℕ × ℕ × ℕ} {p : List ((ℕ × ℕ × ℕ) × Bool)} {v : ℕ} (h : e ∈ es) (w : SignedWalk es e.2.1 p v) :
      SignedWalk es e.1 ((e, true) :: p) v
  | bwd {e : ℕ × ℕ × ℕ} {p : List ((ℕ × ℕ × ℕ) × Bool)} {v : ℕ} (h : e ∈ es) (w : SignedWalk es e.1 p v) :
      SignedWalk es e.2.1 ((e, false) :: p) v

/-- The sum of a branch quantity along a walk, counted negatively where the branch is passed backwards. -/
def signedSum [Ring K] (f : ℕ × ℕ × ℕ → K) (w : List ((ℕ × ℕ × ℕ) × Bool)) : K :=
  (w.map fun p => if p.2 then f p.1 else - f p.1).sum

end Verif.Spec
