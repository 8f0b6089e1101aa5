import Verif.Spec.Expressions
import Verif.Spec.NetlistMutual

/-!
# The use of a circuit with mutual inductances
-/

namespace Verif.Spec

open Verif Verif.Num Verif.Sym Verif.Circuit Matrix

variable {E D : Type}

/-- Twice the magnetic energy of currents `j` in the inductors: the sum of `Λ_bb' j_b j_b'`, self-inductances on the diagonal of `Λ`, mutual
inductances elsewhere. -/
def magneticForm (val : String → ℝ) (h : List Circuit.Call) (j : String → ℝ) : ℝ :=
  ((branchesOf 'L' (branches h)).map fun b => ((branchesOf 'L' (branches h)).map fun b' =>
    inductanceOf val (fun _ => 1) h b.2.2 b'.2.2 * j b.2.2 * j b'.2.2).sum).sum

/-- Values for which a circuit with mutual inductances can be quantised: capacitances not negative, every node connected to the ground through
capacitors, flux biases of inductors only where they are treated correctly (see `C59_false`), and mutual inductances so small that currents
always have a positive energy. -/
structure CoupledValues (h : List Circuit.Call) (v : String → ℚ) : Prop where
  caps : NonnegCaps (fun c => (v c : ℝ)) h
  ground : ∀ n ∈ nodesOf (branches h), Conn (capacitiveNet (fun c => (v c : ℝ)) h) n 0
  inductors : ∀ j : String → ℝ, (∃ br ∈ branchesOf 'L' (branches h), j br.2.2 ≠ 0) → 0 < magneticForm (fun c => (v c : ℝ)) h j
  biases : GroundedBiases (fun s => (v ("phi" ++ s) : ℝ)) h

/-- sympy's pseudo-inverse of a matrix with couplings.  Let the entries of `M` outside the rows and columns in `S` be the literal 0, and let the others
have values that make up a symmetric, positive definite matrix.  Then the entries of the pseudo-inverse have the values of the pseudo-inverse. -/
structure CoupledLaws (eng : Engine E) (law : eng.Lawful D) (A : Arith E) : Prop extends ArithLaws eng law A where
  pinvPos : ∀ ρ n M N (X Y : Matrix (Fin n) (Fin n) ℚ) (S : Fin n → Prop), A.pinv n M = .ok N →
    (∀ i j : Fin n, law.eval ρ (M i j) = some (law.ofPF (.fin (X i j)))) → (∀ i j : Fin n, ¬ (S i ∧ S j) → M i j = eng.lit (.fin 0)) →
    X.transpose = X → (∀ x : Fin n → ℚ, (∀ i, ¬ S i → x i = 0) → x ≠ 0 → 0 < x ⬝ᵥ X.mulVec x) → IsPinv X Y →
    ∀ i j : Fin n, law.eval ρ (N i j) = some (law.ofPF (.fin (Y i j)))

/-- The symbolic attributes are the matrices and vectors of the circuit `g` with mutual inductances, as in `SymbolicOf`. -/
def CoupledSymbolicOf (eng : Engine E) (law : eng.Lawful D) (h : List Circuit.Call) (g : CG) (b : Biases)
    (pinv : Matrix (Fin (edges g).length) (Fin (edges g).length) ℝ → Matrix (Fin (edges g).length) (Fin (edges g).length) ℝ) (u : Prefs)
    (pc₀ : PC E) (exprs : Attr → List E) : Prop :=
  ∀ (pc : PC E) (v : String → ℚ) (s : Sys PUnit (nodes g).length (edges g).length), pc.symMap = pc₀.symMap → pc.parz = pc₀.parz →
    (∀ k f, Admits pc₀ k f → Admits pc k f) → UpToDate eng law pc → ValuesOf h pc v → CoupledValues h v →
    assemble g b (fun c => (v c : ℝ)) (fun s => (v ("phi" ++ s) : ℝ)) (fun s => (v ("Q" ++ s) : ℝ)) ⟨false, 1⟩ pinv u = .ok s →
    Expresses eng law pc exprs s

end Verif.Spec
