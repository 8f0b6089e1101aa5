import Verif.Spec.MutualUse
import Verif.Spec.NetlistLoaded

/-!
# The use of a circuit with resonators
-/

namespace Verif.Spec

open Verif Verif.Num Verif.Sym Verif.Circuit Matrix

variable {E D : Type}

/-- sympy's quotients have the right values and bring in no symbols. -/
structure LoadedLaws (eng : Engine E) (law : eng.Lawful D) (A : Arith E) : Prop extends CoupledLaws eng law A where
  div : ∀ ρ a b (x y : ℚ), law.eval ρ a = some (law.ofPF (.fin x)) → law.eval ρ b = some (law.ofPF (.fin y)) → y ≠ 0 →
    law.eval ρ (A.div a b) = some (law.ofPF (.fin (x / y)))
  free_div : ∀ a b, ∀ x ∈ eng.free (A.div a b), x ∈ eng.free a ∨ x ∈ eng.free b

/-- The expression `0.5/(pi * fr * Zr)` that the capacitance of a resonator is given (symbolic_system.py 745-747): it names only the frequency and the impedance of
the resonator, and has that value; `pi` is the number `np.pi`. -/
def ResonatorLaws (eng : Engine E) (law : eng.Lawful D) (ex : Resonator → Except Err (ResExprs E)) (pi : ℚ) : Prop :=
  ∀ n c x, ex (mkResonator n c) = .ok x →
    eng.free x.cr ≠ [] ∧ (∀ s ∈ eng.free x.cr, s = writtenAs (mkResonator n c).fr ∨ s = writtenAs (mkResonator n c).zr) ∧
    ∀ ρ (f z : ℚ), ρ (writtenAs (mkResonator n c).fr) = law.ofPF (.fin f) → ρ (writtenAs (mkResonator n c).zr) = law.ofPF (.fin z) → f ≠ 0 → z ≠ 0 →
      law.eval ρ x.cr = some (law.ofPF (.fin (1 / (2 * pi * f * z))))

/-- The names of the parameters that are computed for a resonator are not used for anything else. -/
def PlainNames (h : List Circuit.Call) : Prop := ∀ x ∈ h, ∀ k, Declares x k → Computed h k → ∃ n c, x = .coupleResonator n c ∧ k ≠ c

/-- The frequency and the impedance of the resonator at a node, `f1r` and `Z1r` for node 1. -/
def frequencyName (n : ℕ) : String := "f" ++ toString n ++ "r"

def impedanceName (n : ℕ) : String := "Z" ++ toString n ++ "r"

/-- Values for which a circuit with resonators can be quantised: capacitances not negative, every node connected to the ground through
capacitances, flux biases of inductors only where they are treated correctly (see `C59_false`), mutual inductances so small that currents
always have a positive energy, and frequencies and impedances of the resonators not zero. -/
structure LoadedValues (h : List Circuit.Call) (v : String → ℚ) : Prop where
  caps : NonnegLoads (fun c => (v c : ℝ)) h
  ground : ∀ n ∈ nodesOf (branches h), Conn (loadedNet (fun c => (v c : ℝ)) h) n 0
  inductors : ∀ j : String → ℝ, (∃ br ∈ branchesOf 'L' (branches h), j br.2.2 ≠ 0) → 0 < magneticForm (fun c => (v c : ℝ)) h j
  biases : GroundedBiases (fun s => (v ("phi" ++ s) : ℝ)) h
  resonators : ∀ n c, .coupleResonator n c ∈ h → v (frequencyName n) ≠ 0 ∧ v (impedanceName n) ≠ 0

/-- The symbolic attributes are the matrices and vectors of the circuit `g` with resonators, as in `SymbolicOf`, and the capacitances of the resonators are
`1/(2 pi f Z)`. -/
def LoadedSymbolicOf (eng : Engine E) (law : eng.Lawful D) (pi : ℚ) (h : List Circuit.Call) (g : CG) (b : Biases)
    (pinv : Matrix (Fin (edges g).length) (Fin (edges g).length) ℝ → Matrix (Fin (edges g).length) (Fin (edges g).length) ℝ) (u : Prefs)
    (pc₀ : PC E) (exprs : Attr → List E) : Prop :=
  ∀ (pc : PC E) (v : String → ℚ) (s : Sys PUnit (nodes g).length (edges g).length), pc.symMap = pc₀.symMap → pc.parz = pc₀.parz →
    (∀ k f, Admits pc₀ k f → Admits pc k f) → UpToDate eng law pc → ValuesOf h pc v → LoadedValues h v →
    assemble g b (fun c => (v c : ℝ)) (fun s => (v ("phi" ++ s) : ℝ)) (fun s => (v ("Q" ++ s) : ℝ)) ⟨false, 1⟩ pinv u = .ok s →
    Expresses eng law pc exprs s ∧
    ∀ n c, .coupleResonator n c ∈ h → v (resonatorName n) = 1 / (2 * pi * v (frequencyName n) * v (impedanceName n))

end Verif.Spec
