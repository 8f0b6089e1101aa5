import Verif.Model.Hamiltonian
import Verif.Model.Classical

/-!
# The reported energies (pyscqed/numerical_system.py 695-734, pyscqed/symbolic_system.py 225-231, 404-409)
-/

namespace Verif.Num

open Verif Verif.Sym

/-- What the four methods return: a dictionary over all nodes (branches), or one number. -/
inductive Report (K : Type)
  | all (d : Dict K ℝ)
  | one (x : ℝ)

/-- The dictionary built by the loop over `enumerate(keys)`. -/
noncomputable def reportAll {K : Type} [DecidableEq K] (keys : List K) (f : Fin keys.length → ℝ) : Dict K ℝ :=
  (List.finRange keys.length).foldl (fun d i => d.set (keys.get i) (f i)) []

/-- `keys.index(k)` and the number at that index; `ValueError` if there is no such key. -/
noncomputable def reportOne {K : Type} [DecidableEq K] (keys : List K) (f : Fin keys.length → ℝ) (k : K) : Except Err ℝ :=
  if h : keys.idxOf k < keys.length then .ok (f ⟨keys.idxOf k, h⟩) else .error .valueError

/-- The common shape of the four methods. -/
noncomputable def report {K : Type} [DecidableEq K] (keys : List K) (f : Fin keys.length → ℝ) : Option K → Except Err (Report K)
  | none => .ok (.all (reportAll keys f))
  | some k => match reportOne keys f k with
    | .error e => .error e
    | .ok x => .ok (.one x)

/-- `getChargingEnergies` (numerical_system.py 696-704). -/
noncomputable def getChargingEnergies {A : Type} (nodes : List ℕ) {b : ℕ} (s : Sys A nodes.length b) (node : Option ℕ) : Except Err (Report ℕ) :=
  report nodes (fun i => 1 / 2 * s.Cinv i i * s.u.Ec) node

/-- `getFluxEnergies` (numerical_system.py 706-714). -/
noncomputable def getFluxEnergies {A : Type} (nodes : List ℕ) {b : ℕ} (s : Sys A nodes.length b) (node : Option ℕ) : Except Err (Report ℕ) :=
  report nodes (fun i => 1 / 2 * s.Linv i i * s.u.El) node

/-- `getJosephsonEnergies` (numerical_system.py 716-724). -/
noncomputable def getJosephsonEnergies {A : Type} {n : ℕ} (edges : List (ℕ × ℕ × ℕ)) (s : Sys A n edges.length) (edge : Option (ℕ × ℕ × ℕ)) :
    Except Err (Report (ℕ × ℕ × ℕ)) :=
  report edges (fun i => s.J i * s.u.Ej) edge

/-- `getPhaseSlipEnergies` (numerical_system.py 726-734). -/
noncomputable def getPhaseSlipEnergies {A : Type} {n : ℕ} (edges : List (ℕ × ℕ × ℕ)) (s : Sys A n edges.length) (edge : Option (ℕ × ℕ × ℕ)) :
    Except Err (Report (ℕ × ℕ × ℕ)) :=
  report edges (fun i => s.Ps i * s.u.Ep) edge

/-- `getSingleParticleChargingEnergies` of the symbolic system (symbolic_system.py 225-230), with `qcp = 2 e` (line 41). -/
noncomputable def singleParticleEnergies (nodes : List ℕ) (Cinv : Matrix (Fin nodes.length) (Fin nodes.length) ℝ) (e : ℝ) : Dict ℕ ℝ :=
  reportAll nodes fun i => 1 / 2 * (2 * e) ^ 2 * Cinv i i

end Verif.Num
