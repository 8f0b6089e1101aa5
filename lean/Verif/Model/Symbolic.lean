import Verif.Model.Circuit
import Mathlib.LinearAlgebra.Matrix.Notation
import Mathlib.LinearAlgebra.Matrix.NonsingularInverse

/-!
# `SymbolicSystem` (symbolic_system.py): the circuit matrices

A sympy matrix entry is an expression in the component symbols.  The functions here compute its *value* when each
component `c` has the value `val c` in `K`; taking for `K` a ring of formal expressions gives the expression itself.
The `parameterise` step, which replaces entries by new symbols, is in `Verif.Model.Derived`.
The symbols themselves (`_create_node_dofs`, `_add_branch_dofs`, `getVoltageVector`, `getCurrentVector`) are in `Verif.Model.Quantum`.
Not modelled: printing.
-/

namespace Verif.Sym

open Verif Verif.Circuit

variable {K : Type}

/-- A matrix under construction, by row and column number. -/
abbrev Mat (K : Type) := ℕ → ℕ → K

/-- `M[i, j] += x` -/
def Mat.addAt [Add K] (M : Mat K) (i j : ℕ) (x : K) : Mat K := fun a b => if a = i ∧ b = j then M a b + x else M a b

/-- `M[i, j] -= x` -/
def Mat.subAt [Sub K] (M : Mat K) (i j : ℕ) (x : K) : Mat K := fun a b => if a = i ∧ b = j then M a b - x else M a b

/-- `M[i, j] = x` -/
def Mat.setAt (M : Mat K) (i j : ℕ) (x : K) : Mat K := fun a b => if a = i ∧ b = j then x else M a b

/-- The leading `n × m` block as a matrix. -/
def Mat.block (M : Mat K) (n m : ℕ) : Matrix (Fin n) (Fin m) K := fun i j => M i j

/-- `self.nodes` (symbolic_system.py 34-35): all nodes in graph order, without the ground. -/
def nodes (g : CG) : List Node := g.graph.nodes.erase 0

/-- `circuit_graph.edges(node, keys=True)`: the edges at a node, seen from the node; a self-loop is listed once. -/
def incident (G : MGraph) (n : Node) : List Edge := (G.nbrs n).flatMap fun m => (G.between n m).map Prod.fst

/-! ### Capacitance -/

/-- One edge in the diagonal loop (symbolic_system.py 145-148). -/
def diagEdge [Add K] (val : String → K) (g : CG) (i : ℕ) (M : Mat K) (e : Edge) : Mat K :=
  match g.cmap.get? e with
  | some c => if pre c = some 'C' then M.addAt i i (val c) else M
  | none => M

/-- The gate capacitance (symbolic_system.py 151-154). -/
def diagGate [Add K] (val : String → K) (g : CG) (n : Node) (i : ℕ) (M : Mat K) : Mat K :=
  match g.chargeBias.get? n with
  | some b => match b.comp with
    | some c => M.addAt i i (val c)
    | none => M
  | none => M

/-- The effective capacitance of a resonator (symbolic_system.py 157-164). -/
def diagRes [Add K] (res : Resonator → K) (g : CG) (n : Node) (i : ℕ) (M : Mat K) : Mat K :=
  match g.resonators.get? n with
  | some (some r) => M.addAt i i (res r)
  | _ => M

/-- One node in the diagonal loop (symbolic_system.py 143-164). -/
def diagNode [Add K] (val : String → K) (res : Resonator → K) (g : CG) (M : Mat K) (p : Node × ℕ) : Mat K :=
  diagRes res g p.1 p.2 (diagGate val g p.1 p.2 ((incident g.graph p.1).foldl (diagEdge val g p.2) M))

/-- One edge in the off-diagonal loop (symbolic_system.py 167-175). -/
def offEdge [Sub K] (val : String → K) (g : CG) (ns : List Node) (M : Mat K) (e : Edge) : Mat K :=
  match g.cmap.get? e with
  | some c =>
    if pre c = some 'C' then
      if e.1 = 0 ∨ e.2.1 = 0 then M
      else (M.subAt (ns.idxOf e.1) (ns.idxOf e.2.1) (val c)).subAt (ns.idxOf e.2.1) (ns.idxOf e.1) (val c)
    else M
  | none => M

/-- `getCapacitanceMatrix(parameterise=False)` (symbolic_system.py 137-178), for a graph with the ground node 0
(otherwise the constructor raises, lines 24-25).  The `KeyError`s of `components_map` and `resonators_cap`, which the
code meets in the loops, are tested first here. -/
def capacitance [Zero K] [Add K] [Sub K] (val : String → K) (res : Resonator → K) (g : CG) : Except Err (Mat K) :=
  if 0 ∉ g.graph.nodes then .error .userError
  else if (∀ n ∈ nodes g, (∀ e ∈ incident g.graph n, g.cmap.has e = true) ∧ g.resonators.has n = true) ∧
      ∀ e ∈ g.graph.edges, g.cmap.has e = true then
    .ok (g.graph.edges.foldl (offEdge val g (nodes g)) ((nodes g).zipIdx.foldl (diagNode val res g) fun _ _ => 0))
  else .error .keyError

/-- `Cc*Cr/(Cc + Cr)` (symbolic_system.py 164). -/
def resonatorCap [Field K] (val : String → K) (r : Resonator) : K :=
  val r.coupling * val r.cr / (val r.coupling + val r.cr)

/-! ### Topology and inductance -/

/-- `self.edges` (symbolic_system.py 37).  The listing order differs from networkx (see `updateGraphs`); it only numbers
the branches. -/
def edges (g : CG) : List Edge := g.wc

/-- `Rbn` (symbolic_system.py 636-644): +1 at the start of a branch, -1 at its end, nothing for a self-loop; the row of the
ground is removed. -/
def incidence [Ring K] (g : CG) : Mat K := fun i b =>
  match (nodes g)[i]?, (edges g)[b]? with
  | some n, some e => (if e.1 = n then 1 else 0) - (if e.2.1 = n then 1 else 0)
  | _, _ => 0

/-- One branch of the diagonal loop (symbolic_system.py 319-332).  An inductor whose flux bias has a mutual inductance makes
line 331 use a dictionary as a key: `TypeError`. -/
def indDiag (val : String → K) (g : CG) (M : Mat K) (p : Edge × ℕ) : Except Err (Mat K) :=
  match g.cmap.get? p.1 with
  | none => .error .keyError
  | some c =>
    if pre c = some 'L' then
      match g.fluxBias.get? p.1 with
      | none => .ok (M.setAt p.2 p.2 (val c))
      | some b => match b.comp with
        | none => .ok (M.setAt p.2 p.2 (val c))
        | some _ => .error .typeError
    else .ok M

/-- One coupling in the off-diagonal loop (symbolic_system.py 335-340); `list.index` raises `ValueError`. -/
def indOff (val : String → K) (g : CG) (M : Mat K) (q : String × (Edge × Edge)) : Except Err (Mat K) :=
  if q.2.1 ∉ edges g ∨ q.2.2 ∉ edges g then .error .valueError
  else .ok ((M.setAt ((edges g).idxOf q.2.1) ((edges g).idxOf q.2.2) (val q.1)).setAt
    ((edges g).idxOf q.2.2) ((edges g).idxOf q.2.1) (val q.1))

/-- `getInductanceMatrix(mode="branch")` (symbolic_system.py 315-340, 360-361). -/
def branchInductance [Zero K] (val : String → K) (g : CG) : Except Err (Mat K) :=
  match (edges g).zipIdx.foldlM (indDiag val g) (fun _ _ => 0) with
  | .error e => .error e
  | .ok M => g.coupled.foldlM (indOff val g) M

/-- The node representation of a branch matrix: `Rbn * B * Rnb` (symbolic_system.py 344, 369). -/
def toNodes [Ring K] (g : CG) (B : Matrix (Fin (edges g).length) (Fin (edges g).length) K) :
    Matrix (Fin (nodes g).length) (Fin (nodes g).length) K :=
  Mat.block (incidence g) (nodes g).length (edges g).length * B *
    (Mat.block (incidence g) (nodes g).length (edges g).length).transpose

/-- `getInverseInductanceMatrix(mode="node", parameterise=False)` without a transform (symbolic_system.py 363-371); `pinv`
is sympy's pseudo-inverse. -/
def inverseInductance [Ring K] (val : String → K) (g : CG)
    (pinv : Matrix (Fin (edges g).length) (Fin (edges g).length) K → Matrix (Fin (edges g).length) (Fin (edges g).length) K) :
    Except Err (Matrix (Fin (nodes g).length) (Fin (nodes g).length) K) :=
  match branchInductance val g with
  | .error e => .error e
  | .ok M => .ok (toNodes g (pinv (M.block _ _)))

/-! ### Biases -/

/-- The bias dictionaries: `flux_bias` and `red_flux_bias` hold symbols with the same suffix (`none` is 0.0). -/
structure Biases where
  flux : Dict Edge (Option String)
  red : Dict Edge (Option String)
  deriving DecidableEq, Repr

/-- The loop over the biased edges (symbolic_system.py 766-775); a biased edge that is not a branch of the oriented circuit
is a `KeyError`. -/
def addBiases : List (Edge × Bias) → Biases → Except Err Biases
  | [], b => .ok b
  | (e, x) :: l, b =>
    if b.flux.has e then addBiases l ⟨b.flux.set e (some x.suffix), b.red.set e (some x.suffix)⟩ else .error .keyError

/-- `_create_flux_bias_symbols` (symbolic_system.py 757-775).  `exp_flux_bias` is never read and is left out;
`flux_bias_prefactor` is 1.0 everywhere. -/
def createFluxBiases (g : CG) : Except Err Biases :=
  addBiases g.fluxBias ⟨(edges g).map fun e => (e, none), (edges g).map fun e => (e, none)⟩

/-- `moveFluxBias` (symbolic_system.py 253-277). -/
def moveFluxBias (g : CG) (b : Biases) (orig new : Edge) : Biases × Except Err Unit :=
  if orig ∉ edges g then (b, .error .userError)
  else if new ∉ edges g then (b, .error .userError)
  else match b.flux.get? orig with
    | none => (b, .error .keyError)
    | some none => (b, .error .userError)
    | some (some s) =>
      let f := (b.flux.set orig none).set new (some s)
      match b.red.get? orig with
      | none => (⟨f, b.red⟩, .error .keyError)
      | some r => (⟨f, (b.red.set orig none).set new r⟩, .ok ())

/-- The value of a bias entry. -/
def biasVal [Zero K] (phi : String → K) (d : Dict Edge (Option String)) (e : Edge) : K :=
  match d.get? e with
  | some (some s) => phi s
  | _ => 0

/-- `getFluxBiasVector(mode="branch", form="flux")` (symbolic_system.py 279-299): only the Josephson branches. -/
def fluxBiasVector [Zero K] (phi : String → K) (g : CG) (b : Biases) (i : ℕ) : K :=
  match (edges g)[i]? with
  | some e => if (isEdgeOf g 'I' e) = .ok true then biasVal phi b.flux e else 0
  | none => 0

/-- `getFluxBiasVectorInd(mode="branch")` (symbolic_system.py 301-313): only the inductive branches. -/
def fluxBiasVectorInd [Zero K] (phi : String → K) (g : CG) (b : Biases) (i : ℕ) : K :=
  match (edges g)[i]? with
  | some e => if (isEdgeOf g 'L' e) = .ok true then biasVal phi b.flux e else 0
  | none => 0

/-- `getFluxBiasVectorInd(mode="node")` (symbolic_system.py 310-311): `Rbn * bias`. -/
def fluxBiasNodes [Ring K] (phi : String → K) (g : CG) (b : Biases) : Fin (nodes g).length → K :=
  (Mat.block (incidence g) (nodes g).length (edges g).length).mulVec fun j => fluxBiasVectorInd phi g b j

/-- `getChargeBiasVector(form="charge")` (symbolic_system.py 127-135, 777-792). -/
def chargeBiasVector [Zero K] (q : String → K) (g : CG) (i : ℕ) : K :=
  match (nodes g)[i]? with
  | some n => match g.chargeBias.get? n with
    | some b => q b.suffix
    | none => 0
  | none => 0

/-- `getFluxVector(mode="branch")` (symbolic_system.py 236-241): `Rnb * P`. -/
def branchFluxes [Ring K] (g : CG) (P : Fin (nodes g).length → K) : Fin (edges g).length → K :=
  (Mat.block (incidence g) (nodes g).length (edges g).length).transpose.mulVec P

/-! ### Energies -/

/-- `getChargingEnergies` (symbolic_system.py 529-533) and `getFluxEnergies` (535-540): half the quadratic form at the sum
of coordinate and bias vector.  The coordinates are numbers here. -/
def quadEnergy [Field K] {n : ℕ} (A : Matrix (Fin n) (Fin n) K) (x bias : Fin n → K) : K :=
  (1 / 2) * ((x + bias) ⬝ᵥ (A.mulVec (x + bias)))

/-- The transform attributes (symbolic_system.py 95-99, 813-816, 829-833): `use_transform` and `R`; `RT`, `Rinv`, `RinvT` are
derived from `R`. -/
structure Transform (K : Type) (n : ℕ) where
  use : Bool
  R : Matrix (Fin n) (Fin n) K

/-- `getInverseCapacitanceMatrix(parameterise=False)` (symbolic_system.py 194-214); a singular matrix raises. -/
noncomputable def inverseCapacitance [Field K] {n : ℕ} (t : Transform K n) (C : Matrix (Fin n) (Fin n) K) :
    Option (Matrix (Fin n) (Fin n) K) :=
  open Classical in
  if C.det = 0 then none else some (if t.use then t.R * C⁻¹ * t.R.transpose else C⁻¹)

/-- The transform of the inverse inductance matrix (symbolic_system.py 370-371). -/
noncomputable def transformInductance [Field K] {n : ℕ} (t : Transform K n) (L : Matrix (Fin n) (Fin n) K) :
    Matrix (Fin n) (Fin n) K :=
  if t.use then (t.R⁻¹).transpose * L * t.R⁻¹ else L

/-! ### Mode classification -/

/-- The two labels of `coordinate_modes`. -/
inductive Mode
  | charge
  | oscillator
  deriving DecidableEq, Repr

/-- Labels by coordinate number; `none` is a coordinate without entry. -/
abbrev Modes := ℕ → Option Mode

/-- `coordinate_modes[nodes[i]] = m` -/
def Modes.put (l : Modes) (i : ℕ) (m : Mode) : Modes := fun k => if k = i then some m else l k

/-- The row check (symbolic_system.py 846-851): every later coordinate coupled to `index` is labelled as charge mode. -/
def markRow (nz : ℕ → ℕ → Bool) (index : ℕ) : List ℕ → Modes → List ℕ → Modes × List ℕ × Bool
  | [], l, s => (l, s, false)
  | i :: is, l, s =>
    if nz index i then
      let r := markRow nz index is (l.put i .charge) (i :: s)
      (r.1, r.2.1, true)
    else markRow nz index is l s

/-- The `while` loop (symbolic_system.py 835-858); `nz i j` says that `Linv[i, j] != 0`.  The fuel bounds the iterations:
`none` says that it did not suffice. -/
def classifyLoop (nz : ℕ → ℕ → Bool) (n : ℕ) : ℕ → ℕ → Modes → List ℕ → Option Modes
  | 0, _, _, _ => none
  | fuel + 1, index, l, s =>
    if ∀ i < n, i ∈ s then some l
    else if nz index index = false then classifyLoop nz n fuel (index + 1) (l.put index .charge) (index :: s)
    else
      let r := markRow nz index (List.range' (index + 1) (n - (index + 1))) l s
      classifyLoop nz n fuel (index + 1) (r.1.put index (if r.2.2 then .charge else .oscillator)) (index :: r.2.1)

/-- The labels without a transform (symbolic_system.py 823-858).  Simplification: `Linv[i, j] == 0` is decided exactly. -/
def classify (nz : ℕ → ℕ → Bool) (n : ℕ) : Option Modes := classifyLoop nz n (n + 1) 0 (fun _ => none) []

/-- The labels with a transform (symbolic_system.py 103-110, 816-822): by the diagonal of `RinvT * Linv * Rinv`. -/
def classifyTransformed (nz : ℕ → ℕ → Bool) (n : ℕ) : Modes := fun i =>
  if i < n then some (if nz i i then .oscillator else .charge) else none

/-! ### Josephson junctions and phase slips -/

/-- The terms of one entry of `Rnb * Rinv * node_vector` (symbolic_system.py 423, 481): the nonzero coefficients of a branch
with their node numbers.  `Rinv` holds floats, so sympy keeps every coefficient, 1.0 included. -/
def branchTerms [Ring K] [DecidableEq K] (g : CG) (Rinv : Mat K) (e : Edge) : List (K × ℕ) :=
  ((List.range (nodes g).length).map fun j =>
    ((if e.1 = 0 then 0 else Rinv ((nodes g).idxOf e.1) j) - (if e.2.1 = 0 then 0 else Rinv ((nodes g).idxOf e.2.1) j), j)).filter
      fun p => p.1 ≠ 0

variable {A : Type}

/-- The product of displacement operators (symbolic_system.py 436-460): positive coefficients take `D`, the others the
adjoint; `flip` exchanges the two (the second product). -/
def dispProduct [Monoid A] [Zero K] [LT K] [DecidableRel ((· < ·) : K → K → Prop)] (D Dd : ℕ → A) (flip : Bool) : List (K × ℕ) → A → A
  | [], acc => acc
  | p :: ps, acc =>
    dispProduct D Dd flip ps (acc * (if flip then (if p.1 < 0 then D p.2 else Dd p.2) else (if 0 < p.1 then D p.2 else Dd p.2)))

/-- The contribution of one branch with energy `E` (symbolic_system.py 430-461, 488-519); `ep` and `em` are the exponentials
of the bias.  `none` is the `IndexError` of an entry without terms (a junction joining a node to itself). -/
def branchEnergy [Ring A] [Zero K] [LT K] [DecidableRel ((· < ·) : K → K → Prop)] (half : A) (D Dd : ℕ → A) (E ep em : A)
    (terms : List (K × ℕ)) : Option A :=
  if terms.isEmpty then none
  else some (-(half * E * (dispProduct D Dd false terms ep + dispProduct D Dd true terms em)))

/-- A junction or phase-slip branch as the loop sees it: energy, exponentials of the bias, terms. -/
structure BranchData (K A : Type) where
  energy : A
  ep : A
  em : A
  terms : List (K × ℕ)

/-- The loop of `getQuantumJosephsonEnergies` and `getQuantumPhaseSlipEnergies` (symbolic_system.py 429-463, 487-521) over the branches
with an energy; `getHamiltonian` repeats it with numbers (numerical_system.py 521-556, 559-593). -/
def branchSum [Ring A] [Zero K] [LT K] [DecidableRel ((· < ·) : K → K → Prop)] (half : A) (D Dd : ℕ → A) :
    List (BranchData K A) → A → Option A
  | [], acc => some acc
  | b :: bs, acc =>
    match branchEnergy half D Dd b.energy b.ep b.em b.terms with
    | none => none
    | some x => branchSum half D Dd bs (acc + x)

/-- `cooper_disp` (symbolic_system.py 583-590): the absolute value of the coefficient of the first term of a row of `R * Φ`.
`order` is sympy's order of the terms. -/
def cooperDisp [Ring K] [LinearOrder K] (R : Mat K) (order : List ℕ) (i : ℕ) : Option K :=
  ((order.map (R i)).find? fun c => c ≠ 0).map abs

end Verif.Sym
