import Verif.Props.Machine
import Verif.Props.NumericalExamples

/-!
# C101: a circuit that meets the hypotheses

A junction `I1` across an inductor `L` and a capacitor `C`, with an external flux `e` through the loop (an rf SQUID), in the oscillator basis.
-/

namespace Verif.Props

open Verif Verif.Spec Verif.PC Verif.Num Verif.Sym Verif.Circuit Matrix

/-- The calls that describe the circuit. -/
def rfCalls : List Circuit.Call :=
  [.addBranch Orc.id 0 1 "C", .addBranch Orc.id 0 1 "L", .addBranch Orc.id 0 1 "I1", .addFluxBias "L" (some "e") none]

/-- The circuit. -/
def rfGraph : CG := run {} rfCalls

theorem rf_settled : Settled rfCalls rfGraph :=
  ⟨[.addBranch Orc.id 0 1 "C", .addBranch Orc.id 0 1 "L"], Orc.id, 0, 1, "I1", [.addFluxBias "L" (some "e") none],
    rfl, by simp [rfCalls, Call.OK, orcId_ok], by decide +kernel, by simp, rfl⟩

theorem rf_ok : AllOk rfCalls := by
  apply allOk_of_prefixes
  decide +kernel

theorem rf_branches : branches rfCalls = [(0, 1, "C"), (0, 1, "L"), (0, 1, "I1")] := by decide +kernel

theorem rf_netlist : CircuitNetlist rfCalls := by
  refine ⟨by simp [rfCalls], ?_, ?_⟩
  · rw [rf_branches]; decide +kernel
  · rw [rf_branches]; decide +kernel

/-- The branches of the flux biases. -/
def rfBiases : Biases := { flux := [((0, 1, 1), some "e"), ((1, 0, 2), none)], red := [((0, 1, 1), some "e"), ((1, 0, 2), none)] }

theorem rf_biases : createFluxBiases rfGraph = .ok rfBiases := by rfl

theorem rf_nodes : nodes rfGraph = [1] := by decide +kernel
theorem rf_edges : edges rfGraph = [(0, 1, 1), (1, 0, 2)] := by decide +kernel

theorem rf_gateCap (val : String → ℝ) (n : ℕ) : Spec.gateCap val rfCalls n = 0 := by
  unfold Spec.gateCap rfCalls
  simp

theorem rf_form (val : String → ℝ) (v : ℕ → ℝ) : electrostaticForm val rfCalls v = val "C" * (v 0 - v 1) ^ 2 := by
  unfold electrostaticForm capacitorForm
  have h : branchesOf 'C' (branches rfCalls) = [(0, 1, "C")] := by rw [rf_branches]; decide +kernel
  simp [rf_gateCap, h]

theorem rf_capacitance (val : String → ℝ) {C : Mat ℝ} (h : capacitance val (resonatorCap val) rfGraph = .ok C) : C 0 0 = val "C" := by
  obtain ⟨M, hM, -, hf⟩ := circuit_capacitance rf_settled rf_ok rf_netlist val
  rw [h] at hM
  cases hM
  have := hf (fun n => if n = 1 then 1 else 0) (by simp)
  rw [rf_form, dot_block] at this
  simpa [rf_nodes, bil] using this

theorem rf_inductance (val : String → ℝ) : branchInductance val rfGraph = .ok (fun i j => if i = 0 ∧ j = 0 then val "L" else 0) := by rfl

/-- The symbolic attributes of the circuit. -/
def rfExprs : Attr → List Ast
  | .Cinv => [.inv (.sym "C_{}")]
  | .Linv => [.inv (.sym "L_{}")]
  | .LinvB => [.inv (.sym "L_{}"), .lit (.fin 0), .lit (.fin 0), .lit (.fin 0)]
  | .J => [.lit (.fin 0), .sym "I_{1}"]
  | .Ps => [.lit (.fin 0), .lit (.fin 0)]
  | .Qb => [.lit (.fin 0)]
  | .Qbt => [.lit (.fin 0), .lit (.fin 0)]
  | .Pbm => [.lit (.fin 0), .lit (.fin 0), .lit (.fin 0), .lit (.fin 0)]
  | .Pbi => [.mul (.lit (.fin (-1))) (.sym "p_{hie}")]

/-- Their values. -/
def rfNumbers (c l i p : ℚ) : Attr → List ℚ
  | .Cinv => [c⁻¹]
  | .Linv => [l⁻¹]
  | .LinvB => [l⁻¹, 0, 0, 0]
  | .J => [0, i]
  | .Ps => [0, 0]
  | .Qb => [0]
  | .Qbt => [0, 0]
  | .Pbm => [0, 0, 0, 0]
  | .Pbi => [-p]

theorem rf_vectors (val phi q : String → ℝ) :
    incidence (K := ℝ) rfGraph 0 0 = -1 ∧ (josephsonVector val rfGraph 0 = 0 ∧ josephsonVector val rfGraph 1 = val "I1") ∧
    (phaseSlipVector val rfGraph 0 = 0 ∧ phaseSlipVector val rfGraph 1 = 0) ∧
    (fluxBiasVector phi rfGraph rfBiases 0 = 0 ∧ fluxBiasVector phi rfGraph rfBiases 1 = 0) ∧
    (fluxBiasVectorInd phi rfGraph rfBiases 0 = phi "e" ∧ fluxBiasVectorInd phi rfGraph rfBiases 1 = 0) ∧
    chargeBiasVector q rfGraph 0 = 0 := by
  refine ⟨?_, ⟨rfl, rfl⟩, ⟨rfl, rfl⟩, ⟨rfl, rfl⟩, ⟨rfl, rfl⟩, rfl⟩
  simp [incidence, rf_nodes, rf_edges]

theorem rf_node {i : ℕ} (h : i < (nodes rfGraph).length) : i = 0 := by
  rw [rf_nodes] at h
  simpa using h

theorem rf_edge {i : ℕ} (h : i < (edges rfGraph).length) : i = 0 ∨ i = 1 := by
  rw [rf_edges] at h
  simp at h
  omega

theorem rf_pinv (val : String → ℝ) (hL : val "L" ≠ 0) {B : Matrix (Fin (edges rfGraph).length) (Fin (edges rfGraph).length) ℝ} {M : Mat ℝ}
    (hM : branchInductance val rfGraph = .ok M) (h : IsPinv (M.block _ _) B) :
    B = Matrix.diagonal fun i : Fin (edges rfGraph).length => if (i : ℕ) = 0 then (val "L")⁻¹ else 0 := by
  rw [rf_inductance] at hM
  cases hM
  refine pinv_unique h ?_
  have hA : (Mat.block (fun i j => if i = 0 ∧ j = 0 then val "L" else 0) (edges rfGraph).length (edges rfGraph).length : Matrix _ _ ℝ) =
      Matrix.diagonal fun i : Fin (edges rfGraph).length => if (i : ℕ) = 0 then val "L" else 0 := by
    ext i j
    simp only [Mat.block, Matrix.diagonal_apply, Fin.ext_iff]
    rcases rf_edge i.2 with hi | hi <;> rcases rf_edge j.2 with hj | hj <;> simp [hi, hj]
  rw [hA]
  constructor
  · simp only [Matrix.diagonal_mul_diagonal]
    congr 1; funext i; by_cases hi : (i : ℕ) = 0 <;> simp [hi, hL]
  · simp only [Matrix.diagonal_mul_diagonal]
    congr 1; funext i; by_cases hi : (i : ℕ) = 0 <;> simp [hi, hL]
  · simp [Matrix.diagonal_mul_diagonal]
  · simp [Matrix.diagonal_mul_diagonal]

theorem rf_sum_edges (f : Fin (edges rfGraph).length → ℝ) :
    ∑ i, f i = f ⟨0, by decide +kernel⟩ + f ⟨1, by decide +kernel⟩ := by
  have key : ∀ (n : ℕ) (h : n = 2) (f : Fin n → ℝ), ∑ i, f i = f ⟨0, by omega⟩ + f ⟨1, by omega⟩ := by
    rintro n rfl f
    exact Fin.sum_univ_two f
  exact key _ (by decide +kernel) f

theorem rf_sum_nodes (f : Fin (nodes rfGraph).length → ℝ) : ∑ i, f i = f ⟨0, by decide +kernel⟩ := by
  have key : ∀ (n : ℕ) (h : n = 1) (f : Fin n → ℝ), ∑ i, f i = f ⟨0, by omega⟩ := by
    rintro n rfl f
    exact Fin.sum_univ_one f
  exact key _ (by decide +kernel) f

theorem rf_inverse (C : Matrix (Fin (nodes rfGraph).length) (Fin (nodes rfGraph).length) ℝ) (h : C.det ≠ 0) :
    C⁻¹ ⟨0, by decide +kernel⟩ ⟨0, by decide +kernel⟩ = (C ⟨0, by decide +kernel⟩ ⟨0, by decide +kernel⟩)⁻¹ := by
  have h1 := congrFun (congrFun (Matrix.nonsing_inv_mul C (isUnit_iff_ne_zero.2 h)) ⟨0, by decide +kernel⟩) ⟨0, by decide +kernel⟩
  rw [Matrix.mul_apply, rf_sum_nodes, Matrix.one_apply_eq] at h1
  exact eq_inv_of_mul_eq_one_left h1

/-- What the circuit is at given values of the parameters. -/
theorem rf_attrs {val phi q : String → ℝ} (hL : val "L" ≠ 0)
    {pinv : Matrix (Fin (edges rfGraph).length) (Fin (edges rfGraph).length) ℝ → Matrix (Fin (edges rfGraph).length) (Fin (edges rfGraph).length) ℝ}
    (hp : ∀ M, IsPinv M (pinv M)) {u : Prefs} {s : Sys PUnit (nodes rfGraph).length (edges rfGraph).length}
    (h : assemble rfGraph rfBiases val phi q ⟨false, 1⟩ pinv u = .ok s) {c l i p : ℚ} (hc : (c : ℝ) = val "C") (hl : (l : ℝ) = val "L")
    (hi : (i : ℝ) = val "I1") (hph : (p : ℝ) = phi "e") : AttrsOf s (rfNumbers c l i p) := by
  obtain ⟨C, hC, -⟩ := circuit_capacitance rf_settled rf_ok rf_netlist val
  have hB := rf_pinv val hL (rf_inductance val) (hp _)
  obtain ⟨v1, ⟨v2, v3⟩, ⟨v4, v5⟩, ⟨v6, v7⟩, ⟨v8, v9⟩, v10⟩ := rf_vectors val phi q
  unfold assemble at h
  simp only [hC, rf_inductance] at h
  split at h
  · cases h
  rename_i Ci hCi
  unfold inverseCapacitance at hCi
  by_cases hdet : (C.block (nodes rfGraph).length (nodes rfGraph).length).det = 0
  · rw [if_pos hdet] at hCi; cases hCi
  rw [if_neg hdet] at hCi
  simp only [Bool.false_eq_true, if_false, Option.some.injEq] at hCi
  simp only [hB] at h
  cases h
  subst hCi
  refine ⟨?_, ?_, ?_, ?_, ?_, ?_, ?_, ?_, ?_⟩
  · rintro ⟨a, h1⟩ ⟨b, h2⟩
    obtain rfl := rf_node h1
    obtain rfl := rf_node h2
    refine ⟨c⁻¹, rfl, ?_⟩
    have := rf_inverse _ hdet
    simp only at this ⊢
    rw [this]
    simp [Mat.block, rf_capacitance val hC, hc]
  · rintro ⟨a, h1⟩ ⟨b, h2⟩
    obtain rfl := rf_node h1
    obtain rfl := rf_node h2
    refine ⟨l⁻¹, rfl, ?_⟩
    simp [transformInductance, toNodes, Matrix.mul_apply, rf_sum_edges, Matrix.diagonal_apply, Mat.block, v1, hl]
  · rintro ⟨a, h1⟩ ⟨b, h2⟩
    have hw : (edges rfGraph).length = 2 := by decide +kernel
    simp only [branchInverse, Bool.false_eq_true, if_false, hw]
    rcases rf_edge h1 with rfl | rfl <;> rcases rf_edge h2 with rfl | rfl
    · exact ⟨l⁻¹, rfl, by simp [hl]⟩
    · exact ⟨0, rfl, by simp⟩
    · exact ⟨0, rfl, by simp⟩
    · exact ⟨0, rfl, by simp⟩
  · rintro ⟨a, h1⟩
    rcases rf_edge h1 with rfl | rfl
    · exact ⟨0, rfl, by simp [v2]⟩
    · exact ⟨i, rfl, by simp [v3, hi]⟩
  · rintro ⟨a, h1⟩
    rcases rf_edge h1 with rfl | rfl
    · exact ⟨0, rfl, by simp [v4]⟩
    · exact ⟨0, rfl, by simp [v5]⟩
  · rintro ⟨a, h1⟩
    obtain rfl := rf_node h1
    exact ⟨0, rfl, by simp [v10]⟩
  · rintro ⟨a, h1⟩
    have h0 : ∀ a, (Mat.block (incidence (K := ℝ) rfGraph) (nodes rfGraph).length (edges rfGraph).length).transpose.mulVec
        (fun i => chargeBiasVector q rfGraph i) a = 0 := by
      intro a
      simp [Matrix.mulVec, dotProduct, rf_sum_nodes, v10]
    simp only [h0]
    rcases rf_edge h1 with rfl | rfl
    · exact ⟨0, rfl, by simp⟩
    · exact ⟨0, rfl, by simp⟩
  · rintro ⟨a, h1⟩
    obtain rfl := rf_node h1
    refine ⟨-p, rfl, ?_⟩
    simp [fluxBiasNodes, Matrix.mulVec, dotProduct, rf_sum_edges, Mat.block, v1, v8, v9, hph]
  · rintro ⟨a, h1⟩ ⟨b, h2⟩
    have hw : (edges rfGraph).length = 2 := by decide +kernel
    simp only [hw, Matrix.diagonal_apply]
    rcases rf_edge h1 with rfl | rfl <;> rcases rf_edge h2 with rfl | rfl
    · exact ⟨0, rfl, by simp [v6]⟩
    · exact ⟨0, rfl, by simp⟩
    · exact ⟨0, rfl, by simp⟩
    · exact ⟨0, rfl, by simp [v7]⟩

/-- The parameters of the circuit. -/
def rfPC : PC Ast := (PC.new ["C", "L", "I1", "phie"]).toOption.getD { coll := [], symMap := [], parz := [], graph := { nodes := [], edges := [] } }

theorem rfPC_eq : PC.new ["C", "L", "I1", "phie"] = .ok rfPC := by decide +kernel

/-- The value of an expression with one symbol. -/
theorem valueIs_of {pc : PC Ast} {e : Ast} {d : PF} (n : String) (x : PF) (hs : ∀ s ∈ Ast.engine.free e, pc.getSymbol n = .ok s)
    (hv : pc.getParameterValue n = .ok (some x)) (he : Ast.lawful.eval (fun _ => x) e = some d) : ValueIs Ast.engine Ast.lawful pc e d :=
  ⟨fun _ => x, he, fun s h => ⟨n, x, hs s h, hv, rfl⟩⟩

theorem rf_values {pc : PC Ast} {c l i p : ℚ} (hc : c ≠ 0) (hl : l ≠ 0)
    (s1 : pc.getSymbol "C" = .ok "C_{}") (s2 : pc.getSymbol "L" = .ok "L_{}") (s3 : pc.getSymbol "I1" = .ok "I_{1}")
    (s4 : pc.getSymbol "phie" = .ok "p_{hie}") (v1 : pc.getParameterValue "C" = .ok (some (.fin c)))
    (v2 : pc.getParameterValue "L" = .ok (some (.fin l))) (v3 : pc.getParameterValue "I1" = .ok (some (.fin i)))
    (v4 : pc.getParameterValue "phie" = .ok (some (.fin p))) (a : Attr) :
    List.Forall₂ (fun e q => ValueIs Ast.engine Ast.lawful pc e (Ast.lawful.ofPF (.fin q))) (rfExprs a) (rfNumbers c l i p a) := by
  have e1 : ValueIs Ast.engine Ast.lawful pc (.inv (.sym "C_{}")) (Ast.lawful.ofPF (.fin c⁻¹)) := by
    refine valueIs_of "C" _ ?_ v1 ?_
    · intro s hs
      have : s ∈ ["C_{}"] := hs
      simp at this; subst this; exact s1
    · simp [Ast.lawful, Ast.eval, hc]
  have e2 : ValueIs Ast.engine Ast.lawful pc (.inv (.sym "L_{}")) (Ast.lawful.ofPF (.fin l⁻¹)) := by
    refine valueIs_of "L" _ ?_ v2 ?_
    · intro s hs
      have : s ∈ ["L_{}"] := hs
      simp at this; subst this; exact s2
    · simp [Ast.lawful, Ast.eval, hl]
  have e3 : ValueIs Ast.engine Ast.lawful pc (.sym "I_{1}") (Ast.lawful.ofPF (.fin i)) := by
    refine valueIs_of "I1" _ ?_ v3 rfl
    intro s hs
    have : s ∈ ["I_{1}"] := hs
    simp at this; subst this; exact s3
  have e4 : ValueIs Ast.engine Ast.lawful pc (.mul (.lit (.fin (-1))) (.sym "p_{hie}")) (Ast.lawful.ofPF (.fin (-p))) := by
    refine valueIs_of "phie" _ ?_ v4 ?_
    · intro s hs
      have : s ∈ ["p_{hie}"] := hs
      simp at this; subst this; exact s4
    · simp [Ast.lawful, Ast.eval, PF.mul]
  have e0 : ValueIs Ast.engine Ast.lawful pc (.lit (.fin 0)) (Ast.lawful.ofPF (.fin 0)) :=
    ⟨fun _ => .nan, rfl, fun s hs => absurd hs (by decide +kernel +revert)⟩
  cases a <;> simp only [rfExprs, rfNumbers, List.forall₂_cons, List.forall₂_nil_left_iff, and_true] <;> simp only [e0, e1, e2, e3, e4, and_self]

theorem getSymbol_symMap {E : Type} {pc pc' : PC E} (h : pc'.symMap = pc.symMap) (n : String) : pc'.getSymbol n = pc.getSymbol n := by
  unfold PC.getSymbol
  rw [h]

/-- The symbolic attributes are the matrices and vectors of the circuit. -/
theorem rf_symbolic (pinv : Matrix (Fin (edges rfGraph).length) (Fin (edges rfGraph).length) ℝ → Matrix (Fin (edges rfGraph).length) (Fin (edges rfGraph).length) ℝ)
    (hp : ∀ M, IsPinv M (pinv M)) (u : Prefs) (pc₀ : PC Ast) (h₀ : pc₀.getSymbol "C" = .ok "C_{}" ∧ pc₀.getSymbol "L" = .ok "L_{}" ∧
      pc₀.getSymbol "I1" = .ok "I_{1}" ∧ pc₀.getSymbol "phie" = .ok "p_{hie}") :
    SymbolicOf Ast.engine Ast.lawful rfCalls rfGraph rfBiases pinv u pc₀ rfExprs := by
  obtain ⟨s1, s2, s3, s4⟩ := h₀
  intro pc v s hsm _ _ _ hv hph hok
  have hL : v "L" ≠ 0 := hph.inductors (0, 1, "L") (by rw [rf_branches]; decide +kernel)
  have hLr : ((v "L" : ℚ) : ℝ) ≠ 0 := by exact_mod_cast hL
  have hC : v "C" ≠ 0 := by
    intro h0
    obtain ⟨C, hC, -, -⟩ := circuit_capacitance rf_settled rf_ok rf_netlist (fun c => (v c : ℝ))
    have hdet := (circuit_assemble rf_settled rf_ok rf_netlist rf_biases (fun c => (v c : ℝ)) _ _ ⟨false, 1⟩ pinv u hC).1 ⟨s, hok⟩
    apply hdet
    have : C.block (nodes rfGraph).length (nodes rfGraph).length = 0 := by
      ext ⟨i, hi⟩ ⟨j, hj⟩
      obtain rfl := rf_node hi
      obtain rfl := rf_node hj
      have := rf_capacitance _ hC
      simp [Mat.block, this, h0]
    rw [this]
    haveI : Nonempty (Fin (nodes rfGraph).length) := ⟨⟨0, by decide +kernel⟩⟩
    exact Matrix.det_zero
  refine ⟨rfNumbers (v "C") (v "L") (v "I1") (v "phie"), rf_attrs hLr hp hok rfl rfl rfl rfl, ?_⟩
  have hs : ∀ n, pc.getSymbol n = pc₀.getSymbol n := getSymbol_symMap hsm
  refine rf_values hC hL ((hs _).trans s1) ((hs _).trans s2) ((hs _).trans s3) ((hs _).trans s4) ?_ ?_ ?_ ?_
  · exact hv _ _ (by simp [rfCalls]) (.branch Orc.id 0 1 "C")
  · exact hv _ _ (by simp [rfCalls]) (.branch Orc.id 0 1 "L")
  · exact hv _ _ (by simp [rfCalls]) (.branch Orc.id 0 1 "I1")
  · exact hv _ _ (by simp [rfCalls]) (.flux "L" "e" none)

/-- The values of the parameters at which the circuit can be quantised. -/
theorem rf_physical (v : String → ℚ) (hC : 0 < v "C") (hL : v "L" ≠ 0) : PhysicalValues rfCalls v := by
  have bC : branchesOf 'C' (branches rfCalls) = [(0, 1, "C")] := by rw [rf_branches]; decide +kernel
  have bL : branchesOf 'L' (branches rfCalls) = [(0, 1, "L")] := by rw [rf_branches]; decide +kernel
  have hCr : (0 : ℝ) < v "C" := by exact_mod_cast hC
  refine ⟨⟨?_, fun n _ => (rf_gateCap _ n).ge⟩, ?_, ?_, ?_⟩
  · intro b hb
    rw [bC, List.mem_singleton] at hb
    subst hb
    exact hCr.le
  · intro n hn
    rw [rf_branches] at hn
    have hn' : n = 0 ∨ n = 1 := by revert hn; revert n; decide +kernel
    have m1 : ((0, 1, 0) : ℕ × ℕ × ℕ) ∈ capacitiveNet (fun c => (v c : ℝ)) rfCalls := by
      unfold capacitiveNet
      rw [rf_branches]
      refine List.mem_append_left _ ?_
      simp [branchesOf, wires, startsWith, hC.ne']
    rcases hn' with rfl | rfl
    · exact Conn.refl _ _
    · exact Conn.symm (Conn.edge m1)
  · intro br hbr
    rw [bL, List.mem_singleton] at hbr
    subst hbr
    exact hL
  · intro br hbr _
    rw [bL] at hbr
    refine ⟨1, one_ne_zero, Or.inl ?_, ?_⟩
    · rw [List.mem_singleton.1 hbr]; exact ⟨rfl, rfl⟩
    · intro b' hb' hne
      rw [bL] at hb'
      exact absurd ((List.mem_singleton.1 hb').trans (List.mem_singleton.1 hbr).symm) hne

/-- `setParameterValues` on a system with one node, when its steps succeed. -/
theorem set_one {E R O : Type} (eng : Engine E) (ho : HashOrder) (fuel : ℕ) (gen : List (ℕ × BasisName) → ℕ → Option PF → Except Err O) (st : NS E R O)
    (args : List BulkArg) {pc' : PC E} {d : Dict Verif.Sym (Option PF)} {num' : Dict Attr (List PF)} {node : ℕ} {c : OpCfg E} {z : PF} {o : O}
    (h1 : st.sw.pc.setParameterValues eng ho fuel args = (pc', .ok ())) (h2 : pc'.allParametersSet = true)
    (h3 : pc'.getSymbolValuesDict = .ok d) (h4 : NS.assignNumbers eng st.exprs d NS.substituteOrder st.num = (num', .ok ()))
    (h5 : st.nodes = [node]) (h6 : st.cfg.get? node = some c) (h7 : c.basis = .oscillator)
    (h8 : pc'.getParameterValue (NS.zName node) = .ok (some z)) (h9 : gen [(c.trunc, c.basis)] node (some z) = .ok o) :
    st.setParameterValues eng ho fuel gen args =
      ({ st with sw := { st.sw with pc := pc' }, num := num', circ := st.circ.set node o, vec := some [o] }, .ok ()) := by
  have hget : (st.circ.set node o).get? node = some o := Dict.get?_set_self _ _ _
  unfold NS.setParameterValues
  simp only [h1, h2, if_true, NS.substitute, h3, h4, NS.prepareOperators, NS.expand, NS.shape, h5, h6, List.mapM_cons, List.mapM_nil, pure, bind,
    Except.bind, Except.pure, NS.expandLoop, NS.selected, NS.opsOf, h7, h8, h7 ▸ h9, NS.vectors, hget, Option.bind]

/-- The basis. -/
def rfCfg : Fin (nodes rfGraph).length → NodeCfg := fun _ => ⟨2, .oscillator⟩

theorem rf_standard : Standard rfCfg := fun _ => Or.inr rfl

/-- The system after its construction and `configureOperator(1, 2, "oscillator")`. -/
def rfNS₀ : NS Ast LcRes (BigNode rfCfg) :=
  (({ sw := { pc := rfPC }, exprs := rfExprs, nodes := [1] } : NS Ast LcRes (BigNode rfCfg)).configureOperator Ast.engine lcFreq lcImp 1 2 .oscillator).1

/-- The values that are set. -/
def rfArgs : List BulkArg := [.dict [("C", .int 1), ("L", .int 1), ("I1", .int 3), ("phie", .int 0)]]

/-- The parameters afterwards. -/
def rfPC₁ : PC Ast := (rfNS₀.sw.pc.setParameterValues Ast.engine .id 10 rfArgs).1

/-- The numbers afterwards. -/
def rfNum : Dict Attr (List PF) :=
  (NS.assignNumbers Ast.engine rfNS₀.exprs (rfPC₁.getSymbolValuesDict.toOption.getD []) NS.substituteOrder rfNS₀.num).1

theorem rf_gen (ops : ∀ i, Option PF → Except Err (NodeOps (rfCfg i).dim)) (hops : ∀ i z, ∃ o, ops i z = .ok o) (z : PF) :
    ∃ N, genOf rfGraph rfCfg ops [(2, .oscillator)] 1 (some z) = .ok N := by
  obtain ⟨o, ho⟩ := hops ⟨0, by decide +kernel⟩ (some z)
  obtain ⟨N, hN⟩ := expandNode_standard rf_standard ⟨0, by decide +kernel⟩ o
  refine ⟨N, ?_⟩
  unfold genOf
  rw [if_pos (by decide +kernel)]
  have : nodeIndex rfGraph 1 = some ⟨0, by decide +kernel⟩ := by decide +kernel
  rw [this]
  simp only [ho, hN]

theorem ok_eq {α : Type} {x : Except Err α} {d : α} (h : x.toOption.isSome = true) : x = .ok (x.toOption.getD d) := by
  cases x with
  | error e => cases h
  | ok a => rfl

/-- The system when the values are set. -/
theorem rf_set (ops : ∀ i, Option PF → Except Err (NodeOps (rfCfg i).dim)) (hops : ∀ i z, ∃ o, ops i z = .ok o) :
    ∃ N, rfNS₀.setParameterValues Ast.engine .id 10 (genOf rfGraph rfCfg ops) rfArgs =
      ({ rfNS₀ with sw := { rfNS₀.sw with pc := rfPC₁ }, num := rfNum, circ := rfNS₀.circ.set 1 N, vec := some [N] }, .ok ()) := by
  obtain ⟨N, hN⟩ := rf_gen ops hops (.fin 1)
  refine ⟨N, set_one Ast.engine .id 10 _ rfNS₀ rfArgs (c := ⟨2, .oscillator, some (lcImp 1)⟩) (z := .fin 1) (Prod.ext rfl (by decide +kernel)) (by decide +kernel)
    (ok_eq (d := []) (by decide +kernel)) (Prod.ext rfl (by decide +kernel)) (by decide +kernel) (by decide +kernel) rfl (by decide +kernel) hN⟩

/-- The calls on the parameters. -/
def rfHistory : List (Spec.Call Ast) :=
  [⟨.id, 10, .addParameter "fosc1" none⟩, ⟨.id, 10, .addParameterisation "fosc1" (lcFreq 1)⟩,
   ⟨.id, 10, .addParameter "Zosc1" none⟩, ⟨.id, 10, .addParameterisation "Zosc1" (lcImp 1)⟩]

theorem rf_clean : CleanReachable Ast.engine rfNS₀.sw.pc := by
  refine ⟨_, rfPC, rfHistory, rfPC_eq, ?_, by decide +kernel⟩
  simp only [CleanHistory, rfHistory, CleanCall, and_true]
  refine ⟨?_, ?_, ?_, ?_⟩
  · exact fun _ => symbol_fresh (by decide +kernel)
  · unfold Parametric; decide +kernel
  · exact fun _ => symbol_fresh (by decide +kernel)
  · unfold Parametric; decide +kernel

/-- The values of the parameters at the flux `p`. -/
def rfVal (p : ℚ) (n : String) : ℚ := if n = "I1" then 3 else if n = "phie" then p else 1

theorem rf_declares {P : String → Prop} (h1 : P "C") (h2 : P "L") (h3 : P "I1") (h4 : P "phie") : ∀ c n, c ∈ rfCalls → Declares c n → P n := by
  intro c n hc hd
  simp only [rfCalls, List.mem_cons, List.not_mem_nil, or_false] at hc
  rcases hc with rfl | rfl | rfl | rfl <;> cases hd
  · exact h1
  · exact h2
  · exact h3
  · exact h4

/-- The hypotheses of `C101_hamiltonian_partial` are met: the circuit is an rf SQUID, its node uses the oscillator basis with any operators,
and the values of its components and of the flux are set. -/
example (u : Prefs) (ops : ∀ i, Option PF → Except Err (NodeOps (rfCfg i).dim)) (hops : ∀ i z, ∃ o, ops i z = .ok o) :
    Settled rfCalls rfGraph ∧ AllOk rfCalls ∧ CircuitNetlist rfCalls ∧ createFluxBiases rfGraph = .ok rfBiases ∧
    (∀ q : ℚ, Ast.lawful.toPF (Ast.lawful.ofPF (.fin q)) = some (.fin q)) ∧
    ∃ (pinv : Matrix (Fin (edges rfGraph).length) (Fin (edges rfGraph).length) ℝ → Matrix (Fin (edges rfGraph).length) (Fin (edges rfGraph).length) ℝ)
      (st st' : NS Ast LcRes (BigNode rfCfg)), (∀ M, IsPinv M (pinv M)) ∧ st.nodes = nodes rfGraph ∧ CleanReachable Ast.engine st.sw.pc ∧
      SymbolicOf Ast.engine Ast.lawful rfCalls rfGraph rfBiases pinv u st.sw.pc st.exprs ∧
      st.setParameterValues Ast.engine .id 10 (genOf rfGraph rfCfg ops) rfArgs = (st', .ok ()) ∧ ValuesOf rfCalls st'.sw.pc (rfVal 0) ∧
      PhysicalValues rfCalls (rfVal 0) := by
  choose pinv hp using fun M : Matrix (Fin (edges rfGraph).length) (Fin (edges rfGraph).length) ℝ => pinv_exists M
  obtain ⟨N, hN⟩ := rf_set ops hops
  refine ⟨rf_settled, rf_ok, rf_netlist, rf_biases, fun q => rfl, pinv, rfNS₀, _, hp, by decide +kernel, rf_clean, rf_symbolic pinv hp u _ (by decide +kernel), hN, ?_,
    rf_physical _ (by decide +kernel) (by decide +kernel)⟩
  exact rf_declares (P := fun n => rfPC₁.getParameterValue n = .ok (some (.fin (rfVal 0 n)))) (by decide +kernel) (by decide +kernel) (by decide +kernel)
    (by decide +kernel)

/-! ### A sweep of the flux -/

/-- The system after the values are set, before the sweep. -/
noncomputable def rfBefore (N : BigNode rfCfg) : NS Ast LcRes (BigNode rfCfg) :=
  { rfNS₀ with sw := { rfNS₀.sw with pc := rfPC₁ }, num := rfNum, circ := rfNS₀.circ.set 1 N, vec := some [N], specs := sweepPhi }

/-- The same system without operators. -/
def rfBare : NS Ast LcRes Unit :=
  { sw := { rfNS₀.sw with pc := rfPC₁ }, exprs := rfExprs, num := rfNum, nodes := [1], cfg := rfNS₀.cfg, specs := sweepPhi }

/-- The sweeper in the sweep. -/
def rfSW : SW Ast LcRes := (rfBare.sw.ndSweep sweepPhi).1

/-- Only whether the numbers are there. -/
def barePhys : Phys Unit Unit Unit PF PF PF where
  gen _ _ _ := .error .userError
  ham num _ _ := (readAttrs num).map fun _ => ()
  solve _ := .ok ([], [])
  curOp _ _ _ := .error .userError
  volOp _ _ _ := .error .userError
  elem _ _ _ := .nan
  resp _ _ _ _ _ _ _ := .error .userError
  energy _ _ _ _ := .error .userError

/-- A system without its operators. -/
def bare {E R O : Type} (st : NS E R O) : NS E R Unit :=
  { sw := st.sw, exprs := st.exprs, pre := st.pre, num := st.num, nodes := st.nodes, cfg := st.cfg, regen := st.regen, specs := st.specs, evals := st.evals }

/-- A sweep in which no operators are made anew succeeds if it does without operators, and the Hamiltonian can be diagonalised at all numbers. -/
theorem singleLoop_bare {E R O H P X V R' : Type} (eng : Engine E) (ho : HashOrder) (fuel : ℕ) (ph : Phys O H P X V R') (gv : Bool)
    (c : Dict ℕ O) (w : Option (List O)) (hham : ∀ num x, readAttrs num = .ok x → ∃ h r, ph.ham num c.get? w = .ok h ∧ ph.solve h = .ok r) :
    ∀ (pts : List (Dict String PF)) (st : NS E R O), st.circ = c → st.vec = w → st.regen = [] →
      (singleLoop eng ho fuel barePhys gv hamEntry pts (bare st)).2.2 = .ok () → (singleLoop eng ho fuel ph gv hamEntry pts st).2.2 = .ok () := by
  intro pts
  induction pts with
  | nil => intro st _ _ _ _; rfl
  | cons p pts ih =>
    intro st hc hw hr h
    unfold singleLoop NS.postsub at h ⊢
    simp only [bare] at h
    split at h
    · cases h
    · rename_i st1 heq
      split at heq
      · cases heq
      · rename_i pc hpc
        simp only [hpc]
        split at heq
        · cases heq
        · rename_i d hd
          split at heq
          · cases heq
          · rename_i num' hnum
            simp only [hnum, hr, if_true] at heq ⊢
            cases heq
            split at h
            · cases h
            · rename_i r hr'
              have hread : ∃ x, readAttrs num'.get? = .ok x := by
                cases hx : readAttrs num'.get? with
                | ok x => exact ⟨x, rfl⟩
                | error e =>
                  simp [evalEntry, callMethod, hamEntry, barePhys, hx, Except.map] at hr'
              obtain ⟨x, hx⟩ := hread
              obtain ⟨hm, rr, g1, g2⟩ := hham _ _ hx
              have hev : ∃ r', evalEntry ph gv ({ st with sw := { st.sw with pc := pc }, num := num', regen := [] } : NS E R O) hamEntry none = .ok r' := by
                obtain ⟨es, vs⟩ := rr
                unfold evalEntry callMethod hamEntry
                simp only [hc, hw, g1, diagonalize, g2, if_true]
                cases gv
                · exact ⟨_, rfl⟩
                · exact ⟨_, rfl⟩
              obtain ⟨r', hr''⟩ := hev
              simp only [hr'']
              exact ih { st with sw := { st.sw with pc := pc }, num := num', regen := [] } hc hw rfl h

theorem rf_terms (u : Prefs) (x : Attr → List ℚ) (i : Fin (edges rfGraph).length) : (readSys rfGraph u x).terms i ≠ [] := by
  have hi : ((edges rfGraph).get i = (0, 1, 1)) ∨ (edges rfGraph).get i = (1, 0, 2) := by
    have := List.get_mem (edges rfGraph) i
    generalize (edges rfGraph).get i = e at this ⊢
    rw [rf_edges] at this
    simpa using this
  simp only [readSys, branchTerms]
  have hl : (nodes rfGraph).length = 1 := by decide +kernel
  have hidx : (nodes rfGraph).idxOf 1 = 0 := by decide +kernel
  rcases hi with hi | hi <;> rw [hi] <;> simp [hl, hidx]

/-- The Hamiltonian of the circuit exists at all numbers. -/
theorem rf_hamiltonian (u : Prefs) (N : BigNode rfCfg) {num : Attr → Option (List PF)} {x : Attr → List ℚ} (hx : readAttrs num = .ok x) :
    ∃ h, hamiltonianOf rfGraph u rfCfg num (Dict.get? ([(1, N)] : Dict ℕ (BigNode rfCfg))) (some [N]) = .ok h := by
  have hc : (nodes rfGraph).mapM (Dict.get? ([(1, N)] : Dict ℕ (BigNode rfCfg))) = some [N] := by
    have key : ∀ (l : List ℕ), l = [1] → l.mapM (Dict.get? ([(1, N)] : Dict ℕ (BigNode rfCfg))) = some [N] := by rintro l rfl; rfl
    exact key _ rf_nodes
  have hl : (nodes rfGraph).length = 1 := by decide +kernel
  unfold hamiltonianOf
  simp only [hx, hc]
  rw [dif_pos (by simp [hl])]
  unfold hamiltonian
  rw [branchSum_spec, branchSum_spec, if_pos, if_pos]
  · exact ⟨_, rfl⟩
  · intro b hb
    obtain ⟨i, -, rfl⟩ := List.mem_map.1 hb
    exact rf_terms u x i
  · intro b hb
    obtain ⟨i, -, rfl⟩ := List.mem_map.1 hb
    exact rf_terms u x i

theorem rf_sweep_bare (gv : Bool) : (paramSweep Ast.engine .id 10 barePhys gv rfBare).2.2 = .ok () := by
  cases gv <;> decide +kernel

theorem rf_good : lcGood rfSW.pc 1 1 1 := by decide +kernel

theorem presub_bare {E R O : Type} (eng : Engine E) (ho : HashOrder) (st : NS E R O) :
    ((bare st).presub eng ho).2 = (st.presub eng ho).2 ∧ ((bare st).presub eng ho).1 = bare (st.presub eng ho).1 ∧
    (st.presub eng ho).1.circ = st.circ ∧ (st.presub eng ho).1.vec = st.vec := by
  unfold NS.presub NS.regenNodes bare
  simp only
  split
  · simp
  · split
    · rename_i heq
      split at heq <;> cases heq
      simp [*]
    · rename_i heq
      split at heq <;> cases heq
      simp [*]

theorem paramSweep_bare {E O H P X V R' : Type} (eng : Engine E) (ho : HashOrder) (fuel : ℕ) (ph : Phys O H P X V R') (gv : Bool)
    (st : NS E (Res X V R') O) (bst : NS E (Res X V R') Unit) (hb : bst = bare st) (he : st.evals = [])
    (hham : ∀ num x, readAttrs num = .ok x → ∃ h r, ph.ham num st.circ.get? st.vec = .ok h ∧ ph.solve h = .ok r)
    (hreg : (({ bst with sw := (bst.sw.ndSweep bst.specs).1, evals := [hamEntry] } : NS E (Res X V R') Unit).presub eng ho).1.regen = [])
    (h : (paramSweep (Q := Res X V R') eng ho fuel barePhys gv bst).2.2 = .ok ()) : (paramSweep eng ho fuel ph gv st).2.2 = .ok () := by
  subst hb
  unfold paramSweep at h ⊢
  have he' : (bare st).evals = [] := he
  simp only [he, he', List.length_nil, if_true] at h ⊢
  have hsw : ((bare st).sw.ndSweep (bare st).specs) = st.sw.ndSweep st.specs := rfl
  rw [hsw] at hreg
  obtain ⟨b1, b2, b3, b4⟩ := presub_bare eng ho ({ st with sw := (st.sw.ndSweep st.specs).1, evals := [hamEntry] } : NS E (Res X V R') O)
  split at h
  · cases h
  · rename_i sw hs
    have hs' : st.sw.ndSweep st.specs = (sw, .ok ()) := hs
    rw [hs'] at b1 b2 b3 b4 hreg
    simp only [hs']
    split at h
    · cases h
    · rename_i st1 hpre
      have hpre' : (bare ({ st with sw := sw, evals := [hamEntry] } : NS E (Res X V R') O)).presub eng ho = (st1, .ok ()) := hpre
      rw [hpre'] at b1 b2
      have hreg' : st1.regen = [] := by
        have h2 : ((bare ({ st with sw := sw, evals := [hamEntry] } : NS E (Res X V R') O)).presub eng ho).1.regen = [] := hreg
        rw [hpre'] at h2
        exact h2
      cases hq : ({ st with sw := sw, evals := [hamEntry] } : NS E (Res X V R') O).presub eng ho with
      | mk st2 r2 =>
        rw [hq] at b1 b2 b3 b4
        simp only at b1 b2 b3 b4
        subst b1 b2
        have hq' : ({ st with sw := sw, evals := [⟨.getHamiltonian, true, none, {}⟩] } : NS E (Res X V R') O).presub eng ho = (st2, .ok ()) := hq
        simp only [hq']
        have hsw2 : (bare st2).sw = st2.sw := rfl
        rw [hsw2] at h
        split at h
        · cases h
        · rename_i pts hpts
          have hev : (bare st2).evals = st2.evals := rfl
          rw [hev] at h
          have hev2 : st2.evals = [hamEntry] := by
            have := hq
            unfold NS.presub at this
            split at this
            · cases this
            · dsimp only at this
              split at this
              · cases this
              · cases this; rfl
          rw [hev2] at h ⊢
          simp only [evaluate] at h ⊢
          split at h
          · cases h
          · rename_i heq
            have hk := singleLoop_bare eng ho fuel ph gv st2.circ st2.vec (by rw [b3, b4]; exact hham) pts st2 rfl rfl hreg' (by rw [heq])
            split
            · rename_i heq2
              rw [heq2] at hk
              cases hk
            · rfl

theorem rf_impedance (n : String) (s : Verif.Sym) (hs : rfSW.pc.getSymbol n = .ok s) (hfree : s ∈ Ast.engine.free (lcImp 1)) :
    ¬ Affected rfSW.pc ["phie"] n := by
  intro haff
  have hn : n = "C" ∨ n = "L" := by
    have hf : s = "C_{}" ∨ s = "L_{}" := by
      have : Ast.engine.free (lcImp 1) = ["C_{}", "L_{}"] := by decide +kernel
      rw [this] at hfree
      simpa using hfree
    have hm : ∀ p ∈ rfSW.pc.symMap, p.2 = "C_{}" ∨ p.2 = "L_{}" → p.1 = "C" ∨ p.1 = "L" := by decide +kernel
    unfold PC.getSymbol at hs
    split at hs
    · cases hs
    · rename_i s' hs'
      cases hs
      exact hm _ (Dict.mem_of_get? hs') hf
  have hno : ∀ m x, (m = "C" ∨ m = "L") → ¬ RecordedDep rfSW.pc m x := by
    have hp : (rfSW.pc.getParameterisationParameters "C").toOption.getD [] = [] ∧
        (rfSW.pc.getParameterisationParameters "L").toOption.getD [] = [] := by decide +kernel
    rintro m x (rfl | rfl) ⟨names, h1, h2⟩
    · rw [h1] at hp; have : names = [] := hp.1; rw [this] at h2; simp at h2
    · rw [h1] at hp; have : names = [] := hp.2; rw [this] at h2; simp at h2
  obtain ⟨k, hk, hk'⟩ := haff
  rw [List.mem_singleton] at hk
  subst hk
  rcases hk' with rfl | hk'
  · simp at hn
  · rcases Relation.TransGen.head'_iff.1 hk' with ⟨x, hx, _⟩
    exact hno n x hn hx

/-- The system is prepared for the sweep. -/
theorem rf_ready (ops : ∀ i, Option PF → Except Err (NodeOps (rfCfg i).dim)) (N : BigNode rfCfg)
    (hN : genOf rfGraph rfCfg ops [(2, .oscillator)] 1 (some (.fin 1)) = .ok N) :
    Ready Ast.engine Ast.lawful (genOf rfGraph rfCfg ops) ["phie"] { rfBefore N with sw := rfSW } := by
  have hcfg : rfNS₀.cfg = [(1, ⟨2, .oscillator, some (lcImp 1)⟩)] := by decide +kernel
  have hpc : CleanReachable Ast.engine rfPC₁ := by
    refine ⟨_, rfPC, rfHistory ++ [⟨.id, 10, .setParameterValues rfArgs⟩], rfPC_eq, ?_, by decide +kernel⟩
    simp only [CleanHistory, rfHistory, CleanCall, and_true, List.cons_append, List.nil_append]
    refine ⟨?_, ?_, ?_, ?_⟩
    · exact fun _ => symbol_fresh (by decide +kernel)
    · unfold Parametric; decide +kernel
    · exact fun _ => symbol_fresh (by decide +kernel)
    · unfold Parametric; decide +kernel
  refine ⟨ndSweep_clean (st := rfBare.sw) hpc sweepPhi, by show rfSW.params = _; decide +kernel, ?_, fun n hn => lc_good rf_good n hn, ?_, ?_⟩
  · intro k hk
    rw [List.mem_singleton] at hk
    subst hk
    have h1 : rfSW.pc.coll.get? "phie" ≠ none ∧ "phie" ∉ rfSW.pc.getParametricParametersList := by decide +kernel
    exact h1
  · refine prepare_of _ _ (sh := [(2, .oscillator)]) (l := [N]) ?_ ?_ rfl rfl
    · have : (bare (rfBefore N)).shape = .ok [(2, .oscillator)] := by
        show rfBare.shape = _
        decide +kernel
      exact this
    · intro node hn
      have hn1 : node ∈ [1] := hn
      rw [List.mem_singleton] at hn1
      subst hn1
      refine ⟨N, ?_, rfl⟩
      have hz : rfSW.pc.getParameterValue (NS.zName 1) = .ok (some (.fin 1)) := by decide +kernel
      unfold NS.opsOf
      have hc : ({ rfBefore N with sw := rfSW } : NS Ast LcRes (BigNode rfCfg)).cfg.get? 1 = some ⟨2, .oscillator, some (lcImp 1)⟩ := by
        show rfNS₀.cfg.get? 1 = _
        rw [hcfg]; rfl
      rw [hc]
      simp only [if_true, hz, hN]
  · intro node c hc hb
    have hc' : rfNS₀.cfg.get? node = some c := hc
    rw [hcfg, Dict.get?_cons] at hc'
    split_ifs at hc' with h1
    · subst h1
      cases hc'
      exact ⟨lcImp 1, rfl, rf_good.2.2.1⟩
    · simp at hc'

/-- The hypotheses of `C101_levels_partial` about the circuit are those of `C101_hamiltonian_partial`.  Its hypotheses about the sweep are met by
a sweep of the flux of the rf SQUID at three points, for any operators and any eigensolver that does not fail. -/
example (u : Prefs) (ops : ∀ i, Option PF → Except Err (NodeOps (rfCfg i).dim)) (hops : ∀ i z, ∃ o, ops i z = .ok o) (gv : Bool) (k : ℕ)
    (base : Phys (BigNode rfCfg) (BigOp rfCfg) PF PF PF PF) (hsolve : ∀ h, ∃ r, base.solve h = .ok r)
    (hk : ∀ hm es vs, base.solve hm = .ok (es, vs) → es.length = k ∧ vs.length = k) :
    ∃ (pinv : Matrix (Fin (edges rfGraph).length) (Fin (edges rfGraph).length) ℝ → Matrix (Fin (edges rfGraph).length) (Fin (edges rfGraph).length) ℝ)
      (st st₁ st' : NS Ast LcRes (BigNode rfCfg)) (sw : SW Ast LcRes) (pts : List (Dict String PF)) (files : List (SW.Pickled LcRes)),
      (∀ M, IsPinv M (pinv M)) ∧ st.nodes = nodes rfGraph ∧
      SymbolicOf Ast.engine Ast.lawful rfCalls rfGraph rfBiases pinv u sw.pc st.exprs ∧
      st.sw.ndSweep st.specs = (sw, .ok ()) ∧ Ready Ast.engine Ast.lawful (circuitPhys rfGraph u rfCfg ops base).gen ["phie"] { st with sw := sw } ∧
      ({ st with sw := sw, evals := evaluations st } : NS Ast LcRes (BigNode rfCfg)).presub Ast.engine .id = (st₁, .ok ()) ∧
      gridPoints sw = .ok pts ∧ pts = [at1 "phie" 0, at1 "phie" (1/2), at1 "phie" 1] ∧ evaluations st = [hamEntry] ∧
      (∀ node c imp n s, st.cfg.get? node = some c → c.basis = .oscillator → c.impedance = some imp →
        sw.pc.getSymbol n = .ok s → s ∈ Ast.engine.free imp → ¬ Affected sw.pc ["phie"] n) ∧
      paramSweep Ast.engine .id 10 (circuitPhys rfGraph u rfCfg ops base) gv st = (st', files, .ok ()) ∧
      (sweptNames st.specs).Nodup ∧ (sizes st.specs).prod ≠ 0 ∧ FiniteSweeps sw st.specs ∧
      (∃ disk : String → Option (SW.Pickled LcRes), ∀ i, i < files.length → disk (String.ofList (List.replicate i 'x')) = files[i]?) ∧
      st.specs[0]? = some ⟨"phie", .int 0, .int 1, .int 3⟩ ∧ StaticsFor st.specs ["phie"] [] ∧
      PointValues rfCalls sw.pc (at1 "phie" (1/2)) (rfVal (1/2)) ∧ PhysicalValues rfCalls (rfVal (1/2)) ∧
      ∃ stF, NS.setParameterValues Ast.engine .id 10 (circuitPhys rfGraph u rfCfg ops base).gen { st with sw := sw } (pointArg (at1 "phie" (1/2))) = (stF, .ok ()) ∧
        Defined Ast.engine Ast.lawful { st with sw := sw } stF.sw.pc := by
  choose pinv hp using fun M : Matrix (Fin (edges rfGraph).length) (Fin (edges rfGraph).length) ℝ => pinv_exists M
  obtain ⟨N, hN⟩ := rf_gen ops hops (.fin 1)
  have hcirc : (rfBefore N).circ = [(1, N)] := rfl
  have hrun : (paramSweep Ast.engine .id 10 (circuitPhys rfGraph u rfCfg ops base) gv (rfBefore N)).2.2 = .ok () := by
    refine paramSweep_bare Ast.engine .id 10 _ gv (rfBefore N) rfBare rfl rfl ?_ (by decide +kernel) (rf_sweep_bare gv)
    intro num x hx
    obtain ⟨h, hh⟩ := rf_hamiltonian u N hx
    obtain ⟨r, hr⟩ := hsolve h
    exact ⟨h, r, hh, hr⟩
  refine ⟨pinv, rfBefore N, _, _, rfSW, [at1 "phie" 0, at1 "phie" (1/2), at1 "phie" 1], _, hp, rf_nodes.symm,
    rf_symbolic pinv hp u _ (by decide +kernel), Prod.ext rfl (by show (rfBare.sw.ndSweep sweepPhi).2 = _; decide +kernel), rf_ready ops N hN, Prod.ext rfl ?_, by decide +kernel, rfl, rfl, ?_,
    Prod.ext rfl (Prod.ext rfl hrun), by show (sweptNames sweepPhi).Nodup; decide +kernel, by show (sizes sweepPhi).prod ≠ 0; decide +kernel, ?_, ?_, rfl, ?_, ?_,
    rf_physical _ (by decide +kernel) (by decide +kernel), ?_⟩
  · rw [← (presub_bare Ast.engine .id _).1]
    show (({ rfBare with sw := rfSW, evals := [hamEntry] } : NS Ast LcRes Unit).presub Ast.engine .id).2 = .ok ()
    decide +kernel
  · intro node c imp n s hc hb hi hs hfree
    have hcfg : rfNS₀.cfg = [(1, ⟨2, .oscillator, some (lcImp 1)⟩)] := by decide +kernel
    have hc' : rfNS₀.cfg.get? node = some c := hc
    rw [hcfg, Dict.get?_cons] at hc'
    split_ifs at hc' with h1
    · cases hc'
      cases hi
      exact rf_impedance n s hs hfree
    · simp at hc'
  · have key : ∀ s ∈ sweepPhi, ∀ p ∈ (rfSW.pc.coll.get? s.name).toList, ∀ x ∈ p.sweep, (match x with | PF.fin _ => true | _ => false) = true := by
      decide +kernel
    intro s hs p hp x hx
    have := key s hs p (by rw [hp]; simp) x hx
    cases x <;> simp_all
  · exact ⟨fun f => (paramSweep Ast.engine .id 10 (circuitPhys rfGraph u rfCfg ops base) gv (rfBefore N)).2.1[f.toList.length]?, fun i _ => by simp⟩
  · refine ⟨by simp, ?_, by simp⟩
    intro k
    show _ ↔ _ ∈ sweptNames sweepPhi ∧ _
    simp [sweepPhi, sweptNames]
  · have hnp : ∀ n, n ∉ rfSW.pc.getParametricParametersList → ¬ Parametric rfSW.pc n := fun n h => h
    refine rf_declares (P := fun n => (at1 "phie" (1/2)).get? n = some (.fin (rfVal (1/2) n)) ∨ ((at1 "phie" (1/2)).get? n = none ∧ ¬ Parametric rfSW.pc n ∧
      rfSW.pc.getParameterValue n = .ok (some (.fin (rfVal (1/2) n))))) ?_ ?_ ?_ ?_
    · exact Or.inr ⟨by decide +kernel, hnp _ (by decide +kernel), by decide +kernel⟩
    · exact Or.inr ⟨by decide +kernel, hnp _ (by decide +kernel), by decide +kernel⟩
    · exact Or.inr ⟨by decide +kernel, hnp _ (by decide +kernel), by decide +kernel⟩
    · exact Or.inl (by decide +kernel)
  · have hset := set_one Ast.engine .id 10 (genOf rfGraph rfCfg ops) ({ rfBefore N with sw := rfSW } : NS Ast LcRes (BigNode rfCfg))
      (pointArg (at1 "phie" (1/2))) (pc' := (rfSW.pc.setParameterValues Ast.engine .id 10 (pointArg (at1 "phie" (1/2)))).1)
      (d := ((rfSW.pc.setParameterValues Ast.engine .id 10 (pointArg (at1 "phie" (1/2)))).1.getSymbolValuesDict.toOption.getD []))
      (num' := (NS.assignNumbers Ast.engine rfExprs ((rfSW.pc.setParameterValues Ast.engine .id 10 (pointArg (at1 "phie" (1/2)))).1.getSymbolValuesDict.toOption.getD [])
        NS.substituteOrder rfNum).1) (node := 1)
      (c := ⟨2, .oscillator, some (lcImp 1)⟩) (z := .fin 1) (o := N) (Prod.ext rfl (by show (rfSW.pc.setParameterValues _ _ _ _).2 = _; decide +kernel)) (by decide +kernel)
      (ok_eq (d := []) (by decide +kernel)) (Prod.ext rfl (by show (NS.assignNumbers Ast.engine rfExprs _ _ rfNum).2 = _; decide +kernel)) rfl
      (by show rfNS₀.cfg.get? 1 = _; decide +kernel) rfl (by decide +kernel) hN
    refine ⟨_, hset, ⟨fun k hk => ?_, ?_⟩⟩
    · obtain ⟨x, h1, h2, _⟩ := lc_good (pc := (rfSW.pc.setParameterValues Ast.engine .id 10 (pointArg (at1 "phie" (1/2)))).1) (l := 1) (f := 1) (z := 1)
        (by decide +kernel) k hk
      exact ⟨x, h1, h2⟩
    · intro a e he
      have hf := rf_values (pc := (rfSW.pc.setParameterValues Ast.engine .id 10 (pointArg (at1 "phie" (1/2)))).1) (c := 1) (l := 1) (i := 3) (p := 1/2) one_ne_zero
        one_ne_zero (by decide +kernel) (by decide +kernel) (by decide +kernel) (by decide +kernel) (by decide +kernel) (by decide +kernel) (by decide +kernel)
        (by decide +kernel) a
      have he' : e ∈ rfExprs a := he
      obtain ⟨q, -, ρ, h1, h2⟩ : ∃ q ∈ rfNumbers 1 1 3 (1/2) a, ValueIs Ast.engine Ast.lawful
          (rfSW.pc.setParameterValues Ast.engine .id 10 (pointArg (at1 "phie" (1/2)))).1 e (Ast.lawful.ofPF (.fin q)) := by
        generalize rfExprs a = l at hf he'
        generalize rfNumbers 1 1 3 (1/2) a = l' at hf ⊢
        induction hf with
        | nil => simp at he'
        | cons hx hl ih =>
          rcases List.mem_cons.1 he' with rfl | he''
          · exact ⟨_, by simp, hx⟩
          · obtain ⟨q, h1, h2⟩ := ih he''
            exact ⟨q, by simp [h1], h2⟩
      exact ⟨ρ, _, h1, h2⟩

end Verif.Props
