import Verif.Props.Expressions
import Verif.Props.MachineExamples
import Verif.Lemmas.AstArith

/-!
# C102: circuits that meet the hypotheses
-/

namespace Verif.Props

open Verif Verif.Spec Verif.PC Verif.Num Verif.Sym Verif.Circuit Matrix

/-- No resonators are there to be parameterised. -/
def noRes : Resonator → Except Err (ResExprs Ast) := fun _ => .error .userError

/-! ### Two nodes -/

/-- Two islands with a junction and an inductor to ground, coupled by a capacitor, the first with a gate. -/
def twoCalls : List Circuit.Call :=
  [.addBranch Orc.id 0 1 "C1", .addBranch Orc.id 0 1 "I1", .addBranch Orc.id 1 2 "Cc", .addBranch Orc.id 0 2 "C2", .addBranch Orc.id 0 2 "L2",
   .addChargeBias 1 (some "g") (some "Cg")]

/-- The circuit. -/
def twoGraph : CG := run {} twoCalls

theorem two_settled : Settled twoCalls twoGraph :=
  ⟨[.addBranch Orc.id 0 1 "C1", .addBranch Orc.id 0 1 "I1", .addBranch Orc.id 1 2 "Cc", .addBranch Orc.id 0 2 "C2"], Orc.id, 0, 2, "L2",
    [.addChargeBias 1 (some "g") (some "Cg")], rfl, by simp [twoCalls, Call.OK, orcId_ok], by decide +kernel, by simp, rfl⟩

theorem two_ok : AllOk twoCalls := by
  apply allOk_of_prefixes
  decide +kernel

theorem two_branches : branches twoCalls = [(0, 1, "C1"), (0, 1, "I1"), (1, 2, "Cc"), (0, 2, "C2"), (0, 2, "L2")] := by decide +kernel

theorem two_netlist : CircuitNetlist twoCalls := by
  refine ⟨by simp [twoCalls], ?_, ?_⟩
  · rw [two_branches]; decide +kernel
  · rw [two_branches]; decide +kernel

/-- The biases. -/
def twoBiases : Biases := (createFluxBiases twoGraph).toOption.getD { flux := [], red := [] }

theorem two_biases : createFluxBiases twoGraph = .ok twoBiases := ok_eq (by decide +kernel)

theorem reserved_len {k : String} (h : Reserved k) : 3 ≤ k.toList.length := by
  obtain ⟨c, ds, -, h2, -, h | h⟩ := h <;> rw [h] <;> simp <;> omega

theorem two_declares {P : String → Prop} (h1 : P "C1") (h2 : P "I1") (h3 : P "Cc") (h4 : P "C2") (h5 : P "L2") (h6 : P "Cg") (h7 : P "Qg") :
    ∀ c ∈ twoCalls, ∀ n, Declares c n → P n := by
  intro c hc n hd
  simp only [twoCalls, List.mem_cons, List.not_mem_nil, or_false] at hc
  rcases hc with rfl | rfl | rfl | rfl | rfl | rfl <;> cases hd <;> assumption

/-- The parameters of the symbolic system. -/
def twoPC : PC Ast :=
  (systemParameters Ast.engine Ast.arith Orc.id noRes false twoGraph).toOption.getD { coll := [], symMap := [], parz := [], graph := { nodes := [], edges := [] } }

/-- The parameters after `getSymbolicExpressions`. -/
def twoPC₁ : PC Ast := (symbolicExpressions Ast.engine Ast.arith twoGraph twoBiases twoPC).1

/-- The hypotheses of `C102_symbolic_partial` are met, and there are parameters that stand for entries of the matrices: two of the capacitance matrix and three
of its inverse. -/
example : ArithLaws Ast.engine Ast.lawful Ast.arith ∧ Settled twoCalls twoGraph ∧ AllOk twoCalls ∧ CircuitNetlist twoCalls ∧ (nodes twoGraph).length ≤ 111 ∧
    (∀ x ∈ twoCalls, ∀ k, Declares x k → ¬ Reserved k) ∧ createFluxBiases twoGraph = .ok twoBiases ∧
    systemParameters Ast.engine Ast.arith Orc.id noRes false twoGraph = .ok twoPC ∧
    (∃ exprs, symbolicExpressions Ast.engine Ast.arith twoGraph twoBiases twoPC = (twoPC₁, .ok exprs)) ∧
    twoPC₁.parz.keys = ["C00", "C11", "C00i", "C01i", "C11i"] := by
  refine ⟨Ast.arith_laws, two_settled, two_ok, two_netlist, by decide +kernel, ?_, two_biases, ok_eq (by decide +kernel), ?_, by decide +kernel⟩
  · exact two_declares (P := fun k => ¬ Reserved k) (fun h => absurd (reserved_len h) (by decide)) (fun h => absurd (reserved_len h) (by decide))
      (fun h => absurd (reserved_len h) (by decide)) (fun h => absurd (reserved_len h) (by decide)) (fun h => absurd (reserved_len h) (by decide))
      (fun h => absurd (reserved_len h) (by decide)) (fun h => absurd (reserved_len h) (by decide))
  · obtain ⟨e, he⟩ : ∃ e, (symbolicExpressions Ast.engine Ast.arith twoGraph twoBiases twoPC).2 = .ok e :=
      ⟨_, ok_eq (d := fun _ => []) (by decide +kernel)⟩
    exact ⟨e, Prod.ext rfl he⟩

/-! ### The rf SQUID -/

/-- The parameters of the symbolic system. -/
def rfPC₀ : PC Ast :=
  (systemParameters Ast.engine Ast.arith Orc.id noRes false rfGraph).toOption.getD { coll := [], symMap := [], parz := [], graph := { nodes := [], edges := [] } }

/-- The numerical system. -/
def rfNew : NS Ast LcRes (BigNode rfCfg) :=
  { sw := { pc := (symbolicExpressions Ast.engine Ast.arith rfGraph rfBiases rfPC₀).1 },
    exprs := ((symbolicExpressions Ast.engine Ast.arith rfGraph rfBiases rfPC₀).2).toOption.getD fun _ => [], nodes := nodes rfGraph }

theorem rfNew_eq : numericalSystem Ast.engine Ast.arith rfGraph rfBiases rfPC₀ = .ok rfNew := by
  obtain ⟨e, he⟩ : ∃ e, (symbolicExpressions Ast.engine Ast.arith rfGraph rfBiases rfPC₀).2 = .ok e :=
    ⟨_, ok_eq (d := fun _ => []) (by decide +kernel)⟩
  unfold numericalSystem rfNew
  rw [he]
  rw [show symbolicExpressions Ast.engine Ast.arith rfGraph rfBiases rfPC₀ = ((symbolicExpressions Ast.engine Ast.arith rfGraph rfBiases rfPC₀).1, .ok e) from
    Prod.ext rfl he]
  rfl

/-- The system after `configureOperator(1, 2, "oscillator")`. -/
def rfUsed : NS Ast LcRes (BigNode rfCfg) := (rfNew.configureOperator Ast.engine lcFreq lcImp 1 2 .oscillator).1

/-- The parameters when the values are set. -/
def rfPC₂ : PC Ast := (rfUsed.sw.pc.setParameterValues Ast.engine .id 10 rfArgs).1

/-- The numbers afterwards. -/
def rfNum₂ : Dict Attr (List PF) :=
  (NS.assignNumbers Ast.engine rfUsed.exprs (rfPC₂.getSymbolValuesDict.toOption.getD []) NS.substituteOrder rfUsed.num).1

theorem rfUsed_set (ops : ∀ i, Option PF → Except Err (NodeOps (rfCfg i).dim)) (hops : ∀ i z, ∃ o, ops i z = .ok o) :
    ∃ N, rfUsed.setParameterValues Ast.engine .id 10 (genOf rfGraph rfCfg ops) rfArgs =
      ({ rfUsed with sw := { rfUsed.sw with pc := rfPC₂ }, num := rfNum₂, circ := rfUsed.circ.set 1 N, vec := some [N] }, .ok ()) := by
  obtain ⟨N, hN⟩ := rf_gen ops hops (.fin 1)
  refine ⟨N, set_one Ast.engine .id 10 _ rfUsed rfArgs (c := ⟨2, .oscillator, some (lcImp 1)⟩) (z := .fin 1) (Prod.ext rfl (by decide +kernel)) (by decide +kernel)
    (ok_eq (d := []) (by decide +kernel)) (Prod.ext rfl (by decide +kernel)) (by decide +kernel) (by decide +kernel) rfl (by decide +kernel) hN⟩

/-- The hypotheses of `C102_hamiltonian_partial` are met by the rf SQUID, with any operators of its node. -/
example (u : Prefs) (ops : ∀ i, Option PF → Except Err (NodeOps (rfCfg i).dim)) (hops : ∀ i z, ∃ o, ops i z = .ok o) {P X V R : Type}
    (base : Phys (BigNode rfCfg) (BigOp rfCfg) P X V R) :
    Settled rfCalls rfGraph ∧ AllOk rfCalls ∧ CircuitNetlist rfCalls ∧ (nodes rfGraph).length ≤ 111 ∧ (∀ x ∈ rfCalls, ∀ k, Declares x k → ¬ Reserved k) ∧
    createFluxBiases rfGraph = .ok rfBiases ∧ ArithLaws Ast.engine Ast.lawful Ast.arith ∧
    systemParameters Ast.engine Ast.arith Orc.id noRes false rfGraph = .ok rfPC₀ ∧
    ∃ st₀ st st' : NS Ast LcRes (BigNode rfCfg), numericalSystem Ast.engine Ast.arith rfGraph rfBiases rfPC₀ = .ok st₀ ∧
      Used Ast.engine (circuitPhys rfGraph u rfCfg ops base).gen lcFreq lcImp st₀ st ∧
      st.setParameterValues Ast.engine .id 10 (circuitPhys rfGraph u rfCfg ops base).gen rfArgs = (st', .ok ()) ∧ ValuesOf rfCalls st'.sw.pc (rfVal 0) ∧
      PhysicalValues rfCalls (rfVal 0) := by
  obtain ⟨N, hN⟩ := rfUsed_set ops hops
  refine ⟨rf_settled, rf_ok, rf_netlist, by decide +kernel, ?_, rf_biases, Ast.arith_laws, ok_eq (by decide +kernel), rfNew, rfUsed, _, rfNew_eq,
    .configure 1 2 .oscillator .start (Prod.ext rfl (by decide +kernel)), hN, ?_, rf_physical _ (by decide +kernel) (by decide +kernel)⟩
  · intro x hx k hd
    refine rf_declares (P := fun k => ¬ Reserved k) (fun h => absurd (reserved_len h) (by decide)) (fun h => absurd (reserved_len h) (by decide))
      (fun h => absurd (reserved_len h) (by decide)) ?_ x k hx hd
    rintro ⟨c, ds, h1, -, -, h | h⟩ <;> rcases h1 with rfl | rfl <;> simp at h
  · exact rf_declares (P := fun n => rfPC₂.getParameterValue n = .ok (some (.fin (rfVal 0 n)))) (by decide +kernel) (by decide +kernel) (by decide +kernel)
      (by decide +kernel)

/-- The hypotheses of `C102_sweep_partial` about the sweep are met by a sweep of the flux. -/
example (gen : List (ℕ × BasisName) → ℕ → Option PF → Except Err (BigNode rfCfg)) :
    Used Ast.engine gen lcFreq lcImp rfNew rfUsed ∧ (sweptNames sweepPhi).Nodup ∧
    ∃ sw, rfUsed.sw.ndSweep sweepPhi = (sw, .ok ()) :=
  ⟨.configure 1 2 .oscillator .start (Prod.ext rfl (by decide +kernel)), by decide +kernel, _, Prod.ext rfl (by decide +kernel)⟩

/-- `C102_unset` applies to the rf SQUID before and after its operator is configured. -/
example : numericalSystem Ast.engine Ast.arith rfGraph rfBiases rfPC₀ = .ok rfNew ∧
    [((1 : ℕ), (2 : ℕ), BasisName.oscillator)].foldl (fun s c => (NS.configureOperator Ast.engine s lcFreq lcImp c.1 c.2.1 c.2.2).1) rfNew = rfUsed ∧
    rfUsed.vec = none ∧ rfUsed.num.get? .Cinv = none := ⟨rfNew_eq, rfl, rfl, by decide +kernel⟩

end Verif.Props
