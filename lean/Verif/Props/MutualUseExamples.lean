import Verif.Props.MutualUse
import Verif.Props.NetlistMutualExamples
import Verif.Props.ExpressionExamples
import Verif.Lemmas.AstCoupled

/-!
# C103: a circuit with a mutual inductance in use

A capacitor `C` across two inductors `L` and `L2` that are coupled by a mutual inductance `M`, in the oscillator basis.
-/

namespace Verif.Props

open Verif Verif.Spec Verif.PC Verif.Num Verif.Sym Verif.Circuit Matrix

/-- The calls that describe the circuit. -/
def coilCalls : List Circuit.Call :=
  [.addBranch Orc.id 0 1 "C", .addBranch Orc.id 0 1 "L", .addBranch Orc.id 0 1 "L2", .coupleBranches "L" "L2" "M"]

/-- The circuit. -/
def coilGraph : CG := run {} coilCalls

theorem coil_settled : Settled coilCalls coilGraph :=
  ⟨[.addBranch Orc.id 0 1 "C", .addBranch Orc.id 0 1 "L"], Orc.id, 0, 1, "L2", [.coupleBranches "L" "L2" "M"],
    rfl, by simp [coilCalls, Call.OK, orcId_ok], by decide +kernel, by simp, rfl⟩

theorem coil_ok : AllOk coilCalls := by
  apply allOk_of_prefixes
  decide +kernel

theorem coil_branches : branches coilCalls = [(0, 1, "C"), (0, 1, "L"), (0, 1, "L2")] := by decide +kernel

theorem coil_netlist : CoupledNetlist coilCalls := by
  refine ⟨by simp [coilCalls], after_of_take ?_, ?_, ?_⟩
  · intro i
    fin_cases i <;> simp [coilCalls, Circuit.Call.isBranch]
  · rw [coil_branches]; decide +kernel
  · rw [coil_branches]; decide +kernel

theorem coil_declares {P : String → Prop} (h1 : P "C") (h2 : P "L") (h3 : P "L2") (h4 : P "M") : ∀ c n, c ∈ coilCalls → Declares c n → P n := by
  intro c n hc hd
  simp only [coilCalls, List.mem_cons, List.not_mem_nil, or_false] at hc
  rcases hc with rfl | rfl | rfl | rfl <;> cases hd
  · exact h1
  · exact h2
  · exact h3
  · exact h4

/-- The branches of the flux biases. -/
def coilBiases : Biases := (createFluxBiases coilGraph).toOption.getD { flux := [], red := [] }

theorem coil_biases : createFluxBiases coilGraph = .ok coilBiases := ok_eq (by decide +kernel)

theorem coil_values (v : String → ℚ) (hC : 0 < v "C") (hL : 0 < v "L") (hM : v "M" * v "M" < v "L" * v "L2") : CoupledValues coilCalls v := by
  have bC : branchesOf 'C' (branches coilCalls) = [(0, 1, "C")] := by rw [coil_branches]; decide +kernel
  have bL : branchesOf 'L' (branches coilCalls) = [(0, 1, "L"), (0, 1, "L2")] := by rw [coil_branches]; decide +kernel
  have hCr : (0 : ℝ) < v "C" := by exact_mod_cast hC
  have hLr : (0 : ℝ) < v "L" := by exact_mod_cast hL
  have hMr : (v "M" : ℝ) * v "M" < v "L" * v "L2" := by exact_mod_cast hM
  have hg : ∀ val n, Spec.gateCap val coilCalls n = 0 := by
    intro val n
    unfold Spec.gateCap coilCalls
    simp
  refine ⟨⟨?_, fun n _ => (hg _ n).ge⟩, ?_, ?_, ?_⟩
  · intro b hb
    rw [bC, List.mem_singleton] at hb
    subst hb
    exact hCr.le
  · intro n hn
    rw [coil_branches] at hn
    have hn' : n = 0 ∨ n = 1 := by revert hn; revert n; decide +kernel
    have m1 : ((0, 1, 0) : ℕ × ℕ × ℕ) ∈ capacitiveNet (fun c => (v c : ℝ)) coilCalls := by
      unfold capacitiveNet
      rw [coil_branches]
      refine List.mem_append_left _ ?_
      simp [branchesOf, wires, startsWith, hC.ne']
    rcases hn' with rfl | rfl
    · exact Conn.refl _ _
    · exact Conn.symm (Conn.edge m1)
  · rintro j ⟨br, hbr, hj⟩
    have hm : mutualOf (fun c => (v c : ℝ)) coilCalls "L" "L2" = v "M" ∧ mutualOf (fun c => (v c : ℝ)) coilCalls "L2" "L" = v "M" := by
      unfold mutualOf couplings coilCalls
      simp
    have hF : magneticForm (fun c => (v c : ℝ)) coilCalls j = v "L" * j "L" ^ 2 + 2 * v "M" * j "L" * j "L2" + v "L2" * j "L2" ^ 2 := by
      unfold magneticForm inductanceOf
      rw [bL]
      simp [hm.1, hm.2]
      ring
    rw [hF]
    have hsq : v "L" * (v "L" * j "L" ^ 2 + 2 * v "M" * j "L" * j "L2" + v "L2" * j "L2" ^ 2) =
        ((v "L" : ℝ) * j "L" + v "M" * j "L2") ^ 2 + (v "L" * v "L2" - v "M" * v "M") * j "L2" ^ 2 := by ring
    have hpos : 0 < ((v "L" : ℝ) * j "L" + v "M" * j "L2") ^ 2 + (v "L" * v "L2" - v "M" * v "M") * j "L2" ^ 2 := by
      by_cases h2 : j "L2" = 0
      · have h1 : j "L" ≠ 0 := by
          rw [bL] at hbr
          have : br = (0, 1, "L") ∨ br = (0, 1, "L2") := by simpa using hbr
          rcases this with rfl | rfl
          · exact hj
          · exact absurd h2 hj
        rw [h2]
        have : ((v "L" : ℝ) * j "L") ≠ 0 := mul_ne_zero hLr.ne' h1
        have := sq_pos_of_ne_zero this
        simpa using this
      · have h3 := sq_pos_of_ne_zero h2
        have h4 : 0 < ((v "L" : ℝ) * v "L2" - v "M" * v "M") * j "L2" ^ 2 := mul_pos (by linarith) h3
        have h5 := sq_nonneg ((v "L" : ℝ) * j "L" + v "M" * j "L2")
        linarith
    rw [← hsq] at hpos
    exact (mul_pos_iff_of_pos_left hLr).1 hpos
  · intro br hbr hne
    exfalso
    apply hne
    unfold fluxOn coilCalls
    simp

/-- The basis. -/
def coilCfg : Fin (nodes coilGraph).length → NodeCfg := fun _ => ⟨2, .oscillator⟩

/-- The values that are set. -/
def coilArgs : List BulkArg := [.dict [("C", .int 1), ("L", .int 1), ("L2", .int 2), ("M", .int 1)]]

/-- The values. -/
def coilVal (n : String) : ℚ := if n = "L2" then 2 else 1

/-- The parameters of the symbolic system. -/
def coilPC : PC Ast :=
  (systemParameters Ast.engine Ast.coupledArith Orc.id noRes false coilGraph).toOption.getD { coll := [], symMap := [], parz := [], graph := { nodes := [], edges := [] } }

/-- The numerical system. -/
def coilNew : NS Ast LcRes (BigNode coilCfg) :=
  { sw := { pc := (symbolicExpressions Ast.engine Ast.coupledArith coilGraph coilBiases coilPC).1 },
    exprs := ((symbolicExpressions Ast.engine Ast.coupledArith coilGraph coilBiases coilPC).2).toOption.getD fun _ => [], nodes := nodes coilGraph }

theorem coilNew_expr : ∃ e, (symbolicExpressions Ast.engine Ast.coupledArith coilGraph coilBiases coilPC).2 = .ok e :=
  ⟨_, ok_eq (d := fun _ => []) (by decide +kernel)⟩

theorem coilNew_eq : numericalSystem Ast.engine Ast.coupledArith coilGraph coilBiases coilPC = .ok coilNew := by
  obtain ⟨e, he⟩ := coilNew_expr
  unfold numericalSystem coilNew
  rw [he]
  rw [show symbolicExpressions Ast.engine Ast.coupledArith coilGraph coilBiases coilPC =
    ((symbolicExpressions Ast.engine Ast.coupledArith coilGraph coilBiases coilPC).1, .ok e) from Prod.ext rfl he]
  rfl

/-- The system after `configureOperator(1, 2, "oscillator")`. -/
def coilUsed : NS Ast LcRes (BigNode coilCfg) := (coilNew.configureOperator Ast.engine lcFreq lcImp 1 2 .oscillator).1

/-- The parameters when the values are set. -/
def coilPC₂ : PC Ast := (coilUsed.sw.pc.setParameterValues Ast.engine .id 10 coilArgs).1

/-- The numbers afterwards. -/
def coilNum₂ : Dict Attr (List PF) :=
  (NS.assignNumbers Ast.engine coilUsed.exprs (coilPC₂.getSymbolValuesDict.toOption.getD []) NS.substituteOrder coilUsed.num).1

theorem coil_gen (ops : ∀ i, Option PF → Except Err (NodeOps (coilCfg i).dim)) (hops : ∀ i z, ∃ o, ops i z = .ok o) (z : PF) :
    ∃ N, genOf coilGraph coilCfg ops [(2, .oscillator)] 1 (some z) = .ok N := by
  obtain ⟨o, ho⟩ := hops ⟨0, by decide +kernel⟩ (some z)
  obtain ⟨N, hN⟩ := expandNode_standard (cfg := coilCfg) (fun _ => Or.inr rfl) ⟨0, by decide +kernel⟩ o
  refine ⟨N, ?_⟩
  unfold genOf
  rw [if_pos (by decide +kernel)]
  have : nodeIndex coilGraph 1 = some ⟨0, by decide +kernel⟩ := by decide +kernel
  rw [this]
  simp only [ho, hN]

theorem coilUsed_set (ops : ∀ i, Option PF → Except Err (NodeOps (coilCfg i).dim)) (hops : ∀ i z, ∃ o, ops i z = .ok o) :
    ∃ N, coilUsed.setParameterValues Ast.engine .id 10 (genOf coilGraph coilCfg ops) coilArgs =
      ({ coilUsed with sw := { coilUsed.sw with pc := coilPC₂ }, num := coilNum₂, circ := coilUsed.circ.set 1 N, vec := some [N] }, .ok ()) := by
  obtain ⟨N, hN⟩ := coil_gen ops hops (.fin 1)
  refine ⟨N, set_one Ast.engine .id 10 _ coilUsed coilArgs (c := ⟨2, .oscillator, some (lcImp 1)⟩) (z := .fin 1) (Prod.ext rfl (by decide +kernel)) (by decide +kernel)
    (ok_eq (d := []) (by decide +kernel)) (Prod.ext rfl (by decide +kernel)) (by decide +kernel) (by decide +kernel) rfl (by decide +kernel) hN⟩

/-- The hypotheses of `C103_symbolic_partial` and of `C103_hamiltonian_partial` are met by the two coupled coils, with any operators of the node. -/
example (u : Prefs) (ops : ∀ i, Option PF → Except Err (NodeOps (coilCfg i).dim)) (hops : ∀ i z, ∃ o, ops i z = .ok o) {P X V R : Type}
    (base : Phys (BigNode coilCfg) (BigOp coilCfg) P X V R) :
    Settled coilCalls coilGraph ∧ AllOk coilCalls ∧ CoupledNetlist coilCalls ∧ (nodes coilGraph).length ≤ 111 ∧
    (∀ x ∈ coilCalls, ∀ k, Declares x k → ¬ Reserved k) ∧ createFluxBiases coilGraph = .ok coilBiases ∧
    CoupledLaws Ast.engine Ast.lawful Ast.coupledArith ∧ systemParameters Ast.engine Ast.coupledArith Orc.id noRes false coilGraph = .ok coilPC ∧
    (∃ pc exprs, symbolicExpressions Ast.engine Ast.coupledArith coilGraph coilBiases coilPC = (pc, .ok exprs)) ∧
    ∃ st₀ st st' : NS Ast LcRes (BigNode coilCfg), numericalSystem Ast.engine Ast.coupledArith coilGraph coilBiases coilPC = .ok st₀ ∧
      Used Ast.engine (circuitPhys coilGraph u coilCfg ops base).gen lcFreq lcImp st₀ st ∧
      st.setParameterValues Ast.engine .id 10 (circuitPhys coilGraph u coilCfg ops base).gen coilArgs = (st', .ok ()) ∧ ValuesOf coilCalls st'.sw.pc coilVal ∧
      CoupledValues coilCalls coilVal ∧ coilVal "M" ≠ 0 := by
  obtain ⟨N, hN⟩ := coilUsed_set ops hops
  obtain ⟨e, he⟩ := coilNew_expr
  refine ⟨coil_settled, coil_ok, coil_netlist, by decide +kernel, ?_, coil_biases, Ast.coupled_laws, ok_eq (by decide +kernel), ⟨_, e, Prod.ext rfl he⟩,
    coilNew, coilUsed, _, coilNew_eq, .configure 1 2 .oscillator .start (Prod.ext rfl (by decide +kernel)), hN, ?_,
    coil_values _ (by decide +kernel) (by decide +kernel) (by decide +kernel), by decide +kernel⟩
  · intro x hx k hd
    exact coil_declares (P := fun k => ¬ Reserved k) (fun h => absurd (reserved_len h) (by decide)) (fun h => absurd (reserved_len h) (by decide))
      (fun h => absurd (reserved_len h) (by decide)) (fun h => absurd (reserved_len h) (by decide)) x k hx hd
  · exact coil_declares (P := fun n => coilPC₂.getParameterValue n = .ok (some (.fin (coilVal n)))) (by decide +kernel) (by decide +kernel) (by decide +kernel)
      (by decide +kernel)

end Verif.Props
