import Verif.Props.LoadedUse
import Verif.Props.MutualUseExamples

/-!
# C104: a circuit with a resonator in use

A capacitor `C` and an inductor `L` whose node is coupled to a resonator by a capacitor `Cc`, in the oscillator basis.
-/

namespace Verif.Ast

open Verif Verif.Spec Verif.Sym Verif.Props

/-- The operations satisfy what is asked of sympy's. -/
theorem loaded_laws : LoadedLaws engine lawful coupledArith where
  toCoupledLaws := coupled_laws
  div ρ a b x y ha hb hy := by
    show eval ρ (.mul a (.inv b)) = _
    rw [div_eq_mul_inv]
    exact eval_mul ha (eval_inv hb hy)
  free_div a b x hx := by
    simp only [engine, coupledArith, arith, syms, List.mem_dedup, List.mem_append] at hx ⊢
    exact hx

end Verif.Ast

namespace Verif.Props

open Verif Verif.Spec Verif.PC Verif.Num Verif.Sym Verif.Circuit Matrix

/-- The expressions of a resonator: the capacitance `0.5/(pi * fr * Zr)` for `pi = 22/7`, the inductance `0.5 * Zr/(pi * fr)`, and stand-ins for the three others. -/
def someRes : Resonator → Except Err (ResExprs Ast) := fun r => .ok
  { cr := .inv (.mul (.mul (.lit (.fin (2 * (22 / 7)))) (.sym (writtenAs r.fr))) (.sym (writtenAs r.zr))),
    lr := .mul (.sym (writtenAs r.zr)) (.inv (.mul (.lit (.fin (2 * (22 / 7)))) (.sym (writtenAs r.fr)))),
    frl := .sym (writtenAs r.fr), zrl := .sym (writtenAs r.zr), gc := .sym (writtenAs r.fr) }

theorem some_laws : ResonatorLaws Ast.engine Ast.lawful someRes (22 / 7) := by
  intro n c x hx
  cases hx
  refine ⟨?_, ?_, ?_⟩
  · intro h
    have : writtenAs (mkResonator n c).fr ∈ Ast.engine.free
        (.inv (.mul (.mul (.lit (.fin (2 * (22 / 7)))) (.sym (writtenAs (mkResonator n c).fr))) (.sym (writtenAs (mkResonator n c).zr)))) := by
      simp [Ast.engine, Ast.syms]
    rw [h] at this
    cases this
  · intro s hs
    simpa [Ast.engine, Ast.syms] using hs
  · intro ρ f z hf hz hf0 hz0
    rw [one_div]
    have e1 : Ast.eval ρ (.sym (writtenAs (mkResonator n c).fr)) = some (.fin f) := congrArg some hf
    have e2 : Ast.eval ρ (.sym (writtenAs (mkResonator n c).zr)) = some (.fin z) := congrArg some hz
    have e0 : Ast.eval ρ (.lit (.fin (2 * (22 / 7)))) = some (.fin (2 * (22 / 7))) := rfl
    exact Ast.eval_inv (Ast.eval_mul (Ast.eval_mul e0 e1) e2) (mul_ne_zero (mul_ne_zero (by norm_num) hf0) hz0)

/-- The calls that describe the circuit. -/
def loadCalls : List Circuit.Call := [.addBranch Orc.id 0 1 "C", .addBranch Orc.id 0 1 "L", .coupleResonator 1 "Cc"]

/-- The circuit. -/
def loadGraph : CG := run {} loadCalls

theorem load_settled : Settled loadCalls loadGraph :=
  ⟨[.addBranch Orc.id 0 1 "C"], Orc.id, 0, 1, "L", [.coupleResonator 1 "Cc"], rfl, by simp [loadCalls, Call.OK, orcId_ok], by decide +kernel, by simp, rfl⟩

theorem load_ok : AllOk loadCalls := by
  apply allOk_of_prefixes
  decide +kernel

theorem load_branches : branches loadCalls = [(0, 1, "C"), (0, 1, "L")] := by decide +kernel

theorem load_netlist : LoadedNetlist loadCalls := by
  refine ⟨by simp [loadCalls], by simp [loadCalls], after_of_take ?_, ?_, ?_⟩
  · intro i
    fin_cases i <;> simp [loadCalls, Circuit.Call.isBranch]
  · rw [load_branches]; decide +kernel
  · rw [load_branches]; decide +kernel

theorem load_keeps : KeepsResonators loadCalls := by
  intro x hx
  simp only [loadCalls, List.mem_cons, List.not_mem_nil, or_false] at hx
  rcases hx with rfl | rfl | rfl <;> simp

theorem load_declares {P : String → Prop} (h1 : P "C") (h2 : P "L") (h3 : ∀ k ∈ resonatorNames 1 "Cc", P k) : ∀ c n, c ∈ loadCalls → Declares c n → P n := by
  intro c n hc hd
  simp only [loadCalls, List.mem_cons, List.not_mem_nil, or_false] at hc
  rcases hc with rfl | rfl | rfl <;> cases hd
  · exact h1
  · exact h2
  · rename_i h
    exact h3 _ h

theorem load_plain : PlainNames loadCalls := by
  intro x hx k hd hc
  obtain ⟨n, c, hm, hk⟩ := hc
  simp only [loadCalls, List.mem_cons, List.not_mem_nil, or_false, reduceCtorEq, false_or, Circuit.Call.coupleResonator.injEq] at hm
  obtain ⟨rfl, rfl⟩ := hm
  simp only [loadCalls, List.mem_cons, List.not_mem_nil, or_false] at hx
  rcases hx with rfl | rfl | rfl
  · cases hd
    exact absurd hk (by decide +kernel)
  · cases hd
    exact absurd hk (by decide +kernel)
  · refine ⟨1, "Cc", rfl, ?_⟩
    rintro rfl
    exact absurd hk (by decide +kernel)

theorem reserved_last {k : String} (h : Reserved k) : ∃ c, k.toList.getLast? = some c ∧ (c.isDigit = true ∨ c = 'i') := by
  obtain ⟨c, ds, -, h2, h3, h | h⟩ := h
  · obtain ⟨ds', x, rfl⟩ : ∃ ds' x, ds = ds' ++ [x] := ⟨ds.dropLast, ds.getLast (by rintro rfl; simp at h2), (List.dropLast_append_getLast _).symm⟩
    exact ⟨x, by rw [h, ← List.cons_append, List.getLast?_concat], Or.inl (h3 x (by simp))⟩
  · exact ⟨'i', by rw [h, ← List.cons_append, List.getLast?_concat], Or.inr rfl⟩

/-- The branches of the flux biases. -/
def loadBiases : Biases := (createFluxBiases loadGraph).toOption.getD { flux := [], red := [] }

theorem load_biases : createFluxBiases loadGraph = .ok loadBiases := ok_eq (by decide +kernel)

theorem load_values (v : String → ℚ) (hC : 0 < v "C") (hL : 0 < v "L") (hc : 0 ≤ v "Cc") (hr : 0 ≤ v "C1r") (hf : v "f1r" ≠ 0) (hz : v "Z1r" ≠ 0) :
    LoadedValues loadCalls v := by
  have bC : branchesOf 'C' (branches loadCalls) = [(0, 1, "C")] := by rw [load_branches]; decide +kernel
  have bL : branchesOf 'L' (branches loadCalls) = [(0, 1, "L")] := by rw [load_branches]; decide +kernel
  have hCr : (0 : ℝ) < v "C" := by exact_mod_cast hC
  have hLr : (0 : ℝ) < v "L" := by exact_mod_cast hL
  have hg : ∀ val n, Spec.gateCap val loadCalls n = 0 := by
    intro val n
    unfold Spec.gateCap loadCalls
    simp
  refine ⟨⟨⟨?_, fun n _ => (hg _ n).ge⟩, ?_⟩, ?_, ?_, ?_, ?_⟩
  · intro b hb
    rw [bC, List.mem_singleton] at hb
    subst hb
    exact hCr.le
  · intro n c h
    unfold resonatorAt loadCalls at h
    simp only [List.foldl_cons, List.foldl_nil] at h
    split_ifs at h with h1
    cases h
    subst h1
    rw [show resonatorName 1 = "C1r" by decide +kernel]
    have a1 : (0 : ℝ) ≤ v "Cc" := by exact_mod_cast hc
    have a2 : (0 : ℝ) ≤ v "C1r" := by exact_mod_cast hr
    exact ⟨a1, a2⟩
  · intro n hn
    rw [load_branches] at hn
    have hn' : n = 0 ∨ n = 1 := by revert hn; revert n; decide +kernel
    have m1 : ((0, 1, 0) : ℕ × ℕ × ℕ) ∈ loadedNet (fun c => (v c : ℝ)) loadCalls := by
      unfold loadedNet
      rw [load_branches]
      refine List.mem_append_left _ ?_
      simp [branchesOf, wires, startsWith, hC.ne']
    rcases hn' with rfl | rfl
    · exact Conn.refl _ _
    · exact Conn.symm (Conn.edge m1)
  · rintro j ⟨br, hbr, hj⟩
    rw [bL, List.mem_singleton] at hbr
    subst hbr
    have hF : magneticForm (fun c => (v c : ℝ)) loadCalls j = v "L" * j "L" ^ 2 := by
      unfold magneticForm inductanceOf
      rw [bL]
      simp
      ring
    rw [hF]
    exact mul_pos hLr (sq_pos_of_ne_zero hj)
  · intro br hbr hne
    exfalso
    apply hne
    unfold fluxOn loadCalls
    simp
  · intro n c h
    simp only [loadCalls, List.mem_cons, List.not_mem_nil, or_false, reduceCtorEq, false_or, Circuit.Call.coupleResonator.injEq] at h
    obtain ⟨rfl, rfl⟩ := h
    rw [show frequencyName 1 = "f1r" by decide +kernel, show impedanceName 1 = "Z1r" by decide +kernel]
    exact ⟨hf, hz⟩

/-- The basis. -/
def loadCfg : Fin (nodes loadGraph).length → NodeCfg := fun _ => ⟨2, .oscillator⟩

/-- The values that are set. -/
def loadArgs : List BulkArg := [.dict [("C", .int 1), ("L", .int 1), ("Cc", .int 1), ("f1r", .int 1), ("Z1r", .int 1)]]

/-- The values. -/
def loadVal (n : String) : ℚ := if n = "C1r" ∨ n = "L1r" then 7 / 44 else 1

/-- The parameters of the symbolic system. -/
def loadPC : PC Ast :=
  (systemParameters Ast.engine Ast.coupledArith Orc.id someRes false loadGraph).toOption.getD { coll := [], symMap := [], parz := [], graph := { nodes := [], edges := [] } }

/-- The numerical system. -/
def loadNew : NS Ast LcRes (BigNode loadCfg) :=
  { sw := { pc := (symbolicExpressions Ast.engine Ast.coupledArith loadGraph loadBiases loadPC).1 },
    exprs := ((symbolicExpressions Ast.engine Ast.coupledArith loadGraph loadBiases loadPC).2).toOption.getD fun _ => [], nodes := nodes loadGraph }

theorem loadNew_expr : ∃ e, (symbolicExpressions Ast.engine Ast.coupledArith loadGraph loadBiases loadPC).2 = .ok e :=
  ⟨_, ok_eq (d := fun _ => []) (by decide +kernel)⟩

theorem loadNew_eq : numericalSystem Ast.engine Ast.coupledArith loadGraph loadBiases loadPC = .ok loadNew := by
  obtain ⟨e, he⟩ := loadNew_expr
  unfold numericalSystem loadNew
  rw [he]
  rw [show symbolicExpressions Ast.engine Ast.coupledArith loadGraph loadBiases loadPC =
    ((symbolicExpressions Ast.engine Ast.coupledArith loadGraph loadBiases loadPC).1, .ok e) from Prod.ext rfl he]
  rfl

/-- The system after `configureOperator(1, 2, "oscillator")`. -/
def loadUsed : NS Ast LcRes (BigNode loadCfg) := (loadNew.configureOperator Ast.engine lcFreq lcImp 1 2 .oscillator).1

/-- The parameters when the values are set. -/
def loadPC₂ : PC Ast := (loadUsed.sw.pc.setParameterValues Ast.engine .id 20 loadArgs).1

/-- The numbers afterwards. -/
def loadNum₂ : Dict Attr (List PF) :=
  (NS.assignNumbers Ast.engine loadUsed.exprs (loadPC₂.getSymbolValuesDict.toOption.getD []) NS.substituteOrder loadUsed.num).1

theorem load_gen (ops : ∀ i, Option PF → Except Err (NodeOps (loadCfg i).dim)) (hops : ∀ i z, ∃ o, ops i z = .ok o) (z : PF) :
    ∃ N, genOf loadGraph loadCfg ops [(2, .oscillator)] 1 (some z) = .ok N := by
  obtain ⟨o, ho⟩ := hops ⟨0, by decide +kernel⟩ (some z)
  obtain ⟨N, hN⟩ := expandNode_standard (cfg := loadCfg) (fun _ => Or.inr rfl) ⟨0, by decide +kernel⟩ o
  refine ⟨N, ?_⟩
  unfold genOf
  rw [if_pos (by decide +kernel)]
  have : nodeIndex loadGraph 1 = some ⟨0, by decide +kernel⟩ := by decide +kernel
  rw [this]
  simp only [ho, hN]

theorem loadUsed_set (ops : ∀ i, Option PF → Except Err (NodeOps (loadCfg i).dim)) (hops : ∀ i z, ∃ o, ops i z = .ok o) :
    ∃ N, loadUsed.setParameterValues Ast.engine .id 20 (genOf loadGraph loadCfg ops) loadArgs =
      ({ loadUsed with sw := { loadUsed.sw with pc := loadPC₂ }, num := loadNum₂, circ := loadUsed.circ.set 1 N, vec := some [N] }, .ok ()) := by
  obtain ⟨N, hN⟩ := load_gen ops hops (.fin 1)
  refine ⟨N, set_one Ast.engine .id 20 _ loadUsed loadArgs (c := ⟨2, .oscillator, some (lcImp 1)⟩) (z := .fin 1) (Prod.ext rfl (by decide +kernel)) (by decide +kernel)
    (ok_eq (d := []) (by decide +kernel)) (Prod.ext rfl (by decide +kernel)) (by decide +kernel) (by decide +kernel) rfl (by decide +kernel) hN⟩

/-- The hypotheses of `C104_symbolic_partial` and of `C104_hamiltonian_partial` are met by the circuit with the resonator, with any operators of the node. -/
example (u : Prefs) (ops : ∀ i, Option PF → Except Err (NodeOps (loadCfg i).dim)) (hops : ∀ i z, ∃ o, ops i z = .ok o) {P X V R : Type}
    (base : Phys (BigNode loadCfg) (BigOp loadCfg) P X V R) :
    Settled loadCalls loadGraph ∧ AllOk loadCalls ∧ LoadedNetlist loadCalls ∧ KeepsResonators loadCalls ∧ PlainNames loadCalls ∧
    (nodes loadGraph).length ≤ 111 ∧ (∀ x ∈ loadCalls, ∀ k, Declares x k → ¬ Reserved k) ∧ createFluxBiases loadGraph = .ok loadBiases ∧
    LoadedLaws Ast.engine Ast.lawful Ast.coupledArith ∧ ResonatorLaws Ast.engine Ast.lawful someRes (22 / 7) ∧ (0 : ℚ) < 22 / 7 ∧
    systemParameters Ast.engine Ast.coupledArith Orc.id someRes false loadGraph = .ok loadPC ∧
    (∃ pc exprs, symbolicExpressions Ast.engine Ast.coupledArith loadGraph loadBiases loadPC = (pc, .ok exprs)) ∧
    ∃ st₀ st st' : NS Ast LcRes (BigNode loadCfg), numericalSystem Ast.engine Ast.coupledArith loadGraph loadBiases loadPC = .ok st₀ ∧
      Used Ast.engine (circuitPhys loadGraph u loadCfg ops base).gen lcFreq lcImp st₀ st ∧
      st.setParameterValues Ast.engine .id 20 (circuitPhys loadGraph u loadCfg ops base).gen loadArgs = (st', .ok ()) ∧ ValuesOf loadCalls st'.sw.pc loadVal ∧
      LoadedValues loadCalls loadVal ∧ loadVal (resonatorName 1) = 7 / 44 := by
  obtain ⟨N, hN⟩ := loadUsed_set ops hops
  obtain ⟨e, he⟩ := loadNew_expr
  refine ⟨load_settled, load_ok, load_netlist, load_keeps, load_plain, by decide +kernel, ?_, load_biases, Ast.loaded_laws, some_laws, by norm_num,
    ok_eq (by decide +kernel), ⟨_, e, Prod.ext rfl he⟩,
    loadNew, loadUsed, _, loadNew_eq, .configure 1 2 .oscillator .start (Prod.ext rfl (by decide +kernel)), hN, ?_,
    load_values _ (by decide +kernel) (by decide +kernel) (by decide +kernel) (by decide +kernel) (by decide +kernel) (by decide +kernel), by decide +kernel⟩
  · intro x hx k hd
    refine load_declares (P := fun k => ¬ Reserved k) (fun h => absurd (reserved_len h) (by decide)) (fun h => absurd (reserved_len h) (by decide)) ?_ x k hx hd
    intro k hk h
    obtain ⟨c, h1, h2⟩ := reserved_last h
    have : ∀ k ∈ resonatorNames 1 "Cc", ∀ c, k.toList.getLast? = some c → ¬ (c.isDigit = true ∨ c = 'i') := by
      have h0 : ∀ k ∈ resonatorNames 1 "Cc", k.toList.getLast? = some 'c' ∨ k.toList.getLast? = some 'r' ∨ k.toList.getLast? = some 'l' := by decide +kernel
      intro k hk c hc
      rcases h0 k hk with h | h | h <;> rw [h] at hc <;> cases hc <;> decide
    exact this k hk c h1 h2
  · refine load_declares (P := fun n => loadPC₂.getParameterValue n = .ok (some (.fin (loadVal n)))) (by decide +kernel) (by decide +kernel) ?_
    decide +kernel

end Verif.Props
