import Verif.Props.LoadedSweep
import Verif.Props.LoadedUseExamples
import Verif.Props.SweepUseExamples

/-!
# A sweep that meets the hypotheses of the theorems in `LoadedSweep`
-/

namespace Verif.Props

open Verif Verif.Spec Verif.PC Verif.Num Verif.Sym Verif.Circuit Verif.Derived

theorem load_computed {k : String} (h : Computed loadCalls k) : k ∈ resonatorComputed 1 := by
  obtain ⟨n, c, hm, hk⟩ := h
  simp only [loadCalls, List.mem_cons, List.not_mem_nil, or_false, reduceCtorEq, false_or, Circuit.Call.coupleResonator.injEq] at hm
  obtain ⟨rfl, rfl⟩ := hm
  exact hk

/-- The frequency and the impedance of the resonator. -/
def resEnv (f : ℚ) (s : Verif.Sym) : PF := if s = "f_{1r}" then .fin f else .fin 1

/-- The parameter `k` has an expression in the frequency and the impedance of the resonator, with the value `x`. -/
def exprGood (pc : PC Ast) (f : ℚ) (k : String) (ex : Ast) (x : ℚ) : Prop :=
  pc.getParametricExpression Ast.engine 0 k false = .ok ex ∧ (∀ s ∈ Ast.engine.free ex, s = "f_{1r}" ∨ s = "Z_{1r}") ∧ Ast.engine.free ex ≠ [] ∧
  Ast.eval (resEnv f) ex = some (.fin x) ∧ (pc.coll.get? k).any (fun p => decide ((p.setValue (.float (.fin x))).2 = .ok ())) = true

instance (pc : PC Ast) (f : ℚ) (k : String) (ex : Ast) (x : ℚ) : Decidable (exprGood pc f k ex x) := by unfold exprGood; infer_instance

/-- The resonator has the frequency `f` and the impedance 1. -/
def resGood (pc : PC Ast) (f : ℚ) : Prop :=
  "f1r" ∉ pc.getParametricParametersList ∧ "Z1r" ∉ pc.getParametricParametersList ∧ pc.getSymbol "f1r" = .ok "f_{1r}" ∧ pc.getSymbol "Z1r" = .ok "Z_{1r}" ∧
  pc.getParameterValue "f1r" = .ok (some (.fin f)) ∧ pc.getParameterValue "Z1r" = .ok (some (.fin 1)) ∧
  exprGood pc f "C1r" (.inv (.mul (.mul (.lit (.fin (2 * (22 / 7)))) (.sym "f_{1r}")) (.sym "Z_{1r}"))) (2 * (22 / 7) * f * 1)⁻¹ ∧
  exprGood pc f "L1r" (.mul (.sym "Z_{1r}") (.inv (.mul (.lit (.fin (2 * (22 / 7)))) (.sym "f_{1r}")))) (1 * (2 * (22 / 7) * f)⁻¹) ∧
  exprGood pc f "f1rl" (.sym "f_{1r}") f ∧ exprGood pc f "Z1rl" (.sym "Z_{1r}") 1 ∧ exprGood pc f "g1r" (.sym "f_{1r}") f

instance (pc : PC Ast) (f : ℚ) : Decidable (resGood pc f) := by unfold resGood; infer_instance

theorem res_good {pc : PC Ast} {f : ℚ} (h : resGood pc f) : ResonatorsDefined Ast.engine Ast.lawful loadCalls pc := by
  obtain ⟨h1, h2, h3, h4, h5, h6, e1, e2, e3, e4, e5⟩ := h
  have key : ∀ k ex x, exprGood pc f k ex x → ∃ f, HasSource Ast.engine pc k ∧ Computable Ast.engine Ast.lawful pc k f := by
    rintro k ex x ⟨g1, g2, g3, g4, g5⟩
    refine ⟨.fin x, ?_, ⟨.fin x, ?_, rfl, admits_of g5⟩⟩
    · obtain ⟨s, hs⟩ := List.exists_mem_of_ne_nil _ g3
      rcases g2 s hs with rfl | rfl
      · exact ⟨"f1r", h1, Relation.TransGen.single ⟨ex, _, g1, h3, hs⟩⟩
      · exact ⟨"Z1r", h2, Relation.TransGen.single ⟨ex, _, g1, h4, hs⟩⟩
    · refine Denotes.parametric k ex (resEnv f) (fun s => if s = "f_{1r}" then "f1r" else "Z1r") _ g1 ?_ ?_ g4
      · intro s hs
        rcases g2 s hs with rfl | rfl
        · exact h3
        · exact h4
      · intro s hs
        rcases g2 s hs with rfl | rfl
        · exact Denotes.independent "f1r" (.fin f) h1 h5
        · exact Denotes.independent "Z1r" (.fin 1) h2 h6
  intro k hk
  have hk' : k = "C1r" ∨ k = "L1r" ∨ k = "f1rl" ∨ k = "Z1rl" ∨ k = "g1r" := by
    have : ∀ k ∈ resonatorComputed 1, k = "C1r" ∨ k = "L1r" ∨ k = "f1rl" ∨ k = "Z1rl" ∨ k = "g1r" := by decide +kernel
    exact this k (load_computed hk)
  rcases hk' with rfl | rfl | rfl | rfl | rfl
  · exact key _ _ _ e1
  · exact key _ _ _ e2
  · exact key _ _ _ e3
  · exact key _ _ _ e4
  · exact key _ _ _ e5

/-! ### The frequency of the resonator -/

theorem load_terms (u : Prefs) (x : Attr → List ℚ) (i : Fin (edges loadGraph).length) : (readSys loadGraph u x).terms i ≠ [] := by
  have hi : (((edges loadGraph).get i).1 = 0 ∧ ((edges loadGraph).get i).2.1 = 1) ∨ (((edges loadGraph).get i).1 = 1 ∧ ((edges loadGraph).get i).2.1 = 0) := by
    have := List.get_mem (edges loadGraph) i
    generalize (edges loadGraph).get i = e at this ⊢
    have key : ∀ e ∈ edges loadGraph, (e.1 = 0 ∧ e.2.1 = 1) ∨ (e.1 = 1 ∧ e.2.1 = 0) := by decide +kernel
    exact key e this
  simp only [readSys, branchTerms]
  have hl : (nodes loadGraph).length = 1 := by decide +kernel
  have hidx : (nodes loadGraph).idxOf 1 = 0 := by decide +kernel
  rcases hi with ⟨h1, h2⟩ | ⟨h1, h2⟩ <;> rw [h1, h2] <;> simp [hl, hidx]

/-- The Hamiltonian of the circuit exists at all numbers. -/
theorem load_ham (u : Prefs) (N : BigNode loadCfg) {num : Attr → Option (List PF)} {x : Attr → List ℚ} (hx : readAttrs num = .ok x) :
    ∃ h, hamiltonianOf loadGraph u loadCfg num (Dict.get? ([(1, N)] : Dict ℕ (BigNode loadCfg))) (some [N]) = .ok h := by
  have hc : (nodes loadGraph).mapM (Dict.get? ([(1, N)] : Dict ℕ (BigNode loadCfg))) = some [N] := by
    have key : ∀ (l : List ℕ), l = [1] → l.mapM (Dict.get? ([(1, N)] : Dict ℕ (BigNode loadCfg))) = some [N] := by rintro l rfl; rfl
    exact key _ (by decide +kernel)
  have hl : (nodes loadGraph).length = 1 := by decide +kernel
  unfold hamiltonianOf
  simp only [hx, hc]
  rw [dif_pos (by simp [hl])]
  unfold hamiltonian
  rw [branchSum_spec, branchSum_spec, if_pos, if_pos]
  · exact ⟨_, rfl⟩
  · intro b hb
    obtain ⟨i, -, rfl⟩ := List.mem_map.1 hb
    exact load_terms u x i
  · intro b hb
    obtain ⟨i, -, rfl⟩ := List.mem_map.1 hb
    exact load_terms u x i

/-- `paramSweep` of the frequency of the resonator from 1 to 2, at three points. -/
def sweepF : List SweepSpec := [⟨"f1r", .int 1, .int 2, .int 3⟩]

/-- The values in the middle of the sweep. -/
def loadMid (n : String) : ℚ := if n = "C1r" ∨ n = "L1r" then 7 / 66 else if n = "f1r" ∨ n = "f1rl" ∨ n = "g1r" then 3 / 2 else 1

/-- The circuit after the values are set. -/
noncomputable def loadSet (N : BigNode loadCfg) : NS Ast LcRes (BigNode loadCfg) :=
  { loadUsed with sw := { loadUsed.sw with pc := loadPC₂ }, num := loadNum₂, circ := loadUsed.circ.set 1 N, vec := some [N] }

/-- The same system without operators, before the sweep. -/
def loadSetBare : NS Ast LcRes Unit :=
  { sw := { loadUsed.sw with pc := loadPC₂ }, exprs := loadUsed.exprs, pre := loadUsed.pre, num := loadNum₂, nodes := loadUsed.nodes, cfg := loadUsed.cfg, regen := loadUsed.regen, specs := sweepF,
    evals := [] }

/-- The sweeper in the sweep. -/
def loadUsedSW : SW Ast LcRes := (loadSetBare.sw.ndSweep sweepF).1

/-- The parameters at one and a half. -/
def loadLater : PC Ast := (loadUsedSW.pc.setParameterValues Ast.engine .id 20 (pointArg (at1 "f1r" (3/2)))).1

theorem load_bare :
    (({ loadSetBare with sw := (loadSetBare.sw.ndSweep loadSetBare.specs).1, evals := [hamEntry] } : NS Ast LcRes Unit).presub Ast.engine .id).1.regen = [] ∧
    ∀ gv, (paramSweep (Q := LcRes) Ast.engine .id 20 barePhys gv loadSetBare).2.2 = .ok () := by
  decide +kernel

theorem load_before : oscGood loadPC₂ ∧ resGood loadPC₂ 1 ∧ loadPC₂.getParameterValue "C" = .ok (some (.fin (loadVal "C"))) ∧
    loadPC₂.getParameterValue "L" = .ok (some (.fin (loadVal "L"))) ∧
    ∀ n ∈ resonatorNames 1 "Cc", loadPC₂.getParameterValue n = .ok (some (.fin (loadVal n))) := by
  decide +kernel

/-- How the value of a parameter at the point is found. -/
def midOf (n : String) : Prop := n ∉ resonatorComputed 1 → (at1 "f1r" (3/2)).get? n = some (.fin (loadMid n)) ∨
  ((at1 "f1r" (3/2)).get? n = none ∧ loadUsedSW.pc.getParameterValue n = .ok (some (.fin (loadMid n))))

instance (n : String) : Decidable (midOf n) := by unfold midOf; infer_instance

theorem load_swept : (loadSetBare.sw.ndSweep sweepF).2 = .ok () ∧
    (∀ s ∈ sweepF, ∀ p ∈ (loadUsedSW.pc.coll.get? s.name).toList, ∀ x ∈ p.sweep, (match x with | PF.fin _ => true | _ => false) = true) ∧
    (∀ p ∈ loadUsedSW.pc.symMap, p.2 = "C_{}" ∨ p.2 = "L_{}" → p.1 = "C" ∨ p.1 = "L") ∧ (loadUsedSW.pc.getParameterisationParameters "C").toOption.getD [] = [] ∧
    (loadUsedSW.pc.getParameterisationParameters "L").toOption.getD [] = [] ∧ midOf "C" ∧ midOf "L" ∧ ∀ n ∈ resonatorNames 1 "Cc", midOf n := by
  decide +kernel

theorem load_later : oscGood loadLater ∧ resGood loadLater (3 / 2) ∧ (∀ n ∈ resonatorComputed 1, loadLater.getParameterValue n = .ok (some (.fin (loadMid n)))) ∧
    (loadUsedSW.pc.setParameterValues Ast.engine .id 20 (pointArg (at1 "f1r" (3/2)))).2 = .ok () ∧ loadLater.allParametersSet = true ∧
    loadLater.getSymbolValuesDict.toOption.isSome = true ∧
    (NS.assignNumbers Ast.engine loadUsed.exprs (loadLater.getSymbolValuesDict.toOption.getD []) NS.substituteOrder loadNum₂).2 = .ok () ∧
    loadLater.getParameterValue (NS.zName 1) = .ok (some (.fin 1)) := by
  decide +kernel

/-- The hypotheses of `C104_levels_partial` about the circuit and its use are those of `C104_hamiltonian_partial`.  Its hypotheses about the sweep are met
by a sweep of the frequency of the resonator at three points, for any operators and any eigensolver that does not fail.  `C104_levels_stored_partial` asks for less. -/
example (u : Prefs) (ops : ∀ i, Option PF → Except Err (NodeOps (loadCfg i).dim)) (hops : ∀ i z, ∃ o, ops i z = .ok o) (gv : Bool)
    (base : Phys (BigNode loadCfg) (BigOp loadCfg) PF PF PF PF) (hsolve : ∀ h, ∃ r, base.solve h = .ok r) :
    ∃ (st st' : NS Ast LcRes (BigNode loadCfg)) (sw : SW Ast LcRes) (files : List (SW.Pickled LcRes)),
      Used Ast.engine (circuitPhys loadGraph u loadCfg ops base).gen lcFreq lcImp loadNew loadUsed ∧
      loadUsed.setParameterValues Ast.engine .id 20 (circuitPhys loadGraph u loadCfg ops base).gen loadArgs = (st, .ok ()) ∧
      ValuesOf loadCalls st.sw.pc loadVal ∧ LoadedValues loadCalls loadVal ∧ OscillatorsDefined Ast.engine Ast.lawful st.sw.pc ∧
      ResonatorsDefined Ast.engine Ast.lawful loadCalls st.sw.pc ∧
      (∀ k ∈ sweptNames sweepF, (∃ c ∈ loadCalls, Declares c k) ∧ ¬ Computed loadCalls k) ∧ (sweptNames sweepF).Nodup ∧ (sizes sweepF).prod ≠ 0 ∧
      st.sw.ndSweep sweepF = (sw, .ok ()) ∧ FiniteSweeps sw sweepF ∧
      (∀ node c n s, st.cfg.get? node = some c → c.basis = .oscillator → sw.pc.getSymbol n = .ok s → s ∈ Ast.engine.free (lcImp node) →
        ¬ Affected sw.pc (sweptNames sweepF) n) ∧
      paramSweep Ast.engine .id 20 (circuitPhys loadGraph u loadCfg ops base) gv { st with specs := sweepF, evals := [] } = (st', files, .ok ()) ∧
      sweepF[0]? = some ⟨"f1r", .int 1, .int 2, .int 3⟩ ∧ StaticsFor sweepF ["f1r"] [] ∧
      LoadedValues loadCalls loadMid ∧
      ∃ stF, NS.setParameterValues Ast.engine .id 20 (circuitPhys loadGraph u loadCfg ops base).gen { st with specs := sweepF, evals := [], sw := sw }
        (pointArg (at1 "f1r" (3/2))) = (stF, .ok ()) ∧ OscillatorsDefined Ast.engine Ast.lawful stF.sw.pc ∧
        ResonatorsDefined Ast.engine Ast.lawful loadCalls stF.sw.pc ∧ LoadedPoint loadCalls sw.pc stF.sw.pc (at1 "f1r" (3/2)) loadMid := by
  obtain ⟨N, hN⟩ := loadUsed_set ops hops
  obtain ⟨N', hN'⟩ := load_gen ops hops (.fin 1)
  have hcfg : loadUsed.cfg = [(1, ⟨2, .oscillator, some (lcImp 1)⟩)] := by decide +kernel
  have hrun : (paramSweep Ast.engine .id 20 (circuitPhys loadGraph u loadCfg ops base) gv { loadSet N with specs := sweepF, evals := [] }).2.2 = .ok () := by
    refine paramSweep_bare Ast.engine .id 20 _ gv _ loadSetBare rfl rfl ?_ load_bare.1 (load_bare.2 gv)
    intro num x hx
    obtain ⟨h, hh⟩ := load_ham u N hx
    obtain ⟨r, hr⟩ := hsolve h
    exact ⟨h, r, hh, hr⟩
  refine ⟨loadSet N, _, loadUsedSW, _, .configure 1 2 .oscillator .start (Prod.ext rfl (by decide +kernel)), hN, ?_, load_values _ (by decide +kernel) (by decide +kernel) (by decide +kernel) (by decide +kernel) (by decide +kernel) (by decide +kernel),
    osc_good load_before.1, res_good load_before.2.1, ?_, by decide +kernel, by decide +kernel, Prod.ext rfl load_swept.1, ?_, ?_,
    Prod.ext rfl (Prod.ext rfl hrun), rfl, ?_, load_values _ (by decide +kernel) (by decide +kernel) (by decide +kernel) (by decide +kernel) (by decide +kernel) (by decide +kernel), ?_⟩
  · exact load_declares (P := fun n => loadPC₂.getParameterValue n = .ok (some (.fin (loadVal n)))) load_before.2.2.1 load_before.2.2.2.1 load_before.2.2.2.2
  · intro k hk
    have : k = "f1r" := by simpa [sweepF, sweptNames] using hk
    subst this
    exact ⟨⟨.coupleResonator 1 "Cc", by simp [loadCalls], .resonator 1 "Cc" "f1r" (by decide +kernel)⟩, fun h => absurd (load_computed h) (by decide +kernel)⟩
  · intro s hs p hp x hx
    have := load_swept.2.1 s hs p (by rw [hp]; simp) x hx
    cases x <;> simp_all
  · intro node c n s hc hb hs hfree
    have hc' : loadUsed.cfg.get? node = some c := hc
    rw [hcfg, Dict.get?_cons] at hc'
    split_ifs at hc' with h1
    · subst h1
      exact imp_unaffected (x := "f1r") (by decide) load_swept.2.2.1 load_swept.2.2.2.1 load_swept.2.2.2.2.1 n s hs hfree
    · simp at hc'
  · refine ⟨by simp, ?_, by simp⟩
    intro k
    simp [sweepF, sweptNames]
  · have hset := set_one Ast.engine .id 20 (genOf loadGraph loadCfg ops) ({ loadSet N with specs := sweepF, evals := [], sw := loadUsedSW } : NS Ast LcRes (BigNode loadCfg))
      (pointArg (at1 "f1r" (3/2))) (pc' := loadLater) (d := (loadLater.getSymbolValuesDict.toOption.getD []))
      (num' := (NS.assignNumbers Ast.engine loadUsed.exprs (loadLater.getSymbolValuesDict.toOption.getD []) NS.substituteOrder loadNum₂).1) (node := 1)
      (c := ⟨2, .oscillator, some (lcImp 1)⟩) (z := .fin 1) (o := N') (Prod.ext rfl load_later.2.2.2.1) load_later.2.2.2.2.1
      (ok_eq (d := []) load_later.2.2.2.2.2.1) (Prod.ext rfl load_later.2.2.2.2.2.2.1) (by show loadUsed.nodes = _; decide +kernel)
      (by show loadUsed.cfg.get? 1 = _; rw [hcfg]; rfl) rfl load_later.2.2.2.2.2.2.2 hN'
    refine ⟨_, hset, osc_good load_later.1, res_good load_later.2.1, ?_, fun n hn => load_later.2.2.1 n (load_computed hn)⟩
    intro c n hc hd hcomp
    exact load_declares (P := midOf) load_swept.2.2.2.2.2.1 load_swept.2.2.2.2.2.2.1 load_swept.2.2.2.2.2.2.2 c n hc hd
      (fun h => hcomp ⟨1, "Cc", by simp [loadCalls], h⟩)

end Verif.Props
