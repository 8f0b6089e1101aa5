import Verif.Props.SweepUse
import Verif.Props.ExpressionExamples
import Verif.Props.MutualUseExamples

/-!
# Sweeps that meet the hypotheses of the theorems in `SweepUse`
-/

namespace Verif.Props

open Verif Verif.Spec Verif.PC Verif.Num Verif.Sym Verif.Circuit Verif.Derived

/-- The oscillator of node 1 has the frequency and the impedance of `C` and `L`, both 1, and there is no other. -/
def oscGood (pc : PC Ast) : Prop :=
  (∀ k ∈ pc.getParametricParametersList, k.toList.take 2 = ['f', 'o'] ∨ k.toList.take 2 = ['Z', 'o'] → k = "fosc1" ∨ k = "Zosc1") ∧
  "C" ∉ pc.getParametricParametersList ∧ "L" ∉ pc.getParametricParametersList ∧
  pc.getParametricExpression Ast.engine 0 "fosc1" false = .ok (lcFreq 1) ∧ pc.getParametricExpression Ast.engine 0 "Zosc1" false = .ok (lcImp 1) ∧
  pc.getSymbol "C" = .ok "C_{}" ∧ pc.getSymbol "L" = .ok "L_{}" ∧
  pc.getParameterValue "C" = .ok (some (.fin 1)) ∧ pc.getParameterValue "L" = .ok (some (.fin 1)) ∧
  (pc.coll.get? "fosc1").any (fun p => decide ((p.setValue (.float (.fin 1))).2 = .ok ())) = true ∧
  (pc.coll.get? "Zosc1").any (fun p => decide ((p.setValue (.float (.fin 1))).2 = .ok ())) = true

instance (pc : PC Ast) : Decidable (oscGood pc) := by unfold oscGood; infer_instance

theorem osc_good {pc : PC Ast} (h : oscGood pc) : OscillatorsDefined Ast.engine Ast.lawful pc := by
  obtain ⟨h1, hC, hL, h2, h3, h4, h5, h6, h7, h8, h9⟩ := h
  intro node k hk hp
  have hkey : ∀ (ex : Ast), pc.getParametricExpression Ast.engine 0 k false = .ok ex → (∀ x ∈ Ast.engine.free ex, x = "C_{}" ∨ x = "L_{}") →
      "C_{}" ∈ Ast.engine.free ex → Ast.lawful.eval (fun _ => .fin 1) ex = some (.fin 1) →
      (pc.coll.get? k).any (fun p => decide ((p.setValue (.float (.fin 1))).2 = .ok ())) = true →
      ∃ x, HasSource Ast.engine pc k ∧ Computable Ast.engine Ast.lawful pc k x := by
    intro ex g1 g2 g3 g4 g5
    refine ⟨.fin 1, ⟨"C", hC, Relation.TransGen.single ⟨ex, "C_{}", g1, h4, g3⟩⟩, ⟨.fin 1, ?_, rfl, admits_of g5⟩⟩
    refine Denotes.parametric k ex (fun _ => .fin 1) (fun s => if s = "C_{}" then "C" else "L") _ g1 ?_ ?_ g4
    · intro s hs
      rcases g2 s hs with rfl | rfl
      · exact h4
      · exact h5
    · intro s hs
      rcases g2 s hs with rfl | rfl
      · exact Denotes.independent "C" (.fin 1) hC h6
      · exact Denotes.independent "L" (.fin 1) hL h7
  have hhead : k.toList.take 2 = ['f', 'o'] ∨ k.toList.take 2 = ['Z', 'o'] := by
    rcases hk with rfl | rfl
    · left; unfold NS.fName; simp
    · right; unfold NS.zName; simp
  rcases h1 k hp hhead with rfl | rfl
  · exact hkey _ h2 (by decide +kernel) (by decide +kernel) (by decide +kernel) h8
  · exact hkey _ h3 (by decide +kernel) (by decide +kernel) (by decide +kernel) h9

/-- The impedance does not depend on a parameter if neither `C` nor `L` does. -/
theorem imp_unaffected {pc : PC Ast} {x : String} (hx : x ≠ "C" ∧ x ≠ "L") (hm : ∀ p ∈ pc.symMap, p.2 = "C_{}" ∨ p.2 = "L_{}" → p.1 = "C" ∨ p.1 = "L")
    (hC : (pc.getParameterisationParameters "C").toOption.getD [] = []) (hL : (pc.getParameterisationParameters "L").toOption.getD [] = [])
    (n : String) (s : Verif.Sym) (hs : pc.getSymbol n = .ok s) (hfree : s ∈ Ast.engine.free (lcImp 1)) : ¬ Affected pc [x] n := by
  intro haff
  have hn : n = "C" ∨ n = "L" := by
    have hf : s = "C_{}" ∨ s = "L_{}" := by
      have : Ast.engine.free (lcImp 1) = ["C_{}", "L_{}"] := by decide +kernel
      rw [this] at hfree
      simpa using hfree
    unfold PC.getSymbol at hs
    split at hs
    · cases hs
    · rename_i s' hs'
      cases hs
      exact hm _ (Dict.mem_of_get? hs') hf
  have hno : ∀ m x, (m = "C" ∨ m = "L") → ¬ RecordedDep pc m x := by
    rintro m x (rfl | rfl) ⟨names, h1, h2⟩
    · rw [h1] at hC; have : names = [] := hC; rw [this] at h2; simp at h2
    · rw [h1] at hL; have : names = [] := hL; rw [this] at h2; simp at h2
  obtain ⟨k, hk, hk'⟩ := haff
  rw [List.mem_singleton] at hk
  subst hk
  rcases hk' with rfl | hk'
  · rcases hn with h | h
    · exact hx.1 h
    · exact hx.2 h
  · rcases Relation.TransGen.head'_iff.1 hk' with ⟨x, hx, _⟩
    exact hno n x hn hx

/-! ### The flux of the rf SQUID -/

/-- The rf SQUID after the values are set. -/
noncomputable def rfSet (N : BigNode rfCfg) : NS Ast LcRes (BigNode rfCfg) :=
  { rfUsed with sw := { rfUsed.sw with pc := rfPC₂ }, num := rfNum₂, circ := rfUsed.circ.set 1 N, vec := some [N] }

/-- The same system without operators, before the sweep. -/
def rfSetBare : NS Ast LcRes Unit :=
  { sw := { rfUsed.sw with pc := rfPC₂ }, exprs := rfUsed.exprs, pre := rfUsed.pre, num := rfNum₂, nodes := rfUsed.nodes, cfg := rfUsed.cfg, regen := rfUsed.regen, specs := sweepPhi,
    evals := [] }

/-- The sweeper in the sweep. -/
def rfUsedSW : SW Ast LcRes := (rfSetBare.sw.ndSweep sweepPhi).1

/-- The parameters at one half of a flux quantum. -/
def rfHalf : PC Ast := (rfUsedSW.pc.setParameterValues Ast.engine .id 10 (pointArg (at1 "phie" (1/2)))).1

/-- The hypotheses of `C102_levels_partial` about the circuit and its use are those of `C102_hamiltonian_partial`.  Its hypotheses about the sweep are met
by a sweep of the flux of the rf SQUID at three points, for any operators and any eigensolver that does not fail.  `C102_levels_stored_partial` asks for less. -/
example (u : Prefs) (ops : ∀ i, Option PF → Except Err (NodeOps (rfCfg i).dim)) (hops : ∀ i z, ∃ o, ops i z = .ok o) (gv : Bool)
    (base : Phys (BigNode rfCfg) (BigOp rfCfg) PF PF PF PF) (hsolve : ∀ h, ∃ r, base.solve h = .ok r) :
    ∃ (st st' : NS Ast LcRes (BigNode rfCfg)) (sw : SW Ast LcRes) (files : List (SW.Pickled LcRes)),
      Used Ast.engine (circuitPhys rfGraph u rfCfg ops base).gen lcFreq lcImp rfNew rfUsed ∧
      rfUsed.setParameterValues Ast.engine .id 10 (circuitPhys rfGraph u rfCfg ops base).gen rfArgs = (st, .ok ()) ∧
      ValuesOf rfCalls st.sw.pc (rfVal 0) ∧ PhysicalValues rfCalls (rfVal 0) ∧ OscillatorsDefined Ast.engine Ast.lawful st.sw.pc ∧
      (∀ k ∈ sweptNames sweepPhi, ∃ c ∈ rfCalls, Declares c k) ∧ (sweptNames sweepPhi).Nodup ∧ (sizes sweepPhi).prod ≠ 0 ∧
      st.sw.ndSweep sweepPhi = (sw, .ok ()) ∧ FiniteSweeps sw sweepPhi ∧
      (∀ node c n s, st.cfg.get? node = some c → c.basis = .oscillator → sw.pc.getSymbol n = .ok s → s ∈ Ast.engine.free (lcImp node) →
        ¬ Affected sw.pc (sweptNames sweepPhi) n) ∧
      paramSweep Ast.engine .id 10 (circuitPhys rfGraph u rfCfg ops base) gv { st with specs := sweepPhi, evals := [] } = (st', files, .ok ()) ∧
      sweepPhi[0]? = some ⟨"phie", .int 0, .int 1, .int 3⟩ ∧ StaticsFor sweepPhi ["phie"] [] ∧
      PointValues rfCalls sw.pc (at1 "phie" (1/2)) (rfVal (1/2)) ∧ PhysicalValues rfCalls (rfVal (1/2)) ∧
      ∃ stF, NS.setParameterValues Ast.engine .id 10 (circuitPhys rfGraph u rfCfg ops base).gen { st with specs := sweepPhi, evals := [], sw := sw }
        (pointArg (at1 "phie" (1/2))) = (stF, .ok ()) ∧ OscillatorsDefined Ast.engine Ast.lawful stF.sw.pc := by
  obtain ⟨N, hN⟩ := rfUsed_set ops hops
  obtain ⟨N', hN'⟩ := rf_gen ops hops (.fin 1)
  have hcfg : rfUsed.cfg = [(1, ⟨2, .oscillator, some (lcImp 1)⟩)] := by decide +kernel
  have hrun : (paramSweep Ast.engine .id 10 (circuitPhys rfGraph u rfCfg ops base) gv { rfSet N with specs := sweepPhi, evals := [] }).2.2 = .ok () := by
    refine paramSweep_bare Ast.engine .id 10 _ gv _ rfSetBare rfl rfl ?_ (by decide +kernel) (by cases gv <;> decide +kernel)
    intro num x hx
    obtain ⟨h, hh⟩ := rf_hamiltonian u N hx
    obtain ⟨r, hr⟩ := hsolve h
    exact ⟨h, r, hh, hr⟩
  refine ⟨rfSet N, _, rfUsedSW, _, .configure 1 2 .oscillator .start (Prod.ext rfl (by decide +kernel)), hN, ?_, rf_physical _ (by decide +kernel) (by decide +kernel),
    osc_good (pc := rfPC₂) (by decide +kernel), ?_, by decide +kernel, by decide +kernel, Prod.ext rfl (by show (rfSetBare.sw.ndSweep sweepPhi).2 = _; decide +kernel), ?_, ?_,
    Prod.ext rfl (Prod.ext rfl hrun), rfl, ?_, ?_, rf_physical _ (by decide +kernel) (by decide +kernel), ?_⟩
  · exact rf_declares (P := fun n => rfPC₂.getParameterValue n = .ok (some (.fin (rfVal 0 n)))) (by decide +kernel) (by decide +kernel) (by decide +kernel)
      (by decide +kernel)
  · intro k hk
    have : k = "phie" := by simpa [sweepPhi, sweptNames] using hk
    subst this
    exact ⟨.addFluxBias "L" (some "e") none, by simp [rfCalls], .flux "L" "e" none⟩
  · have key : ∀ s ∈ sweepPhi, ∀ p ∈ (rfUsedSW.pc.coll.get? s.name).toList, ∀ x ∈ p.sweep, (match x with | PF.fin _ => true | _ => false) = true := by
      decide +kernel
    intro s hs p hp x hx
    have := key s hs p (by rw [hp]; simp) x hx
    cases x <;> simp_all
  · intro node c n s hc hb hs hfree
    have hc' : rfUsed.cfg.get? node = some c := hc
    rw [hcfg, Dict.get?_cons] at hc'
    split_ifs at hc' with h1
    · subst h1
      exact imp_unaffected (x := "phie") (by decide) (by decide +kernel) (by decide +kernel) (by decide +kernel) n s hs hfree
    · simp at hc'
  · refine ⟨by simp, ?_, by simp⟩
    intro k
    simp [sweepPhi, sweptNames]
  · have hnp : ∀ n, n ∉ rfUsedSW.pc.getParametricParametersList → ¬ Parametric rfUsedSW.pc n := fun n h => h
    refine rf_declares (P := fun n => (at1 "phie" (1/2)).get? n = some (.fin (rfVal (1/2) n)) ∨ ((at1 "phie" (1/2)).get? n = none ∧ ¬ Parametric rfUsedSW.pc n ∧
      rfUsedSW.pc.getParameterValue n = .ok (some (.fin (rfVal (1/2) n))))) ?_ ?_ ?_ ?_
    · exact Or.inr ⟨by decide +kernel, hnp _ (by decide +kernel), by decide +kernel⟩
    · exact Or.inr ⟨by decide +kernel, hnp _ (by decide +kernel), by decide +kernel⟩
    · exact Or.inr ⟨by decide +kernel, hnp _ (by decide +kernel), by decide +kernel⟩
    · exact Or.inl (by decide +kernel)
  · have hset := set_one Ast.engine .id 10 (genOf rfGraph rfCfg ops) ({ rfSet N with specs := sweepPhi, evals := [], sw := rfUsedSW } : NS Ast LcRes (BigNode rfCfg))
      (pointArg (at1 "phie" (1/2))) (pc' := rfHalf) (d := (rfHalf.getSymbolValuesDict.toOption.getD []))
      (num' := (NS.assignNumbers Ast.engine rfUsed.exprs (rfHalf.getSymbolValuesDict.toOption.getD []) NS.substituteOrder rfNum₂).1) (node := 1)
      (c := ⟨2, .oscillator, some (lcImp 1)⟩) (z := .fin 1) (o := N') (Prod.ext rfl (by show (rfUsedSW.pc.setParameterValues _ _ _ _).2 = _; decide +kernel)) (by decide +kernel)
      (ok_eq (d := []) (by decide +kernel)) (Prod.ext rfl (by show (NS.assignNumbers Ast.engine rfUsed.exprs _ _ rfNum₂).2 = _; decide +kernel)) (by show rfUsed.nodes = _; decide +kernel)
      (by show rfUsed.cfg.get? 1 = _; decide +kernel) rfl (by decide +kernel) hN'
    exact ⟨_, hset, osc_good (pc := rfHalf) (by decide +kernel)⟩

/-! ### The mutual inductance of two coils -/

theorem coil_terms (u : Prefs) (x : Attr → List ℚ) (i : Fin (edges coilGraph).length) : (readSys coilGraph u x).terms i ≠ [] := by
  have hi : (((edges coilGraph).get i).1 = 0 ∧ ((edges coilGraph).get i).2.1 = 1) ∨ (((edges coilGraph).get i).1 = 1 ∧ ((edges coilGraph).get i).2.1 = 0) := by
    have := List.get_mem (edges coilGraph) i
    generalize (edges coilGraph).get i = e at this ⊢
    have key : ∀ e ∈ edges coilGraph, (e.1 = 0 ∧ e.2.1 = 1) ∨ (e.1 = 1 ∧ e.2.1 = 0) := by decide +kernel
    exact key e this
  simp only [readSys, branchTerms]
  have hl : (nodes coilGraph).length = 1 := by decide +kernel
  have hidx : (nodes coilGraph).idxOf 1 = 0 := by decide +kernel
  rcases hi with ⟨h1, h2⟩ | ⟨h1, h2⟩ <;> rw [h1, h2] <;> simp [hl, hidx]

/-- The Hamiltonian of the circuit exists at all numbers. -/
theorem coil_ham (u : Prefs) (N : BigNode coilCfg) {num : Attr → Option (List PF)} {x : Attr → List ℚ} (hx : readAttrs num = .ok x) :
    ∃ h, hamiltonianOf coilGraph u coilCfg num (Dict.get? ([(1, N)] : Dict ℕ (BigNode coilCfg))) (some [N]) = .ok h := by
  have hc : (nodes coilGraph).mapM (Dict.get? ([(1, N)] : Dict ℕ (BigNode coilCfg))) = some [N] := by
    have key : ∀ (l : List ℕ), l = [1] → l.mapM (Dict.get? ([(1, N)] : Dict ℕ (BigNode coilCfg))) = some [N] := by rintro l rfl; rfl
    exact key _ (by decide +kernel)
  have hl : (nodes coilGraph).length = 1 := by decide +kernel
  unfold hamiltonianOf
  simp only [hx, hc]
  rw [dif_pos (by simp [hl])]
  unfold hamiltonian
  rw [branchSum_spec, branchSum_spec, if_pos, if_pos]
  · exact ⟨_, rfl⟩
  · intro b hb
    obtain ⟨i, -, rfl⟩ := List.mem_map.1 hb
    exact coil_terms u x i
  · intro b hb
    obtain ⟨i, -, rfl⟩ := List.mem_map.1 hb
    exact coil_terms u x i

/-- `paramSweep` from 0 to 1 of the mutual inductance, at three points. -/
def sweepM : List SweepSpec := [⟨"M", .int 0, .int 1, .int 3⟩]

/-- The values in the middle of the sweep. -/
def coilAt (n : String) : ℚ := if n = "L2" then 2 else if n = "M" then 1/2 else 1

/-- The two coils after the values are set. -/
noncomputable def coilSet (N : BigNode coilCfg) : NS Ast LcRes (BigNode coilCfg) :=
  { coilUsed with sw := { coilUsed.sw with pc := coilPC₂ }, num := coilNum₂, circ := coilUsed.circ.set 1 N, vec := some [N] }

/-- The same system without operators, before the sweep. -/
def coilSetBare : NS Ast LcRes Unit :=
  { sw := { coilUsed.sw with pc := coilPC₂ }, exprs := coilUsed.exprs, pre := coilUsed.pre, num := coilNum₂, nodes := coilUsed.nodes, cfg := coilUsed.cfg, regen := coilUsed.regen, specs := sweepM,
    evals := [] }

/-- The sweeper in the sweep. -/
def coilUsedSW : SW Ast LcRes := (coilSetBare.sw.ndSweep sweepM).1

/-- The parameters at one half. -/
def coilHalf : PC Ast := (coilUsedSW.pc.setParameterValues Ast.engine .id 10 (pointArg (at1 "M" (1/2)))).1

/-- The hypotheses of `C103_levels_partial` about the circuit and its use are those of `C103_hamiltonian_partial`.  Its hypotheses about the sweep are met
by a sweep of the mutual inductance of the two coils at three points, for any operators and any eigensolver that does not fail.  `C103_levels_stored_partial` asks for less. -/
example (u : Prefs) (ops : ∀ i, Option PF → Except Err (NodeOps (coilCfg i).dim)) (hops : ∀ i z, ∃ o, ops i z = .ok o) (gv : Bool)
    (base : Phys (BigNode coilCfg) (BigOp coilCfg) PF PF PF PF) (hsolve : ∀ h, ∃ r, base.solve h = .ok r) :
    ∃ (st st' : NS Ast LcRes (BigNode coilCfg)) (sw : SW Ast LcRes) (files : List (SW.Pickled LcRes)),
      Used Ast.engine (circuitPhys coilGraph u coilCfg ops base).gen lcFreq lcImp coilNew coilUsed ∧
      coilUsed.setParameterValues Ast.engine .id 10 (circuitPhys coilGraph u coilCfg ops base).gen coilArgs = (st, .ok ()) ∧
      ValuesOf coilCalls st.sw.pc (coilVal) ∧ CoupledValues coilCalls (coilVal) ∧ OscillatorsDefined Ast.engine Ast.lawful st.sw.pc ∧
      (∀ k ∈ sweptNames sweepM, ∃ c ∈ coilCalls, Declares c k) ∧ (sweptNames sweepM).Nodup ∧ (sizes sweepM).prod ≠ 0 ∧
      st.sw.ndSweep sweepM = (sw, .ok ()) ∧ FiniteSweeps sw sweepM ∧
      (∀ node c n s, st.cfg.get? node = some c → c.basis = .oscillator → sw.pc.getSymbol n = .ok s → s ∈ Ast.engine.free (lcImp node) →
        ¬ Affected sw.pc (sweptNames sweepM) n) ∧
      paramSweep Ast.engine .id 10 (circuitPhys coilGraph u coilCfg ops base) gv { st with specs := sweepM, evals := [] } = (st', files, .ok ()) ∧
      sweepM[0]? = some ⟨"M", .int 0, .int 1, .int 3⟩ ∧ StaticsFor sweepM ["M"] [] ∧
      PointValues coilCalls sw.pc (at1 "M" (1/2)) (coilAt) ∧ CoupledValues coilCalls (coilAt) ∧
      ∃ stF, NS.setParameterValues Ast.engine .id 10 (circuitPhys coilGraph u coilCfg ops base).gen { st with specs := sweepM, evals := [], sw := sw }
        (pointArg (at1 "M" (1/2))) = (stF, .ok ()) ∧ OscillatorsDefined Ast.engine Ast.lawful stF.sw.pc := by
  obtain ⟨N, hN⟩ := coilUsed_set ops hops
  obtain ⟨N', hN'⟩ := coil_gen ops hops (.fin 1)
  have hcfg : coilUsed.cfg = [(1, ⟨2, .oscillator, some (lcImp 1)⟩)] := by decide +kernel
  have hrun : (paramSweep Ast.engine .id 10 (circuitPhys coilGraph u coilCfg ops base) gv { coilSet N with specs := sweepM, evals := [] }).2.2 = .ok () := by
    refine paramSweep_bare Ast.engine .id 10 _ gv _ coilSetBare rfl rfl ?_ (by decide +kernel) (by cases gv <;> decide +kernel)
    intro num x hx
    obtain ⟨h, hh⟩ := coil_ham u N hx
    obtain ⟨r, hr⟩ := hsolve h
    exact ⟨h, r, hh, hr⟩
  refine ⟨coilSet N, _, coilUsedSW, _, .configure 1 2 .oscillator .start (Prod.ext rfl (by decide +kernel)), hN, ?_, coil_values _ (by decide +kernel) (by decide +kernel) (by decide +kernel),
    osc_good (pc := coilPC₂) (by decide +kernel), ?_, by decide +kernel, by decide +kernel, Prod.ext rfl (by show (coilSetBare.sw.ndSweep sweepM).2 = _; decide +kernel), ?_, ?_,
    Prod.ext rfl (Prod.ext rfl hrun), rfl, ?_, ?_, coil_values _ (by decide +kernel) (by decide +kernel) (by decide +kernel), ?_⟩
  · exact coil_declares (P := fun n => coilPC₂.getParameterValue n = .ok (some (.fin (coilVal n)))) (by decide +kernel) (by decide +kernel) (by decide +kernel)
      (by decide +kernel)
  · intro k hk
    have : k = "M" := by simpa [sweepM, sweptNames] using hk
    subst this
    exact ⟨.coupleBranches "L" "L2" "M", by simp [coilCalls], .mutual "L" "L2" "M"⟩
  · have key : ∀ s ∈ sweepM, ∀ p ∈ (coilUsedSW.pc.coll.get? s.name).toList, ∀ x ∈ p.sweep, (match x with | PF.fin _ => true | _ => false) = true := by
      decide +kernel
    intro s hs p hp x hx
    have := key s hs p (by rw [hp]; simp) x hx
    cases x <;> simp_all
  · intro node c n s hc hb hs hfree
    have hc' : coilUsed.cfg.get? node = some c := hc
    rw [hcfg, Dict.get?_cons] at hc'
    split_ifs at hc' with h1
    · subst h1
      exact imp_unaffected (x := "M") (by decide) (by decide +kernel) (by decide +kernel) (by decide +kernel) n s hs hfree
    · simp at hc'
  · refine ⟨by simp, ?_, by simp⟩
    intro k
    simp [sweepM, sweptNames]
  · have hnp : ∀ n, n ∉ coilUsedSW.pc.getParametricParametersList → ¬ Parametric coilUsedSW.pc n := fun n h => h
    refine coil_declares (P := fun n => (at1 "M" (1/2)).get? n = some (.fin (coilAt n)) ∨ ((at1 "M" (1/2)).get? n = none ∧ ¬ Parametric coilUsedSW.pc n ∧
      coilUsedSW.pc.getParameterValue n = .ok (some (.fin (coilAt n))))) ?_ ?_ ?_ ?_
    · exact Or.inr ⟨by decide +kernel, hnp _ (by decide +kernel), by decide +kernel⟩
    · exact Or.inr ⟨by decide +kernel, hnp _ (by decide +kernel), by decide +kernel⟩
    · exact Or.inr ⟨by decide +kernel, hnp _ (by decide +kernel), by decide +kernel⟩
    · exact Or.inl (by decide +kernel)
  · have hset := set_one Ast.engine .id 10 (genOf coilGraph coilCfg ops) ({ coilSet N with specs := sweepM, evals := [], sw := coilUsedSW } : NS Ast LcRes (BigNode coilCfg))
      (pointArg (at1 "M" (1/2))) (pc' := coilHalf) (d := (coilHalf.getSymbolValuesDict.toOption.getD []))
      (num' := (NS.assignNumbers Ast.engine coilUsed.exprs (coilHalf.getSymbolValuesDict.toOption.getD []) NS.substituteOrder coilNum₂).1) (node := 1)
      (c := ⟨2, .oscillator, some (lcImp 1)⟩) (z := .fin 1) (o := N') (Prod.ext rfl (by show (coilUsedSW.pc.setParameterValues _ _ _ _).2 = _; decide +kernel)) (by decide +kernel)
      (ok_eq (d := []) (by decide +kernel)) (Prod.ext rfl (by show (NS.assignNumbers Ast.engine coilUsed.exprs _ _ coilNum₂).2 = _; decide +kernel)) (by show coilUsed.nodes = _; decide +kernel)
      (by show coilUsed.cfg.get? 1 = _; decide +kernel) rfl (by decide +kernel) hN'
    exact ⟨_, hset, osc_good (pc := coilHalf) (by decide +kernel)⟩

end Verif.Props
