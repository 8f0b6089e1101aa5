import Verif.Lemmas.SweepUse

/-!
# C102 and C103: sweeps of a system that was made from a circuit
-/

namespace Verif.Props

open Verif Verif.Spec Verif.PC Verif.Num Verif.Sym Verif.Circuit Verif.Derived

theorem circuit_assembles {h : List Circuit.Call} {g : CG} (hs : Settled h g) (ha : AllOk h) (hn : CircuitNetlist h) {b : Biases} (hb : createFluxBiases g = .ok b)
    (pinv : Matrix (Fin (edges g).length) (Fin (edges g).length) ℝ → Matrix (Fin (edges g).length) (Fin (edges g).length) ℝ) (u : Prefs)
    {v : String → ℚ} (hphys : PhysicalValues h v) :
    ∃ s, assemble g b (fun c => (v c : ℝ)) (fun s => (v ("phi" ++ s) : ℝ)) (fun s => (v ("Q" ++ s) : ℝ)) ⟨false, 1⟩ pinv u = .ok s := by
  obtain ⟨CM, hCM, hsymm, hform⟩ := circuit_capacitance hs ha hn (fun c => (v c : ℝ))
  have hdet := (netlist_det hs _ hphys.caps _ hsymm hform).2 hphys.ground
  obtain ⟨LM, hLM⟩ := circuit_inductance hs ha hn hb (fun c => (v c : ℝ))
  unfold assemble
  simp only [hCM, hLM]
  unfold Verif.Sym.inverseCapacitance
  rw [if_neg hdet]
  exact ⟨_, rfl⟩

theorem coupled_assembles {h : List Circuit.Call} {g : CG} (hs : Settled h g) (ha : AllOk h) (hn : CoupledNetlist h) {b : Biases} (hb : createFluxBiases g = .ok b)
    (pinv : Matrix (Fin (edges g).length) (Fin (edges g).length) ℝ → Matrix (Fin (edges g).length) (Fin (edges g).length) ℝ) (u : Prefs)
    {v : String → ℚ} (hphys : CoupledValues h v) :
    ∃ s, assemble g b (fun c => (v c : ℝ)) (fun s => (v ("phi" ++ s) : ℝ)) (fun s => (v ("Q" ++ s) : ℝ)) ⟨false, 1⟩ pinv u = .ok s := by
  obtain ⟨CM, hCM, hsymm, hform⟩ := coupled_capacitance hs ha hn (fun c => (v c : ℝ))
  have hdet := (netlist_det hs _ hphys.caps _ hsymm hform).2 hphys.ground
  obtain ⟨LM, hLM⟩ := coupled_inductance hs ha (coupled_loaded hn) hb (fun c => (v c : ℝ))
  unfold assemble
  simp only [hCM, hLM]
  unfold Verif.Sym.inverseCapacitance
  rw [if_neg hdet]
  exact ⟨_, rfl⟩

/-- Every parameter with an expression can be computed, if the oscillators can. -/
theorem all_computable {E D : Type} {eng : Engine E} {law : eng.Lawful D} {freq imp : ℕ → E} {pc : PC E} (hosc : OscillatorsDefined eng law pc)
    (h : ∀ k, Parametric pc k → (∃ e, OscOwn freq imp k e) ∨ ∃ f, HasSource eng pc k ∧ Computable eng law pc k f) (k : String) (hk : Parametric pc k) :
    ∃ f, HasSource eng pc k ∧ Computable eng law pc k f := by
  rcases h k hk with ⟨e, n, ⟨e1, -⟩ | ⟨e1, -⟩⟩ | h
  · exact hosc n k (Or.inl e1) hk
  · exact hosc n k (Or.inr e1) hk
  · exact h

/-- The attributes have values. -/
theorem defined_of {E D R O : Type} {eng : Engine E} {law : eng.Lawful D} {pc : PC E} {st : NS E R O} {n m : ℕ} {s : Sys PUnit n m}
    (hx : Expresses eng law pc st.exprs s) (hc : ∀ k, Parametric pc k → ∃ f, HasSource eng pc k ∧ Computable eng law pc k f) : Defined eng law st pc := by
  refine ⟨hc, fun a e he => ?_⟩
  obtain ⟨x, -, x2⟩ := hx
  have key : ∀ (l : List E) (l' : List ℚ), List.Forall₂ (fun e q => ValueIs eng law pc e (law.ofPF (.fin q))) l l' → ∀ e ∈ l, ∃ d, ValueIs eng law pc e d := by
    intro l l' hl
    induction hl with
    | nil => intro e he; simp at he
    | cons hv _ ih =>
      intro e he
      rcases List.mem_cons.1 he with rfl | he
      · exact ⟨_, hv⟩
      · exact ih e he
  obtain ⟨d, ρ, r1, r2⟩ := key _ _ (x2 a) e he
  exact ⟨ρ, d, r1, r2⟩

/-- **C102 (partial)** From the calls that describe a circuit to its levels.  Take any netlist of capacitors, inductors, junctions and phase slips with
flux and charge biases, built by successful calls, in which no component has the name of a matrix element.  Make the symbolic and the
numerical system of the circuit, choose bases and set values in any order, at last to values at which the circuit can be quantised; then sweep any of the
parameters of the circuit.  When the sweep succeeds, the levels that it returns for a variable are, at each of its values for which the circuit can
be quantised, those of the operator read off the netlist at the values of the point.  Of the system in between, nothing is assumed but that the
frequencies and impedances of the oscillators can be computed, and that the impedances do not depend on what is swept.
Missing: as for `C102_hamiltonian_partial`; sweeps that change the impedances. -/
theorem C102_levels_partial (h : List Circuit.Call) (g : CG) (hs : Settled h g) (ha : AllOk h) (hn : CircuitNetlist h)
    (hlen : (nodes g).length ≤ 111) (hres : ∀ x ∈ h, ∀ k, Declares x k → ¬ Reserved k) (b : Biases) (hb : createFluxBiases g = .ok b) :
    ∃ sgn : String → ℝ, (∀ c, sgn c = 1 ∨ sgn c = -1) ∧
    (∀ br ∈ branches h, ∀ e ∈ edges g, g.cmap.get? e = some br.2.2 → (sgn br.2.2 = 1 ↔ e.1 = br.1)) ∧
    ∀ (E D R P X V : Type) (eng : Engine E) (law : eng.Lawful D) (A : Arith E) (_ : ArithLaws eng law A) (o : Orc)
      (ex : Resonator → Except Err (ResExprs E)) (again : Bool) (freq imp : ℕ → E) (u : Prefs) (cfg : Fin (nodes g).length → NodeCfg)
      (ops : ∀ i, Option PF → Except Err (NodeOps (cfg i).dim)) (base : Phys (BigNode cfg) (BigOp cfg) P X V R)
      (pc : PC E) (st₀ st₁ st st' : NS E (Res X V R) (BigNode cfg)) (_ : systemParameters eng A o ex again g = .ok pc)
      (_ : numericalSystem eng A g b pc = .ok st₀) (_ : Used eng (circuitPhys g u cfg ops base).gen freq imp st₀ st₁) (ho₁ : HashOrder) (fuel₁ : ℕ)
      (args : List BulkArg) (_ : st₁.setParameterValues eng ho₁ fuel₁ (circuitPhys g u cfg ops base).gen args = (st, .ok ()))
      (v₁ : String → ℚ) (_ : ValuesOf h st.sw.pc v₁) (_ : PhysicalValues h v₁) (_ : OscillatorsDefined eng law st.sw.pc)
      (specs : List SweepSpec) (_ : ∀ k ∈ sweptNames specs, ∃ c ∈ h, Declares c k) (_ : (sweptNames specs).Nodup) (_ : (sizes specs).prod ≠ 0)
      (sw : SW E (Res X V R)) (_ : st.sw.ndSweep specs = (sw, .ok ())) (_ : FiniteSweeps sw specs)
      (_ : ∀ node c n s, st.cfg.get? node = some c → c.basis = .oscillator → sw.pc.getSymbol n = .ok s → s ∈ eng.free (imp node) →
        ¬ Affected sw.pc (sweptNames specs) n)
      (ho : HashOrder) (fuel : ℕ) (gv : Bool) (files : List (SW.Pickled (Res X V R)))
      (_ : paramSweep eng ho fuel (circuitPhys g u cfg ops base) gv { st with specs := specs, evals := [] } = (st', files, .ok ()))
      (k : ℕ) (_ : ∀ hm es vs, base.solve hm = .ok (es, vs) → es.length = k ∧ vs.length = k)
      (names : ℕ → String) (disk : String → Option (SW.Pickled (Res X V R))) (_ : ∀ i, i < files.length → disk (names i) = files[i]?)
      (m : ℕ) (si : SweepSpec) (_ : specs[m]? = some si) (static : List (String × PF)) (_ : StaticsFor specs [si.name] static),
    ∃ p a vals, sw.pc.coll.get? si.name = some p ∧
      getSweepLevels st'.sw files names disk si.name static "Hamiltonian" = .ok (p.sweep, a, vals) ∧
      a.shape = (if gv then [k, 2, p.sweep.length] else [k, p.sweep.length]) ∧
      ∀ i, i < p.sweep.length → ∃ d es vs, PointAt sw specs si.name static vals p.sweep i d ∧ es.length = k ∧ vs.length = k ∧
        (∀ l, if gv then a.get [l, 0, i] = ((es[l]?).map Cell.num).getD .none ∧ a.get [l, 1, i] = ((vs[l]?).map Cell.vec).getD .none
          else a.get [l, i] = ((es[l]?).map Cell.num).getD .none) ∧
        ∀ v, PointValues h sw.pc d v → PhysicalValues h v →
          ∀ (stF : NS E (Res X V R) (BigNode cfg)) (ho' : HashOrder) (fuel' : ℕ),
          NS.setParameterValues eng ho' fuel' (circuitPhys g u cfg ops base).gen { st with specs := specs, evals := [], sw := sw } (pointArg d) = (stF, .ok ()) →
          OscillatorsDefined eng law stF.sw.pc →
          ∃ (C : Matrix (Fin (nodes g).length) (Fin (nodes g).length) ℝ) (o : ∀ i, NodeOps (cfg i).dim) (N : Fin (nodes g).length → BigNode cfg),
            C.transpose = C ∧ C.det ≠ 0 ∧
            (∀ w : ℕ → ℝ, w 0 = 0 → atNodes g w ⬝ᵥ C.mulVec (atNodes g w) = electrostaticForm (fun c => (v c : ℝ)) h w) ∧
            (∀ i, ∃ z, ImpedanceIs stF ((nodes g).get i) (cfg i).basis z ∧ ops i z = .ok (o i)) ∧ (∀ i, expandNode cfg i (o i) = some (N i)) ∧
            base.solve (netlistOperator (nodes g) h u.Ec u.El u.Ej u.Ep C (fun c => (v c : ℝ)) (gateCharge (fun s => (v ("Q" ++ s) : ℝ)) h)
              (fun c => sgn c * fluxOn (fun s => (v ("phi" ++ s) : ℝ)) h c) (nodeOperators N)) = .ok (es, vs) := by
  obtain ⟨sgn, h1, h2, h3⟩ := C101_levels_partial h g hs ha hn b hb
  refine ⟨sgn, h1, h2, ?_⟩
  intro E D R P X V eng law A laws o ex again freq imp u cfg ops base pc st₀ st₁ st st' hpc hst hused ho₁ fuel₁ args hset v₁ hv₁ hphys₁ hosc specs hdecl hnd hpos sw hsw
    hfin himp ho fuel gv files hrun k hk names disk hdisk m si hm static hstat
  choose pinv hp using fun M : Matrix (Fin (edges g).length) (Fin (edges g).length) ℝ => pinv_exists M
  obtain ⟨rfl, hok⟩ := settled_run hs
  have hst₀ := prepared_new law hok ha (netlist_noRes hn) hlen hres hpc hst (freq := freq) (imp := imp)
  have hused' : Used eng (circuitPhys (run {} h) u cfg ops base).gen freq imp st₀ st := .set ho₁ fuel₁ args hused hset
  obtain ⟨k1, k2⟩ := prepared_used (law := law) hok ha hst₀.1 hused'
  obtain ⟨j1, -⟩ := prepared_used (law := law) hok ha hst₀.1 hused
  obtain ⟨hset1, -, -⟩ := set_clean j1.tidy.clean hset
  have hup : UpToDate eng law st.sw.pc := fun k f a b => C06_dependents_follow_bulk_set_partial eng law st₁.sw.pc j1.tidy.clean ho₁ fuel₁ args _ hset1 k f a b
  obtain ⟨s₁, hs₁⟩ := circuit_assembles hs ha hn hb pinv u hphys₁
  obtain ⟨-, hcomp⟩ := prepared_attributes law laws hs ha hn hb pinv hp u k1 st.sw.pc v₁ s₁ rfl rfl (fun _ _ h => h) hup hv₁ hphys₁ hs₁
  have hcfg : Oscillating imp st := by
    refine oscillating_used (fun s hs => (prepared_used (law := law) hok ha hst₀.1 hs).1.tidy.clean) ?_ hused'
    unfold numericalSystem at hst
    split at hst
    · cases hst
    cases hst
    intro node c hc
    cases hc
  have hcur := C78_current eng (circuitPhys (run {} h) u cfg ops base).gen st₁ st (ho₁, fuel₁, .many args) hset
  have hready := ready_of (fun _ _ h => h) k1 hcfg hcur hup (all_computable hosc hcomp) hnd hdecl (fun k _ => (netlist_noRes hn).computed k) hsw (evals := [])
  obtain ⟨w, hw⟩ := SW.ndSweep_ok hsw hnd
  have hprew := k1.values (law := law) hready.clean hw.symMap_eq hw.parz_eq fun k f => swept_admits hw
  obtain ⟨st₂, pts, hpre, hpts⟩ := paramSweep_parts (st := { st with specs := specs, evals := [] }) hrun hsw
  obtain ⟨p, a, vals, a1, a2, a3, a4⟩ := h3 E D R P X V eng law laws.numbers pinv hp u cfg ops base ho fuel gv (sweptNames specs) { st with specs := specs, evals := [] } st₂ st' sw pts
    files (k2.trans hst₀.2) (prepared_symbolic law laws hs ha hn hb pinv hp u hprew) hsw hready hpre hpts rfl (by
      intro node c imp' n s hc hb' hi hn' hs'
      rw [(hcfg node c hc hb').1] at hi
      cases hi
      exact himp node c n s hc hb' hn' hs') hrun k hk hnd hpos hfin names disk hdisk m si hm static hstat
  refine ⟨p, a, vals, a1, a2, a3, fun i hi => ?_⟩
  obtain ⟨d, es, vs, d1, d2, d3, d4, d5⟩ := a4 i hi
  refine ⟨d, es, vs, d1, d2, d3, d4, ?_⟩
  intro v hv hphys stF ho' fuel' hsetF hoscF
  refine d5 v hv hphys stF ho' fuel' hsetF ?_
  obtain ⟨f1, f2, f3⟩ := set_clean (st := { st with specs := specs, evals := [], sw := sw }) hready.clean hsetF
  have hupF : UpToDate eng law stF.sw.pc := fun k f a b => C06_dependents_follow_bulk_set_partial eng law sw.pc hready.clean ho' fuel' (pointArg d) _ f1 k f a b
  have hsmF : stF.sw.pc.symMap = sw.pc.symMap := by
    obtain ⟨-, -, -, f4, -⟩ := setCall_frame eng (circuitPhys (run {} h) u cfg ops base).gen { st with specs := specs, evals := [], sw := sw } (ho', fuel', .many (pointArg d))
    have hset' : NS.set eng (circuitPhys (run {} h) u cfg ops base).gen { st with specs := specs, evals := [], sw := sw } (ho', fuel', .many (pointArg d)) = (stF, .ok ()) := hsetF
    rw [hset'] at f4
    exact f4
  have hvals := point_values law hready.clean d1.nodup f1 (fun n hn => hready.indep n ((d1.keys n).1 hn)) hv
  obtain ⟨sF, hsF⟩ := circuit_assembles hs ha hn hb pinv u hphys
  obtain ⟨e1, e2⟩ := prepared_attributes law laws hs ha hn hb pinv hp u hprew stF.sw.pc v sF hsmF f3 (fun k f => set_admits law hready.clean f1) hupF hvals hphys hsF
  exact defined_of (st := { st with specs := specs, evals := [], sw := sw }) e1 (all_computable hoscF e2)

/-- **C103 (partial)** From the calls that describe a circuit with mutual inductances to its levels.  Take any netlist of capacitors, inductors,
junctions and phase slips with flux and charge biases and, after the last branch, mutual inductances between different inductors, built by successful calls, in which no component has the name of a matrix element.  Make the symbolic and the
numerical system of the circuit, choose bases and set values in any order, at last to values at which the circuit can be quantised; then sweep any of the
parameters of the circuit.  When the sweep succeeds, the levels that it returns for a variable are, at each of its values for which the circuit can
be quantised, those of the operator read off the netlist at the values of the point.  Of the system in between, nothing is assumed but that the
frequencies and impedances of the oscillators can be computed, and that the impedances do not depend on what is swept.
Missing: as for `C103_hamiltonian_partial`; sweeps that change the impedances. -/
theorem C103_levels_partial (h : List Circuit.Call) (g : CG) (hs : Settled h g) (ha : AllOk h) (hn : CoupledNetlist h)
    (hlen : (nodes g).length ≤ 111) (hres : ∀ x ∈ h, ∀ k, Declares x k → ¬ Reserved k) (b : Biases) (hb : createFluxBiases g = .ok b) :
    ∃ sgn : String → ℝ, (∀ c, sgn c = 1 ∨ sgn c = -1) ∧
    (∀ br ∈ branches h, ∀ e ∈ edges g, g.cmap.get? e = some br.2.2 → (sgn br.2.2 = 1 ↔ e.1 = br.1)) ∧
    ∀ (E D R P X V : Type) (eng : Engine E) (law : eng.Lawful D) (A : Arith E) (_ : CoupledLaws eng law A) (o : Orc)
      (ex : Resonator → Except Err (ResExprs E)) (again : Bool) (freq imp : ℕ → E) (u : Prefs) (cfg : Fin (nodes g).length → NodeCfg)
      (ops : ∀ i, Option PF → Except Err (NodeOps (cfg i).dim)) (base : Phys (BigNode cfg) (BigOp cfg) P X V R)
      (pc : PC E) (st₀ st₁ st st' : NS E (Res X V R) (BigNode cfg)) (_ : systemParameters eng A o ex again g = .ok pc)
      (_ : numericalSystem eng A g b pc = .ok st₀) (_ : Used eng (circuitPhys g u cfg ops base).gen freq imp st₀ st₁) (ho₁ : HashOrder) (fuel₁ : ℕ)
      (args : List BulkArg) (_ : st₁.setParameterValues eng ho₁ fuel₁ (circuitPhys g u cfg ops base).gen args = (st, .ok ()))
      (v₁ : String → ℚ) (_ : ValuesOf h st.sw.pc v₁) (_ : CoupledValues h v₁) (_ : OscillatorsDefined eng law st.sw.pc)
      (specs : List SweepSpec) (_ : ∀ k ∈ sweptNames specs, ∃ c ∈ h, Declares c k) (_ : (sweptNames specs).Nodup) (_ : (sizes specs).prod ≠ 0)
      (sw : SW E (Res X V R)) (_ : st.sw.ndSweep specs = (sw, .ok ())) (_ : FiniteSweeps sw specs)
      (_ : ∀ node c n s, st.cfg.get? node = some c → c.basis = .oscillator → sw.pc.getSymbol n = .ok s → s ∈ eng.free (imp node) →
        ¬ Affected sw.pc (sweptNames specs) n)
      (ho : HashOrder) (fuel : ℕ) (gv : Bool) (files : List (SW.Pickled (Res X V R)))
      (_ : paramSweep eng ho fuel (circuitPhys g u cfg ops base) gv { st with specs := specs, evals := [] } = (st', files, .ok ()))
      (k : ℕ) (_ : ∀ hm es vs, base.solve hm = .ok (es, vs) → es.length = k ∧ vs.length = k)
      (names : ℕ → String) (disk : String → Option (SW.Pickled (Res X V R))) (_ : ∀ i, i < files.length → disk (names i) = files[i]?)
      (m : ℕ) (si : SweepSpec) (_ : specs[m]? = some si) (static : List (String × PF)) (_ : StaticsFor specs [si.name] static),
    ∃ p a vals, sw.pc.coll.get? si.name = some p ∧
      getSweepLevels st'.sw files names disk si.name static "Hamiltonian" = .ok (p.sweep, a, vals) ∧
      a.shape = (if gv then [k, 2, p.sweep.length] else [k, p.sweep.length]) ∧
      ∀ i, i < p.sweep.length → ∃ d es vs, PointAt sw specs si.name static vals p.sweep i d ∧ es.length = k ∧ vs.length = k ∧
        (∀ l, if gv then a.get [l, 0, i] = ((es[l]?).map Cell.num).getD .none ∧ a.get [l, 1, i] = ((vs[l]?).map Cell.vec).getD .none
          else a.get [l, i] = ((es[l]?).map Cell.num).getD .none) ∧
        ∀ v, PointValues h sw.pc d v → CoupledValues h v →
          ∀ (stF : NS E (Res X V R) (BigNode cfg)) (ho' : HashOrder) (fuel' : ℕ),
          NS.setParameterValues eng ho' fuel' (circuitPhys g u cfg ops base).gen { st with specs := specs, evals := [], sw := sw } (pointArg d) = (stF, .ok ()) →
          OscillatorsDefined eng law stF.sw.pc →
          ∃ (C : Matrix (Fin (nodes g).length) (Fin (nodes g).length) ℝ) (o : ∀ i, NodeOps (cfg i).dim) (N : Fin (nodes g).length → BigNode cfg),
            C.transpose = C ∧ C.det ≠ 0 ∧
            (∀ w : ℕ → ℝ, w 0 = 0 → atNodes g w ⬝ᵥ C.mulVec (atNodes g w) = electrostaticForm (fun c => (v c : ℝ)) h w) ∧
            (∀ i, ∃ z, ImpedanceIs stF ((nodes g).get i) (cfg i).basis z ∧ ops i z = .ok (o i)) ∧ (∀ i, expandNode cfg i (o i) = some (N i)) ∧
            base.solve (mutualOperator (nodes g) h u.Ec u.El u.Ej u.Ep C (fun c => (v c : ℝ)) sgn (gateCharge (fun s => (v ("Q" ++ s) : ℝ)) h)
              (fun c => sgn c * fluxOn (fun s => (v ("phi" ++ s) : ℝ)) h c) (nodeOperators N)) = .ok (es, vs) := by
  obtain ⟨sgn, h1, h2, h3⟩ := coupled_hamiltonian h g hs ha hn b hb
  refine ⟨sgn, h1, h2, ?_⟩
  intro E D R P X V eng law A laws o ex again freq imp u cfg ops base pc st₀ st₁ st st' hpc hst hused ho₁ fuel₁ args hset v₁ hv₁ hphys₁ hosc specs hdecl hnd hpos sw hsw
    hfin himp ho fuel gv files hrun k hk names disk hdisk m si hm static hstat
  choose pinv hp using fun M : Matrix (Fin (edges g).length) (Fin (edges g).length) ℝ => pinv_exists M
  obtain ⟨rfl, hok⟩ := settled_run hs
  have hst₀ := prepared_new law hok ha (coupled_noRes hn) hlen hres hpc hst (freq := freq) (imp := imp)
  have hused' : Used eng (circuitPhys (run {} h) u cfg ops base).gen freq imp st₀ st := .set ho₁ fuel₁ args hused hset
  obtain ⟨k1, k2⟩ := prepared_used (law := law) hok ha hst₀.1 hused'
  obtain ⟨j1, -⟩ := prepared_used (law := law) hok ha hst₀.1 hused
  obtain ⟨hset1, -, -⟩ := set_clean j1.tidy.clean hset
  have hup : UpToDate eng law st.sw.pc := fun k f a b => C06_dependents_follow_bulk_set_partial eng law st₁.sw.pc j1.tidy.clean ho₁ fuel₁ args _ hset1 k f a b
  obtain ⟨s₁, hs₁⟩ := coupled_assembles hs ha hn hb pinv u hphys₁
  obtain ⟨-, hcomp⟩ := prepared_inductances law laws hs ha hn hb pinv hp u k1 st.sw.pc v₁ s₁ rfl rfl (fun _ _ h => h) hup hv₁ hphys₁ hs₁
  have hcfg : Oscillating imp st := by
    refine oscillating_used (fun s hs => (prepared_used (law := law) hok ha hst₀.1 hs).1.tidy.clean) ?_ hused'
    unfold numericalSystem at hst
    split at hst
    · cases hst
    cases hst
    intro node c hc
    cases hc
  have hcur := C78_current eng (circuitPhys (run {} h) u cfg ops base).gen st₁ st (ho₁, fuel₁, .many args) hset
  have hready := ready_of (fun _ _ h => h) k1 hcfg hcur hup (all_computable hosc hcomp) hnd hdecl (fun k _ => (coupled_noRes hn).computed k) hsw (evals := [])
  obtain ⟨w, hw⟩ := SW.ndSweep_ok hsw hnd
  have hprew := k1.values (law := law) hready.clean hw.symMap_eq hw.parz_eq fun k f => swept_admits hw
  obtain ⟨st₂, pts, hpre, hpts⟩ := paramSweep_parts (st := { st with specs := specs, evals := [] }) hrun hsw
  obtain ⟨p, a, vals, a1, a2, a3, a4⟩ := C88_levels eng law ho fuel (circuitPhys (run {} h) u cfg ops base) gv (sweptNames specs) { st with specs := specs, evals := [] } st₂ st' sw
    pts files hsw hready hpre hpts rfl (by
      intro node c imp' n s hc hb' hi hn' hs'
      rw [(hcfg node c hc hb').1] at hi
      cases hi
      exact himp node c n s hc hb' hn' hs') hrun k hk hnd hpos hfin names disk hdisk m si hm static hstat
  refine ⟨p, a, vals, a1, a2, a3, fun i hi => ?_⟩
  obtain ⟨d, es, vs, d1, d2, d3, d4, d5⟩ := a4 i hi
  refine ⟨d, es, vs, d1, d3, d4, d5, ?_⟩
  intro v hv hphys stF ho' fuel' hsetF hoscF
  obtain ⟨f1, f2, f3⟩ := set_clean (st := { st with specs := specs, evals := [], sw := sw }) hready.clean hsetF
  have hupF : UpToDate eng law stF.sw.pc := fun k f a b => C06_dependents_follow_bulk_set_partial eng law sw.pc hready.clean ho' fuel' (pointArg d) _ f1 k f a b
  have hsmF : stF.sw.pc.symMap = sw.pc.symMap := by
    obtain ⟨-, -, -, f4, -⟩ := setCall_frame eng (circuitPhys (run {} h) u cfg ops base).gen { st with specs := specs, evals := [], sw := sw } (ho', fuel', .many (pointArg d))
    have hset' : NS.set eng (circuitPhys (run {} h) u cfg ops base).gen { st with specs := specs, evals := [], sw := sw } (ho', fuel', .many (pointArg d)) = (stF, .ok ()) := hsetF
    rw [hset'] at f4
    exact f4
  have hvals := point_values law hready.clean d1.nodup f1 (fun n hn => hready.indep n ((d1.keys n).1 hn)) hv
  obtain ⟨sF, hsF⟩ := coupled_assembles hs ha hn hb pinv u hphys
  obtain ⟨e1, e2⟩ := prepared_inductances law laws hs ha hn hb pinv hp u hprew stF.sw.pc v sF hsmF f3 (fun k f => set_admits law hready.clean f1) hupF hvals hphys hsF
  obtain ⟨hm', m1, m2⟩ := d2 stF ho' fuel' hsetF (defined_of (st := { st with specs := specs, evals := [], sw := sw }) e1 (all_computable hoscF e2))
  obtain ⟨C, o, N, c1, c2, c3, c4, c5, c6⟩ := h3 E D R P X V _ eng law laws.numbers pinv hp u cfg ops base { st with specs := specs, evals := [], sw := sw } stF (k2.trans hst₀.2)
    hready.clean (prepared_coupled law laws hs ha hn hb pinv hp u hprew) ho' fuel' (pointArg d) hsetF v hvals hphys
  refine ⟨C, o, N, c1, c2, c3, c4, c5, ?_⟩
  unfold callMethod at c6
  simp only [m1, Except.ok.injEq, Sum.inl.injEq] at c6
  rw [← c6]
  exact m2

/-- The Hamiltonian at the values of the parameters, with operator vectors of an earlier state. -/
theorem circuit_stored (h : List Circuit.Call) (g : CG) (hs : Settled h g) (ha : AllOk h) (hn : CircuitNetlist h) (b : Biases)
    (hb : createFluxBiases g = .ok b) :
    ∃ sgn : String → ℝ, (∀ c, sgn c = 1 ∨ sgn c = -1) ∧
    (∀ br ∈ branches h, ∀ e ∈ edges g, g.cmap.get? e = some br.2.2 → (sgn br.2.2 = 1 ↔ e.1 = br.1)) ∧
    ∀ (E D R P X V Q : Type) (eng : Engine E) (law : eng.Lawful D) (_ : ∀ q : ℚ, law.toPF (law.ofPF (.fin q)) = some (.fin q))
      (pinv : Matrix (Fin (edges g).length) (Fin (edges g).length) ℝ → Matrix (Fin (edges g).length) (Fin (edges g).length) ℝ)
      (_ : ∀ M, IsPinv M (pinv M)) (u : Prefs) (cfg : Fin (nodes g).length → NodeCfg)
      (ops : ∀ i, Option PF → Except Err (NodeOps (cfg i).dim)) (base : Phys (BigNode cfg) (BigOp cfg) P X V R)
      (st st' st₁ : NS E Q (BigNode cfg)) (_ : st.nodes = nodes g) (_ : CleanReachable eng st.sw.pc)
      (_ : SymbolicOf eng law h g b pinv u st.sw.pc st.exprs) (ho : HashOrder) (fuel : ℕ) (args : List BulkArg)
      (_ : st.setParameterValues eng ho fuel (circuitPhys g u cfg ops base).gen args = (st', .ok ()))
      (_ : Current eng (genOf g cfg ops) st₁) (_ : st₁.nodes = nodes g) (v : String → ℚ) (_ : ValuesOf h st'.sw.pc v) (_ : PhysicalValues h v),
    ∃ (C : Matrix (Fin (nodes g).length) (Fin (nodes g).length) ℝ) (o o₁ : ∀ i, NodeOps (cfg i).dim) (N N₀ : Fin (nodes g).length → BigNode cfg),
      C.transpose = C ∧ C.det ≠ 0 ∧
      (∀ w : ℕ → ℝ, w 0 = 0 → atNodes g w ⬝ᵥ C.mulVec (atNodes g w) = electrostaticForm (fun c => (v c : ℝ)) h w) ∧
      (∀ i, ∃ z, ImpedanceIs st' ((nodes g).get i) (cfg i).basis z ∧ ops i z = .ok (o i)) ∧ (∀ i, expandNode cfg i (o i) = some (N i)) ∧
      (∀ i, ∃ z, ImpedanceIs st₁ ((nodes g).get i) (cfg i).basis z ∧ ops i z = .ok (o₁ i)) ∧ (∀ i, expandNode cfg i (o₁ i) = some (N₀ i)) ∧
      (circuitPhys g u cfg ops base).ham st'.num.get? st'.circ.get? st₁.vec = .ok (netlistOperator (nodes g) h u.Ec u.El u.Ej u.Ep C (fun c => (v c : ℝ)) (gateCharge (fun s => (v ("Q" ++ s) : ℝ)) h)
          (fun c => sgn c * fluxOn (fun s => (v ("phi" ++ s) : ℝ)) h c) ⟨fun i => (N₀ i).Q, fun i => (N₀ i).P, fun i => (N i).D, fun i => (N i).Ddag, fun i => (N i).S, fun i => (N i).Sdag⟩) := by
  obtain ⟨sgn, h1, h2, h3⟩ := C97_operator_partial h g hs ha hn b hb
  refine ⟨sgn, h1, h2, ?_⟩
  intro E D R P X V Q eng law hex pinv hp u cfg ops base st st' st₁ hnodes hclean hsym ho fuel args hset hcur₁ hnodes₁ v hv hphys
  obtain ⟨k1, k2, k3⟩ := set_clean hclean hset
  have hcur := C78_current eng (circuitPhys g u cfg ops base).gen st st' (ho, fuel, .many args) hset
  obtain ⟨f1, -, f3, f4, -⟩ := setCall_frame eng (circuitPhys g u cfg ops base).gen st (ho, fuel, .many args)
  have hset' : st.set eng (circuitPhys g u cfg ops base).gen (ho, fuel, .many args) = (st', .ok ()) := hset
  rw [hset'] at f1 f3 f4
  have hup : UpToDate eng law st'.sw.pc := fun k f a b => C06_dependents_follow_bulk_set_partial eng law st.sw.pc hclean ho fuel args _ k1 k f a b
  have hnd : (nodes g).Nodup := (C29_rows h g hs).1
  obtain ⟨C, hC, hsymm, hform⟩ := circuit_capacitance hs ha hn (fun c => (v c : ℝ))
  have hdet := (netlist_det hs _ hphys.caps _ hsymm hform).2 hphys.ground
  obtain ⟨s, hsok⟩ := (circuit_assemble hs ha hn hb (fun c => (v c : ℝ)) (fun s => (v ("phi" ++ s) : ℝ)) (fun s => (v ("Q" ++ s) : ℝ)) ⟨false, 1⟩ pinv u hC).2 hdet
  obtain ⟨x, x1, x2⟩ := hsym st'.sw.pc v s f4 k3 (fun k f => set_admits law hclean k1) hup hv hphys hsok
  rw [← f1] at x2
  have hread := current_numbers law hex hcur k2 x2
  obtain ⟨o, o₁, N, N₁, n1, n2, m1, m2, n3⟩ := hamiltonianOf_stored (u := u) hnd hcur hcur₁ (f3.trans hnodes) hnodes₁ hread
  obtain ⟨s', C', g1, g2, g3, g4, g5⟩ := h3 (fun c => (v c : ℝ)) (fun s => (v ("phi" ++ s) : ℝ)) (fun s => (v ("Q" ++ s) : ℝ)) hphys.caps hphys.ground
    (fun br hbr => by exact_mod_cast hphys.inductors br hbr) hphys.biases pinv hp u cfg _ _ (fun i => expandNode_mixed (n2 i) (m2 i))
  rw [hsok] at g1
  cases g1
  rw [readSys_eq hsok x1] at n3
  refine ⟨C', o, o₁, N, N₁, g2, g3, g4, n1, n2, m1, m2, ?_⟩
  exact n3 _ g5

/-- The Hamiltonian with mutual inductances at the values of the parameters, with operator vectors of an earlier state. -/
theorem coupled_stored (h : List Circuit.Call) (g : CG) (hs : Settled h g) (ha : AllOk h) (hn : CoupledNetlist h) (b : Biases)
    (hb : createFluxBiases g = .ok b) :
    ∃ sgn : String → ℝ, (∀ c, sgn c = 1 ∨ sgn c = -1) ∧
    (∀ br ∈ branches h, ∀ e ∈ edges g, g.cmap.get? e = some br.2.2 → (sgn br.2.2 = 1 ↔ e.1 = br.1)) ∧
    ∀ (E D R P X V Q : Type) (eng : Engine E) (law : eng.Lawful D) (_ : ∀ q : ℚ, law.toPF (law.ofPF (.fin q)) = some (.fin q))
      (pinv : Matrix (Fin (edges g).length) (Fin (edges g).length) ℝ → Matrix (Fin (edges g).length) (Fin (edges g).length) ℝ)
      (_ : ∀ M, IsPinv M (pinv M)) (u : Prefs) (cfg : Fin (nodes g).length → NodeCfg)
      (ops : ∀ i, Option PF → Except Err (NodeOps (cfg i).dim)) (base : Phys (BigNode cfg) (BigOp cfg) P X V R)
      (st st' st₁ : NS E Q (BigNode cfg)) (_ : st.nodes = nodes g) (_ : CleanReachable eng st.sw.pc)
      (_ : CoupledSymbolicOf eng law h g b pinv u st.sw.pc st.exprs) (ho : HashOrder) (fuel : ℕ) (args : List BulkArg)
      (_ : st.setParameterValues eng ho fuel (circuitPhys g u cfg ops base).gen args = (st', .ok ()))
      (_ : Current eng (genOf g cfg ops) st₁) (_ : st₁.nodes = nodes g) (v : String → ℚ) (_ : ValuesOf h st'.sw.pc v) (_ : CoupledValues h v),
    ∃ (C : Matrix (Fin (nodes g).length) (Fin (nodes g).length) ℝ) (o o₁ : ∀ i, NodeOps (cfg i).dim) (N N₀ : Fin (nodes g).length → BigNode cfg),
      C.transpose = C ∧ C.det ≠ 0 ∧
      (∀ w : ℕ → ℝ, w 0 = 0 → atNodes g w ⬝ᵥ C.mulVec (atNodes g w) = electrostaticForm (fun c => (v c : ℝ)) h w) ∧
      (∀ i, ∃ z, ImpedanceIs st' ((nodes g).get i) (cfg i).basis z ∧ ops i z = .ok (o i)) ∧ (∀ i, expandNode cfg i (o i) = some (N i)) ∧
      (∀ i, ∃ z, ImpedanceIs st₁ ((nodes g).get i) (cfg i).basis z ∧ ops i z = .ok (o₁ i)) ∧ (∀ i, expandNode cfg i (o₁ i) = some (N₀ i)) ∧
      (circuitPhys g u cfg ops base).ham st'.num.get? st'.circ.get? st₁.vec = .ok (mutualOperator (nodes g) h u.Ec u.El u.Ej u.Ep C (fun c => (v c : ℝ)) sgn (gateCharge (fun s => (v ("Q" ++ s) : ℝ)) h)
          (fun c => sgn c * fluxOn (fun s => (v ("phi" ++ s) : ℝ)) h c) ⟨fun i => (N₀ i).Q, fun i => (N₀ i).P, fun i => (N i).D, fun i => (N i).Ddag, fun i => (N i).S, fun i => (N i).Sdag⟩) := by
  obtain ⟨sgn, h1, h2, h3⟩ := C103_operator_partial h g hs ha hn b hb
  refine ⟨sgn, h1, h2, ?_⟩
  intro E D R P X V Q eng law hex pinv hp u cfg ops base st st' st₁ hnodes hclean hsym ho fuel args hset hcur₁ hnodes₁ v hv hphys
  obtain ⟨k1, k2, k3⟩ := set_clean hclean hset
  have hcur := C78_current eng (circuitPhys g u cfg ops base).gen st st' (ho, fuel, .many args) hset
  obtain ⟨f1, -, f3, f4, -⟩ := setCall_frame eng (circuitPhys g u cfg ops base).gen st (ho, fuel, .many args)
  have hset' : st.set eng (circuitPhys g u cfg ops base).gen (ho, fuel, .many args) = (st', .ok ()) := hset
  rw [hset'] at f1 f3 f4
  have hup : UpToDate eng law st'.sw.pc := fun k f a b => C06_dependents_follow_bulk_set_partial eng law st.sw.pc hclean ho fuel args _ k1 k f a b
  have hnd : (nodes g).Nodup := (C29_rows h g hs).1
  obtain ⟨CM, hCM, hsymm, hform⟩ := coupled_capacitance hs ha hn (fun c => (v c : ℝ))
  have hdet := (netlist_det hs _ hphys.caps _ hsymm hform).2 hphys.ground
  obtain ⟨LM, hLM⟩ := coupled_inductance hs ha (coupled_loaded hn) hb (fun c => (v c : ℝ))
  have hsok : ∃ s, assemble g b (fun c => (v c : ℝ)) (fun s => (v ("phi" ++ s) : ℝ)) (fun s => (v ("Q" ++ s) : ℝ)) ⟨false, 1⟩ pinv u = .ok s := by
    unfold assemble
    simp only [hCM, hLM]
    unfold Verif.Sym.inverseCapacitance
    rw [if_neg hdet]
    exact ⟨_, rfl⟩
  obtain ⟨s, hsok⟩ := hsok
  obtain ⟨x, x1, x2⟩ := hsym st'.sw.pc v s f4 k3 (fun k f => set_admits law hclean k1) hup hv hphys hsok
  rw [← f1] at x2
  have hread := current_numbers law hex hcur k2 x2
  obtain ⟨o, o₁, N, N₁, n1, n2, m1, m2, n3⟩ := hamiltonianOf_stored (u := u) hnd hcur hcur₁ (f3.trans hnodes) hnodes₁ hread
  obtain ⟨s', C', g1, g2, g3, g4, g5⟩ := h3 (fun c => (v c : ℝ)) (fun s => (v ("phi" ++ s) : ℝ)) (fun s => (v ("Q" ++ s) : ℝ)) hphys.caps hphys.ground
    (coupled_det (C21_names hs).1 hphys.inductors h1) hphys.biases pinv hp u cfg _ _ (fun i => expandNode_mixed (n2 i) (m2 i))
  rw [hsok] at g1
  cases g1
  rw [readSys_eq hsok x1] at n3
  refine ⟨C', o, o₁, N, N₁, g2, g3, g4, n1, n2, m1, m2, ?_⟩
  exact n3 _ g5

/-- **C102 (partial)** What a sweep computes when it changes the impedances of oscillators.  As `C102_levels_partial`, for sweeps of any parameters of the
circuit: the levels are those of the operator read off the netlist at the values of the point, with the displacement operators of the impedances at the point,
but with the charges and fluxes of the impedances before the sweep, which do not go with them (`C40_false_impedance`).
Missing: as for `C102_hamiltonian_partial`. -/
theorem C102_levels_stored_partial (h : List Circuit.Call) (g : CG) (hs : Settled h g) (ha : AllOk h) (hn : CircuitNetlist h)
    (hlen : (nodes g).length ≤ 111) (hres : ∀ x ∈ h, ∀ k, Declares x k → ¬ Reserved k) (b : Biases) (hb : createFluxBiases g = .ok b) :
    ∃ sgn : String → ℝ, (∀ c, sgn c = 1 ∨ sgn c = -1) ∧
    (∀ br ∈ branches h, ∀ e ∈ edges g, g.cmap.get? e = some br.2.2 → (sgn br.2.2 = 1 ↔ e.1 = br.1)) ∧
    ∀ (E D R P X V : Type) (eng : Engine E) (law : eng.Lawful D) (A : Arith E) (_ : ArithLaws eng law A) (o : Orc)
      (ex : Resonator → Except Err (ResExprs E)) (again : Bool) (freq imp : ℕ → E) (u : Prefs) (cfg : Fin (nodes g).length → NodeCfg)
      (ops : ∀ i, Option PF → Except Err (NodeOps (cfg i).dim)) (base : Phys (BigNode cfg) (BigOp cfg) P X V R)
      (pc : PC E) (st₀ st₁ st st' : NS E (Res X V R) (BigNode cfg)) (_ : systemParameters eng A o ex again g = .ok pc)
      (_ : numericalSystem eng A g b pc = .ok st₀) (_ : Used eng (circuitPhys g u cfg ops base).gen freq imp st₀ st₁) (ho₁ : HashOrder) (fuel₁ : ℕ)
      (args : List BulkArg) (_ : st₁.setParameterValues eng ho₁ fuel₁ (circuitPhys g u cfg ops base).gen args = (st, .ok ()))
      (v₁ : String → ℚ) (_ : ValuesOf h st.sw.pc v₁) (_ : PhysicalValues h v₁) (_ : OscillatorsDefined eng law st.sw.pc)
      (specs : List SweepSpec) (_ : ∀ k ∈ sweptNames specs, ∃ c ∈ h, Declares c k) (_ : (sweptNames specs).Nodup) (_ : (sizes specs).prod ≠ 0)
      (sw : SW E (Res X V R)) (_ : st.sw.ndSweep specs = (sw, .ok ())) (_ : FiniteSweeps sw specs)
      (ho : HashOrder) (fuel : ℕ) (gv : Bool) (files : List (SW.Pickled (Res X V R)))
      (_ : paramSweep eng ho fuel (circuitPhys g u cfg ops base) gv { st with specs := specs, evals := [] } = (st', files, .ok ()))
      (k : ℕ) (_ : ∀ hm es vs, base.solve hm = .ok (es, vs) → es.length = k ∧ vs.length = k)
      (names : ℕ → String) (disk : String → Option (SW.Pickled (Res X V R))) (_ : ∀ i, i < files.length → disk (names i) = files[i]?)
      (m : ℕ) (si : SweepSpec) (_ : specs[m]? = some si) (static : List (String × PF)) (_ : StaticsFor specs [si.name] static),
    ∃ p a vals, sw.pc.coll.get? si.name = some p ∧
      getSweepLevels st'.sw files names disk si.name static "Hamiltonian" = .ok (p.sweep, a, vals) ∧
      a.shape = (if gv then [k, 2, p.sweep.length] else [k, p.sweep.length]) ∧
      ∀ i, i < p.sweep.length → ∃ d es vs, PointAt sw specs si.name static vals p.sweep i d ∧ es.length = k ∧ vs.length = k ∧
        (∀ l, if gv then a.get [l, 0, i] = ((es[l]?).map Cell.num).getD .none ∧ a.get [l, 1, i] = ((vs[l]?).map Cell.vec).getD .none
          else a.get [l, i] = ((es[l]?).map Cell.num).getD .none) ∧
        ∀ v, PointValues h sw.pc d v → PhysicalValues h v →
          ∀ (stF : NS E (Res X V R) (BigNode cfg)) (ho' : HashOrder) (fuel' : ℕ),
          NS.setParameterValues eng ho' fuel' (circuitPhys g u cfg ops base).gen { st with specs := specs, evals := [], sw := sw } (pointArg d) = (stF, .ok ()) →
          OscillatorsDefined eng law stF.sw.pc →
          ∃ (C : Matrix (Fin (nodes g).length) (Fin (nodes g).length) ℝ) (o o₀ : ∀ i, NodeOps (cfg i).dim) (N N₀ : Fin (nodes g).length → BigNode cfg),
            C.transpose = C ∧ C.det ≠ 0 ∧
            (∀ w : ℕ → ℝ, w 0 = 0 → atNodes g w ⬝ᵥ C.mulVec (atNodes g w) = electrostaticForm (fun c => (v c : ℝ)) h w) ∧
            (∀ i, ∃ z, ImpedanceIs stF ((nodes g).get i) (cfg i).basis z ∧ ops i z = .ok (o i)) ∧ (∀ i, expandNode cfg i (o i) = some (N i)) ∧
            (∀ i, ∃ z, ImpedanceIs st ((nodes g).get i) (cfg i).basis z ∧ ops i z = .ok (o₀ i)) ∧ (∀ i, expandNode cfg i (o₀ i) = some (N₀ i)) ∧
            base.solve (netlistOperator (nodes g) h u.Ec u.El u.Ej u.Ep C (fun c => (v c : ℝ)) (gateCharge (fun s => (v ("Q" ++ s) : ℝ)) h)
              (fun c => sgn c * fluxOn (fun s => (v ("phi" ++ s) : ℝ)) h c) ⟨fun i => (N₀ i).Q, fun i => (N₀ i).P, fun i => (N i).D, fun i => (N i).Ddag, fun i => (N i).S,
                fun i => (N i).Sdag⟩) = .ok (es, vs) := by
  obtain ⟨sgn, h1, h2, h3⟩ := circuit_stored h g hs ha hn b hb
  refine ⟨sgn, h1, h2, ?_⟩
  intro E D R P X V eng law A laws o ex again freq imp u cfg ops base pc st₀ st₁ st st' hpc hst hused ho₁ fuel₁ args hset v₁ hv₁ hphys₁ hosc specs hdecl hnd hpos sw hsw
    hfin ho fuel gv files hrun k hk names disk hdisk m si hm static hstat
  choose pinv hp using fun M : Matrix (Fin (edges g).length) (Fin (edges g).length) ℝ => pinv_exists M
  obtain ⟨rfl, hok⟩ := settled_run hs
  have hst₀ := prepared_new law hok ha (netlist_noRes hn) hlen hres hpc hst (freq := freq) (imp := imp)
  have hused' : Used eng (circuitPhys (run {} h) u cfg ops base).gen freq imp st₀ st := .set ho₁ fuel₁ args hused hset
  obtain ⟨k1, k2⟩ := prepared_used (law := law) hok ha hst₀.1 hused'
  obtain ⟨j1, -⟩ := prepared_used (law := law) hok ha hst₀.1 hused
  obtain ⟨hset1, -, -⟩ := set_clean j1.tidy.clean hset
  have hup : UpToDate eng law st.sw.pc := fun k f a b => C06_dependents_follow_bulk_set_partial eng law st₁.sw.pc j1.tidy.clean ho₁ fuel₁ args _ hset1 k f a b
  obtain ⟨s₁, hs₁⟩ := circuit_assembles hs ha hn hb pinv u hphys₁
  obtain ⟨-, hcomp⟩ := prepared_attributes law laws hs ha hn hb pinv hp u k1 st.sw.pc v₁ s₁ rfl rfl (fun _ _ h => h) hup hv₁ hphys₁ hs₁
  have hcfg : Oscillating imp st := by
    refine oscillating_used (fun s hs => (prepared_used (law := law) hok ha hst₀.1 hs).1.tidy.clean) ?_ hused'
    unfold numericalSystem at hst
    split at hst
    · cases hst
    cases hst
    intro node c hc
    cases hc
  have hcur := C78_current eng (circuitPhys (run {} h) u cfg ops base).gen st₁ st (ho₁, fuel₁, .many args) hset
  have hready := ready_of (fun _ _ h => h) k1 hcfg hcur hup (all_computable hosc hcomp) hnd hdecl (fun k _ => (netlist_noRes hn).computed k) hsw (evals := [])
  obtain ⟨w, hw⟩ := SW.ndSweep_ok hsw hnd
  have hprew := k1.values (law := law) hready.clean hw.symMap_eq hw.parz_eq fun k f => swept_admits hw
  obtain ⟨st₂, pts, hpre, hpts⟩ := paramSweep_parts (st := { st with specs := specs, evals := [] }) hrun hsw
  obtain ⟨p, a, vals, a1, a2, a3, a4⟩ := C88_levels_stored eng law ho fuel (circuitPhys (run {} h) u cfg ops base) gv (sweptNames specs) { st with specs := specs, evals := [] } st₂ st'
    sw pts files hsw hready hpre hpts rfl hrun k hk hnd hpos hfin names disk hdisk m si hm static hstat
  refine ⟨p, a, vals, a1, a2, a3, fun i hi => ?_⟩
  obtain ⟨d, es, vs, d1, d2, d3, d4, d5⟩ := a4 i hi
  refine ⟨d, es, vs, d1, d3, d4, d5, ?_⟩
  intro v hv hphys stF ho' fuel' hsetF hoscF
  obtain ⟨f1, f2, f3⟩ := set_clean (st := { st with specs := specs, evals := [], sw := sw }) hready.clean hsetF
  have hupF : UpToDate eng law stF.sw.pc := fun k f a b => C06_dependents_follow_bulk_set_partial eng law sw.pc hready.clean ho' fuel' (pointArg d) _ f1 k f a b
  have hsmF : stF.sw.pc.symMap = sw.pc.symMap := by
    obtain ⟨-, -, -, f4, -⟩ := setCall_frame eng (circuitPhys (run {} h) u cfg ops base).gen { st with specs := specs, evals := [], sw := sw } (ho', fuel', .many (pointArg d))
    have hset' : NS.set eng (circuitPhys (run {} h) u cfg ops base).gen { st with specs := specs, evals := [], sw := sw } (ho', fuel', .many (pointArg d)) = (stF, .ok ()) := hsetF
    rw [hset'] at f4
    exact f4
  have hvals := point_values law hready.clean d1.nodup f1 (fun n hn => hready.indep n ((d1.keys n).1 hn)) hv
  obtain ⟨sF, hsF⟩ := circuit_assembles hs ha hn hb pinv u hphys
  obtain ⟨e1, e2⟩ := prepared_attributes law laws hs ha hn hb pinv hp u hprew stF.sw.pc v sF hsmF f3 (fun k f => set_admits law hready.clean f1) hupF hvals hphys hsF
  obtain ⟨hm', m1, m2⟩ := d2 stF ho' fuel' hsetF (defined_of (st := { st with specs := specs, evals := [], sw := sw }) e1 (all_computable hoscF e2))
  obtain ⟨C, o, o₀, N, N₀, c1, c2, c3, c4, c5, c6, c7, c8⟩ := h3 E D R P X V _ eng law laws.numbers pinv hp u cfg ops base { st with specs := specs, evals := [], sw := sw } stF st
    (k2.trans hst₀.2) hready.clean (prepared_symbolic law laws hs ha hn hb pinv hp u hprew) ho' fuel' (pointArg d) hsetF hcur (k2.trans hst₀.2) v hvals hphys
  refine ⟨C, o, o₀, N, N₀, c1, c2, c3, c4, c5, c6, c7, ?_⟩
  have hvec : ({ st with specs := specs, evals := [], sw := sw } : NS E (Res X V R) (BigNode cfg)).vec = st.vec := rfl
  rw [hvec, c8] at m1
  cases m1
  exact m2

/-- **C103 (partial)** What a sweep computes when it changes the impedances of oscillators.  As `C103_levels_partial`, for sweeps of any parameters of the
circuit: the levels are those of the operator read off the netlist at the values of the point, with the displacement operators of the impedances at the point,
but with the charges and fluxes of the impedances before the sweep, which do not go with them (`C40_false_impedance`).
Missing: as for `C103_hamiltonian_partial`. -/
theorem C103_levels_stored_partial (h : List Circuit.Call) (g : CG) (hs : Settled h g) (ha : AllOk h) (hn : CoupledNetlist h)
    (hlen : (nodes g).length ≤ 111) (hres : ∀ x ∈ h, ∀ k, Declares x k → ¬ Reserved k) (b : Biases) (hb : createFluxBiases g = .ok b) :
    ∃ sgn : String → ℝ, (∀ c, sgn c = 1 ∨ sgn c = -1) ∧
    (∀ br ∈ branches h, ∀ e ∈ edges g, g.cmap.get? e = some br.2.2 → (sgn br.2.2 = 1 ↔ e.1 = br.1)) ∧
    ∀ (E D R P X V : Type) (eng : Engine E) (law : eng.Lawful D) (A : Arith E) (_ : CoupledLaws eng law A) (o : Orc)
      (ex : Resonator → Except Err (ResExprs E)) (again : Bool) (freq imp : ℕ → E) (u : Prefs) (cfg : Fin (nodes g).length → NodeCfg)
      (ops : ∀ i, Option PF → Except Err (NodeOps (cfg i).dim)) (base : Phys (BigNode cfg) (BigOp cfg) P X V R)
      (pc : PC E) (st₀ st₁ st st' : NS E (Res X V R) (BigNode cfg)) (_ : systemParameters eng A o ex again g = .ok pc)
      (_ : numericalSystem eng A g b pc = .ok st₀) (_ : Used eng (circuitPhys g u cfg ops base).gen freq imp st₀ st₁) (ho₁ : HashOrder) (fuel₁ : ℕ)
      (args : List BulkArg) (_ : st₁.setParameterValues eng ho₁ fuel₁ (circuitPhys g u cfg ops base).gen args = (st, .ok ()))
      (v₁ : String → ℚ) (_ : ValuesOf h st.sw.pc v₁) (_ : CoupledValues h v₁) (_ : OscillatorsDefined eng law st.sw.pc)
      (specs : List SweepSpec) (_ : ∀ k ∈ sweptNames specs, ∃ c ∈ h, Declares c k) (_ : (sweptNames specs).Nodup) (_ : (sizes specs).prod ≠ 0)
      (sw : SW E (Res X V R)) (_ : st.sw.ndSweep specs = (sw, .ok ())) (_ : FiniteSweeps sw specs)
      (ho : HashOrder) (fuel : ℕ) (gv : Bool) (files : List (SW.Pickled (Res X V R)))
      (_ : paramSweep eng ho fuel (circuitPhys g u cfg ops base) gv { st with specs := specs, evals := [] } = (st', files, .ok ()))
      (k : ℕ) (_ : ∀ hm es vs, base.solve hm = .ok (es, vs) → es.length = k ∧ vs.length = k)
      (names : ℕ → String) (disk : String → Option (SW.Pickled (Res X V R))) (_ : ∀ i, i < files.length → disk (names i) = files[i]?)
      (m : ℕ) (si : SweepSpec) (_ : specs[m]? = some si) (static : List (String × PF)) (_ : StaticsFor specs [si.name] static),
    ∃ p a vals, sw.pc.coll.get? si.name = some p ∧
      getSweepLevels st'.sw files names disk si.name static "Hamiltonian" = .ok (p.sweep, a, vals) ∧
      a.shape = (if gv then [k, 2, p.sweep.length] else [k, p.sweep.length]) ∧
      ∀ i, i < p.sweep.length → ∃ d es vs, PointAt sw specs si.name static vals p.sweep i d ∧ es.length = k ∧ vs.length = k ∧
        (∀ l, if gv then a.get [l, 0, i] = ((es[l]?).map Cell.num).getD .none ∧ a.get [l, 1, i] = ((vs[l]?).map Cell.vec).getD .none
          else a.get [l, i] = ((es[l]?).map Cell.num).getD .none) ∧
        ∀ v, PointValues h sw.pc d v → CoupledValues h v →
          ∀ (stF : NS E (Res X V R) (BigNode cfg)) (ho' : HashOrder) (fuel' : ℕ),
          NS.setParameterValues eng ho' fuel' (circuitPhys g u cfg ops base).gen { st with specs := specs, evals := [], sw := sw } (pointArg d) = (stF, .ok ()) →
          OscillatorsDefined eng law stF.sw.pc →
          ∃ (C : Matrix (Fin (nodes g).length) (Fin (nodes g).length) ℝ) (o o₀ : ∀ i, NodeOps (cfg i).dim) (N N₀ : Fin (nodes g).length → BigNode cfg),
            C.transpose = C ∧ C.det ≠ 0 ∧
            (∀ w : ℕ → ℝ, w 0 = 0 → atNodes g w ⬝ᵥ C.mulVec (atNodes g w) = electrostaticForm (fun c => (v c : ℝ)) h w) ∧
            (∀ i, ∃ z, ImpedanceIs stF ((nodes g).get i) (cfg i).basis z ∧ ops i z = .ok (o i)) ∧ (∀ i, expandNode cfg i (o i) = some (N i)) ∧
            (∀ i, ∃ z, ImpedanceIs st ((nodes g).get i) (cfg i).basis z ∧ ops i z = .ok (o₀ i)) ∧ (∀ i, expandNode cfg i (o₀ i) = some (N₀ i)) ∧
            base.solve (mutualOperator (nodes g) h u.Ec u.El u.Ej u.Ep C (fun c => (v c : ℝ)) sgn (gateCharge (fun s => (v ("Q" ++ s) : ℝ)) h)
              (fun c => sgn c * fluxOn (fun s => (v ("phi" ++ s) : ℝ)) h c) ⟨fun i => (N₀ i).Q, fun i => (N₀ i).P, fun i => (N i).D, fun i => (N i).Ddag, fun i => (N i).S,
                fun i => (N i).Sdag⟩) = .ok (es, vs) := by
  obtain ⟨sgn, h1, h2, h3⟩ := coupled_stored h g hs ha hn b hb
  refine ⟨sgn, h1, h2, ?_⟩
  intro E D R P X V eng law A laws o ex again freq imp u cfg ops base pc st₀ st₁ st st' hpc hst hused ho₁ fuel₁ args hset v₁ hv₁ hphys₁ hosc specs hdecl hnd hpos sw hsw
    hfin ho fuel gv files hrun k hk names disk hdisk m si hm static hstat
  choose pinv hp using fun M : Matrix (Fin (edges g).length) (Fin (edges g).length) ℝ => pinv_exists M
  obtain ⟨rfl, hok⟩ := settled_run hs
  have hst₀ := prepared_new law hok ha (coupled_noRes hn) hlen hres hpc hst (freq := freq) (imp := imp)
  have hused' : Used eng (circuitPhys (run {} h) u cfg ops base).gen freq imp st₀ st := .set ho₁ fuel₁ args hused hset
  obtain ⟨k1, k2⟩ := prepared_used (law := law) hok ha hst₀.1 hused'
  obtain ⟨j1, -⟩ := prepared_used (law := law) hok ha hst₀.1 hused
  obtain ⟨hset1, -, -⟩ := set_clean j1.tidy.clean hset
  have hup : UpToDate eng law st.sw.pc := fun k f a b => C06_dependents_follow_bulk_set_partial eng law st₁.sw.pc j1.tidy.clean ho₁ fuel₁ args _ hset1 k f a b
  obtain ⟨s₁, hs₁⟩ := coupled_assembles hs ha hn hb pinv u hphys₁
  obtain ⟨-, hcomp⟩ := prepared_inductances law laws hs ha hn hb pinv hp u k1 st.sw.pc v₁ s₁ rfl rfl (fun _ _ h => h) hup hv₁ hphys₁ hs₁
  have hcfg : Oscillating imp st := by
    refine oscillating_used (fun s hs => (prepared_used (law := law) hok ha hst₀.1 hs).1.tidy.clean) ?_ hused'
    unfold numericalSystem at hst
    split at hst
    · cases hst
    cases hst
    intro node c hc
    cases hc
  have hcur := C78_current eng (circuitPhys (run {} h) u cfg ops base).gen st₁ st (ho₁, fuel₁, .many args) hset
  have hready := ready_of (fun _ _ h => h) k1 hcfg hcur hup (all_computable hosc hcomp) hnd hdecl (fun k _ => (coupled_noRes hn).computed k) hsw (evals := [])
  obtain ⟨w, hw⟩ := SW.ndSweep_ok hsw hnd
  have hprew := k1.values (law := law) hready.clean hw.symMap_eq hw.parz_eq fun k f => swept_admits hw
  obtain ⟨st₂, pts, hpre, hpts⟩ := paramSweep_parts (st := { st with specs := specs, evals := [] }) hrun hsw
  obtain ⟨p, a, vals, a1, a2, a3, a4⟩ := C88_levels_stored eng law ho fuel (circuitPhys (run {} h) u cfg ops base) gv (sweptNames specs) { st with specs := specs, evals := [] } st₂ st'
    sw pts files hsw hready hpre hpts rfl hrun k hk hnd hpos hfin names disk hdisk m si hm static hstat
  refine ⟨p, a, vals, a1, a2, a3, fun i hi => ?_⟩
  obtain ⟨d, es, vs, d1, d2, d3, d4, d5⟩ := a4 i hi
  refine ⟨d, es, vs, d1, d3, d4, d5, ?_⟩
  intro v hv hphys stF ho' fuel' hsetF hoscF
  obtain ⟨f1, f2, f3⟩ := set_clean (st := { st with specs := specs, evals := [], sw := sw }) hready.clean hsetF
  have hupF : UpToDate eng law stF.sw.pc := fun k f a b => C06_dependents_follow_bulk_set_partial eng law sw.pc hready.clean ho' fuel' (pointArg d) _ f1 k f a b
  have hsmF : stF.sw.pc.symMap = sw.pc.symMap := by
    obtain ⟨-, -, -, f4, -⟩ := setCall_frame eng (circuitPhys (run {} h) u cfg ops base).gen { st with specs := specs, evals := [], sw := sw } (ho', fuel', .many (pointArg d))
    have hset' : NS.set eng (circuitPhys (run {} h) u cfg ops base).gen { st with specs := specs, evals := [], sw := sw } (ho', fuel', .many (pointArg d)) = (stF, .ok ()) := hsetF
    rw [hset'] at f4
    exact f4
  have hvals := point_values law hready.clean d1.nodup f1 (fun n hn => hready.indep n ((d1.keys n).1 hn)) hv
  obtain ⟨sF, hsF⟩ := coupled_assembles hs ha hn hb pinv u hphys
  obtain ⟨e1, e2⟩ := prepared_inductances law laws hs ha hn hb pinv hp u hprew stF.sw.pc v sF hsmF f3 (fun k f => set_admits law hready.clean f1) hupF hvals hphys hsF
  obtain ⟨hm', m1, m2⟩ := d2 stF ho' fuel' hsetF (defined_of (st := { st with specs := specs, evals := [], sw := sw }) e1 (all_computable hoscF e2))
  obtain ⟨C, o, o₀, N, N₀, c1, c2, c3, c4, c5, c6, c7, c8⟩ := h3 E D R P X V _ eng law laws.numbers pinv hp u cfg ops base { st with specs := specs, evals := [], sw := sw } stF st
    (k2.trans hst₀.2) hready.clean (prepared_coupled law laws hs ha hn hb pinv hp u hprew) ho' fuel' (pointArg d) hsetF hcur (k2.trans hst₀.2) v hvals hphys
  refine ⟨C, o, o₀, N, N₀, c1, c2, c3, c4, c5, c6, c7, ?_⟩
  have hvec : ({ st with specs := specs, evals := [], sw := sw } : NS E (Res X V R) (BigNode cfg)).vec = st.vec := rfl
  rw [hvec, c8] at m1
  cases m1
  exact m2

end Verif.Props
