import Verif.Lemmas.LoadedUse

/-!
# C104: the use of a circuit with resonators
-/

namespace Verif.Props

open Verif Verif.Spec Verif.PC Verif.Num Verif.Sym Verif.Circuit Verif.Derived

variable {E D : Type}

/-- **C104 (partial)** The expressions of a circuit with resonators, as `C103_symbolic_partial`.  Take any netlist of capacitors, inductors, junctions and
phase slips with flux and charge biases, mutual inductances and resonators, built by successful calls, in which no component has the name of
a matrix element or of a computed parameter of a resonator.  At all values for which the circuit can be quantised the symbolic attributes that
`getSymbolicExpressions` computes are its matrices and vectors, and the capacitance of every resonator is `1/(2 pi f Z)` for its frequency
and impedance.
Missing: resonators that were removed, coordinate transforms; netlists with names of matrix elements or of computed parameters, for which the claim is false
(`C36_false_user_name`, `C89_false_resonator`). -/
theorem C104_symbolic_partial (eng : Engine E) (law : eng.Lawful D) (A : Arith E) (laws : LoadedLaws eng law A) (o : Orc)
    (ex : Resonator → Except Err (ResExprs E)) (pi : ℚ) (hpi : 0 < pi) (hex : ResonatorLaws eng law ex pi) (again : Bool) (h : List Circuit.Call) (g : CG)
    (hs : Settled h g) (ha : AllOk h) (hn : LoadedNetlist h) (hk : KeepsResonators h) (hpn : PlainNames h)
    (hlen : (nodes g).length ≤ 111) (hres : ∀ x ∈ h, ∀ k, Declares x k → ¬ Reserved k) (b : Biases) (hb : createFluxBiases g = .ok b)
    (pinv : Matrix (Fin (edges g).length) (Fin (edges g).length) ℝ → Matrix (Fin (edges g).length) (Fin (edges g).length) ℝ)
    (hp : ∀ M, IsPinv M (pinv M)) (u : Prefs) (pc0 pc1 : PC E) (exprs : Num.Attr → List E)
    (h0 : systemParameters eng A o ex again g = .ok pc0) (h1 : symbolicExpressions eng A g b pc0 = (pc1, .ok exprs)) :
    CleanReachable eng pc1 ∧ LoadedSymbolicOf eng law pi h g b pinv u pc1 exprs := by
  obtain ⟨rfl, hok⟩ := settled_run hs
  obtain ⟨s1, s2, s3⟩ := prepared_start law hok ha hk hlen hres h0 h1 (own := ResOwn (run {} h) ex) (fun _ _ h => h) fun _ _ h => Or.inl h
  exact ⟨s1.tidy.clean, fun pc v s h1 h2 h3 h4 h5 h6 h7 => (prepared_loads law laws hpi hex hs ha hn hk hpn hb pinv hp u s1 s2 s3 pc v s h1 h2 h3 h4 h5 h6 h7).1⟩

/-- The Hamiltonian at the values of the parameters. -/
theorem loaded_hamiltonian (h : List Circuit.Call) (g : CG) (hs : Settled h g) (ha : AllOk h) (hn : LoadedNetlist h) (b : Biases)
    (hb : createFluxBiases g = .ok b) :
    ∃ sgn : String → ℝ, (∀ c, sgn c = 1 ∨ sgn c = -1) ∧
    (∀ br ∈ branches h, ∀ e ∈ edges g, g.cmap.get? e = some br.2.2 → (sgn br.2.2 = 1 ↔ e.1 = br.1)) ∧
    ∀ (E D R P X V Q : Type) (eng : Engine E) (law : eng.Lawful D) (_ : ∀ q : ℚ, law.toPF (law.ofPF (.fin q)) = some (.fin q))
      (pinv : Matrix (Fin (edges g).length) (Fin (edges g).length) ℝ → Matrix (Fin (edges g).length) (Fin (edges g).length) ℝ)
      (_ : ∀ M, IsPinv M (pinv M)) (u : Prefs) (cfg : Fin (nodes g).length → NodeCfg)
      (ops : ∀ i, Option PF → Except Err (NodeOps (cfg i).dim)) (base : Phys (BigNode cfg) (BigOp cfg) P X V R)
      (st st' : NS E Q (BigNode cfg)) (_ : st.nodes = nodes g) (_ : CleanReachable eng st.sw.pc)
      (pi : ℚ) (_ : LoadedSymbolicOf eng law pi h g b pinv u st.sw.pc st.exprs) (ho : HashOrder) (fuel : ℕ) (args : List BulkArg)
      (_ : st.setParameterValues eng ho fuel (circuitPhys g u cfg ops base).gen args = (st', .ok ()))
      (v : String → ℚ) (_ : ValuesOf h st'.sw.pc v) (_ : LoadedValues h v),
    (∀ n c, .coupleResonator n c ∈ h → v (resonatorName n) = 1 / (2 * pi * v (frequencyName n) * v (impedanceName n))) ∧
    ∃ (C : Matrix (Fin (nodes g).length) (Fin (nodes g).length) ℝ) (o : ∀ i, NodeOps (cfg i).dim) (N : Fin (nodes g).length → BigNode cfg),
      C.transpose = C ∧ C.det ≠ 0 ∧
      (∀ w : ℕ → ℝ, w 0 = 0 → atNodes g w ⬝ᵥ C.mulVec (atNodes g w) = loadedForm (fun c => (v c : ℝ)) h w) ∧
      (∀ i, ∃ z, ImpedanceIs st' ((nodes g).get i) (cfg i).basis z ∧ ops i z = .ok (o i)) ∧ (∀ i, expandNode cfg i (o i) = some (N i)) ∧
      callMethod (circuitPhys g u cfg ops base) st' .getHamiltonian none {} =
        .ok (.inl (mutualOperator (nodes g) h u.Ec u.El u.Ej u.Ep C (fun c => (v c : ℝ)) sgn (gateCharge (fun s => (v ("Q" ++ s) : ℝ)) h)
          (fun c => sgn c * fluxOn (fun s => (v ("phi" ++ s) : ℝ)) h c) (nodeOperators N))) := by
  obtain ⟨sgn, h1, h2, h3⟩ := C104_operator_partial h g hs ha hn b hb
  refine ⟨sgn, h1, h2, ?_⟩
  intro E D R P X V Q eng law hex pinv hp u cfg ops base st st' hnodes hclean pi hsym ho fuel args hset v hv hphys
  obtain ⟨k1, k2, k3⟩ := set_clean hclean hset
  have hcur := C78_current eng (circuitPhys g u cfg ops base).gen st st' (ho, fuel, .many args) hset
  obtain ⟨f1, -, f3, f4, -⟩ := setCall_frame eng (circuitPhys g u cfg ops base).gen st (ho, fuel, .many args)
  have hset' : st.set eng (circuitPhys g u cfg ops base).gen (ho, fuel, .many args) = (st', .ok ()) := hset
  rw [hset'] at f1 f3 f4
  have hup : UpToDate eng law st'.sw.pc := fun k f a b => C06_dependents_follow_bulk_set_partial eng law st.sw.pc hclean ho fuel args _ k1 k f a b
  have hnd : (nodes g).Nodup := (C29_rows h g hs).1
  obtain ⟨CM, hCM, hsymm, hform⟩ := loaded_capacitance hs ha hn (fun c => (v c : ℝ))
  have hdet := (loaded_det hs _ hphys.caps _ hsymm hform).2 hphys.ground
  obtain ⟨LM, hLM⟩ := coupled_inductance hs ha hn hb (fun c => (v c : ℝ))
  have hsok : ∃ s, assemble g b (fun c => (v c : ℝ)) (fun s => (v ("phi" ++ s) : ℝ)) (fun s => (v ("Q" ++ s) : ℝ)) ⟨false, 1⟩ pinv u = .ok s := by
    unfold assemble
    simp only [hCM, hLM]
    unfold Verif.Sym.inverseCapacitance
    rw [if_neg hdet]
    exact ⟨_, rfl⟩
  obtain ⟨s, hsok⟩ := hsok
  obtain ⟨⟨x, x1, x2⟩, hcap⟩ := hsym st'.sw.pc v s f4 k3 (fun k f => set_admits law hclean k1) hup hv hphys hsok
  rw [← f1] at x2
  have hread := current_numbers law hex hcur k2 x2
  obtain ⟨o, N, n1, n2, n3⟩ := hamiltonianOf_current (u := u) hnd hcur (f3.trans hnodes) hread
  obtain ⟨s', C', g1, g2, g3, g4, g5⟩ := h3 (fun c => (v c : ℝ)) (fun s => (v ("phi" ++ s) : ℝ)) (fun s => (v ("Q" ++ s) : ℝ)) hphys.caps hphys.ground
    (coupled_det (C21_names hs).1 hphys.inductors h1) hphys.biases pinv hp u cfg o N n2
  rw [hsok] at g1
  cases g1
  rw [readSys_eq hsok x1] at n3
  refine ⟨hcap, C', o, N, g2, g3, g4, n1, n2, ?_⟩
  have hham : (circuitPhys g u cfg ops base).ham st'.num.get? st'.circ.get? st'.vec = .ok _ := n3 _ g5
  unfold callMethod
  simp only [hham]

/-- **C104 (partial)** From the calls that describe a circuit with resonators to its Hamiltonian in use.  Take any netlist of capacitors,
inductors, junctions and phase slips with flux and charge biases, mutual inductances between different inductors after the last branch, and
resonators, built by successful calls, in which no component has the name of a matrix element or of a computed parameter of a resonator.
Make the symbolic and the numerical system of the circuit, and use it: choose bases and set values, in any order.  Whenever
`setParameterValues` succeeds and leaves values for which the circuit can be quantised, `getHamiltonian` succeeds and returns the operator read off
the netlist at those values, in which every resonator loads its node with its coupling capacitance and its capacitance `1/(2 pi f Z)` in series.
Missing: as for `C104_operator_partial` and `C104_symbolic_partial`. -/
theorem C104_hamiltonian_partial (h : List Circuit.Call) (g : CG) (hs : Settled h g) (ha : AllOk h) (hn : LoadedNetlist h) (hk : KeepsResonators h) (hpn : PlainNames h)
    (hlen : (nodes g).length ≤ 111) (hres : ∀ x ∈ h, ∀ k, Declares x k → ¬ Reserved k) (b : Biases) (hb : createFluxBiases g = .ok b) :
    ∃ sgn : String → ℝ, (∀ c, sgn c = 1 ∨ sgn c = -1) ∧
    (∀ br ∈ branches h, ∀ e ∈ edges g, g.cmap.get? e = some br.2.2 → (sgn br.2.2 = 1 ↔ e.1 = br.1)) ∧
    ∀ (E D R P X V Q : Type) (eng : Engine E) (law : eng.Lawful D) (A : Arith E) (_ : LoadedLaws eng law A) (o : Orc)
      (ex : Resonator → Except Err (ResExprs E)) (pi : ℚ) (_ : 0 < pi) (_ : ResonatorLaws eng law ex pi) (again : Bool) (freq imp : ℕ → E) (u : Prefs) (cfg : Fin (nodes g).length → NodeCfg)
      (ops : ∀ i, Option PF → Except Err (NodeOps (cfg i).dim)) (base : Phys (BigNode cfg) (BigOp cfg) P X V R)
      (pc : PC E) (st₀ st st' : NS E Q (BigNode cfg)) (_ : systemParameters eng A o ex again g = .ok pc) (_ : numericalSystem eng A g b pc = .ok st₀)
      (_ : Used eng (circuitPhys g u cfg ops base).gen freq imp st₀ st) (ho : HashOrder) (fuel : ℕ) (args : List BulkArg)
      (_ : st.setParameterValues eng ho fuel (circuitPhys g u cfg ops base).gen args = (st', .ok ()))
      (v : String → ℚ) (_ : ValuesOf h st'.sw.pc v) (_ : LoadedValues h v),
    (∀ n c, .coupleResonator n c ∈ h → v (resonatorName n) = 1 / (2 * pi * v (frequencyName n) * v (impedanceName n))) ∧
    ∃ (C : Matrix (Fin (nodes g).length) (Fin (nodes g).length) ℝ) (o : ∀ i, NodeOps (cfg i).dim) (N : Fin (nodes g).length → BigNode cfg),
      C.transpose = C ∧ C.det ≠ 0 ∧
      (∀ w : ℕ → ℝ, w 0 = 0 → atNodes g w ⬝ᵥ C.mulVec (atNodes g w) = loadedForm (fun c => (v c : ℝ)) h w) ∧
      (∀ i, ∃ z, ImpedanceIs st' ((nodes g).get i) (cfg i).basis z ∧ ops i z = .ok (o i)) ∧ (∀ i, expandNode cfg i (o i) = some (N i)) ∧
      callMethod (circuitPhys g u cfg ops base) st' .getHamiltonian none {} =
        .ok (.inl (mutualOperator (nodes g) h u.Ec u.El u.Ej u.Ep C (fun c => (v c : ℝ)) sgn (gateCharge (fun s => (v ("Q" ++ s) : ℝ)) h)
          (fun c => sgn c * fluxOn (fun s => (v ("phi" ++ s) : ℝ)) h c) (nodeOperators N))) := by
  obtain ⟨sgn, h1, h2, h3⟩ := loaded_hamiltonian h g hs ha hn b hb
  refine ⟨sgn, h1, h2, ?_⟩
  intro E D R P X V Q eng law A laws o ex pi hpi hex again freq imp u cfg ops base pc st₀ st st' hpc hst hused ho fuel args hset v hv hphys
  choose pinv hp using fun M : Matrix (Fin (edges g).length) (Fin (edges g).length) ℝ => pinv_exists M
  obtain ⟨rfl, hok⟩ := settled_run hs
  obtain ⟨k1, k2, k3, k4⟩ := prepared_both law hok ha hk hlen hres hpc hst hused
  have hsym : LoadedSymbolicOf eng law pi h (run {} h) b pinv u st.sw.pc st.exprs := fun pc v s h1 h2 h3 h4 h5 h6 h7 =>
    (prepared_loads law laws hpi hex hs ha hn hk hpn hb pinv hp u k1 k3 k4 pc v s h1 h2 h3 h4 h5 h6 h7).1
  exact h3 E D R P X V Q eng law laws.numbers pinv hp u cfg ops base st st' k2 k1.tidy.clean pi hsym ho fuel args hset v hv hphys

end Verif.Props
