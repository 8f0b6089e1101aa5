import Verif.Lemmas.MutualUse

/-!
# C103: the use of a circuit with mutual inductances
-/

namespace Verif.Props

open Verif Verif.Spec Verif.PC Verif.Num Verif.Sym Verif.Circuit Verif.Derived

variable {E D : Type}

/-- The pseudo-inverse of the inductance matrix. -/
theorem coupled_pinv {eng : Engine E} (law : eng.Lawful D) {A : Arith E} (laws : CoupledLaws eng law A)
    {h : List Circuit.Call} (hs : Settled h (run {} h)) (ha : AllOk h) (hn : LoadedNetlist h)
    (pinv : Matrix (Fin (edges (run {} h)).length) (Fin (edges (run {} h)).length) ℝ → Matrix (Fin (edges (run {} h)).length) (Fin (edges (run {} h)).length) ℝ)
    (hp : ∀ M, IsPinv M (pinv M)) {pc : PC E} {v : String → ℚ} {LR : Mat ℝ} (hLR : branchInductance (fun c => (v c : ℝ)) (run {} h) = .ok LR)
    (hind : ∀ j : String → ℝ, (∃ br ∈ branchesOf 'L' (branches h), j br.2.2 ≠ 0) → 0 < magneticForm (fun c => (v c : ℝ)) h j) (ρ : Verif.Sym → D) (L B : ℕ → ℕ → E)
    (hcomp : ∀ c, ReadsBare (run {} h) c → Has eng law pc ρ (A.component c) (v c)) (l1 : branchInductanceExpr eng A (run {} h) = .ok L)
    (l2 : A.pinv (edges (run {} h)).length L = .ok B) : ∃ Bq : Matrix (Fin (edges (run {} h)).length) (Fin (edges (run {} h)).length) ℚ,
      (∀ i j : Fin (edges (run {} h)).length, Has eng law pc ρ (B i j) (Bq i j)) ∧ Bq.transpose = Bq ∧ ∀ i j, ((Bq i j : ℚ) : ℝ) = pinv (LR.block _ _) i j := by
  classical
  let R : E → ℝ → Prop := fun e x => ∃ q : ℚ, Has eng law pc ρ e q ∧ (q : ℝ) = x
  have hrel : MatRel R L LR := by
    unfold branchInductanceExpr at l1
    exact @branchInductance_rel E ℝ ⟨eng.lit (.fin 0)⟩ _ R ⟨0, has_lit 0, by simp⟩ _ _ _ (fun c hc => ⟨v c, hcomp c hc, rfl⟩) _ _ l1 hLR
  choose X hX hXR using hrel
  let XM : Matrix (Fin (edges (run {} h)).length) (Fin (edges (run {} h)).length) ℚ := fun i j => X i j
  have hXMR : ∀ i j, ((XM i j : ℚ) : ℝ) = LR.block (edges (run {} h)).length (edges (run {} h)).length i j := fun i j => hXR i j
  have hXs : XM.transpose = XM := by
    ext i j
    have h3 := (branchInductance_ok hLR).2.2 j i
    have e : ((XM j i : ℚ) : ℝ) = XM i j := by rw [hXMR, hXMR]; exact h3
    exact_mod_cast e
  let S : Fin (edges (run {} h)).length → Prop := fun i => IsInductor (run {} h) ((edges (run {} h)).get i)
  have hlit : ∀ i j : Fin (edges (run {} h)).length, ¬ (S i ∧ S j) → L i j = eng.lit (.fin 0) := by
    intro i j hij
    unfold branchInductanceExpr at l1
    exact @branchInductance_zero E ⟨eng.lit (.fin 0)⟩ _ _ hs _ _ l1 i j hij
  have hz : ∀ i j, ¬ (S i ∧ S j) → XM i j = 0 := by
    intro i j hij
    have e : ((XM i j : ℚ) : ℝ) = 0 := by rw [hXMR]; exact branchInductance_zero hs hLR i j hij
    exact_mod_cast e
  have hpos : ∀ x : Fin (edges (run {} h)).length → ℚ, (∀ i, ¬ S i → x i = 0) → x ≠ 0 → 0 < x ⬝ᵥ XM.mulVec x := by
    intro x hsup hx
    have h1 := coupled_positive hs ha hn (fun c => (v c : ℝ)) hLR hind (fun i => (x i : ℝ)) (fun i hi => by rw [hsup i hi]; simp) (by
      intro h0
      apply hx
      funext i
      have := congrFun h0 i
      simpa using this)
    have e : (fun i => (x i : ℝ)) ⬝ᵥ (LR.block (edges (run {} h)).length (edges (run {} h)).length).mulVec (fun i => (x i : ℝ)) = ((x ⬝ᵥ XM.mulVec x : ℚ) : ℝ) := by
      simp only [dotProduct, Matrix.mulVec]
      push_cast
      simp only [hXMR]
    rw [e] at h1
    exact_mod_cast h1
  obtain ⟨-, hP⟩ := pinv_supported XM S hXs hz hpos
  set Y := (XM + outside S)⁻¹ - outside S with hY
  refine ⟨Y, fun i j => ⟨?_, ?_⟩, pinv_symm hXs hP, ?_⟩
  · exact laws.pinvPos ρ _ L B XM Y S l2 (fun i j => (hX i j).1) hlit hXs hpos hP i j
  · intro t ht
    obtain ⟨a, -, c, -, hm⟩ := laws.free_pinv _ _ _ l2 i i.2 j j.2 t ht
    exact (hX a c).2 t hm
  · have hmap : XM.map (Rat.castHom ℝ) = LR.block _ _ := by ext i j; exact hXMR i j
    have hPR : IsPinv (LR.block _ _) (Y.map (Rat.castHom ℝ)) := by
      rw [← hmap]
      refine ⟨?_, ?_, ?_, ?_⟩
      · rw [← Matrix.map_mul, ← Matrix.map_mul, hP.aba]
      · rw [← Matrix.map_mul, ← Matrix.map_mul, hP.bab]
      · rw [← Matrix.map_mul, ← Matrix.transpose_map, hP.ab]
      · rw [← Matrix.map_mul, ← Matrix.transpose_map, hP.ba]
    intro i j
    rw [pinv_unique (hp (LR.block _ _)) hPR]
    rfl

/-- The attributes have the values of the matrices. -/
theorem prepared_inductances {eng : Engine E} (law : eng.Lawful D) {A : Arith E} (laws : CoupledLaws eng law A) {own : String → E → Prop}
    {h : List Circuit.Call} (hs : Settled h (run {} h)) (ha : AllOk h) (hn : CoupledNetlist h) {b : Biases} (hb : createFluxBiases (run {} h) = .ok b)
    (pinv : Matrix (Fin (edges (run {} h)).length) (Fin (edges (run {} h)).length) ℝ → Matrix (Fin (edges (run {} h)).length) (Fin (edges (run {} h)).length) ℝ)
    (hp : ∀ M, IsPinv M (pinv M)) (u : Prefs) {pc1 : PC E} {exprs : Num.Attr → List E} (hpre : Prepared eng A own h b pc1 exprs) :
    ∀ (pc : PC E) (v : String → ℚ) (s : Sys PUnit (nodes (run {} h)).length (edges (run {} h)).length), pc.symMap = pc1.symMap → pc.parz = pc1.parz →
      (∀ k f, Admits pc1 k f → Admits pc k f) → UpToDate eng law pc → ValuesOf h pc v → CoupledValues h v →
      assemble (run {} h) b (fun c => (v c : ℝ)) (fun s => (v ("phi" ++ s) : ℝ)) (fun s => (v ("Q" ++ s) : ℝ)) ⟨false, 1⟩ pinv u = .ok s →
      Expresses eng law pc exprs s ∧ ∀ k, Parametric pc k → (∃ e, own k e) ∨ ∃ f, HasSource eng pc k ∧ Computable eng law pc k f := by
  intro pc v s hsm hpz hadm hup hv hphys hsok
  obtain ⟨CR, hCR, hsymm, hform⟩ := coupled_capacitance hs ha hn (fun c => (v c : ℝ))
  have hdet := (netlist_det hs _ hphys.caps _ hsymm hform).2 hphys.ground
  obtain ⟨LR, hLR⟩ := coupled_inductance hs ha (coupled_loaded hn) hb (fun c => (v c : ℝ))
  exact prepared_expresses law laws.toArithLaws hs ha (coupled_noRes hn).keeps (fun c _ => (coupled_noRes hn).computed c) hb pinv u hpre hsm hpz hadm hup hv hsok hCR hsymm
    (electrostatic_posSemidef hs hsymm hform hphys.caps) hdet (fun ρ _ _ n r hr => absurd hr (coupled_frame hn n r)) hLR
    (coupled_pinv law laws hs ha (coupled_loaded hn) pinv hp hLR hphys.inductors)

/-- The attributes are those of the circuit. -/
theorem prepared_coupled {eng : Engine E} (law : eng.Lawful D) {A : Arith E} (laws : CoupledLaws eng law A) {own : String → E → Prop}
    {h : List Circuit.Call} (hs : Settled h (run {} h)) (ha : AllOk h) (hn : CoupledNetlist h) {b : Biases} (hb : createFluxBiases (run {} h) = .ok b)
    (pinv : Matrix (Fin (edges (run {} h)).length) (Fin (edges (run {} h)).length) ℝ → Matrix (Fin (edges (run {} h)).length) (Fin (edges (run {} h)).length) ℝ)
    (hp : ∀ M, IsPinv M (pinv M)) (u : Prefs) {pc1 : PC E} {exprs : Num.Attr → List E} (hpre : Prepared eng A own h b pc1 exprs) :
    CoupledSymbolicOf eng law h (run {} h) b pinv u pc1 exprs :=
  fun pc v s h1 h2 h3 h4 h5 h6 h7 => (prepared_inductances law laws hs ha hn hb pinv hp u hpre pc v s h1 h2 h3 h4 h5 h6 h7).1

/-- **C103 (partial)** The expressions of a circuit with mutual inductances, as `C102_symbolic_partial`: at all values for which the circuit can be quantised
the symbolic attributes that `getSymbolicExpressions` computes are its matrices and vectors.
Missing: resonators (`C104_symbolic_partial`) and coordinate transforms; netlists with names of matrix elements, for which the claim is false (`C36_false_user_name`). -/
theorem C103_symbolic_partial (eng : Engine E) (law : eng.Lawful D) (A : Arith E) (laws : CoupledLaws eng law A) (o : Orc)
    (ex : Resonator → Except Err (ResExprs E)) (again : Bool) (h : List Circuit.Call) (g : CG) (hs : Settled h g) (ha : AllOk h) (hn : CoupledNetlist h)
    (hlen : (nodes g).length ≤ 111) (hres : ∀ x ∈ h, ∀ k, Declares x k → ¬ Reserved k) (b : Biases) (hb : createFluxBiases g = .ok b)
    (pinv : Matrix (Fin (edges g).length) (Fin (edges g).length) ℝ → Matrix (Fin (edges g).length) (Fin (edges g).length) ℝ)
    (hp : ∀ M, IsPinv M (pinv M)) (u : Prefs) (pc0 pc1 : PC E) (exprs : Num.Attr → List E)
    (h0 : systemParameters eng A o ex again g = .ok pc0) (h1 : symbolicExpressions eng A g b pc0 = (pc1, .ok exprs)) :
    CleanReachable eng pc1 ∧ CoupledSymbolicOf eng law h g b pinv u pc1 exprs := by
  obtain ⟨rfl, hok⟩ := settled_run hs
  have hpre := prepared_first law hok ha (coupled_noRes hn) hlen hres h0 h1 (own := fun _ _ => False) fun _ _ h => h.elim
  exact ⟨hpre.tidy.clean, prepared_coupled law laws hs ha hn hb pinv hp u hpre⟩

/-- The Hamiltonian at the values of the parameters. -/
theorem coupled_hamiltonian (h : List Circuit.Call) (g : CG) (hs : Settled h g) (ha : AllOk h) (hn : CoupledNetlist h) (b : Biases)
    (hb : createFluxBiases g = .ok b) :
    ∃ sgn : String → ℝ, (∀ c, sgn c = 1 ∨ sgn c = -1) ∧
    (∀ br ∈ branches h, ∀ e ∈ edges g, g.cmap.get? e = some br.2.2 → (sgn br.2.2 = 1 ↔ e.1 = br.1)) ∧
    ∀ (E D R P X V Q : Type) (eng : Engine E) (law : eng.Lawful D) (_ : ∀ q : ℚ, law.toPF (law.ofPF (.fin q)) = some (.fin q))
      (pinv : Matrix (Fin (edges g).length) (Fin (edges g).length) ℝ → Matrix (Fin (edges g).length) (Fin (edges g).length) ℝ)
      (_ : ∀ M, IsPinv M (pinv M)) (u : Prefs) (cfg : Fin (nodes g).length → NodeCfg)
      (ops : ∀ i, Option PF → Except Err (NodeOps (cfg i).dim)) (base : Phys (BigNode cfg) (BigOp cfg) P X V R)
      (st st' : NS E Q (BigNode cfg)) (_ : st.nodes = nodes g) (_ : CleanReachable eng st.sw.pc)
      (_ : CoupledSymbolicOf eng law h g b pinv u st.sw.pc st.exprs) (ho : HashOrder) (fuel : ℕ) (args : List BulkArg)
      (_ : st.setParameterValues eng ho fuel (circuitPhys g u cfg ops base).gen args = (st', .ok ()))
      (v : String → ℚ) (_ : ValuesOf h st'.sw.pc v) (_ : CoupledValues h v),
    ∃ (C : Matrix (Fin (nodes g).length) (Fin (nodes g).length) ℝ) (o : ∀ i, NodeOps (cfg i).dim) (N : Fin (nodes g).length → BigNode cfg),
      C.transpose = C ∧ C.det ≠ 0 ∧
      (∀ w : ℕ → ℝ, w 0 = 0 → atNodes g w ⬝ᵥ C.mulVec (atNodes g w) = electrostaticForm (fun c => (v c : ℝ)) h w) ∧
      (∀ i, ∃ z, ImpedanceIs st' ((nodes g).get i) (cfg i).basis z ∧ ops i z = .ok (o i)) ∧ (∀ i, expandNode cfg i (o i) = some (N i)) ∧
      callMethod (circuitPhys g u cfg ops base) st' .getHamiltonian none {} =
        .ok (.inl (mutualOperator (nodes g) h u.Ec u.El u.Ej u.Ep C (fun c => (v c : ℝ)) sgn (gateCharge (fun s => (v ("Q" ++ s) : ℝ)) h)
          (fun c => sgn c * fluxOn (fun s => (v ("phi" ++ s) : ℝ)) h c) (nodeOperators N))) := by
  obtain ⟨sgn, h1, h2, h3⟩ := C103_operator_partial h g hs ha hn b hb
  refine ⟨sgn, h1, h2, ?_⟩
  intro E D R P X V Q eng law hex pinv hp u cfg ops base st st' hnodes hclean hsym ho fuel args hset v hv hphys
  obtain ⟨k1, k2, k3⟩ := set_clean hclean hset
  have hcur := C78_current eng (circuitPhys g u cfg ops base).gen st st' (ho, fuel, .many args) hset
  obtain ⟨f1, -, f3, f4, -⟩ := setCall_frame eng (circuitPhys g u cfg ops base).gen st (ho, fuel, .many args)
  have hset' : st.set eng (circuitPhys g u cfg ops base).gen (ho, fuel, .many args) = (st', .ok ()) := hset
  rw [hset'] at f1 f3 f4
  have hup : UpToDate eng law st'.sw.pc := fun k f a b => C06_dependents_follow_bulk_set_partial eng law st.sw.pc hclean ho fuel args _ k1 k f a b
  have hnd : (nodes g).Nodup := (C29_rows h g hs).1
  obtain ⟨CM, hCM, hsymm, hform⟩ := coupled_capacitance hs ha hn (fun c => (v c : ℝ))
  have hdet := (netlist_det hs _ hphys.caps _ hsymm hform).2 hphys.ground
  obtain ⟨LM, hLM⟩ := coupled_inductance hs ha (coupled_loaded hn) hb (fun c => (v c : ℝ))
  have hsok : ∃ s, assemble g b (fun c => (v c : ℝ)) (fun s => (v ("phi" ++ s) : ℝ)) (fun s => (v ("Q" ++ s) : ℝ)) ⟨false, 1⟩ pinv u = .ok s := by
    unfold assemble
    simp only [hCM, hLM]
    unfold Verif.Sym.inverseCapacitance
    rw [if_neg hdet]
    exact ⟨_, rfl⟩
  obtain ⟨s, hsok⟩ := hsok
  obtain ⟨x, x1, x2⟩ := hsym st'.sw.pc v s f4 k3 (fun k f => set_admits law hclean k1) hup hv hphys hsok
  rw [← f1] at x2
  have hread := current_numbers law hex hcur k2 x2
  obtain ⟨o, N, n1, n2, n3⟩ := hamiltonianOf_current (u := u) hnd hcur (f3.trans hnodes) hread
  obtain ⟨s', C', g1, g2, g3, g4, g5⟩ := h3 (fun c => (v c : ℝ)) (fun s => (v ("phi" ++ s) : ℝ)) (fun s => (v ("Q" ++ s) : ℝ)) hphys.caps hphys.ground
    (coupled_det (C21_names hs).1 hphys.inductors h1) hphys.biases pinv hp u cfg o N n2
  rw [hsok] at g1
  cases g1
  rw [readSys_eq hsok x1] at n3
  refine ⟨C', o, N, g2, g3, g4, n1, n2, ?_⟩
  have hham : (circuitPhys g u cfg ops base).ham st'.num.get? st'.circ.get? st'.vec = .ok _ := n3 _ g5
  unfold callMethod
  simp only [hham]

/-- **C103 (partial)** From the calls that describe a circuit with mutual inductances to its Hamiltonian in use.  Take any netlist of capacitors,
inductors, junctions and phase slips with flux and charge biases and, after the last branch, mutual inductances between different inductors,
built by successful calls, in which no component has the name of a matrix element.  Make the symbolic and the numerical system of the
circuit, and use it: choose bases and set values, in any order.  Whenever `setParameterValues` succeeds and leaves values for which the circuit
can be quantised, `getHamiltonian` succeeds and returns the operator read off the netlist at those values, in which the inductors store
`El/2 Σ Λ⁻¹_bb' X_b X_b'`.
Missing: as for `C103_operator_partial` and `C103_symbolic_partial`. -/
theorem C103_hamiltonian_partial (h : List Circuit.Call) (g : CG) (hs : Settled h g) (ha : AllOk h) (hn : CoupledNetlist h)
    (hlen : (nodes g).length ≤ 111) (hres : ∀ x ∈ h, ∀ k, Declares x k → ¬ Reserved k) (b : Biases) (hb : createFluxBiases g = .ok b) :
    ∃ sgn : String → ℝ, (∀ c, sgn c = 1 ∨ sgn c = -1) ∧
    (∀ br ∈ branches h, ∀ e ∈ edges g, g.cmap.get? e = some br.2.2 → (sgn br.2.2 = 1 ↔ e.1 = br.1)) ∧
    ∀ (E D R P X V Q : Type) (eng : Engine E) (law : eng.Lawful D) (A : Arith E) (_ : CoupledLaws eng law A) (o : Orc)
      (ex : Resonator → Except Err (ResExprs E)) (again : Bool) (freq imp : ℕ → E) (u : Prefs) (cfg : Fin (nodes g).length → NodeCfg)
      (ops : ∀ i, Option PF → Except Err (NodeOps (cfg i).dim)) (base : Phys (BigNode cfg) (BigOp cfg) P X V R)
      (pc : PC E) (st₀ st st' : NS E Q (BigNode cfg)) (_ : systemParameters eng A o ex again g = .ok pc) (_ : numericalSystem eng A g b pc = .ok st₀)
      (_ : Used eng (circuitPhys g u cfg ops base).gen freq imp st₀ st) (ho : HashOrder) (fuel : ℕ) (args : List BulkArg)
      (_ : st.setParameterValues eng ho fuel (circuitPhys g u cfg ops base).gen args = (st', .ok ()))
      (v : String → ℚ) (_ : ValuesOf h st'.sw.pc v) (_ : CoupledValues h v),
    ∃ (C : Matrix (Fin (nodes g).length) (Fin (nodes g).length) ℝ) (o : ∀ i, NodeOps (cfg i).dim) (N : Fin (nodes g).length → BigNode cfg),
      C.transpose = C ∧ C.det ≠ 0 ∧
      (∀ w : ℕ → ℝ, w 0 = 0 → atNodes g w ⬝ᵥ C.mulVec (atNodes g w) = electrostaticForm (fun c => (v c : ℝ)) h w) ∧
      (∀ i, ∃ z, ImpedanceIs st' ((nodes g).get i) (cfg i).basis z ∧ ops i z = .ok (o i)) ∧ (∀ i, expandNode cfg i (o i) = some (N i)) ∧
      callMethod (circuitPhys g u cfg ops base) st' .getHamiltonian none {} =
        .ok (.inl (mutualOperator (nodes g) h u.Ec u.El u.Ej u.Ep C (fun c => (v c : ℝ)) sgn (gateCharge (fun s => (v ("Q" ++ s) : ℝ)) h)
          (fun c => sgn c * fluxOn (fun s => (v ("phi" ++ s) : ℝ)) h c) (nodeOperators N))) := by
  obtain ⟨sgn, h1, h2, h3⟩ := coupled_hamiltonian h g hs ha hn b hb
  refine ⟨sgn, h1, h2, ?_⟩
  intro E D R P X V Q eng law A laws o ex again freq imp u cfg ops base pc st₀ st st' hpc hst hused ho fuel args hset v hv hphys
  choose pinv hp using fun M : Matrix (Fin (edges g).length) (Fin (edges g).length) ℝ => pinv_exists M
  obtain ⟨rfl, hok⟩ := settled_run hs
  have hst₀ := prepared_new law hok ha (coupled_noRes hn) hlen hres hpc hst (freq := freq) (imp := imp)
  obtain ⟨k1, k2⟩ := prepared_used (law := law) hok ha hst₀.1 hused
  exact h3 E D R P X V Q eng law laws.numbers pinv hp u cfg ops base st st' (k2.trans hst₀.2) k1.tidy.clean
    (prepared_coupled law laws hs ha hn hb pinv hp u k1) ho fuel args hset v hv hphys

end Verif.Props
