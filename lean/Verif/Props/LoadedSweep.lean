import Verif.Spec.LoadedSweep
import Verif.Props.LoadedUse
import Verif.Props.SweepUse

/-!
# C104: sweeps of a circuit with resonators
-/

namespace Verif.Props

open Verif Verif.Spec Verif.PC Verif.Num Verif.Sym Verif.Circuit Verif.Derived Matrix

theorem loaded_assembles {h : List Circuit.Call} {g : CG} (hs : Settled h g) (ha : AllOk h) (hn : LoadedNetlist h) {b : Biases} (hb : createFluxBiases g = .ok b)
    (pinv : Matrix (Fin (edges g).length) (Fin (edges g).length) ℝ → Matrix (Fin (edges g).length) (Fin (edges g).length) ℝ) (u : Prefs)
    {v : String → ℚ} (hphys : LoadedValues h v) :
    ∃ s, assemble g b (fun c => (v c : ℝ)) (fun s => (v ("phi" ++ s) : ℝ)) (fun s => (v ("Q" ++ s) : ℝ)) ⟨false, 1⟩ pinv u = .ok s := by
  obtain ⟨CM, hCM, hsymm, hform⟩ := loaded_capacitance hs ha hn (fun c => (v c : ℝ))
  have hdet := (loaded_det hs _ hphys.caps _ hsymm hform).2 hphys.ground
  obtain ⟨LM, hLM⟩ := coupled_inductance hs ha hn hb (fun c => (v c : ℝ))
  unfold assemble
  simp only [hCM, hLM]
  unfold Verif.Sym.inverseCapacitance
  rw [if_neg hdet]
  exact ⟨_, rfl⟩

/-- Every parameter with an expression can be computed, if the oscillators and the resonators can. -/
theorem loads_computable {E D : Type} {eng : Engine E} {law : eng.Lawful D} {freq imp : ℕ → E} {pc : PC E} {h : List Circuit.Call} (hok : ∀ x ∈ h, x.OK)
    (ha : AllOk h) (hk : KeepsResonators h) {ex : Resonator → Except Err (ResExprs E)} (hosc : OscillatorsDefined eng law pc) (hres : ResonatorsDefined eng law h pc)
    (hc : ∀ k, Parametric pc k → (∃ e, BothOwn (run {} h) ex freq imp k e) ∨ ∃ f, HasSource eng pc k ∧ Computable eng law pc k f) (k : String)
    (hp : Parametric pc k) : ∃ f, HasSource eng pc k ∧ Computable eng law pc k f := by
  rcases hc k hp with ⟨e, ⟨n, ⟨e1, -⟩ | ⟨e1, -⟩⟩ | hr⟩ | h
  · exact hosc n k (Or.inl e1) hp
  · exact hosc n k (Or.inr e1) hp
  · exact hres k (resOwn_computed hok ha hk hr)
  · exact h

/-- The values at the point. -/
theorem loaded_values {E D : Type} {eng : Engine E} (law : eng.Lawful D) {st st' : PC E} (hc : CleanReachable eng st) {ho : HashOrder} {fuel : ℕ}
    {d : Dict String PF} (hd : d.keys.Nodup) (h : st.setParameterValues eng ho fuel (pointArg d) = (st', .ok ()))
    (hind : ∀ n ∈ d.keys, st.coll.get? n ≠ none ∧ ¬ Parametric st n) {l : List Circuit.Call}
    (hfree : ∀ c ∈ l, ∀ n, Declares c n → ¬ Computed l n → ¬ Parametric st n) {v : String → ℚ} (hv : LoadedPoint l st st' d v) :
    ValuesOf l st' v := by
  intro c n hcl hdec
  by_cases hcomp : Computed l n
  · exact hv.2 n hcomp
  · rcases hv.1 c n hcl hdec hcomp with hx | ⟨hx, hval⟩
    · obtain ⟨h1, h2⟩ := hind n (Dict.mem_keys_of_get? hx)
      exact set_value law hc hd h hx h2 h1
    · have hkeys : Dict.keys (d.map fun kv => (kv.1, PyVal.np kv.2)) = Dict.keys d := by unfold Dict.keys; simp
      have hf := set_frame law hc (Dict.keys d) ho fuel (d.map fun kv : String × PF => (kv.1, PyVal.np kv.2)) (by rw [hkeys]; exact fun _ hn => hn) st' h
      obtain ⟨p, hp, hpv⟩ := getValue_iff.1 hval
      obtain ⟨p', a, -, b⟩ := hf.param n p hp
      have hn : n ∉ d.keys := by rwa [← Dict.get?_eq_none_iff]
      rw [b hn (hfree c hcl n hdec hcomp)] at a
      exact getValue_iff.2 ⟨p, a, hpv⟩

/-- **C104 (partial)** From the calls that describe a circuit with resonators to its levels.  As `C103_levels_partial`, for netlists with resonators that are
not removed, in which no component has the name of a computed parameter of a resonator.  Any parameters of the circuit and of the resonators may be swept that
are not computed from others.  When the sweep succeeds, the levels that it returns for a variable are, at each of its values for which the circuit can
be quantised, those of the operator read off the netlist at the values of the point, in which every resonator loads its node with its coupling
capacitance and its capacitance `1/(2 pi f Z)` in series, at the frequency and the impedance of the point.
Missing: as for `C104_hamiltonian_partial`; sweeps that change the impedances of oscillators. -/
theorem C104_levels_partial (h : List Circuit.Call) (g : CG) (hs : Settled h g) (ha : AllOk h) (hn : LoadedNetlist h) (hk : KeepsResonators h) (hpn : PlainNames h)
    (hlen : (nodes g).length ≤ 111) (hres : ∀ x ∈ h, ∀ k, Declares x k → ¬ Reserved k) (b : Biases) (hb : createFluxBiases g = .ok b) :
    ∃ sgn : String → ℝ, (∀ c, sgn c = 1 ∨ sgn c = -1) ∧
    (∀ br ∈ branches h, ∀ e ∈ edges g, g.cmap.get? e = some br.2.2 → (sgn br.2.2 = 1 ↔ e.1 = br.1)) ∧
    ∀ (E D R P X V : Type) (eng : Engine E) (law : eng.Lawful D) (A : Arith E) (_ : LoadedLaws eng law A) (o : Orc)
      (ex : Resonator → Except Err (ResExprs E)) (pi : ℚ) (_ : 0 < pi) (_ : ResonatorLaws eng law ex pi) (again : Bool) (freq imp : ℕ → E) (u : Prefs) (cfg : Fin (nodes g).length → NodeCfg)
      (ops : ∀ i, Option PF → Except Err (NodeOps (cfg i).dim)) (base : Phys (BigNode cfg) (BigOp cfg) P X V R)
      (pc : PC E) (st₀ st₁ st st' : NS E (Res X V R) (BigNode cfg)) (_ : systemParameters eng A o ex again g = .ok pc)
      (_ : numericalSystem eng A g b pc = .ok st₀) (_ : Used eng (circuitPhys g u cfg ops base).gen freq imp st₀ st₁) (ho₁ : HashOrder) (fuel₁ : ℕ)
      (args : List BulkArg) (_ : st₁.setParameterValues eng ho₁ fuel₁ (circuitPhys g u cfg ops base).gen args = (st, .ok ()))
      (v₁ : String → ℚ) (_ : ValuesOf h st.sw.pc v₁) (_ : LoadedValues h v₁) (_ : OscillatorsDefined eng law st.sw.pc)
      (_ : ResonatorsDefined eng law h st.sw.pc)
      (specs : List SweepSpec) (_ : ∀ k ∈ sweptNames specs, (∃ c ∈ h, Declares c k) ∧ ¬ Computed h k) (_ : (sweptNames specs).Nodup) (_ : (sizes specs).prod ≠ 0)
      (sw : SW E (Res X V R)) (_ : st.sw.ndSweep specs = (sw, .ok ())) (_ : FiniteSweeps sw specs)
      (_ : ∀ node c n s, st.cfg.get? node = some c → c.basis = .oscillator → sw.pc.getSymbol n = .ok s → s ∈ eng.free (imp node) →
        ¬ Affected sw.pc (sweptNames specs) n)
      (ho : HashOrder) (fuel : ℕ) (gv : Bool) (files : List (SW.Pickled (Res X V R)))
      (_ : paramSweep eng ho fuel (circuitPhys g u cfg ops base) gv { st with specs := specs, evals := [] } = (st', files, .ok ()))
      (k : ℕ) (_ : ∀ hm es vs, base.solve hm = .ok (es, vs) → es.length = k ∧ vs.length = k)
      (names : ℕ → String) (disk : String → Option (SW.Pickled (Res X V R))) (_ : ∀ i, i < files.length → disk (names i) = files[i]?)
      (m : ℕ) (si : SweepSpec) (_ : specs[m]? = some si) (static : List (String × PF)) (_ : StaticsFor specs [si.name] static),
    ∃ p a vals, sw.pc.coll.get? si.name = some p ∧
      getSweepLevels st'.sw files names disk si.name static "Hamiltonian" = .ok (p.sweep, a, vals) ∧
      a.shape = (if gv then [k, 2, p.sweep.length] else [k, p.sweep.length]) ∧
      ∀ i, i < p.sweep.length → ∃ d es vs, PointAt sw specs si.name static vals p.sweep i d ∧ es.length = k ∧ vs.length = k ∧
        (∀ l, if gv then a.get [l, 0, i] = ((es[l]?).map Cell.num).getD .none ∧ a.get [l, 1, i] = ((vs[l]?).map Cell.vec).getD .none
          else a.get [l, i] = ((es[l]?).map Cell.num).getD .none) ∧
        ∀ (v : String → ℚ) (_ : LoadedValues h v)
          (stF : NS E (Res X V R) (BigNode cfg)) (ho' : HashOrder) (fuel' : ℕ),
          NS.setParameterValues eng ho' fuel' (circuitPhys g u cfg ops base).gen { st with specs := specs, evals := [], sw := sw } (pointArg d) = (stF, .ok ()) →
          OscillatorsDefined eng law stF.sw.pc → ResonatorsDefined eng law h stF.sw.pc → LoadedPoint h sw.pc stF.sw.pc d v →
          (∀ n c, .coupleResonator n c ∈ h → v (resonatorName n) = 1 / (2 * pi * v (frequencyName n) * v (impedanceName n))) ∧
          ∃ (C : Matrix (Fin (nodes g).length) (Fin (nodes g).length) ℝ) (o : ∀ i, NodeOps (cfg i).dim) (N : Fin (nodes g).length → BigNode cfg),
            C.transpose = C ∧ C.det ≠ 0 ∧
            (∀ w : ℕ → ℝ, w 0 = 0 → atNodes g w ⬝ᵥ C.mulVec (atNodes g w) = loadedForm (fun c => (v c : ℝ)) h w) ∧
            (∀ i, ∃ z, ImpedanceIs stF ((nodes g).get i) (cfg i).basis z ∧ ops i z = .ok (o i)) ∧ (∀ i, expandNode cfg i (o i) = some (N i)) ∧
            base.solve (mutualOperator (nodes g) h u.Ec u.El u.Ej u.Ep C (fun c => (v c : ℝ)) sgn (gateCharge (fun s => (v ("Q" ++ s) : ℝ)) h)
              (fun c => sgn c * fluxOn (fun s => (v ("phi" ++ s) : ℝ)) h c) (nodeOperators N)) = .ok (es, vs) := by
  obtain ⟨sgn, h1, h2, h3⟩ := loaded_hamiltonian h g hs ha hn b hb
  refine ⟨sgn, h1, h2, ?_⟩
  intro E D R P X V eng law A laws o ex pi hpi hex again freq imp u cfg ops base pc st₀ st₁ st st' hpc hst hused ho₁ fuel₁ args hset v₁ hv₁ hphys₁ hosc hresd specs hdecl hnd hpos sw hsw
    hfin himp ho fuel gv files hrun k hlen' names disk hdisk m si hm static hstat
  choose pinv hp using fun M : Matrix (Fin (edges g).length) (Fin (edges g).length) ℝ => pinv_exists M
  obtain ⟨rfl, hok⟩ := settled_run hs
  have hused' : Used eng (circuitPhys (run {} h) u cfg ops base).gen freq imp st₀ st := .set ho₁ fuel₁ args hused hset
  obtain ⟨k1, k2, k3, k4⟩ := prepared_both law hok ha hk hlen hres hpc hst hused'
  obtain ⟨j1, -⟩ := prepared_both law hok ha hk hlen hres hpc hst hused
  obtain ⟨hset1, -, -⟩ := set_clean j1.tidy.clean hset
  have hup : UpToDate eng law st.sw.pc := fun k f a b => C06_dependents_follow_bulk_set_partial eng law st₁.sw.pc j1.tidy.clean ho₁ fuel₁ args _ hset1 k f a b
  obtain ⟨s₁, hs₁⟩ := loaded_assembles hs ha hn hb pinv u hphys₁
  obtain ⟨-, hcomp⟩ := prepared_loads law laws hpi hex hs ha hn hk hpn hb pinv hp u k1 k3 k4 st.sw.pc v₁ s₁ rfl rfl (fun _ _ h => h) hup hv₁ hphys₁ hs₁
  have hcfg : Oscillating imp st := by
    refine oscillating_used (fun s hs => (prepared_both law hok ha hk hlen hres hpc hst hs).1.tidy.clean) ?_ hused'
    unfold numericalSystem at hst
    split at hst
    · cases hst
    cases hst
    intro node c hc
    cases hc
  have hcur := C78_current eng (circuitPhys (run {} h) u cfg ops base).gen st₁ st (ho₁, fuel₁, .many args) hset
  have hready := ready_of (fun _ _ h => Or.inl h) k1 hcfg hcur hup (loads_computable hok ha hk hosc hresd hcomp) hnd (fun k hk => (hdecl k hk).1) (fun k hk => (hdecl k hk).2) hsw (evals := [])
  obtain ⟨w, hw⟩ := SW.ndSweep_ok hsw hnd
  have hprew := k1.values (law := law) hready.clean hw.symMap_eq hw.parz_eq fun k f => swept_admits hw
  have hrow : ∀ k e, ResOwn (run {} h) ex k e → Stored eng sw.pc k e := fun k e hr =>
    let ⟨_, _, b1, _⟩ := k3 k e hr
    hprew.owned k e (Or.inr hr) (by rw [hw.parz_eq]; exact Dict.mem_keys_of_get? b1)
  obtain ⟨st₂, pts, hpre, hpts⟩ := paramSweep_parts (st := { st with specs := specs, evals := [] }) hrun hsw
  obtain ⟨p, a, vals, a1, a2, a3, a4⟩ := C88_levels eng law ho fuel (circuitPhys (run {} h) u cfg ops base) gv (sweptNames specs) { st with specs := specs, evals := [] } st₂ st' sw
    pts files hsw hready hpre hpts rfl (by
      intro node c imp' n s hc hb' hi hn' hs'
      rw [(hcfg node c hc hb').1] at hi
      cases hi
      exact himp node c n s hc hb' hn' hs') hrun k hlen' hnd hpos hfin names disk hdisk m si hm static hstat
  refine ⟨p, a, vals, a1, a2, a3, fun i hi => ?_⟩
  obtain ⟨d, es, vs, d1, d2, d3, d4, d5⟩ := a4 i hi
  refine ⟨d, es, vs, d1, d3, d4, d5, ?_⟩
  intro v hphys stF ho' fuel' hsetF hoscF hresF hv
  obtain ⟨f1, f2, f3⟩ := set_clean (st := { st with specs := specs, evals := [], sw := sw }) hready.clean hsetF
  have hupF : UpToDate eng law stF.sw.pc := fun k f a b => C06_dependents_follow_bulk_set_partial eng law sw.pc hready.clean ho' fuel' (pointArg d) _ f1 k f a b
  have hsmF : stF.sw.pc.symMap = sw.pc.symMap := by
    obtain ⟨-, -, -, f4, -⟩ := setCall_frame eng (circuitPhys (run {} h) u cfg ops base).gen { st with specs := specs, evals := [], sw := sw } (ho', fuel', .many (pointArg d))
    have hset' : NS.set eng (circuitPhys (run {} h) u cfg ops base).gen { st with specs := specs, evals := [], sw := sw } (ho', fuel', .many (pointArg d)) = (stF, .ok ()) := hsetF
    rw [hset'] at f4
    exact f4
  have hvals := loaded_values law hready.clean d1.nodup f1 (fun n hn => hready.indep n ((d1.keys n).1 hn)) (fun c hc n hd => (hprew.declared c hc n hd).2) hv
  obtain ⟨sF, hsF⟩ := loaded_assembles hs ha hn hb pinv u hphys
  obtain ⟨⟨e1, -⟩, e2⟩ := prepared_loads law laws hpi hex hs ha hn hk hpn hb pinv hp u hprew hrow k4 stF.sw.pc v sF hsmF f3 (fun k f => set_admits law hready.clean f1) hupF hvals hphys hsF
  obtain ⟨hm', m1, m2⟩ := d2 stF ho' fuel' hsetF (defined_of (st := { st with specs := specs, evals := [], sw := sw }) e1 (loads_computable hok ha hk hoscF hresF e2))
  have hsymL : LoadedSymbolicOf eng law pi h (run {} h) b pinv u sw.pc st.exprs := fun pc v s h1 h2 h3 h4 h5 h6 h7 =>
    (prepared_loads law laws hpi hex hs ha hn hk hpn hb pinv hp u hprew hrow k4 pc v s h1 h2 h3 h4 h5 h6 h7).1
  obtain ⟨c0, C, o, N, c1, c2, c3, c4, c5, c6⟩ := h3 E D R P X V _ eng law laws.numbers pinv hp u cfg ops base { st with specs := specs, evals := [], sw := sw } stF (k2)
    hready.clean pi hsymL ho' fuel' (pointArg d) hsetF v hvals hphys
  refine ⟨c0, C, o, N, c1, c2, c3, c4, c5, ?_⟩
  unfold callMethod at c6
  simp only [m1, Except.ok.injEq, Sum.inl.injEq] at c6
  rw [← c6]
  exact m2

/-- The Hamiltonian with resonators at the values of the parameters, with operator vectors of an earlier state. -/
theorem loaded_stored (h : List Circuit.Call) (g : CG) (hs : Settled h g) (ha : AllOk h) (hn : LoadedNetlist h) (b : Biases)
    (hb : createFluxBiases g = .ok b) :
    ∃ sgn : String → ℝ, (∀ c, sgn c = 1 ∨ sgn c = -1) ∧
    (∀ br ∈ branches h, ∀ e ∈ edges g, g.cmap.get? e = some br.2.2 → (sgn br.2.2 = 1 ↔ e.1 = br.1)) ∧
    ∀ (E D R P X V Q : Type) (eng : Engine E) (law : eng.Lawful D) (_ : ∀ q : ℚ, law.toPF (law.ofPF (.fin q)) = some (.fin q))
      (pinv : Matrix (Fin (edges g).length) (Fin (edges g).length) ℝ → Matrix (Fin (edges g).length) (Fin (edges g).length) ℝ)
      (_ : ∀ M, IsPinv M (pinv M)) (u : Prefs) (cfg : Fin (nodes g).length → NodeCfg)
      (ops : ∀ i, Option PF → Except Err (NodeOps (cfg i).dim)) (base : Phys (BigNode cfg) (BigOp cfg) P X V R)
      (st st' st₁ : NS E Q (BigNode cfg)) (_ : st.nodes = nodes g) (_ : CleanReachable eng st.sw.pc)
      (pi : ℚ) (_ : LoadedSymbolicOf eng law pi h g b pinv u st.sw.pc st.exprs) (ho : HashOrder) (fuel : ℕ) (args : List BulkArg)
      (_ : st.setParameterValues eng ho fuel (circuitPhys g u cfg ops base).gen args = (st', .ok ()))
      (_ : Current eng (genOf g cfg ops) st₁) (_ : st₁.nodes = nodes g) (v : String → ℚ) (_ : ValuesOf h st'.sw.pc v) (_ : LoadedValues h v),
    (∀ n c, .coupleResonator n c ∈ h → v (resonatorName n) = 1 / (2 * pi * v (frequencyName n) * v (impedanceName n))) ∧
    ∃ (C : Matrix (Fin (nodes g).length) (Fin (nodes g).length) ℝ) (o o₁ : ∀ i, NodeOps (cfg i).dim) (N N₀ : Fin (nodes g).length → BigNode cfg),
      C.transpose = C ∧ C.det ≠ 0 ∧
      (∀ w : ℕ → ℝ, w 0 = 0 → atNodes g w ⬝ᵥ C.mulVec (atNodes g w) = loadedForm (fun c => (v c : ℝ)) h w) ∧
      (∀ i, ∃ z, ImpedanceIs st' ((nodes g).get i) (cfg i).basis z ∧ ops i z = .ok (o i)) ∧ (∀ i, expandNode cfg i (o i) = some (N i)) ∧
      (∀ i, ∃ z, ImpedanceIs st₁ ((nodes g).get i) (cfg i).basis z ∧ ops i z = .ok (o₁ i)) ∧ (∀ i, expandNode cfg i (o₁ i) = some (N₀ i)) ∧
      (circuitPhys g u cfg ops base).ham st'.num.get? st'.circ.get? st₁.vec = .ok (mutualOperator (nodes g) h u.Ec u.El u.Ej u.Ep C (fun c => (v c : ℝ)) sgn (gateCharge (fun s => (v ("Q" ++ s) : ℝ)) h)
          (fun c => sgn c * fluxOn (fun s => (v ("phi" ++ s) : ℝ)) h c) ⟨fun i => (N₀ i).Q, fun i => (N₀ i).P, fun i => (N i).D, fun i => (N i).Ddag, fun i => (N i).S, fun i => (N i).Sdag⟩) := by
  obtain ⟨sgn, h1, h2, h3⟩ := C104_operator_partial h g hs ha hn b hb
  refine ⟨sgn, h1, h2, ?_⟩
  intro E D R P X V Q eng law hex pinv hp u cfg ops base st st' st₁ hnodes hclean pi hsym ho fuel args hset hcur₁ hnodes₁ v hv hphys
  obtain ⟨k1, k2, k3⟩ := set_clean hclean hset
  have hcur := C78_current eng (circuitPhys g u cfg ops base).gen st st' (ho, fuel, .many args) hset
  obtain ⟨f1, -, f3, f4, -⟩ := setCall_frame eng (circuitPhys g u cfg ops base).gen st (ho, fuel, .many args)
  have hset' : st.set eng (circuitPhys g u cfg ops base).gen (ho, fuel, .many args) = (st', .ok ()) := hset
  rw [hset'] at f1 f3 f4
  have hup : UpToDate eng law st'.sw.pc := fun k f a b => C06_dependents_follow_bulk_set_partial eng law st.sw.pc hclean ho fuel args _ k1 k f a b
  have hnd : (nodes g).Nodup := (C29_rows h g hs).1
  obtain ⟨CM, hCM, hsymm, hform⟩ := loaded_capacitance hs ha hn (fun c => (v c : ℝ))
  have hdet := (loaded_det hs _ hphys.caps _ hsymm hform).2 hphys.ground
  obtain ⟨LM, hLM⟩ := coupled_inductance hs ha hn hb (fun c => (v c : ℝ))
  have hsok : ∃ s, assemble g b (fun c => (v c : ℝ)) (fun s => (v ("phi" ++ s) : ℝ)) (fun s => (v ("Q" ++ s) : ℝ)) ⟨false, 1⟩ pinv u = .ok s := by
    unfold assemble
    simp only [hCM, hLM]
    unfold Verif.Sym.inverseCapacitance
    rw [if_neg hdet]
    exact ⟨_, rfl⟩
  obtain ⟨s, hsok⟩ := hsok
  obtain ⟨⟨x, x1, x2⟩, hcap⟩ := hsym st'.sw.pc v s f4 k3 (fun k f => set_admits law hclean k1) hup hv hphys hsok
  rw [← f1] at x2
  have hread := current_numbers law hex hcur k2 x2
  obtain ⟨o, o₁, N, N₁, n1, n2, m1, m2, n3⟩ := hamiltonianOf_stored (u := u) hnd hcur hcur₁ (f3.trans hnodes) hnodes₁ hread
  obtain ⟨s', C', g1, g2, g3, g4, g5⟩ := h3 (fun c => (v c : ℝ)) (fun s => (v ("phi" ++ s) : ℝ)) (fun s => (v ("Q" ++ s) : ℝ)) hphys.caps hphys.ground
    (coupled_det (C21_names hs).1 hphys.inductors h1) hphys.biases pinv hp u cfg _ _ (fun i => expandNode_mixed (n2 i) (m2 i))
  rw [hsok] at g1
  cases g1
  rw [readSys_eq hsok x1] at n3
  refine ⟨hcap, C', o, o₁, N, N₁, g2, g3, g4, n1, n2, m1, m2, ?_⟩
  exact n3 _ g5

/-- **C104 (partial)** What a sweep computes when it changes the impedances of oscillators.  As `C104_levels_partial`, for sweeps of any parameters of the
circuit that are not computed: the levels are those of the operator read off the netlist at the values of the point, with the displacement operators of the
impedances at the point, but with the charges and fluxes of the impedances before the sweep, which do not go with them (`C40_false_impedance`).
Missing: as for `C104_hamiltonian_partial`. -/
theorem C104_levels_stored_partial (h : List Circuit.Call) (g : CG) (hs : Settled h g) (ha : AllOk h) (hn : LoadedNetlist h) (hk : KeepsResonators h) (hpn : PlainNames h)
    (hlen : (nodes g).length ≤ 111) (hres : ∀ x ∈ h, ∀ k, Declares x k → ¬ Reserved k) (b : Biases) (hb : createFluxBiases g = .ok b) :
    ∃ sgn : String → ℝ, (∀ c, sgn c = 1 ∨ sgn c = -1) ∧
    (∀ br ∈ branches h, ∀ e ∈ edges g, g.cmap.get? e = some br.2.2 → (sgn br.2.2 = 1 ↔ e.1 = br.1)) ∧
    ∀ (E D R P X V : Type) (eng : Engine E) (law : eng.Lawful D) (A : Arith E) (_ : LoadedLaws eng law A) (o : Orc)
      (ex : Resonator → Except Err (ResExprs E)) (pi : ℚ) (_ : 0 < pi) (_ : ResonatorLaws eng law ex pi) (again : Bool) (freq imp : ℕ → E) (u : Prefs) (cfg : Fin (nodes g).length → NodeCfg)
      (ops : ∀ i, Option PF → Except Err (NodeOps (cfg i).dim)) (base : Phys (BigNode cfg) (BigOp cfg) P X V R)
      (pc : PC E) (st₀ st₁ st st' : NS E (Res X V R) (BigNode cfg)) (_ : systemParameters eng A o ex again g = .ok pc)
      (_ : numericalSystem eng A g b pc = .ok st₀) (_ : Used eng (circuitPhys g u cfg ops base).gen freq imp st₀ st₁) (ho₁ : HashOrder) (fuel₁ : ℕ)
      (args : List BulkArg) (_ : st₁.setParameterValues eng ho₁ fuel₁ (circuitPhys g u cfg ops base).gen args = (st, .ok ()))
      (v₁ : String → ℚ) (_ : ValuesOf h st.sw.pc v₁) (_ : LoadedValues h v₁) (_ : OscillatorsDefined eng law st.sw.pc)
      (_ : ResonatorsDefined eng law h st.sw.pc)
      (specs : List SweepSpec) (_ : ∀ k ∈ sweptNames specs, (∃ c ∈ h, Declares c k) ∧ ¬ Computed h k) (_ : (sweptNames specs).Nodup) (_ : (sizes specs).prod ≠ 0)
      (sw : SW E (Res X V R)) (_ : st.sw.ndSweep specs = (sw, .ok ())) (_ : FiniteSweeps sw specs)
      (ho : HashOrder) (fuel : ℕ) (gv : Bool) (files : List (SW.Pickled (Res X V R)))
      (_ : paramSweep eng ho fuel (circuitPhys g u cfg ops base) gv { st with specs := specs, evals := [] } = (st', files, .ok ()))
      (k : ℕ) (_ : ∀ hm es vs, base.solve hm = .ok (es, vs) → es.length = k ∧ vs.length = k)
      (names : ℕ → String) (disk : String → Option (SW.Pickled (Res X V R))) (_ : ∀ i, i < files.length → disk (names i) = files[i]?)
      (m : ℕ) (si : SweepSpec) (_ : specs[m]? = some si) (static : List (String × PF)) (_ : StaticsFor specs [si.name] static),
    ∃ p a vals, sw.pc.coll.get? si.name = some p ∧
      getSweepLevels st'.sw files names disk si.name static "Hamiltonian" = .ok (p.sweep, a, vals) ∧
      a.shape = (if gv then [k, 2, p.sweep.length] else [k, p.sweep.length]) ∧
      ∀ i, i < p.sweep.length → ∃ d es vs, PointAt sw specs si.name static vals p.sweep i d ∧ es.length = k ∧ vs.length = k ∧
        (∀ l, if gv then a.get [l, 0, i] = ((es[l]?).map Cell.num).getD .none ∧ a.get [l, 1, i] = ((vs[l]?).map Cell.vec).getD .none
          else a.get [l, i] = ((es[l]?).map Cell.num).getD .none) ∧
        ∀ (v : String → ℚ) (_ : LoadedValues h v)
          (stF : NS E (Res X V R) (BigNode cfg)) (ho' : HashOrder) (fuel' : ℕ),
          NS.setParameterValues eng ho' fuel' (circuitPhys g u cfg ops base).gen { st with specs := specs, evals := [], sw := sw } (pointArg d) = (stF, .ok ()) →
          OscillatorsDefined eng law stF.sw.pc → ResonatorsDefined eng law h stF.sw.pc → LoadedPoint h sw.pc stF.sw.pc d v →
          (∀ n c, .coupleResonator n c ∈ h → v (resonatorName n) = 1 / (2 * pi * v (frequencyName n) * v (impedanceName n))) ∧
          ∃ (C : Matrix (Fin (nodes g).length) (Fin (nodes g).length) ℝ) (o o₀ : ∀ i, NodeOps (cfg i).dim) (N N₀ : Fin (nodes g).length → BigNode cfg),
            C.transpose = C ∧ C.det ≠ 0 ∧
            (∀ w : ℕ → ℝ, w 0 = 0 → atNodes g w ⬝ᵥ C.mulVec (atNodes g w) = loadedForm (fun c => (v c : ℝ)) h w) ∧
            (∀ i, ∃ z, ImpedanceIs stF ((nodes g).get i) (cfg i).basis z ∧ ops i z = .ok (o i)) ∧ (∀ i, expandNode cfg i (o i) = some (N i)) ∧
            (∀ i, ∃ z, ImpedanceIs st ((nodes g).get i) (cfg i).basis z ∧ ops i z = .ok (o₀ i)) ∧ (∀ i, expandNode cfg i (o₀ i) = some (N₀ i)) ∧
            base.solve (mutualOperator (nodes g) h u.Ec u.El u.Ej u.Ep C (fun c => (v c : ℝ)) sgn (gateCharge (fun s => (v ("Q" ++ s) : ℝ)) h)
              (fun c => sgn c * fluxOn (fun s => (v ("phi" ++ s) : ℝ)) h c) ⟨fun i => (N₀ i).Q, fun i => (N₀ i).P, fun i => (N i).D, fun i => (N i).Ddag, fun i => (N i).S,
                fun i => (N i).Sdag⟩) = .ok (es, vs) := by
  obtain ⟨sgn, h1, h2, h3⟩ := loaded_stored h g hs ha hn b hb
  refine ⟨sgn, h1, h2, ?_⟩
  intro E D R P X V eng law A laws o ex pi hpi hex again freq imp u cfg ops base pc st₀ st₁ st st' hpc hst hused ho₁ fuel₁ args hset v₁ hv₁ hphys₁ hosc hresd specs hdecl hnd hpos sw hsw
    hfin ho fuel gv files hrun k hlen' names disk hdisk m si hm static hstat
  choose pinv hp using fun M : Matrix (Fin (edges g).length) (Fin (edges g).length) ℝ => pinv_exists M
  obtain ⟨rfl, hok⟩ := settled_run hs
  have hused' : Used eng (circuitPhys (run {} h) u cfg ops base).gen freq imp st₀ st := .set ho₁ fuel₁ args hused hset
  obtain ⟨k1, k2, k3, k4⟩ := prepared_both law hok ha hk hlen hres hpc hst hused'
  obtain ⟨j1, -⟩ := prepared_both law hok ha hk hlen hres hpc hst hused
  obtain ⟨hset1, -, -⟩ := set_clean j1.tidy.clean hset
  have hup : UpToDate eng law st.sw.pc := fun k f a b => C06_dependents_follow_bulk_set_partial eng law st₁.sw.pc j1.tidy.clean ho₁ fuel₁ args _ hset1 k f a b
  obtain ⟨s₁, hs₁⟩ := loaded_assembles hs ha hn hb pinv u hphys₁
  obtain ⟨-, hcomp⟩ := prepared_loads law laws hpi hex hs ha hn hk hpn hb pinv hp u k1 k3 k4 st.sw.pc v₁ s₁ rfl rfl (fun _ _ h => h) hup hv₁ hphys₁ hs₁
  have hcfg : Oscillating imp st := by
    refine oscillating_used (fun s hs => (prepared_both law hok ha hk hlen hres hpc hst hs).1.tidy.clean) ?_ hused'
    unfold numericalSystem at hst
    split at hst
    · cases hst
    cases hst
    intro node c hc
    cases hc
  have hcur := C78_current eng (circuitPhys (run {} h) u cfg ops base).gen st₁ st (ho₁, fuel₁, .many args) hset
  have hready := ready_of (fun _ _ h => Or.inl h) k1 hcfg hcur hup (loads_computable hok ha hk hosc hresd hcomp) hnd (fun k hk => (hdecl k hk).1) (fun k hk => (hdecl k hk).2) hsw (evals := [])
  obtain ⟨w, hw⟩ := SW.ndSweep_ok hsw hnd
  have hprew := k1.values (law := law) hready.clean hw.symMap_eq hw.parz_eq fun k f => swept_admits hw
  have hrow : ∀ k e, ResOwn (run {} h) ex k e → Stored eng sw.pc k e := fun k e hr =>
    let ⟨_, _, b1, _⟩ := k3 k e hr
    hprew.owned k e (Or.inr hr) (by rw [hw.parz_eq]; exact Dict.mem_keys_of_get? b1)
  obtain ⟨st₂, pts, hpre, hpts⟩ := paramSweep_parts (st := { st with specs := specs, evals := [] }) hrun hsw
  obtain ⟨p, a, vals, a1, a2, a3, a4⟩ := C88_levels_stored eng law ho fuel (circuitPhys (run {} h) u cfg ops base) gv (sweptNames specs) { st with specs := specs, evals := [] } st₂ st'
    sw pts files hsw hready hpre hpts rfl hrun k hlen' hnd hpos hfin names disk hdisk m si hm static hstat
  refine ⟨p, a, vals, a1, a2, a3, fun i hi => ?_⟩
  obtain ⟨d, es, vs, d1, d2, d3, d4, d5⟩ := a4 i hi
  refine ⟨d, es, vs, d1, d3, d4, d5, ?_⟩
  intro v hphys stF ho' fuel' hsetF hoscF hresF hv
  obtain ⟨f1, f2, f3⟩ := set_clean (st := { st with specs := specs, evals := [], sw := sw }) hready.clean hsetF
  have hupF : UpToDate eng law stF.sw.pc := fun k f a b => C06_dependents_follow_bulk_set_partial eng law sw.pc hready.clean ho' fuel' (pointArg d) _ f1 k f a b
  have hsmF : stF.sw.pc.symMap = sw.pc.symMap := by
    obtain ⟨-, -, -, f4, -⟩ := setCall_frame eng (circuitPhys (run {} h) u cfg ops base).gen { st with specs := specs, evals := [], sw := sw } (ho', fuel', .many (pointArg d))
    have hset' : NS.set eng (circuitPhys (run {} h) u cfg ops base).gen { st with specs := specs, evals := [], sw := sw } (ho', fuel', .many (pointArg d)) = (stF, .ok ()) := hsetF
    rw [hset'] at f4
    exact f4
  have hvals := loaded_values law hready.clean d1.nodup f1 (fun n hn => hready.indep n ((d1.keys n).1 hn)) (fun c hc n hd => (hprew.declared c hc n hd).2) hv
  obtain ⟨sF, hsF⟩ := loaded_assembles hs ha hn hb pinv u hphys
  obtain ⟨⟨e1, -⟩, e2⟩ := prepared_loads law laws hpi hex hs ha hn hk hpn hb pinv hp u hprew hrow k4 stF.sw.pc v sF hsmF f3 (fun k f => set_admits law hready.clean f1) hupF hvals hphys hsF
  obtain ⟨hm', m1, m2⟩ := d2 stF ho' fuel' hsetF (defined_of (st := { st with specs := specs, evals := [], sw := sw }) e1 (loads_computable hok ha hk hoscF hresF e2))
  have hsymL : LoadedSymbolicOf eng law pi h (run {} h) b pinv u sw.pc st.exprs := fun pc v s h1 h2 h3 h4 h5 h6 h7 =>
    (prepared_loads law laws hpi hex hs ha hn hk hpn hb pinv hp u hprew hrow k4 pc v s h1 h2 h3 h4 h5 h6 h7).1
  obtain ⟨c0, C, o, o₀, N, N₀, c1, c2, c3, c4, c5, c6, c7, c8⟩ := h3 E D R P X V _ eng law laws.numbers pinv hp u cfg ops base { st with specs := specs, evals := [], sw := sw } stF st
    (k2) hready.clean pi hsymL ho' fuel' (pointArg d) hsetF hcur (k2) v hvals hphys
  refine ⟨c0, C, o, o₀, N, N₀, c1, c2, c3, c4, c5, c6, c7, ?_⟩
  have hvec : ({ st with specs := specs, evals := [], sw := sw } : NS E (Res X V R) (BigNode cfg)).vec = st.vec := rfl
  rw [hvec, c8] at m1
  cases m1
  exact m2

end Verif.Props
