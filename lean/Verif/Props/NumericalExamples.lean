import Verif.Props.Numerical
import Verif.Props.SweepDict
import Verif.Model.Hamiltonian

/-!
# C40-C42: a concrete system, and what fails

One node with a capacitor `C` and an inductor `L` to ground and an external flux `phi`, in the oscillator basis.
-/

namespace Verif.Props

open Verif Verif.Spec Verif.PC Verif.Num

/-! ### Preparing twice changes nothing -/

theorem set_get_self {κ α : Type} [DecidableEq κ] : ∀ (d : Dict κ α) (k : κ) (v : α), Dict.get? d k = some v → Dict.set d k v = d := by
  intro d
  induction d with
  | nil => intro k v h; simp at h
  | cons x d ih =>
    intro k v h
    obtain ⟨k', v'⟩ := x
    rw [Dict.get?_cons] at h
    unfold Dict.set
    split_ifs at h ⊢ with hk
    · cases h; rfl
    · rw [ih k v h]

theorem prepare_of {E R O : Type} (gen : List (ℕ × BasisName) → ℕ → Option PF → Except Err O) (st' : NS E R O) {sh : List (ℕ × BasisName)}
    {l : List O} (hsh' : st'.shape = .ok sh) (hops : ∀ node ∈ st'.nodes, ∃ o, NS.opsOf gen st' sh node = .ok o ∧ st'.circ.get? node = some o)
    (hl : st'.nodes.mapM (fun node => st'.circ.get? node) = some l) (hv : st'.vec = some l) : st'.prepareOperators gen = (st', .ok ()) := by
  have hloop : ∀ nodes : List ℕ, (∀ n ∈ nodes, n ∈ st'.nodes) → NS.expandLoop gen st' sh none nodes st'.circ = (st'.circ, .ok ()) := by
    intro nodes
    induction nodes with
    | nil => intro _; rfl
    | cons n nodes ih =>
      intro hn
      obtain ⟨o, ho, hc⟩ := hops n (hn n (by simp))
      simp only [NS.expandLoop, NS.selected, if_true, ho]
      rw [set_get_self _ _ _ hc]
      exact ih (fun m hm => hn m (by simp [hm]))
  unfold NS.prepareOperators NS.expand
  rw [hsh']
  simp only [hloop st'.nodes (fun n hn => hn)]
  unfold NS.vectors
  simp only [hl]
  rw [← hv]

theorem prepare_twice {E R O : Type} (gen : List (ℕ × BasisName) → ℕ → Option PF → Except Err O) (st st' : NS E R O)
    (h : st.prepareOperators gen = (st', .ok ())) : st'.prepareOperators gen = (st', .ok ()) := by
  obtain ⟨sh, l, hsh, hl, hv, h1, h2, h3, h4, h5, h6⟩ := prepared_spec h
  have hsh' : st'.shape = .ok sh := by unfold NS.shape at hsh ⊢; rw [h3, h4]; exact hsh
  refine prepare_of gen st' hsh' ?_ hl hv
  intro node hn
  obtain ⟨o, ho, hc⟩ := h5 node (h4 ▸ hn)
  refine ⟨o, ?_, hc⟩
  unfold NS.opsOf at ho ⊢
  rw [h3, h1]; exact ho

/-- `setParameterValues` leaves a system whose operators are those of its parameter values. -/
theorem prepared_after_set {E R O : Type} (eng : Engine E) (ho : HashOrder) (fuel : ℕ) (gen : List (ℕ × BasisName) → ℕ → Option PF → Except Err O)
    (st st' : NS E R O) (args : List BulkArg) (h : st.setParameterValues eng ho fuel gen args = (st', .ok ())) :
    st'.prepareOperators gen = (st', .ok ()) := by
  unfold NS.setParameterValues at h
  split at h
  · cases h
  · dsimp only at h
    split_ifs at h
    · split at h
      · cases h
      · exact prepare_twice gen _ _ h
    · cases h

/-! ### The example -/

/-- The parameters that the construction of the symbolic system makes. -/
def lcPC : PC Ast := (PC.new ["C", "L", "phie"]).toOption.getD { coll := [], symMap := [], parz := [], graph := { nodes := [], edges := [] } }

theorem lcPC_eq : PC.new ["C", "L", "phie"] = .ok lcPC := by decide +kernel

/-- `Cinv = 1/C`, `Linv = 1/L`; the flux biases the inductor. -/
def lcExprs : Attr → List Ast
  | .Cinv => [.inv (.sym "C_{}")]
  | .Linv => [.inv (.sym "L_{}")]
  | .LinvB => [.inv (.sym "L_{}")]
  | .Pbi => [.sym "p_{hie}"]
  | _ => [.lit (.fin 0)]

/-- `√(Linv Cinv)`. -/
def lcFreq : ℕ → Ast := fun _ => .sqrt (.mul (.inv (.sym "L_{}")) (.inv (.sym "C_{}")))

/-- `√(Cinv / Linv)`. -/
def lcImp : ℕ → Ast := fun _ => .sqrt (.mul (.inv (.sym "C_{}")) (.inv (.inv (.sym "L_{}"))))

/-- Operators are represented by the impedance they are made from. -/
def lcGen : List (ℕ × BasisName) → ℕ → Option PF → Except Err (Option PF) := fun _ _ z => .ok z

abbrev LcRes := Res PF PF PF

/-- The system after its construction and `configureOperator(1, 2, "oscillator")`. -/
def lcNS₀ : NS Ast LcRes (Option PF) × Except Err Unit :=
  ({ sw := { pc := lcPC }, exprs := lcExprs, nodes := [1] } : NS Ast LcRes (Option PF)).configureOperator Ast.engine lcFreq lcImp 1 2 .oscillator

/-- Then `setParameterValues({"C": 1, "L": 1, "phie": 0})`. -/
def lcNS : NS Ast LcRes (Option PF) × Except Err Unit :=
  lcNS₀.1.setParameterValues Ast.engine .id 10 lcGen [.dict [("C", .int 1), ("L", .int 1), ("phie", .int 0)]]

/-- The calls on the parameters so far. -/
def lcHistory : List (Call Ast) :=
  [⟨.id, 10, .addParameter "fosc1" none⟩, ⟨.id, 10, .addParameterisation "fosc1" (lcFreq 1)⟩,
   ⟨.id, 10, .addParameter "Zosc1" none⟩, ⟨.id, 10, .addParameterisation "Zosc1" (lcImp 1)⟩,
   ⟨.id, 10, .setParameterValues [.dict [("C", .int 1), ("L", .int 1), ("phie", .int 0)]]⟩]

theorem lc_ok : lcNS₀.2 = .ok () ∧ lcNS.2 = .ok () := by decide +kernel

theorem symbol_fresh {pc : PC Ast} {o : Option Sym} (h : ∀ s ∈ o, s ∉ pc.symMap.values) : ∀ s, o = some s → ∀ m, pc.getSymbol m ≠ .ok s := by
  intro s hs m hm
  apply h s hs
  unfold PC.getSymbol at hm
  split at hm
  · cases hm
  · rename_i s' hs'
    cases hm
    exact List.mem_map.2 ⟨_, Dict.mem_of_get? hs', rfl⟩

theorem admits_of {pc : PC Ast} {k : String} {f : PF}
    (h : (pc.coll.get? k).any (fun p => decide ((p.setValue (.float f)).2 = .ok ())) = true) : Admits pc k f := by
  rw [Option.any_eq_true] at h
  obtain ⟨p, hp, h⟩ := h
  exact ⟨p, hp, by simpa using h⟩

theorem lc_clean : CleanReachable Ast.engine lcNS.1.sw.pc := by
  refine ⟨_, lcPC, lcHistory, lcPC_eq, ?_, by decide +kernel⟩
  simp only [CleanHistory, lcHistory, CleanCall, and_true]
  refine ⟨?_, ?_, ?_, ?_⟩
  · exact fun _ => symbol_fresh (by decide +kernel)
  · unfold Parametric; decide +kernel
  · exact fun _ => symbol_fresh (by decide +kernel)
  · unfold Parametric; decide +kernel

/-- The specification of a sweep of `phie` and of one of `L`. -/
def sweepPhi : List SweepSpec := [⟨"phie", .int 0, .int 1, .int 3⟩]
def sweepL : List SweepSpec := [⟨"L", .int 1, .int 4, .int 2⟩]

/-- The system when `ndSweep` has set up the sweep. -/
def lcAt (spec : List SweepSpec) : NS Ast LcRes (Option PF) := { lcNS.1 with sw := (lcNS.1.sw.ndSweep spec).1, specs := spec }

theorem lc_prepared (spec : List SweepSpec) (h : ((lcAt spec).sw.pc.getParameterValue "Zosc1") = lcNS.1.sw.pc.getParameterValue "Zosc1") :
    (lcAt spec).prepareOperators lcGen = (lcAt spec, .ok ()) := by
  have hp := prepared_after_set Ast.engine .id 10 lcGen lcNS₀.1 lcNS.1 _ (Prod.ext rfl lc_ok.2)
  obtain ⟨sh, l, hsh, hl, hv, h1, h2, h3, h4, h5, h6⟩ := prepared_spec hp
  refine prepare_of lcGen (lcAt spec) hsh ?_ hl hv
  intro node hn
  obtain ⟨o, ho, hc⟩ := h5 node hn
  have hnodes : lcNS.1.nodes = [1] := by decide +kernel
  have hn1 : node ∈ [1] := hnodes ▸ hn
  rw [List.mem_singleton] at hn1
  subst hn1
  refine ⟨o, ?_, hc⟩
  unfold NS.opsOf at ho ⊢
  have hz : NS.zName 1 = "Zosc1" := by decide +kernel
  rw [hz] at ho ⊢
  rw [h]
  exact ho

/-- The parameters as they are when `C` is 1 and `L` has the value `l`. -/
def lcGood (pc : PC Ast) (l f z : ℚ) : Prop :=
  pc.getParametricParametersList = ["fosc1", "Zosc1"] ∧
  pc.getParametricExpression Ast.engine 0 "fosc1" false = .ok (lcFreq 1) ∧ pc.getParametricExpression Ast.engine 0 "Zosc1" false = .ok (lcImp 1) ∧
  pc.getSymbol "C" = .ok "C_{}" ∧ pc.getSymbol "L" = .ok "L_{}" ∧
  pc.getParameterValue "C" = .ok (some (.fin 1)) ∧ pc.getParameterValue "L" = .ok (some (.fin l)) ∧
  Ast.lawful.eval (fun s => if s = "C_{}" then .fin 1 else .fin l) (lcFreq 1) = some (.fin f) ∧
  Ast.lawful.eval (fun s => if s = "C_{}" then .fin 1 else .fin l) (lcImp 1) = some (.fin z) ∧
  (pc.coll.get? "fosc1").any (fun p => decide ((p.setValue (.float (.fin f))).2 = .ok ())) = true ∧
  (pc.coll.get? "Zosc1").any (fun p => decide ((p.setValue (.float (.fin z))).2 = .ok ())) = true ∧
  pc.getParameterValue "fosc1" = .ok (some (.fin f)) ∧ pc.getParameterValue "Zosc1" = .ok (some (.fin z))

instance (pc : PC Ast) (l f z : ℚ) : Decidable (lcGood pc l f z) := by unfold lcGood; infer_instance

theorem lc_good {pc : PC Ast} {l f z : ℚ} (h : lcGood pc l f z) (k : String) (hk : Parametric pc k) :
    ∃ x, HasSource Ast.engine pc k ∧ Computable Ast.engine Ast.lawful pc k x ∧ pc.getParameterValue k = .ok (some x) := by
  obtain ⟨h1, h2, h3, h4, h5, h6, h7, h8, h9, h10, h11, h12, h13⟩ := h
  have hC : ¬ Parametric pc "C" := by unfold Parametric; rw [h1]; decide
  have hL : ¬ Parametric pc "L" := by unfold Parametric; rw [h1]; decide
  unfold Parametric at hk
  rw [h1] at hk
  have key : ∀ (ex : Ast) (x : ℚ), pc.getParametricExpression Ast.engine 0 k false = .ok ex → (∀ x ∈ Ast.engine.free ex, x = "C_{}" ∨ x = "L_{}") →
      "C_{}" ∈ Ast.engine.free ex → Ast.lawful.eval (fun s => if s = "C_{}" then .fin 1 else .fin l) ex = some (.fin x) →
      (pc.coll.get? k).any (fun p => decide ((p.setValue (.float (.fin x))).2 = .ok ())) = true → pc.getParameterValue k = .ok (some (.fin x)) →
      ∃ x, HasSource Ast.engine pc k ∧ Computable Ast.engine Ast.lawful pc k x ∧ pc.getParameterValue k = .ok (some x) := by
    intro ex x g1 g2 g3 g4 g5 g6
    refine ⟨.fin x, ⟨"C", hC, Relation.TransGen.single ⟨ex, "C_{}", g1, h4, g3⟩⟩, ⟨.fin x, ?_, rfl, admits_of g5⟩, g6⟩
    refine Denotes.parametric k ex (fun s => if s = "C_{}" then .fin 1 else .fin l) (fun s => if s = "C_{}" then "C" else "L") _ g1 ?_ ?_ g4
    · intro s hs
      rcases g2 s hs with rfl | rfl
      · exact h4
      · exact h5
    · intro s hs
      rcases g2 s hs with rfl | rfl
      · exact Denotes.independent "C" (.fin 1) hC h6
      · exact Denotes.independent "L" (.fin l) hL h7
  simp only [List.mem_cons, List.not_mem_nil, or_false] at hk
  rcases hk with rfl | rfl
  · exact key _ _ h2 (by decide +kernel) (by decide +kernel) h8 h10 h12
  · exact key _ _ h3 (by decide +kernel) (by decide +kernel) h9 h11 h13

theorem lc_attrs {pc : PC Ast} {l f z φ : ℚ} (h : lcGood pc l f z) (hl : l ≠ 0) (hs : pc.getSymbol "phie" = .ok "p_{hie}")
    (hφ : pc.getParameterValue "phie" = .ok (some (.fin φ))) : ∀ a, ∀ e ∈ lcExprs a, ∃ ρ d, Ast.lawful.eval ρ e = some d ∧
    ∀ s ∈ Ast.engine.free e, ∃ n f, pc.getSymbol n = .ok s ∧ pc.getParameterValue n = .ok (some f) ∧ ρ s = Ast.lawful.ofPF f := by
  obtain ⟨h1, h2, h3, h4, h5, h6, h7, h8, h9, h10, h11, h12, h13⟩ := h
  intro a e he
  have hcase : e = .inv (.sym "C_{}") ∨ e = .inv (.sym "L_{}") ∨ e = .sym "p_{hie}" ∨ e = .lit (.fin 0) := by
    cases a <;> simp only [lcExprs, List.mem_singleton] at he <;> simp [he]
  rcases hcase with rfl | rfl | rfl | rfl
  · refine ⟨fun _ => .fin 1, .fin 1, by decide +kernel, ?_⟩
    intro s hs
    have : s ∈ ["C_{}"] := hs
    simp at this; subst this
    exact ⟨"C", .fin 1, h4, h6, rfl⟩
  · refine ⟨fun _ => .fin l, .fin l⁻¹, ?_, ?_⟩
    · simp [Ast.lawful, Ast.eval, hl]
    intro s hs
    have : s ∈ ["L_{}"] := hs
    simp at this; subst this
    exact ⟨"L", .fin l, h5, h7, rfl⟩
  · refine ⟨fun _ => .fin φ, .fin φ, rfl, ?_⟩
    intro s hs'
    have : s ∈ ["p_{hie}"] := hs'
    simp at this; subst this
    exact ⟨"phie", .fin φ, hs, hφ, rfl⟩
  · exact ⟨fun _ => .nan, .fin 0, rfl, fun s hs => absurd hs (by decide +kernel +revert)⟩

theorem lc_ready (spec : List SweepSpec) (k : String) (hk : spec = sweepPhi ∧ k = "phie" ∨ spec = sweepL ∧ k = "L") :
    Ready Ast.engine Ast.lawful lcGen [k] (lcAt spec) := by
  have hgood : lcGood (lcAt spec).sw.pc 1 1 1 := by rcases hk with ⟨rfl, rfl⟩ | ⟨rfl, rfl⟩ <;> decide +kernel
  refine ⟨ndSweep_clean lc_clean spec, ?_, ?_, fun n hn => lc_good hgood n hn, ?_, ?_⟩
  · rcases hk with ⟨rfl, rfl⟩ | ⟨rfl, rfl⟩ <;> decide +kernel
  · intro k' hk'
    rw [List.mem_singleton] at hk'
    subst hk'
    unfold Parametric
    rcases hk with ⟨rfl, rfl⟩ | ⟨rfl, rfl⟩ <;> decide +kernel
  · apply lc_prepared
    rcases hk with ⟨rfl, rfl⟩ | ⟨rfl, rfl⟩ <;> decide +kernel
  · intro node c hc hb
    have hcfg : (lcAt spec).cfg = [(1, ⟨2, .oscillator, some (lcImp 1)⟩)] := by
      have : lcNS.1.cfg = [(1, ⟨2, .oscillator, some (lcImp 1)⟩)] := by decide +kernel
      exact this
    rw [hcfg, Dict.get?_cons] at hc
    split_ifs at hc with h1
    · subst h1
      cases hc
      exact ⟨lcImp 1, rfl, hgood.2.2.1⟩
    · simp at hc

theorem ready_evals {E D R O : Type} {eng : Engine E} {law : eng.Lawful D} {gen : List (ℕ × BasisName) → ℕ → Option PF → Except Err O}
    {ks : List String} {st : NS E R O} (h : Ready eng law gen ks st) (ev : List Entry) : Ready eng law gen ks { st with evals := ev } := by
  obtain ⟨a, b, c, d, e, f⟩ := h
  refine ⟨a, b, c, d, ?_, f⟩
  rw [prepare_evals, e]

/-! ### C40: the hypotheses are met -/

/-- A Hamiltonian that shows all the numbers it depends on, and eigenvalues and vectors that are these numbers. -/
def lcPhys : Phys (Option PF) (List PF) PF PF PF PF where
  gen := lcGen
  ham num circ vec := .ok ((num .Cinv).getD [] ++ (num .Linv).getD [] ++ (num .Pbi).getD [] ++ ((vec.getD []).map fun z => z.getD .nan))
  solve h := .ok (h, h)
  curOp _ _ _ := .error .userError
  volOp num _ _ := .ok (((num .Cinv).getD []).headD .nan)
  elem op v w := op
  resp _ _ _ _ _ es _ := .ok (es.headD .nan)
  energy _ num _ _ := .ok (((num .Cinv).getD []).headD .nan)

/-- The system just before `paramSweep`, with these evaluations requested. -/
def lcBefore (spec : List SweepSpec) (evals : List Entry) : NS Ast LcRes (Option PF) := { lcNS.1 with specs := spec, evals := evals }

def lcEvals : List Entry := [hamEntry, ⟨.getVoltageMatrixElement, false, some .getHamiltonian, { node := some 1, elements := some [(0, 1)] }⟩,
  ⟨.getChargingEnergies, false, none, { node := some 1 }⟩]

/-- The point of a sweep. -/
def at1 (n : String) (x : ℚ) : Dict String PF := [(n, .fin x)]

/-- The hypotheses of `C40_sweep_partial` are met by a sweep of the external flux, with three evaluations. -/
example : ∃ (st st₁ st' : NS Ast LcRes (Option PF)) (sw : SW Ast LcRes) (pts : List (Dict String PF)) (files : List (SW.Pickled LcRes)),
    st.sw.ndSweep st.specs = (sw, .ok ()) ∧ Ready Ast.engine Ast.lawful lcPhys.gen ["phie"] { st with sw := sw } ∧
    ({ st with sw := sw, evals := evaluations st } : NS Ast LcRes (Option PF)).presub Ast.engine .id = (st₁, .ok ()) ∧ gridPoints sw = .ok pts ∧
    (∀ e ∈ st.evals, Requested e) ∧
    (∀ node c imp n s, st.cfg.get? node = some c → c.basis = .oscillator → c.impedance = some imp →
      sw.pc.getSymbol n = .ok s → s ∈ Ast.engine.free imp → ¬ Affected sw.pc ["phie"] n) ∧
    paramSweep Ast.engine .id 10 lcPhys true st = (st', files, .ok ()) ∧ files.length = 3 ∧
    ∀ p ∈ pts, ∃ stF, NS.setParameterValues Ast.engine .id 10 lcPhys.gen { st with sw := sw } (pointArg p) = (stF, .ok ()) ∧
      Defined Ast.engine Ast.lawful { st with sw := sw } stF.sw.pc := by
  refine ⟨lcBefore sweepPhi lcEvals,
    (({ lcBefore sweepPhi lcEvals with sw := (lcNS.1.sw.ndSweep sweepPhi).1, evals := lcEvals } : NS Ast LcRes (Option PF)).presub Ast.engine .id).1,
    (paramSweep Ast.engine .id 10 lcPhys true (lcBefore sweepPhi lcEvals)).1, (lcNS.1.sw.ndSweep sweepPhi).1, [at1 "phie" 0, at1 "phie" (1/2), at1 "phie" 1],
    (paramSweep Ast.engine .id 10 lcPhys true (lcBefore sweepPhi lcEvals)).2.1, Prod.ext rfl (by decide +kernel), ?_, Prod.ext rfl (by decide +kernel),
    by decide +kernel, ?_, ?_, Prod.ext rfl (Prod.ext rfl (by decide +kernel)), by decide +kernel, ?_⟩
  · exact ready_evals (lc_ready sweepPhi "phie" (Or.inl ⟨rfl, rfl⟩)) lcEvals
  · intro e he
    have he' : e ∈ lcEvals := he
    simp only [lcEvals, List.mem_cons, List.not_mem_nil, or_false] at he'
    rcases he' with rfl | rfl | rfl
    · exact ⟨"Hamiltonian", _, {}, rfl, rfl⟩
    · exact ⟨"Voltage", _, _, rfl, rfl⟩
    · exact ⟨"ChargingEnergy", _, _, rfl, rfl⟩
  · intro node c imp n s hc hb hi hs hfree haff
    have hcfg : (lcBefore sweepPhi lcEvals).cfg = [(1, ⟨2, .oscillator, some (lcImp 1)⟩)] := by decide +kernel
    rw [hcfg, Dict.get?_cons] at hc
    split_ifs at hc with h1
    · cases hc
      cases hi
      have hn : n = "C" ∨ n = "L" := by
        have hf : s = "C_{}" ∨ s = "L_{}" := by
          have : Ast.engine.free (lcImp 1) = ["C_{}", "L_{}"] := by decide +kernel
          rw [this] at hfree
          simpa using hfree
        have hm : ∀ p ∈ (lcNS.1.sw.ndSweep sweepPhi).1.pc.symMap, p.2 = "C_{}" ∨ p.2 = "L_{}" → p.1 = "C" ∨ p.1 = "L" := by decide +kernel
        unfold PC.getSymbol at hs
        split at hs
        · cases hs
        · rename_i s' hs'
          cases hs
          exact hm _ (Dict.mem_of_get? hs') hf
      have hno : ∀ m x, (m = "C" ∨ m = "L") → ¬ RecordedDep (lcNS.1.sw.ndSweep sweepPhi).1.pc m x := by
        have hp : ((lcNS.1.sw.ndSweep sweepPhi).1.pc.getParameterisationParameters "C").toOption.getD [] = [] ∧
            ((lcNS.1.sw.ndSweep sweepPhi).1.pc.getParameterisationParameters "L").toOption.getD [] = [] := by decide +kernel
        rintro m x (rfl | rfl) ⟨names, h1, h2⟩
        · rw [h1] at hp; have : names = [] := hp.1; rw [this] at h2; simp at h2
        · rw [h1] at hp; have : names = [] := hp.2; rw [this] at h2; simp at h2
      obtain ⟨k, hk, hk'⟩ := haff
      rw [List.mem_singleton] at hk
      subst hk
      rcases hk' with rfl | hk'
      · simp at hn
      · rcases Relation.TransGen.head'_iff.1 hk' with ⟨x, hx, _⟩
        exact hno n x hn hx
    · simp at hc
  · intro p hp
    have hd : ∀ a, ∀ e ∈ (lcBefore sweepPhi lcEvals).exprs a, e ∈ lcExprs a := by
      have : ∀ a, lcNS.1.exprs a = lcExprs a := by intro a; cases a <;> decide +kernel
      intro a e he
      rw [← this]; exact he
    simp only [List.mem_cons, List.not_mem_nil, or_false] at hp
    rcases hp with rfl | rfl | rfl
    · refine ⟨_, Prod.ext rfl (by decide +kernel), ⟨fun k hk => ?_, fun a e he => lc_attrs (l := 1) (f := 1) (z := 1) (φ := 0) (by decide +kernel) (by norm_num) (by decide +kernel) (by decide +kernel) a e (hd a e he)⟩⟩
      obtain ⟨x, h1, h2, _⟩ := lc_good (l := 1) (f := 1) (z := 1) (by decide +kernel) k hk
      exact ⟨x, h1, h2⟩
    · refine ⟨_, Prod.ext rfl (by decide +kernel), ⟨fun k hk => ?_, fun a e he => lc_attrs (l := 1) (f := 1) (z := 1) (φ := 1/2) (by decide +kernel) (by norm_num) (by decide +kernel) (by decide +kernel) a e (hd a e he)⟩⟩
      obtain ⟨x, h1, h2, _⟩ := lc_good (l := 1) (f := 1) (z := 1) (by decide +kernel) k hk
      exact ⟨x, h1, h2⟩
    · refine ⟨_, Prod.ext rfl (by decide +kernel), ⟨fun k hk => ?_, fun a e he => lc_attrs (l := 1) (f := 1) (z := 1) (φ := 1) (by decide +kernel) (by norm_num) (by decide +kernel) (by decide +kernel) a e (hd a e he)⟩⟩
      obtain ⟨x, h1, h2, _⟩ := lc_good (l := 1) (f := 1) (z := 1) (by decide +kernel) k hk
      exact ⟨x, h1, h2⟩

/-! ### C40 fails if a parameter of the impedance is swept -/

/-- A finite number as a real number. -/
noncomputable def toReal : PF → ℝ
  | .fin q => q
  | _ => 0

/-- The Hamiltonian of the LC circuit, from the inverse capacitance, the inverse inductance and the impedance. -/
noncomputable def lcSys (cinv linv z : PF) : Sys (Op 2) 1 0 where
  Cinv := fun _ _ => toReal cinv
  Linv := fun _ _ => toReal linv
  LinvB := fun _ _ => 0
  J := fun _ => 0
  Ps := fun _ => 0
  Pb := fun _ => 0
  Qbt := fun _ => 0
  Qb := fun _ => 0
  Pbi := fun _ => 0
  kind := fun _ => .inductive
  terms := fun _ => []
  Q := fun _ => oscQ 2 (toReal z) 1
  P := fun _ => oscP 2 (toReal z) 1
  flux := fun _ => oscP 2 (toReal z) 1
  D := fun _ => 0
  Ddag := fun _ => 0
  S := fun _ => 0
  Sdag := fun _ => 0
  u := ⟨1, 1, 1, 1, 1, 1, 1⟩

/-- `getHamiltonian` for the LC circuit. -/
noncomputable def lcHam (num : Attr → Option (List PF)) (vec : Option (List (Option PF))) : Option (Op 2) :=
  match num .Cinv, num .Linv, vec with
  | some [c], some [l], some [some z] => hamiltonian (lcSys c l z)
  | _, _, _ => none

theorem lc_ground (l z : ℚ) (hz : 0 < z) : ∃ h : Op 2, hamiltonian (lcSys (.fin 1) (.fin l) (.fin z)) = some h ∧
    h 0 0 = (((1 / (4 * z) + l * z / 4 : ℚ) : ℝ) : ℂ) := by
  have hj : josBranches (lcSys (.fin 1) (.fin l) (.fin z)) = [] := rfl
  have hs : slipBranches (lcSys (.fin 1) (.fin l) (.fin z)) = [] := rfl
  refine ⟨linearPart (num (Op 2)) (lcSys (.fin 1) (.fin l) (.fin z)) + num (Op 2) 1 * 0 + num (Op 2) 1 * 0, ?_, ?_⟩
  · unfold hamiltonian
    rw [hj, hs]
    rfl
  have hr : ∀ (x : ℝ) (M : Op 2) (i j : Fin 2), (num (Op 2) x * M) i j = (x : ℂ) * M i j := by
    intro x M i j
    unfold num
    simp [Algebra.algebraMap_eq_smul_one]
  have hz' : (0 : ℝ) < (z : ℝ) := by exact_mod_cast hz
  have e1 : (Real.sqrt (1 / (2 * z)) : ℂ) * (Real.sqrt (1 / (2 * z)) : ℂ) = ((1 / (2 * z) : ℝ) : ℂ) := by
    rw [← Complex.ofReal_mul, Real.mul_self_sqrt (by positivity)]
  have e2 : (Real.sqrt (z / 2) : ℂ) * (Real.sqrt (z / 2) : ℂ) = ((z / 2 : ℝ) : ℂ) := by
    rw [← Complex.ofReal_mul, Real.mul_self_sqrt (by positivity)]
  simp only [linearPart, quadOp, Matrix.add_apply, hr, mul_zero, Matrix.zero_apply, add_zero, lcSys, map_zero, Finset.univ_unique, Finset.sum_singleton,
    toReal, Rat.cast_one, map_one, one_mul]
  have hQ : (oscQ 2 (z : ℝ) 1 * oscQ 2 (z : ℝ) 1) 0 0 = ((1 / (2 * z) : ℝ) : ℂ) := by
    rw [← e1]
    simp [oscQ, create, destroy, Matrix.mul_apply, Fin.sum_univ_two]
    ring_nf
    simp
  have hP : (oscP 2 (z : ℝ) 1 * (num (Op 2) (l:ℝ) * oscP 2 (z : ℝ) 1)) 0 0 = ((l * (z / 2) : ℝ) : ℂ) := by
    rw [Complex.ofReal_mul, ← e2]
    simp only [Matrix.mul_apply, Fin.sum_univ_two]
    have := hr l (oscP 2 (z : ℝ) 1)
    simp only [Matrix.mul_apply, Fin.sum_univ_two] at this
    rw [this, this]
    simp [oscP, create, destroy]
    ring
  rw [hQ, hP]
  push_cast
  field_simp
  ring

/-- C40: when the inductance is swept, the Hamiltonian at a point is not that of a fresh system with this inductance: its charge and flux
operators are still those of the impedance before the sweep. -/
theorem C40_false_impedance : ∃ (st st₁ sti stF : NS Ast LcRes (Option PF)),
    Ready Ast.engine Ast.lawful lcGen ["L"] st ∧ st.presub Ast.engine .id = (st₁, .ok ()) ∧
    visit Ast.engine .id 10 lcGen [at1 "L" 1, at1 "L" 4] st₁ = (sti, .ok ()) ∧
    st.setParameterValues Ast.engine .id 10 lcGen (pointArg (at1 "L" 4)) = (stF, .ok ()) ∧
    ∃ h h', lcHam sti.num.get? sti.vec = some h ∧ lcHam stF.num.get? stF.vec = some h' ∧ h ≠ h' := by
  refine ⟨lcAt sweepL, _, _, _, lc_ready sweepL "L" (Or.inr ⟨rfl, rfl⟩), Prod.ext rfl (by decide +kernel), Prod.ext rfl (by decide +kernel),
    Prod.ext rfl (by decide +kernel), ?_⟩
  obtain ⟨h, h1, h2⟩ := lc_ground (1/4) 1 (by norm_num)
  obtain ⟨h', h3, h4⟩ := lc_ground (1/4) 2 (by norm_num)
  refine ⟨h, h', ?_, ?_, ?_⟩
  · unfold lcHam
    rw [show Dict.get? _ Attr.Cinv = some [.fin 1] by decide +kernel, show Dict.get? _ Attr.Linv = some [.fin (1/4)] by decide +kernel,
      show NS.vec _ = some [some (.fin 1)] by decide +kernel]
    exact h1
  · unfold lcHam
    rw [show Dict.get? _ Attr.Cinv = some [.fin 1] by decide +kernel, show Dict.get? _ Attr.Linv = some [.fin (1/4)] by decide +kernel,
      show NS.vec _ = some [some (.fin 2)] by decide +kernel]
    exact h3
  · rintro rfl
    rw [h2] at h4
    rw [Complex.ofReal_inj] at h4
    have h5 := Rat.cast_injective h4
    norm_num at h5

/-! ### C41 -/

deriving instance DecidableEq for SW.Pickled

/-- The files of a sweep of `phie` with these evaluations. -/
def lcFiles (evals : List Entry) : List (SW.Pickled LcRes) := (paramSweep Ast.engine .id 10 lcPhys true (lcBefore sweepPhi evals)).2.1

/-- A disk with files of the names "f0", "f1" and so on. -/
def lcName (i : ℕ) : String := "f" ++ toString i
def lcDisk (files : List (SW.Pickled LcRes)) (n : String) : Option (SW.Pickled LcRes) :=
  (files.zipIdx.find? fun p => decide (lcName p.2 = n)).map Prod.fst

/-- `getSweep` after a sweep of `phie` with these evaluations. -/
def lcGet (evals : List Entry) (name : String) : Except Err (List PF × List LcRes × List (String × PF)) :=
  getSweep (paramSweep Ast.engine .id 10 lcPhys true (lcBefore sweepPhi evals)).1.sw (lcFiles evals) lcName (lcDisk (lcFiles evals)) "phie" [] name

/-- The hypotheses of `C41_multiple_partial` are met, and this is what the user gets. -/
example : (lcBefore sweepPhi lcEvals).sw.ndSweep sweepPhi = ((lcNS.1.sw.ndSweep sweepPhi).1, .ok ()) ∧
    gridPoints (lcNS.1.sw.ndSweep sweepPhi).1 = .ok [at1 "phie" 0, at1 "phie" (1/2), at1 "phie" 1] ∧
    2 ≤ lcEvals.length ∧ (lcEvals.map Entry.eval).Nodup ∧ (∀ i < 3, lcDisk (lcFiles lcEvals) (lcName i) = (lcFiles lcEvals)[i]?) ∧
    lcGet lcEvals "Hamiltonian" = .ok ([.fin 0, .fin (1/2), .fin 1],
      [.eig [.fin 1, .fin 1, .fin 0, .fin 1] [.fin 1, .fin 1, .fin 0, .fin 1], .eig [.fin 1, .fin 1, .fin (1/2), .fin 1] [.fin 1, .fin 1, .fin (1/2), .fin 1],
       .eig [.fin 1, .fin 1, .fin 1, .fin 1] [.fin 1, .fin 1, .fin 1, .fin 1]], []) ∧
    lcGet lcEvals "Voltage" = .ok ([.fin 0, .fin (1/2), .fin 1], [.elems [.fin 1], .elems [.fin 1], .elems [.fin 1]], []) := by
  exact ⟨Prod.ext rfl (by decide +kernel), by decide +kernel, by decide +kernel, by decide +kernel, by decide +kernel, by decide +kernel,
    by decide +kernel⟩

/-- The hypotheses of `C41_single_partial` are met by the default evaluation. -/
example : evaluations (lcBefore sweepPhi []) = [hamEntry] ∧ Requested hamEntry ∧
    lcGet [] "Hamiltonian" = .ok ([.fin 0, .fin (1/2), .fin 1],
      [.eig [.fin 1, .fin 1, .fin 0, .fin 1] [.fin 1, .fin 1, .fin 0, .fin 1], .eig [.fin 1, .fin 1, .fin (1/2), .fin 1] [.fin 1, .fin 1, .fin (1/2), .fin 1],
       .eig [.fin 1, .fin 1, .fin 1, .fin 1] [.fin 1, .fin 1, .fin 1, .fin 1]], []) :=
  ⟨rfl, ⟨"Hamiltonian", _, {}, rfl, rfl⟩, by decide +kernel⟩

/-- Matrix elements of two lists of elements. -/
def twoVoltages : List Entry := [hamEntry, ⟨.getVoltageMatrixElement, false, some .getHamiltonian, { node := some 1, elements := some [(0, 1)] }⟩,
  ⟨.getVoltageMatrixElement, false, some .getHamiltonian, { node := some 1, elements := some [(0, 1), (1, 2)] }⟩]

/-- C41: of two requests for the same kind of evaluation only the results of the last are kept: those of the first, one matrix element at
each point, are in none of the files. -/
theorem C41_false_duplicate : (paramSweep Ast.engine .id 10 lcPhys true (lcBefore sweepPhi twoVoltages)).2.2 = .ok () ∧
    lcGet twoVoltages "Voltage" = .ok ([.fin 0, .fin (1/2), .fin 1], [.elems [.fin 1, .fin 1], .elems [.fin 1, .fin 1], .elems [.fin 1, .fin 1]], []) ∧
    (∀ f ∈ lcFiles twoVoltages, ∀ m, stored f m ≠ some (.elems [.fin 1])) ∧
    ∃ e ∈ twoVoltages, ∀ i < 3, valueAt lcPhys true (visit Ast.engine .id 10 lcGen ([at1 "phie" 0, at1 "phie" (1/2), at1 "phie" 1].take (i + 1))
      ((lcAt sweepPhi).presub Ast.engine .id).1).1 e = .ok (.elems [.fin 1]) := by
  refine ⟨by decide +kernel, by decide +kernel, ?_, by decide +kernel⟩
  · have : ∀ f ∈ lcFiles twoVoltages, ∀ m ∈ [Method.getHamiltonian, .getResonatorResponse, .getCurrentMatrixElement, .getVoltageMatrixElement,
      .getChargingEnergies, .getFluxEnergies, .getJosephsonEnergies], stored f m ≠ some (.elems [.fin 1]) := by decide +kernel
    intro f hf m
    exact this f hf m (by cases m <;> simp)

/-- C41: the charging energies of all nodes, evaluated alone, are stored, but `getSweep` for them fails. -/
theorem C41_false_dict : (paramSweep Ast.engine .id 10 lcPhys true (lcBefore sweepPhi [⟨.getChargingEnergies, false, none, {}⟩])).2.2 = .ok () ∧
    lcGet [⟨.getChargingEnergies, false, none, {}⟩] "ChargingEnergy" = .error .keyError := by
  decide +kernel

/-! ### C42 -/

/-- The hypotheses of `C42_wrong_order` are met: the voltage is requested before the Hamiltonian. -/
example : ∃ st₁, ({ lcBefore sweepPhi [⟨.getVoltageMatrixElement, false, some .getHamiltonian, { node := some 1, elements := some [(0, 1)] }⟩, hamEntry] with
      sw := (lcNS.1.sw.ndSweep sweepPhi).1 } : NS Ast LcRes (Option PF)).presub Ast.engine .id = (st₁, .ok ()) ∧
    (paramSweep Ast.engine .id 10 lcPhys true
      (lcBefore sweepPhi [⟨.getVoltageMatrixElement, false, some .getHamiltonian, { node := some 1, elements := some [(0, 1)] }⟩, hamEntry])).2 =
        ([], .error .userError) :=
  ⟨_, Prod.ext rfl (by decide +kernel), by decide +kernel⟩

/-- The hypotheses of `C42_missing_vectors` and `C42_same_point` are met by `lcEvals`. -/
example : ReadsVectors (⟨.getVoltageMatrixElement, false, some .getHamiltonian, { node := some 1, elements := some [(0, 1)] }⟩) ∧
    (∃ err, (paramSweep Ast.engine .id 10 lcPhys false (lcBefore sweepPhi lcEvals)).2 = ([], .error err)) ∧
    (paramSweep Ast.engine .id 10 lcPhys true (lcBefore sweepPhi lcEvals)).2.2 = .ok () :=
  ⟨Or.inr (Or.inl ⟨rfl, by simp⟩), ⟨.userError, by decide +kernel⟩, by decide +kernel⟩

end Verif.Props
