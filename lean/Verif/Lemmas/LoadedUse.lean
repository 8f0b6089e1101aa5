import Verif.Spec.LoadedUse
import Verif.Props.NetlistLoaded
import Verif.Props.MutualUse

/-!
# Lemmas about the use of circuits with resonators
-/

namespace Verif.Props

open Verif Verif.Spec Verif.PC Verif.Num Verif.Sym Verif.Circuit Verif.Derived

variable {E D : Type}

/-- A component of a branch, of a coupling or of a gate is not the parameter of a resonator. -/
theorem bare_plain {h : List Circuit.Call} (hs : Settled h (run {} h)) (ha : AllOk h) (hpn : PlainNames h) {c : String} (hc : ReadsBare (run {} h) c) :
    ¬ Computed h c := by
  intro hcomp
  have hok := (settled_run hs).2
  obtain ⟨o, f⟩ := settled_facts hs
  rcases hc with ⟨e, hc⟩ | hc | ⟨n, b, hb, hc⟩
  · have hm : c ∈ (run {} h).graph.view.map Prod.snd := by
      rcases (f.synced.cmap e c).1 hc with h | h
      · exact List.mem_map.2 ⟨_, h, rfl⟩
      · exact List.mem_map.2 ⟨_, h, rfl⟩
    obtain ⟨o, a, b, hx⟩ := (branch_run ha c).1 hm
    obtain ⟨n, c', e, -⟩ := hpn _ hx _ (.branch _ _ _ _) hcomp
    cases e
  · obtain ⟨a, b, hx⟩ := (coupled_run hok ha c).1 hc
    obtain ⟨n, c', e, -⟩ := hpn _ hx _ (.mutual _ _ _) hcomp
    cases e
  · obtain ⟨m, hx⟩ := (charge_run hok ha b).1 (List.mem_map.2 ⟨_, Dict.mem_of_get? hb, rfl⟩)
    rw [hc] at hx
    obtain ⟨n, c', e, -⟩ := hpn _ hx _ (.gate _ _ _) hcomp
    cases e

theorem coupling_plain {h : List Circuit.Call} (hpn : PlainNames h) {n : ℕ} {c : String} (hc : .coupleResonator n c ∈ h) : ¬ Computed h c := by
  intro hcomp
  obtain ⟨n', c', e, hne⟩ := hpn _ hc c (.resonator n c c (by simp [resonatorNames])) hcomp
  cases e
  exact hne rfl

theorem frequency_plain {h : List Circuit.Call} (n : ℕ) : ¬ Computed h (frequencyName n) ∧ ¬ Computed h (impedanceName n) := by
  have key : ∀ (a : Char), a = 'f' ∨ a = 'Z' → ∀ k : String, k.toList = a :: ((toString n).toList ++ ['r']) → ¬ Computed h k := by
    rintro a ha k hk ⟨m, c, -, hm⟩
    unfold resonatorComputed at hm
    simp only [List.mem_cons, List.not_mem_nil, or_false] at hm
    have hl : k.toList.getLast? = some 'r' := by rw [hk, List.getLast?_cons]; simp
    have hh : k.toList.head? = some a := by rw [hk]; rfl
    rcases hm with rfl | rfl | rfl | rfl | rfl <;> simp [toString] at hh hl <;> subst hh <;> first | (simp at ha; done) | (rw [List.getLast?_cons] at hl; simp at hl)
  constructor
  · exact key 'f' (Or.inl rfl) _ (by simp [frequencyName, toString])
  · exact key 'Z' (Or.inr rfl) _ (by simp [impedanceName, toString])

theorem loaded_posSemidef {h : List Circuit.Call} {g : CG} (hs : Settled h g) (val : String → ℝ) (hv : NonnegLoads val h)
    (C : Matrix (Fin (nodes g).length) (Fin (nodes g).length) ℝ) (hsym : C.transpose = C)
    (hform : ∀ v : ℕ → ℝ, v 0 = 0 → atNodes g v ⬝ᵥ C.mulVec (atNodes g v) = loadedForm val h v) : C.PosSemidef := by
  refine Matrix.PosSemidef.of_dotProduct_mulVec_nonneg ?_ fun x => ?_
  · rw [Matrix.IsHermitian, Matrix.conjTranspose_eq_transpose_of_trivial, hsym]
  · obtain ⟨v, h0, rfl⟩ := atNodes_surj hs x
    rw [star_trivial, hform v h0]
    exact (loaded_zero hv v h0).1

theorem has_div {eng : Engine E} {law : eng.Lawful D} {A : Arith E} {pc : PC E} {ρ : Verif.Sym → D} (L : LoadedLaws eng law A) {a b : E} {x y : ℚ}
    (ha : Has eng law pc ρ a x) (hb : Has eng law pc ρ b y) (hy : y ≠ 0) : Has eng law pc ρ (A.div a b) (x / y) :=
  ⟨L.div _ _ _ _ _ ha.1 hb.1 hy, fun s hs => (L.free_div a b s hs).elim (ha.2 s) (hb.2 s)⟩

/-- The capacitance of a resonator at up-to-date values. -/
theorem resonator_value {eng : Engine E} {law : eng.Lawful D} {A : Arith E} (laws : LoadedLaws eng law A) {ex : Resonator → Except Err (ResExprs E)} {pi : ℚ}
    (hex : ResonatorLaws eng law ex pi) {own : String → E → Prop} {h : List Circuit.Call} {b : Biases} (hok : ∀ x ∈ h, x.OK) (ha : AllOk h)
    (hk : KeepsResonators h) {pc1 : PC E} {exprs : Num.Attr → List E} (hpre : Prepared eng A own h b pc1 exprs)
    (hro : ∀ k e, ResOwn (run {} h) ex k e → Stored eng pc1 k e) (hxr : ∀ r ∈ resonatorsOf (run {} h), ∃ x, ex r = .ok x) {pc : PC E} {v : String → ℚ}
    (hsm : pc.symMap = pc1.symMap) (hpz : pc.parz = pc1.parz) (hadm : ∀ k f, Admits pc1 k f → Admits pc k f) (hup : UpToDate eng law pc) (hv : ValuesOf h pc v)
    {ρ : Verif.Sym → D} (hρ : Valuation eng law pc ρ) {n : ℕ} {c : String} (hc : .coupleResonator n c ∈ h) (hf : v (frequencyName n) ≠ 0) (hz : v (impedanceName n) ≠ 0) :
    Has eng law pc ρ (A.sym (writtenAs (resonatorName n))) (v (resonatorName n)) ∧
      v (resonatorName n) = 1 / (2 * pi * v (frequencyName n) * v (impedanceName n)) := by
  have hpar : ∀ k, Parametric pc k ↔ Parametric pc1 k := fun k => by unfold Parametric getParametricParametersList; rw [hpz]
  have hsym : ∀ k, pc.getSymbol k = pc1.getSymbol k := fun k => by unfold getSymbol; rw [hsm]
  have hind : ∀ k, Declares (.coupleResonator n c) k → ¬ Computed h k → Known eng law pc ρ (writtenAs k) ∧ ρ (writtenAs k) = law.ofPF (.fin (v k)) := by
    intro k hd hnc
    obtain ⟨e1, e2⟩ := hpre.declared _ hc k hd
    rw [← hsym] at e1
    have hnp : ¬ Parametric pc k := by rw [hpar]; exact e2 hnc
    exact ⟨⟨k, _, e1, hv _ k hc hd, hρ _ k _ e1 (hv _ k hc hd), .independent k _ hnp (hv _ k hc hd), Or.inl hnp⟩, hρ _ k _ e1 (hv _ k hc hd)⟩
  have hF := hind (frequencyName n) (.resonator n c _ (.tail _ (.head _))) (frequency_plain n).1
  have hZ := hind (impedanceName n) (.resonator n c _ (.tail _ (.tail _ (.head _)))) (frequency_plain n).2
  have hmem : mkResonator n c ∈ resonatorsOf (run {} h) :=
    (mem_resonatorsOf (resonators_nodup h hok) _).2 ⟨n, (resonator_run ha hk n _).2 ⟨c, hc, rfl⟩⟩
  obtain ⟨x, hx⟩ := hxr _ hmem
  obtain ⟨x1, x2, x3⟩ := hex n c x hx
  have hst := hro (resonatorName n) x.cr ⟨_, hmem, x, hx, .head _⟩
  have hE : Has eng law pc ρ x.cr (1 / (2 * pi * v (frequencyName n) * v (impedanceName n))) := by
    refine ⟨x3 ρ _ _ hF.2 hZ.2 hf hz, fun s hs => ?_⟩
    rcases x2 s hs with rfl | rfl
    · exact hF.1
    · exact hZ.1
  obtain ⟨k1, ns, k2, -⟩ := hst
  have he : pc.getParametricExpression eng 0 (resonatorName n) false = .ok x.cr := by
    unfold getParametricExpression
    rw [hpz, k2]
    rfl
  have hA := hadm _ _ (hpre.unbounded _ ((Dict.has_iff _ _).1 k1) (1 / (2 * pi * v (frequencyName n) * v (impedanceName n))))
  have hdecl : Declares (.coupleResonator n c) (resonatorName n) := .resonator n c _ (.tail _ (.tail _ (.tail _ (.head _))))
  obtain ⟨hsrc, hcomp, -⟩ := derived_computable laws.toArithLaws he x1 hE hA
  have hval := hup _ _ hsrc hcomp
  rw [hv _ _ hc hdecl] at hval
  have hq : v (resonatorName n) = 1 / (2 * pi * v (frequencyName n) * v (impedanceName n)) := by
    simpa using hval
  refine ⟨?_, hq⟩
  rw [hq]
  exact has_derived laws.toArithLaws hρ hup (by rw [hsym]; exact (hpre.declared _ hc _ hdecl).1) he x1 hE hA

/-- The attributes have the values of the matrices. -/
theorem prepared_loads {eng : Engine E} (law : eng.Lawful D) {A : Arith E} (laws : LoadedLaws eng law A) {ex : Resonator → Except Err (ResExprs E)} {pi : ℚ}
    (hpi : 0 < pi) (hex : ResonatorLaws eng law ex pi) {own : String → E → Prop} {h : List Circuit.Call} (hs : Settled h (run {} h)) (ha : AllOk h) (hn : LoadedNetlist h)
    (hk : KeepsResonators h) (hpn : PlainNames h) {b : Biases} (hb : createFluxBiases (run {} h) = .ok b)
    (pinv : Matrix (Fin (edges (run {} h)).length) (Fin (edges (run {} h)).length) ℝ → Matrix (Fin (edges (run {} h)).length) (Fin (edges (run {} h)).length) ℝ)
    (hp : ∀ M, IsPinv M (pinv M)) (u : Prefs) {pc1 : PC E} {exprs : Num.Attr → List E} (hpre : Prepared eng A own h b pc1 exprs)
    (hro : ∀ k e, ResOwn (run {} h) ex k e → Stored eng pc1 k e) (hxr : ∀ r ∈ resonatorsOf (run {} h), ∃ x, ex r = .ok x) :
    ∀ (pc : PC E) (v : String → ℚ) (s : Sys PUnit (nodes (run {} h)).length (edges (run {} h)).length), pc.symMap = pc1.symMap → pc.parz = pc1.parz →
      (∀ k f, Admits pc1 k f → Admits pc k f) → UpToDate eng law pc → ValuesOf h pc v → LoadedValues h v →
      assemble (run {} h) b (fun c => (v c : ℝ)) (fun s => (v ("phi" ++ s) : ℝ)) (fun s => (v ("Q" ++ s) : ℝ)) ⟨false, 1⟩ pinv u = .ok s →
      (Expresses eng law pc exprs s ∧ ∀ n c, .coupleResonator n c ∈ h → v (resonatorName n) = 1 / (2 * pi * v (frequencyName n) * v (impedanceName n))) ∧
      ∀ k, Parametric pc k → (∃ e, own k e) ∨ ∃ f, HasSource eng pc k ∧ Computable eng law pc k f := by
  intro pc v s hsm hpz hadm hup hv hphys hsok
  have hok := (settled_run hs).2
  obtain ⟨CR, hCR, hsymm, hform⟩ := loaded_capacitance hs ha hn (fun c => (v c : ℝ))
  have hdet := (loaded_det hs _ hphys.caps _ hsymm hform).2 hphys.ground
  obtain ⟨LR, hLR⟩ := coupled_inductance hs ha hn hb (fun c => (v c : ℝ))
  have hval : ∀ ρ, Valuation eng law pc ρ → ∀ n c, .coupleResonator n c ∈ h → Has eng law pc ρ (A.sym (writtenAs (resonatorName n))) (v (resonatorName n)) ∧
      v (resonatorName n) = 1 / (2 * pi * v (frequencyName n) * v (impedanceName n)) := fun ρ hρ n c hc =>
    resonator_value laws hex hok ha hk hpre hro hxr hsm hpz hadm hup hv hρ hc (hphys.resonators n c hc).1 (hphys.resonators n c hc).2
  have hat : ∀ n c, .coupleResonator n c ∈ h → resonatorAt h n = some c := by
    intro n c hc
    have h1 := resonators_run hok ha n
    rw [(resonator_run ha hk n _).2 ⟨c, hc, rfl⟩] at h1
    cases hr : resonatorAt h n with
    | none => rw [hr] at h1; cases h1
    | some c' =>
      rw [hr] at h1
      have := congrArg (Option.map Resonator.coupling) h1
      simpa [mkResonator] using this.symm
  have hload : ∀ ρ, Valuation eng law pc ρ → (∀ x ∈ h, ∀ k, Declares x k → ¬ Computed h k → Has eng law pc ρ (A.sym (writtenAs k)) (v k)) →
      ∀ n r, (run {} h).resonators.get? n = some (some r) → ∃ q : ℚ, Has eng law pc ρ (A.resonator eng r) q ∧ (q : ℝ) = resonatorCap (fun c => (v c : ℝ)) r := by
    intro ρ hρ hdec n r hr
    have hreads : ∀ k ∈ Resonator.names r, (Param.symbolOf k).getD "" = writtenAs k := fun k hm =>
      reads_written hs ha hk (Or.inr (Or.inr (Or.inr ⟨n, r, hr, hm⟩)))
    obtain ⟨c, hc, rfl⟩ := (resonator_run ha hk n r).1 hr
    obtain ⟨hR, hq⟩ := hval ρ hρ n c hc
    have hC := hdec _ hc c (.resonator n c c (.head _)) (coupling_plain hpn hc)
    have hC' : Has eng law pc ρ (A.component (mkResonator n c).coupling) (v c) := by
      unfold Arith.component
      rw [hreads _ (.head _)]
      exact hC
    have hR' : Has eng law pc ρ (A.component (mkResonator n c).cr) (v (resonatorName n)) := by
      unfold Arith.component
      rw [hreads (mkResonator n c).cr (by simp [Resonator.names])]
      exact hR
    obtain ⟨p1, p2⟩ := hphys.caps.2 n c (hat n c hc)
    dsimp only at p1 p2
    obtain ⟨f1, f2⟩ := hphys.resonators n c hc
    have hne : v (resonatorName n) ≠ 0 := by
      rw [hq]
      have := hpi.ne'
      positivity
    have hsum : v c + v (resonatorName n) ≠ 0 := by
      have a1 : 0 ≤ v c := by exact_mod_cast p1
      have a2 : 0 ≤ v (resonatorName n) := by exact_mod_cast p2
      have : 0 < v (resonatorName n) := lt_of_le_of_ne a2 (Ne.symm hne)
      linarith
    refine ⟨_, has_div laws (has_mul laws.toArithLaws hC' hR') (has_add laws.toArithLaws hC' hR') hsum, ?_⟩
    unfold resonatorCap
    push_cast
    rfl
  obtain ⟨h1, h2⟩ := prepared_expresses law laws.toArithLaws hs ha hk (fun c hc => bare_plain hs ha hpn hc) hb pinv u hpre hsm hpz hadm hup hv hsok hCR hsymm
    (loaded_posSemidef hs _ hphys.caps _ hsymm hform) hdet hload hLR
    (coupled_pinv law laws.toCoupledLaws hs ha hn pinv hp hLR hphys.inductors)
  obtain ⟨ρ, hρ⟩ := valuation_exists law (pc := pc) (by rw [hsm]; exact (CleanReachable.good law hpre.tidy.clean).symInj)
  exact ⟨⟨h1, fun n c hc => (hval ρ hρ n c hc).2⟩, h2⟩

/-- No expression is lost. -/
theorem used_keys {R O : Type} {eng : Engine E} {freq imp : ℕ → E} {gen : List (ℕ × BasisName) → ℕ → Option PF → Except Err O} {st st' : NS E R O}
    (hcl : ∀ s, Used eng gen freq imp st s → CleanReachable eng s.sw.pc) (hu : Used eng gen freq imp st st') {k : String} (hk : k ∈ st.sw.pc.parz.keys) :
    k ∈ st'.sw.pc.parz.keys := by
  induction hu with
  | start => exact hk
  | @configure s s' node trunc basis hu hc ih =>
    by_cases hb : basis = .oscillator
    · subst hb
      obtain ⟨-, p₁, p₂, p₃, p₄, h1, h2, h3, h4, rfl⟩ := configure_cases eng s s' freq imp node trunc hc
      have a1 := (added_one _ _ _ _ h1).parz
      obtain ⟨_, -, -, a2⟩ := parz_set h2
      have a3 := (added_one _ _ _ _ h3).parz
      obtain ⟨_, -, -, a4⟩ := parz_set h4
      show k ∈ p₄.parz.keys
      rw [a4, Dict.mem_keys_set, a3, a2, Dict.mem_keys_set, a1]
      exact Or.inr (Or.inr ih)
    · unfold NS.configureOperator at hc
      by_cases hnode : node ∈ s.nodes
      · rw [if_neg (not_not.2 hnode), if_neg hb] at hc
        cases hc
        exact ih
      · rw [if_pos hnode] at hc
        cases hc
  | @set s s' ho fuel args hu hset ih =>
    obtain ⟨-, -, k3⟩ := set_clean (hcl s hu) hset
    rw [k3]
    exact ih

theorem resOwn_names {h : List Circuit.Call} (hok : ∀ x ∈ h, x.OK) (ha : AllOk h) (hk : KeepsResonators h) {ex : Resonator → Except Err (ResExprs E)} (n : ℕ) (e : E) :
    ¬ ResOwn (run {} h) ex (NS.fName n) e ∧ ¬ ResOwn (run {} h) ex (NS.zName n) e := by
  constructor
  · intro hr
    obtain ⟨x, hx, hd⟩ := computed_declared (resOwn_computed hok ha hk hr)
    exact (declared_not hok ha hx hd n).1 rfl
  · intro hr
    obtain ⟨x, hx, hd⟩ := computed_declared (resOwn_computed hok ha hk hr)
    exact (declared_not hok ha hx hd n).2 rfl

/-- The parameters with expressions of their own: those of the nodes and those of the resonators. -/
def BothOwn (g : CG) (ex : Resonator → Except Err (ResExprs E)) (freq imp : ℕ → E) (k : String) (e : E) : Prop := OscOwn freq imp k e ∨ ResOwn g ex k e

/-- A new system, and after any use. -/
theorem prepared_both {R O : Type} {eng : Engine E} (law : eng.Lawful D) {A : Arith E} {o : Orc} {ex : Resonator → Except Err (ResExprs E)} {again : Bool}
    {freq imp : ℕ → E} {gen : List (ℕ × BasisName) → ℕ → Option PF → Except Err O} {h : List Circuit.Call} {b : Biases} (hok : ∀ x ∈ h, x.OK) (ha : AllOk h)
    (hk : KeepsResonators h) (hlen : (nodes (run {} h)).length ≤ 111) (hres : ∀ x ∈ h, ∀ k, Declares x k → ¬ Reserved k) {pc : PC E} {st₀ st : NS E R O}
    (hpc : systemParameters eng A o ex again (run {} h) = .ok pc) (hst : numericalSystem eng A (run {} h) b pc = .ok st₀) (hu : Used eng gen freq imp st₀ st) :
    Prepared eng A (BothOwn (run {} h) ex freq imp) h b st.sw.pc st.exprs ∧ st.nodes = nodes (run {} h) ∧
      (∀ k e, ResOwn (run {} h) ex k e → Stored eng st.sw.pc k e) ∧ ∀ r ∈ resonatorsOf (run {} h), ∃ x, ex r = .ok x := by
  obtain ⟨heq, hnd⟩ : symbolicExpressions eng A (run {} h) b pc = (st₀.sw.pc, .ok st₀.exprs) ∧ st₀.nodes = nodes (run {} h) := by
    unfold numericalSystem at hst
    split at hst
    · cases hst
    rename_i pc1 exprs heq
    cases hst
    exact ⟨heq, rfl⟩
  obtain ⟨s1, s2, s3⟩ := prepared_start (own := BothOwn (run {} h) ex freq imp) law hok ha hk hlen hres hpc heq (fun _ _ hr => Or.inr hr) (by
    rintro k e (ho | hr)
    · refine Or.inr ⟨fun hc => ?_, fun c inv hcl => oscOwn_dname ho c inv hcl⟩
      obtain ⟨x, hx, hd⟩ := computed_declared hc
      obtain ⟨n, ⟨e1, -⟩ | ⟨e1, -⟩⟩ := ho
      · exact (declared_not hok ha hx hd n).1 e1
      · exact (declared_not hok ha hx hd n).2 e1
    · exact Or.inl hr)
  have hgen := fun (s : NS E R O) (hu : Used eng gen freq imp st₀ s) => prepared_used_own (law := law) hok ha (own := BothOwn (run {} h) ex freq imp)
    (fun _ _ h => Or.inl h) (fun n e h => h.elim (oscOwn_freq n e) fun h => absurd h (resOwn_names hok ha hk n e).1)
    (fun n e h => h.elim (oscOwn_imp n e) fun h => absurd h (resOwn_names hok ha hk n e).2) s1 hu
  obtain ⟨k1, k2⟩ := hgen st hu
  refine ⟨k1, k2.trans hnd, fun k e hr => k1.owned k e (Or.inr hr) ?_, s3⟩
  obtain ⟨-, ns, b1, -⟩ := s2 k e hr
  exact used_keys (fun s hs => (hgen s hs).1.tidy.clean) hu (Dict.mem_keys_of_get? b1)

end Verif.Props
