import Verif.Spec.SweepUse
import Verif.Props.MutualUse

/-!
# Lemmas about sweeps of a system that was made from a circuit
-/

namespace Verif.Props

open Verif Verif.Spec Verif.PC Verif.Num Verif.Sym Verif.Circuit Verif.Derived

variable {E D R O : Type}

theorem hasSource_congr {eng : Engine E} {st st' : PC E} (h1 : st'.symMap = st.symMap) (h2 : st'.parz = st.parz) {k : String} (h : HasSource eng st k) :
    HasSource eng st' k := by
  obtain ⟨i, hi, ht⟩ := h
  refine ⟨i, by unfold Parametric getParametricParametersList at hi ⊢; rwa [h2], ?_⟩
  refine Relation.TransGen.lift (p := Mentions eng st') id ?_ _ _ ht
  rintro a b ⟨ex, s, x1, x2, x3⟩
  refine ⟨ex, s, ?_, ?_, x3⟩
  · rw [getExpr_iff] at x1 ⊢; rw [h2]; exact x1
  · rw [getSymbol_iff] at x2 ⊢; rw [h1]; exact x2

theorem computable_congr {eng : Engine E} {law : eng.Lawful D} {st st' : PC E} (h1 : st'.symMap = st.symMap) (h2 : st'.parz = st.parz)
    (h3 : ∀ m, st'.getParameterValue m = st.getParameterValue m) (h4 : ∀ k f, Admits st k f → Admits st' k f) {k : String} {f : PF}
    (h : Computable eng law st k f) : Computable eng law st' k f := by
  obtain ⟨d, a1, a2, a3⟩ := h
  exact ⟨d, denotes_congr h1 h2 (fun m _ => h3 m) a1, a2, h4 _ _ a3⟩

/-- Laying out a sweep changes no value. -/
theorem swept_value {st st' : SW E R} {spec : List SweepSpec} {w : List (List PF)} (h : SW.Swept st st' spec w) (n : String) :
    st'.pc.getParameterValue n = st.pc.getParameterValue n := by
  unfold getParameterValue
  by_cases hk : n ∈ sweptNames spec
  · obtain ⟨s, hs1, rfl⟩ := List.mem_map.1 hk
    obtain ⟨j, hj⟩ := List.mem_iff_getElem?.1 hs1
    obtain ⟨p1, p2, pts, e1, e2, e3, -⟩ := h.swept j s hj
    rw [e1, e3]
    have : p2.value = p1.value := by
      unfold Param.linearSweep at e2
      split at e2
      · cases e2
      split at e2
      · cases e2
      split at e2
      · cases e2
      split_ifs at e2 <;> cases e2
      rfl
    simp only [Param.getValue, this]
  · rw [h.others n hk]

theorem swept_admits {st st' : SW E R} {spec : List SweepSpec} {w : List (List PF)} (h : SW.Swept st st' spec w) {k : String} {f : PF}
    (ha : Admits st.pc k f) : Admits st'.pc k f := by
  obtain ⟨p, hp1, hp2⟩ := ha
  by_cases hk : k ∈ sweptNames spec
  · obtain ⟨s, hs1, rfl⟩ := List.mem_map.1 hk
    obtain ⟨j, hj⟩ := List.mem_iff_getElem?.1 hs1
    obtain ⟨p1, p2, pts, e1, e2, e3, -⟩ := h.swept j s hj
    rw [hp1] at e1
    cases e1
    exact ⟨p2, e3, setValue_bounds (linearSweep_bounds e2) hp2⟩
  · exact ⟨p, by rw [h.others k hk]; exact hp1, hp2⟩

/-- The configured oscillators have their expressions. -/
def Oscillating (imp : ℕ → E) (st : NS E R O) : Prop :=
  ∀ node c, st.cfg.get? node = some c → c.basis = .oscillator → c.impedance = some (imp node) ∧ NS.zName node ∈ st.sw.pc.parz.keys

theorem parz_keys {eng : Engine E} {pc pc' : PC E} {k : String} {e : E} (h : pc.addParameterisation eng k e = (pc', .ok ())) :
    k ∈ pc'.parz.keys ∧ ∀ m ∈ pc.parz.keys, m ∈ pc'.parz.keys := by
  obtain ⟨names, -, -, b3⟩ := parz_set h
  rw [b3]
  exact ⟨Dict.mem_keys_of_get? (Dict.get?_set_self _ _ _), fun m hm => by
    rw [Dict.mem_keys_iff] at hm ⊢
    by_cases hmk : m = k
    · subst hmk
      rw [Dict.get?_set_self]; rfl
    · rw [Dict.get?_set_ne _ _ (Ne.symm hmk)]; exact hm⟩

theorem oscillating_used {eng : Engine E} {freq imp : ℕ → E} {gen : List (ℕ × BasisName) → ℕ → Option PF → Except Err O} {st st' : NS E R O}
    (hclean : ∀ s, Used eng gen freq imp st s → CleanReachable eng s.sw.pc) (h : Oscillating imp st) (hu : Used eng gen freq imp st st') : Oscillating imp st' := by
  induction hu with
  | start => exact h
  | @configure s s' node trunc basis _ hc ih =>
    by_cases hb : basis = .oscillator
    · subst hb
      obtain ⟨-, p₁, p₂, p₃, p₄, h1, h2, h3, h4, rfl⟩ := configure_cases eng s s' freq imp node trunc hc
      have k2 := parz_keys h2
      have k4 := parz_keys h4
      rw [(added_one _ _ _ _ h1).parz] at k2
      rw [(added_one _ _ _ _ h3).parz] at k4
      intro m c hm hcb
      by_cases hmn : m = node
      · subst hmn
        have hm' : (s.cfg.set m ⟨trunc, .oscillator, some (imp m)⟩).get? m = some c := hm
        rw [Dict.get?_set_self] at hm'
        cases hm'
        exact ⟨rfl, k4.1⟩
      · have hm' : (s.cfg.set node ⟨trunc, .oscillator, some (imp node)⟩).get? m = some c := hm
        rw [Dict.get?_set_ne _ _ (Ne.symm hmn)] at hm'
        obtain ⟨a1, a2⟩ := ih m c hm' hcb
        exact ⟨a1, k4.2 _ (k2.2 _ a2)⟩
    · unfold NS.configureOperator at hc
      by_cases hnode : node ∈ s.nodes
      · rw [if_neg (not_not.2 hnode), if_neg hb] at hc
        cases hc
        intro m c hm hcb
        by_cases hmn : m = node
        · subst hmn
          simp only [Dict.get?_set_self, Option.some.injEq] at hm
          subst hm
          exact absurd hcb hb
        · simp only [Dict.get?_set_ne _ _ (Ne.symm hmn)] at hm
          exact ih m c hm hcb
      · rw [if_pos hnode] at hc
        cases hc
  | @set s s' ho fuel args hu hset ih =>
    obtain ⟨-, -, k3⟩ := set_clean (hclean s hu) hset
    obtain ⟨-, f2, -, -, -⟩ := setCall_frame eng gen s (ho, fuel, .many args)
    have hset' : s.set eng gen (ho, fuel, .many args) = (s', .ok ()) := hset
    rw [hset'] at f2
    intro m c hm hcb
    obtain ⟨a1, a2⟩ := ih m c (by rw [← f2]; exact hm) hcb
    exact ⟨a1, by rw [k3]; exact a2⟩

/-- A system that is up to date is ready for a sweep of the parameters of its circuit. -/
theorem ready_of {eng : Engine E} {law : eng.Lawful D} {A : Arith E} {freq imp : ℕ → E} {gen : List (ℕ × BasisName) → ℕ → Option PF → Except Err O}
    {h : List Circuit.Call} {b : Biases} {s₂ : NS E R O} {own : String → E → Prop} (ho : ∀ k e, OscOwn freq imp k e → own k e)
    (hpre : Prepared eng A own h b s₂.sw.pc s₂.exprs) (hcfg : Oscillating imp s₂)
    (hcur : Current eng gen s₂) (hup : UpToDate eng law s₂.sw.pc) (hcomp : ∀ k, Parametric s₂.sw.pc k → ∃ f, HasSource eng s₂.sw.pc k ∧ Computable eng law s₂.sw.pc k f)
    {specs : List SweepSpec} (hnd : (sweptNames specs).Nodup) (hdecl : ∀ k ∈ sweptNames specs, ∃ c ∈ h, Declares c k)
    (hfree : ∀ k ∈ sweptNames specs, ¬ Computed h k) {sw : SW E R}
    (hsw : s₂.sw.ndSweep specs = (sw, .ok ())) {evals : List Entry} :
    Ready eng law gen (sweptNames specs) { s₂ with specs := specs, evals := evals, sw := sw } := by
  obtain ⟨w, hw⟩ := SW.ndSweep_ok hsw hnd
  have hcl : CleanReachable eng sw.pc := by
    have := ndSweep_clean (st := s₂.sw) hpre.tidy.clean specs
    rw [hsw] at this
    exact this
  have hpar : ∀ k, Parametric sw.pc k ↔ Parametric s₂.sw.pc k := fun k => by unfold Parametric getParametricParametersList; rw [hw.parz_eq]
  refine ⟨hcl, hw.params_eq, fun k hk => ?_, fun k hk => ?_, ?_, fun node c hc hb => ?_⟩
  · obtain ⟨c, hc, hd⟩ := hdecl k hk
    obtain ⟨d1, d2⟩ := hpre.declared c hc k hd
    refine ⟨?_, fun hp => d2 (hfree k hk) ((hpar k).1 hp)⟩
    have hkey : k ∈ sw.pc.coll.keys := by
      rw [hw.keys_eq, ← hpre.tidy.syms.2]
      exact Dict.mem_keys_of_get? (getSymbol_iff.1 d1)
    rw [Dict.mem_keys_iff, Option.isSome_iff_ne_none] at hkey
    exact hkey
  · obtain ⟨f, f1, f2⟩ := hcomp k ((hpar k).1 hk)
    exact ⟨f, hasSource_congr hw.symMap_eq hw.parz_eq f1, computable_congr hw.symMap_eq hw.parz_eq (swept_value hw) (fun k f => swept_admits hw) f2,
      by rw [show ({ s₂ with specs := specs, evals := evals, sw := sw } : NS E R O).sw.pc = sw.pc from rfl, swept_value hw]; exact hup k f f1 f2⟩
  · obtain ⟨-, ⟨sh, o1, o2⟩, ⟨l, v1, v2⟩⟩ := hcur
    refine prepare_of gen _ (sh := sh) (l := l) o1 (fun node hn => ?_) ?_ v1
    · obtain ⟨o, q1, q2⟩ := o2 node hn
      refine ⟨o, ?_, q2⟩
      rw [← q1]
      exact opsOf_congr rfl fun _ _ _ => swept_value hw _
    · have key : ∀ (ns : List ℕ) (l : List O), ns.map (fun node => s₂.circ.get? node) = l.map some → ns.mapM (fun node => s₂.circ.get? node) = some l := by
        intro ns
        induction ns with
        | nil => intro l hl; cases l with
          | nil => rfl
          | cons _ _ => cases hl
        | cons n ns ih =>
          intro l hl
          cases l with
          | nil => cases hl
          | cons o l =>
            simp only [List.map_cons, List.cons.injEq] at hl
            rw [List.mapM_cons, hl.1, ih l hl.2]
            rfl
      exact key _ _ v2
  · obtain ⟨a1, a2⟩ := hcfg node c hc hb
    obtain ⟨-, ns, b1, -⟩ := hpre.owned (NS.zName node) (imp node) (ho _ _ ⟨node, Or.inr ⟨rfl, rfl⟩⟩) a2
    exact ⟨imp node, a1, getExpr_iff.2 ⟨ns, by rw [show ({ s₂ with specs := specs, evals := evals, sw := sw } : NS E R O).sw.pc = sw.pc from rfl, hw.parz_eq]; exact b1⟩⟩

/-- What a successful sweep has gone through. -/
theorem paramSweep_parts {H P X V Q : Type} {eng : Engine E} {ho : HashOrder} {fuel : ℕ} {ph : Phys O H P X V R} {gv : Bool} {st st' : NS E Q O}
    {files : List (SW.Pickled (Res X V R))} (hrun : paramSweep eng ho fuel ph gv st = (st', files, .ok ())) {sw : SW E Q}
    (hsw : st.sw.ndSweep st.specs = (sw, .ok ())) :
    ∃ st₁ pts, ({ st with sw := sw, evals := evaluations st } : NS E Q O).presub eng ho = (st₁, .ok ()) ∧ gridPoints sw = .ok pts := by
  have hst : (if st.evals.length = 0 then { st with evals := [⟨.getHamiltonian, true, none, {}⟩] } else st) = { st with evals := evaluations st } := by
    unfold evaluations
    by_cases h : st.evals = []
    · simp [h, hamEntry]
    · simp [h]
  unfold paramSweep at hrun
  rw [hst] at hrun
  simp only [hsw] at hrun
  split at hrun
  · cases hrun
  rename_i st₁ hpre
  split at hrun
  · cases hrun
  rename_i pts hpts
  refine ⟨st₁, pts, hpre, ?_⟩
  have : st₁.sw = sw := by
    unfold NS.presub at hpre
    split at hpre
    · cases hpre
    · dsimp only at hpre
      split at hpre
      · cases hpre
      · simp only [Prod.mk.injEq, and_true] at hpre
        rw [← hpre]
  rw [this] at hpts
  exact hpts

end Verif.Props
