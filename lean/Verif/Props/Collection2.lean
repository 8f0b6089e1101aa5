import Verif.Props.Collection

/-!
# Properties C07 to C14: `ParamCollection`
-/

set_option linter.unusedVariables false

namespace Verif.Props

open Verif Verif.Spec Verif.PC

variable {E D : Type}

/-! ## C07 -/

/-- C07, termination: after a clean history the expansion of every parameterisation terminates, with a
result that does not depend on how much fuel is supplied beyond some point. -/
theorem C07_expansion_terminates_partial (eng : Engine E) (law : eng.Lawful D) (st : PC E)
    (h : CleanReachable eng st) (k : String) (hk : Parametric st k) :
    ∃ N e, ∀ fuel, N ≤ fuel → st.getParametricExpression eng fuel k true = .ok e := by
  have hg := CleanReachable.good law h
  obtain ⟨N, hN⟩ := getParametricExpression_total law hg
  obtain ⟨e, he⟩ := hN N le_rfl k hk
  refine ⟨N, e, fun fuel hf => ?_⟩
  unfold getParametricExpression at he ⊢
  split at he
  · cases he
  · rename_i heq
    simp only [heq, if_true] at he ⊢
    exact expandLoop_mono eng st N _ _ he fuel hf

/-- C07, meaning: the expanded expression contains only symbols of independent parameters and, whatever
values the parameters are given (`coll'` is any assignment of values to the same parameters), it
evaluates to the recursive evaluation of the parameterisations at those values. -/
theorem C07_expansion_meaning_partial (eng : Engine E) (law : eng.Lawful D) (st : PC E)
    (h : CleanReachable eng st) (k : String) (fuel : ℕ) (e : E)
    (he : st.getParametricExpression eng fuel k true = .ok e) :
    (∀ s ∈ eng.free e, ∃ m, st.getSymbol m = .ok s ∧ ¬ Parametric st m) ∧
    ∀ (coll' : Dict String Param), coll'.keys = st.coll.keys →
      ∀ (ρ : Sym → D), (∀ m s v, ¬ Parametric st m → st.getSymbol m = .ok s →
          ({ st with coll := coll' } : PC E).getParameterValue m = .ok (some v) → ρ s = law.ofPF v) →
      ∀ d, Denotes eng law { st with coll := coll' } k d → law.eval ρ e = some d := by
  have hg := CleanReachable.good law h
  unfold getParametricExpression at he
  split at he
  · cases he
  · rename_i ex ns hp
    simp only [if_true] at he
    constructor
    · have hinv := expandLoop_invariant eng st (fun _ => True) (fun _ _ _ _ _ _ _ _ _ => trivial) fuel ex e he trivial
      intro s hs
      obtain ⟨m, h1, h2⟩ := exprParametric_false hinv.2 s hs
      exact ⟨m, getSymbol_iff.2 (hg.fromSymbol.1 h1), h2⟩
    · intro coll' hkeys ρ hρ d hd
      have hg' : Good eng { st with coll := coll' } := hg.of_coll rfl rfl rfl hkeys
      obtain ⟨ρ₀, hρ₀⟩ := exists_valuation law hg'
      have he' : expandLoop eng { st with coll := coll' } fuel ex = .ok e := 
        (expandLoop_congr eng (st := st) (st' := { st with coll := coll' }) rfl rfl fuel ex).trans he
      obtain ⟨h1, h2⟩ := expand_meaning law hg' hρ₀ (k := k) (ex := ex) (ns := ns) hp hd he'
      rw [← h1]
      apply law.eval_congr
      intro s hs
      obtain ⟨m, a1, a2, a3, _⟩ := h2 s hs
      obtain ⟨v, hv, hv'⟩ := Denotes.value_of_independent a3 a2
      rw [hv']
      exact hρ m s v a2 (getSymbol_iff.2 a1) hv

/-- `D = 2 * A` with `A = B + C` expands to `2 * (B + C)`. -/
example : Parametric demo "D" ∧ demo.getParametricExpression Ast.engine 10 "D" true =
    .ok (.mul (.lit (.fin 2)) (.add (.sym "B_{}") (.sym "C_{}"))) := by
  refine ⟨?_, by decide +kernel⟩
  unfold Parametric
  decide +kernel

theorem loop_parz : loopState.parz = [("A", (.mul (.lit (.fin 2)) (.sym "A_{}"), []))] := by decide +kernel
theorem loop_symMap : loopState.symMap = [("A", "A_{}")] := by decide +kernel

/-- Without cleanliness the expansion may not terminate: with `A = 2` and the prefactor `A`, no amount
of fuel suffices. -/
theorem C07_false_symbolic_prefactor :
    ∃ st : PC Ast, Reachable Ast.engine st ∧ Parametric st "A" ∧
      ∀ fuel, st.getParametricExpression Ast.engine fuel "A" true = .error .diverge := by
  refine ⟨loopState, ⟨["A"], loop₀, loopHistory, loop₀_eq, rfl⟩, ?_, ?_⟩
  · unfold Parametric; decide +kernel
  · have hfrom : loopState.getParameterFromSymbol "A_{}" = .ok "A" := by decide +kernel
    have hget : loopState.parz.get? "A" = some (.mul (.lit (.fin 2)) (.sym "A_{}"), []) := by decide +kernel
    have hhas : loopState.parz.has "A" = true := by decide +kernel
    have hfree : ∀ base : Ast, (∀ x ∈ base.syms, x = "A_{}") → base.syms ≠ [] →
        Ast.engine.free base = ["A_{}"] := by
      intro base h1 h2
      show base.syms.dedup = _
      obtain ⟨y, ys, hy⟩ := List.exists_cons_of_ne_nil h2
      have hrep : base.syms = List.replicate base.syms.length "A_{}" :=
        List.eq_replicate_iff.2 ⟨rfl, h1⟩
      rw [hrep, List.replicate_dedup]
      simpa using h2
    have key : ∀ fuel (base : Ast), (∀ x ∈ base.syms, x = "A_{}") → base.syms ≠ [] →
        expandLoop Ast.engine loopState fuel base = .error .diverge := by
      intro fuel
      induction fuel with
      | zero => intro base _ _; rfl
      | succ n ih =>
        intro base h1 h2
        unfold expandLoop
        rw [hfree base h1 h2]
        simp only [exprParametric, hfrom, hhas, if_true, expandFor, hget]
        apply ih
        · intro x hx
          rcases Ast.syms_subst _ _ _ _ hx with ⟨hx, _⟩ | hx
          · exact h1 x hx
          · simpa [Ast.syms] using hx
        · -- substituting for the symbol leaves an occurrence
          have : ∀ e : Ast, e.syms ≠ [] → (∀ x ∈ e.syms, x = "A_{}") →
              (Ast.subst "A_{}" (.mul (.lit (.fin 2)) (.sym "A_{}")) e).syms ≠ [] := by
            intro e
            induction e with
            | lit f => intro h; exact absurd rfl h
            | sym s =>
              intro _ h
              have : s = "A_{}" := h s (by simp [Ast.syms])
              subst this
              simp [Ast.subst, Ast.syms]
            | add a b iha ihb =>
              intro h h'
              simp only [Ast.subst, Ast.syms, ne_eq, List.append_eq_nil_iff, List.mem_append] at h h' ⊢
              rintro ⟨ha, hb⟩
              apply h
              constructor
              · by_contra hc; exact iha hc (fun x hx => h' x (Or.inl hx)) ha
              · by_contra hc; exact ihb hc (fun x hx => h' x (Or.inr hx)) hb
            | mul a b iha ihb =>
              intro h h'
              simp only [Ast.subst, Ast.syms, ne_eq, List.append_eq_nil_iff, List.mem_append] at h h' ⊢
              rintro ⟨ha, hb⟩
              apply h
              constructor
              · by_contra hc; exact iha hc (fun x hx => h' x (Or.inl hx)) ha
              · by_contra hc; exact ihb hc (fun x hx => h' x (Or.inr hx)) hb
            | inv a iha =>
              intro h h'
              simp only [Ast.subst, Ast.syms] at h h' ⊢
              exact iha h h'
            | sqrt a iha =>
              intro h h'
              simp only [Ast.subst, Ast.syms] at h h' ⊢
              exact iha h h'
          exact this base h2 h1
    intro fuel
    unfold getParametricExpression
    rw [hget]
    simp only [if_true]
    exact key fuel _ (by simp [Ast.syms]) (by simp [Ast.syms])

/-! ## C09 (used by C08) -/

/-- C09, refused sets: on an unknown name, on a wrong type and on a number outside the bounds the call
raises and the collection is exactly as before. -/
theorem C09_refused_set_changes_nothing (eng : Engine E) (ho : HashOrder) (fuel : ℕ) (st : PC E)
    (name : String) (v : PyVal)
    (h : st.coll.get? name = none ∨
      (¬ Parametric st name ∧ ∃ p, st.coll.get? name = some p ∧ (p.setValue v).2 ≠ .ok ())) :
    ∃ e, st.setParameterValue eng ho fuel name v = (st, .error e) := by
  unfold setParameterValue
  rcases h with h | ⟨hnp, p, hp, hv⟩
  · simp [h]
  · have hnh : ¬ st.parz.has name = true := fun hc => hnp ((Dict.has_iff _ _).1 hc)
    rw [hp]
    simp only
    rw [if_neg hnh]
    split
    · rename_i e he
      exact ⟨e, rfl⟩
    · rename_i p' he
      rw [he] at hv; simp at hv

/-- C09, frame: in every reachable state, whether or not the call succeeds, `setParameterValue` keeps
the parameter names, the symbols, the parameterisations and the recorded dependencies; it keeps every
attribute other than the value of every parameter; and it keeps the value of every parameter that is
neither the named one nor parametric. -/
theorem C09_set_frame (eng : Engine E) (hfree : ∀ e, (eng.free e).Nodup) (st : PC E)
    (h : Reachable eng st) (ho : HashOrder) (fuel : ℕ) (name : String) (v : PyVal) (st' : PC E)
    (r : Except Err Unit) (hr : st.setParameterValue eng ho fuel name v = (st', r)) :
    st'.coll.keys = st.coll.keys ∧ st'.symMap = st.symMap ∧ st'.parz = st.parz ∧
    st'.graph = st.graph ∧
    ∀ k p, st.coll.get? k = some p → ∃ p', st'.coll.get? k = some p' ∧
      (p' = { p with value := p'.value }) ∧
      (k ≠ name → ¬ Parametric st k → p'.value = p.value) := by
  have hw := (Reachable.inv hfree h).2.wf
  have hf := setParameterValue_frame eng ho fuel st name v
  have hk := setParameterValue_keys eng ho fuel st name v
  rw [hr] at hf hk
  refine ⟨hk, hf.1, hf.2.1, hf.2.2, ?_⟩
  intro k p hp
  unfold setParameterValue at hr
  have triv : ∃ p', st.coll.get? k = some p' ∧ (p' = { p with value := p'.value }) ∧
      (k ≠ name → ¬ Parametric st k → p'.value = p.value) := ⟨p, hp, rfl, fun _ _ => rfl⟩
  split at hr
  · cases hr; exact triv
  · rename_i p₀ hp₀
    split_ifs at hr
    · cases hr; exact triv
    · split at hr
      · cases hr; exact triv
      · rename_i p₁ hp₁
        have e1 := congrArg Prod.fst hr
        simp only at e1
        -- the parameter after the assignment
        obtain ⟨p₂, h1, h2, h3⟩ : ∃ p₂, (st.coll.set name p₁).get? k = some p₂ ∧
            p₂ = { p with value := p₂.value } ∧ (k ≠ name → p₂ = p) := by
          rw [Dict.get?_set]
          by_cases hkn : name = k
          · subst hkn
            rw [hp₀] at hp; cases hp
            refine ⟨p₁, by simp, ?_, fun h => absurd rfl h⟩
            have := setValue_frame p v
            rw [hp₁] at this
            simp only at this
            rcases this with rfl | ⟨f, rfl⟩ <;> rfl
          · exact ⟨p, by simp [hkn, hp], rfl, fun _ => rfl⟩
        obtain ⟨p', i1, i2, i3⟩ := update_param_frame eng ho fuel { st with coll := st.coll.set name p₁ } hw k p₂ h1
        rw [e1] at i1
        refine ⟨p', i1, ?_, ?_⟩
        · rcases i2 with rfl | ⟨f, rfl⟩
          · exact h2
          · simp only; rw [h2]
        · intro hkn hnp
          rw [i3 hnp, h3 hkn]

/-- C09 is about real changes: in the demonstration collection setting `B` does change `B`, `A`, `D`. -/
example : (demo.setParameterValue Ast.engine .id 10 "B" (.int 10)).1.getParameterValuesDict =
    [("A", some (.fin 14)), ("B", some (.fin 10)), ("C", some (.fin 4)), ("D", some (.fin 28))] ∧
    demo.getParameterValuesDict =
    [("A", some (.fin 7)), ("B", some (.fin 3)), ("C", some (.fin 4)), ("D", some (.fin 14))] := by
  decide +kernel

/-! ## C08 -/

/-- The value stored by a successful set of an independent parameter. -/
theorem set_stores {eng : Engine E} (law : eng.Lawful D) {st : PC E} (hg : st.Good eng) {ho : HashOrder}
    {fuel : ℕ} {name : String} {v : PyVal} {st' : PC E} (hnp : ¬ Parametric st name)
    (hok : st.setParameterValue eng ho fuel name v = (st', .ok ())) :
    st'.Good eng ∧ st'.parz = st.parz ∧ st'.symMap = st.symMap ∧
    (∃ f, v.toFloat? = some f ∧ st'.getParameterValue name = .ok (some f)) ∧
    (∀ k, k ≠ name → ¬ Parametric st k → st'.getParameterValue k = st.getParameterValue k) ∧
    (∀ k f, Admits st k f ↔ Admits st' k f) := by
  have hf := setParameterValue_frame eng ho fuel st name v
  have hk := setParameterValue_keys eng ho fuel st name v
  rw [hok] at hf hk
  simp only at hf hk
  have hg' : st'.Good eng := hg.of_coll hf.1 hf.2.1 hf.2.2 hk
  refine ⟨hg', hf.2.1, hf.1, ?_⟩
  have hnh : ¬ st.parz.has name = true := fun hc => hnp ((Dict.has_iff _ _).1 hc)
  unfold setParameterValue at hok
  split at hok
  · cases hok
  · rename_i p hp
    rw [if_neg hnh] at hok
    split at hok
    · cases hok
    · rename_i p₁ hp₁
      have e1 := congrArg Prod.fst hok
      simp only at e1
      have hw : ({ st with coll := st.coll.set name p₁ } : PC E).graph.WF := hg.wf
      have hpv : ∃ f, v.toFloat? = some f ∧ p₁ = { p with value := some f } := by
        unfold Param.setValue at hp₁
        split at hp₁
        · cases hp₁
        · rename_i f hf
          split_ifs at hp₁
          · cases hp₁
          · cases hp₁
          · exact ⟨f, hf, (congrArg Prod.fst hp₁).symm⟩
      obtain ⟨f, hvf, hp₁f⟩ := hpv
      have hpar : ∀ k p₂, (st.coll.set name p₁).get? k = some p₂ → ∃ p', st'.coll.get? k = some p' ∧
          (p' = p₂ ∨ ∃ f, p' = { p₂ with value := some f }) ∧ (¬ Parametric st k → p' = p₂) := by
        intro k p₂ h2
        rw [← e1]
        exact update_param_frame eng ho fuel _ hw k p₂ h2
      refine ⟨⟨f, hvf, ?_⟩, ?_, ?_⟩
      · obtain ⟨p', h1, _, h3⟩ := hpar name p₁ (by simp)
        rw [getValue_iff]
        refine ⟨p', h1, ?_⟩
        rw [h3 hnp, hp₁f]
      · intro k hkn hkp
        unfold getParameterValue
        cases hc : st.coll.get? k with
        | none =>
          have : st'.coll.get? k = none := by
            rw [Dict.get?_eq_none_iff] at hc ⊢; rwa [hk]
          rw [this]
        | some q =>
          obtain ⟨p', h1, _, h3⟩ := hpar k q (by rw [Dict.get?_set_ne _ _ (fun e => hkn e.symm)]; exact hc)
          rw [h1, h3 hkp]
      · intro k g
        unfold Admits
        have hadm : ∀ (q q' : Param), q'.lo = q.lo → q'.hi = q.hi →
            ((q'.setValue (.float g)).2 = .ok () ↔ (q.setValue (.float g)).2 = .ok ()) := by
          intro q q' h1 h2
          unfold Param.setValue
          simp only [PyVal.toFloat?, h1, h2]
          split_ifs <;> simp
        have hrel : ∀ q, st.coll.get? k = some q → ∃ q', st'.coll.get? k = some q' ∧ q'.lo = q.lo ∧ q'.hi = q.hi := by
          intro q hq
          by_cases hkn : name = k
          · subst hkn
            rw [hp] at hq; cases hq
            obtain ⟨p', h1, h2, _⟩ := hpar name p₁ (by simp)
            refine ⟨p', h1, ?_⟩
            rcases h2 with rfl | ⟨f', rfl⟩ <;> simp [hp₁f]
          · obtain ⟨p', h1, h2, _⟩ := hpar k q (by rw [Dict.get?_set_ne _ _ hkn]; exact hq)
            refine ⟨p', h1, ?_⟩
            rcases h2 with rfl | ⟨f', rfl⟩ <;> simp
        constructor
        · rintro ⟨q, hq, h⟩
          obtain ⟨q', h1, h2, h3⟩ := hrel q hq
          exact ⟨q', h1, (hadm q q' h2 h3).2 h⟩
        · rintro ⟨q', hq', h⟩
          have : k ∈ st.coll.keys := by rw [← hk]; exact Dict.mem_keys_of_get? hq'
          rw [Dict.mem_keys_iff, Option.isSome_iff_exists] at this
          obtain ⟨q, hq⟩ := this
          obtain ⟨q'', h1, h2, h3⟩ := hrel q hq
          rw [hq'] at h1; cases h1
          exact ⟨q, hq, (hadm q q' h2 h3).1 h⟩

/-- C08: set two different independent parameters in either order (with any set-iteration orders).  If
the four calls succeed and every parametric parameter with an independent source is computable at the
end, then all independent parameters and all those parametric ones hold the same values. -/
theorem C08_order_independent (eng : Engine E) (law : eng.Lawful D) (st : PC E)
    (h : CleanReachable eng st) (a b : String) (va vb : PyVal) (hab : a ≠ b)
    (ha : ¬ Parametric st a) (hb : ¬ Parametric st b)
    (ho₁ ho₂ ho₃ ho₄ : HashOrder) (fuel : ℕ) (sa sab sb sba : PC E)
    (h1 : st.setParameterValue eng ho₁ fuel a va = (sa, .ok ()))
    (h2 : sa.setParameterValue eng ho₂ fuel b vb = (sab, .ok ()))
    (h3 : st.setParameterValue eng ho₃ fuel b vb = (sb, .ok ()))
    (h4 : sb.setParameterValue eng ho₄ fuel a va = (sba, .ok ()))
    (hcomp : ∀ k, HasSource eng sab k → ∃ f, Computable eng law sab k f)
    (k : String) (hk : ¬ Parametric st k ∨ HasSource eng sab k) :
    sab.getParameterValue k = sba.getParameterValue k := by
  have hg := CleanReachable.good law h
  obtain ⟨ga, pa, ya, ⟨fa, hfa, va1⟩, oa, aa⟩ := set_stores law hg ha h1
  have hb' : ¬ Parametric sa b := by unfold Parametric getParametricParametersList at hb ⊢; rwa [pa]
  obtain ⟨gab, pab, yab, ⟨fb, hfb, vb1⟩, ob, ab⟩ := set_stores law ga hb' h2
  obtain ⟨gb, pb, yb, ⟨fb', hfb', vb2⟩, ob2, ab2⟩ := set_stores law hg hb h3
  have ha' : ¬ Parametric sb a := by unfold Parametric getParametricParametersList at ha ⊢; rwa [pb]
  obtain ⟨gba, pba, yba, ⟨fa', hfa', va2⟩, oa2, aa2⟩ := set_stores law gb ha' h4
  rw [hfa] at hfa'; cases hfa'
  rw [hfb] at hfb'; cases hfb'
  have par : ∀ {s : PC E}, s.parz = st.parz → ∀ m, Parametric s m ↔ Parametric st m := by
    intro s hs m; unfold Parametric getParametricParametersList; rw [hs]
  have hsab := par (pab.trans pa)
  have hsba := par (pba.trans pb)
  have hindep : ∀ m, ¬ Parametric st m → sab.getParameterValue m = sba.getParameterValue m := by
    intro m hm
    by_cases hma : m = a
    · subst hma
      rw [va2, ob m hab (by rwa [par pa]), va1]
    · by_cases hmb : m = b
      · subst hmb
        rw [vb1, oa2 m hma (by rwa [par pb]), vb2]
      · rw [ob m hmb (by rwa [par pa]), oa m hma hm, oa2 m hma (by rwa [par pb]), ob2 m hmb hm]
  by_cases hkp : Parametric st k
  · have hsrc := hk.resolve_left (not_not.2 hkp)
    obtain ⟨f, hc⟩ := hcomp k hsrc
    -- the same computation is prescribed in the other order
    have hsrc' : HasSource eng sba k := by
      obtain ⟨i, hi, hki⟩ := hsrc
      refine ⟨i, by rwa [hsba, ← hsab], hki.lift id ?_⟩
      rintro x y ⟨ex, s, e1, e2, e3⟩
      refine ⟨ex, s, ?_, ?_, e3⟩
      · rw [getExpr_iff] at e1 ⊢; rwa [pba.trans pb, ← pab.trans pa]
      · rw [getSymbol_iff] at e2 ⊢; rwa [yba.trans yb, ← yab.trans ya]
    have hc' : Computable eng law sba k f := by
      obtain ⟨d, hd, hdf, hadm⟩ := hc
      refine ⟨d, Denotes.congr ((yba.trans yb).trans (yab.trans ya).symm)
        ((pba.trans pb).trans (pab.trans pa).symm) ?_ hd, hdf, ?_⟩
      · intro m hm; rw [hsab] at hm; exact (hindep m hm).symm
      · rw [← aa2, ← ab2, aa, ab]; exact hadm
    have hra : CleanReachable eng sa := by
      obtain ⟨names, st₀, hist, n1, n2, n3⟩ := h
      refine ⟨names, st₀, hist ++ [⟨ho₁, fuel, .setParameterValue a va⟩], n1, ?_, ?_⟩
      · have : ∀ (l : List (Call E)) (s : PC E), CleanHistory eng s l →
            CleanHistory eng s (l ++ [⟨ho₁, fuel, .setParameterValue a va⟩]) := by
          intro l; induction l with
          | nil => intro s _; exact ⟨trivial, trivial⟩
          | cons c l ih => intro s hs; exact ⟨hs.1, ih _ hs.2⟩
        exact this hist st₀ n2
      · rw [runPC, List.foldl_append]; rw [runPC] at n3; rw [← n3]; simp [call, h1]
    have hrb : CleanReachable eng sb := by
      obtain ⟨names, st₀, hist, n1, n2, n3⟩ := h
      refine ⟨names, st₀, hist ++ [⟨ho₃, fuel, .setParameterValue b vb⟩], n1, ?_, ?_⟩
      · have : ∀ (l : List (Call E)) (s : PC E), CleanHistory eng s l →
            CleanHistory eng s (l ++ [⟨ho₃, fuel, .setParameterValue b vb⟩]) := by
          intro l; induction l with
          | nil => intro s _; exact ⟨trivial, trivial⟩
          | cons c l ih => intro s hs; exact ⟨hs.1, ih _ hs.2⟩
        exact this hist st₀ n2
      · rw [runPC, List.foldl_append]; rw [runPC] at n3; rw [← n3]; simp [call, h3]
    rw [C06_dependents_follow_set_partial eng law sa hra ho₂ fuel b vb hb' sab h2 k f hsrc hc,
      C06_dependents_follow_set_partial eng law sb hrb ho₄ fuel a va ha' sba h4 k f hsrc' hc']
  · exact hindep k hkp

/-- The two orders of setting `B` and `C` in the demonstration collection, with different iteration
orders of the sets: the four calls succeed. -/
example : let sa := demo.setParameterValue Ast.engine .id 10 "B" (.int 5)
    let sab := sa.1.setParameterValue Ast.engine .rev 10 "C" (.int 6)
    let sb := demo.setParameterValue Ast.engine .rev 10 "C" (.int 6)
    let sba := sb.1.setParameterValue Ast.engine .id 10 "B" (.int 5)
    sa.2 = .ok () ∧ sab.2 = .ok () ∧ sb.2 = .ok () ∧ sba.2 = .ok () ∧
      sab.1.getParameterValue "D" = .ok (some (.fin 22)) := by decide +kernel

/-- `A = 1/B` with `B = 1`. -/
def recipHistory : List (Call Ast) :=
  [⟨.id, 10, .addParameterisation "A" (.inv (.sym "B_{}"))⟩, ⟨.id, 10, .setParameterValue "B" (.int 1)⟩]

def recip : PC Ast := runPC Ast.engine demo₀ recipHistory

def recip' : PC Ast := (recip.setParameterValue Ast.engine .id 10 "B" (.int 0)).1

/-- A dependent that cannot be computed silently keeps its old value: `A = 1/B` and `B` is set to 0. -/
theorem C06_uncomputable_keeps_old_value :
    ∃ (st st' : PC Ast), CleanReachable Ast.engine st ∧ st.getParameterValue "A" = .ok (some (.fin 1)) ∧
      st.setParameterValue Ast.engine .id 10 "B" (.int 0) = (st', .ok ()) ∧
      st'.getParameterValue "B" = .ok (some (.fin 0)) ∧
      st'.getParameterValue "A" = .ok (some (.fin 1)) := by
  refine ⟨recip, recip', ⟨_, demo₀, recipHistory, demo₀_eq, ?_, rfl⟩, by decide +kernel, Prod.ext rfl ?_,
    by decide +kernel, by decide +kernel⟩
  · simp only [CleanHistory, recipHistory, CleanCall, and_true]
    unfold Parametric
    decide +kernel
  · decide +kernel

/-- `A = 1/(B + C)` with `B = 5` and `C = 6`. -/
def recip2History : List (Call Ast) :=
  [⟨.id, 10, .addParameterisation "A" (.inv (.add (.sym "B_{}") (.sym "C_{}")))⟩,
   ⟨.id, 10, .setParameterValue "B" (.int 5)⟩, ⟨.id, 10, .setParameterValue "C" (.int 6)⟩]

/-- Without the computability proviso the order matters: `A = 1/(B + C)`. -/
theorem C08_false_when_not_computable :
    ∃ (st : PC Ast), CleanReachable Ast.engine st ∧ ¬ Parametric st "B" ∧ ¬ Parametric st "C" ∧
      (((st.setParameterValue Ast.engine .id 10 "B" (.int 1)).1.setParameterValue Ast.engine .id 10 "C"
          (.int (-1))).1.getParameterValue "A" ≠
        ((st.setParameterValue Ast.engine .id 10 "C" (.int (-1))).1.setParameterValue Ast.engine .id 10 "B"
          (.int 1)).1.getParameterValue "A") := by
  refine ⟨runPC Ast.engine demo₀ recip2History, ⟨_, demo₀, recip2History, demo₀_eq, ?_, rfl⟩, ?_, ?_, by decide +kernel⟩
  · simp only [CleanHistory, recip2History, CleanCall, and_true]
    unfold Parametric
    decide +kernel
  · unfold Parametric; decide +kernel
  · unfold Parametric; decide +kernel

/-! ## C10 -/

/-- C10 is false: with two pairs of which the second is refused, the first has been stored. -/
theorem C10_false :
    ∃ (st st' : PC Ast) (e : Err), CleanReachable Ast.engine st ∧
      st.setParameterValues Ast.engine .id 10 [.name "B", .val (.int 1), .name "nope", .val (.int 2)] =
        (st', .error e) ∧
      st.getParameterValue "B" = .ok none ∧ st'.getParameterValue "B" = .ok (some (.fin 1)) := by
  refine ⟨demo₀, (demo₀.setParameterValues Ast.engine .id 10
    [.name "B", .val (.int 1), .name "nope", .val (.int 2)]).1, .valueError,
    ⟨_, demo₀, [], demo₀_eq, trivial, rfl⟩, Prod.ext rfl (by decide +kernel), by decide +kernel,
    by decide +kernel⟩

theorem setPairs_error : ∀ (l : List (Option String × PyVal)) (st st' : PC E) (e : Err),
    setPairs st l = (st', .error e) →
    ∃ pre bad post, l = pre ++ bad :: post ∧ setPairs st pre = (st', .ok ()) := by
  intro l
  induction l with
  | nil => intro st st' e h; simp [setPairs] at h
  | cons x l ih =>
    intro st st' e h
    obtain ⟨n, v⟩ := x
    cases n with
    | none =>
      simp only [setPairs, Prod.mk.injEq] at h
      exact ⟨[], _, l, rfl, by simp [setPairs, h.1]⟩
    | some n =>
      unfold setPairs at h
      split at h
      · cases h; exact ⟨[], _, l, rfl, by simp [setPairs]⟩
      · rename_i p hp
        split_ifs at h with hpz
        · obtain ⟨pre, bad, post, h1, h2⟩ := ih _ _ _ h
          refine ⟨(some n, v) :: pre, bad, post, by rw [h1]; rfl, ?_⟩
          unfold setPairs; simp only [hp, hpz, if_true]; exact h2
        · split at h
          · cases h; exact ⟨[], _, l, rfl, by simp [setPairs]⟩
          · rename_i p' hp'
            obtain ⟨pre, bad, post, h1, h2⟩ := ih _ _ _ h
            refine ⟨(some n, v) :: pre, bad, post, by rw [h1]; rfl, ?_⟩
            unfold setPairs; simp only [hp, hpz, hp']; exact h2

/-- What is true instead of C10: when a bulk set raises after a clean history (with enough fuel), either
the arguments were malformed and nothing changed, or the pairs before the offending one, and only those,
have been stored, and no dependent has been brought up to date.  In particular a bulk set whose first
pair is refused, or that has a single pair, changes nothing. -/
theorem C10_prefix_stored_partial (eng : Engine E) (law : eng.Lawful D) (st : PC E)
    (h : CleanReachable eng st) :
    ∃ N, ∀ fuel, N ≤ fuel → ∀ (ho : HashOrder) (args : List BulkArg) (st' : PC E) (e : Err),
      st.setParameterValues eng ho fuel args = (st', .error e) →
      (st' = st ∧ parseBulk args = .error e) ∨
      ∃ pre bad post, parseBulk args = .ok (pre ++ bad :: post) ∧ setPairs st pre = (st', .ok ()) := by
  have hg := CleanReachable.good law h
  obtain ⟨N, hN⟩ := update_total law hg
  refine ⟨N, fun fuel hf ho args st' e he => ?_⟩
  unfold setParameterValues at he
  split at he
  · rename_i e' hp
    cases he
    exact Or.inl ⟨rfl, hp⟩
  · rename_i pairs hp
    right
    split at he
    · rename_i st1 e1 hs
      cases he
      obtain ⟨pre, bad, post, h1, h2⟩ := setPairs_error _ _ _ _ hs
      exact ⟨pre, bad, post, by rw [hp, h1], h2⟩
    · rename_i st1 hs
      exfalso
      have hfr := setPairs_frame pairs st
      have hk := setPairs_keys pairs st
      rw [hs] at hfr hk
      have := hN fuel hf ho st1 hfr.1 hfr.2.1 hfr.2.2 hk
      rw [he] at this
      cases this

/-- A bulk set of one pair is all-or-nothing. -/
theorem C10_single_pair (eng : Engine E) (law : eng.Lawful D) (st : PC E) (h : CleanReachable eng st) :
    ∃ N, ∀ fuel, N ≤ fuel → ∀ (ho : HashOrder) (a b : BulkArg) (st' : PC E) (e : Err),
      (∀ d, a ≠ .dict d) →
      st.setParameterValues eng ho fuel [a, b] = (st', .error e) → st' = st := by
  obtain ⟨N, hN⟩ := C10_prefix_stored_partial eng law st h
  refine ⟨N, fun fuel hf ho a b st' e hd he => ?_⟩
  rcases hN fuel hf ho _ _ _ he with ⟨h1, _⟩ | ⟨pre, bad, post, h1, h2⟩
  · exact h1
  · have : ∃ x, parseBulk [a, b] = .ok [x] := by
      cases a with
      | dict d => exact absurd rfl (hd d)
      | name s => exact ⟨_, rfl⟩
      | val v => exact ⟨_, rfl⟩
    obtain ⟨x, hx⟩ := this
    rw [hx] at h1
    simp only [Except.ok.injEq] at h1
    cases pre with
    | nil => simp [setPairs] at h2; exact h2.symm
    | cons y pre => simp at h1

example : (demo.setParameterValues Ast.engine .id 10 [.name "B", .val .other]).2 = .error .typeError := by
  decide +kernel

/-! ## C11 -/

/-- C11 is false after an overwrite: `A = B` is replaced by `A = C` and then removed.  Nothing is
parametric any more, yet making `B` depend on `A` is refused as a cycle, and after `B` is given a value
every set fails, because of the removed parameterisation. -/
theorem C11_false_after_overwrite :
    ∃ st : PC Ast, Reachable Ast.engine st ∧ st.getParametricParametersList = [] ∧
      (st.addParameterisation Ast.engine "B" (.sym "A_{}")).2 = .error .assertionError ∧
      (st.setParameterValue Ast.engine .id 10 "B" (.int 1)).2 = .error .valueError :=
  ⟨stale, stale_reachable, by decide +kernel, by decide +kernel, by decide +kernel⟩

/-- What is true: after a clean history, removing the parameterisation of a parametric parameter
succeeds; the parameter is then independent, exactly its own dependencies are forgotten, everything
else is kept, and the resulting state is again one in which C04, C06 and C07 hold. -/
theorem C11_removal_partial (eng : Engine E) (law : eng.Lawful D) (st : PC E)
    (h : CleanReachable eng st) (name : String) (hp : Parametric st name) :
    ∃ st', st.rmParameterisation name = (st', .ok ()) ∧ CleanReachable eng st' ∧
      ¬ Parametric st' name ∧ (∀ k, k ≠ name → (Parametric st' k ↔ Parametric st k)) ∧
      (∀ a b, RecordedDep st' a b ↔ a ≠ name ∧ RecordedDep st a b) ∧
      (∀ k, st'.getParameterValue k = st.getParameterValue k) ∧
      (∀ k, st'.getSymbol k = st.getSymbol k) := by
  have hg := CleanReachable.good law h
  obtain ⟨ex, ns, hn0⟩ := parametric_iff_get.1 hp
  have hs := removeEdges_spec name ns st.graph hg.wf
  have hok := hs.2.2.2.2.2 (hg.nodupNames name ex ns hn0) (hg.recorded name ex ns hn0)
  have hhas : st.coll.has name = true := (Dict.has_iff _ _).2 (hg.parzColl name hp)
  have heq : st.rmParameterisation name =
      ({ st with graph := (removeEdges st.graph name ns).1, parz := st.parz.del name }, .ok ()) := by
    unfold rmParameterisation
    rw [if_pos hhas, hn0]
    simp only
    split
    · rename_i g e he; rw [he] at hok; cases hok
    · rename_i g he; rw [he]
  refine ⟨_, heq, ?_, ?_, ?_, ?_, fun _ => rfl, fun _ => rfl⟩
  · obtain ⟨names, st₀, hist, n1, n2, n3⟩ := h
    refine ⟨names, st₀, hist ++ [⟨.id, 0, .rmParameterisation name⟩], n1, ?_, ?_⟩
    · have : ∀ (l : List (Call E)) (s : PC E), CleanHistory eng s l →
          CleanHistory eng s (l ++ [⟨.id, 0, .rmParameterisation name⟩]) := by
        intro l; induction l with
        | nil => intro s _; exact ⟨trivial, trivial⟩
        | cons c l ih => intro s hs; exact ⟨hs.1, ih _ hs.2⟩
      exact this hist st₀ n2
    · rw [runPC, List.foldl_append]; rw [runPC] at n3; rw [← n3]; simp [call, heq]
  · rw [parametric_iff]; simp only; rw [Dict.mem_keys_del]; simp
  · intro k hk
    rw [parametric_iff, parametric_iff]; simp only; rw [Dict.mem_keys_del]; tauto
  · intro a b
    rw [dependsOn_iff, dependsOn_iff]
    simp only [Dict.get?_del]
    constructor
    · rintro ⟨ex', ns', h1, h2⟩
      split_ifs at h1 with hna
      exact ⟨fun e => hna e.symm, ex', ns', h1, h2⟩
    · rintro ⟨hna, ex', ns', h1, h2⟩
      exact ⟨ex', ns', by rw [if_neg (fun e => hna e.symm)]; exact h1, h2⟩

/-- C11, consequence: after the removal the former dependency can be turned around.  If `name` depended
on the independent parameter `src`, then after removing that parameterisation, `src` can be given any
parameterisation mentioning only `name`. -/
theorem C11_dependency_can_be_reversed_partial (eng : Engine E) (law : eng.Lawful D) (st : PC E)
    (h : CleanReachable eng st) (name src : String) (hd : RecordedDep st name src)
    (hsrc : ¬ Parametric st src) (ex : E)
    (hex : ∀ s ∈ eng.free ex, st.getSymbol name = .ok s) :
    ((st.rmParameterisation name).1.addParameterisation eng src ex).2 = .ok () := by
  have hp : Parametric st name := by
    obtain ⟨e, ns, h1, _⟩ := dependsOn_iff.1 hd
    exact Dict.mem_keys_of_get? h1
  have hg := CleanReachable.good law h
  obtain ⟨st', heq, hc', hnp, hpk, hdep, hv, hsy⟩ := C11_removal_partial eng law st h name hp
  rw [heq]
  simp only
  have hg' := CleanReachable.good law hc'
  have hne : name ≠ src := by rintro rfl; exact hsrc hp
  have hcoll : st'.coll.get? src ≠ none := by
    have hnode : src ∈ st.graph.nodes := hg.wf.src src name ((Good.dependsOn_iff_adj hg).1 hd)
    have : src ∈ st.coll.keys := (hg.nodesColl src).1 hnode
    intro hcn
    have hval := hv src
    unfold getParameterValue at hval
    rw [hcn] at hval
    rw [Dict.mem_keys_iff, Option.isSome_iff_exists] at this
    obtain ⟨p, hp⟩ := this
    rw [hp] at hval
    cases hval
  have h1 : ¬ (st'.addParameterisation eng src ex).2 = .error .valueError := by
    rw [C04_value_error_iff eng law st' hc']
    rintro (h | ⟨s, hs, hno⟩)
    · exact hcoll h
    · exact hno name (by rw [hsy]; exact hex s hs)
  have h2 : ¬ (st'.addParameterisation eng src ex).2 = .error .assertionError := by
    rw [C04_cycle_error_iff eng law st' hc']
    rintro ⟨_, x, hx⟩
    -- nothing leaves `name`, so a cycle cannot use the new edge, and the old ones are acyclic
    have hout : ∀ y, ¬ (RecordedDep st' name y ∨ (name = src ∧ ∃ s ∈ eng.free ex, st'.getSymbol y = .ok s)) := by
      rintro y (h | ⟨h, _⟩)
      · exact ((hdep name y).1 h).1 rfl
      · exact hne h
    have hconv : ∀ u w, Relation.TransGen (fun a b => RecordedDep st' a b ∨
        (a = src ∧ ∃ s ∈ eng.free ex, st'.getSymbol b = .ok s)) u w →
        w ≠ name → Relation.TransGen (RecordedDep st') u w := by
      intro u w huw
      induction huw with
      | single hh =>
        intro hw
        rcases hh with hh | ⟨_, s, hs, hb⟩
        · exact Relation.TransGen.single hh
        · exfalso; apply hw
          rw [hsy, getSymbol_iff] at hb
          exact hg.symInj _ _ _ hb (getSymbol_iff.1 (hex s hs))
      | tail h1 h2 ih =>
        rename_i m w
        intro hw
        have hm : m ≠ name := by rintro rfl; exact hout _ h2
        rcases h2 with hh | ⟨_, s, hs, hb⟩
        · exact (ih hm).tail hh
        · exfalso; apply hw
          rw [hsy, getSymbol_iff] at hb
          exact hg.symInj _ _ _ hb (getSymbol_iff.1 (hex s hs))
    have hxn : x ≠ name := by
      rintro rfl
      obtain ⟨y, hy, _⟩ := Relation.TransGen.head'_iff.1 hx
      exact hout y hy
    have hcyc := hconv x x hx hxn
    obtain ⟨names, st₀, hist, n1, _, n3⟩ := hc'
    exact C03_no_recorded_cycle eng law.free_nodup st' ⟨names, st₀, hist, n1, n3⟩ x hcyc
  -- the only other outcome is success
  unfold addParameterisation at h1 h2 ⊢
  split_ifs at h1 h2 ⊢
  · split
    · rename_i e he
      exfalso
      have : ∀ l e, st'.symbolNames l = .error e → e = .valueError := by
        intro l
        induction l with
        | nil => intro e h; simp [symbolNames] at h
        | cons s ss ih =>
          intro e h
          unfold symbolNames at h
          split at h
          · cases h; rfl
          · split at h
            · rename_i e' he'; cases h; exact ih _ he'
            · cases h
      rw [he] at h1
      exact h1 (by rw [this _ _ he])
    · rename_i names hn
      rw [hn] at h2
      simp only at h2 ⊢
      split_ifs at h2 ⊢
      · rfl
      · exact absurd rfl h2
  · exact absurd rfl h1

/-- In the demonstration collection `A` depends on the independent `B`. -/
example : RecordedDep demo "A" "B" ∧ ¬ Parametric demo "B" ∧
    ((demo.rmParameterisation "A").1.addParameterisation Ast.engine "B" (.sym "A_{}")).2 = .ok () := by
  refine ⟨⟨["B", "C"], by decide +kernel, by simp⟩, by unfold Parametric; decide +kernel, by decide +kernel⟩

/-! ## C12 -/

theorem involving_step (n : String) : ∀ (pz : Dict String (E × List String)) (acc : List String),
    acc.Nodup →
    (pz.foldl (fun acc p => if n ∈ p.2.2 then (if p.1 ∈ acc then acc else acc ++ [p.1]) else acc) acc).Nodup ∧
    ∀ k, k ∈ pz.foldl (fun acc p => if n ∈ p.2.2 then (if p.1 ∈ acc then acc else acc ++ [p.1]) else acc) acc ↔
      k ∈ acc ∨ ∃ p ∈ pz, p.1 = k ∧ n ∈ p.2.2 := by
  intro pz
  induction pz with
  | nil => intro acc h; simp [h]
  | cons q pz ih =>
    intro acc h
    rw [List.foldl_cons]
    by_cases hq : n ∈ q.2.2
    · by_cases hm : q.1 ∈ acc
      · simp only [hq, hm, if_true]
        obtain ⟨i1, i2⟩ := ih acc h
        refine ⟨i1, fun k => ?_⟩
        rw [i2]
        simp only [List.mem_cons, exists_eq_or_imp]
        constructor
        · rintro (h | h)
          · exact Or.inl h
          · exact Or.inr (Or.inr h)
        · rintro (h | ⟨rfl, _⟩ | h)
          · exact Or.inl h
          · exact Or.inl hm
          · exact Or.inr h
      · simp only [hq, hm, if_true, if_false]
        obtain ⟨i1, i2⟩ := ih (acc ++ [q.1]) (by
          rw [List.nodup_append]
          refine ⟨h, by simp, ?_⟩
          intro a ha b hb
          simp only [List.mem_singleton] at hb
          subst hb
          rintro rfl
          exact hm ha)
        refine ⟨i1, fun k => ?_⟩
        rw [i2]
        simp only [List.mem_append, List.mem_cons, List.not_mem_nil, or_false, exists_eq_or_imp]
        constructor
        · rintro ((h | rfl) | h)
          · exact Or.inl h
          · exact Or.inr (Or.inl ⟨rfl, hq⟩)
          · exact Or.inr (Or.inr h)
        · rintro (h | ⟨rfl, _⟩ | h)
          · exact Or.inl (Or.inl h)
          · exact Or.inl (Or.inr rfl)
          · exact Or.inr h
    · simp only [hq, if_false]
      obtain ⟨i1, i2⟩ := ih acc h
      refine ⟨i1, fun k => ?_⟩
      rw [i2]
      simp only [List.mem_cons, exists_eq_or_imp]
      constructor
      · rintro (h | h)
        · exact Or.inl h
        · exact Or.inr (Or.inr h)
      · rintro (h | ⟨_, h⟩ | h)
        · exact Or.inl h
        · exact absurd h hq
        · exact Or.inr h

/-- C12, direct dependents: for independent parameters of the collection the result is, without
repetition, exactly the parameters whose parameterisation directly depends on one of them. -/
theorem C12_direct_dependents_partial (eng : Engine E) (hfree : ∀ e, (eng.free e).Nodup) (st : PC E)
    (h : Reachable eng st) (names : List String)
    (hn : ∀ n ∈ names, st.coll.get? n ≠ none ∧ ¬ Parametric st n) :
    ∃ l, st.getParameterisationsInvolving names = .ok l ∧ l.Nodup ∧
      ∀ k, k ∈ l ↔ ∃ n ∈ names, RecordedDep st k n := by
  have hk := (Reachable.inv hfree h).1.parzKeys
  have key : ∀ (names : List String) (acc : List String), acc.Nodup →
      (∀ n ∈ names, st.coll.get? n ≠ none ∧ ¬ Parametric st n) →
      ∃ l, getParameterisationsInvolving.go st names acc = .ok l ∧ l.Nodup ∧
        ∀ k, k ∈ l ↔ k ∈ acc ∨ ∃ n ∈ names, RecordedDep st k n := by
    intro names
    induction names with
    | nil => intro acc hacc _; exact ⟨acc, rfl, hacc, by simp⟩
    | cons n ns ih =>
      intro acc hacc hn
      obtain ⟨h1, h2⟩ := hn n (by simp)
      have hh : st.coll.has n = true := by
        rw [Dict.has_iff]; by_contra hc; exact h1 ((Dict.get?_eq_none_iff _ _).2 hc)
      have hz : ¬ st.parz.has n = true := fun hc => h2 ((Dict.has_iff _ _).1 hc)
      unfold getParameterisationsInvolving.go
      rw [if_pos hh, if_neg hz]
      obtain ⟨s1, s2⟩ := involving_step n st.parz acc hacc
      obtain ⟨l, i1, i2, i3⟩ := ih _ s1 (fun m hm => hn m (by simp [hm]))
      refine ⟨l, i1, i2, fun k => ?_⟩
      rw [i3, s2]
      simp only [List.mem_cons, exists_eq_or_imp]
      have : (∃ p ∈ st.parz, p.1 = k ∧ n ∈ p.2.2) ↔ RecordedDep st k n := by
        rw [dependsOn_iff]
        constructor
        · rintro ⟨⟨k', ex, ns⟩, hp, rfl, hm⟩
          exact ⟨ex, ns, Dict.get?_of_mem hk hp, hm⟩
        · rintro ⟨ex, ns, hp, hm⟩
          exact ⟨(k, ex, ns), Dict.mem_of_get? hp, rfl, hm⟩
      rw [this]
      tauto
  obtain ⟨l, h1, h2, h3⟩ := key names [] (by simp) hn
  exact ⟨l, h1, h2, fun k => by rw [h3]; simp⟩

/-- C12, other names: an unknown first name raises, a parametric first name gives the empty list. -/
theorem C12_other_names (st : PC E) (n : String) (names : List String) :
    (st.coll.get? n = none → st.getParameterisationsInvolving (n :: names) = .error .valueError) ∧
    (st.coll.get? n ≠ none → Parametric st n → st.getParameterisationsInvolving (n :: names) = .ok []) := by
  unfold getParameterisationsInvolving getParameterisationsInvolving.go
  constructor
  · intro h
    have : ¬ st.coll.has n = true := by rw [Dict.has_iff]; exact (Dict.get?_eq_none_iff _ _).1 h
    simp [this]
  · intro h hp
    have hh : st.coll.has n = true := by
      rw [Dict.has_iff]; by_contra hc; exact h ((Dict.get?_eq_none_iff _ _).2 hc)
    have hz : st.parz.has n = true := (Dict.has_iff _ _).2 hp
    simp [hh, hz]

/-- C12 for indirect dependents is false: `D` depends on `B` through `A` and is not reported. -/
theorem C12_false_indirect :
    ∃ st : PC Ast, CleanReachable Ast.engine st ∧ Relation.TransGen (RecordedDep st) "D" "B" ∧
      ¬ Parametric st "B" ∧ st.getParameterisationsInvolving ["B"] = .ok ["A"] := by
  refine ⟨demo, demo_clean, ?_, by unfold Parametric; decide +kernel, by decide +kernel⟩
  exact Relation.TransGen.tail (b := "A") (Relation.TransGen.single ⟨["A"], by decide +kernel, by simp⟩)
    ⟨["B", "C"], by decide +kernel, by simp⟩

/-! ## C13 -/

/-- C13, used name: nothing changes. -/
theorem C13_existing_name_noop (st : PC E) (name : String) (o : Option Sym) (h : st.coll.get? name ≠ none) :
    st.addParameter name o = (st, .ok ()) := by
  have : st.coll.has name = true := by
    rw [Dict.has_iff]; by_contra hc; exact h ((Dict.get?_eq_none_iff _ _).2 hc)
  simp [addParameter, this]

/-- C13, bad name: a name that is empty or contains a space raises and changes nothing. -/
theorem C13_invalid_name (st : PC E) (name : String) (o : Option Sym) (h : st.coll.get? name = none)
    (hbad : name = "" ∨ ' ' ∈ name.toList) : ∃ e, st.addParameter name o = (st, .error e) := by
  have hh : ¬ st.coll.has name = true := by rw [Dict.has_iff]; exact (Dict.get?_eq_none_iff _ _).1 h
  have : ∃ e, Param.new name = .error e := by
    rcases hbad with rfl | hb
    · exact ⟨.indexError, by decide +kernel⟩
    · exact ⟨.valueError, by unfold Param.new; rw [if_pos (by simpa using hb)]⟩
  obtain ⟨e, he⟩ := this
  exact ⟨e, by simp [addParameter, hh, he]⟩

/-- C13, new name: exactly that parameter is added, without a value, with the overriding symbol if one is
given and `n_{ame}` otherwise; every other parameter, its symbol, the parameterisations and the recorded
dependencies are unchanged; and if no other parameter has the symbol, the parameter is found from it. -/
theorem C13_new_name (st : PC E) (name : String) (o : Option Sym) (c : Char) (cs : List Char)
    (h : st.coll.get? name = none) (hname : name.toList = c :: cs) (hsp : ' ' ∉ name.toList) :
    ∃ st' p, st.addParameter name o = (st', .ok ()) ∧
      st'.coll.get? name = some p ∧ p.value = none ∧ p.name = name ∧
      st'.getParameterValue name = .ok none ∧
      st'.getSymbol name = .ok (o.getD (String.ofList (c :: '_' :: '{' :: (cs ++ ['}'])))) ∧
      (∀ k, k ≠ name → st'.coll.get? k = st.coll.get? k ∧ st'.getSymbol k = st.getSymbol k) ∧
      st'.parz = st.parz ∧
      ((∀ k, (k, o.getD (String.ofList (c :: '_' :: '{' :: (cs ++ ['}'])))) ∉ st.symMap) →
        st'.getParameterFromSymbol (o.getD (String.ofList (c :: '_' :: '{' :: (cs ++ ['}'])))) = .ok name) := by
  have hh : ¬ st.coll.has name = true := by rw [Dict.has_iff]; exact (Dict.get?_eq_none_iff _ _).1 h
  have hnew : Param.new name = .ok (freshParam name (String.ofList (c :: '_' :: '{' :: (cs ++ ['}'])))) := by
    unfold Param.new Param.symbolOf freshParam
    rw [if_neg (by simpa using hsp), hname]
    have h1 : PF.lt .pinf .ninf = false := rfl
    have h2 : PF.lt (.fin 1) (.fin 0) = false := by simp [PF.lt]
    simp [Param.checkBounds, Param.boundPair, PyVal.toFloat?, h1, h2]
  set s := String.ofList (c :: '_' :: '{' :: (cs ++ ['}'])) with hs
  have heq : st.addParameter name o =
      ({ st with coll := st.coll.set name (freshParam name (o.getD s))
                 symMap := st.symMap.set name (o.getD s)
                 graph := st.graph.addNode name }, .ok ()) := by
    unfold addParameter
    rw [if_neg hh, hnew]
    cases o <;> rfl
  refine ⟨_, _, heq, by simp; rfl, rfl, rfl, ?_, ?_, ?_, rfl, ?_⟩
  · simp [getParameterValue, Param.getValue, freshParam]
  · simp [getSymbol]
  · intro k hk
    have hk' : ¬ name = k := fun e => hk e.symm
    simp [getSymbol, Dict.get?_set, hk']
  · intro hfresh
    simp only [getParameterFromSymbol]
    have : ∀ (m : Dict String Sym), (∀ k, (k, o.getD s) ∉ m) →
        (m.set name (o.getD s)).find? (fun p => decide (p.2 = o.getD s)) = some (name, o.getD s) := by
      intro m
      induction m with
      | nil => intro _; simp [Dict.set]
      | cons q m ih =>
        intro hf
        obtain ⟨a, b⟩ := q
        have hb : b ≠ o.getD s := by rintro rfl; exact hf a (by simp)
        simp only [Dict.set]
        split_ifs with hab
        · simp [hab]
        · simp only [List.find?_cons, hb, decide_false]
          exact ih (fun k hk => hf k (by simp [hk]))
    rw [this st.symMap hfresh]

example : (demo.addParameter "Phi1").2 = .ok () ∧
    (demo.addParameter "Phi1").1.getSymbol "Phi1" = .ok "P_{hi1}" := by decide +kernel

/-! ## C14 -/

/-- C14 is false, always: after a clean history, remove an independent parameter.  From then on no
`setParameterValue` on a remaining independent parameter succeeds: each call raises. -/
theorem C14_false_every_set_raises (eng : Engine E) (law : eng.Lawful D) (st : PC E)
    (h : CleanReachable eng st) (name : String) (hin : st.coll.get? name ≠ none)
    (hnp : ¬ Parametric st name) (ho : HashOrder) (fuel : ℕ) (k : String) (hk : ¬ Parametric st k) (v : PyVal) :
    ∃ e, ((st.rmParameter name).1.setParameterValue eng ho fuel k v).2 = .error e := by
  have hg := CleanReachable.good law h
  have hmem : name ∈ st.coll.keys := by
    by_contra hc; exact hin ((Dict.get?_eq_none_iff _ _).2 hc)
  have hh : st.coll.has name = true := (Dict.has_iff _ _).2 hmem
  unfold rmParameter
  rw [if_pos hh]
  unfold setParameterValue
  simp only
  split
  · exact ⟨_, rfl⟩
  · rename_i p hp
    have hkh : ¬ st.parz.has k = true := fun hc => hk ((Dict.has_iff _ _).1 hc)
    rw [if_neg hkh]
    split
    · exact ⟨_, rfl⟩
    · rename_i p' hp'
      unfold updateParameterisations
      simp only
      split
      · exact ⟨_, rfl⟩
      · rename_i vals hvals
        exfalso
        have hsym := updatePaths_ok_symbols eng ho _ fuel _ _ _ hvals name (by
          rw [List.mem_filter, (ho.perm _).mem_iff]
          refine ⟨(hg.nodesColl name).2 hmem, ?_⟩
          simp only [decide_eq_true_eq]
          rw [DiGraph.inDegree_eq_zero_iff]
          intro a ha
          obtain ⟨ex, ns, h1, _⟩ := hg.edgesRecorded a name ha
          exact hnp (Dict.mem_keys_of_get? h1))
        obtain ⟨s, hs⟩ := hsym
        simp only [Dict.get?_del, if_true] at hs
        cases hs

/-- A concrete case: after `rmParameter("D")` on a fresh collection, `B` cannot be set any more. -/
theorem C14_false :
    ∃ st : PC Ast, CleanReachable Ast.engine st ∧ (st.rmParameter "D").2 = .ok () ∧
      (st.rmParameter "D").1.getParameterValue "B" = .ok none ∧
      ((st.rmParameter "D").1.setParameterValue Ast.engine .id 10 "B" (.int 1)).2 = .error .keyError :=
  ⟨demo₀, ⟨_, demo₀, [], demo₀_eq, trivial, rfl⟩, by decide +kernel, by decide +kernel, by decide +kernel⟩

/-- What is true: in any state removing a parameter of the collection succeeds, the parameter is no
longer there, and everything about the others can still be read as before. -/
theorem C14_others_readable_partial (st : PC E) (name : String) (hin : st.coll.get? name ≠ none) :
    ∃ st', st.rmParameter name = (st', .ok ()) ∧
      st'.getParameterValue name = .error .valueError ∧ st'.getSymbol name = .error .keyError ∧
      ∀ k, k ≠ name → st'.coll.get? k = st.coll.get? k ∧ st'.getSymbol k = st.getSymbol k ∧
        st'.getParameterValue k = st.getParameterValue k := by
  have hh : st.coll.has name = true := by
    rw [Dict.has_iff]; by_contra hc; exact hin ((Dict.get?_eq_none_iff _ _).2 hc)
  refine ⟨_, by unfold rmParameter; rw [if_pos hh], ?_, ?_, ?_⟩
  · simp [getParameterValue, Dict.get?_del]
  · simp [getSymbol, Dict.get?_del]
  · intro k hk
    have : ¬ name = k := fun e => hk e.symm
    simp [getParameterValue, getSymbol, Dict.get?_del, this]

end Verif.Props
