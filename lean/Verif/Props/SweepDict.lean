import Verif.Lemmas.SweepDict

/-!
# Property C19: the sweep and non-sweep dictionaries
-/

set_option linter.unusedVariables false

namespace Verif.Props

open Verif Verif.Spec Verif.PC

variable {E R D : Type}

theorem run_append (eng : Engine E) (st : PC E) (h h' : List (Call E)) :
    runPC eng st (h ++ h') = runPC eng (runPC eng st h) h' := by
  unfold runPC; rw [List.foldl_append]

theorem CleanHistory.append {eng : Engine E} : ∀ (h h' : List (Call E)) (st : PC E), CleanHistory eng st h →
    CleanHistory eng (runPC eng st h) h' → CleanHistory eng st (h ++ h') := by
  intro h
  induction h with
  | nil => intro h' st _ h2; exact h2
  | cons c h ih => intro h' st h1 h2; exact ⟨h1.1, ih h' _ h1.2 h2⟩

theorem clean_reachable {eng : Engine E} {st : PC E} (h : CleanReachable eng st) :
    Reachable eng st := by
  obtain ⟨a, b, c, d, _, f⟩ := h; exact ⟨a, b, c, d, f⟩

theorem clean_step {eng : Engine E} {st : PC E} (h : CleanReachable eng st) (c : Call E)
    (hc : CleanCall eng st c) : CleanReachable eng (call eng st c).1 := by
  obtain ⟨a, b, hist, d, e, rfl⟩ := h
  exact ⟨a, b, hist ++ [c], d, CleanHistory.append _ _ _ e ⟨hc, trivial⟩, by rw [run_append]; rfl⟩

/-- Generating a sweep grid keeps the collection among the cleanly reachable ones. -/
theorem ndSweep_clean {eng : Engine E} {st : SW E R} (h : CleanReachable eng st.pc)
    (spec : List SweepSpec) : CleanReachable eng (st.ndSweep spec).1.pc := by
  have key : ∀ (spec : List SweepSpec) (pc : PC E) (n : ℤ), CleanReachable eng pc →
      CleanReachable eng (SW.ndLoop pc n spec).1 := by
    intro spec
    induction spec with
    | nil => intro pc n h; exact h
    | cons s spec ih =>
      intro pc n h
      unfold SW.ndLoop
      split
      · exact h
      · rename_i p hp
        split
        · exact h
        · rename_i p' pts hp'
          have h1 : CleanReachable eng { pc with coll := pc.coll.set s.name p' } := by
            have := clean_step h ⟨.id, 0, .onParam s.name (.linearSweep s.start s.stop s.N)⟩ (by simp [CleanCall])
            simpa [call, hp, ParamCall.after, hp'] using this
          have h2 := ih _ (n * p'.N) h1
          split
          · rename_i heq; rw [heq] at h2; exact h2
          · rename_i heq; rw [heq] at h2; exact h2
  have := key spec st.pc 1 h
  unfold SW.ndSweep
  split
  · rename_i heq; rw [heq] at this; exact this
  · rename_i heq; rw [heq] at this; exact this

/-- C19: for a sweep over independent parameters the two dictionaries partition the parameters: the
symbol of each parameter, with its current value, is in the sweep dictionary if the sweep affects the
parameter, in the other one if not, and never in both; and nothing else is in them.  `ho`, `ho'` are the
(arbitrary) set iteration orders of the two calls. -/
theorem C19_partition_partial (eng : Engine E) (law : eng.Lawful D) (st : SW E R) (h : CleanReachable eng st.pc)
    (ks : List String) (hp : st.params = some ks)
    (hks : ∀ k ∈ ks, st.pc.coll.get? k ≠ none ∧ ¬ Parametric st.pc k) (ho ho' : HashOrder) :
    ∃ dS dN, st.getSweepParametersDict ho = .ok dS ∧ st.getNonSweepParametersDict ho' = .ok dN ∧
      dS.keys.Nodup ∧ dN.keys.Nodup ∧
      (∀ s v, dS.get? s = some v ↔ ∃ n, st.pc.getSymbol n = .ok s ∧ st.pc.getParameterValue n = .ok v ∧
        Affected st.pc ks n) ∧
      (∀ s v, dN.get? s = some v ↔ ∃ n, st.pc.getSymbol n = .ok s ∧ st.pc.getParameterValue n = .ok v ∧
        ¬ Affected st.pc ks n) ∧
      (∀ s, ¬ (s ∈ dS.keys ∧ s ∈ dN.keys)) ∧
      (∀ n s, st.pc.getSymbol n = .ok s → s ∈ dS.keys ∨ s ∈ dN.keys) := by
  have hg := CleanReachable.good law h
  obtain ⟨l, hl, hmem⟩ := notForPresub_ok law hg (clean_reachable h) ks hks
  have haff : ∀ n, Affected st.pc ks n → n ∈ st.pc.coll.keys := by
    rintro n ⟨k, hk, rfl | ht⟩
    · have := (hks n hk).1
      rw [Ne, Dict.get?_eq_none_iff, not_not] at this; exact this
    · obtain ⟨m, hm, _⟩ := Relation.TransGen.head'_iff.1 ht
      obtain ⟨ex, ns, hx, _⟩ := dependsOn_iff.1 hm
      exact hg.parzColl n (Dict.mem_keys_of_get? hx)
  have hin : ∀ n v, st.pc.getParameterValue n = .ok v → n ∈ st.pc.coll.keys := by
    intro n v hv
    obtain ⟨p, hp, _⟩ := getValue_iff.1 hv
    exact Dict.mem_keys_of_get? hp
  obtain ⟨dS, s1, s2, s3⟩ := getSymbolValues_ok hg.symInj hg.sameKeys (ho.ord l.dedup) (by
    intro n hn
    rw [(ho.perm _).mem_iff, List.mem_dedup, hmem] at hn
    exact haff n hn)
  obtain ⟨dN, n1, n2, n3⟩ := getSymbolValues_ok hg.symInj hg.sameKeys
    (ho'.ord (st.pc.coll.keys.filter (fun k => decide (k ∉ l)))) (by
    intro n hn
    rw [(ho'.perm _).mem_iff, List.mem_filter] at hn
    exact hn.1)
  have s3' : ∀ s v, dS.get? s = some v ↔ ∃ n, st.pc.getSymbol n = .ok s ∧
      st.pc.getParameterValue n = .ok v ∧ Affected st.pc ks n := by
    intro s v
    rw [s3]
    constructor
    · rintro ⟨n, hn, a, b⟩
      rw [(ho.perm _).mem_iff, List.mem_dedup, hmem] at hn
      exact ⟨n, a, b, hn⟩
    · rintro ⟨n, a, b, hn⟩
      exact ⟨n, by rw [(ho.perm _).mem_iff, List.mem_dedup, hmem]; exact hn, a, b⟩
  have n3' : ∀ s v, dN.get? s = some v ↔ ∃ n, st.pc.getSymbol n = .ok s ∧
      st.pc.getParameterValue n = .ok v ∧ ¬ Affected st.pc ks n := by
    intro s v
    rw [n3]
    constructor
    · rintro ⟨n, hn, a, b⟩
      rw [(ho'.perm _).mem_iff, List.mem_filter, decide_eq_true_eq, hmem] at hn
      exact ⟨n, a, b, hn.2⟩
    · rintro ⟨n, a, b, hn⟩
      exact ⟨n, by rw [(ho'.perm _).mem_iff, List.mem_filter, decide_eq_true_eq, hmem]; exact ⟨hin n v b, hn⟩, a, b⟩
  refine ⟨dS, dN, ?_, ?_, s2, n2, s3', n3', ?_, ?_⟩
  · unfold SW.getSweepParametersDict; simp only [hp, hl]; exact s1
  · unfold SW.getNonSweepParametersDict; simp only [hp, hl]; exact n1
  · rintro s ⟨a, b⟩
    rw [Dict.mem_keys_iff, Option.isSome_iff_exists] at a b
    obtain ⟨v, a⟩ := a
    obtain ⟨w, b⟩ := b
    obtain ⟨n, x1, _, x3⟩ := (s3' s v).1 a
    obtain ⟨m, y1, _, y3⟩ := (n3' s w).1 b
    have := hg.symInj n m s (getSymbol_iff.1 x1) (getSymbol_iff.1 y1)
    subst this
    exact y3 x3
  · intro n s hs
    have hk : n ∈ st.pc.coll.keys := (hg.sameKeys n).1 (Dict.mem_keys_of_get? (getSymbol_iff.1 hs))
    obtain ⟨p, hp⟩ := Option.isSome_iff_exists.1 ((Dict.mem_keys_iff _ _).1 hk)
    have hv : st.pc.getParameterValue n = .ok p.getValue := by unfold getParameterValue; rw [hp]
    by_cases ha : Affected st.pc ks n
    · exact Or.inl (Dict.mem_keys_of_get? ((s3' s _).2 ⟨n, hs, hv, ha⟩))
    · exact Or.inr (Dict.mem_keys_of_get? ((n3' s _).2 ⟨n, hs, hv, ha⟩))

/-- The value a parameter ought to have is not changed by a set of parameters it does not depend on. -/
theorem denotes_congr_unaffected {eng : Engine E} {law : eng.Lawful D} {st st' : PC E} (hg : st.Good eng)
    (ks : List String) (h1 : st'.symMap = st.symMap) (h2 : st'.parz = st.parz)
    (h3 : ∀ m, m ∉ ks → ¬ Parametric st m → st'.getParameterValue m = st.getParameterValue m)
    {n : String} {d : D} (h : Denotes eng law st n d) (hn : ¬ Affected st ks n) :
    Denotes eng law st' n d := by
  induction h with
  | independent name v hnp hv =>
    refine Denotes.independent name v ?_ ?_
    · unfold Parametric getParametricParametersList at hnp ⊢; rwa [h2]
    · rw [h3 name (fun hk => hn ⟨name, hk, Or.inl rfl⟩) hnp]; exact hv
  | parametric name ex ρ owner d hex how hden hev ih =>
    obtain ⟨ns, hns⟩ := getExpr_iff.1 hex
    refine Denotes.parametric name ex ρ owner d (getExpr_iff.2 ⟨ns, by rw [h2]; exact hns⟩) ?_ ?_ hev
    · intro s hs; rw [getSymbol_iff, h1, ← getSymbol_iff]; exact how s hs
    · intro s hs
      refine ih s hs ?_
      rintro ⟨k, hk, hdep⟩
      apply hn
      refine ⟨k, hk, Or.inr ?_⟩
      obtain ⟨m, hm, hms⟩ := hg.parzSyms name ex ns hns s hs
      have := hg.symInj _ _ _ hms (getSymbol_iff.1 (how s hs))
      rw [this] at hm
      have hstep : RecordedDep st name (owner s) := dependsOn_iff.2 ⟨ex, ns, hns, hm⟩
      rcases hdep with rfl | hdep
      · exact Relation.TransGen.single hstep
      · exact Relation.TransGen.head hstep hdep

/-- Setting swept parameters leaves the value of everything the sweep does not affect as it was, provided
the unaffected parametric values were up to date. -/
theorem unaffected_unchanged {eng : Engine E} (law : eng.Lawful D) {st : PC E} (h : CleanReachable eng st)
    (ks : List String)
    (hsettled : ∀ k, Parametric st k → ¬ Affected st ks k →
      ∃ f, HasSource eng st k ∧ Computable eng law st k f ∧ st.getParameterValue k = .ok (some f))
    (ho : HashOrder) (fuel : ℕ) (values : Dict String PyVal) (hkeys : ∀ n ∈ values.keys, n ∈ ks) (st' : PC E)
    (hset : st.setParameterValues eng ho fuel [.dict values] = (st', .ok ())) (n : String)
    (hn : ¬ Affected st ks n) : st'.getParameterValue n = st.getParameterValue n := by
  have hg := CleanReachable.good law h
  have hf := setParameterValues_frame eng ho fuel st [.dict values]
  have hk := setParameterValues_keys eng ho fuel st [.dict values]
  rw [hset] at hf hk
  simp only at hf hk
  -- what happens to one parameter
  have hpar : ∀ k p, st.coll.get? k = some p → ∃ p', st'.coll.get? k = some p' ∧
      (p' = p ∨ ∃ f, p' = { p with value := some f }) ∧ (k ∉ ks → ¬ Parametric st k → p' = p) := by
    intro k p hp
    have h' := hset
    unfold setParameterValues at h'
    simp only [parseBulk] at h'
    obtain ⟨q, q1, q2, q3⟩ := setPairs_param (values.map fun p => (some p.1, p.2)) st k p hp
    have hfr := setPairs_frame (values.map fun p => (some p.1, p.2)) st
    split at h'
    · cases h'
    · rename_i st1 heq
      rw [heq] at q1 hfr
      simp only at q1 hfr
      obtain ⟨p', a, b, c⟩ := update_param_frame eng ho fuel st1 (by rw [hfr.2.2]; exact hg.wf) k q q1
      rw [h'] at a
      refine ⟨p', a, ?_, ?_⟩
      · rcases q2 with rfl | ⟨f, rfl⟩
        · exact b
        · rcases b with rfl | ⟨g, rfl⟩
          · exact Or.inr ⟨f, rfl⟩
          · exact Or.inr ⟨g, rfl⟩
      · intro hk hnp
        rw [c (by unfold Parametric getParametricParametersList at hnp ⊢; rw [hfr.2.1]; exact hnp)]
        apply q3
        intro v hv
        simp only [List.mem_map, Prod.mk.injEq, Option.some.injEq, Prod.exists] at hv
        obtain ⟨a, b, hab, rfl, rfl⟩ := hv
        exact hk (hkeys _ (List.mem_map.2 ⟨_, hab, rfl⟩))
  have hval : ∀ m, m ∉ ks → ¬ Parametric st m → st'.getParameterValue m = st.getParameterValue m := by
    intro m hm hnp
    unfold getParameterValue
    cases hc : st.coll.get? m with
    | none =>
      have : st'.coll.get? m = none := by
        rw [Dict.get?_eq_none_iff] at hc ⊢; rwa [hk]
      rw [this]
    | some p =>
      obtain ⟨p', a, _, c⟩ := hpar m p hc
      rw [a, c hm hnp]
  by_cases hpm : Parametric st n
  · obtain ⟨f, hsrc, ⟨d, hd, hto, p, hp, hadm⟩, hv⟩ := hsettled n hpm hn
    rw [hv]
    refine C06_dependents_follow_bulk_set_partial eng law st h ho fuel _ st' hset n f ?_ ⟨d, ?_, hto, ?_⟩
    · obtain ⟨i, hi, hti⟩ := hsrc
      refine ⟨i, ?_, ?_⟩
      · unfold Parametric getParametricParametersList at hi ⊢; rwa [hf.2.1]
      · refine Relation.TransGen.lift (p := Mentions eng st') id ?_ _ _ hti
        rintro a b ⟨ex, s, x1, x2, x3⟩
        refine ⟨ex, s, ?_, ?_, x3⟩
        · rw [getExpr_iff] at x1 ⊢; rw [hf.2.1]; exact x1
        · rw [getSymbol_iff] at x2 ⊢; rw [hf.1]; exact x2
    · exact denotes_congr_unaffected hg ks hf.1 hf.2.1 hval hd hn
    · obtain ⟨p', a, b, _⟩ := hpar n p hp
      refine ⟨p', a, ?_⟩
      have hlohi : p'.lo = p.lo ∧ p'.hi = p.hi := by rcases b with rfl | ⟨f, rfl⟩ <;> exact ⟨rfl, rfl⟩
      unfold Param.setValue at hadm ⊢
      simp only [PyVal.toFloat?, hlohi.1, hlohi.2] at hadm ⊢
      split_ifs at hadm ⊢ <;> first | rfl | simp at hadm
  · exact hval n (fun hk => hn ⟨n, hk, Or.inl rfl⟩) hpm

/-- Substituting in two stages, when the state at the point differs from the state before the sweep only in what the sweep affects. -/
theorem two_stage_core (eng : Engine E) (law : eng.Lawful D) (st : SW E R)
    (h : CleanReachable eng st.pc) (ks : List String) (hp : st.params = some ks)
    (hks : ∀ k ∈ ks, st.pc.coll.get? k ≠ none ∧ ¬ Parametric st.pc k)
    (ho₁ ho₂ : HashOrder) (pc' : PC E) (h' : CleanReachable eng pc')
    (hunch : ∀ n, ¬ Affected st.pc ks n → pc'.getParameterValue n = st.pc.getParameterValue n)
    (hf : pc'.symMap = st.pc.symMap ∧ pc'.parz = st.pc.parz) (hk : pc'.coll.keys = st.pc.coll.keys)
    (e : E) (ρ : Sym → D) (d : D)
    (hρ : ∀ s ∈ eng.free e, ∃ n f, pc'.getSymbol n = .ok s ∧ pc'.getParameterValue n = .ok (some f) ∧
      ρ s = law.ofPF f)
    (hd : law.eval ρ e = some d) :
    ∃ dN dS dA, st.getNonSweepParametersDict ho₁ = .ok dN ∧
      ({ st with pc := pc' } : SW E R).getSweepParametersDict ho₂ = .ok dS ∧
      pc'.getSymbolValuesDict = .ok dA ∧
      eng.toFloat (subsDict eng (subsDict eng e dN) dS) = law.toPF d ∧
      eng.toFloat (subsDict eng e dA) = law.toPF d := by
  have hg' := CleanReachable.good law h'
  have hparz : ∀ k, Parametric pc' k ↔ Parametric st.pc k := by
    intro k; unfold Parametric getParametricParametersList; rw [hf.2]
  have hdep : RecordedDep pc' = RecordedDep st.pc := by
    funext a b; unfold RecordedDep getParameterisationParameters; rw [hf.2]
  have haff : ∀ n, Affected pc' ks n ↔ Affected st.pc ks n := by
    intro n; unfold Affected; rw [hdep]
  obtain ⟨_, dN, _, n1, _, _, _, n3, _, _⟩ := C19_partition_partial eng law st h ks hp hks ho₂ ho₁
  obtain ⟨dS, _, s1, _, s2', _, s3, _, _, _⟩ := C19_partition_partial eng law ({ st with pc := pc' } : SW E R) h' ks hp (by
    intro k hk'
    refine ⟨?_, ?_⟩
    · rw [Ne, Dict.get?_eq_none_iff, hk, ← Dict.get?_eq_none_iff]; exact (hks k hk').1
    · simp only; rw [hparz]; exact (hks k hk').2) ho₂ ho₁
  obtain ⟨dA, a1, a2, a3⟩ := getSymbolValues_ok hg'.symInj hg'.sameKeys pc'.coll.keys (fun _ hn => hn)
  rw [← getSymbolValuesDict_eq hg'.collKeys] at a1
  simp only at s3 s1
  have hnd := (C19_partition_partial eng law st h ks hp hks ho₂ ho₁)
  obtain ⟨_, dN', _, n1', _, nN, _, _, _, _⟩ := hnd
  rw [n1] at n1'; cases n1'
  -- values of the symbols after the set
  classical
  obtain ⟨ρ', hρ'⟩ : ∃ ρ' : Sym → D, ∀ s n f, pc'.getSymbol n = .ok s →
      pc'.getParameterValue n = .ok (some f) → ρ' s = law.ofPF f := by
    refine ⟨fun s => if hx : ∃ f n, pc'.getSymbol n = .ok s ∧ pc'.getParameterValue n = .ok (some f) then
      law.ofPF hx.choose else ρ s, ?_⟩
    intro s n f hs hv
    have hx : ∃ f n, pc'.getSymbol n = .ok s ∧ pc'.getParameterValue n = .ok (some f) := ⟨f, n, hs, hv⟩
    simp only [dif_pos hx]
    obtain ⟨m, hm, hvm⟩ := hx.choose_spec
    have hnm := hg'.symInj _ _ s (getSymbol_iff.1 hm) (getSymbol_iff.1 hs)
    subst hnm
    rw [hv] at hvm
    simp only [Except.ok.injEq, Option.some.injEq] at hvm
    rw [← hvm]
  have hd' : law.eval ρ' e = some d := by
    rw [law.eval_congr ρ' ρ e, hd]
    intro s hs
    obtain ⟨n, f, x1, x2, x3⟩ := hρ s hs
    rw [x3, hρ' s n f x1 x2]
  have hNmem : ∀ s v, (s, some v) ∈ dN → ρ' s = law.ofPF v := by
    intro s v hm
    obtain ⟨n, x1, x2, x3⟩ := (n3 s (some v)).1 (Dict.get?_of_mem nN hm)
    refine hρ' s n v ?_ ?_
    · rw [getSymbol_iff, hf.1, ← getSymbol_iff]; exact x1
    · rw [hunch n x3]; exact x2
  have hSmem : ∀ s v, (s, some v) ∈ dS → ρ' s = law.ofPF v := by
    intro s v hm
    obtain ⟨n, x1, x2, x3⟩ := (s3 s (some v)).1 (Dict.get?_of_mem s2' hm)
    exact hρ' s n v x1 x2
  have hAmem : ∀ s v, (s, some v) ∈ dA → ρ' s = law.ofPF v := by
    intro s v hm
    obtain ⟨n, _, x1, x2⟩ := (a3 s (some v)).1 (Dict.get?_of_mem a2 hm)
    exact hρ' s n v x1 x2
  refine ⟨dN, dS, dA, n1, s1, a1, ?_, ?_⟩
  · refine law.toFloat_closed ρ' _ d ?_ (subsDict_eval law ρ' dS _ d hSmem (subsDict_eval law ρ' dN e d hNmem hd'))
    rw [List.eq_nil_iff_forall_not_mem]
    intro x hx
    obtain ⟨b1, b2⟩ := subsDict_free law _ _ _ hx
    obtain ⟨c1, c2⟩ := subsDict_free law _ _ _ b1
    obtain ⟨n, f, x1, x2, _⟩ := hρ x c1
    by_cases ha : Affected st.pc ks n
    · exact b2 f (Dict.mem_of_get? ((s3 x (some f)).2 ⟨n, x1, x2, (haff n).2 ha⟩))
    · refine c2 f (Dict.mem_of_get? ((n3 x (some f)).2 ⟨n, ?_, ?_, ha⟩))
      · rw [getSymbol_iff, ← hf.1, ← getSymbol_iff]; exact x1
      · rw [← hunch n ha]; exact x2
  · refine law.toFloat_closed ρ' _ d ?_ (subsDict_eval law ρ' dA e d hAmem hd')
    rw [List.eq_nil_iff_forall_not_mem]
    intro x hx
    obtain ⟨b1, b2⟩ := subsDict_free law _ _ _ hx
    obtain ⟨n, f, x1, x2, _⟩ := hρ x b1
    obtain ⟨p, hpn, _⟩ := getValue_iff.1 x2
    exact b2 f (Dict.mem_of_get? ((a3 x (some f)).2 ⟨n, Dict.mem_keys_of_get? hpn, x1, x2⟩))

/-- C19: substituting the unswept parameters once, before the sweep, and the swept ones at each point gives
the number that substituting all current values at once gives.  The state before the sweep must be settled:
the parametric parameters the sweep does not affect hold the value of their expression. -/
theorem C19_two_stage_substitution_partial (eng : Engine E) (law : eng.Lawful D) (st : SW E R)
    (h : CleanReachable eng st.pc) (ks : List String) (hp : st.params = some ks)
    (hks : ∀ k ∈ ks, st.pc.coll.get? k ≠ none ∧ ¬ Parametric st.pc k)
    (hsettled : ∀ k, Parametric st.pc k → ¬ Affected st.pc ks k →
      ∃ f, HasSource eng st.pc k ∧ Computable eng law st.pc k f ∧ st.pc.getParameterValue k = .ok (some f))
    (ho ho₁ ho₂ : HashOrder) (fuel : ℕ) (values : Dict String PyVal) (hkeys : ∀ n ∈ values.keys, n ∈ ks)
    (pc' : PC E) (hset : st.pc.setParameterValues eng ho fuel [.dict values] = (pc', .ok ()))
    (e : E) (ρ : Sym → D) (d : D)
    (hρ : ∀ s ∈ eng.free e, ∃ n f, pc'.getSymbol n = .ok s ∧ pc'.getParameterValue n = .ok (some f) ∧
      ρ s = law.ofPF f)
    (hd : law.eval ρ e = some d) :
    ∃ dN dS dA, st.getNonSweepParametersDict ho₁ = .ok dN ∧
      ({ st with pc := pc' } : SW E R).getSweepParametersDict ho₂ = .ok dS ∧
      pc'.getSymbolValuesDict = .ok dA ∧
      eng.toFloat (subsDict eng (subsDict eng e dN) dS) = law.toPF d ∧
      eng.toFloat (subsDict eng e dA) = law.toPF d := by
  have hunch := fun n hn => unaffected_unchanged law h ks hsettled ho fuel values hkeys pc' hset n hn
  have h' : CleanReachable eng pc' := by
    have := clean_step h ⟨ho, fuel, .setParameterValues [.dict values]⟩ (by simp [CleanCall])
    simpa [call, hset] using this
  have hf := setParameterValues_frame eng ho fuel st.pc [.dict values]
  have hk := setParameterValues_keys eng ho fuel st.pc [.dict values]
  rw [hset] at hf hk
  simp only at hf hk
  exact two_stage_core eng law st h ks hp hks ho₁ ho₂ pc' h' hunch ⟨hf.1, hf.2.1⟩ hk e ρ d hρ hd

/-! ### A concrete sweep -/

/-- The collection `A B C` before anything is set. -/
def abc₀ : PC Ast :=
  { coll := [("A", freshParam "A" "A_{}"), ("B", freshParam "B" "B_{}"), ("C", freshParam "C" "C_{}")]
    symMap := [("A", "A_{}"), ("B", "B_{}"), ("C", "C_{}")]
    parz := []
    graph := { nodes := ["A", "B", "C"], edges := [] } }

theorem abc₀_eq : PC.new ["A", "B", "C"] = .ok abc₀ := by decide +kernel

/-- `A = 2 * B`, then `B = 3`. -/
def settledHistory : List (Call Ast) :=
  [⟨.id, 10, .addParameterisation "A" (.mul (.lit (.fin 2)) (.sym "B_{}"))⟩,
   ⟨.id, 10, .setParameterValue "B" (.int 3)⟩]

/-- `A = 1`, `B = 3`, then `A = 2 * B`: the value of `A` is not refreshed. -/
def unsettledHistory : List (Call Ast) :=
  [⟨.id, 10, .setParameterValue "A" (.int 1)⟩,
   ⟨.id, 10, .setParameterValue "B" (.int 3)⟩,
   ⟨.id, 10, .addParameterisation "A" (.mul (.lit (.fin 2)) (.sym "B_{}"))⟩]

/-- A sweep of `C` over two points. -/
def sweepC : List SweepSpec := [⟨"C", .int 0, .int 1, .int 2⟩]

def settledPC : PC Ast := runPC Ast.engine abc₀ settledHistory
def unsettledPC : PC Ast := runPC Ast.engine abc₀ unsettledHistory

theorem settledPC_clean : CleanReachable Ast.engine settledPC := by
  refine ⟨_, abc₀, settledHistory, abc₀_eq, ?_, rfl⟩
  simp only [CleanHistory, settledHistory, CleanCall, and_true]
  unfold Parametric; decide +kernel

theorem unsettledPC_clean : CleanReachable Ast.engine unsettledPC := by
  refine ⟨_, abc₀, unsettledHistory, abc₀_eq, ?_, rfl⟩
  simp only [CleanHistory, unsettledHistory, CleanCall, and_true, true_and]
  unfold Parametric; decide +kernel

def settledSW : SW Ast PF := (({ pc := settledPC } : SW Ast PF).ndSweep sweepC).1
def unsettledSW : SW Ast PF := (({ pc := unsettledPC } : SW Ast PF).ndSweep sweepC).1

/-- The hypotheses of `C19_partition_partial` and `C19_two_stage_substitution_partial` are met by sweeping `C` after the
settled history, with the unaffected parametric parameter `A`. -/
example : CleanReachable Ast.engine settledSW.pc ∧ settledSW.params = some ["C"] ∧
    (∀ k ∈ ["C"], settledSW.pc.coll.get? k ≠ none ∧ ¬ Parametric settledSW.pc k) ∧
    (∀ k, Parametric settledSW.pc k → ¬ Affected settledSW.pc ["C"] k →
      ∃ f, HasSource Ast.engine settledSW.pc k ∧ Computable Ast.engine Ast.lawful settledSW.pc k f ∧
        settledSW.pc.getParameterValue k = .ok (some f)) ∧
    Parametric settledSW.pc "A" ∧
    (settledSW.pc.setParameterValues Ast.engine .id 10 [.dict [("C", .int 1)]]).2 = .ok () := by
  refine ⟨ndSweep_clean settledPC_clean sweepC, by decide +kernel, ?_, ?_, ?_, by decide +kernel⟩
  · intro k hk
    simp only [List.mem_singleton] at hk
    subst hk
    unfold Parametric
    decide +kernel
  · intro k hk _
    have hk' : k ∈ ["A"] := hk
    simp only [List.mem_singleton] at hk'
    subst hk'
    refine ⟨.fin 6, ⟨"B", by unfold Parametric; decide +kernel, Relation.TransGen.single
      ⟨.mul (.lit (.fin 2)) (.sym "B_{}"), "B_{}", by decide +kernel, by decide +kernel, by decide +kernel⟩⟩, ?_,
      by decide +kernel⟩
    refine ⟨.fin 6, ?_, rfl, _, rfl, by decide +kernel⟩
    refine Denotes.parametric "A" (.mul (.lit (.fin 2)) (.sym "B_{}")) (fun _ => .fin 3) (fun _ => "B") _
        (by decide +kernel) (by decide +kernel) ?_ (by decide +kernel)
    intro s _
    exact Denotes.independent "B" (.fin 3) (by unfold Parametric; decide +kernel) (by decide +kernel)
  · unfold Parametric; decide +kernel

/-- C19 fails when a parameterisation was added since the last set: its value is not refreshed when the
unswept parameters are substituted, but it is by the first set of the sweep.  The expression `A` then
evaluates to 1 in two stages and to 6 at once. -/
theorem C19_false_unsettled :
    ∃ (st : SW Ast PF) (pc' : PC Ast) (dN dS dA : Dict Sym (Option PF)),
      CleanReachable Ast.engine st.pc ∧ st.params = some ["C"] ∧
      st.pc.setParameterValues Ast.engine .id 10 [.dict [("C", .int 1)]] = (pc', .ok ()) ∧
      st.getNonSweepParametersDict .id = .ok dN ∧
      ({ st with pc := pc' } : SW Ast PF).getSweepParametersDict .id = .ok dS ∧
      pc'.getSymbolValuesDict = .ok dA ∧
      Ast.engine.toFloat (subsDict Ast.engine (subsDict Ast.engine (.sym "A_{}") dN) dS) = some (.fin 1) ∧
      Ast.engine.toFloat (subsDict Ast.engine (.sym "A_{}") dA) = some (.fin 6) := by
  refine ⟨unsettledSW, (unsettledSW.pc.setParameterValues Ast.engine .id 10 [.dict [("C", .int 1)]]).1,
    [("A_{}", some (.fin 1)), ("B_{}", some (.fin 3))], [("C_{}", some (.fin 1))],
    [("A_{}", some (.fin 6)), ("B_{}", some (.fin 3)), ("C_{}", some (.fin 1))],
    ndSweep_clean unsettledPC_clean sweepC, by decide +kernel, Prod.ext rfl (by decide +kernel),
    by decide +kernel, by decide +kernel, by decide +kernel, by decide +kernel, by decide +kernel⟩

end Verif.Props
