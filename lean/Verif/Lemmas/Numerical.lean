import Verif.Model.Numerical
import Verif.Props.SweepDict

/-!
# Lemmas about setting parameters along a sweep
-/

namespace Verif.Num

open Verif Verif.Spec Verif.PC Verif.Props

variable {E R D O : Type}

/-- What setting values of parameters among `ks` may change in a collection. -/
structure Frame (eng : Engine E) (ks : List String) (st st' : PC E) : Prop where
  clean : CleanReachable eng st → CleanReachable eng st'
  sym : st'.symMap = st.symMap
  parz : st'.parz = st.parz
  keys : st'.coll.keys = st.coll.keys
  param : ∀ k p, st.coll.get? k = some p → ∃ p', st'.coll.get? k = some p' ∧
      (p' = p ∨ ∃ f, p' = { p with value := some f }) ∧ (k ∉ ks → ¬ Parametric st k → p' = p)

theorem Frame.refl (eng : Engine E) (ks : List String) (st : PC E) : Frame eng ks st st :=
  ⟨id, rfl, rfl, rfl, fun _ p hp => ⟨p, hp, Or.inl rfl, fun _ _ => rfl⟩⟩

theorem Frame.parametric {eng : Engine E} {ks : List String} {st st' : PC E} (h : Frame eng ks st st') (k : String) :
    Parametric st' k ↔ Parametric st k := by
  unfold Parametric getParametricParametersList; rw [h.parz]

theorem Frame.affected {eng : Engine E} {ks : List String} {st st' : PC E} (h : Frame eng ks st st') (n : String) :
    Affected st' ks n ↔ Affected st ks n := by
  have : RecordedDep st' = RecordedDep st := by
    funext a b; unfold RecordedDep getParameterisationParameters; rw [h.parz]
  unfold Affected; rw [this]

theorem Frame.trans {eng : Engine E} {ks : List String} {a b c : PC E} (h : Frame eng ks a b) (h' : Frame eng ks b c) : Frame eng ks a c := by
  refine ⟨fun x => h'.clean (h.clean x), h'.sym.trans h.sym, h'.parz.trans h.parz, h'.keys.trans h.keys, ?_⟩
  intro k p hp
  obtain ⟨q, hq, hq2, hq3⟩ := h.param k p hp
  obtain ⟨r, hr, hr2, hr3⟩ := h'.param k q hq
  refine ⟨r, hr, ?_, ?_⟩
  · rcases hq2 with rfl | ⟨f, rfl⟩
    · exact hr2
    · rcases hr2 with rfl | ⟨g, rfl⟩
      · exact Or.inr ⟨f, rfl⟩
      · exact Or.inr ⟨g, rfl⟩
  · intro hk hnp
    rw [hr3 hk (by rwa [h.parametric]), hq3 hk hnp]

/-- An independent parameter that is not among `ks` keeps its value. -/
theorem Frame.value {eng : Engine E} {ks : List String} {st st' : PC E} (h : Frame eng ks st st') {m : String} (hm : m ∉ ks)
    (hnp : ¬ Parametric st m) : st'.getParameterValue m = st.getParameterValue m := by
  unfold getParameterValue
  cases hc : st.coll.get? m with
  | none =>
    have : st'.coll.get? m = none := by rw [Dict.get?_eq_none_iff] at hc ⊢; rwa [h.keys]
    rw [this]
  | some p =>
    obtain ⟨p', a, _, c⟩ := h.param m p hc
    rw [a, c hm hnp]

theorem Frame.admits {eng : Engine E} {ks : List String} {st st' : PC E} (h : Frame eng ks st st') {n : String} {f : PF}
    (ha : Admits st n f) : Admits st' n f := by
  obtain ⟨p, hp, hadm⟩ := ha
  obtain ⟨p', a, b, _⟩ := h.param n p hp
  refine ⟨p', a, ?_⟩
  have hlohi : p'.lo = p.lo ∧ p'.hi = p.hi := by rcases b with rfl | ⟨f, rfl⟩ <;> exact ⟨rfl, rfl⟩
  unfold Param.setValue at hadm ⊢
  simp only [PyVal.toFloat?, hlohi.1, hlohi.2] at hadm ⊢
  split_ifs at hadm ⊢ <;> first | rfl | simp at hadm

theorem Frame.admits' {eng : Engine E} {ks : List String} {st st' : PC E} (h : Frame eng ks st st') {n : String} {f : PF}
    (ha : Admits st' n f) : Admits st n f := by
  obtain ⟨p', hp', hadm⟩ := ha
  obtain ⟨p, hp⟩ : ∃ p, st.coll.get? n = some p := by
    rw [← Option.isSome_iff_exists, ← Dict.mem_keys_iff, ← h.keys, Dict.mem_keys_iff, hp']; rfl
  obtain ⟨q, a, b, _⟩ := h.param n p hp
  rw [hp'] at a; cases a
  refine ⟨p, hp, ?_⟩
  have hlohi : p'.lo = p.lo ∧ p'.hi = p.hi := by rcases b with rfl | ⟨f, rfl⟩ <;> exact ⟨rfl, rfl⟩
  unfold Param.setValue at hadm ⊢
  simp only [PyVal.toFloat?, hlohi.1, hlohi.2] at hadm ⊢
  split_ifs at hadm ⊢ <;> first | rfl | simp at hadm

theorem Frame.hasSource {eng : Engine E} {ks : List String} {st st' : PC E} (h : Frame eng ks st st') {n : String}
    (hs : HasSource eng st n) : HasSource eng st' n := by
  obtain ⟨i, hi, hti⟩ := hs
  refine ⟨i, by rwa [h.parametric], ?_⟩
  refine Relation.TransGen.lift (p := Mentions eng st') id ?_ _ _ hti
  rintro a b ⟨ex, s, x1, x2, x3⟩
  refine ⟨ex, s, ?_, ?_, x3⟩
  · rw [getExpr_iff] at x1 ⊢; rw [h.parz]; exact x1
  · rw [getSymbol_iff] at x2 ⊢; rw [h.sym]; exact x2

/-- A successful bulk set of parameters among `ks`. -/
theorem set_frame {eng : Engine E} (law : eng.Lawful D) {st : PC E} (h : CleanReachable eng st) (ks : List String) (ho : HashOrder) (fuel : ℕ)
    (values : Dict String PyVal) (hkeys : ∀ n ∈ values.keys, n ∈ ks) (st' : PC E)
    (hset : st.setParameterValues eng ho fuel [.dict values] = (st', .ok ())) : Frame eng ks st st' := by
  have hg := CleanReachable.good law h
  have hf := setParameterValues_frame eng ho fuel st [.dict values]
  have hk := setParameterValues_keys eng ho fuel st [.dict values]
  rw [hset] at hf hk
  simp only at hf hk
  refine ⟨?_, hf.1, hf.2.1, hk, ?_⟩
  · intro h
    have := clean_step h ⟨ho, fuel, .setParameterValues [.dict values]⟩ (by simp [CleanCall])
    simpa [call, hset] using this
  · intro k p hp
    have h' := hset
    unfold setParameterValues at h'
    simp only [parseBulk] at h'
    obtain ⟨q, q1, q2, q3⟩ := setPairs_param (values.map fun p => (some p.1, p.2)) st k p hp
    have hfr := setPairs_frame (values.map fun p => (some p.1, p.2)) st
    split at h'
    · cases h'
    · rename_i st1 heq
      rw [heq] at q1 hfr
      simp only at q1 hfr
      obtain ⟨p', a, b, c⟩ := update_param_frame eng ho fuel st1 (by rw [hfr.2.2]; exact hg.wf) k q q1
      rw [h'] at a
      refine ⟨p', a, ?_, ?_⟩
      · rcases q2 with rfl | ⟨f, rfl⟩
        · exact b
        · rcases b with rfl | ⟨g, rfl⟩
          · exact Or.inr ⟨f, rfl⟩
          · exact Or.inr ⟨g, rfl⟩
      · intro hk hnp
        rw [c (by unfold Parametric getParametricParametersList at hnp ⊢; rw [hfr.2.1]; exact hnp)]
        apply q3
        intro v hv
        simp only [List.mem_map, Prod.mk.injEq, Option.some.injEq, Prod.exists] at hv
        obtain ⟨a, b, hab, rfl, rfl⟩ := hv
        exact hk (hkeys _ (List.mem_map.2 ⟨_, hab, rfl⟩))

/-- The value the bulk setter gives an independent parameter, read off the list. -/
def lastVal : List (Option String × PyVal) → String → Option PF → Option PF
  | [], _, acc => acc
  | (k, v) :: rest, n, acc => lastVal rest n (if k = some n then v.toFloat? else acc)

theorem setPairs_value : ∀ (l : List (Option String × PyVal)) (st st' : PC E) (n : String) (p : Param),
    setPairs st l = (st', .ok ()) → st.parz.has n = false → st.coll.get? n = some p →
    ∃ p', st'.coll.get? n = some p' ∧ p'.value = lastVal l n p.value := by
  intro l
  induction l with
  | nil => intro st st' n p h hz hp; cases h; exact ⟨p, hp, rfl⟩
  | cons x l ih =>
    intro st st' n p h hz hp
    obtain ⟨k, v⟩ := x
    cases k with
    | none => simp [setPairs] at h
    | some k =>
      unfold setPairs at h
      cases hq : st.coll.get? k with
      | none => rw [hq] at h; simp at h
      | some q =>
        rw [hq] at h
        simp only at h
        by_cases hkz : st.parz.has k = true
        · rw [if_pos hkz] at h
          have hne : k ≠ n := by rintro rfl; rw [hz] at hkz; cases hkz
          obtain ⟨p', a, b⟩ := ih st st' n p h hz hp
          refine ⟨p', a, ?_⟩
          rw [b, lastVal, if_neg (by simpa using hne)]
        · rw [if_neg hkz] at h
          split at h
          · cases h
          · rename_i q' hq'
            have hv : ∃ f, v.toFloat? = some f ∧ q'.value = some f := by
              unfold Param.setValue at hq'
              split at hq'
              · cases hq'
              · rename_i f hf
                split_ifs at hq' <;> cases hq'
                exact ⟨f, hf, rfl⟩
            obtain ⟨f, hf, hqf⟩ := hv
            by_cases hkn : k = n
            · subst hkn
              obtain ⟨p', a, b⟩ := ih { st with coll := st.coll.set k q' } st' k q' h hz (by simp)
              refine ⟨p', a, ?_⟩
              rw [b, lastVal, if_pos rfl, hf, hqf]
            · obtain ⟨p', a, b⟩ := ih { st with coll := st.coll.set k q' } st' n p h hz
                (by simp only [Dict.get?_set_ne _ _ hkn]; exact hp)
              refine ⟨p', a, ?_⟩
              rw [b, lastVal, if_neg (by simpa using hkn)]

theorem lastVal_mem : ∀ (l : List (Option String × PyVal)) (n : String) (x y : Option PF), (∃ v, (some n, v) ∈ l) → lastVal l n x = lastVal l n y := by
  intro l
  induction l with
  | nil => rintro n x y ⟨v, hv⟩; simp at hv
  | cons a l ih =>
    rintro n x y ⟨v, hv⟩
    obtain ⟨k, w⟩ := a
    by_cases hk : k = some n
    · simp [lastVal, hk]
    · rw [lastVal, lastVal, if_neg hk, if_neg hk]
      refine ih n x y ⟨v, ?_⟩
      simp only [List.mem_cons, Prod.mk.injEq] at hv
      exact hv.resolve_left (fun h => hk h.1.symm)

/-- The same bulk set, from two states with the same parameters, gives an independent parameter it names the same value. -/
theorem set_same {eng : Engine E} (law : eng.Lawful D) {st₁ st₂ : PC E} (hc₁ : CleanReachable eng st₁) (hc₂ : CleanReachable eng st₂)
    (ho₁ ho₂ : HashOrder) (f₁ f₂ : ℕ) (values : Dict String PyVal) (a b : PC E)
    (h₁ : st₁.setParameterValues eng ho₁ f₁ [.dict values] = (a, .ok ())) (h₂ : st₂.setParameterValues eng ho₂ f₂ [.dict values] = (b, .ok ()))
    (n : String) (hn : n ∈ values.keys) (hp₁ : ¬ Parametric st₁ n) (hp₂ : ¬ Parametric st₂ n)
    (hk₁ : st₁.coll.get? n ≠ none) (hk₂ : st₂.coll.get? n ≠ none) : a.getParameterValue n = b.getParameterValue n := by
  have key : ∀ (st : PC E), CleanReachable eng st → ∀ (ho : HashOrder) (fu : ℕ) (st' : PC E),
      st.setParameterValues eng ho fu [.dict values] = (st', .ok ()) → ¬ Parametric st n → st.coll.get? n ≠ none →
      st'.getParameterValue n = .ok (lastVal (values.map fun p => (some p.1, p.2)) n none) := by
    intro st hc ho fu st' h hnp hin
    have hg := CleanReachable.good law hc
    obtain ⟨p, hp⟩ := Option.ne_none_iff_exists'.1 hin
    unfold setParameterValues at h
    simp only [parseBulk] at h
    split at h
    · cases h
    · rename_i st1 heq
      have hfr := setPairs_frame (values.map fun p => (some p.1, p.2)) st
      rw [heq] at hfr
      simp only at hfr
      obtain ⟨q, q1, q2⟩ := setPairs_value _ st st1 n p heq (by
        have := (Dict.has_iff st.parz n).not.2 hnp
        simpa using this) hp
      obtain ⟨p', a, _, c⟩ := update_param_frame eng ho fu st1 (by rw [hfr.2.2]; exact hg.wf) n q q1
      rw [h] at a
      rw [c (by unfold Parametric getParametricParametersList at hnp ⊢; rw [hfr.2.1]; exact hnp)] at a
      unfold getParameterValue
      simp only at a
      rw [a]
      simp only [Param.getValue, q2, Except.ok.injEq]
      refine lastVal_mem _ _ _ _ ?_
      obtain ⟨x, hx, rfl⟩ := List.mem_map.1 hn
      exact ⟨x.2, List.mem_map.2 ⟨x, hx, rfl⟩⟩
  rw [key st₁ hc₁ ho₁ f₁ a h₁ hp₁ hk₁, key st₂ hc₂ ho₂ f₂ b h₂ hp₂ hk₂]

/-- The value a parameter ought to have depends on the values of the independent parameters only. -/
theorem denotes_congr {eng : Engine E} {law : eng.Lawful D} {st st' : PC E} (h1 : st'.symMap = st.symMap) (h2 : st'.parz = st.parz)
    (h3 : ∀ m, ¬ Parametric st m → st'.getParameterValue m = st.getParameterValue m)
    {n : String} {d : D} (h : Denotes eng law st n d) : Denotes eng law st' n d := by
  induction h with
  | independent name v hnp hv =>
    refine Denotes.independent name v ?_ ?_
    · unfold Parametric getParametricParametersList at hnp ⊢; rwa [h2]
    · rw [h3 name hnp]; exact hv
  | parametric name ex ρ owner d hex how hden hev ih =>
    obtain ⟨ns, hns⟩ := getExpr_iff.1 hex
    refine Denotes.parametric name ex ρ owner d (getExpr_iff.2 ⟨ns, by rw [h2]; exact hns⟩) ?_ ih hev
    intro s hs; rw [getSymbol_iff, h1, ← getSymbol_iff]; exact how s hs

/-- Along any history of sets of the swept parameters, the values at a point are those that setting the point at once gives. -/
theorem path_value {eng : Engine E} (law : eng.Lawful D) {st pcM pcA pcF : PC E} (h : CleanReachable eng st) (ks : List String)
    (hks : ∀ k ∈ ks, st.coll.get? k ≠ none ∧ ¬ Parametric st k) (hM : Frame eng ks st pcM)
    (ho ho' : HashOrder) (fuel fuel' : ℕ) (values : Dict String PyVal) (hkeys : ∀ n, n ∈ values.keys ↔ n ∈ ks)
    (hA : pcM.setParameterValues eng ho fuel [.dict values] = (pcA, .ok ()))
    (hF : st.setParameterValues eng ho' fuel' [.dict values] = (pcF, .ok ()))
    (hcomp : ∀ k, Parametric st k → ∃ f, HasSource eng pcF k ∧ Computable eng law pcF k f) (n : String) :
    pcA.getParameterValue n = pcF.getParameterValue n := by
  have hMA := set_frame law (hM.clean h) ks ho fuel values (fun n hn => (hkeys n).1 hn) pcA hA
  have hSF := set_frame law h ks ho' fuel' values (fun n hn => (hkeys n).1 hn) pcF hF
  have hSA := hM.trans hMA
  have hind : ∀ m, ¬ Parametric st m → pcA.getParameterValue m = pcF.getParameterValue m := by
    intro m hm
    by_cases hk : m ∈ ks
    · refine set_same law (hM.clean h) h ho ho' fuel fuel' values pcA pcF hA hF m ((hkeys m).2 hk) (by rwa [hM.parametric]) hm ?_ (hks m hk).1
      rw [Ne, Dict.get?_eq_none_iff, hM.keys, ← Dict.get?_eq_none_iff]; exact (hks m hk).1
    · rw [hSA.value hk hm, hSF.value hk hm]
  by_cases hp : Parametric st n
  · obtain ⟨f, hs, d, hd, hto, hadm⟩ := hcomp n hp
    have hs0 : HasSource eng st n := by
      obtain ⟨i, hi, hti⟩ := hs
      refine ⟨i, by rwa [← hSF.parametric], ?_⟩
      refine Relation.TransGen.lift (p := Mentions eng st) id ?_ _ _ hti
      rintro a b ⟨ex, s, x1, x2, x3⟩
      refine ⟨ex, s, ?_, ?_, x3⟩
      · rw [getExpr_iff] at x1 ⊢; rw [← hSF.parz]; exact x1
      · rw [getSymbol_iff] at x2 ⊢; rw [← hSF.sym]; exact x2
    rw [C06_dependents_follow_bulk_set_partial eng law st h ho' fuel' _ pcF hF n f hs ⟨d, hd, hto, hadm⟩,
      C06_dependents_follow_bulk_set_partial eng law pcM (hM.clean h) ho fuel _ pcA hA n f (hSA.hasSource hs0)
        ⟨d, denotes_congr (by rw [hSA.sym, hSF.sym]) (by rw [hSA.parz, hSF.parz]) (fun m hm => hind m (by rwa [← hSF.parametric])) hd, hto,
          hSA.admits (hSF.admits' hadm)⟩]
  · exact hind n hp

/-- An unaffected parameter has the value it had before. -/
theorem path_unaffected {eng : Engine E} (law : eng.Lawful D) {st pcF : PC E} (h : CleanReachable eng st) (ks : List String)
    (hsettled : ∀ k, Parametric st k → ∃ f, HasSource eng st k ∧ Computable eng law st k f ∧ st.getParameterValue k = .ok (some f))
    (ho' : HashOrder) (fuel' : ℕ) (values : Dict String PyVal) (hkeys : ∀ n, n ∈ values.keys → n ∈ ks)
    (hF : st.setParameterValues eng ho' fuel' [.dict values] = (pcF, .ok ())) (n : String) (hn : ¬ Affected st ks n) :
    pcF.getParameterValue n = st.getParameterValue n :=
  unaffected_unchanged law h ks (fun k hk _ => hsettled k hk) ho' fuel' values hkeys pcF hF n hn

/-- A parameterised parameter whose expression mentions no affected symbol keeps its value. -/
theorem path_expr_unaffected {eng : Engine E} (law : eng.Lawful D) {st pcF : PC E} (h : CleanReachable eng st) (ks : List String)
    (hsettled : ∀ k, Parametric st k → ∃ f, HasSource eng st k ∧ Computable eng law st k f ∧ st.getParameterValue k = .ok (some f))
    (ho' : HashOrder) (fuel' : ℕ) (values : Dict String PyVal) (hkeys : ∀ n, n ∈ values.keys → n ∈ ks)
    (hF : st.setParameterValues eng ho' fuel' [.dict values] = (pcF, .ok ())) (n : String) (ex : E)
    (hex : st.getParametricExpression eng 0 n false = .ok ex)
    (hn : ∀ s ∈ eng.free ex, ∀ m, st.getSymbol m = .ok s → ¬ Affected st ks m) :
    pcF.getParameterValue n = st.getParameterValue n := by
  have hg := CleanReachable.good law h
  have hSF := set_frame law h ks ho' fuel' values hkeys pcF hF
  obtain ⟨ns, hns⟩ := getExpr_iff.1 hex
  have hpn : Parametric st n := Dict.mem_keys_of_get? hns
  obtain ⟨f, hs, ⟨d, hd, hto, hadm⟩, hv⟩ := hsettled n hpn
  rw [hv]
  refine C06_dependents_follow_bulk_set_partial eng law st h ho' fuel' _ pcF hF n f (hSF.hasSource hs) ⟨d, ?_, hto, hSF.admits hadm⟩
  cases hd with
  | independent _ v hnp _ => exact absurd hpn hnp
  | parametric _ ex' ρ owner _ hex' how hden hev =>
    rw [hex] at hex'; cases hex'
    refine Denotes.parametric n ex ρ owner d (getExpr_iff.2 ⟨ns, by rw [hSF.parz]; exact hns⟩) ?_ ?_ hev
    · intro s hs; rw [getSymbol_iff, hSF.sym, ← getSymbol_iff]; exact how s hs
    · intro s hs
      exact denotes_congr_unaffected hg ks hSF.sym hSF.parz (fun m hm hnp => hSF.value hm hnp) (hden s hs) (hn s hs _ (how s hs))

/-! ### The numeric attributes -/

namespace NS

theorem assign_get (eng : Engine E) (exprs : Attr → List E) (d : Dict Sym (Option PF)) : ∀ (as : List Attr) (num num' : Dict Attr (List PF)),
    assignNumbers eng exprs d as num = (num', .ok ()) →
    (∀ a ∈ as, ∃ xs, toNumbers eng d (exprs a) = .ok xs ∧ num'.get? a = some xs) ∧ (∀ a, a ∉ as → num'.get? a = num.get? a) := by
  intro as
  induction as with
  | nil => intro num num' h; cases h; exact ⟨by simp, fun _ _ => rfl⟩
  | cons b as ih =>
    intro num num' h
    unfold assignNumbers at h
    split at h
    · cases h
    · rename_i xs hxs
      obtain ⟨h1, h2⟩ := ih _ _ h
      refine ⟨?_, ?_⟩
      · intro a ha
        by_cases hm : a ∈ as
        · exact h1 a hm
        · have : a = b := by simpa [hm] using ha
          subst this
          exact ⟨xs, hxs, by rw [h2 a hm]; simp⟩
      · intro a ha
        simp only [List.mem_cons, not_or] at ha
        rw [h2 a ha.2, Dict.get?_set_ne _ _ (Ne.symm ha.1)]

theorem toNumbers_congr {eng : Engine E} {d d' : Dict Sym (Option PF)} {f : E → E} : ∀ (l : List E),
    (∀ e ∈ l, eng.toFloat (subsDict eng (f e) d) = eng.toFloat (subsDict eng e d')) →
    toNumbers eng d (l.map f) = toNumbers eng d' l := by
  intro l
  induction l with
  | nil => intro _; rfl
  | cons e l ih =>
    intro h
    simp only [List.map_cons, toNumbers]
    rw [h e (by simp), ih (fun e he => h e (by simp [he]))]

/-! ### The operators -/

theorem expand_get (gen : List (ℕ × BasisName) → ℕ → Option PF → Except Err O) (st : NS E R O) (sh : List (ℕ × BasisName)) (only : Option (List ℕ)) :
    ∀ (nodes : List ℕ) (circ circ' : Dict ℕ O), expandLoop gen st sh only nodes circ = (circ', .ok ()) →
    ∀ node, ((node ∈ nodes ∧ ∀ l, only = some l → node ∈ l) → ∃ o, st.opsOf gen sh node = .ok o ∧ circ'.get? node = some o) ∧
      (¬ (node ∈ nodes ∧ ∀ l, only = some l → node ∈ l) → circ'.get? node = circ.get? node) := by
  intro nodes
  induction nodes with
  | nil => intro circ circ' h node; cases h; exact ⟨by simp, fun _ => rfl⟩
  | cons m nodes ih =>
    intro circ circ' h node
    unfold expandLoop at h
    by_cases hm : selected only m = true
    · rw [if_pos hm] at h
      have hm' : ∀ l, only = some l → m ∈ l := by
        rintro l rfl; simpa [selected] using hm
      split at h
      · cases h
      · rename_i o ho
        obtain ⟨h1, h2⟩ := ih _ _ h node
        by_cases hn : node ∈ nodes ∧ ∀ l, only = some l → node ∈ l
        · exact ⟨fun _ => h1 hn, fun hc => absurd ⟨by simp [hn.1], hn.2⟩ hc⟩
        · by_cases hnm : node = m
          · subst hnm
            exact ⟨fun _ => ⟨o, ho, by rw [h2 hn]; simp⟩, fun hc => absurd ⟨by simp, hm'⟩ hc⟩
          · refine ⟨fun hc => absurd ⟨by simpa [hnm] using hc.1, hc.2⟩ hn, fun _ => ?_⟩
            rw [h2 hn, Dict.get?_set_ne _ _ (Ne.symm hnm)]
    · rw [if_neg hm] at h
      have hm' : ¬ ∀ l, only = some l → m ∈ l := by
        intro hc
        apply hm
        cases only with
        | none => rfl
        | some l => simpa [selected] using hc l rfl
      obtain ⟨h1, h2⟩ := ih _ _ h node
      refine ⟨fun hc => h1 ⟨?_, hc.2⟩, fun hc => h2 (fun hx => hc ⟨by simp [hx.1], hx.2⟩)⟩
      rcases List.mem_cons.1 hc.1 with rfl | h
      · exact absurd hc.2 hm'
      · exact h

end NS

end Verif.Num
