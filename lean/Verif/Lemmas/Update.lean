import Verif.Lemmas.Expand

/-! # `_update_parameterisations` -/

set_option linter.unusedSectionVars false
set_option linter.unusedVariables false

namespace Verif

open Verif.Spec

theorem DiGraph.bfs_nodup {ν : Type} [DecidableEq ν] (g : DiGraph ν) (hw : g.WF) :
    ∀ k S, S.Nodup → (g.bfs k S).Nodup := by
  intro k
  induction k with
  | zero => intro S h; exact h
  | succ k ih => intro S h; exact ih _ (hw.nodup.filter _)

theorem DiGraph.descendants_nodup {ν : Type} [DecidableEq ν] (g : DiGraph ν) (hw : g.WF) (n : ν) :
    (g.descendants n).Nodup :=
  (DiGraph.bfs_nodup g hw _ _ (by simp)).filter _

namespace PC

variable {E D : Type}

/-- The expression the inner loop starts from for a dependent parameter. -/
def startExpr (eng : Engine E) (st : PC E) (fuel : ℕ) (vals : Dict String (Option E)) (d : String) (ex : E) : Prop :=
  vals.get? d = some (some ex) ∨
    (vals.get? d = some none ∧ st.getParametricExpression eng fuel d true = .ok ex)

theorem updatePath_spec (eng : Engine E) (st : PC E) (fuel : ℕ) (symbol : Sym) (v : PF) :
    ∀ (ds : List String) (vals vals' : Dict String (Option E)), ds.Nodup →
    updatePath eng st fuel symbol v ds vals = .ok vals' →
    vals'.keys = vals.keys ∧
    (∀ k, k ∉ ds → vals'.get? k = vals.get? k) ∧
    (∀ k, k ∈ ds → ∃ ex, startExpr eng st fuel vals k ex ∧
      vals'.get? k = some (some (eng.subs ex symbol (eng.lit v)))) := by
  intro ds
  induction ds with
  | nil => intro vals vals' _ h; simp [updatePath] at h; subst h; simp
  | cons d ds ih =>
    intro vals vals' hnd h
    rw [List.nodup_cons] at hnd
    -- both branches continue with the entry of d replaced
    have step : ∀ ex, startExpr eng st fuel vals d ex →
        updatePath eng st fuel symbol v ds (vals.set d (some (eng.subs ex symbol (eng.lit v)))) = .ok vals' →
        vals'.keys = vals.keys ∧
        (∀ k, k ∉ d :: ds → vals'.get? k = vals.get? k) ∧
        (∀ k, k ∈ d :: ds → ∃ ex, startExpr eng st fuel vals k ex ∧
          vals'.get? k = some (some (eng.subs ex symbol (eng.lit v)))) := by
      intro ex hex h
      obtain ⟨i1, i2, i3⟩ := ih _ _ hnd.2 h
      have hdk : d ∈ vals.keys := by
        rcases hex with h | h
        · exact Dict.mem_keys_of_get? h
        · exact Dict.mem_keys_of_get? h.1
      refine ⟨by rw [i1, Dict.keys_set_of_mem _ hdk], ?_, ?_⟩
      · intro k hk
        rw [List.mem_cons, not_or] at hk
        rw [i2 k hk.2, Dict.get?_set_ne _ _ (fun e => hk.1 e.symm)]
      · intro k hk
        rcases List.mem_cons.1 hk with rfl | hk
        · refine ⟨ex, hex, ?_⟩
          rw [i2 k hnd.1, Dict.get?_set_self]
        · obtain ⟨ex', hex', hk'⟩ := i3 k hk
          refine ⟨ex', ?_, hk'⟩
          have hne : d ≠ k := by rintro rfl; exact hnd.1 hk
          unfold startExpr at hex' ⊢
          rwa [Dict.get?_set_ne _ _ hne] at hex'
    unfold updatePath at h
    split at h
    · cases h
    · rename_i hd
      split at h
      · cases h
      · rename_i ex hex
        exact step ex (Or.inr ⟨hd, hex⟩) h
    · rename_i ex hd
      exact step ex (Or.inl hd) h

/-- An independent parameter with a meaning has a value. -/
theorem Denotes.value_of_independent {eng : Engine E} {law : eng.Lawful D} {st : PC E} {m : String} {d : D}
    (h : Denotes eng law st m d) (hm : m ∉ st.parz.keys) :
    ∃ v, st.getParameterValue m = .ok (some v) ∧ d = law.ofPF v := by
  cases h with
  | independent _ v _ hv => exact ⟨v, hv, rfl⟩
  | parametric _ ex _ _ _ hex _ _ _ =>
    obtain ⟨ns', hns'⟩ := getExpr_iff.1 hex
    exact absurd (Dict.mem_keys_of_get? hns') hm

/-- Which parameters have been dealt with after the independent nodes `ns` were processed. -/
theorem updatePaths_spec {eng : Engine E} (law : eng.Lawful D) (ho : HashOrder) {st : PC E}
    (hg : st.Good eng) (fuel : ℕ)
    {ρ : Sym → D} (hρ : ∀ m s d, st.symMap.get? m = some s → Denotes eng law st m d → ρ s = d) :
    ∀ (ns : List String) (vals vals' : Dict String (Option E)) (done : List String),
    (∀ n ∈ ns, n ∈ st.graph.nodes) →
    updatePaths eng ho st fuel ns vals = .ok vals' →
    -- the invariant before
    (∀ k, vals.get? k = some none → ∀ n ∈ done, ∀ v, st.getParameterValue n = .ok (some v) →
        ¬ Relation.TransGen st.graph.Adj n k) →
    (∀ k e d, vals.get? k = some (some e) → Denotes eng law st k d →
      law.eval ρ e = some d ∧ ∀ s ∈ eng.free e, ∃ m, st.symMap.get? m = some s ∧ m ∉ st.parz.keys ∧
        Denotes eng law st m (ρ s) ∧ Relation.TransGen st.graph.Adj m k ∧ m ∉ done) →
    -- the invariant after
    vals'.keys = vals.keys ∧
    (∀ k, vals'.get? k = some none → ∀ n ∈ done ++ ns, ∀ v, st.getParameterValue n = .ok (some v) →
        ¬ Relation.TransGen st.graph.Adj n k) ∧
    (∀ k e d, vals'.get? k = some (some e) → Denotes eng law st k d →
      law.eval ρ e = some d ∧ ∀ s ∈ eng.free e, ∃ m, st.symMap.get? m = some s ∧ m ∉ st.parz.keys ∧
        Denotes eng law st m (ρ s) ∧ Relation.TransGen st.graph.Adj m k ∧ m ∉ done ++ ns) := by
  intro ns
  induction ns with
  | nil =>
    intro vals vals' done _ h h1 h2
    simp [updatePaths] at h; subst h
    simpa using ⟨h1, h2⟩
  | cons n ns ih =>
    intro vals vals' done hnodes h h1 h2
    unfold updatePaths at h
    split at h
    · cases h
    · rename_i symbol hsym
      rw [getSymbol_iff] at hsym
      split at h
      · cases h
      · -- no value: skipped
        rename_i hval
        have := ih vals vals' (done ++ [n]) (fun m hm => hnodes m (by simp [hm])) h ?_ ?_
        · simpa using this
        · intro k hk m hm v hv
          rcases List.mem_append.1 hm with hm | hm
          · exact h1 k hk m hm v hv
          · simp only [List.mem_singleton] at hm; subst hm; rw [hval] at hv; cases hv
        · intro k e d hk hd
          obtain ⟨a, b⟩ := h2 k e d hk hd
          refine ⟨a, ?_⟩
          intro s hs
          obtain ⟨m, hm1, hm2, hm3, hm4, hm5⟩ := b s hs
          refine ⟨m, hm1, hm2, hm3, hm4, ?_⟩
          rw [List.mem_append, not_or]
          refine ⟨hm5, ?_⟩
          simp only [List.mem_singleton]
          rintro rfl
          -- an independent parameter denoting something has a value
          obtain ⟨v, hv, _⟩ := Denotes.value_of_independent hm3 hm2
          rw [hval] at hv; cases hv
      · rename_i v hval
        split at h
        · cases h
        · rename_i vals1 hpath
          have hnd : (ho.ord (st.graph.descendants n)).Nodup :=
            (ho.perm _).nodup_iff.2 (DiGraph.descendants_nodup _ hg.wf n)
          have hmem : ∀ k, k ∈ ho.ord (st.graph.descendants n) ↔ Relation.TransGen st.graph.Adj n k ∧ k ≠ n := by
            intro k
            rw [(ho.perm _).mem_iff, DiGraph.mem_descendants _ hg.wf n (hnodes n (by simp))]
          obtain ⟨p1, p2, p3⟩ := updatePath_spec eng st fuel symbol v _ vals vals1 hnd hpath
          have := ih vals1 vals' (done ++ [n]) (fun m hm => hnodes m (by simp [hm])) h ?_ ?_
          · rw [p1] at this; simpa using this
          · -- untouched parameters are not below n
            intro k hk m hm v' hv'
            by_cases hkd : k ∈ ho.ord (st.graph.descendants n)
            · obtain ⟨ex, _, he⟩ := p3 k hkd
              rw [he] at hk; cases hk
            · rw [p2 k hkd] at hk
              rcases List.mem_append.1 hm with hm | hm
              · exact h1 k hk m hm v' hv'
              · simp only [List.mem_singleton] at hm; subst hm
                intro ht
                apply hkd
                rw [hmem]
                refine ⟨ht, ?_⟩
                rintro rfl
                exact hg.acyclic _ ht
          · intro k e d hk hd
            by_cases hkd : k ∈ ho.ord (st.graph.descendants n)
            · obtain ⟨ex, hstart, he⟩ := p3 k hkd
              rw [he] at hk
              simp only [Option.some.injEq] at hk
              subst hk
              -- the expression substituted into
              have hex : law.eval ρ ex = some d ∧ ∀ s ∈ eng.free ex, ∃ m, st.symMap.get? m = some s ∧
                  m ∉ st.parz.keys ∧ Denotes eng law st m (ρ s) ∧
                  Relation.TransGen st.graph.Adj m k ∧ m ∉ done := by
                rcases hstart with hs | ⟨hs, hexp⟩
                · exact h2 k ex d hs hd
                · unfold getParametricExpression at hexp
                  split at hexp
                  · cases hexp
                  · rename_i ex0 ns0 hp0
                    simp only [if_true] at hexp
                    obtain ⟨a, b⟩ := expand_meaning law hg hρ hp0 hd hexp
                    refine ⟨a, ?_⟩
                    intro s hs'
                    obtain ⟨m, b1, b2, b3, b4⟩ := b s hs'
                    refine ⟨m, b1, b2, b3, b4, ?_⟩
                    intro hmd
                    obtain ⟨v', hv', _⟩ := Denotes.value_of_independent b3 b2
                    exact h1 k hs m hmd v' hv' b4
              -- the value substituted is the one n ought to have
              have hnd' : ∀ s ∈ eng.free ex, s = symbol → ρ s = law.ofPF v := by
                rintro s hs rfl
                obtain ⟨m, a1, a2, a3, _, _⟩ := hex.2 s hs
                have := hg.symInj _ _ _ a1 hsym
                subst this
                exact hρ m s _ a1 (Denotes.independent m v a2 hval)
              constructor
              · by_cases hs : symbol ∈ eng.free ex
                · apply law.eval_subs ρ ex symbol (eng.lit v) (law.ofPF v) d (law.eval_lit ρ v)
                  rw [← hnd' symbol hs rfl, Function.update_eq_self]
                  exact hex.1
                · rw [law.subs_of_not_free _ _ _ hs]; exact hex.1
              · intro s hs
                rcases law.free_subs ex symbol (eng.lit v) s hs with ⟨hs1, hs2⟩ | hs1
                · obtain ⟨m, a1, a2, a3, a4, a5⟩ := hex.2 s hs1
                  refine ⟨m, a1, a2, a3, a4, ?_⟩
                  rw [List.mem_append, not_or]
                  refine ⟨a5, ?_⟩
                  simp only [List.mem_singleton]
                  rintro rfl
                  rw [hsym] at a1; cases a1; exact hs2 rfl
                · rw [law.free_lit] at hs1; simp at hs1
            · rw [p2 k hkd] at hk
              obtain ⟨a, b⟩ := h2 k e d hk hd
              refine ⟨a, ?_⟩
              intro s hs
              obtain ⟨m, hm1, hm2, hm3, hm4, hm5⟩ := b s hs
              refine ⟨m, hm1, hm2, hm3, hm4, ?_⟩
              rw [List.mem_append, not_or]
              refine ⟨hm5, ?_⟩
              simp only [List.mem_singleton]
              rintro rfl
              apply hkd
              rw [hmem]
              refine ⟨hm4, ?_⟩
              rintro rfl
              exact hg.acyclic _ hm4

/-! ### Storing the results -/

theorem storeOne_get (eng : Engine E) (coll : Dict String Param) (kv : String × Option E) (k : String) :
    (storeOne eng coll kv).get? k =
      match coll.get? k with
      | none => none
      | some p =>
        if kv.1 = k then
          match kv.2.bind eng.toFloat with
          | none => some p
          | some f => some (p.setValue (.float f)).1
        else some p := by
  obtain ⟨n, e⟩ := kv
  unfold storeOne
  cases e with
  | none => cases coll.get? k <;> simp
  | some ex =>
    simp only [Option.bind_some]
    cases hf : eng.toFloat ex with
    | none => cases coll.get? k <;> simp
    | some f =>
      simp only
      cases hn : coll.get? n with
      | none =>
        by_cases hk : n = k
        · subst hk; simp [hn]
        · cases coll.get? k <;> simp [hk]
      | some p =>
        simp only [Dict.get?_set]
        by_cases hk : n = k
        · subst hk; simp [hn]
        · cases coll.get? k <;> simp [hk]

theorem foldl_storeOne_get (eng : Engine E) : ∀ (vals : Dict String (Option E)) (coll : Dict String Param)
    (k : String), vals.keys.Nodup →
    (vals.foldl (storeOne eng) coll).get? k =
      match coll.get? k with
      | none => none
      | some p =>
        match (vals.get? k).bind (fun e => e.bind eng.toFloat) with
        | none => some p
        | some f => some (p.setValue (.float f)).1 := by
  intro vals
  induction vals with
  | nil => intro coll k _; cases h : coll.get? k <;> simp [h]
  | cons kv vals ih =>
    intro coll k hnd
    obtain ⟨n, e⟩ := kv
    simp only [Dict.keys, List.map_cons, List.nodup_cons] at hnd
    rw [List.foldl_cons, ih _ _ hnd.2, storeOne_get]
    cases hc : coll.get? k with
    | none => simp
    | some p =>
      simp only [Dict.get?_cons]
      by_cases hk : n = k
      · subst hk
        have hnone : Dict.get? vals n = none := by
          rw [Dict.get?_eq_none_iff]; exact hnd.1
        simp only [if_true, hnone, Option.bind_none, Option.bind_some]
        cases e.bind eng.toFloat <;> simp
      · simp only [hk, if_false]

theorem keys_map_none (l : List String) :
    Dict.keys (l.map (fun n => (n, (none : Option E)))) = l := by
  simp [Dict.keys, Function.comp_def]

theorem get?_map_none (l : List String) (k : String) :
    Dict.get? (l.map (fun n => (n, (none : Option E)))) k = if k ∈ l then some none else none := by
  induction l with
  | nil => simp
  | cons n l ih =>
    simp only [List.map_cons, Dict.get?_cons, ih, List.mem_cons]
    by_cases h : n = k
    · subst h; simp
    · have : ¬ k = n := fun e => h e.symm
      simp [h, this]

/-- What a successful update does to one parameter. -/
theorem update_ok {eng : Engine E} (law : eng.Lawful D) (ho : HashOrder) {st : PC E} (hg : st.Good eng)
    (fuel : ℕ) (hok : (updateParameterisations eng ho fuel st).2 = .ok ()) :
    (∀ k, ¬ Parametric st k →
      (updateParameterisations eng ho fuel st).1.coll.get? k = st.coll.get? k) ∧
    (∀ k p, st.coll.get? k = some p →
      (updateParameterisations eng ho fuel st).1.coll.get? k = some p ∨
      ∃ f, (updateParameterisations eng ho fuel st).1.coll.get? k = some (p.setValue (.float f)).1) ∧
    (∀ k d p i, Denotes eng law st k d → st.coll.get? k = some p → Parametric st k →
      ¬ Parametric st i → Relation.TransGen (Mentions eng st) k i →
      (updateParameterisations eng ho fuel st).1.coll.get? k =
        match law.toPF d with
        | none => some p
        | some f => some (p.setValue (.float f)).1) := by
  obtain ⟨ρ, hρ⟩ := exists_valuation law hg
  unfold updateParameterisations at hok ⊢
  simp only at hok ⊢
  set indep := (ho.ord st.graph.nodes).filter (fun n => decide (st.graph.inDegree n = 0)) with hindep
  set dep := ho.ord (st.graph.nodes.filter (fun n => decide (st.graph.inDegree n ≠ 0))) with hdep
  cases hvals : updatePaths eng ho st fuel indep (dep.map (fun n => (n, none))) with
  | error e => rw [hvals] at hok; simp at hok
  | ok vals =>
    simp only
    have hdnd : dep.Nodup := (ho.perm _).nodup_iff.2 (hg.wf.nodup.filter _)
    have hmemdep : ∀ k, k ∈ dep ↔ ∃ a, st.graph.Adj a k := by
      intro k
      rw [hdep, (ho.perm _).mem_iff, List.mem_filter]
      simp only [decide_eq_true_eq, ne_eq]
      rw [DiGraph.inDegree_eq_zero_iff]
      push Not
      constructor
      · rintro ⟨_, h⟩; exact h
      · rintro ⟨a, h⟩; exact ⟨hg.wf.tgt a k h, a, h⟩
    have hmemindep : ∀ k, k ∈ indep ↔ k ∈ st.graph.nodes ∧ ∀ a, ¬ st.graph.Adj a k := by
      intro k
      rw [hindep, List.mem_filter, (ho.perm _).mem_iff]
      simp only [decide_eq_true_eq]
      rw [DiGraph.inDegree_eq_zero_iff]
    obtain ⟨s1, s2, s3⟩ := updatePaths_spec law ho hg fuel hρ indep _ vals []
      (fun n hn => ((hmemindep n).1 hn).1) hvals (by simp) (by
        intro k e d hk
        rw [get?_map_none] at hk
        split_ifs at hk <;> simp at hk)
    rw [keys_map_none] at s1
    have hvnd : vals.keys.Nodup := by rw [s1]; exact hdnd
    refine ⟨?_, ?_, ?_⟩
    · intro k hk
      rw [foldl_storeOne_get eng _ _ _ hvnd]
      have : k ∉ vals.keys := by
        rw [s1, hmemdep]
        rintro ⟨a, ha⟩
        obtain ⟨ex, ns, h1, _⟩ := hg.edgesRecorded a k ha
        exact hk (Dict.mem_keys_of_get? h1)
      rw [(Dict.get?_eq_none_iff _ _).2 this]
      cases st.coll.get? k <;> simp
    · intro k p hp
      rw [foldl_storeOne_get eng _ _ _ hvnd, hp]
      simp only
      cases (vals.get? k).bind (fun e => e.bind eng.toFloat) with
      | none => exact Or.inl rfl
      | some f => exact Or.inr ⟨f, rfl⟩
    · intro k d p i hd hp hk hi hment
      rw [foldl_storeOne_get eng _ _ _ hvnd, hp]
      simp only
      -- mentioning implies a recorded dependency, and the mentioned parameter denotes something
      have hmadj : ∀ a b, Mentions eng st a b → st.graph.Adj b a := by
        rintro a b ⟨ex, s, h1, h2, h3⟩
        obtain ⟨ns, h4⟩ := getExpr_iff.1 h1
        obtain ⟨m, hm, hms⟩ := hg.parzSyms a ex ns h4 s h3
        have := hg.symInj _ _ _ hms (getSymbol_iff.1 h2)
        subst this
        exact hg.recorded a ex ns h4 m hm
      have hmden : ∀ a b d, Mentions eng st a b → Denotes eng law st a d → ∃ d', Denotes eng law st b d' := by
        rintro a b d ⟨ex, s, h1, h2, h3⟩ hd
        obtain ⟨ns, h4⟩ := getExpr_iff.1 h1
        obtain ⟨m, hm, hms, hmd⟩ := (Denotes_symbols hg hd h4 hρ).2 s h3
        have := hg.symInj _ _ _ hms (getSymbol_iff.1 h2)
        subst this
        exact ⟨_, hmd⟩
      have hpath : Relation.TransGen st.graph.Adj i k ∧ ∃ d', Denotes eng law st i d' := by
        clear hi
        induction hment with
        | single h => exact ⟨Relation.TransGen.single (hmadj _ _ h), hmden _ _ _ h hd⟩
        | tail h1 h2 ih =>
          obtain ⟨t, d', hd'⟩ := ih
          exact ⟨Relation.TransGen.head (hmadj _ _ h2) t, hmden _ _ _ h2 hd'⟩
      obtain ⟨hik, di, hdi⟩ := hpath
      obtain ⟨v, hv⟩ : ∃ v, st.getParameterValue i = .ok (some v) := by
        cases hdi with
        | independent _ v _ hv => exact ⟨v, hv⟩
        | parametric _ ex _ _ _ hex _ _ _ =>
          obtain ⟨ns', hns'⟩ := getExpr_iff.1 hex
          exact absurd (Dict.mem_keys_of_get? hns') hi
      -- i is among the independent nodes
      have hnoin : ∀ m, ¬ Parametric st m → ∀ a, ¬ st.graph.Adj a m := by
        intro m hm a ha
        obtain ⟨ex, ns, h1, _⟩ := hg.edgesRecorded a m ha
        exact hm (Dict.mem_keys_of_get? h1)
      have hinode : ∀ m, (∃ b, st.graph.Adj m b) → m ∈ st.graph.nodes := fun m ⟨b, hb⟩ => hg.wf.src m b hb
      have hsrc : ∀ m, Relation.TransGen st.graph.Adj m k → m ∈ st.graph.nodes := by
        intro m hm
        obtain ⟨b, hb, _⟩ := Relation.TransGen.head'_iff.1 hm
        exact hg.wf.src m b hb
      have hii : i ∈ indep := (hmemindep i).2 ⟨hsrc i hik, hnoin i hi⟩
      -- k has been given an expression
      have hkdep : k ∈ vals.keys := by
        rw [s1, hmemdep]
        obtain ⟨b, _, hb⟩ := Relation.TransGen.tail'_iff.1 hik
        exact ⟨b, hb⟩
      rw [Dict.mem_keys_iff, Option.isSome_iff_exists] at hkdep
      obtain ⟨o, ho'⟩ := hkdep
      cases o with
      | none => exact absurd hik (s2 k ho' i (by simpa using hii) v hv)
      | some e =>
        obtain ⟨t1, t2⟩ := s3 k e d ho' hd
        -- no symbol is left
        have hclosed : eng.free e = [] := by
          rw [List.eq_nil_iff_forall_not_mem]
          intro s hs
          obtain ⟨m, a1, a2, a3, a4, a5⟩ := t2 s hs
          apply a5
          simp only [List.nil_append]
          exact (hmemindep m).2 ⟨hsrc m a4, hnoin m a2⟩
        rw [ho']
        simp only [Option.bind_some]
        rw [law.toFloat_closed ρ e d hclosed t1]

/-! ### The update succeeds -/

theorem getParametricExpression_total {eng : Engine E} (law : eng.Lawful D) {st : PC E} (hg : st.Good eng) :
    ∃ N, ∀ fuel, N ≤ fuel → ∀ k, Parametric st k →
      ∃ e, st.getParametricExpression eng fuel k true = .ok e := by
  -- take the maximum over the finitely many parametric names
  have : ∀ l : List String, (∀ k ∈ l, Parametric st k) → ∃ N, ∀ fuel, N ≤ fuel → ∀ k ∈ l,
      ∃ e, st.getParametricExpression eng fuel k true = .ok e := by
    intro l
    induction l with
    | nil => intro _; exact ⟨0, by simp⟩
    | cons k l ih =>
      intro h
      obtain ⟨N1, h1⟩ := ih (fun m hm => h m (by simp [hm]))
      obtain ⟨ex, ns, hp⟩ := parametric_iff_get.1 (h k (by simp))
      obtain ⟨N2, h2⟩ := expandLoop_total law hg ex (by
        intro s hs; obtain ⟨m, _, hm⟩ := hg.parzSyms k ex ns hp s hs; exact ⟨m, hm⟩)
      refine ⟨max N1 N2, fun fuel hf m hm => ?_⟩
      rcases List.mem_cons.1 hm with rfl | hm
      · obtain ⟨e, he⟩ := h2 fuel (le_trans (le_max_right _ _) hf)
        exact ⟨e, by unfold getParametricExpression; rw [hp]; simpa using he⟩
      · exact h1 fuel (le_trans (le_max_left _ _) hf) m hm
  obtain ⟨N, hN⟩ := this st.parz.keys (fun k hk => hk)
  exact ⟨N, fun fuel hf k hk => hN fuel hf k hk⟩

theorem updatePath_total {eng : Engine E} {st : PC E} (fuel : ℕ)
    (hexp : ∀ k, Parametric st k → ∃ e, st.getParametricExpression eng fuel k true = .ok e)
    (symbol : Sym) (v : PF) : ∀ (ds : List String) (vals : Dict String (Option E)),
    (∀ k ∈ ds, k ∈ vals.keys ∧ Parametric st k) →
    ∃ vals', updatePath eng st fuel symbol v ds vals = .ok vals' ∧ vals'.keys = vals.keys := by
  intro ds
  induction ds with
  | nil => intro vals _; exact ⟨vals, rfl, rfl⟩
  | cons d ds ih =>
    intro vals h
    obtain ⟨hd, hdp⟩ := h d (by simp)
    have cont : ∀ ex, ∃ vals', updatePath eng st fuel symbol v ds
        (vals.set d (some (eng.subs ex symbol (eng.lit v)))) = .ok vals' ∧ vals'.keys = vals.keys := by
      intro ex
      obtain ⟨vals', h1, h2⟩ := ih (vals.set d (some (eng.subs ex symbol (eng.lit v)))) (by
        intro k hk
        rw [Dict.keys_set_of_mem _ hd]
        exact h k (by simp [hk]))
      exact ⟨vals', h1, by rw [h2, Dict.keys_set_of_mem _ hd]⟩
    unfold updatePath
    rw [Dict.mem_keys_iff, Option.isSome_iff_exists] at hd
    obtain ⟨o, ho⟩ := hd
    rw [ho]
    cases o with
    | none =>
      obtain ⟨e, he⟩ := hexp d hdp
      simp only [he]
      exact cont e
    | some ex => exact cont ex

theorem update_total {eng : Engine E} (law : eng.Lawful D) {st : PC E} (hg : st.Good eng) :
    ∃ N, ∀ fuel, N ≤ fuel → ∀ (ho : HashOrder) (st' : PC E), st'.symMap = st.symMap → st'.parz = st.parz →
      st'.graph = st.graph → st'.coll.keys = st.coll.keys →
      (updateParameterisations eng ho fuel st').2 = .ok () := by
  obtain ⟨N, hN⟩ := getParametricExpression_total law hg
  refine ⟨N, fun fuel hf ho st' e1 e2 e3 e4 => ?_⟩
  have hg' := hg.of_coll e1 e2 e3 e4
  have hexp : ∀ k, Parametric st' k → ∃ e, st'.getParametricExpression eng fuel k true = .ok e := by
    intro k hk
    have hk' : Parametric st k := by
      unfold Parametric getParametricParametersList at hk ⊢; rwa [e2] at hk
    obtain ⟨e, he⟩ := hN fuel hf k hk'
    refine ⟨e, ?_⟩
    -- the expansion only looks at the symbols and the parameterisations
    have hfs : ∀ s, st'.getParameterFromSymbol s = st.getParameterFromSymbol s := by
      intro s; unfold getParameterFromSymbol; rw [e1]
    have hep : ∀ l, st'.exprParametric l = st.exprParametric l := by
      intro l; induction l with
      | nil => rfl
      | cons s ss ih => unfold exprParametric; rw [hfs, ih, e2]
    have hef : ∀ base l acc, expandFor eng st' base l acc = expandFor eng st base l acc := by
      intro base l; induction l with
      | nil => intro acc; rfl
      | cons s ss ih => intro acc; unfold expandFor; simp only [hfs, ih, e2]
    have hel : ∀ n base, expandLoop eng st' n base = expandLoop eng st n base := by
      intro n; induction n with
      | zero => intro base; rfl
      | succ n ih => intro base; unfold expandLoop; simp only [hep, hef, ih]
    rw [← he]; unfold getParametricExpression; simp only [hel, e2]
  have hpaths : ∀ (ns : List String) (vals : Dict String (Option E)),
      (∀ n ∈ ns, n ∈ st'.graph.nodes) → (∀ k a, st'.graph.Adj a k → k ∈ vals.keys) →
      ∃ vals', updatePaths eng ho st' fuel ns vals = .ok vals' := by
    intro ns
    induction ns with
    | nil => intro vals _ _; exact ⟨vals, rfl⟩
    | cons n ns ih =>
      intro vals hn hv
      have hnc : n ∈ st'.coll.keys := (hg'.nodesColl n).1 (hn n (by simp))
      have hns : n ∈ st'.symMap.keys := (hg'.sameKeys n).2 hnc
      rw [Dict.mem_keys_iff, Option.isSome_iff_exists] at hnc hns
      obtain ⟨p, hp⟩ := hnc
      obtain ⟨s, hs⟩ := hns
      unfold updatePaths
      rw [getSymbol_iff.2 hs, getValue_iff.2 ⟨p, hp, rfl⟩]
      simp only
      cases hpv : p.value with
      | none => exact ih vals (fun m hm => hn m (by simp [hm])) hv
      | some v =>
        simp only
        obtain ⟨vals1, h1, h2⟩ := updatePath_total fuel hexp s v (ho.ord (st'.graph.descendants n)) vals (by
          intro k hk
          rw [(ho.perm _).mem_iff, DiGraph.mem_descendants _ hg'.wf n (hn n (by simp))] at hk
          obtain ⟨b, _, hb⟩ := Relation.TransGen.tail'_iff.1 hk.1
          refine ⟨hv k b hb, ?_⟩
          obtain ⟨ex, ns', h1, _⟩ := hg'.edgesRecorded b k hb
          exact Dict.mem_keys_of_get? h1)
        rw [h1]
        exact ih vals1 (fun m hm => hn m (by simp [hm])) (fun k a hka => by rw [h2]; exact hv k a hka)
  unfold updateParameterisations
  simp only
  obtain ⟨vals', hvals'⟩ := hpaths
    ((ho.ord st'.graph.nodes).filter (fun n => decide (st'.graph.inDegree n = 0)))
    ((ho.ord (st'.graph.nodes.filter (fun n => decide (st'.graph.inDegree n ≠ 0)))).map (fun n => (n, none)))
    (by
      intro n hn
      rw [List.mem_filter, (ho.perm _).mem_iff] at hn
      exact hn.1)
    (by
      intro k a hka
      rw [keys_map_none, (ho.perm _).mem_iff, List.mem_filter]
      refine ⟨hg'.wf.tgt a k hka, ?_⟩
      simp only [decide_eq_true_eq, ne_eq]
      rw [DiGraph.inDegree_eq_zero_iff]
      push Not
      exact ⟨a, hka⟩)
  rw [hvals']

end PC

end Verif

namespace Verif.PC

open Verif.Spec

variable {E D : Type}

/-- The meaning of a parameter depends only on symbols, parameterisations and independent values. -/
theorem Denotes.congr {eng : Engine E} {law : eng.Lawful D} {st st' : PC E} (h1 : st'.symMap = st.symMap)
    (h2 : st'.parz = st.parz)
    (h3 : ∀ m, ¬ Parametric st m → st'.getParameterValue m = st.getParameterValue m)
    {n : String} {d : D} (h : Denotes eng law st n d) : Denotes eng law st' n d := by
  induction h with
  | independent name v hnp hv =>
    refine Denotes.independent name v ?_ ?_
    · unfold Parametric getParametricParametersList at hnp ⊢; rwa [h2]
    · rw [h3 name hnp]; exact hv
  | parametric name ex ρ owner d hex how hden hev ih =>
    refine Denotes.parametric name ex ρ owner d ?_ ?_ ih hev
    · rw [getExpr_iff] at hex ⊢; rwa [h2]
    · intro s hs
      have := how s hs
      rw [getSymbol_iff] at this ⊢; rwa [h1]

theorem expandLoop_congr (eng : Engine E) {st st' : PC E} (e1 : st'.symMap = st.symMap) (e2 : st'.parz = st.parz) :
    ∀ n base, expandLoop eng st' n base = expandLoop eng st n base := by
  have hfs : ∀ s, st'.getParameterFromSymbol s = st.getParameterFromSymbol s := by
    intro s; unfold getParameterFromSymbol; rw [e1]
  have hep : ∀ l, st'.exprParametric l = st.exprParametric l := by
    intro l; induction l with
    | nil => rfl
    | cons s ss ih => unfold exprParametric; rw [hfs, ih, e2]
  have hef : ∀ base l acc, expandFor eng st' base l acc = expandFor eng st base l acc := by
    intro base l; induction l with
    | nil => intro acc; rfl
    | cons s ss ih => intro acc; unfold expandFor; simp only [hfs, ih, e2]
  intro n; induction n with
  | zero => intro base; rfl
  | succ n ih => intro base; unfold expandLoop; simp only [hep, hef, ih]

theorem expandLoop_mono (eng : Engine E) (st : PC E) : ∀ n base e, expandLoop eng st n base = .ok e →
    ∀ m, n ≤ m → expandLoop eng st m base = .ok e := by
  intro n
  induction n with
  | zero => intro base e h; simp [expandLoop] at h
  | succ n ih =>
    intro base e h m hm
    obtain ⟨m, rfl⟩ : ∃ k, m = k + 1 := ⟨m - 1, by omega⟩
    unfold expandLoop at h ⊢
    split at h
    · cases h
    · exact h
    · split at h
      · cases h
      · exact ih _ _ h m (by omega)

/-- Updating never stores into a parameter that has no parameterisation, in any state whatsoever, and
only ever replaces values. -/
theorem updatePath_parz (eng : Engine E) (st : PC E) (fuel : ℕ) (symbol : Sym) (v : PF) :
    ∀ (ds : List String) (vals vals' : Dict String (Option E)),
    updatePath eng st fuel symbol v ds vals = .ok vals' →
    (∀ k e, vals.get? k = some (some e) → k ∈ st.parz.keys) →
    (∀ k e, vals'.get? k = some (some e) → k ∈ st.parz.keys) := by
  intro ds
  induction ds with
  | nil => intro vals vals' h h1; simp [updatePath] at h; subst h; exact h1
  | cons d ds ih =>
    intro vals vals' h h1
    unfold updatePath at h
    split at h
    · cases h
    · split at h
      · cases h
      · rename_i ex hex
        refine ih _ _ h ?_
        intro k e hk
        rw [Dict.get?_set] at hk
        split_ifs at hk with hkd
        · subst hkd
          unfold getParametricExpression at hex
          split at hex
          · cases hex
          · rename_i hp; exact Dict.mem_keys_of_get? hp
        · exact h1 k e hk
    · rename_i ex hd
      refine ih _ _ h ?_
      intro k e hk
      rw [Dict.get?_set] at hk
      split_ifs at hk with hkd
      · subst hkd; exact h1 _ _ hd
      · exact h1 k e hk

theorem updatePaths_parz (eng : Engine E) (ho : HashOrder) (st : PC E) (fuel : ℕ) :
    ∀ (ns : List String) (vals vals' : Dict String (Option E)),
    updatePaths eng ho st fuel ns vals = .ok vals' →
    (∀ k e, vals.get? k = some (some e) → k ∈ st.parz.keys) →
    (∀ k e, vals'.get? k = some (some e) → k ∈ st.parz.keys) := by
  intro ns
  induction ns with
  | nil => intro vals vals' h h1; simp [updatePaths] at h; subst h; exact h1
  | cons n ns ih =>
    intro vals vals' h h1
    unfold updatePaths at h
    split at h
    · cases h
    · split at h
      · cases h
      · exact ih _ _ h h1
      · split at h
        · cases h
        · rename_i vals1 hp
          exact ih _ _ h (updatePath_parz eng st fuel _ _ _ _ _ hp h1)

/-- Every independent node had a symbol when the update succeeded. -/
theorem updatePaths_ok_symbols (eng : Engine E) (ho : HashOrder) (st : PC E) (fuel : ℕ) :
    ∀ (ns : List String) (vals vals' : Dict String (Option E)),
    updatePaths eng ho st fuel ns vals = .ok vals' → ∀ n ∈ ns, ∃ s, st.symMap.get? n = some s := by
  intro ns
  induction ns with
  | nil => intro vals vals' h; simp
  | cons n ns ih =>
    intro vals vals' h
    unfold updatePaths at h
    split at h
    · cases h
    · rename_i s hs
      rw [getSymbol_iff] at hs
      have : ∀ m ∈ ns, ∃ s, st.symMap.get? m = some s := by
        split at h
        · cases h
        · exact ih _ _ h
        · split at h
          · cases h
          · exact ih _ _ h
      intro m hm
      rcases List.mem_cons.1 hm with rfl | hm
      · exact ⟨s, hs⟩
      · exact this m hm

theorem setValue_frame (p : Param) (v : PyVal) :
    (p.setValue v).1 = p ∨ ∃ f, (p.setValue v).1 = { p with value := some f } := by
  unfold Param.setValue
  split
  · exact Or.inl rfl
  · split_ifs
    · exact Or.inl rfl
    · exact Or.inl rfl
    · exact Or.inr ⟨_, rfl⟩

theorem foldl_storeOne_frame (eng : Engine E) : ∀ (vals : Dict String (Option E)) (coll : Dict String Param)
    (k : String) (p : Param), coll.get? k = some p →
    ∃ p', (vals.foldl (storeOne eng) coll).get? k = some p' ∧ (p' = p ∨ ∃ f, p' = { p with value := some f }) ∧
      ((∀ e, (k, some e) ∉ vals) → p' = p) := by
  intro vals
  induction vals with
  | nil => intro coll k p hp; exact ⟨p, by simpa using hp, Or.inl rfl, fun _ => rfl⟩
  | cons kv vals ih =>
    intro coll k p hp
    obtain ⟨n, e⟩ := kv
    have h1 : ∃ p1, (storeOne eng coll (n, e)).get? k = some p1 ∧
        (p1 = p ∨ ∃ f, p1 = { p with value := some f }) ∧ ((∀ e', (n, e) ≠ (k, some e')) → p1 = p) := by
      rw [storeOne_get, hp]
      simp only
      split_ifs with hk
      · subst hk
        cases e with
        | none => exact ⟨p, by simp, Or.inl rfl, fun _ => rfl⟩
        | some ex =>
          simp only [Option.bind_some]
          cases eng.toFloat ex with
          | none => exact ⟨p, rfl, Or.inl rfl, fun _ => rfl⟩
          | some f => exact ⟨_, rfl, setValue_frame p _, fun h => absurd rfl (h ex)⟩
      · exact ⟨p, rfl, Or.inl rfl, fun _ => rfl⟩
    obtain ⟨p1, h1, h2, h3⟩ := h1
    obtain ⟨p', i1, i2, i3⟩ := ih _ k p1 h1
    refine ⟨p', by rw [List.foldl_cons]; exact i1, ?_, ?_⟩
    · rcases h2 with rfl | ⟨f, rfl⟩
      · exact i2
      · rcases i2 with rfl | ⟨g, rfl⟩
        · exact Or.inr ⟨f, rfl⟩
        · exact Or.inr ⟨g, rfl⟩
    · intro hne
      rw [i3 (fun e' he' => hne e' (List.mem_cons_of_mem _ he'))]
      exact h3 (fun e' he' => hne e' (by rw [he']; exact List.mem_cons_self))

/-- The effect of an update on one parameter, in any state whose dependency graph is well formed. -/
theorem update_param_frame (eng : Engine E) (ho : HashOrder) (fuel : ℕ) (st : PC E) (hw : st.graph.WF)
    (k : String) (p : Param) (hp : st.coll.get? k = some p) :
    ∃ p', (updateParameterisations eng ho fuel st).1.coll.get? k = some p' ∧
      (p' = p ∨ ∃ f, p' = { p with value := some f }) ∧ (¬ Parametric st k → p' = p) := by
  unfold updateParameterisations
  simp only
  split
  · exact ⟨p, hp, Or.inl rfl, fun _ => rfl⟩
  · rename_i vals hvals
    obtain ⟨p', h1, h2, h3⟩ := foldl_storeOne_frame eng vals st.coll k p hp
    refine ⟨p', h1, h2, ?_⟩
    intro hk
    apply h3
    intro e he
    -- keys of the table are the dependent nodes, without repetition
    have hkeys : ∀ (ns : List String) (v v' : Dict String (Option E)),
        updatePaths eng ho st fuel ns v = .ok v' → v'.keys = v.keys := by
      have hpath : ∀ (s : Sym) (f : PF) (ds : List String) (v v' : Dict String (Option E)),
          updatePath eng st fuel s f ds v = .ok v' → v'.keys = v.keys := by
        intro s f ds
        induction ds with
        | nil => intro v v' h; simp [updatePath] at h; subst h; rfl
        | cons d ds ih =>
          intro v v' h
          unfold updatePath at h
          split at h
          · cases h
          · rename_i hd
            split at h
            · cases h
            · rw [ih _ _ h, Dict.keys_set_of_mem _ (Dict.mem_keys_of_get? hd)]
          · rename_i ex hd
            rw [ih _ _ h, Dict.keys_set_of_mem _ (Dict.mem_keys_of_get? hd)]
      intro ns
      induction ns with
      | nil => intro v v' h; simp [updatePaths] at h; subst h; rfl
      | cons n ns ih =>
        intro v v' h
        unfold updatePaths at h
        split at h
        · cases h
        · split at h
          · cases h
          · exact ih _ _ h
          · split at h
            · cases h
            · rename_i v1 h1
              rw [ih _ _ h, hpath _ _ _ _ _ h1]
    have hnd : vals.keys.Nodup := by
      rw [hkeys _ _ _ hvals, keys_map_none]
      exact (ho.perm _).nodup_iff.2 (hw.nodup.filter _)
    refine hk ?_
    refine updatePaths_parz eng ho st fuel _ _ _ hvals ?_ k e (Dict.get?_of_mem hnd he)
    intro k e hk'
    rw [get?_map_none] at hk'
    split_ifs at hk'
    simp at hk'

end Verif.PC
