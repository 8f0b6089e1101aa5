import Verif.Lemmas.Sweep
import Verif.Props.Collection2

/-!
# Lemmas on the sweep / non-sweep dictionaries
-/

namespace Verif

open Verif.Spec Verif.PC Verif.Props

variable {E R D : Type}

/-- What a successful `getSymbolValues` contains. -/
theorem getSymbolValues_ok {st : PC E} 
    (hinj : ∀ a b s, st.symMap.get? a = some s → st.symMap.get? b = some s → a = b)
    (hsame : ∀ n, n ∈ st.symMap.keys ↔ n ∈ st.coll.keys)
    (l : List String) (hl : ∀ n ∈ l, n ∈ st.coll.keys) :
    ∃ d, st.getSymbolValues l = .ok d ∧ d.keys.Nodup ∧
      ∀ s v, d.get? s = some v ↔ ∃ n ∈ l, st.getSymbol n = .ok s ∧ st.getParameterValue n = .ok v := by
  have key : ∀ (l : List String) (d₀ : Dict Sym (Option PF)), (∀ n ∈ l, n ∈ st.coll.keys) →
      d₀.keys.Nodup → ∃ d, l.foldlM (fun d n =>
        match st.coll.get? n with
        | none => Except.error Err.valueError
        | some p =>
          match st.symMap.get? n with
          | none => .error .keyError
          | some s => .ok (Dict.set d s p.getValue)) d₀ = Except.ok d ∧ d.keys.Nodup ∧
      ∀ s v, d.get? s = some v ↔ (∃ n ∈ l, st.getSymbol n = .ok s ∧ st.getParameterValue n = .ok v) ∨
        ((∀ n ∈ l, st.getSymbol n ≠ .ok s) ∧ d₀.get? s = some v) := by
    intro l
    induction l with
    | nil => intro d₀ _ hd; exact ⟨d₀, rfl, hd, by simp⟩
    | cons n l ih =>
      intro d₀ hl hd
      have hn := hl n (by simp)
      obtain ⟨p, hp⟩ := Option.isSome_iff_exists.1 ((Dict.mem_keys_iff _ _).1 hn)
      obtain ⟨s₀, hs₀⟩ := Option.isSome_iff_exists.1 ((Dict.mem_keys_iff _ _).1 ((hsame n).2 hn))
      obtain ⟨d, h1, h2, h3⟩ := ih (d₀.set s₀ p.getValue) (fun m hm => hl m (by simp [hm]))
        (Dict.nodup_keys_set hd _ _)
      refine ⟨d, ?_, h2, ?_⟩
      · simp only [List.foldlM_cons, hp, hs₀]; exact h1
      · have hval : st.getParameterValue n = .ok p.getValue := by unfold getParameterValue; rw [hp]
        have hsy : st.getSymbol n = .ok s₀ := getSymbol_iff.2 hs₀
        intro s v
        rw [h3]
        constructor
        · rintro (⟨m, hm, a, b⟩ | ⟨a, b⟩)
          · exact Or.inl ⟨m, by simp [hm], a, b⟩
          · rw [Dict.get?_set] at b
            split_ifs at b with he
            · subst he; cases b
              exact Or.inl ⟨n, by simp, hsy, hval⟩
            · refine Or.inr ⟨?_, b⟩
              intro m hm
              rcases List.mem_cons.1 hm with rfl | hm
              · rw [hsy]; intro e; cases e; exact he rfl
              · exact a m hm
        · rintro (⟨m, hm, a, b⟩ | ⟨a, b⟩)
          · by_cases hex : ∃ m' ∈ l, st.getSymbol m' = .ok s
            · obtain ⟨m', hm', hs'⟩ := hex
              have := hinj m m' s (getSymbol_iff.1 a) (getSymbol_iff.1 hs')
              subst this
              exact Or.inl ⟨m, hm', a, b⟩
            · push Not at hex
              refine Or.inr ⟨hex, ?_⟩
              rcases List.mem_cons.1 hm with rfl | hm
              · rw [hsy] at a; cases a
                rw [hval] at b; cases b
                simp
              · exact absurd a (hex m hm)
          · refine Or.inr ⟨fun m hm => a m (by simp [hm]), ?_⟩
            have := a n (by simp)
            rw [hsy] at this
            rw [Dict.get?_set_ne _ _ (fun e => this (by rw [e]))]
            exact b
  obtain ⟨d, h1, h2, h3⟩ := key l [] hl (by simp [Dict.keys])
  exact ⟨d, h1, h2, by intro s v; rw [h3]; simp⟩

/-- `getSymbolValuesDict` is `getSymbolValues` over all names. -/
theorem getSymbolValuesDict_eq {st : PC E} (hn : st.coll.keys.Nodup) :
    st.getSymbolValuesDict = st.getSymbolValues st.coll.keys := by
  unfold getSymbolValuesDict getSymbolValues
  have key : ∀ (l : Dict String Param) (d₀ : Dict Sym (Option PF)),
      (∀ kv ∈ l, st.coll.get? kv.1 = some kv.2) →
      l.foldlM (fun d kv =>
        match st.symMap.get? kv.1 with
        | none => Except.error Err.keyError
        | some s => .ok (Dict.set d s kv.2.getValue)) d₀ =
      l.keys.foldlM (fun d n =>
        match st.coll.get? n with
        | none => Except.error Err.valueError
        | some p =>
          match st.symMap.get? n with
          | none => .error .keyError
          | some s => .ok (Dict.set d s p.getValue)) d₀ := by
    intro l
    induction l with
    | nil => intro d₀ _; rfl
    | cons kv l ih =>
      intro d₀ h
      have h1 := h kv (by simp)
      simp only [Dict.keys, List.map_cons, List.foldlM_cons, h1]
      cases st.symMap.get? kv.1 with
      | none => rfl
      | some s => exact ih _ (fun x hx => h x (by simp [hx]))
  exact key st.coll [] (fun kv hkv => Dict.get?_of_mem hn hkv)

/-- Substituting numbers for all the free symbols, whatever the order and the grouping. -/
theorem subsDict_free {eng : Engine E} (law : eng.Lawful D) (d : Dict Sym (Option PF)) (e : E) (x : Sym)
    (h : x ∈ eng.free (subsDict eng e d)) : x ∈ eng.free e ∧ ∀ v, (x, some v) ∉ d := by
  induction d generalizing e with
  | nil => exact ⟨h, by simp⟩
  | cons p d ih =>
    obtain ⟨s, v⟩ := p
    unfold subsDict at h ih
    simp only [List.foldl_cons] at h
    cases v with
    | none =>
      obtain ⟨a, b⟩ := ih _ h
      exact ⟨a, by intro v hv; rcases List.mem_cons.1 hv with hv | hv; · cases hv
                   · exact b v hv⟩
    | some w =>
      obtain ⟨a, b⟩ := ih _ h
      rcases law.free_subs _ _ _ _ a with ⟨a1, a2⟩ | a
      · refine ⟨a1, ?_⟩
        intro v hv
        rcases List.mem_cons.1 hv with hv | hv
        · cases hv; exact a2 rfl
        · exact b v hv
      · rw [law.free_lit] at a; simp at a

theorem subsDict_eval {eng : Engine E} (law : eng.Lawful D) (ρ : Sym → D) (d : Dict Sym (Option PF)) (e : E)
    (x : D) (hρ : ∀ s v, (s, some v) ∈ d → ρ s = law.ofPF v) (h : law.eval ρ e = some x) :
    law.eval ρ (subsDict eng e d) = some x := by
  induction d generalizing e with
  | nil => exact h
  | cons p d ih =>
    obtain ⟨s, v⟩ := p
    unfold subsDict at ih ⊢
    simp only [List.foldl_cons]
    have hd : ∀ s v, (s, some v) ∈ d → ρ s = law.ofPF v := fun s v hv => hρ s v (by simp [hv])
    cases v with
    | none => exact ih _ hd h
    | some w =>
      refine ih _ hd (law.eval_subs ρ e s _ (law.ofPF w) x (law.eval_lit _ _) ?_)
      have : Function.update ρ s (law.ofPF w) = ρ := by
        rw [← hρ s w (by simp)]; exact Function.update_eq_self s ρ
      rw [this]; exact h

/-- The names `getSweepParametersDict` reports. -/
theorem notForPresub_ok {eng : Engine E} (law : eng.Lawful D) {pc : PC E} (hg : pc.Good eng)
    (hr : Reachable eng pc) (ks : List String)
    (hks : ∀ k ∈ ks, pc.coll.get? k ≠ none ∧ ¬ Parametric pc k) :
    ∃ l, SW.notForPresub pc ks = .ok l ∧
      ∀ n, n ∈ l ↔ Affected pc ks n := by
  unfold Affected
  induction ks with
  | nil => exact ⟨[], rfl, by simp⟩
  | cons k ks ih =>
    obtain ⟨l, hl, hmem⟩ := ih (fun m hm => hks m (by simp [hm]))
    obtain ⟨ps, h1, _, h3⟩ := C12_direct_dependents_partial eng law.free_nodup pc hr [k]
      (by intro n hn; simp only [List.mem_singleton] at hn; subst hn; exact hks n (by simp))
    simp only [List.mem_singleton, exists_eq_left] at h3
    have hps : ∀ p ∈ ps, p ∈ pc.graph.nodes := by
      intro p hp
      obtain ⟨ex, ns, h, _⟩ := dependsOn_iff.1 ((h3 p).1 hp)
      exact (hg.nodesColl p).2 (hg.parzColl p (Dict.mem_keys_of_get? h))
    unfold SW.notForPresub
    rw [h1]
    have hall : (ps.all fun p => decide (p ∈ pc.graph.nodes)) = true := by
      rw [List.all_eq_true]; intro p hp; simpa using hps p hp
    simp only [hall, if_true, hl]
    refine ⟨_, rfl, ?_⟩
    intro n
    simp only [List.mem_cons, List.mem_append, List.mem_flatMap, hmem, exists_eq_or_imp]
    have hdesc : (n ∈ ps ∨ ∃ a ∈ ps, n ∈ pc.graph.descendants a) ↔ Relation.TransGen (RecordedDep pc) n k := by
      have hswap : ∀ a b, Relation.TransGen pc.graph.Adj a b ↔ Relation.TransGen (RecordedDep pc) b a := by
        intro a b
        constructor
        · intro h
          exact transGen_swap (r := RecordedDep pc)
            (Relation.TransGen.lift (p := fun x y => RecordedDep pc y x) id
              (fun x y hxy => (Good.dependsOn_iff_adj hg).2 hxy) _ _ h)
        · intro h
          exact transGen_swap (r := pc.graph.Adj)
            (Relation.TransGen.lift (p := fun x y => pc.graph.Adj y x) id
              (fun x y hxy => (Good.dependsOn_iff_adj hg).1 hxy) _ _ h)
      constructor
      · rintro (h | ⟨a, ha, hd⟩)
        · exact Relation.TransGen.single ((h3 n).1 h)
        · rw [DiGraph.mem_descendants _ hg.wf a (hps a ha)] at hd
          exact ((hswap _ _).1 hd.1).tail ((h3 a).1 ha)
      · intro h
        rcases Relation.TransGen.tail'_iff.1 h with ⟨a, hna, hak⟩
        by_cases he : n = a
        · subst he; exact Or.inl ((h3 _).2 hak)
        · refine Or.inr ⟨a, (h3 a).2 hak, ?_⟩
          rw [DiGraph.mem_descendants _ hg.wf a (hps a ((h3 a).2 hak))]
          refine ⟨(hswap _ _).2 ?_, he⟩
          rcases Relation.reflTransGen_iff_eq_or_transGen.1 hna with h' | h'
          · exact absurd h'.symm he
          · exact h'
    constructor
    · rintro (h | (h | h) | h)
      · exact Or.inl (Or.inl h)
      · exact Or.inl (Or.inr (hdesc.1 (Or.inl h)))
      · exact Or.inl (Or.inr (hdesc.1 (Or.inr h)))
      · exact Or.inr h
    · rintro ((h | h) | h)
      · exact Or.inl h
      · rcases hdesc.2 h with h | h
        · exact Or.inr (Or.inl (Or.inl h))
        · exact Or.inr (Or.inl (Or.inr h))
      · exact Or.inr (Or.inr h)

/-- What the bulk setter does to one parameter, before dependents are refreshed. -/
theorem setPairs_param : ∀ (l : List (Option String × PyVal)) (st : PC E) (k : String) (p : Param),
    st.coll.get? k = some p → ∃ p', (setPairs st l).1.coll.get? k = some p' ∧
      (p' = p ∨ ∃ f, p' = { p with value := some f }) ∧ ((∀ v, (some k, v) ∉ l) → p' = p) := by
  intro l
  induction l with
  | nil => intro st k p hp; exact ⟨p, hp, Or.inl rfl, fun _ => rfl⟩
  | cons x l ih =>
    intro st k p hp
    obtain ⟨n, v⟩ := x
    cases n with
    | none => exact ⟨p, hp, Or.inl rfl, fun _ => rfl⟩
    | some n =>
      unfold setPairs
      split
      · exact ⟨p, hp, Or.inl rfl, fun _ => rfl⟩
      · rename_i q hq
        split_ifs
        · obtain ⟨p', a, b, c⟩ := ih st k p hp
          exact ⟨p', a, b, fun h => c (fun w hw => h w (by simp [hw]))⟩
        · split
          · exact ⟨p, hp, Or.inl rfl, fun _ => rfl⟩
          · rename_i q' hq'
            have hfr := setValue_frame q v
            rw [hq'] at hfr
            simp only at hfr
            by_cases hn : n = k
            · subst hn
              rw [hp] at hq; cases hq
              obtain ⟨p', a, b, _⟩ := ih { st with coll := st.coll.set n q' } n q' (by simp)
              refine ⟨p', a, ?_, fun h => absurd (by simp) (h v)⟩
              rcases hfr with rfl | ⟨f, rfl⟩
              · exact b
              · rcases b with rfl | ⟨g, rfl⟩
                · exact Or.inr ⟨f, rfl⟩
                · exact Or.inr ⟨g, rfl⟩
            · obtain ⟨p', a, b, c⟩ := ih { st with coll := st.coll.set n q' } k p
                (by simp only [Dict.get?_set_ne _ _ hn]; exact hp)
              exact ⟨p', a, b, fun h => c (fun w hw => h w (by simp [hw]))⟩

end Verif
