import Verif.Lemmas.Good
import Mathlib.Algebra.BigOperators.Group.Finset.Basic
import Mathlib.Algebra.Order.BigOperators.Group.Finset

/-! # The expansion loop: invariants, termination, meaning -/

set_option linter.unusedSectionVars false
set_option linter.unusedVariables false

namespace Verif

open Verif.Spec

namespace PC

variable {E D : Type}

/-! ### Loop bodies -/

theorem exprParametric_ok {st : PC E} : ∀ {l : List Sym} {b : Bool}, st.exprParametric l = .ok b →
    (b = true ↔ ∃ s ∈ l, ∃ m, st.getParameterFromSymbol s = .ok m ∧ m ∈ st.parz.keys) ∨
    (b = true ∧ ∃ s ∈ l, ∃ m, st.getParameterFromSymbol s = .ok m ∧ m ∈ st.parz.keys) := by
  intro l
  induction l with
  | nil => intro b h; simp [exprParametric] at h; subst h; left; simp
  | cons s ss ih =>
    intro b h
    unfold exprParametric at h
    split at h
    · cases h
    · rename_i p hp
      split_ifs at h with hh
      · simp only [Except.ok.injEq] at h; subst h
        right; exact ⟨rfl, s, by simp, p, hp, (Dict.has_iff _ _).1 hh⟩
      · have := ih h
        rcases this with h1 | ⟨h1, t, ht, m, hm⟩
        · left
          rw [h1]
          constructor
          · rintro ⟨t, ht, m, hm⟩; exact ⟨t, by simp [ht], m, hm⟩
          · rintro ⟨t, ht, m, hm, hm2⟩
            rcases List.mem_cons.1 ht with rfl | ht
            · rw [hp] at hm; cases hm
              exact absurd ((Dict.has_iff _ _).2 hm2) hh
            · exact ⟨t, ht, m, hm, hm2⟩
        · right; exact ⟨h1, t, by simp [ht], m, hm⟩

theorem exprParametric_false {st : PC E} {l : List Sym} (h : st.exprParametric l = .ok false) :
    ∀ s ∈ l, ∃ m, st.getParameterFromSymbol s = .ok m ∧ m ∉ st.parz.keys := by
  induction l with
  | nil => simp
  | cons s ss ih =>
    unfold exprParametric at h
    split at h
    · cases h
    · rename_i p hp
      split_ifs at h with hh
      · simp at h
      intro t ht
      rcases List.mem_cons.1 ht with rfl | ht
      · exact ⟨p, hp, fun hc => hh ((Dict.has_iff _ _).2 hc)⟩
      · exact ih h t ht

theorem exprParametric_total {st : PC E} {l : List Sym}
    (h : ∀ s ∈ l, ∃ m, st.getParameterFromSymbol s = .ok m) : ∃ b, st.exprParametric l = .ok b := by
  induction l with
  | nil => exact ⟨false, rfl⟩
  | cons s ss ih =>
    obtain ⟨m, hm⟩ := h s (by simp)
    unfold exprParametric
    rw [hm]
    simp only
    split_ifs
    · exact ⟨true, rfl⟩
    · exact ih (fun t ht => h t (by simp [ht]))

theorem expandFor_spec (eng : Engine E) (st : PC E) (base : E) : ∀ (l : List Sym) (acc : Option E),
    (expandFor eng st base l acc = acc ∧
      ∀ s ∈ l, ∀ m, st.getParameterFromSymbol s = .ok m → st.parz.get? m = none) ∨
    ∃ s ∈ l, ∃ m ex ns, st.getParameterFromSymbol s = .ok m ∧ st.parz.get? m = some (ex, ns) ∧
      expandFor eng st base l acc = some (eng.subs base s ex) := by
  intro l
  induction l with
  | nil => intro acc; left; simp [expandFor]
  | cons s ss ih =>
    intro acc
    unfold expandFor
    cases hs : st.getParameterFromSymbol s with
    | error e =>
      simp only
      rcases ih acc with ⟨h1, h2⟩ | ⟨t, ht, m, ex, ns, h1, h2, h3⟩
      · left; refine ⟨h1, ?_⟩
        intro t ht m hm
        rcases List.mem_cons.1 ht with rfl | ht
        · rw [hs] at hm; cases hm
        · exact h2 t ht m hm
      · right; exact ⟨t, by simp [ht], m, ex, ns, h1, h2, h3⟩
    | ok nm =>
      simp only
      cases hp : st.parz.get? nm with
      | none =>
        simp only
        rcases ih acc with ⟨h1, h2⟩ | ⟨t, ht, m, ex, ns, h1, h2, h3⟩
        · left; refine ⟨h1, ?_⟩
          intro t ht m hm
          rcases List.mem_cons.1 ht with rfl | ht
          · rw [hs] at hm; cases hm; exact hp
          · exact h2 t ht m hm
        · right; exact ⟨t, by simp [ht], m, ex, ns, h1, h2, h3⟩
      | some q =>
        obtain ⟨ex0, ns0⟩ := q
        simp only
        right
        rcases ih (some (eng.subs base s ex0)) with ⟨h1, h2⟩ | ⟨t, ht, m, ex, ns, h1, h2, h3⟩
        · exact ⟨s, by simp, nm, ex0, ns0, hs, hp, h1⟩
        · exact ⟨t, by simp [ht], m, ex, ns, h1, h2, h3⟩

/-- Any property kept by substituting a parametric symbol by its expression survives the loop. -/
theorem expandLoop_invariant (eng : Engine E) (st : PC E) (P : E → Prop)
    (hstep : ∀ base s m ex ns, P base → s ∈ eng.free base → st.getParameterFromSymbol s = .ok m →
      st.parz.get? m = some (ex, ns) → P (eng.subs base s ex)) :
    ∀ fuel base e, expandLoop eng st fuel base = .ok e → P base →
      P e ∧ st.exprParametric (eng.free e) = .ok false := by
  intro fuel
  induction fuel with
  | zero => intro base e h; simp [expandLoop] at h
  | succ k ih =>
    intro base e h hP
    unfold expandLoop at h
    split at h
    · cases h
    · rename_i hb; cases h; exact ⟨hP, hb⟩
    · split at h
      · cases h
      · rename_i e' he'
        rcases expandFor_spec eng st base (eng.free base) none with ⟨h1, _⟩ | ⟨s, hs, m, ex, ns, h1, h2, h3⟩
        · rw [h1] at he'; cases he'
        · rw [h3] at he'; cases he'
          exact ih _ e h (hstep base s m ex ns hP hs h1 h2)

/-! ### Termination -/

theorem adj_rank {g : DiGraph String} (hw : g.WF) (ha : g.Acyclic) :
    ∃ r : String → ℕ, ∀ a b, g.Adj a b → r a < r b := by
  classical
  refine ⟨fun n => (g.nodes.toFinset.filter (fun m => Relation.TransGen g.Adj m n)).card, ?_⟩
  intro a b hab
  apply Finset.card_lt_card
  rw [Finset.ssubset_iff_of_subset]
  · refine ⟨a, ?_, ?_⟩
    · simp only [Finset.mem_filter, List.mem_toFinset]
      exact ⟨hw.src a b hab, Relation.TransGen.single hab⟩
    · simp only [Finset.mem_filter, List.mem_toFinset, not_and]
      intro _; exact ha a
  · intro m hm
    simp only [Finset.mem_filter, List.mem_toFinset] at hm ⊢
    exact ⟨hm.1, hm.2.tail hab⟩

/-- A weight dominating the expansion: the weight of a parametric parameter exceeds the total weight
of the parameters it is defined from. -/
theorem exists_weight {eng : Engine E} {st : PC E} (hg : st.Good eng) :
    ∃ W : String → ℕ, ∀ n ex ns, st.parz.get? n = some (ex, ns) → 1 + (∑ m ∈ ns.toFinset, W m) ≤ W n := by
  obtain ⟨r, hr⟩ := adj_rank hg.wf hg.acyclic
  -- weights that are right below a given rank
  have key : ∀ k, ∃ W : String → ℕ, ∀ n ex ns, r n < k → st.parz.get? n = some (ex, ns) →
      1 + (∑ m ∈ ns.toFinset, W m) ≤ W n := by
    intro k
    induction k with
    | zero => exact ⟨fun _ => 0, fun n ex ns h => absurd h (by omega)⟩
    | succ k ih =>
      obtain ⟨W, hW⟩ := ih
      classical
      refine ⟨fun n => if r n < k then W n else
        match st.parz.get? n with
        | none => 0
        | some (_, ns) => 1 + ∑ m ∈ ns.toFinset, W m, ?_⟩
      intro n ex ns hn hp
      have hsum : ∑ m ∈ ns.toFinset, (if r m < k then W m else
          match st.parz.get? m with
          | none => 0
          | some (_, ns) => 1 + ∑ m ∈ ns.toFinset, W m) = ∑ m ∈ ns.toFinset, W m := by
        apply Finset.sum_congr rfl
        intro m hm
        have : r m < r n := hr m n (hg.recorded n ex ns hp m (List.mem_toFinset.1 hm))
        rw [if_pos (by omega)]
      simp only at hsum ⊢
      rw [hsum]
      by_cases hk : r n < k
      · rw [if_pos hk]; exact hW n ex ns hk hp
      · rw [if_neg hk, hp]
  -- ranks of the parametric names are bounded
  obtain ⟨W, hW⟩ := key ((st.parz.keys.map r).sum + 1)
  refine ⟨W, fun n ex ns hp => hW n ex ns ?_ hp⟩
  have : r n ∈ st.parz.keys.map r := List.mem_map.2 ⟨n, Dict.mem_keys_of_get? hp, rfl⟩
  have := List.single_le_sum (by simp) _ this
  omega

/-- The expansion loop succeeds on every expression whose symbols are registered, with enough fuel. -/
theorem expandLoop_total {eng : Engine E} (law : eng.Lawful D) {st : PC E} (hg : st.Good eng) (base : E)
    (hreg : ∀ s ∈ eng.free base, ∃ m, st.symMap.get? m = some s) :
    ∃ N, ∀ fuel, N ≤ fuel → ∃ e, expandLoop eng st fuel base = .ok e := by
  obtain ⟨W, hW⟩ := exists_weight hg
  -- the weight of a symbol is the weight of the parameter carrying it
  let own : Sym → String := fun s => match st.getParameterFromSymbol s with | .ok m => m | .error _ => ""
  have hown : ∀ m s, st.symMap.get? m = some s → own s = m := by
    intro m s h
    have := hg.fromSymbol.2 h
    simp only [own]; rw [this]
  let μ : E → ℕ := fun e => ∑ s ∈ (eng.free e).toFinset, W (own s)
  have main : ∀ fuel base, (∀ s ∈ eng.free base, ∃ m, st.symMap.get? m = some s) → μ base < fuel →
      ∃ e, expandLoop eng st fuel base = .ok e := by
    intro fuel
    induction fuel with
    | zero => intro base _ h; omega
    | succ k ih =>
      intro base hreg hμ
      unfold expandLoop
      obtain ⟨b, hb⟩ := exprParametric_total (st := st) (l := eng.free base) (by
        intro s hs; obtain ⟨m, hm⟩ := hreg s hs; exact ⟨m, hg.fromSymbol.2 hm⟩)
      rw [hb]
      cases b with
      | false => exact ⟨base, rfl⟩
      | true =>
        simp only
        have hex : ∃ s ∈ eng.free base, ∃ m, st.getParameterFromSymbol s = .ok m ∧ m ∈ st.parz.keys := by
          rcases exprParametric_ok hb with h | h
          · exact h.1 rfl
          · exact h.2
        rcases expandFor_spec eng st base (eng.free base) none with ⟨h1, h2⟩ | ⟨s, hs, m, ex, ns, h1, h2, h3⟩
        · obtain ⟨s, hs, m, hm, hm2⟩ := hex
          have := h2 s hs m hm
          rw [Dict.get?_eq_none_iff] at this
          exact absurd hm2 this
        · rw [h3]
          simp only
          have hfree : ∀ t ∈ eng.free (eng.subs base s ex), (t ∈ eng.free base ∧ t ≠ s) ∨ t ∈ eng.free ex :=
            fun t ht => law.free_subs base s ex t ht
          apply ih
          · intro t ht
            rcases hfree t ht with ⟨h, _⟩ | h
            · exact hreg t h
            · obtain ⟨k, _, hk⟩ := hg.parzSyms m ex ns h2 t h; exact ⟨k, hk⟩
          · -- the measure decreases
            have hms : st.symMap.get? m = some s := hg.fromSymbol.1 h1
            have hsub : (eng.free (eng.subs base s ex)).toFinset ⊆
                ((eng.free base).toFinset.erase s) ∪ (eng.free ex).toFinset := by
              intro t ht
              simp only [Finset.mem_union, Finset.mem_erase, List.mem_toFinset] at ht ⊢
              rcases hfree t ht with ⟨h, h'⟩ | h
              · exact Or.inl ⟨h', h⟩
              · exact Or.inr h
            have l1 : μ (eng.subs base s ex) ≤
                ∑ t ∈ ((eng.free base).toFinset.erase s) ∪ (eng.free ex).toFinset, W (own t) :=
              Finset.sum_le_sum_of_subset hsub
            have l2 : ∑ t ∈ ((eng.free base).toFinset.erase s) ∪ (eng.free ex).toFinset, W (own t) ≤
                ∑ t ∈ (eng.free base).toFinset.erase s, W (own t) + ∑ t ∈ (eng.free ex).toFinset, W (own t) := by
              rw [← Finset.sum_union_inter]; exact Nat.le_add_right _ _
            have l3 : ∑ t ∈ (eng.free ex).toFinset, W (own t) ≤ ∑ k ∈ ns.toFinset, W k := by
              -- own is injective on the registered symbols
              have hinj : Set.InjOn own (eng.free ex).toFinset := by
                intro a ha b hb hab
                simp only [Finset.mem_coe, List.mem_toFinset] at ha hb
                obtain ⟨ka, _, hka⟩ := hg.parzSyms m ex ns h2 a ha
                obtain ⟨kb, _, hkb⟩ := hg.parzSyms m ex ns h2 b hb
                rw [hown _ _ hka, hown _ _ hkb] at hab
                subst hab
                rw [hka] at hkb; cases hkb; rfl
              rw [← Finset.sum_image hinj]
              apply Finset.sum_le_sum_of_subset
              intro k hk
              rw [Finset.mem_image] at hk
              obtain ⟨t, ht, rfl⟩ := hk
              obtain ⟨j, hj, hjt⟩ := hg.parzSyms m ex ns h2 t (List.mem_toFinset.1 ht)
              rw [hown _ _ hjt]; exact List.mem_toFinset.2 hj
            have l4 : 1 + ∑ k ∈ ns.toFinset, W k ≤ W m := hW m ex ns h2
            have l5 : ∑ t ∈ (eng.free base).toFinset.erase s, W (own t) + W (own s) = μ base :=
              Finset.sum_erase_add _ _ (List.mem_toFinset.2 hs)
            rw [hown m s hms] at l5
            omega
  exact ⟨μ base + 1, fun fuel hf => main fuel base hreg (by omega)⟩

/-! ### Meaning -/

theorem getSymbol_iff {st : PC E} {n : String} {s : Sym} :
    st.getSymbol n = .ok s ↔ st.symMap.get? n = some s := by
  unfold getSymbol
  cases st.symMap.get? n <;> simp

theorem getExpr_iff {eng : Engine E} {st : PC E} {n : String} {ex : E} {k : ℕ} :
    st.getParametricExpression eng k n false = .ok ex ↔ ∃ ns, st.parz.get? n = some (ex, ns) := by
  unfold getParametricExpression
  cases h : st.parz.get? n with
  | none => simp
  | some q => obtain ⟨a, b⟩ := q; simp

theorem getValue_iff {st : PC E} {n : String} {v : Option PF} :
    st.getParameterValue n = .ok v ↔ ∃ p, st.coll.get? n = some p ∧ p.value = v := by
  unfold getParameterValue
  cases h : st.coll.get? n with
  | none => simp
  | some p => simp [Param.getValue]

theorem Denotes.functional {eng : Engine E} {law : eng.Lawful D} {st : PC E} (hg : st.Good eng)
    {n : String} {d d' : D} (h : Denotes eng law st n d) (h' : Denotes eng law st n d') : d = d' := by
  induction h generalizing d' with
  | independent name v hnp hv =>
    cases h' with
    | independent _ v' _ hv' => rw [hv] at hv'; cases hv'; rfl
    | parametric _ ex ρ owner _ hex _ _ _ =>
      obtain ⟨ns, hns⟩ := getExpr_iff.1 hex
      exact absurd (Dict.mem_keys_of_get? hns) hnp
  | parametric name ex ρ owner d hex how hden hev ih =>
    cases h' with
    | independent _ v' hnp _ =>
      obtain ⟨ns, hns⟩ := getExpr_iff.1 hex
      exact absurd (Dict.mem_keys_of_get? hns) hnp
    | parametric _ ex' ρ' owner' _ hex' how' hden' hev' =>
      rw [hex] at hex'; cases hex'
      have : law.eval ρ ex = law.eval ρ' ex := by
        apply law.eval_congr
        intro s hs
        have e1 := getSymbol_iff.1 (how s hs)
        have e2 := getSymbol_iff.1 (how' s hs)
        have := hg.symInj _ _ _ e1 e2
        exact ih s hs (by rw [this]; exact hden' s hs)
      rw [hev, hev'] at this
      cases this; rfl

/-- A valuation giving every symbol the value its parameter ought to have. -/
theorem exists_valuation {eng : Engine E} (law : eng.Lawful D) {st : PC E} (hg : st.Good eng) :
    ∃ ρ : Sym → D, ∀ m s d, st.symMap.get? m = some s → Denotes eng law st m d → ρ s = d := by
  classical
  refine ⟨fun s => if h : ∃ m d, st.symMap.get? m = some s ∧ Denotes eng law st m d
    then h.choose_spec.choose else law.ofPF .nan, ?_⟩
  intro m s d hm hd
  have h : ∃ m d, st.symMap.get? m = some s ∧ Denotes eng law st m d := ⟨m, d, hm, hd⟩
  simp only [dif_pos h]
  have hs := h.choose_spec.choose_spec
  have := hg.symInj _ _ _ hm hs.1
  have hd' : Denotes eng law st h.choose d := by rw [← this]; exact hd
  exact Denotes.functional hg hs.2 hd'

/-- Symbols of a parametric parameter that denotes something denote something. -/
theorem Denotes_symbols {eng : Engine E} {law : eng.Lawful D} {st : PC E} (hg : st.Good eng)
    {n : String} {d : D} (h : Denotes eng law st n d) {ex : E} {ns : List String}
    (hp : st.parz.get? n = some (ex, ns)) {ρ : Sym → D}
    (hρ : ∀ m s d, st.symMap.get? m = some s → Denotes eng law st m d → ρ s = d) :
    law.eval ρ ex = some d ∧
    ∀ s ∈ eng.free ex, ∃ m, m ∈ ns ∧ st.symMap.get? m = some s ∧ Denotes eng law st m (ρ s) := by
  cases h with
  | independent _ v hnp _ => exact absurd (Dict.mem_keys_of_get? hp) hnp
  | parametric _ ex' ρ' owner _ hex how hden hev =>
    obtain ⟨ns', hns'⟩ := getExpr_iff.1 hex
    rw [hp] at hns'; cases hns'
    constructor
    · rw [← hev]
      apply law.eval_congr
      intro s hs
      exact hρ _ s _ (getSymbol_iff.1 (how s hs)) (hden s hs)
    · intro s hs
      obtain ⟨m, hm, hms⟩ := hg.parzSyms n ex ns hp s hs
      have e := hg.symInj _ _ _ hms (getSymbol_iff.1 (how s hs))
      refine ⟨m, hm, hms, ?_⟩
      have := hden s hs
      rw [← e] at this
      rw [hρ m s _ hms this]; exact this

/-- What the expansion of a parametric parameter that denotes `d` looks like: it has value `d`, and
each of its symbols belongs to an independent, initialised ancestor. -/
theorem expand_meaning {eng : Engine E} (law : eng.Lawful D) {st : PC E} (hg : st.Good eng)
    {ρ : Sym → D} (hρ : ∀ m s d, st.symMap.get? m = some s → Denotes eng law st m d → ρ s = d)
    {k : String} {ex : E} {ns : List String} (hp : st.parz.get? k = some (ex, ns)) {d : D}
    (hd : Denotes eng law st k d) {fuel : ℕ} {e : E} (he : expandLoop eng st fuel ex = .ok e) :
    law.eval ρ e = some d ∧
    ∀ s ∈ eng.free e, ∃ m, st.symMap.get? m = some s ∧ m ∉ st.parz.keys ∧
      Denotes eng law st m (ρ s) ∧ Relation.TransGen st.graph.Adj m k := by
  have hsy := Denotes_symbols hg hd hp hρ
  have := expandLoop_invariant eng st
    (fun e => law.eval ρ e = some d ∧ ∀ s ∈ eng.free e, ∃ m, st.symMap.get? m = some s ∧
      Denotes eng law st m (ρ s) ∧ Relation.TransGen st.graph.Adj m k) ?_ fuel ex e he ?_
  · obtain ⟨⟨h1, h2⟩, h3⟩ := this
    refine ⟨h1, ?_⟩
    intro s hs
    obtain ⟨m, hm, hmd, hmt⟩ := h2 s hs
    obtain ⟨m', hm', hnp⟩ := exprParametric_false h3 s hs
    rw [hg.fromSymbol] at hm'
    have := hg.symInj _ _ _ hm hm'
    subst this
    exact ⟨m, hm, hnp, hmd, hmt⟩
  · rintro base s m ex' ns' ⟨h1, h2⟩ hs hm hpm
    rw [hg.fromSymbol] at hm
    obtain ⟨m', hm', hmd, hmt⟩ := h2 s hs
    have := hg.symInj _ _ _ hm hm'
    subst this
    have hsy' := Denotes_symbols hg hmd hpm hρ
    constructor
    · apply law.eval_subs ρ base s ex' (ρ s) d hsy'.1
      rw [Function.update_eq_self]; exact h1
    · intro t ht
      rcases law.free_subs base s ex' t ht with ⟨h, _⟩ | h
      · exact h2 t h
      · obtain ⟨j, hj, hjt, hjd⟩ := hsy'.2 t h
        exact ⟨j, hjt, hjd, Relation.TransGen.head (hg.recorded m ex' ns' hpm j hj) hmt⟩
  · refine ⟨hsy.1, ?_⟩
    intro s hs
    obtain ⟨m, hmn, hms, hmd⟩ := hsy.2 s hs
    exact ⟨m, hms, hmd, Relation.TransGen.single (hg.recorded k ex ns hp m hmn)⟩

end PC

end Verif
