import Verif.Spec.Netlist
import Verif.Props.ChargeBias
import Verif.Props.SymbolicBias
import Verif.Props.SymbolicCap

/-!
# Lemmas: the stored biases are those of the calls
-/

namespace Verif.Props

open Verif Verif.Circuit Verif.Sym Verif.Spec

theorem allOk_snoc {l : List Call} {c : Call} (h : AllOk (l ++ [c])) : AllOk l ∧ (step (run {} l) c).2 = .ok () := by
  refine ⟨fun l1 x l2 e => h l1 x (l2 ++ [c]) (by rw [e]; simp), h l c [] rfl⟩

theorem run_snoc (l : List Call) (c : Call) : run {} (l ++ [c]) = (step (run {} l) c).1 := by
  unfold run; rw [List.foldl_append]; rfl

/-- What the bias dictionaries hold after successful calls. -/
structure BiasesFrom (l : List Call) : Prop where
  flux : ∀ q ∈ (run {} l).fluxBias, ∃ c m p, Call.addFluxBias c (some q.2.suffix) m ∈ l ∧ Carries (run {} l).graph q.1 p ∧ p.2 = c
  flux' : ∀ c s m, Call.addFluxBias c s m ∈ l → ∃ s' e p, s = some s' ∧ (e, ⟨m, s'⟩) ∈ (run {} l).fluxBias ∧ Carries (run {} l).graph e p ∧ p.2 = c
  charge : ∀ n b, (run {} l).chargeBias.get? n = some b → Call.addChargeBias n (some b.suffix) b.comp ∈ l
  charge' : ∀ n s m, Call.addChargeBias n s m ∈ l → ∃ s', s = some s' ∧ (run {} l).chargeBias.get? n = some ⟨m, s'⟩

theorem BiasesFrom.same {l : List Call} {c : Call} (h : BiasesFrom l) (hf : (step (run {} l) c).1.fluxBias = (run {} l).fluxBias)
    (hq : (step (run {} l) c).1.chargeBias = (run {} l).chargeBias)
    (hg : ∀ e p, Carries (run {} l).graph e p → Carries (step (run {} l) c).1.graph e p)
    (hc1 : ∀ a b m, c ≠ .addFluxBias a b m) (hc2 : ∀ a b m, c ≠ .addChargeBias a b m) : BiasesFrom (l ++ [c]) := by
  refine ⟨?_, ?_, ?_, ?_⟩
  · intro q hq'
    rw [run_snoc, hf] at hq'
    obtain ⟨c', m, p, h1, h2, h3⟩ := h.flux q hq'
    exact ⟨c', m, p, List.mem_append_left _ h1, by rw [run_snoc]; exact hg _ _ h2, h3⟩
  · intro c' s m hm
    rcases List.mem_append.1 hm with hm | hm
    · obtain ⟨s', e, p, h1, h2, h3, h4⟩ := h.flux' c' s m hm
      exact ⟨s', e, p, h1, by rw [run_snoc, hf]; exact h2, by rw [run_snoc]; exact hg _ _ h3, h4⟩
    · exact absurd (List.mem_singleton.1 hm).symm (hc1 _ _ _)
  · intro n b hb
    rw [run_snoc, hq] at hb
    exact List.mem_append_left _ (h.charge n b hb)
  · intro n s m hm
    rcases List.mem_append.1 hm with hm | hm
    · rw [run_snoc, hq]; exact h.charge' n s m hm
    · exact absurd (List.mem_singleton.1 hm).symm (hc2 _ _ _)

theorem biasesFrom {l : List Call} (hok : ∀ x ∈ l, x.OK) (ha : AllOk l) : BiasesFrom l := by
  induction l using List.reverseRecOn with
  | nil => exact ⟨fun q hq => (by cases hq), fun c s m hm => (by cases hm), fun n b hb => (by cases hb), fun n s m hm => (by cases hm)⟩
  | append_singleton l c ih =>
    have hok' : ∀ x ∈ l, x.OK := fun x hx => hok x (List.mem_append_left _ hx)
    obtain ⟨ha', hc⟩ := allOk_snoc ha
    have ih := ih hok' ha'
    have ht := traced_run hok'
    cases c with
    | addBranch o a b c =>
      refine ih.same ?_ ?_ ?_ (by simp) (by simp)
      · simp only [step]; rw [addBranch_frame.2.1]
      · simp only [step]; rw [addBranch_frame.1]
      · intro e p hp
        simp only [step]
        cases hx : okPrefix c with
        | false => rw [(addBranch_bad hx).1]; exact hp
        | true => rw [addBranch_graph hx]; exact hp.addEdge _ _ _ _
    | coupleBranches a b m =>
      refine ih.same ?_ ?_ ?_ (by simp) (by simp) <;> simp only [step] <;> rw [coupleBranches_frame] <;> exact fun _ _ h => h
    | coupleResonator n c =>
      refine ih.same ?_ ?_ ?_ (by simp) (by simp) <;> simp only [step] <;> rw [coupleResonator_frame] <;> exact fun _ _ h => h
    | removeAllResonators => exact ih.same rfl rfl (fun _ _ h => h) (by simp) (by simp)
    | addFluxBias c s m =>
      obtain ⟨e, s', h1, -, hce, -, -, -, -, hk, -, heq⟩ := addFluxBias_ok (graphInv_run l).toWF ht (show (addFluxBias (run {} l) c s m).2 = .ok () from hc)
      obtain ⟨p, hp, hpc⟩ := ht.cmap e c hce
      have hr : run {} (l ++ [.addFluxBias c s m]) = { run {} l with fluxBias := (run {} l).fluxBias ++ [(e, ⟨m, s'⟩)] } := by
        rw [run_snoc]; exact heq
      refine ⟨?_, ?_, ?_, ?_⟩
      · intro q hq
        rw [hr] at hq ⊢
        rcases List.mem_append.1 hq with hq | hq
        · obtain ⟨c', m', p', h1, h2, h3⟩ := ih.flux q hq
          exact ⟨c', m', p', List.mem_append_left _ h1, h2, h3⟩
        · rw [List.mem_singleton.1 hq]
          exact ⟨c, m, p, List.mem_append_right _ (by rw [h1]; simp), hp, hpc⟩
      · intro c' s'' m' hm
        rw [hr]
        rcases List.mem_append.1 hm with hm | hm
        · obtain ⟨t, e', p', k1, k2, k3, k4⟩ := ih.flux' c' s'' m' hm
          exact ⟨t, e', p', k1, List.mem_append_left _ k2, k3, k4⟩
        · have := List.mem_singleton.1 hm
          injection this with e1 e2 e3
          subst e1 e2 e3
          exact ⟨s', e, p, h1, List.mem_append_right _ (by simp), hp, hpc⟩
      · intro n b hb
        rw [hr] at hb
        exact List.mem_append_left _ (ih.charge n b hb)
      · intro n s'' m' hm
        rw [hr]
        rcases List.mem_append.1 hm with hm | hm
        · exact ih.charge' n s'' m' hm
        · cases List.mem_singleton.1 hm
    | addChargeBias n s m =>
      obtain ⟨s', h1, h2, h3, h4, h5, h6, h7⟩ := addChargeBias_ok (show (addChargeBias (run {} l) n s m).2 = .ok () from hc)
      have hr : run {} (l ++ [.addChargeBias n s m]) = { run {} l with chargeBias := (run {} l).chargeBias ++ [(n, ⟨m, s'⟩)] } := by
        rw [run_snoc]; exact h7
      have hget : ∀ x, Dict.get? (run {} (l ++ [.addChargeBias n s m])).chargeBias x = if x = n then some ⟨m, s'⟩ else Dict.get? (run {} l).chargeBias x := by
        intro x; rw [hr]; exact get?_append_new _ _ _ h5 x
      refine ⟨?_, ?_, ?_, ?_⟩
      · intro q hq
        rw [hr] at hq ⊢
        obtain ⟨c', m', p', h1, h2, h3⟩ := ih.flux q hq
        exact ⟨c', m', p', List.mem_append_left _ h1, h2, h3⟩
      · intro c' s'' m' hm
        rw [hr]
        rcases List.mem_append.1 hm with hm | hm
        · exact ih.flux' c' s'' m' hm
        · cases List.mem_singleton.1 hm
      · intro n' b hb
        rw [hget] at hb
        split_ifs at hb with hn
        · cases hb
          rw [hn]
          exact List.mem_append_right _ (by rw [h1]; simp)
        · exact List.mem_append_left _ (ih.charge n' b hb)
      · intro n' s'' m' hm
        rw [hget]
        rcases List.mem_append.1 hm with hm | hm
        · obtain ⟨t, k1, k2⟩ := ih.charge' n' s'' m' hm
          refine ⟨t, k1, ?_⟩
          rw [if_neg, k2]
          rintro rfl
          exact h5 (Dict.mem_keys_of_get? k2)
        · have := List.mem_singleton.1 hm
          injection this with e1 e2 e3
          subst e1 e2 e3
          exact ⟨s', h1, by rw [if_pos rfl]⟩

/-- The first of several equal values. -/
theorem head_filterMap {α β : Type} (f : α → Option β) (l : List α) (v : β) (h1 : ∀ x ∈ l, ∀ w, f x = some w → w = v) (d : β)
    (h2 : (∀ x ∈ l, f x = none) → v = d) : ((l.filterMap f).head?).getD d = v := by
  cases hl : l.filterMap f with
  | nil =>
    simp only [List.head?_nil, Option.getD_none]
    exact (h2 (List.filterMap_eq_nil_iff.1 hl)).symm
  | cons w ws =>
    simp only [List.head?_cons, Option.getD_some]
    have : w ∈ l.filterMap f := by rw [hl]; simp
    obtain ⟨x, hx, hw⟩ := List.mem_filterMap.1 this
    exact h1 x hx w hw

theorem gateCharge_eq {l : List Call} (hok : ∀ x ∈ l, x.OK) (ha : AllOk l) (q : String → ℝ) (n : ℕ) :
    gateCharge q l n = match (run {} l).chargeBias.get? n with | some b => q b.suffix | none => 0 := by
  have hb := biasesFrom hok ha
  apply head_filterMap
  · intro x hx w hw
    split at hw
    · rename_i n' s m
      split_ifs at hw with hn
      subst hn
      cases hw
      obtain ⟨s', e1, e2⟩ := hb.charge' n' (some s) m hx
      rw [e2]
      cases e1; rfl
    · cases hw
  · intro hn
    cases hg : (run {} l).chargeBias.get? n with
    | none => rfl
    | some b =>
      have := hn _ (hb.charge n b hg)
      simp at this

theorem gateCap_stored {l : List Call} (hok : ∀ x ∈ l, x.OK) (ha : AllOk l) (val : String → ℝ) (n : ℕ) :
    gateCap val l n = gateCapacitance val (run {} l) n := by
  have hb := biasesFrom hok ha
  apply head_filterMap
  · intro x hx w hw
    split at hw
    · rename_i n' s c
      split_ifs at hw with hn
      subst hn
      cases hw
      obtain ⟨s', e1, e2⟩ := hb.charge' n' s (some c) hx
      unfold gateCapacitance
      rw [e2]; rfl
    · cases hw
  · intro hn
    unfold gateCapacitance
    cases hg : (run {} l).chargeBias.get? n with
    | none => rfl
    | some b =>
      have := hn _ (hb.charge n b hg)
      cases hc : b.comp with
      | none => simp [hc]
      | some c => rw [hc] at this; simp at this

/-! ### The flux bias dictionary -/

theorem addBiases_get : ∀ (l : List (Edge × Bias)) (b b' : Biases), (l.map Prod.fst).Nodup → addBiases l b = .ok b' →
    (∀ q ∈ l, b.flux.has q.1 = true ∧ b'.flux.get? q.1 = some (some q.2.suffix)) ∧ ∀ e, e ∉ l.map Prod.fst → b'.flux.get? e = b.flux.get? e := by
  intro l
  induction l with
  | nil => intro b b' _ h; cases h; simp
  | cons p l ih =>
    obtain ⟨e, x⟩ := p
    intro b b' hnd h
    rw [List.map_cons, List.nodup_cons] at hnd
    unfold addBiases at h
    split_ifs at h with hh
    obtain ⟨h1, h2⟩ := ih _ _ hnd.2 h
    refine ⟨?_, ?_⟩
    · intro q hq
      rcases List.mem_cons.1 hq with rfl | hq
      · refine ⟨hh, ?_⟩
        rw [h2 _ hnd.1, Dict.get?_set, if_pos rfl]
      · have hne : q.1 ≠ e := fun hqe => hnd.1 (List.mem_map.2 ⟨q, hq, hqe⟩)
        refine ⟨?_, (h1 q hq).2⟩
        have := (h1 q hq).1
        rw [Dict.has_iff, Dict.mem_keys_set] at this
        rw [Dict.has_iff]
        rcases this with h | h
        · exact absurd h hne
        · exact h
    · intro e' he'
      rw [List.map_cons, List.mem_cons, not_or] at he'
      rw [h2 e' he'.2, Dict.get?_set, if_neg (Ne.symm he'.1)]

theorem flat_get (l : List Edge) (e : Edge) : Dict.get? (l.map fun e => (e, (none : Option String)) : Dict Edge (Option String)) e = some none ∨
    Dict.get? (l.map fun e => (e, (none : Option String)) : Dict Edge (Option String)) e = none := by
  induction l with
  | nil => exact Or.inr rfl
  | cons a l ih =>
    rw [List.map_cons, Dict.get?_cons]
    split_ifs
    · exact Or.inl rfl
    · exact ih

/-- The bias on a branch of the oriented circuit is the one given to its component. -/
theorem biasVal_eq {h : List Call} {g : CG} (hs : Settled h g) (ha : AllOk h) {b : Biases} (hb : createFluxBiases g = .ok b) (phi : String → ℝ)
    {e : Edge} (he : e ∈ g.wc) {c : String} (hc : g.cmap.get? e = some c) : biasVal phi b.flux e = fluxOn phi h c := by
  have hg : g = run {} h := by obtain ⟨_, _, _, _, _, _, _, _, _, _, rfl⟩ := hs; rfl
  have hok : ∀ x ∈ h, x.OK := by obtain ⟨_, _, _, _, _, _, _, h, _⟩ := hs; exact h
  subst hg
  have hbf := biasesFrom hok ha
  obtain ⟨hnd, -, -⟩ := C24_history h hok
  obtain ⟨h1, h2⟩ := addBiases_get _ _ _ hnd hb
  have hwc : ∀ q ∈ (run {} h).fluxBias, q.1 ∈ (run {} h).wc := by
    intro q hq
    have := (h1 q hq).1
    rw [Dict.has_iff] at this
    simpa [Dict.keys, Function.comp_def, edges] using this
  have ht := traced_run hok
  have hw := (graphInv_run h).toWF
  have name : ∀ e' p, e' ∈ (run {} h).wc → Carries (run {} h).graph e' p → p.2 = c → e' = e := by
    intro e' p hwc' hp hpc
    obtain ⟨b', -, -, hc'⟩ := wc_branch hs hwc'
    have := (names_of_carries hok hp).2.1 _ hc'
    exact wc_name_inj hs hwc' he (hc'.trans (by rw [this, hpc])) hc
  symm
  apply head_filterMap
  · intro x hx w hw'
    split at hw'
    · rename_i c' s m
      split_ifs at hw' with hcc
      subst hcc
      cases hw'
      obtain ⟨s', e', p, e1, e2, e3, e4⟩ := hbf.flux' _ _ _ hx
      have := name e' p (hwc _ e2) e3 e4
      subst this
      unfold biasVal
      rw [(h1 _ e2).2]
      cases e1; rfl
    · cases hw'
  · intro hn
    unfold biasVal
    by_cases hm : e ∈ (run {} h).fluxBias.map Prod.fst
    · obtain ⟨q, hq, rfl⟩ := List.mem_map.1 hm
      obtain ⟨c', m, p, k1, k2, k3⟩ := hbf.flux q hq
      have hcc : c = c' := by rw [← k3]; exact (names_of_carries hok k2).2.1 _ hc
      subst hcc
      have := hn _ k1
      simp at this
    · rw [h2 e hm]
      rcases flat_get (edges (run {} h)) e with h' | h' <;> rw [h']

end Verif.Props
