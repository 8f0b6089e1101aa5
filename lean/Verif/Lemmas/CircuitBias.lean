import Verif.Lemmas.CircuitLoops

/-!
# Lemmas: biases and couplings over histories
-/

set_option linter.unusedVariables false

namespace Verif.Circuit

open Verif Verif.Spec

/-! ### Edges of the maps are branches of the circuit -/

/-- The branch listed as the edge. -/
def Carries (G : MGraph) (e : Edge) (p : Edge × String) : Prop := p ∈ G.es ∧ (p.1 = e ∨ p.1.rev = e)

theorem Carries.unique {G : MGraph} (h : G.WF) {e : Edge} {p q : Edge × String} (hp : Carries G e p) (hq : Carries G e q) : p = q := by
  by_contra hne
  haveI : Std.Symm fun p q : Edge × String => p.1 ≠ q.1 ∧ p.1 ≠ q.1.rev :=
    ⟨fun p q ⟨h1, h2⟩ => ⟨fun h => h1 h.symm, fun h => h2 (by rw [h, rev_rev])⟩⟩
  obtain ⟨h1, h2⟩ := h.keys.forall hp.1 hq.1 hne
  rcases hp.2 with hp | hp <;> rcases hq.2 with hq | hq
  · exact h1 (hp.trans hq.symm)
  · exact h2 (hp.trans hq.symm)
  · exact h2 (by rw [← rev_rev p.1, hp, hq])
  · exact h1 (rev_inj (hp.trans hq.symm))

theorem Carries.rev {G : MGraph} {e : Edge} {p : Edge × String} (h : Carries G e p) : Carries G e.rev p := by
  refine ⟨h.1, ?_⟩
  rcases h.2 with h | h
  · exact Or.inr (by rw [h])
  · exact Or.inl (by rw [← h, rev_rev])

theorem Carries.addEdge {G : MGraph} {e : Edge} {p : Edge × String} (h : Carries G e p) (u v k : ℕ) (c : String) :
    Carries (G.addEdge u v k c) e p := by
  refine ⟨?_, h.2⟩
  simp only [MGraph.addEdge, MGraph.addNode_es]
  exact List.mem_append_left _ h.1

theorem carries_view {G : MGraph} (h : G.WF) {e : Edge} {c : String} (hv : (e, c) ∈ G.view ∨ (e.rev, c) ∈ G.view) :
    ∃ p, Carries G e p ∧ p.2 = c := by
  have key : ∀ e', (e', c) ∈ G.view → ∃ p, Carries G e' p ∧ p.2 = c := by
    intro e' hv
    obtain ⟨p, hp, he⟩ := (MGraph.mem_view h _).1 hv
    injection he with h1 h2
    refine ⟨p, ⟨hp, ?_⟩, h2.symm⟩
    rcases orient_cases G.nodes p.1 with h' | h'
    · exact Or.inl (by rw [h1, h'])
    · exact Or.inr (by rw [h1, h'])
  rcases hv with hv | hv
  · exact key e hv
  · obtain ⟨p, hp, hc⟩ := key e.rev hv
    refine ⟨p, ?_, hc⟩
    have := hp.rev
    rwa [rev_rev] at this

/-- The maps mention only branches of the circuit, and the superconducting ones mention only conductive branches. -/
structure Traced (g : CG) : Prop where
  cmap : ∀ e c, g.cmap.get? e = some c → ∃ p, Carries g.graph e p ∧ p.2 = c
  wc : ∀ e ∈ g.wc, ∃ p, Carries g.graph e p ∧ noncap p = true
  loops : ∀ q ∈ g.loops, ∀ e ∈ q.2, ∃ p, Carries g.graph e p ∧ noncap p = true

theorem carries_conductive {G : MGraph} (h : G.WF) {e : Edge}
    (he : e ∈ (conductiveGraph G).es.map Prod.fst ∨ e.rev ∈ (conductiveGraph G).es.map Prod.fst) :
    ∃ p, Carries G e p ∧ noncap p = true := by
  have key : ∀ e', e' ∈ (conductiveGraph G).es.map Prod.fst → ∃ p, Carries G e' p ∧ noncap p = true := by
    intro e' he'
    obtain ⟨q, hq, rfl⟩ := List.mem_map.1 he'
    obtain ⟨p, hp, hn, rfl⟩ := (conductive_mem h q).1 hq
    refine ⟨p, ⟨hp, ?_⟩, hn⟩
    rcases orient_cases G.nodes p.1 with h' | h'
    · exact Or.inl (by simp only; rw [h'])
    · exact Or.inr (by simp only; rw [h'])
  rcases he with he | he
  · exact key e he
  · obtain ⟨p, hp, hc⟩ := key e.rev he
    refine ⟨p, ?_, hc⟩
    have := hp.rev
    rwa [rev_rev] at this

theorem loopsOf_edges {o : Orc} (ho : o.OK) {src : Node} {S T : List Edge} (hS : ∀ e ∈ S, e ∈ T) :
    ∀ (cl : List Edge) (p1 : Option (List Edge)), (∀ e ∈ cl, e ∈ T) → (∀ p, p1 = some p → ∀ e ∈ p, e ∈ T) →
      (∀ l ∈ (loopsOf o src S cl p1).1, ∀ e ∈ l, e ∈ T) ∧ ∀ p, (loopsOf o src S cl p1).2.1 = some p → ∀ e ∈ p, e ∈ T := by
  intro cl
  induction cl with
  | nil => intro p1 _ h; exact ⟨by simp [loopsOf], h⟩
  | cons e cl ih =>
    intro p1 hcl h
    have snoc : ∀ x : List Edge, (∀ e ∈ x, e ∈ T) → ∀ e' ∈ x ++ [e], e' ∈ T := by
      intro x hx e' he'
      rcases List.mem_append.1 he' with he' | he'
      · exact hx e' he'
      · rw [List.mem_singleton.1 he']; exact hcl e (by simp)
    cases hf : firstPath S src e.1 with
    | some p =>
      rw [loopsOf_some hf]
      simp only
      have hpT : ∀ e ∈ p, e ∈ T := fun e he => hS e (DiWalk_mem (firstPath_some hf) e he)
      obtain ⟨h1, h2⟩ := ih (some p) (fun e' he' => hcl e' (by simp [he'])) (by rintro _ ⟨⟩; exact hpT)
      refine ⟨?_, h2⟩
      intro l hl
      rcases List.mem_cons.1 hl with rfl | hl
      · cases hf2 : firstPath S src e.2.1 with
        | none => exact snoc p hpT
        | some q =>
          have hqT : ∀ e ∈ q, e ∈ T := fun e he => hS e (DiWalk_mem (firstPath_some hf2) e he)
          exact snoc _ fun e' he' => (symDiff_mem ho he').elim (hpT e') (hqT e')
      · exact h1 l hl
    | none =>
      cases p1 with
      | none => rw [loopsOf_fail hf]; exact ⟨by simp, by rintro _ ⟨⟩⟩
      | some p =>
        rw [loopsOf_none hf]
        simp only
        obtain ⟨h1, h2⟩ := ih (some p) (fun e' he' => hcl e' (by simp [he'])) h
        refine ⟨?_, h2⟩
        intro l hl
        rcases List.mem_cons.1 hl with rfl | hl
        · exact snoc p (h p rfl)
        · exact h1 l hl

theorem allLoops_edges {o : Orc} (ho : o.OK) {T : List Edge} : ∀ (d : Dict Node VG) (p1 : Option (List Edge)),
    (∀ q ∈ d, (∀ e ∈ q.2.tree, e ∈ T) ∧ ∀ e ∈ q.2.closures, e ∈ T) → (∀ p, p1 = some p → ∀ e ∈ p, e ∈ T) →
    ∀ l ∈ (allLoops o d p1).1, ∀ e ∈ l, e ∈ T := by
  intro d
  induction d with
  | nil => intro p1 _ _ l hl; cases hl
  | cons q d ih =>
    obtain ⟨src, vg⟩ := q
    intro p1 hT h
    obtain ⟨h1, h2⟩ := loopsOf_edges ho (src := src) (hT (src, vg) (by simp)).1 vg.closures p1 (hT (src, vg) (by simp)).2 h
    have h3 := ih _ (fun q hq => hT q (by simp [hq])) h2
    rw [allLoops]
    simp only
    split_ifs
    · intro l hl
      rcases List.mem_append.1 hl with hl | hl
      · exact h1 l hl
      · exact h3 l hl
    · exact h1

theorem updateGraphs_traced {o : Orc} (ho : o.OK) {g : CG} (h : g.graph.WF) (ht : Traced g) : Traced (updateGraphs o g).1 := by
  have hw := (conductive_oriented h).toWF
  unfold updateGraphs
  simp only
  cases hv : (virtualGrounds o (conductiveGraph g.graph) (components (conductiveGraph g.graph)) []).2 with
  | error e => exact ⟨ht.cmap, ht.wc, ht.loops⟩
  | ok u =>
    simp only
    obtain ⟨hT, hC⟩ := grounds_values ho hw hv
    generalize (virtualGrounds o (conductiveGraph g.graph) (components (conductiveGraph g.graph)) []).1 = d at hT hC
    have hwc : ∀ e ∈ d.values.flatMap VG.tree ++ d.values.flatMap VG.closures, ∃ p, Carries g.graph e p ∧ noncap p = true := by
      intro e he
      apply carries_conductive h
      rcases List.mem_append.1 he with he | he
      · rw [hT] at he; exact forestOf_sub ho hw he
      · rw [hC] at he; exact allClosures_sub ho hw he
    have hl := allLoops_edges ho (T := d.values.flatMap VG.tree ++ d.values.flatMap VG.closures) d none
      (by
        intro q hq
        have hv : q.2 ∈ d.values := List.mem_map.2 ⟨q, hq, rfl⟩
        exact ⟨fun e he => List.mem_append_left _ (List.mem_flatMap.2 ⟨_, hv, he⟩),
          fun e he => List.mem_append_right _ (List.mem_flatMap.2 ⟨_, hv, he⟩)⟩) (by rintro _ ⟨⟩)
    have key : ∀ q ∈ (List.range (allLoops o d none).1.length).zip (allLoops o d none).1 ++
        (if (allLoops o d none).2 then [] else [((allLoops o d none).1.length, [])]), ∀ e ∈ q.2,
        ∃ p, Carries g.graph e p ∧ noncap p = true := by
      intro q hq e he
      rcases List.mem_append.1 hq with hq | hq
      · exact hwc e (hl q.2 (List.of_mem_zip hq).2 e he)
      · split_ifs at hq
        · cases hq
        · rw [List.mem_singleton.1 hq] at he; cases he
    split_ifs with hb
    · rw [if_pos hb] at key; exact ⟨ht.cmap, hwc, key⟩
    · rw [if_neg hb] at key; exact ⟨ht.cmap, hwc, key⟩

theorem traced_addBranch {o : Orc} (ho : o.OK) {g : CG} (hi : GraphInv g.graph) (ht : Traced g) (a b : Node) (c : String) :
    Traced (addBranch o g a b c).1 := by
  cases hc : okPrefix c with
  | false => rw [(addBranch_bad hc).1]; exact ht
  | true =>
    rw [addBranch_good hc]
    obtain ⟨r2, r3, h2, h3, he⟩ := insertBranch_eq o g a b c
    have hw : (withEdge g a b c).graph.WF := (hi.addEdge a b c).toWF
    have f2 := updateComponentsMap_frame (withEdge g a b c)
    have hgr : r2.1.graph = (withEdge g a b c).graph := by rw [h2, f2]
    have hcm : ∀ e x, r2.1.cmap.get? e = some x → (e, x) ∈ (withEdge g a b c).graph.view ∨ (e.rev, x) ∈ (withEdge g a b c).graph.view := by
      intro e x hx
      cases hr : r2.2 with
      | ok u =>
        rw [h2] at hr hx
        exact ((updateComponentsMap_ok hw hr).2.1 e x).1 hx
      | error y =>
        have hd : ¬ ((withEdge g a b c).graph.es.map Prod.snd).Nodup := by
          intro hn
          have := updateComponentsMap_fresh hw hn
          rw [← h2, hr] at this; cases this
        rw [h2, updateComponentsMap_err hw hd] at hx
        exact Or.inl (Dict.mem_of_get? hx)
    have ht2 : Traced r2.1 := by
      refine ⟨?_, ?_, ?_⟩
      · intro e x hx; rw [hgr]; exact carries_view hw (hcm e x hx)
      · intro e hewc
        have hwc : r2.1.wc = g.wc := by rw [h2, f2]; rfl
        rw [hwc] at hewc
        obtain ⟨p, hp, hn⟩ := ht.wc e hewc
        rw [hgr]; exact ⟨p, hp.addEdge a b _ c, hn⟩
      · intro q hq e heq
        have hl : r2.1.loops = g.loops := by rw [h2, f2]; rfl
        rw [hl] at hq
        obtain ⟨p, hp, hn⟩ := ht.loops q hq e heq
        rw [hgr]; exact ⟨p, hp.addEdge a b _ c, hn⟩
    have ht3 : Traced r3.1 := by rw [h3]; exact updateGraphs_traced ho (by rw [hgr]; exact hw) ht2
    rw [he]
    clear he h2 h3 hgr hcm
    obtain ⟨s2, x2⟩ := r2
    obtain ⟨s3, x3⟩ := r3
    cases x2 with
    | error e => exact ht2
    | ok u =>
      cases x3 with
      | error e => exact ht3
      | ok u => exact ⟨ht3.cmap, ht3.wc, ht3.loops⟩

theorem Traced.of_same {g g' : CG} (h : Traced g) (hs : SameCircuit g g') : Traced g' :=
  ⟨by rw [hs.cmap, hs.graph]; exact h.cmap, by rw [hs.wc, hs.graph]; exact h.wc, by rw [hs.loops, hs.graph]; exact h.loops⟩

/-- An invariant proof over histories with well-formed graphs and traced maps at hand. -/
theorem run_inv' {P : CG → Prop} {l : List Call} (hok : ∀ x ∈ l, x.OK) (h0 : P {})
    (hstep : ∀ g c, c ∈ l → GraphInv g.graph → Traced g → P g → P (step g c).1) :
    GraphInv (run {} l).graph ∧ Traced (run {} l) ∧ P (run {} l) := by
  apply run_inv (P := fun g => GraphInv g.graph ∧ Traced g ∧ P g)
  · exact ⟨GraphInv.empty, ⟨(by intro e c h; cases h), (by intro e h; cases h), (by intro q h; cases h)⟩, h0⟩
  · intro g c hc ⟨h1, h2, h3⟩
    refine ⟨graphInv_step h1 c, ?_, hstep g c hc h1 h2 h3⟩
    cases hb : c.isBranch with
    | false => exact h2.of_same (step_same hb)
    | true =>
      cases c with
      | addBranch o a b c => exact traced_addBranch (hok _ hc) h1 h2 a b c
      | _ => cases hb

theorem traced_run {l : List Call} (hok : ∀ x ∈ l, x.OK) : Traced (run {} l) :=
  (run_inv' (P := fun _ => True) hok trivial fun _ _ _ _ _ _ => trivial).2.1

/-! ### Looking up a component -/

theorem edgesMap_sound (g : CG) : ∀ (keys : List Edge) (d d' : Dict String Edge),
    keys.foldlM (fun d k => match g.cmap.get? k with
      | none => (.error .keyError : Except Err (Dict String Edge))
      | some c => .ok (d.set c k)) d = .ok d' →
    ∀ c k, Dict.get? d' c = some k → Dict.get? d c = some k ∨ (k ∈ keys ∧ g.cmap.get? k = some c) := by
  intro keys
  induction keys with
  | nil => intro d d' h c k hk; injection h with h; subst h; exact Or.inl hk
  | cons k0 keys ih =>
    intro d d' h c k hk
    rw [List.foldlM_cons] at h
    cases hg : g.cmap.get? k0 with
    | none => rw [hg] at h; cases h
    | some c0 =>
      rw [hg] at h
      rcases ih _ _ h c k hk with h1 | ⟨h1, h2⟩
      · rw [Dict.get?_set] at h1
        split_ifs at h1 with h3
        · injection h1 with h1; subst h1; subst h3; exact Or.inr ⟨by simp, hg⟩
        · exact Or.inl h1
      · exact Or.inr ⟨by simp [h1], h2⟩

theorem getComponentEdge_ok {g : CG} {c : String} {e : Edge} (h : getComponentEdge g c = .ok e) :
    g.cmap.get? e = some c ∧ (pre c ≠ some 'C' → e ∈ g.wc) := by
  unfold getComponentEdge at h
  by_cases h1 : c ∈ g.cmap.values
  swap
  · rw [if_pos h1] at h; cases h
  rw [if_neg (not_not.2 h1)] at h
  cases hm : edgesMap g (if pre c = some 'C' then g.cmap.keys else g.wc) with
  | error x => rw [hm] at h; cases h
  | ok d =>
    rw [hm] at h
    simp only at h
    cases hg : Dict.get? d c with
    | none => rw [hg] at h; cases h
    | some e' =>
      rw [hg] at h
      injection h with h; subst h
      rcases edgesMap_sound g _ [] d hm c e' hg with h2 | ⟨h2, h3⟩
      · cases h2
      · refine ⟨h3, fun hp => ?_⟩
        rw [if_neg hp] at h2; exact h2

theorem noncap_pre {p : Edge × String} (h : noncap p = true) : pre p.2 ≠ some 'C' := by
  simpa [noncap] using h

theorem set_append {κ α : Type} [DecidableEq κ] {d : Dict κ α} {k : κ} (v : α) (h : k ∉ Dict.keys d) : Dict.set d k v = d ++ [(k, v)] := by
  induction d with
  | nil => rfl
  | cons p d ih =>
    obtain ⟨k', v'⟩ := p
    simp only [Dict.keys, List.map_cons, List.mem_cons, not_or] at h
    rw [Dict.set, if_neg (Ne.symm h.1), ih h.2]; rfl

/-! ### Flux biases -/

theorem has_false {κ α : Type} [DecidableEq κ] {d : Dict κ α} {k : κ} (h : ¬ Dict.has d k = true) : k ∉ Dict.keys d :=
  fun h' => h ((Dict.has_iff d k).2 h')

theorem isEdgeOf_true {g : CG} {p : Char} {e : Edge} (h : isEdgeOf g p e = .ok true) : ∃ c, g.cmap.get? e = some c ∧ pre c = some p := by
  unfold isEdgeOf at h
  cases hc : g.cmap.get? e with
  | none => rw [hc] at h; cases h
  | some c => rw [hc] at h; exact ⟨c, rfl, by simpa using h⟩

/-- What a successful `addFluxBias` has checked and done. -/
theorem addFluxBias_ok {g : CG} (hw : g.graph.WF) (ht : Traced g) {c : String} {s m : Option String}
    (h : (addFluxBias g c s m).2 = .ok ()) :
    ∃ e s', s = some s' ∧ s'.length ≤ 8 ∧ g.cmap.get? e = some c ∧ e ∈ g.wc ∧ (∃ q ∈ g.loops, e ∈ q.2) ∧ pre c ≠ some 'C' ∧
      (∀ m', m = some m' → pre m' = some 'M' ∧ pre c = some 'L' ∧ m' ∉ g.cmap.values) ∧
      e ∉ Dict.keys g.fluxBias ∧ s' ∉ g.fluxBias.values.map Bias.suffix ∧
      (addFluxBias g c s m).1 = { g with fluxBias := g.fluxBias ++ [(e, ⟨m, s'⟩)] } := by
  unfold addFluxBias at h ⊢
  cases hg : getComponentEdge g c with
  | error x => rw [hg] at h; cases h
  | ok e =>
    rw [hg] at h
    obtain ⟨hce, hcw⟩ := getComponentEdge_ok hg
    simp only at h ⊢
    cases hl : isEdgeInLoop g e with
    | error x => rw [hl] at h; cases h
    | ok b =>
      rw [hl] at h
      cases b with
      | false => cases h
      | true =>
        have hloop : ∃ q ∈ g.loops, e ∈ q.2 := by
          unfold isEdgeInLoop at hl
          split_ifs at hl
          injection hl with hl
          simpa using hl
        obtain ⟨q, hq, heq⟩ := hloop
        obtain ⟨p, hp, hpn⟩ := ht.loops q hq e heq
        obtain ⟨p', hp', hpc⟩ := ht.cmap e c hce
        have hpp := hp.unique hw hp'
        have hnC : pre c ≠ some 'C' := by rw [← hpc, ← hpp]; exact noncap_pre hpn
        have hewc := hcw hnC
        have hor : orientWc g e = e := by unfold orientWc; rw [if_pos hewc]
        simp only at h ⊢
        cases s with
        | none => cases h
        | some s' =>
          simp only [hor] at h ⊢
          by_cases hlen : s'.length > 8
          · rw [if_pos hlen] at h; cases h
          rw [if_neg hlen] at h ⊢
          rw [if_neg (fun h => h.1 hewc)] at h ⊢
          cases m with
          | none =>
            simp only at h ⊢
            by_cases hk : Dict.has g.fluxBias e = true
            · rw [if_pos hk] at h; cases h
            rw [if_neg hk] at h ⊢
            by_cases hs : s' ∈ g.fluxBias.values.map Bias.suffix
            · rw [if_pos hs] at h; cases h
            rw [if_neg hs]
            refine ⟨e, s', rfl, by omega, hce, hewc, ⟨q, hq, heq⟩, hnC, by rintro _ ⟨⟩, has_false hk, hs, ?_⟩
            simp only
            rw [set_append _ (has_false hk)]
          | some m' =>
            simp only at h ⊢
            cases hm : pre m' with
            | none => rw [hm] at h; cases h
            | some pm =>
              rw [hm] at h
              simp only at h ⊢
              by_cases hM : pm = 'M'
              swap
              · rw [if_pos hM] at h; cases h
              rw [if_neg (not_not.2 hM)] at h ⊢
              cases hL : isEdgeOf g 'L' e with
              | error x => rw [hL] at h; cases h
              | ok b =>
                rw [hL] at h
                cases b with
                | false => cases h
                | true =>
                  simp only at h ⊢
                  by_cases hv : m' ∈ g.cmap.values
                  · rw [if_pos hv] at h; cases h
                  rw [if_neg hv] at h ⊢
                  simp only at h ⊢
                  by_cases hk : Dict.has g.fluxBias e = true
                  · rw [if_pos hk] at h; cases h
                  rw [if_neg hk] at h ⊢
                  by_cases hs : s' ∈ g.fluxBias.values.map Bias.suffix
                  · rw [if_pos hs] at h; cases h
                  rw [if_neg hs]
                  obtain ⟨c', hc', hcl⟩ := isEdgeOf_true hL
                  rw [hce] at hc'; injection hc' with hc'; subst hc'
                  refine ⟨e, s', rfl, by omega, hce, hewc, ⟨q, hq, heq⟩, hnC, ?_, has_false hk, hs, ?_⟩
                  · rintro _ ⟨⟩
                    exact ⟨by rw [hm, hM], hcl, hv⟩
                  · simp only
                    rw [set_append _ (has_false hk)]

theorem addFluxBias_err {g : CG} {c : String} {s m : Option String} {x : Err} (h : (addFluxBias g c s m).2 = .error x) :
    (addFluxBias g c s m).1 = g := by
  have key : (addFluxBias g c s m).1 = g ∨ (addFluxBias g c s m).2 = .ok () := by
    unfold addFluxBias
    split
    · exact Or.inl rfl
    · split
      · exact Or.inl rfl
      · exact Or.inl rfl
      · split
        · exact Or.inl rfl
        · split
          · exact Or.inl rfl
          · split
            · exact Or.inl rfl
            · extract_lets e' check
              cases check with
              | error x => exact Or.inl rfl
              | ok u =>
                simp only
                split
                · exact Or.inl rfl
                · split
                  · exact Or.inl rfl
                  · exact Or.inr rfl
  rcases key with h' | h'
  · exact h'
  · rw [h] at h'; cases h'


/-! ### Charge biases -/

theorem addChargeBias_ok {g : CG} {n : Node} {s m : Option String} (h : (addChargeBias g n s m).2 = .ok ()) :
    ∃ s', s = some s' ∧ s'.length ≤ 8 ∧ n ∈ g.graph.nodes ∧
      (∀ m', m = some m' → pre m' = some 'C' ∧ m' ∉ g.cmap.values) ∧
      n ∉ Dict.keys g.chargeBias ∧ s' ∉ g.chargeBias.values.map Bias.suffix ∧
      (addChargeBias g n s m).1 = { g with chargeBias := g.chargeBias ++ [(n, ⟨m, s'⟩)] } := by
  unfold addChargeBias at h ⊢
  by_cases hn : n ∈ g.graph.nodes
  swap
  · rw [if_pos hn] at h; cases h
  rw [if_neg (not_not.2 hn)] at h ⊢
  cases s with
  | none => cases h
  | some s' =>
    simp only at h ⊢
    by_cases hlen : s'.length > 8
    · rw [if_pos hlen] at h; cases h
    rw [if_neg hlen] at h ⊢
    cases m with
    | none =>
      simp only at h ⊢
      by_cases hk : Dict.has g.chargeBias n = true
      · rw [if_pos hk] at h; cases h
      rw [if_neg hk] at h ⊢
      by_cases hs : s' ∈ g.chargeBias.values.map Bias.suffix
      · rw [if_pos hs] at h; cases h
      rw [if_neg hs]
      refine ⟨s', rfl, by omega, hn, by rintro _ ⟨⟩, has_false hk, hs, ?_⟩
      simp only
      rw [set_append _ (has_false hk)]
    | some m' =>
      simp only at h ⊢
      cases hm : pre m' with
      | none => rw [hm] at h; cases h
      | some pm =>
        rw [hm] at h
        simp only at h ⊢
        by_cases hM : pm = 'C'
        swap
        · rw [if_pos hM] at h; cases h
        rw [if_neg (not_not.2 hM)] at h ⊢
        by_cases hv : m' ∈ g.cmap.values
        · rw [if_pos hv] at h; cases h
        rw [if_neg hv] at h ⊢
        simp only at h ⊢
        by_cases hk : Dict.has g.chargeBias n = true
        · rw [if_pos hk] at h; cases h
        rw [if_neg hk] at h ⊢
        by_cases hs : s' ∈ g.chargeBias.values.map Bias.suffix
        · rw [if_pos hs] at h; cases h
        rw [if_neg hs]
        refine ⟨s', rfl, by omega, hn, ?_, has_false hk, hs, ?_⟩
        · rintro _ ⟨⟩
          exact ⟨by rw [hm, hM], hv⟩
        · simp only
          rw [set_append _ (has_false hk)]

theorem addChargeBias_err {g : CG} {n : Node} {s m : Option String} {x : Err} (h : (addChargeBias g n s m).2 = .error x) :
    (addChargeBias g n s m).1 = g := by
  have key : (addChargeBias g n s m).1 = g ∨ (addChargeBias g n s m).2 = .ok () := by
    unfold addChargeBias
    split
    · exact Or.inl rfl
    · split
      · exact Or.inl rfl
      · split
        · exact Or.inl rfl
        · extract_lets check
          cases check with
          | error x => exact Or.inl rfl
          | ok u =>
            simp only
            split
            · exact Or.inl rfl
            · split
              · exact Or.inl rfl
              · exact Or.inr rfl
  rcases key with h' | h'
  · exact h'
  · rw [h] at h'; cases h'


/-! ### Couplings -/

theorem coupleBranches_ok {g : CG} {a b m : String} (h : (coupleBranches g a b m).2 = .ok ()) :
    ∃ e1 e2, pre m = some 'M' ∧ m ∉ Dict.keys g.coupled ∧ g.cmap.get? e1 = some a ∧ g.cmap.get? e2 = some b ∧
      pre a = some 'L' ∧ pre b = some 'L' ∧ e1 ∈ g.wc ∧ e2 ∈ g.wc ∧
      (∀ q ∈ g.coupled, ¬ ((q.2.1 = e1 ∧ q.2.2 = e2) ∨ (q.2.1 = e2 ∧ q.2.2 = e1))) ∧
      (coupleBranches g a b m).1 = { g with coupled := g.coupled ++ [(m, (e1, e2))] } := by
  unfold coupleBranches at h ⊢
  cases hm : pre m with
  | none => rw [hm] at h; cases h
  | some pm =>
    rw [hm] at h
    simp only at h ⊢
    by_cases hM : pm = 'M'
    swap
    · rw [if_pos hM] at h; cases h
    rw [if_neg (not_not.2 hM)] at h ⊢
    by_cases hk : Dict.has g.coupled m = true
    · rw [if_pos hk] at h; cases h
    rw [if_neg hk] at h ⊢
    cases h1 : getComponentEdge g a with
    | error x => rw [h1] at h; cases h
    | ok e1 =>
      cases h2 : getComponentEdge g b with
      | error x => rw [h1, h2] at h; cases h
      | ok e2 =>
        rw [h1, h2] at h
        simp only at h ⊢
        obtain ⟨hc1, hw1⟩ := getComponentEdge_ok h1
        obtain ⟨hc2, hw2⟩ := getComponentEdge_ok h2
        cases hL1 : isEdgeOf g 'L' e1 with
        | error x => rw [hL1] at h; cases h
        | ok b1 =>
          rw [hL1] at h
          cases b1 with
          | false => cases h
          | true =>
            cases hL2 : isEdgeOf g 'L' e2 with
            | error x => rw [hL2] at h; cases h
            | ok b2 =>
              rw [hL2] at h
              cases b2 with
              | false => cases h
              | true =>
                obtain ⟨c1, hc1', hp1⟩ := isEdgeOf_true hL1
                obtain ⟨c2, hc2', hp2⟩ := isEdgeOf_true hL2
                rw [hc1] at hc1'; injection hc1' with hc1'; subst hc1'
                rw [hc2] at hc2'; injection hc2' with hc2'; subst hc2'
                have hx1 := hw1 (by rw [hp1]; decide)
                have hx2 := hw2 (by rw [hp2]; decide)
                have o1 : orientWc g e1 = e1 := by unfold orientWc; rw [if_pos hx1]
                have o2 : orientWc g e2 = e2 := by unfold orientWc; rw [if_pos hx2]
                simp only [o1, o2] at h ⊢
                split at h
                · cases h
                · rename_i hany
                  refine ⟨e1, e2, by rw [hM], has_false hk, hc1, hc2, hp1, hp2, hx1, hx2, ?_, ?_⟩
                  · intro q hq hor
                    apply hany
                    rw [List.any_eq_true]
                    refine ⟨q, hq, ?_⟩
                    rcases hor with ⟨h3, h4⟩ | ⟨h3, h4⟩ <;> simp [h3, h4]
                  · rw [if_neg hany]
                    simp only
                    rw [set_append _ (has_false hk)]

theorem coupleBranches_err {g : CG} {a b m : String} {x : Err} (h : (coupleBranches g a b m).2 = .error x) :
    (coupleBranches g a b m).1 = g := by
  have key : (coupleBranches g a b m).1 = g ∨ (coupleBranches g a b m).2 = .ok () := by
    unfold coupleBranches
    simp only
    repeat' split
    all_goals first | exact Or.inl rfl | exact Or.inr rfl
  rcases key with h' | h'
  · exact h'
  · rw [h] at h'; cases h'


/-! ### Resonators -/

theorem coupleResonator_ok {g : CG} {n : Node} {c : String} (h : (coupleResonator g n c).2 = .ok ()) :
    n ∈ g.graph.nodes ∧ n ≠ 0 ∧ g.resonators.get? n = some none ∧ pre c = some 'C' ∧ c ∉ g.cmap.values ∧
      (coupleResonator g n c).1 = { g with resonators := g.resonators.set n (some (mkResonator n c)) } := by
  unfold coupleResonator at h ⊢
  by_cases hn : n ∈ g.graph.nodes
  swap
  · rw [if_pos hn] at h; cases h
  rw [if_neg (not_not.2 hn)] at h ⊢
  by_cases h0 : n = 0
  · rw [if_pos h0] at h; cases h
  rw [if_neg h0] at h ⊢
  cases hg : g.resonators.get? n with
  | none => rw [hg] at h; cases h
  | some r =>
    rw [hg] at h
    cases r with
    | some r => cases h
    | none =>
      simp only at h ⊢
      cases hp : pre c with
      | none => rw [hp] at h; cases h
      | some p =>
        rw [hp] at h
        simp only at h ⊢
        by_cases hC : p = 'C'
        swap
        · rw [if_pos hC] at h; cases h
        rw [if_neg (not_not.2 hC)] at h ⊢
        by_cases hv : c ∈ g.cmap.values
        · rw [if_pos hv] at h; cases h
        rw [if_neg hv]
        exact ⟨hn, h0, trivial, by rw [hC], hv, rfl⟩

theorem coupleResonator_err {g : CG} {n : Node} {c : String} {x : Err} (h : (coupleResonator g n c).2 = .error x) :
    (coupleResonator g n c).1 = g := by
  have key : (coupleResonator g n c).1 = g ∨ (coupleResonator g n c).2 = .ok () := by
    unfold coupleResonator
    repeat' split
    all_goals first | exact Or.inl rfl | exact Or.inr rfl
  rcases key with h' | h'
  · exact h'
  · rw [h] at h'; cases h'


end Verif.Circuit
