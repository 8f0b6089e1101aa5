import Verif.Lemmas.CircuitForest

/-!
# Lemmas: histories of calls on a circuit
-/

set_option linter.unusedVariables false

namespace Verif.Circuit

open Verif Verif.Spec

/-! ### Dictionaries -/

section Dicts

variable {κ α : Type} [DecidableEq κ]

theorem get?_foldl_set : ∀ (l d : Dict κ α), (Dict.keys l).Nodup → ∀ k,
    Dict.get? (l.foldl (fun d p => Dict.set d p.1 p.2) d) k = (match Dict.get? l k with | some v => some v | none => Dict.get? d k) := by
  intro l
  induction l with
  | nil => intro d _ k; rfl
  | cons p l ih =>
    intro d hn k
    simp only [Dict.keys, List.map_cons, List.nodup_cons] at hn
    rw [List.foldl_cons, ih _ hn.2]
    obtain ⟨k', v⟩ := p
    by_cases hk : k' = k
    · subst hk
      have : Dict.get? l k' = none := (Dict.get?_eq_none_iff _ _).2 hn.1
      simp [this]
    · simp [hk, Dict.get?_set_ne _ _ hk]

theorem get?_iff_mem {d : Dict κ α} (hn : (Dict.keys d).Nodup) (k : κ) (v : α) : Dict.get? d k = some v ↔ (k, v) ∈ d :=
  ⟨Dict.mem_of_get?, Dict.get?_of_mem hn⟩

theorem foldl_set_map {β : Type} (f : β → κ) (g : β → α) : ∀ (l : List β) (d : Dict κ α),
    (Dict.keys d ++ l.map f).Nodup → l.foldl (fun d p => Dict.set d (f p) (g p)) d = d ++ l.map fun p => (f p, g p) := by
  intro l
  induction l with
  | nil => intro d _; simp
  | cons p l ih =>
    intro d hn
    have hk : f p ∉ Dict.keys d := by
      intro hk; exact (List.nodup_append.1 hn).2.2 _ hk (f p) (by simp) rfl
    have hset : Dict.set d (f p) (g p) = d ++ [(f p, g p)] := by
      clear ih hn
      induction d with
      | nil => rfl
      | cons q d ih =>
        obtain ⟨k', v'⟩ := q
        simp only [Dict.keys, List.map_cons, List.mem_cons, not_or] at hk
        have hj : ¬ k' = f p := fun e => hk.1 e.symm
        simp [Dict.set, hj, ih hk.2]
    rw [List.foldl_cons, hset, ih]
    · simp
    · simpa [Dict.keys] using hn

end Dicts

/-! ### The components map -/

/-- What `_update_components_map` does when it succeeds. -/
theorem updateComponentsMap_ok {g : CG} (h : g.graph.WF) (hok : (updateComponentsMap g).2 = .ok ()) :
    (g.graph.es.map Prod.snd).Nodup ∧ (∀ e c, (updateComponentsMap g).1.cmap.get? e = some c ↔
      (e, c) ∈ g.graph.view ∨ (e.rev, c) ∈ g.graph.view) ∧
    (updateComponentsMap g).1 = { g with cmap := (updateComponentsMap g).1.cmap } := by
  unfold updateComponentsMap at hok ⊢
  simp only at hok ⊢
  by_cases hnd : (Dict.values g.graph.view).Nodup
  swap
  · rw [if_pos hnd] at hok; cases hok
  · rw [if_neg (not_not.2 hnd)]
    have hperm := MGraph.view_perm h
    have hkeys : (Dict.keys g.graph.view).Nodup := MGraph.edges_nodup h
    refine ⟨?_, ?_, rfl⟩
    · have := (hperm.map Prod.snd).nodup_iff.1 hnd
      simpa [List.map_map, Function.comp_def] using this
    · intro e c
      have htmp : (g.graph.view.foldl (fun d p => Dict.set d p.1.rev p.2) ([] : Dict Edge String)) =
          g.graph.view.map fun p => (p.1.rev, p.2) := by
        rw [foldl_set_map (fun p : Edge × String => p.1.rev) Prod.snd]
        · simp
        · simp only [Dict.keys, List.map_nil, List.nil_append]
          have : (g.graph.view.map fun p : Edge × String => p.1.rev) = (Dict.keys g.graph.view).map Edge.rev := by
            simp [Dict.keys, List.map_map, Function.comp_def]
          rw [this]
          exact hkeys.map fun a b => rev_inj
      rw [htmp]
      have hnd2 : (Dict.keys (g.graph.view.map fun p => (p.1.rev, p.2))).Nodup := by
        have : Dict.keys (g.graph.view.map fun p => (p.1.rev, p.2)) = (Dict.keys g.graph.view).map Edge.rev := by
          simp [Dict.keys, List.map_map, Function.comp_def]
        rw [this]
        exact hkeys.map fun a b => rev_inj
      rw [get?_foldl_set _ _ hnd2]
      have hmem : ∀ c', (e, c') ∈ (g.graph.view.map fun p => (p.1.rev, p.2)) ↔ (e.rev, c') ∈ g.graph.view := by
        intro c'
        rw [List.mem_map]
        constructor
        · rintro ⟨p, hp, hpe⟩
          injection hpe with h1 h2
          rw [← h1, rev_rev, ← h2]; exact hp
        · intro hp; exact ⟨_, hp, by rw [rev_rev]⟩
      have hcons : ∀ c1 c2, (e, c1) ∈ g.graph.view → (e.rev, c2) ∈ g.graph.view → c1 = c2 := by
        intro c1 c2 h1 h2
        by_contra hne
        haveI : Std.Symm fun p q : Edge × String => p.1 ≠ q.1 ∧ p.1 ≠ q.1.rev :=
          ⟨fun p q ⟨h1, h2⟩ => ⟨fun h => h1 h.symm, fun h => h2 (by rw [h, rev_rev])⟩⟩
        exact ((view_keys h).forall h1 h2 (fun h => hne (congrArg Prod.snd h))).2 (by rw [rev_rev])
      cases hg : Dict.get? (g.graph.view.map fun p => (p.1.rev, p.2)) e with
      | some v =>
        have hv := (hmem v).1 (Dict.mem_of_get? hg)
        simp only [Option.some.injEq]
        constructor
        · rintro rfl; exact Or.inr hv
        · rintro (h1 | h1)
          · exact (hcons c v h1 hv).symm
          · have := (get?_iff_mem hnd2 e c).2 ((hmem c).2 h1)
            rw [hg] at this; injection this
      | none =>
        simp only
        rw [get?_iff_mem hkeys]
        constructor
        · exact Or.inl
        · rintro (h1 | h1)
          · exact h1
          · have := (get?_iff_mem hnd2 e c).2 ((hmem c).2 h1)
            rw [hg] at this; cases this

theorem updateComponentsMap_err {g : CG} (h : g.graph.WF) (hd : ¬ (g.graph.es.map Prod.snd).Nodup) :
    updateComponentsMap g = ({ g with cmap := g.graph.view }, .error .valueError) := by
  unfold updateComponentsMap
  simp only
  rw [if_pos]
  intro hn
  apply hd
  have := ((MGraph.view_perm h).map Prod.snd).nodup_iff.1 hn
  simpa [List.map_map, Function.comp_def] using this

theorem updateComponentsMap_fresh {g : CG} (h : g.graph.WF) (hd : (g.graph.es.map Prod.snd).Nodup) :
    (updateComponentsMap g).2 = .ok () := by
  unfold updateComponentsMap
  simp only
  rw [if_neg]
  rw [not_not]
  apply ((MGraph.view_perm h).map Prod.snd).nodup_iff.2
  simpa [List.map_map, Function.comp_def] using hd

/-! ### The graph of a history -/

/-- The keys between two nodes are smaller than their number. -/
structure GraphInv (G : MGraph) : Prop extends G.WF where
  small : ∀ p ∈ G.es, p.1.2.2 < G.newKey p.1.1 p.1.2.1

theorem joins_comm (e : Edge) (u v : Node) : MGraph.joins e u v = MGraph.joins e v u := by
  simp only [MGraph.joins]; exact Bool.or_comm _ _

theorem newKey_comm (G : MGraph) (u v : Node) : G.newKey u v = G.newKey v u := by
  unfold MGraph.newKey
  congr 2; funext p; exact joins_comm _ _ _

theorem GraphInv.empty : GraphInv {} := ⟨MGraph.WF.empty, by simp⟩

theorem GraphInv.addEdge {G : MGraph} (h : GraphInv G) (u v : Node) (c : String) : GraphInv (G.addEdge u v (G.newKey u v) c) := by
  refine ⟨h.toWF.addEdge ?_, ?_⟩
  · intro p hp hj
    have h1 := h.small p hp
    rcases (MGraph.joins_iff _ _ _).1 hj with ⟨rfl, rfl⟩ | ⟨rfl, rfl⟩
    · omega
    · rw [newKey_comm]; omega
  · intro p hp
    simp only [MGraph.addEdge, MGraph.addNode_es, List.mem_append, List.mem_singleton] at hp
    have hk : ∀ k a b, (G.addEdge u v k c).newKey a b =
        G.newKey a b + if MGraph.joins (u, v, k) a b then 1 else 0 := by
      intro k a b
      conv_lhs => unfold MGraph.newKey
      simp only [MGraph.addEdge, MGraph.addNode_es, List.filter_append, List.length_append, List.filter_cons, List.filter_nil]
      congr 1
      split_ifs <;> rfl
    rw [hk]
    rcases hp with hp | rfl
    · have := h.small p hp; omega
    · have : MGraph.joins (u, v, G.newKey u v) u v = true := by simp [MGraph.joins]
      simp [this]

/-- The first character of a branch component. -/
def okPrefix (c : String) : Bool := match pre c with
  | none => false
  | some p => p ≠ 'M' ∧ p ∈ elementPrefixes

theorem addBranch_bad {o : Orc} {g : CG} {a b : Node} {c : String} (hc : okPrefix c = false) :
    (addBranch o g a b c).1 = g ∧ ∃ e, (addBranch o g a b c).2 = .error e := by
  unfold okPrefix at hc
  unfold addBranch
  cases hp : pre c with
  | none => exact ⟨rfl, Err.indexError, rfl⟩
  | some p =>
    rw [hp] at hc
    simp only
    by_cases h1 : p = 'M'
    · rw [if_pos h1]; exact ⟨rfl, _, rfl⟩
    · rw [if_neg h1]
      by_cases h2 : p ∉ elementPrefixes
      · rw [if_pos h2]; exact ⟨rfl, _, rfl⟩
      · exfalso
        rw [not_not] at h2
        simp [h1, h2] at hc

/-- The state in which `addBranch` updates its maps. -/
def withEdge (g : CG) (a b : Node) (c : String) : CG := { g with graph := g.graph.addEdge a b (g.graph.newKey a b) c }

theorem addBranch_good {o : Orc} {g : CG} {a b : Node} {c : String} (hc : okPrefix c = true) :
    addBranch o g a b c = insertBranch o g a b c := by
  unfold okPrefix at hc
  unfold addBranch
  cases hp : pre c with
  | none => rw [hp] at hc; cases hc
  | some p =>
    rw [hp] at hc
    simp only [ne_eq, decide_eq_true_eq] at hc
    simp only
    rw [if_neg hc.1, if_neg (not_not.2 hc.2)]

theorem insertBranch_eq (o : Orc) (g : CG) (a b : Node) (c : String) : ∃ r2 r3,
    r2 = updateComponentsMap (withEdge g a b c) ∧ r3 = updateGraphs o r2.1 ∧
    insertBranch o g a b c = (match r2.2 with
      | .error e => (r2.1, .error e)
      | .ok () => match r3.2 with
        | .error e => (r3.1, .error e)
        | .ok () => ({ r3.1 with resonators := updateCouplings r3.1.resonators a b }, .ok ())) :=
  by
  refine ⟨updateComponentsMap (withEdge g a b c), updateGraphs o (updateComponentsMap (withEdge g a b c)).1, rfl, rfl, ?_⟩
  unfold insertBranch withEdge
  simp only
  generalize updateComponentsMap _ = r2
  generalize updateGraphs o r2.1 = r3
  obtain ⟨s2, x2⟩ := r2
  obtain ⟨s3, x3⟩ := r3
  cases x2 <;> cases x3 <;> rfl

theorem updateComponentsMap_frame (g : CG) :
    (updateComponentsMap g).1 = { g with cmap := (updateComponentsMap g).1.cmap } := by
  unfold updateComponentsMap; simp only; split_ifs <;> rfl

/-- `_update_graphs` writes only the derived graphs. -/
theorem updateGraphs_frame (o : Orc) (g : CG) :
    (updateGraphs o g).1 = { g with
      conductive := (updateGraphs o g).1.conductive
      grounds := (updateGraphs o g).1.grounds
      tree := (updateGraphs o g).1.tree
      wc := (updateGraphs o g).1.wc
      closures := (updateGraphs o g).1.closures
      loops := (updateGraphs o g).1.loops
      loopClosures := (updateGraphs o g).1.loopClosures } := by
  unfold updateGraphs
  simp only
  split
  · rfl
  · split_ifs <;> rfl

theorem insertBranch_frame (o : Orc) (g : CG) (a b : Node) (c : String) :
    (insertBranch o g a b c).1.graph = g.graph.addEdge a b (g.graph.newKey a b) c ∧
    (insertBranch o g a b c).1.chargeBias = g.chargeBias ∧ (insertBranch o g a b c).1.fluxBias = g.fluxBias ∧
    (insertBranch o g a b c).1.coupled = g.coupled ∧
    ((insertBranch o g a b c).1.resonators = g.resonators ∨
      ((insertBranch o g a b c).2 = .ok () ∧ (insertBranch o g a b c).1.resonators = updateCouplings g.resonators a b)) := by
  obtain ⟨r2, r3, h2, h3, he⟩ := insertBranch_eq o g a b c
  rw [he]
  have f2 := updateComponentsMap_frame (withEdge g a b c)
  rw [← h2] at f2
  have f3 := updateGraphs_frame o r2.1
  rw [← h3] at f3
  clear h2 h3 he
  obtain ⟨s2, x2⟩ := r2
  obtain ⟨s3, x3⟩ := r3
  simp only at f2 f3 ⊢
  have e1 : s2.graph = g.graph.addEdge a b (g.graph.newKey a b) c := by rw [f2]; rfl
  have e2 : s2.chargeBias = g.chargeBias := by rw [f2]; rfl
  have e3 : s2.fluxBias = g.fluxBias := by rw [f2]; rfl
  have e4 : s2.coupled = g.coupled := by rw [f2]; rfl
  have e5 : s2.resonators = g.resonators := by rw [f2]; rfl
  have d1 : s3.graph = s2.graph := by rw [f3]
  have d2 : s3.chargeBias = s2.chargeBias := by rw [f3]
  have d3 : s3.fluxBias = s2.fluxBias := by rw [f3]
  have d4 : s3.coupled = s2.coupled := by rw [f3]
  have d5 : s3.resonators = s2.resonators := by rw [f3]
  cases x2 with
  | error e => exact ⟨e1, e2, e3, e4, Or.inl e5⟩
  | ok u =>
    cases x3 with
    | error e => exact ⟨d1.trans e1, d2.trans e2, d3.trans e3, d4.trans e4, Or.inl (d5.trans e5)⟩
    | ok u =>
      refine ⟨d1.trans e1, d2.trans e2, d3.trans e3, d4.trans e4, Or.inr ⟨rfl, ?_⟩⟩
      simp only
      rw [d5.trans e5]

theorem addBranch_graph {o : Orc} {g : CG} {a b : Node} {c : String} (hc : okPrefix c = true) :
    (addBranch o g a b c).1.graph = g.graph.addEdge a b (g.graph.newKey a b) c := by
  rw [addBranch_good hc]; exact (insertBranch_frame o g a b c).1

theorem addBranch_frame {o : Orc} {g : CG} {a b : Node} {c : String} :
    (addBranch o g a b c).1.chargeBias = g.chargeBias ∧ (addBranch o g a b c).1.fluxBias = g.fluxBias ∧
    (addBranch o g a b c).1.coupled = g.coupled ∧
    ((addBranch o g a b c).1.resonators = g.resonators ∨
      ((addBranch o g a b c).2 = .ok () ∧ (addBranch o g a b c).1.resonators = updateCouplings g.resonators a b)) := by
  cases hc : okPrefix c with
  | false => rw [(addBranch_bad hc).1]; exact ⟨rfl, rfl, rfl, Or.inl rfl⟩
  | true => rw [addBranch_good hc]; exact (insertBranch_frame o g a b c).2

theorem coupleBranches_frame (g : CG) (a b m : String) :
    (coupleBranches g a b m).1 = { g with coupled := (coupleBranches g a b m).1.coupled } := by
  unfold coupleBranches
  simp only
  repeat' split
  all_goals rfl

theorem coupleResonator_frame (g : CG) (n : Node) (c : String) :
    (coupleResonator g n c).1 = { g with resonators := (coupleResonator g n c).1.resonators } := by
  unfold coupleResonator
  repeat' split
  all_goals rfl

theorem addFluxBias_frame (g : CG) (c : String) (s m : Option String) :
    (addFluxBias g c s m).1 = { g with fluxBias := (addFluxBias g c s m).1.fluxBias } := by
  unfold addFluxBias
  split
  · rfl
  · split
    · rfl
    · rfl
    · split
      · rfl
      · split
        · rfl
        · split
          · rfl
          · extract_lets e' check
            cases check with
            | error x => rfl
            | ok u =>
              simp only
              split
              · rfl
              · split <;> rfl

theorem addChargeBias_frame (g : CG) (n : Node) (s m : Option String) :
    (addChargeBias g n s m).1 = { g with chargeBias := (addChargeBias g n s m).1.chargeBias } := by
  unfold addChargeBias
  split
  · rfl
  · split
    · rfl
    · split
      · rfl
      · extract_lets check
        cases check with
        | error x => rfl
        | ok u =>
          simp only
          split
          · rfl
          · split <;> rfl

/-- The calls that can change the topology. -/
def Call.isBranch : Call → Bool
  | .addBranch .. => true
  | _ => false

/-- The parts of a state that only `addBranch` writes. -/
structure SameCircuit (g g' : CG) : Prop where
  graph : g'.graph = g.graph
  cmap : g'.cmap = g.cmap
  conductive : g'.conductive = g.conductive
  grounds : g'.grounds = g.grounds
  tree : g'.tree = g.tree
  wc : g'.wc = g.wc
  closures : g'.closures = g.closures
  loops : g'.loops = g.loops
  loopClosures : g'.loopClosures = g.loopClosures

theorem step_same {g : CG} {c : Call} (hc : c.isBranch = false) : SameCircuit g (step g c).1 := by
  cases c with
  | addBranch => cases hc
  | coupleBranches a b m => simp only [step]; rw [coupleBranches_frame]; exact ⟨rfl, rfl, rfl, rfl, rfl, rfl, rfl, rfl, rfl⟩
  | coupleResonator n c => simp only [step]; rw [coupleResonator_frame]; exact ⟨rfl, rfl, rfl, rfl, rfl, rfl, rfl, rfl, rfl⟩
  | removeAllResonators => exact ⟨rfl, rfl, rfl, rfl, rfl, rfl, rfl, rfl, rfl⟩
  | addFluxBias c s m => simp only [step]; rw [addFluxBias_frame]; exact ⟨rfl, rfl, rfl, rfl, rfl, rfl, rfl, rfl, rfl⟩
  | addChargeBias n s m => simp only [step]; rw [addChargeBias_frame]; exact ⟨rfl, rfl, rfl, rfl, rfl, rfl, rfl, rfl, rfl⟩

theorem SameCircuit.trans {g g' g'' : CG} (h : SameCircuit g g') (h' : SameCircuit g' g'') : SameCircuit g g'' :=
  ⟨h'.graph.trans h.graph, h'.cmap.trans h.cmap, h'.conductive.trans h.conductive, h'.grounds.trans h.grounds,
    h'.tree.trans h.tree, h'.wc.trans h.wc, h'.closures.trans h.closures, h'.loops.trans h.loops,
    h'.loopClosures.trans h.loopClosures⟩

theorem run_same : ∀ {l : List Call} {g : CG}, (∀ c ∈ l, c.isBranch = false) → SameCircuit g (run g l) := by
  intro l
  induction l with
  | nil => intro g _; exact ⟨rfl, rfl, rfl, rfl, rfl, rfl, rfl, rfl, rfl⟩
  | cons c l ih =>
    intro g h
    exact (step_same (h c (by simp))).trans (ih fun c' hc' => h c' (by simp [hc']))

/-- Invariant rule for histories. -/
theorem run_inv {P : CG → Prop} : ∀ {l : List Call} {g : CG}, P g →
    (∀ g c, c ∈ l → P g → P (step g c).1) → P (run g l) := by
  intro l
  induction l with
  | nil => intro g h _; exact h
  | cons c l ih =>
    intro g h hs
    exact ih (hs g c (by simp) h) fun g c hc => hs g c (by simp [hc])

theorem graphInv_step {g : CG} (h : GraphInv g.graph) (c : Call) : GraphInv (step g c).1.graph := by
  cases hb : c.isBranch with
  | false => rw [(step_same hb).graph]; exact h
  | true =>
    cases c with
    | addBranch o a b c =>
      cases hc : okPrefix c with
      | false => simp only [step]; rw [(addBranch_bad hc).1]; exact h
      | true => simp only [step]; rw [addBranch_graph hc]; exact h.addEdge a b c
    | _ => cases hb

theorem graphInv_run (l : List Call) : GraphInv (run {} l).graph :=
  run_inv (P := fun g => GraphInv g.graph) GraphInv.empty fun _ c _ h => graphInv_step h c

/-! ### A successful `addBranch` -/

/-- The state of the derived maps after a successful `addBranch`. -/
structure Synced (o : Orc) (g : CG) : Prop where
  names : (g.graph.es.map Prod.snd).Nodup
  cmap : ∀ e c, g.cmap.get? e = some c ↔ (e, c) ∈ g.graph.view ∨ (e.rev, c) ∈ g.graph.view
  grounds_ok : (virtualGrounds o (conductiveGraph g.graph) (components (conductiveGraph g.graph)) []).2 = .ok ()
  conductive : g.conductive = conductiveGraph g.graph
  grounds : g.grounds = (virtualGrounds o (conductiveGraph g.graph) (components (conductiveGraph g.graph)) []).1
  tree : g.tree = forestOf o (conductiveGraph g.graph)
  closures : g.closures = allClosures o (conductiveGraph g.graph)
  wc : g.wc = g.tree ++ g.closures
  loops_ok : (allLoops o g.grounds none).2 = true
  loops : g.loops = (List.range (allLoops o g.grounds none).1.length).zip (allLoops o g.grounds none).1
  loopClosures : g.loopClosures = (List.range (allLoops o g.grounds none).1.length).zip g.closures

theorem addBranch_synced {o : Orc} (ho : o.OK) {g : CG} (h : GraphInv g.graph) {a b : Node} {c : String}
    (hok : (addBranch o g a b c).2 = .ok ()) : okPrefix c = true ∧ Synced o (addBranch o g a b c).1 := by
  cases hc : okPrefix c with
  | false => obtain ⟨-, e, he⟩ := addBranch_bad (o := o) (g := g) (a := a) (b := b) hc; rw [hok] at he; cases he
  | true =>
    refine ⟨rfl, ?_⟩
    have hw : (withEdge g a b c).graph.WF := (h.addEdge a b c).toWF
    rw [addBranch_good hc] at hok ⊢
    obtain ⟨r2, r3, h2, h3, he⟩ := insertBranch_eq o g a b c
    rw [he] at hok ⊢
    clear he
    have hu : r2.2 = .ok () := by
      cases hr : r2.2 with
      | error e => rw [hr] at hok; cases hok
      | ok u => rfl
    have hu' := hu
    rw [h2] at hu'
    obtain ⟨hn, hcm, -⟩ := updateComponentsMap_ok hw hu'
    rw [← h2] at hcm
    have hgr : r2.1.graph = (withEdge g a b c).graph := by rw [h2, updateComponentsMap_frame]
    clear hu' h2
    rw [hu] at hok ⊢
    simp only at hok ⊢
    generalize r2.1 = g1 at *
    rw [← hgr] at hw hn hcm
    have hw2 := (conductive_oriented hw).toWF
    have hr3 : r3.2 = .ok () := by
      cases hr : r3.2 with
      | error e => rw [hr] at hok; cases hok
      | ok u => rfl
    rw [hr3]
    simp only
    clear hok
    unfold updateGraphs at h3
    simp only at h3
    cases hv : (virtualGrounds o (conductiveGraph g1.graph) (components (conductiveGraph g1.graph)) []).2 with
    | error e => rw [hv] at h3; rw [h3] at hr3; cases hr3
    | ok u =>
      rw [hv] at h3
      simp only at h3
      obtain ⟨hT, hC⟩ := grounds_values ho hw2 hv
      cases hl : (allLoops o (virtualGrounds o (conductiveGraph g1.graph) (components (conductiveGraph g1.graph)) []).1 none).2 with
      | false => rw [hl] at h3; rw [h3] at hr3; cases hr3
      | true =>
        rw [hl] at h3
        simp only [if_true] at h3
        rw [h3]
        exact ⟨hn, hcm, hv, rfl, rfl, hT, hC, rfl, hl, by simp, rfl⟩

theorem foldl_set_nodup {κ α β : Type} [DecidableEq κ] (f : β → κ) (v : β → α) : ∀ (l : List β) (d : Dict κ α), (Dict.keys d).Nodup →
    (Dict.keys (l.foldl (fun d p => Dict.set d (f p) (v p)) d)).Nodup := by
  intro l
  induction l with
  | nil => intro d h; exact h
  | cons p l ih => intro d h; exact ih _ (Dict.nodup_keys_set h _ _)

theorem addBranch_cmap_nodup {o : Orc} {g : CG} (h : GraphInv g.graph) {a b : Node} {c : String}
    (hok : (addBranch o g a b c).2 = .ok ()) : (Dict.keys (addBranch o g a b c).1.cmap).Nodup := by
  cases hc : okPrefix c with
  | false => obtain ⟨-, e, he⟩ := addBranch_bad (o := o) (g := g) (a := a) (b := b) hc; rw [hok] at he; cases he
  | true =>
    have hw : (withEdge g a b c).graph.WF := (h.addEdge a b c).toWF
    rw [addBranch_good hc]
    obtain ⟨r2, r3, h2, h3, he⟩ := insertBranch_eq o g a b c
    rw [he]
    have key : (Dict.keys r2.1.cmap).Nodup := by
      rw [h2]
      have hkeys : (Dict.keys (withEdge g a b c).graph.view).Nodup := MGraph.edges_nodup hw
      unfold updateComponentsMap
      simp only
      split
      · exact hkeys
      · exact foldl_set_nodup Prod.fst Prod.snd _ _ hkeys
    have f3 := updateGraphs_frame o r2.1
    rw [← h3] at f3
    have key3 : (Dict.keys r3.1.cmap).Nodup := by rw [f3]; exact key
    clear h2 h3 he f3
    obtain ⟨s2, x2⟩ := r2
    obtain ⟨s3, x3⟩ := r3
    cases x2 with
    | error e => exact key
    | ok u => cases x3 with
      | error e => exact key3
      | ok u => exact key3

theorem Synced.of_same {o : Orc} {g g' : CG} (h : Synced o g) (hs : SameCircuit g g') : Synced o g' := by
  obtain ⟨h1, h2, h3, h4, h5, h6, h7, h8, h9, h10, h11⟩ := h
  exact ⟨by rw [hs.graph]; exact h1, by rw [hs.graph, hs.cmap]; exact h2, by rw [hs.graph]; exact h3,
    by rw [hs.conductive, hs.graph]; exact h4, by rw [hs.grounds, hs.graph]; exact h5,
    by rw [hs.tree, hs.graph]; exact h6, by rw [hs.closures, hs.graph]; exact h7,
    by rw [hs.wc, hs.tree, hs.closures]; exact h8, by rw [hs.grounds]; exact h9,
    by rw [hs.loops, hs.grounds]; exact h10, by rw [hs.loopClosures, hs.grounds, hs.closures]; exact h11⟩

/-! ### The dictionaries of component edges -/

theorem edgesMap_ok (g : CG) : ∀ (keys : List Edge) (d : Dict String Edge), (Dict.keys d).Nodup →
    (∀ k ∈ keys, ∃ c, g.cmap.get? k = some c) →
    ∃ d', keys.foldlM (fun d k => match g.cmap.get? k with
      | none => (.error .keyError : Except Err (Dict String Edge))
      | some c => .ok (d.set c k)) d = .ok d' ∧ (Dict.keys d').Nodup ∧
      (∀ c, c ∈ Dict.keys d' ↔ c ∈ Dict.keys d ∨ ∃ k ∈ keys, g.cmap.get? k = some c) ∧
      (∀ c k, Dict.get? d' c = some k → Dict.get? d c = some k ∨ (k ∈ keys ∧ g.cmap.get? k = some c)) := by
  intro keys
  induction keys with
  | nil => intro d hd _; exact ⟨d, rfl, hd, by simp, by simp⟩
  | cons k keys ih =>
    intro d hd h
    obtain ⟨c, hc⟩ := h k (by simp)
    obtain ⟨d', h1, h2, h3, h4⟩ := ih (d.set c k) (Dict.nodup_keys_set hd _ _) fun k' hk' => h k' (by simp [hk'])
    refine ⟨d', ?_, h2, ?_, ?_⟩
    · rw [List.foldlM_cons, hc]; exact h1
    · intro c'
      rw [h3, Dict.mem_keys_set]
      constructor
      · rintro ((rfl | h) | ⟨k', hk', h'⟩)
        · exact Or.inr ⟨k, by simp, hc⟩
        · exact Or.inl h
        · exact Or.inr ⟨k', by simp [hk'], h'⟩
      · rintro (h | ⟨k', hk', h'⟩)
        · exact Or.inl (Or.inr h)
        · rcases List.mem_cons.1 hk' with rfl | hk'
          · rw [hc] at h'; injection h' with h'
            exact Or.inl (Or.inl h'.symm)
          · exact Or.inr ⟨k', hk', h'⟩
    · intro c' k' hk'
      rcases h4 c' k' hk' with h5 | h5
      · rw [Dict.get?_set] at h5
        split_ifs at h5 with h6
        · injection h5 with h5; subst h5; subst h6
          exact Or.inr ⟨by simp, hc⟩
        · exact Or.inl h5
      · exact Or.inr ⟨by simp [h5.1], h5.2⟩

theorem edgesMap_spec (g : CG) (keys : List Edge) (h : ∀ k ∈ keys, ∃ c, g.cmap.get? k = some c) :
    ∃ d, edgesMap g keys = .ok d ∧ (Dict.keys d).Nodup ∧
      (∀ c, c ∈ Dict.keys d ↔ ∃ k ∈ keys, g.cmap.get? k = some c) ∧
      (∀ c k, Dict.get? d c = some k → k ∈ keys ∧ g.cmap.get? k = some c) := by
  obtain ⟨d, h1, h2, h3, h4⟩ := edgesMap_ok g keys [] (by simp [Dict.keys]) h
  refine ⟨d, h1, h2, fun c => ?_, fun c k hk => ?_⟩
  · rw [h3]; simp [Dict.keys]
  · rcases h4 c k hk with h5 | h5
    · cases h5
    · exact h5

end Verif.Circuit
