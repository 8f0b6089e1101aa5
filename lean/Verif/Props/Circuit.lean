import Verif.Lemmas.CircuitSettled

/-!
# C20–C22: adding branches, component names, spanning forest and closure branches
-/

set_option linter.unusedVariables false

namespace Verif.Props

open Verif Verif.Spec Verif.Circuit

/-! ### C20 -/

/-- **C20 (partial)** A component name that does not start with C, L, I or V is rejected, and nothing changes: whatever
the caller does next behaves as if the call had not been made.  Missing: the duplicate names and the two internal
failures below. -/
theorem C20_invalid_name_partial (o : Orc) (g : CG) (a b : ℕ) (c : String) (hc : validName c = false) :
    (∃ e, (addBranch o g a b c).2 = .error e) ∧ (addBranch o g a b c).1 = g ∧
      ∀ l, run g (Call.addBranch o a b c :: l) = run g l := by
  rw [← okPrefix_eq] at hc
  obtain ⟨h1, h2⟩ := addBranch_bad (o := o) (g := g) (a := a) (b := b) hc
  refine ⟨h2, h1, fun l => ?_⟩
  change run (addBranch o g a b c).1 l = _
  rw [h1]

example : validName "J1" = false ∧ validName "" = false ∧ validName "M12" = false ∧ validName "L1" = true := by decide

/-- The exceptions for the three kinds of invalid names. -/
theorem C20_invalid_name_errors (o : Orc) (g : CG) (a b : ℕ) (c : String) :
    (c.toList = [] → (addBranch o g a b c).2 = .error .indexError) ∧
    (startsWith c 'M' = true → (addBranch o g a b c).2 = .error .typeError) ∧
    (c.toList ≠ [] → startsWith c 'M' = false → validName c = false → (addBranch o g a b c).2 = .error .valueError) := by
  unfold startsWith validName addBranch pre elementPrefixes
  cases c.toList with
  | nil => simp
  | cons p l =>
    refine ⟨by simp, fun h => ?_, fun _ h1 h2 => ?_⟩
    · simp at h; simp [h]
    · simp at h1 h2; simp [h1, h2]

/-- A history in which some name occurs twice. -/
theorem dup_names_err {o : Orc} {g : CG} (h : GraphInv g.graph) {a b : ℕ} {c : String} (hc : validName c = true)
    (hd : ¬ ((g.graph.es.map Prod.snd) ++ [c]).Nodup) : (addBranch o g a b c).2 = .error .valueError := by
  rw [← okPrefix_eq] at hc
  rw [addBranch_good hc]
  obtain ⟨r2, r3, h2, h3, he⟩ := insertBranch_eq o g a b c
  have hw : (withEdge g a b c).graph.WF := (h.addEdge a b c).toWF
  have hd' : ¬ ((withEdge g a b c).graph.es.map Prod.snd).Nodup := by
    simpa [withEdge, MGraph.addEdge, MGraph.addNode_es] using hd
  rw [updateComponentsMap_err hw hd'] at h2
  rw [he, h2]

/-- **C20 is false**: for every history, adding a branch under a name that is in use raises `ValueError` but leaves the
branch in the circuit, and from then on *every* call of `addBranch` raises, whatever is done in between. -/
theorem C20_duplicate_name_false (l : List Call) (o : Orc) (a b : ℕ) (c : String) (hc : validName c = true)
    (hin : c ∈ (branches l).map fun b => b.2.2) :
    (addBranch o (run {} l) a b c).2 = .error .valueError ∧
    (addBranch o (run {} l) a b c).1.graph ≠ (run {} l).graph ∧
    ∀ (l' : List Call) (o' : Orc) (a' b' : ℕ) (c' : String),
      ∃ e, (addBranch o' (run (addBranch o (run {} l) a b c).1 l') a' b' c').2 = .error e := by
  have hinv := graphInv_run l
  have hcont := run_graph l {}
  have hnames : ∀ g : CG, g.graph.es.map Prod.snd = (g.graph.es.map strip).map fun b => b.2.2 := by
    intro g; simp [List.map_map, Function.comp_def, strip]
  have hmem : c ∈ (run {} l).graph.es.map Prod.snd := by
    rw [hnames, hcont]; simpa using hin
  have hd : ¬ (((run {} l).graph.es.map Prod.snd) ++ [c]).Nodup := by
    intro h; exact (List.nodup_append.1 h).2.2 c hmem c (by simp) rfl
  refine ⟨dup_names_err hinv hc hd, ?_, ?_⟩
  · rw [addBranch_graph (by rw [okPrefix_eq]; exact hc)]
    intro h
    have := congrArg (fun G : MGraph => G.es.length) h
    simp [MGraph.addEdge, MGraph.addNode_es] at this
  · intro l' o' a' b' c'
    by_cases hc' : validName c' = true
    swap
    · exact (addBranch_bad (by rw [okPrefix_eq]; simpa using hc')).2
    · refine ⟨.valueError, dup_names_err ?_ hc' ?_⟩
      · have : run (addBranch o (run {} l) a b c).1 l' = run {} (l ++ Call.addBranch o a b c :: l') := by
          rw [run_append]; rfl
        rw [this]; exact graphInv_run _
      · intro h
        apply hd
        have h1 := (List.nodup_append.1 h).1
        rw [hnames, run_graph, List.map_append] at h1
        have h2 := (List.nodup_append.1 h1).1
        rw [addBranch_graph (by rw [okPrefix_eq]; exact hc)] at h2
        simpa [MGraph.addEdge, MGraph.addNode_es, List.map_map, Function.comp_def, strip] using h2

example : "L1" ∈ (branches [Call.addBranch Orc.id 0 1 "L1"]).map fun b => b.2.2 := by decide

/-- The circuit of five valid branches with fresh names (a ring of three inductors with a junction). -/
def unreachableRoot : List (ℕ × ℕ × String) := [(0, 1, "C1"), (1, 2, "L1"), (0, 3, "L2"), (1, 3, "L3"), (1, 2, "I1")]

/-- **C20 is false** also without duplicates: these five branches with different valid names are a sensible circuit, but
the last call raises `NameError` and leaves the branch in the circuit. -/
theorem C20_internal_error_false :
    (unreachableRoot.all fun b => validName b.2.2) = true ∧ (unreachableRoot.map fun b => b.2.2).Nodup ∧
    (build Orc.id {} unreachableRoot).2 = .error .nameError ∧
    (build Orc.id {} unreachableRoot).1.graph.es.length = 5 := by
  decide +kernel

/-- **C20 is false**: the order in which a small component's nodes come out of a Python set can turn a valid call into a
`KeyError`. -/
theorem C20_set_order_false :
    ∃ o : Orc, o.OK ∧ (build o {} [(5, 3, "L1"), (0, 1, "C1")]).2 = .ok () ∧
      (build o {} [(5, 3, "L1"), (0, 1, "C1"), (0, 2, "C2")]).2 = .error .keyError := by
  refine ⟨⟨fun l => l.insertionSort (· ≤ ·), fun l => l⟩, ⟨fun l => List.perm_insertionSort _ _, fun l => List.Perm.refl _⟩, ?_, ?_⟩
  · decide +kernel
  · decide +kernel

/-! ### C22 -/

/-- A triple is the branch, in one of the two directions. -/
def IsBranch (e : ℕ × ℕ × ℕ) (b : ℕ × ℕ × String) : Prop := (e.1 = b.1 ∧ e.2.1 = b.2.1) ∨ (e.1 = b.2.1 ∧ e.2.1 = b.1)

theorem isBranch_of_conductive {g : CG} (h : GraphInv g.graph) {e : Edge}
    (he : e ∈ (conductiveGraph g.graph).es.map Prod.fst ∨ e.rev ∈ (conductiveGraph g.graph).es.map Prod.fst) :
    ∃ b ∈ conductors (g.graph.es.map strip), IsBranch e b ∧
      ((e, b.2.2) ∈ g.graph.view ∨ (e.rev, b.2.2) ∈ g.graph.view) := by
  have hw := h.toWF
  have key : ∀ e' : Edge, e' ∈ (conductiveGraph g.graph).es.map Prod.fst →
      ∃ b ∈ conductors (g.graph.es.map strip), IsBranch e' b ∧ (e', b.2.2) ∈ g.graph.view := by
    intro e' he'
    obtain ⟨p, hp, rfl⟩ := List.mem_map.1 he'
    obtain ⟨q, hq, hn, rfl⟩ := (conductive_mem hw p).1 hp
    refine ⟨strip q, List.mem_filter.2 ⟨List.mem_map.2 ⟨q, hq, rfl⟩, by rw [← hn, noncap_iff]; rfl⟩, ?_,
      (MGraph.mem_view hw _).2 ⟨q, hq, rfl⟩⟩
    rcases orient_cases g.graph.nodes q.1 with h' | h' <;> simp only [h']
    · exact Or.inl ⟨rfl, rfl⟩
    · exact Or.inr ⟨rfl, rfl⟩
  rcases he with he | he
  · obtain ⟨b, hb, h1, h2⟩ := key e he
    exact ⟨b, hb, h1, Or.inl h2⟩
  · obtain ⟨b, hb, h1, h2⟩ := key e.rev he
    refine ⟨b, hb, ?_, Or.inr h2⟩
    rcases h1 with ⟨h3, h4⟩ | ⟨h3, h4⟩
    · exact Or.inr ⟨h4, h3⟩
    · exact Or.inl ⟨h4, h3⟩

/-- **C22** After any history whose last `addBranch` succeeded, the spanning tree of the circuit is a forest of
conductive branches and connects exactly the nodes that the conductive branches connect. -/
theorem C22_spanning_forest {h : List Call} {g : CG} (hs : Settled h g) :
    Forest g.tree ∧ (∀ x y, Conn g.tree x y ↔ Conn (wires (conductors (branches h))) x y) ∧
      ∀ e ∈ g.tree, ∃ b ∈ conductors (branches h), IsBranch e b ∧ g.cmap.get? e = some b.2.2 := by
  obtain ⟨o, f⟩ := settled_facts hs
  have hw := (conductive_oriented f.inv.toWF).toWF
  rw [f.synced.tree]
  refine ⟨forestOf_forest f.ok hw, fun x y => ?_, fun e he => ?_⟩
  · rw [forestOf_conn f.ok hw, conductive_conn f.inv.toWF, f.content]
  · obtain ⟨b, hb, h1, h2⟩ := isBranch_of_conductive f.inv (forestOf_sub f.ok hw he)
    rw [f.content] at hb
    exact ⟨b, hb, h1, (f.synced.cmap _ _).2 h2⟩

/-- **C22** The closure branches are conductive branches, all different, none of them in the spanning tree. -/
theorem C22_closures {h : List Call} {g : CG} (hs : Settled h g) :
    g.closures.Nodup ∧ (∀ e ∈ g.closures, e ∉ g.tree ∧ (e.2.1, e.1, e.2.2) ∉ g.tree) ∧
      ∀ e ∈ g.closures, ∃ b ∈ conductors (branches h), IsBranch e b ∧ g.cmap.get? e = some b.2.2 := by
  obtain ⟨o, f⟩ := settled_facts hs
  have hw := (conductive_oriented f.inv.toWF).toWF
  rw [f.synced.tree, f.synced.closures]
  refine ⟨allClosures_nodup f.ok hw, fun e he => closure_not_tree f.ok hw he, fun e he => ?_⟩
  obtain ⟨b, hb, h1, h2⟩ := isBranch_of_conductive f.inv (allClosures_sub f.ok hw he)
  rw [f.content] at hb
  exact ⟨b, hb, h1, (f.synced.cmap _ _).2 h2⟩

/-- **C22 (partial)** The number of closure branches is edges − nodes + components.  Missing: circuits with a conductive
self-loop on a node that has no other conductive neighbour (see `C22_isolated_loop_false`). -/
theorem C22_closure_count_partial {h : List Call} {g : CG} (hs : Settled h g) (hn : NoIsolatedLoop (branches h))
    {reps : Finset ℕ} (hr : Representatives (wires (conductors (branches h))) (nodesOf (branches h)) reps) :
    g.closures.length + (nodesOf (branches h)).card = (conductors (branches h)).length + reps.card := by
  obtain ⟨o, f⟩ := settled_facts hs
  have hG := f.inv.toWF
  have hw := (conductive_oriented hG).toWF
  have h1 := allClosures_length f.ok hw (noLoneLoop hG (by rw [f.content]; exact hn))
  have h2 := forestOf_length f.ok hw
  rw [conductive_length hG, f.content] at h1
  have h3 : (conductiveGraph g.graph).nodes.length = (nodesOf (branches h)).card := by
    rw [conductive_nodes hG, ← f.content, ← nodes_eq hG f.touched, List.toFinset_card_of_nodup hG.nodup]
  have h4 : (components (conductiveGraph g.graph)).length = reps.card := by
    rw [components_count, representatives_card hr, conductive_nodes hG, nodes_eq hG f.touched, f.content]
    exact classes_congr fun x _ y _ => by rw [uf_iff, uf_iff, conductive_conn hG, f.content]
  rw [f.synced.closures]
  omega

/-- A settled history: all branches of a list added with the same set order, when that succeeds. -/
theorem settled_of_list {o : Orc} (ho : o.OK) (bs : List (ℕ × ℕ × String)) (b : ℕ × ℕ × String)
    (hok : (addBranch o (run {} (bs.map fun b => Call.addBranch o b.1 b.2.1 b.2.2)) b.1 b.2.1 b.2.2).2 = .ok ()) :
    Settled ((bs.map fun b => Call.addBranch o b.1 b.2.1 b.2.2) ++ [Call.addBranch o b.1 b.2.1 b.2.2])
      (run {} ((bs.map fun b => Call.addBranch o b.1 b.2.1 b.2.2) ++ [Call.addBranch o b.1 b.2.1 b.2.2])) := by
  refine ⟨_, o, b.1, b.2.1, b.2.2, [], rfl, ?_, hok, by simp, rfl⟩
  intro x hx
  rw [List.mem_append] at hx
  rcases hx with hx | hx
  · obtain ⟨b', _, rfl⟩ := List.mem_map.1 hx; exact ho
  · rw [List.mem_singleton] at hx; subst hx; exact ho

theorem orcId_ok : Orc.id.OK := ⟨fun l => List.Perm.refl _, fun l => List.Perm.refl _⟩

/-- A circuit with a capacitor, a junction and three inductors: two closure branches. -/
def sample : List (ℕ × ℕ × String) := [(0, 1, "I1"), (0, 1, "C1"), (0, 1, "L1"), (1, 2, "L2")]

def sampleCalls : List Call :=
  (sample.map fun b => Call.addBranch Orc.id b.1 b.2.1 b.2.2) ++ [Call.addBranch Orc.id 0 2 "L3"]

theorem sample_settled : Settled sampleCalls (run {} sampleCalls) :=
  settled_of_list orcId_ok sample (0, 2, "L3") (by decide +kernel)

example : NoIsolatedLoop (branches sampleCalls) := by
  intro b hb
  have : ∀ b ∈ conductors (branches sampleCalls), b.1 ≠ b.2.1 := by decide +kernel
  exact fun h => absurd h (this b hb)

example : Representatives (wires (conductors (branches sampleCalls))) (nodesOf (branches sampleCalls)) {0} := by
  have h1 : Conn (wires (conductors (branches sampleCalls))) 0 1 := Conn.edge (e := (0, 1, 0)) (by decide +kernel)
  have h2 : Conn (wires (conductors (branches sampleCalls))) 0 2 := Conn.edge (e := (0, 2, 0)) (by decide +kernel)
  have hn : nodesOf (branches sampleCalls) = {0, 1, 2} := by decide +kernel
  refine ⟨by decide +kernel, fun n hn' => ⟨0, by simp, ?_⟩, by simp⟩
  rw [hn] at hn'
  simp only [Finset.mem_insert, Finset.mem_singleton] at hn'
  rcases hn' with rfl | rfl | rfl
  · exact Conn.refl _ _
  · exact h1.symm
  · exact h2.symm

/-- **C22 is false** for a conductive self-loop on an otherwise isolated node: the branch is neither in the tree nor a
closure branch. -/
theorem C22_isolated_loop_false :
    (build Orc.id {} [(0, 1, "C1"), (1, 1, "L1")]).2 = .ok () ∧
    (build Orc.id {} [(0, 1, "C1"), (1, 1, "L1")]).1.wc = [] := by
  decide +kernel

/-! ### C21 -/

/-- **C21** After any history whose last `addBranch` succeeded, no component name is used twice, every added branch is
found under its own nodes (in both directions) with its own component, and every entry of the components map is one of
the added branches. -/
theorem C21_names {h : List Call} {g : CG} (hs : Settled h g) :
    ((branches h).map fun b => b.2.2).Nodup ∧
    (∀ b ∈ branches h, ∃ k, g.cmap.get? (b.1, b.2.1, k) = some b.2.2 ∧ g.cmap.get? (b.2.1, b.1, k) = some b.2.2) ∧
    (∀ e c, g.cmap.get? e = some c → ∃ b ∈ branches h, b.2.2 = c ∧ IsBranch e b) := by
  obtain ⟨o, f⟩ := settled_facts hs
  have hw := f.inv.toWF
  refine ⟨?_, ?_, ?_⟩
  · have := f.synced.names
    rw [← f.content]
    simpa [List.map_map, Function.comp_def, strip] using this
  · intro b hb
    rw [← f.content] at hb
    obtain ⟨p, hp, rfl⟩ := List.mem_map.1 hb
    refine ⟨p.1.2.2, ?_, ?_⟩
    all_goals
      rw [f.synced.cmap, MGraph.mem_view hw, MGraph.mem_view hw]
    · rcases orient_cases g.graph.nodes p.1 with h' | h'
      · exact Or.inl ⟨p, hp, by rw [h']; rfl⟩
      · exact Or.inr ⟨p, hp, by rw [h']; rfl⟩
    · rcases orient_cases g.graph.nodes p.1 with h' | h'
      · exact Or.inr ⟨p, hp, by rw [h']; rfl⟩
      · exact Or.inl ⟨p, hp, by rw [h']; rfl⟩
  · intro e c hec
    rw [← f.content]
    rcases (f.synced.cmap e c).1 hec with h1 | h1
    · obtain ⟨p, hp, he⟩ := (MGraph.mem_view hw _).1 h1
      injection he with he1 he2
      refine ⟨strip p, List.mem_map.2 ⟨p, hp, rfl⟩, he2.symm, ?_⟩
      rw [he1]
      rcases orient_cases g.graph.nodes p.1 with h' | h' <;> rw [h']
      · exact Or.inl ⟨rfl, rfl⟩
      · exact Or.inr ⟨rfl, rfl⟩
    · obtain ⟨p, hp, he⟩ := (MGraph.mem_view hw _).1 h1
      injection he with he1 he2
      refine ⟨strip p, List.mem_map.2 ⟨p, hp, rfl⟩, he2.symm, ?_⟩
      have : e = (MGraph.orient g.graph.nodes p.1).rev := by rw [← he1, rev_rev]
      rw [this]
      rcases orient_cases g.graph.nodes p.1 with h' | h' <;> rw [h']
      · exact Or.inr ⟨rfl, rfl⟩
      · exact Or.inl ⟨rfl, rfl⟩

theorem valid_of_branches {h : List Call} {b : ℕ × ℕ × String} (hb : b ∈ branches h) : validName b.2.2 = true := by
  obtain ⟨x, _, hx⟩ := List.mem_filterMap.1 hb
  cases x with
  | addBranch o a b' c =>
    simp only [branchOf] at hx
    split_ifs at hx with hv
    injection hx with hx
    rw [← hx]; exact hv
  | _ => cases hx

/-- **C21** Every edge is of exactly one kind. -/
theorem C21_one_kind {h : List Call} {g : CG} (hs : Settled h g) {e : ℕ × ℕ × ℕ} {c : String}
    (hec : g.cmap.get? e = some c) :
    ∃ p ∈ ['C', 'L', 'I', 'V'], startsWith c p = true ∧ isEdgeOf g p e = .ok true ∧
      ∀ q, q ≠ p → isEdgeOf g q e = .ok false := by
  obtain ⟨b, hb, rfl, -⟩ := (C21_names hs).2.2 e c hec
  have hv := valid_of_branches hb
  unfold validName at hv
  unfold isEdgeOf startsWith pre
  rw [hec]
  cases hl : b.2.2.toList with
  | nil => rw [hl] at hv; cases hv
  | cons p l =>
    rw [hl] at hv
    refine ⟨p, by simpa using hv, by simp [hl], by simp [hl], fun q hq => ?_⟩
    simp only [hl, List.head?_cons, Option.some.injEq, Except.ok.injEq, decide_eq_false_iff_not]
    exact fun h => hq h.symm

/-- The keys that the component dictionaries range over. -/
theorem dict_keys_found {h : List Call} {g : CG} (hs : Settled h g) (p : Char) :
    ∀ k ∈ (if p = 'C' then g.cmap.keys else g.wc), ∃ c, g.cmap.get? k = some c := by
  intro k hk
  split_ifs at hk with h1
  · have := (Dict.mem_keys_iff g.cmap k).1 hk
    exact Option.isSome_iff_exists.1 this
  · obtain ⟨o, f⟩ := settled_facts hs
    rw [f.synced.wc, List.mem_append] at hk
    rcases hk with hk | hk
    · obtain ⟨b, _, _, h2⟩ := (C22_spanning_forest hs).2.2 k hk
      exact ⟨_, h2⟩
    · obtain ⟨b, _, _, h2⟩ := (C22_closures hs).2.2 k hk
      exact ⟨_, h2⟩

/-- A conductive branch is an edge of the oriented circuit. -/
theorem conductor_in_wc {h : List Call} {g : CG} (hs : Settled h g) (hn : NoIsolatedLoop (branches h))
    {b : ℕ × ℕ × String} (hb : b ∈ conductors (branches h)) : ∃ k ∈ g.wc, g.cmap.get? k = some b.2.2 := by
  obtain ⟨o, f⟩ := settled_facts hs
  have hG := f.inv.toWF
  have hw := (conductive_oriented hG).toWF
  rw [← f.content] at hb
  obtain ⟨hb1, hb2⟩ := List.mem_filter.1 hb
  obtain ⟨q, hq, rfl⟩ := List.mem_map.1 hb1
  have hm : (MGraph.orient g.graph.nodes q.1, q.2) ∈ (conductiveGraph g.graph).es :=
    (conductive_mem hG _).2 ⟨q, hq, by rw [noncap_iff]; exact hb2, rfl⟩
  have hv : (MGraph.orient g.graph.nodes q.1, q.2) ∈ g.graph.view := (MGraph.mem_view hG _).2 ⟨q, hq, rfl⟩
  have hc := wc_cover f.ok hw (noLoneLoop hG (by rw [f.content]; exact hn)) (List.mem_map.2 ⟨_, hm, rfl⟩)
  have hget1 : g.cmap.get? (MGraph.orient g.graph.nodes q.1) = some q.2 := (f.synced.cmap _ _).2 (Or.inl hv)
  have hget2 : g.cmap.get? (MGraph.orient g.graph.nodes q.1).rev = some q.2 :=
    (f.synced.cmap _ _).2 (Or.inr (by rw [rev_rev]; exact hv))
  rw [f.synced.wc, f.synced.tree, f.synced.closures]
  rcases hc with (h1 | h1) | (h1 | h1)
  · exact ⟨_, List.mem_append.2 (Or.inl h1), hget1⟩
  · exact ⟨_, List.mem_append.2 (Or.inl h1), hget2⟩
  · exact ⟨_, List.mem_append.2 (Or.inr h1), hget1⟩
  · exact ⟨_, List.mem_append.2 (Or.inr h1), hget2⟩

theorem values_iff {h : List Call} {g : CG} (hs : Settled h g) (c : String) :
    c ∈ g.cmap.values ↔ c ∈ (branches h).map fun b => b.2.2 := by
  obtain ⟨h1, h2, h3⟩ := C21_names hs
  constructor
  · intro hc
    obtain ⟨p, hp, rfl⟩ := List.mem_map.1 hc
    have : (Dict.get? g.cmap p.1).isSome := (Dict.mem_keys_iff g.cmap p.1).1 (List.mem_map.2 ⟨p, hp, rfl⟩)
    obtain ⟨o, f⟩ := settled_facts hs
    have hw := f.inv.toWF
    have hnd : (Dict.keys g.cmap).Nodup := by
      obtain ⟨l, o', a, b, c, l', rfl, hok, hadd, hnb, rfl⟩ := hs
      have h2 : run {} (l ++ Call.addBranch o' a b c :: l') = run (addBranch o' (run {} l) a b c).1 l' := by
        rw [run_append]; rfl
      rw [h2, (run_same (l := l') (g := (addBranch o' (run {} l) a b c).1) (by
        intro x hx
        cases x with
        | addBranch o' a' b' c' => exact absurd rfl (hnb _ hx o' a' b' c')
        | _ => rfl)).cmap]
      exact addBranch_cmap_nodup (graphInv_run l) hadd
    have hget := Dict.get?_of_mem hnd hp
    obtain ⟨b, hb, hbc, -⟩ := h3 _ _ hget
    exact List.mem_map.2 ⟨b, hb, hbc⟩
  · intro hc
    obtain ⟨b, hb, rfl⟩ := List.mem_map.1 hc
    obtain ⟨k, hk, -⟩ := h2 b hb
    exact List.mem_map.2 ⟨_, Dict.mem_of_get? hk, rfl⟩

/-- **C21** If `getComponentEdge` returns, the edge carries the component asked for; it raises `ValueError` exactly for
names that were not added. -/
theorem C21_getComponentEdge {h : List Call} {g : CG} (hs : Settled h g) (c : String) :
    (∀ e, getComponentEdge g c = .ok e → g.cmap.get? e = some c ∧ ∃ b ∈ branches h, b.2.2 = c ∧ IsBranch e b) ∧
    (getComponentEdge g c = .error .valueError ↔ c ∉ (branches h).map fun b => b.2.2) := by
  have hv := values_iff hs c
  obtain ⟨d, hd1, hd2, hd3, hd4⟩ := edgesMap_spec g (if pre c = some 'C' then g.cmap.keys else g.wc)
    (by
      have := dict_keys_found hs ((pre c).getD 'x')
      intro k hk
      apply this k
      split_ifs at hk with h1
      · rw [h1]; simpa using hk
      · rw [if_neg]
        · exact hk
        · intro h2; apply h1
          cases hp : pre c with
          | none => rw [hp] at h2; exact absurd h2 (by decide)
          | some p => rw [hp] at h2; simp only [Option.getD_some] at h2; rw [h2])
  unfold getComponentEdge
  by_cases hc : c ∈ (branches h).map fun b => b.2.2
  · rw [if_neg (not_not.2 (hv.2 hc))]
    rw [hd1]
    simp only
    constructor
    · intro e he
      cases hg : Dict.get? d c with
      | none => rw [hg] at he; cases he
      | some e' =>
        rw [hg] at he
        injection he with he
        subst he
        have h1 := hd4 c e' hg
        exact ⟨h1.2, (C21_names hs).2.2 _ _ h1.2⟩
    · cases hg : Dict.get? d c with
      | none => simp [hc]
      | some e' => simp [hc]
  · rw [if_pos fun h => hc (hv.1 h)]
    refine ⟨fun e he => ?_, ?_⟩
    · cases he
    · simp [hc]

/-- **C21 (partial)** `getComponentEdge` finds every component that was added.  Missing: a conductive self-loop on a node
without other conductive neighbours (see `C21_isolated_loop_false`). -/
theorem C21_getComponentEdge_total_partial {h : List Call} {g : CG} (hs : Settled h g) (hn : NoIsolatedLoop (branches h))
    {b : ℕ × ℕ × String} (hb : b ∈ branches h) : ∃ e, getComponentEdge g b.2.2 = .ok e := by
  have hv := (values_iff hs b.2.2).2 (List.mem_map.2 ⟨b, hb, rfl⟩)
  obtain ⟨d, hd1, hd2, hd3, hd4⟩ := edgesMap_spec g (if pre b.2.2 = some 'C' then g.cmap.keys else g.wc)
    (by
      have := dict_keys_found hs ((pre b.2.2).getD 'x')
      intro k hk
      apply this k
      split_ifs at hk with h1
      · rw [h1]; simpa using hk
      · rw [if_neg]
        · exact hk
        · intro h2; apply h1
          cases hp : pre b.2.2 with
          | none => rw [hp] at h2; exact absurd h2 (by decide)
          | some p => rw [hp] at h2; simp only [Option.getD_some] at h2; rw [h2])
  unfold getComponentEdge
  rw [if_neg (not_not.2 hv), hd1]
  simp only
  have hmem : b.2.2 ∈ Dict.keys d := by
    rw [hd3]
    by_cases hc : pre b.2.2 = some 'C'
    · rw [if_pos hc]
      obtain ⟨k, hk, -⟩ := (C21_names hs).2.1 b hb
      exact ⟨_, Dict.mem_keys_of_get? hk, hk⟩
    · rw [if_neg hc]
      refine conductor_in_wc hs hn (List.mem_filter.2 ⟨hb, ?_⟩)
      cases h1 : startsWith b.2.2 'C' with
      | false => rfl
      | true => exact absurd ((startsWith_pre _ _).1 h1) hc
  obtain ⟨e, he⟩ := Option.isSome_iff_exists.1 ((Dict.mem_keys_iff d _).1 hmem)
  rw [he]
  exact ⟨e, rfl⟩

/-- **C21 (partial)** The listing of a kind of edges contains exactly the components added with that prefix, each with an
edge that carries it. Missing: as above. -/
theorem C21_listings_partial {h : List Call} {g : CG} (hs : Settled h g) (hn : NoIsolatedLoop (branches h))
    {p : Char} (hp : p ∈ ['C', 'L', 'I', 'V']) :
    ∃ d, getEdgesOf g p = .ok d ∧ (Dict.keys d).Nodup ∧
      (∀ c, c ∈ Dict.keys d ↔ c ∈ ((branches h).map fun b => b.2.2) ∧ startsWith c p = true) ∧
      ∀ q ∈ d, g.cmap.get? q.2 = some q.1 := by
  obtain ⟨d, hd1, hd2, hd3, hd4⟩ := edgesMap_spec g (if p = 'C' then g.cmap.keys else g.wc)
    (dict_keys_found hs p)
  refine ⟨d.filter fun q => pre q.1 = some p, ?_, ?_, ?_, ?_⟩
  · unfold getEdgesOf; rw [hd1]
  · exact (List.filter_sublist.map Prod.fst).nodup hd2
  · intro c
    have h1 : c ∈ Dict.keys (d.filter fun q => pre q.1 = some p) ↔ c ∈ Dict.keys d ∧ pre c = some p := by
      simp only [Dict.keys, List.mem_map, List.mem_filter, decide_eq_true_eq]
      constructor
      · rintro ⟨q, ⟨hq, h2⟩, rfl⟩; exact ⟨⟨q, hq, rfl⟩, h2⟩
      · rintro ⟨⟨q, hq, rfl⟩, h2⟩; exact ⟨q, ⟨hq, h2⟩, rfl⟩
    rw [h1, hd3, startsWith_pre]
    constructor
    · rintro ⟨⟨k, hk, h2⟩, h3⟩
      obtain ⟨b, hb, hbc, -⟩ := (C21_names hs).2.2 _ _ h2
      exact ⟨List.mem_map.2 ⟨b, hb, hbc⟩, h3⟩
    · rintro ⟨h2, h3⟩
      obtain ⟨b, hb, rfl⟩ := List.mem_map.1 h2
      refine ⟨?_, h3⟩
      by_cases hc : p = 'C'
      · rw [if_pos hc]
        obtain ⟨k, hk, -⟩ := (C21_names hs).2.1 b hb
        exact ⟨_, Dict.mem_keys_of_get? hk, hk⟩
      · rw [if_neg hc]
        refine conductor_in_wc hs hn (List.mem_filter.2 ⟨hb, ?_⟩)
        cases h4 : startsWith b.2.2 'C' with
        | false => rfl
        | true =>
          have h5 := (startsWith_pre _ _).1 h4
          rw [h3] at h5; injection h5 with h5; exact absurd h5 hc
  · intro q hq
    have h1 := (List.mem_filter.1 hq).1
    exact (hd4 q.1 q.2 (Dict.get?_of_mem hd2 h1)).2

example : (getEdgesOf (run {} sampleCalls) 'L').map Dict.keys = .ok ["L3", "L1", "L2"] := by decide +kernel

/-- **C21 is false** for a conductive self-loop on an otherwise isolated node: its component cannot be found. -/
theorem C21_isolated_loop_false :
    (build Orc.id {} [(0, 1, "C1"), (1, 1, "L1")]).2 = .ok () ∧
    getComponentEdge (build Orc.id {} [(0, 1, "C1"), (1, 1, "L1")]).1 "L1" = .error .keyError := by
  constructor <;> decide +kernel

end Verif.Props
