import Verif.Lemmas.CircuitInv
import Verif.Spec.CircuitHistory

/-!
# Lemmas: what holds after a successful `addBranch`
-/

set_option linter.unusedVariables false

namespace Verif.Circuit

open Verif Verif.Spec

theorem okPrefix_eq (c : String) : okPrefix c = validName c := by
  unfold okPrefix validName pre
  cases c.toList with
  | nil => rfl
  | cons p l =>
    simp only [List.head?_cons, elementPrefixes]
    by_cases h : p = 'M'
    · subst h; decide
    · simp [h]

/-- Forgetting the keys. -/
def strip (p : Edge × String) : ℕ × ℕ × String := (p.1.1, p.1.2.1, p.2)

theorem step_graph (g : CG) (c : Call) : (step g c).1.graph.es.map strip = g.graph.es.map strip ++ (branchOf c).toList := by
  cases c with
  | addBranch o a b c =>
    simp only [step, branchOf]
    cases hc : okPrefix c with
    | false => rw [(addBranch_bad hc).1, ← okPrefix_eq, hc]; simp
    | true =>
      rw [addBranch_graph hc, ← okPrefix_eq, hc]
      simp [MGraph.addEdge, MGraph.addNode_es, strip]
  | _ => rw [(step_same rfl).graph]; simp [branchOf]

/-- The graph holds the branches of the history, in order. -/
theorem run_graph : ∀ (l : List Call) (g : CG), (run g l).graph.es.map strip = g.graph.es.map strip ++ branches l := by
  intro l
  induction l with
  | nil => intro g; simp [run, branches]
  | cons c l ih =>
    intro g
    have : run g (c :: l) = run (step g c).1 l := rfl
    rw [this, ih, step_graph, List.append_assoc]
    congr 1
    unfold branches
    rw [List.filterMap_cons]
    cases branchOf c <;> rfl

/-- Every node of the graph is the end of a branch. -/
def Touched (G : MGraph) : Prop := ∀ n ∈ G.nodes, ∃ p ∈ G.es, p.1.1 = n ∨ p.1.2.1 = n

theorem touched_run (l : List Call) : Touched (run {} l).graph := by
  apply run_inv (P := fun g => Touched g.graph)
  · intro n hn; cases hn
  · intro g c _ h
    cases hb : c.isBranch with
    | false => rw [(step_same hb).graph]; exact h
    | true =>
      cases c with
      | addBranch o a b c =>
        cases hc : okPrefix c with
        | false => simp only [step]; rw [(addBranch_bad hc).1]; exact h
        | true =>
          simp only [step]; rw [addBranch_graph hc]
          intro n hn
          simp only [MGraph.addEdge, MGraph.addNode_es, MGraph.addNode_nodes_mem] at hn ⊢
          rcases hn with (hn | rfl) | rfl
          · obtain ⟨p, hp, h'⟩ := h n hn
            exact ⟨p, by simp [hp], h'⟩
          · exact ⟨_, by simp; exact Or.inr rfl, Or.inl rfl⟩
          · exact ⟨_, by simp; exact Or.inr rfl, Or.inr rfl⟩
      | _ => cases hb

theorem nodes_eq {G : MGraph} (h : G.WF) (ht : Touched G) : G.nodes.toFinset = nodesOf (G.es.map strip) := by
  ext n
  simp only [List.mem_toFinset, nodesOf, List.mem_flatMap, List.mem_map, strip]
  constructor
  · intro hn
    obtain ⟨p, hp, h'⟩ := ht n hn
    refine ⟨_, ⟨p, hp, rfl⟩, ?_⟩
    rcases h' with h' | h' <;> simp [h']
  · rintro ⟨_, ⟨p, hp, rfl⟩, hn⟩
    have := h.ends p hp
    simp only [List.mem_cons, List.not_mem_nil, or_false] at hn
    rcases hn with rfl | rfl
    · exact this.1
    · exact this.2

theorem startsWith_pre (c : String) (p : Char) : startsWith c p = true ↔ pre c = some p := by
  simp [startsWith, pre]

/-- The conductors, in terms of the conductive graph. -/
theorem conductive_mem {G : MGraph} (h : G.WF) (p : Edge × String) :
    p ∈ (conductiveGraph G).es ↔ ∃ q ∈ G.es, noncap q = true ∧ p = (MGraph.orient G.nodes q.1, q.2) := by
  rw [conductiveGraph_eq h]
  simp only [List.mem_filter]
  rw [MGraph.mem_view h]
  constructor
  · rintro ⟨⟨q, hq, rfl⟩, hn⟩
    exact ⟨q, hq, hn, rfl⟩
  · rintro ⟨q, hq, hn, rfl⟩
    exact ⟨⟨q, hq, rfl⟩, hn⟩

theorem noncap_iff (p : Edge × String) : noncap p = ! startsWith p.2 'C' := by
  unfold noncap startsWith pre
  by_cases h : p.2.toList.head? = some 'C' <;> simp [h]

theorem conductive_length {G : MGraph} (h : G.WF) : (conductiveGraph G).es.length = (conductors (G.es.map strip)).length := by
  rw [conductiveGraph_eq h]
  have hp := (MGraph.view_perm h).filter noncap
  rw [hp.length_eq, List.filter_map, List.length_map, conductors, List.filter_map, List.length_map]
  congr 1
  apply List.filter_congr
  intro p _
  simp only [Function.comp, noncap_iff, strip]

theorem conductive_conn {G : MGraph} (h : G.WF) (x y : Node) :
    Conn ((conductiveGraph G).es.map Prod.fst) x y ↔ Conn (wires (conductors (G.es.map strip))) x y := by
  constructor
  · apply Conn.mono
    intro e he
    obtain ⟨p, hp, rfl⟩ := List.mem_map.1 he
    obtain ⟨q, hq, hn, rfl⟩ := (conductive_mem h p).1 hp
    have hc : Conn (wires (conductors (G.es.map strip))) q.1.1 q.1.2.1 := by
      refine Conn.edge (e := (q.1.1, q.1.2.1, 0)) (List.mem_map.2 ⟨strip q, List.mem_filter.2 ⟨List.mem_map.2 ⟨q, hq, rfl⟩, ?_⟩, rfl⟩)
      rw [← hn, noncap_iff]; rfl
    rcases orient_cases G.nodes q.1 with h' | h' <;> rw [h']
    · exact hc
    · exact hc.symm
  · apply Conn.mono
    intro e he
    obtain ⟨b, hb, rfl⟩ := List.mem_map.1 he
    obtain ⟨hb1, hb2⟩ := List.mem_filter.1 hb
    obtain ⟨q, hq, rfl⟩ := List.mem_map.1 hb1
    have hm : (MGraph.orient G.nodes q.1, q.2) ∈ (conductiveGraph G).es :=
      (conductive_mem h _).2 ⟨q, hq, by rw [noncap_iff]; exact hb2, rfl⟩
    have hc : Conn ((conductiveGraph G).es.map Prod.fst) (MGraph.orient G.nodes q.1).1 (MGraph.orient G.nodes q.1).2.1 :=
      Conn.edge (List.mem_map.2 ⟨_, hm, rfl⟩)
    rcases orient_cases G.nodes q.1 with h' | h' <;> rw [h'] at hc
    · exact hc
    · exact hc.symm

theorem conductive_nodes {G : MGraph} (h : G.WF) : (conductiveGraph G).nodes = G.nodes := by rw [conductiveGraph_eq h]

theorem representatives_card {es : List Edge} {ns reps : Finset Node} (h : Representatives es ns reps) :
    reps.card = classes (uf es) ns := by
  unfold classes
  have : ns.image (uf es) = reps.image (uf es) := by
    ext y
    simp only [Finset.mem_image]
    constructor
    · rintro ⟨n, hn, rfl⟩
      obtain ⟨r, hr, hc⟩ := h.cover n hn
      exact ⟨r, hr, ((uf_iff _ _ _).2 hc).symm⟩
    · rintro ⟨r, hr, rfl⟩
      exact ⟨r, h.sub hr, rfl⟩
  rw [this, Finset.card_image_of_injOn]
  intro a ha b hb hab
  exact h.apart a ha b hb ((uf_iff _ _ _).1 hab)

/-- The facts about a settled state. -/
structure SettledFacts (h : List Call) (g : CG) (o : Orc) : Prop where
  ok : o.OK
  last : ∃ a b c, Call.addBranch o a b c ∈ h
  inv : GraphInv g.graph
  touched : Touched g.graph
  content : g.graph.es.map strip = branches h
  synced : Synced o g

theorem run_append (g : CG) (l l' : List Call) : run g (l ++ l') = run (run g l) l' := by
  unfold run; rw [List.foldl_append]

theorem settled_facts {h : List Call} {g : CG} (hs : Settled h g) : ∃ o, SettledFacts h g o := by
  obtain ⟨l, o, a, b, c, l', rfl, hok, hadd, hnb, rfl⟩ := hs
  have ho : o.OK := hok (Call.addBranch o a b c) (by simp)
  refine ⟨o, ho, ⟨a, b, c, by simp⟩, graphInv_run _, touched_run _, ?_, ?_⟩
  · have := run_graph (l ++ Call.addBranch o a b c :: l') {}
    simpa using this
  · have h1 := (addBranch_synced ho (graphInv_run l) hadd).2
    have h2 : run {} (l ++ Call.addBranch o a b c :: l') = run (addBranch o (run {} l) a b c).1 l' := by
      rw [run_append]; rfl
    rw [h2]
    refine h1.of_same (run_same ?_)
    intro x hx
    cases x with
    | addBranch o' a' b' c' => exact absurd rfl (hnb _ hx o' a' b' c')
    | _ => rfl

theorem noLoneLoop {G : MGraph} (h : G.WF) (hn : NoIsolatedLoop (G.es.map strip)) : NoLoneLoop (conductiveGraph G) := by
  intro c hc h1
  have hw := (conductive_oriented h).toWF
  by_contra hne
  obtain ⟨p, hp⟩ := List.exists_mem_of_ne_nil _ hne
  obtain ⟨hp1, hp2⟩ := List.mem_filter.1 hp
  simp only [decide_eq_true_eq] at hp2
  obtain ⟨a, rfl⟩ := List.length_eq_one_iff.1 h1
  simp only [List.mem_singleton] at hp2
  obtain ⟨q, hq, hqn, rfl⟩ := (conductive_mem h p).1 hp1
  have hself : q.1.1 = a ∧ q.1.2.1 = a := by
    rcases orient_cases G.nodes q.1 with h' | h' <;> simp only [h'] at hp2
    · exact hp2
    · exact ⟨hp2.2, hp2.1⟩
  have hqc : strip q ∈ conductors (G.es.map strip) :=
    List.mem_filter.2 ⟨List.mem_map.2 ⟨q, hq, rfl⟩, by rw [← hqn, noncap_iff]; rfl⟩
  obtain ⟨b', hb', hne', hor⟩ := hn _ hqc (hself.1.trans hself.2.symm)
  obtain ⟨hb1, hb2⟩ := List.mem_filter.1 hb'
  obtain ⟨r, hr, rfl⟩ := List.mem_map.1 hb1
  have hm : (MGraph.orient G.nodes r.1, r.2) ∈ (conductiveGraph G).es :=
    (conductive_mem h _).2 ⟨r, hr, by rw [noncap_iff]; exact hb2, rfl⟩
  have hiff := inside_of_end hw hc hm
  simp only [List.mem_singleton] at hiff
  have hr1 : r.1.1 ≠ r.1.2.1 := hne'
  have hor' : r.1.1 = a ∨ r.1.2.1 = a := by
    rcases hor with h' | h'
    · exact Or.inl (h'.trans hself.1)
    · exact Or.inr (h'.trans hself.1)
  rcases orient_cases G.nodes r.1 with h' | h' <;> simp only [h'] at hiff
  · rcases hor' with h2 | h2
    · exact hr1 (h2.trans (hiff.1 h2).symm)
    · exact hr1 ((hiff.2 h2).trans h2.symm)
  · rcases hor' with h2 | h2
    · exact hr1 (h2.trans (hiff.2 h2).symm)
    · exact hr1 ((hiff.1 h2).trans h2.symm)

end Verif.Circuit
