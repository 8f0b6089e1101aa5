import Verif.Lemmas.Graph

/-!
# Lemmas: the edge view of a multigraph
-/

set_option linter.unusedVariables false

namespace Verif.Circuit

open Verif Verif.Spec

namespace MGraph

/-- Well-formed multigraphs: no repeated node, edges join nodes of the graph, and parallel edges have different keys. -/
structure WF (G : MGraph) : Prop where
  nodup : G.nodes.Nodup
  ends : ∀ p ∈ G.es, p.1.1 ∈ G.nodes ∧ p.1.2.1 ∈ G.nodes
  keys : G.es.Pairwise fun p q => p.1 ≠ q.1 ∧ p.1 ≠ q.1.rev

/-- The orientation in which an edge is listed: from the node added earlier. -/
def orient (ns : List Node) (e : Edge) : Edge := if ns.idxOf e.1 ≤ ns.idxOf e.2.1 then e else e.rev

end MGraph

theorem rev_rev (e : Edge) : e.rev.rev = e := rfl

theorem rev_inj {e e' : Edge} (h : e.rev = e'.rev) : e = e' := by
  have := congrArg Edge.rev h; simpa [rev_rev] using this

theorem orient_cases (ns : List Node) (e : Edge) : MGraph.orient ns e = e ∨ MGraph.orient ns e = e.rev := by
  unfold MGraph.orient; split_ifs <;> simp

namespace MGraph

theorem joins_iff (e : Edge) (n m : Node) : joins e n m = true ↔ (e.1 = n ∧ e.2.1 = m) ∨ (e.1 = m ∧ e.2.1 = n) := by
  simp [joins]

theorem mem_between (G : MGraph) (n m : Node) (x : Edge × String) :
    x ∈ G.between n m ↔ x.1.1 = n ∧ x.1.2.1 = m ∧ ∃ p ∈ G.es, p.2 = x.2 ∧ (p.1 = x.1 ∨ p.1 = x.1.rev) := by
  unfold between
  simp only [List.mem_map, List.mem_filter, joins_iff]
  constructor
  · rintro ⟨p, ⟨hp, h⟩, rfl⟩
    refine ⟨rfl, rfl, p, hp, rfl, ?_⟩
    rcases h with ⟨rfl, rfl⟩ | ⟨rfl, rfl⟩
    · exact Or.inl rfl
    · exact Or.inr rfl
  · rintro ⟨rfl, rfl, p, hp, h2, h | h⟩
    · exact ⟨p, ⟨hp, Or.inl (by rw [h]; exact ⟨rfl, rfl⟩)⟩, by rw [h, h2]⟩
    · refine ⟨p, ⟨hp, Or.inr (by rw [h]; exact ⟨rfl, rfl⟩)⟩, ?_⟩
      rw [h, h2]; rfl

theorem mem_nbrs_of_between {G : MGraph} {n m : Node} {x : Edge × String} (h : x ∈ G.between n m) : m ∈ G.nbrs n := by
  obtain ⟨rfl, rfl, p, hp, _, h⟩ := (mem_between G n m x).1 h
  unfold nbrs
  rw [mem_uniq, List.mem_filterMap]
  refine ⟨p, hp, ?_⟩
  rcases h with h | h
  · rw [h, if_pos rfl]
  · rw [h]
    by_cases hs : x.1.2.1 = x.1.1
    · simp [Edge.rev, hs]
    · simp [Edge.rev, hs]

theorem mem_viewFrom (G : MGraph) : ∀ (rest seen : List Node) (x : Edge × String),
    x ∈ G.viewFrom seen rest ↔
      ∃ l1 l2, rest = l1 ++ x.1.1 :: l2 ∧ x.1.2.1 ∉ seen ∧ x.1.2.1 ∉ l1 ∧ x ∈ G.between x.1.1 x.1.2.1 := by
  intro rest
  induction rest with
  | nil => intro seen x; simp [viewFrom]
  | cons n rest ih =>
    intro seen x
    unfold viewFrom
    rw [List.mem_append, ih]
    constructor
    · rintro (h | ⟨l1, l2, rfl, h1, h2, h3⟩)
      · obtain ⟨m, hm, hx⟩ := List.mem_flatMap.1 h
        obtain ⟨h1, h2⟩ := List.mem_filter.1 hm
        obtain ⟨rfl, rfl, -⟩ := (mem_between G n m x).1 hx
        exact ⟨[], rest, rfl, by simpa using h2, by simp, hx⟩
      · refine ⟨n :: l1, l2, rfl, fun h => h1 (by simp [h]), ?_, h3⟩
        intro h
        rcases List.mem_cons.1 h with h | h
        · exact h1 (by simp [h])
        · exact h2 h
    · rintro ⟨l1, l2, he, h1, h2, h3⟩
      cases l1 with
      | nil =>
        injection he with he1 he2
        subst he1
        left
        exact List.mem_flatMap.2 ⟨_, List.mem_filter.2 ⟨mem_nbrs_of_between h3, by simpa using h1⟩, h3⟩
      | cons a l1 =>
        injection he with he1 he2
        subst he1
        right
        refine ⟨l1, l2, he2, ?_, fun h => h2 (by simp [h]), h3⟩
        intro h
        rcases List.mem_cons.1 h with h | h
        · exact h2 (by simp [h])
        · exact h1 h

theorem before_iff {ns : List Node} (hnd : ns.Nodup) {n m : Node} (hn : n ∈ ns) (hm : m ∈ ns) :
    (∃ l1 l2, ns = l1 ++ n :: l2 ∧ m ∉ l1) ↔ ns.idxOf n ≤ ns.idxOf m := by
  constructor
  · rintro ⟨l1, l2, rfl, h⟩
    have hn1 : n ∉ l1 := by
      intro h'; exact (List.nodup_append.1 hnd).2.2 n h' n (by simp) rfl
    rw [List.idxOf_append_of_notMem hn1, List.idxOf_append_of_notMem h]
    simp
  · intro h
    obtain ⟨l1, l2, rfl⟩ := List.append_of_mem hn
    refine ⟨l1, l2, rfl, fun hm1 => ?_⟩
    have hn1 : n ∉ l1 := by
      intro h'; exact (List.nodup_append.1 hnd).2.2 n h' n (by simp) rfl
    rw [List.idxOf_append_of_notMem hn1, List.idxOf_append_of_mem hm1] at h
    have := List.idxOf_lt_length_of_mem hm1
    omega

theorem mem_view {G : MGraph} (h : G.WF) (x : Edge × String) :
    x ∈ G.view ↔ ∃ p ∈ G.es, x = (orient G.nodes p.1, p.2) := by
  unfold view
  rw [mem_viewFrom]
  constructor
  · rintro ⟨l1, l2, he, -, h2, h3⟩
    obtain ⟨-, -, p, hp, hp2, hor⟩ := (mem_between _ _ _ _).1 h3
    refine ⟨p, hp, ?_⟩
    have hmem := h.ends p hp
    have hx1 : x.1.1 ∈ G.nodes := by rw [he]; simp
    have hx2 : x.1.2.1 ∈ G.nodes := by
      rcases hor with e | e
      · rw [← e]; exact hmem.2
      · have : p.1.1 = x.1.2.1 := by rw [e]; rfl
        rw [← this]; exact hmem.1
    have hle := (before_iff h.nodup hx1 hx2).1 ⟨l1, l2, he, h2⟩
    unfold orient
    rcases hor with e | e
    · rw [e, if_pos hle, hp2]
    · rw [e]
      split_ifs with h4
      · have : x.1.1 = x.1.2.1 := by
          have h5 : G.nodes.idxOf x.1.2.1 ≤ G.nodes.idxOf x.1.1 := h4
          exact List.idxOf_inj hx1 |>.1 (le_antisymm hle h5)
        have hself : x.1.rev = x.1 := by unfold Edge.rev; rw [this]; exact Prod.ext this.symm rfl
        rw [hself, hp2]
      · rw [rev_rev, hp2]
  · rintro ⟨p, hp, rfl⟩
    have hmem := h.ends p hp
    by_cases hle : G.nodes.idxOf p.1.1 ≤ G.nodes.idxOf p.1.2.1
    · obtain ⟨l1, l2, h1, h2⟩ := (before_iff h.nodup hmem.1 hmem.2).2 hle
      refine ⟨l1, l2, by simpa [orient, hle] using h1, by simp, by simpa [orient, hle] using h2, ?_⟩
      rw [mem_between]
      exact ⟨rfl, rfl, p, hp, rfl, Or.inl (by simp [orient, hle])⟩
    · obtain ⟨l1, l2, h1, h2⟩ := (before_iff h.nodup hmem.2 hmem.1).2 (by omega)
      refine ⟨l1, l2, by simpa [orient, hle, Edge.rev] using h1, by simp, by simpa [orient, hle, Edge.rev] using h2, ?_⟩
      rw [mem_between]
      exact ⟨rfl, rfl, p, hp, rfl, Or.inr (by simp [orient, hle, rev_rev])⟩

theorem pairwise_ne {G : MGraph} (h : G.WF) {p q : Edge × String} (hp : p ∈ G.es) (hq : q ∈ G.es) (hne : p ≠ q) :
    p.1 ≠ q.1 ∧ p.1 ≠ q.1.rev := by
  haveI : Std.Symm fun p q : Edge × String => p.1 ≠ q.1 ∧ p.1 ≠ q.1.rev :=
    ⟨fun p q ⟨h1, h2⟩ => ⟨fun h => h1 h.symm, fun h => h2 (by rw [h, rev_rev])⟩⟩
  exact h.keys.forall hp hq hne

theorem between_nodup {G : MGraph} (h : G.WF) (n m : Node) : (G.between n m).Nodup := by
  unfold between
  rw [List.nodup_map_iff_inj_on]
  · intro p hp q hq he
    obtain ⟨hp1, hp2⟩ := List.mem_filter.1 hp
    obtain ⟨hq1, hq2⟩ := List.mem_filter.1 hq
    injection he with he1 he2
    by_contra hne
    have hk : p.1.2.2 = q.1.2.2 := by injection he1 with _ h; injection h
    have hcases : p.1 = q.1 ∨ p.1 = q.1.rev := by
      rw [joins_iff] at hp2 hq2
      rcases hp2 with ⟨a, b⟩ | ⟨a, b⟩ <;> rcases hq2 with ⟨c, d⟩ | ⟨c, d⟩
      · exact Or.inl (Prod.ext (a.trans c.symm) (Prod.ext (b.trans d.symm) hk))
      · exact Or.inr (Prod.ext (a.trans d.symm) (Prod.ext (b.trans c.symm) hk))
      · exact Or.inr (Prod.ext (a.trans d.symm) (Prod.ext (b.trans c.symm) hk))
      · exact Or.inl (Prod.ext (a.trans c.symm) (Prod.ext (b.trans d.symm) hk))
    obtain ⟨h1, h2⟩ := pairwise_ne h hp1 hq1 hne
    rcases hcases with h | h
    · exact h1 h
    · exact h2 h
  · apply List.Nodup.filter
    exact h.keys.imp fun {p q} h hpq => h.1 (by rw [hpq])

theorem viewFrom_nodup {G : MGraph} (h : G.WF) : ∀ (rest seen : List Node), rest.Nodup → (G.viewFrom seen rest).Nodup := by
  intro rest
  induction rest with
  | nil => intro seen _; exact List.nodup_nil
  | cons n rest ih =>
    intro seen hnd
    unfold viewFrom
    rw [List.nodup_append]
    refine ⟨?_, ih _ (List.nodup_cons.1 hnd).2, ?_⟩
    · rw [List.nodup_flatMap]
      refine ⟨fun m _ => between_nodup h n m, ?_⟩
      have hn : ((G.nbrs n).filter fun m => m ∉ seen).Nodup := (uniq_nodup _).filter _
      refine hn.imp ?_
      intro a b hab x hx hx'
      obtain ⟨-, h1, -⟩ := (mem_between _ _ _ _).1 hx
      obtain ⟨-, h2, -⟩ := (mem_between _ _ _ _).1 hx'
      exact hab (h1.symm.trans h2)
    · intro x hx y hy hxy
      subst hxy
      obtain ⟨m, _, hx'⟩ := List.mem_flatMap.1 hx
      obtain ⟨h1, -⟩ := (mem_between _ _ _ _).1 hx'
      obtain ⟨l1, l2, he, -⟩ := (mem_viewFrom _ _ _ _).1 hy
      exact (List.nodup_cons.1 hnd).1 (by rw [he, h1]; simp)

theorem orient_inj {G : MGraph} (h : G.WF) {p q : Edge × String} (hp : p ∈ G.es) (hq : q ∈ G.es)
    (he : orient G.nodes p.1 = orient G.nodes q.1) : p = q := by
  by_contra hne
  obtain ⟨h1, h2⟩ := pairwise_ne h hp hq hne
  rcases orient_cases G.nodes p.1 with hp' | hp' <;> rcases orient_cases G.nodes q.1 with hq' | hq' <;>
    rw [hp', hq'] at he
  · exact h1 he
  · exact h2 he
  · exact h2 (by rw [← he, rev_rev])
  · exact h1 (rev_inj he)

/-- The view lists every edge once, oriented from the earlier node. -/
theorem view_perm {G : MGraph} (h : G.WF) : G.view.Perm (G.es.map fun p => (orient G.nodes p.1, p.2)) := by
  have hes : G.es.Nodup := h.keys.imp fun {p q} h hpq => h.1 (by rw [hpq])
  change (G.viewFrom [] G.nodes).Perm _
  rw [List.perm_ext_iff_of_nodup (viewFrom_nodup h _ _ h.nodup)]
  · intro x
    rw [show G.viewFrom [] G.nodes = G.view from rfl, mem_view h, List.mem_map]
    exact ⟨fun ⟨p, hp, he⟩ => ⟨p, hp, he.symm⟩, fun ⟨p, hp, he⟩ => ⟨p, hp, he.symm⟩⟩
  · rw [List.nodup_map_iff_inj_on hes]
    intro p hp q hq he
    injection he with he1 _
    exact orient_inj h hp hq he1

theorem edges_perm {G : MGraph} (h : G.WF) : G.edges.Perm (G.es.map fun p => orient G.nodes p.1) := by
  have := (view_perm h).map Prod.fst
  rw [List.map_map] at this
  exact this

theorem edges_nodup {G : MGraph} (h : G.WF) : G.edges.Nodup := by
  rw [(edges_perm h).nodup_iff]
  have hes : G.es.Nodup := h.keys.imp fun {p q} h hpq => h.1 (by rw [hpq])
  rw [List.nodup_map_iff_inj_on hes]
  intro p hp q hq he
  exact orient_inj h hp hq he

theorem edges_length {G : MGraph} (h : G.WF) : G.edges.length = G.es.length := by
  rw [(edges_perm h).length_eq, List.length_map]

theorem mem_edges {G : MGraph} (h : G.WF) (e : Edge) : e ∈ G.edges ↔ ∃ p ∈ G.es, e = orient G.nodes p.1 := by
  rw [(edges_perm h).mem_iff, List.mem_map]
  exact ⟨fun ⟨p, hp, he⟩ => ⟨p, hp, he.symm⟩, fun ⟨p, hp, he⟩ => ⟨p, hp, he.symm⟩⟩

theorem orient_ends {ns : List Node} {e : Edge} : (ns.idxOf (orient ns e).1 ≤ ns.idxOf (orient ns e).2.1) := by
  unfold orient
  split_ifs with h
  · exact h
  · change ns.idxOf e.2.1 ≤ ns.idxOf e.1; omega

theorem orient_self {ns : List Node} {e : Edge} (h : ns.idxOf e.1 ≤ ns.idxOf e.2.1) : orient ns e = e := by
  unfold orient; rw [if_pos h]

theorem mem_edges_nodes {G : MGraph} (h : G.WF) {e : Edge} (he : e ∈ G.edges) : e.1 ∈ G.nodes ∧ e.2.1 ∈ G.nodes := by
  obtain ⟨p, hp, rfl⟩ := (mem_edges h e).1 he
  rcases orient_cases G.nodes p.1 with h' | h' <;> rw [h']
  · exact h.ends p hp
  · exact (h.ends p hp).symm

theorem conn_edges {G : MGraph} (h : G.WF) (x y : Node) : Conn G.edges x y ↔ Conn (G.es.map Prod.fst) x y := by
  constructor
  · apply Conn.mono
    intro e he
    obtain ⟨p, hp, rfl⟩ := (mem_edges h e).1 he
    have hc : Conn (G.es.map Prod.fst) p.1.1 p.1.2.1 := Conn.edge (List.mem_map.2 ⟨p, hp, rfl⟩)
    rcases orient_cases G.nodes p.1 with h' | h' <;> rw [h']
    · exact hc
    · exact hc.symm
  · apply Conn.mono
    intro e he
    obtain ⟨p, hp, rfl⟩ := List.mem_map.1 he
    have hc : Conn G.edges (orient G.nodes p.1).1 (orient G.nodes p.1).2.1 := Conn.edge ((mem_edges h _).2 ⟨p, hp, rfl⟩)
    rcases orient_cases G.nodes p.1 with h' | h' <;> rw [h'] at hc
    · exact hc
    · exact hc.symm

/-! ### Preservation of well-formedness -/

theorem addNode_nodes_mem (G : MGraph) (n x : Node) : x ∈ (G.addNode n).nodes ↔ x ∈ G.nodes ∨ x = n := by
  unfold addNode
  split_ifs with h
  · constructor
    · exact Or.inl
    · rintro (h' | rfl)
      · exact h'
      · exact h
  · simp

theorem addNode_es (G : MGraph) (n : Node) : (G.addNode n).es = G.es := by unfold addNode; split_ifs <;> rfl

theorem addNode_nodup {G : MGraph} (h : G.nodes.Nodup) (n : Node) : (G.addNode n).nodes.Nodup := by
  unfold addNode
  split_ifs with hn
  · exact h
  · rw [List.nodup_append]
    refine ⟨h, by simp, ?_⟩
    intro x hx y hy
    rw [List.mem_singleton] at hy
    rintro rfl; exact hn (hy ▸ hx)

theorem addNode_of_mem {G : MGraph} {n : Node} (h : n ∈ G.nodes) : G.addNode n = G := by unfold addNode; rw [if_pos h]

theorem WF.empty : WF {} := ⟨List.nodup_nil, by simp, List.Pairwise.nil⟩

theorem WF.addEdge {G : MGraph} (h : G.WF) {u v k : ℕ} {c : String}
    (hk : ∀ p ∈ G.es, joins p.1 u v = true → p.1.2.2 ≠ k) : (G.addEdge u v k c).WF := by
  refine ⟨addNode_nodup (addNode_nodup h.nodup u) v, ?_, ?_⟩
  · intro p hp
    simp only [MGraph.addEdge, addNode_es, List.mem_append, List.mem_singleton] at hp ⊢
    simp only [addNode_nodes_mem]
    rcases hp with hp | rfl
    · have := h.ends p hp
      exact ⟨Or.inl (Or.inl this.1), Or.inl (Or.inl this.2)⟩
    · exact ⟨Or.inl (Or.inr rfl), Or.inr rfl⟩
  · simp only [MGraph.addEdge, addNode_es]
    rw [List.pairwise_append]
    refine ⟨h.keys, by simp, ?_⟩
    intro p hp q hq
    rw [List.mem_singleton] at hq
    subst hq
    constructor
    · intro he
      exact hk p hp ((joins_iff _ _ _).2 (by rw [he]; exact Or.inl ⟨rfl, rfl⟩)) (by rw [he])
    · intro he
      exact hk p hp ((joins_iff _ _ _).2 (by rw [he]; exact Or.inr ⟨rfl, rfl⟩)) (by rw [he]; rfl)

end MGraph

end Verif.Circuit
