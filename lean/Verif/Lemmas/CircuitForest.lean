import Verif.Lemmas.MGraph
import Verif.Model.Circuit
import Mathlib.Data.List.Perm.Basic
import Mathlib.Algebra.BigOperators.Group.List.Lemmas

/-!
# Lemmas: conductive graph, components, spanning trees and closure branches
-/

set_option linter.unusedVariables false

namespace Verif.Circuit

open Verif Verif.Spec

/-! ### The conductive graph -/

theorem foldl_addNode (l : List Node) : ∀ G : MGraph, (G.nodes ++ l).Nodup →
    l.foldl MGraph.addNode G = { nodes := G.nodes ++ l, es := G.es } := by
  induction l with
  | nil => intro G _; simp
  | cons n l ih =>
    intro G h
    have hn : n ∉ G.nodes := by
      intro hn; exact (List.nodup_append.1 h).2.2 n hn n (by simp) rfl
    rw [List.foldl_cons, MGraph.addNode, if_neg hn, ih]
    · simp
    · simpa using h

/-- Edges whose component is not a capacitor. -/
def noncap (p : Edge × String) : Bool := pre p.2 ≠ some 'C'

theorem foldl_addEdge (l : List (Edge × String)) : ∀ H : MGraph, (∀ p ∈ l, p.1.1 ∈ H.nodes ∧ p.1.2.1 ∈ H.nodes) →
    l.foldl (fun H p => if pre p.2 = some 'C' then H else H.addEdge p.1.1 p.1.2.1 p.1.2.2 p.2) H =
      { nodes := H.nodes, es := H.es ++ l.filter noncap } := by
  induction l with
  | nil => intro H _; simp
  | cons p l ih =>
    intro H h
    have h0 := h p (by simp)
    rw [List.foldl_cons]
    by_cases hp : pre p.2 = some 'C'
    · rw [if_pos hp, ih H fun q hq => h q (by simp [hq])]
      simp [List.filter_cons, noncap, hp]
    · rw [if_neg hp]
      have he : H.addEdge p.1.1 p.1.2.1 p.1.2.2 p.2 = { nodes := H.nodes, es := H.es ++ [p] } := by
        unfold MGraph.addEdge
        rw [MGraph.addNode_of_mem h0.1, MGraph.addNode_of_mem h0.2]
      rw [he, ih { nodes := H.nodes, es := H.es ++ [p] } fun q hq => h q (by simp [hq])]
      simp [List.filter_cons, noncap, hp]

theorem view_mem_nodes {G : MGraph} (h : G.WF) {p : Edge × String} (hp : p ∈ G.view) : p.1.1 ∈ G.nodes ∧ p.1.2.1 ∈ G.nodes :=
  MGraph.mem_edges_nodes h (List.mem_map.2 ⟨p, hp, rfl⟩)

theorem conductiveGraph_eq {G : MGraph} (h : G.WF) :
    conductiveGraph G = { nodes := G.nodes, es := G.view.filter noncap } := by
  unfold conductiveGraph
  rw [foldl_addNode _ _ (by simpa using h.nodup)]
  rw [foldl_addEdge]
  · simp
  · intro p hp; simpa using view_mem_nodes h hp

theorem view_oriented {G : MGraph} (h : G.WF) {p : Edge × String} (hp : p ∈ G.view) :
    G.nodes.idxOf p.1.1 ≤ G.nodes.idxOf p.1.2.1 := by
  obtain ⟨q, _, rfl⟩ := (MGraph.mem_view h p).1 hp
  exact MGraph.orient_ends

/-- A graph whose edges are listed from the earlier node. -/
structure Oriented (H : MGraph) : Prop extends H.WF where
  ori : ∀ p ∈ H.es, H.nodes.idxOf p.1.1 ≤ H.nodes.idxOf p.1.2.1

theorem view_keys {G : MGraph} (h : G.WF) : G.view.Pairwise fun p q => p.1 ≠ q.1 ∧ p.1 ≠ q.1.rev := by
  have hnd : G.view.Nodup := MGraph.viewFrom_nodup h _ _ h.nodup
  have hall : ∀ p ∈ G.view, ∀ q ∈ G.view, p ≠ q → p.1 ≠ q.1 ∧ p.1 ≠ q.1.rev := by
    intro p hp q hq hne
    obtain ⟨a, ha, rfl⟩ := (MGraph.mem_view h p).1 hp
    obtain ⟨b, hb, rfl⟩ := (MGraph.mem_view h q).1 hq
    have hab : a ≠ b := fun h => hne (by rw [h])
    obtain ⟨h1, h2⟩ := MGraph.pairwise_ne h ha hb hab
    rcases orient_cases G.nodes a.1 with ha' | ha' <;> rcases orient_cases G.nodes b.1 with hb' | hb' <;>
      simp only [ha', hb']
    · exact ⟨h1, h2⟩
    · exact ⟨h2, by rw [rev_rev]; exact h1⟩
    · exact ⟨fun h => h2 (by rw [← h, rev_rev]), fun h => h1 (rev_inj h)⟩
    · exact ⟨fun h => h1 (rev_inj h), fun h => h2 (by rw [rev_rev] at h; rw [← h, rev_rev])⟩
  exact hnd.imp_of_mem fun {p q} hp hq hne => hall p hp q hq hne

theorem Oriented.of_view {G : MGraph} (h : G.WF) {l : List (Edge × String)} (hl : l.Sublist G.view) :
    Oriented { nodes := G.nodes, es := l } :=
  ⟨⟨h.nodup, fun p hp => view_mem_nodes h (hl.subset hp), (view_keys h).sublist hl⟩,
    fun p hp => view_oriented h (hl.subset hp)⟩

theorem conductive_oriented {G : MGraph} (h : G.WF) : Oriented (conductiveGraph G) := by
  rw [conductiveGraph_eq h]; exact Oriented.of_view h List.filter_sublist

theorem Oriented.view_perm {H : MGraph} (h : Oriented H) : H.view.Perm H.es := by
  have := MGraph.view_perm h.toWF
  have he : (H.es.map fun p => (MGraph.orient H.nodes p.1, p.2)) = H.es := by
    conv_rhs => rw [← List.map_id H.es]
    apply List.map_congr_left
    intro p hp
    rw [MGraph.orient_self (h.ori p hp)]; rfl
  rwa [he] at this

theorem Oriented.edges_perm {H : MGraph} (h : Oriented H) : H.edges.Perm (H.es.map Prod.fst) :=
  h.view_perm.map _

theorem Oriented.mem_edges {H : MGraph} (h : Oriented H) (e : Edge) : e ∈ H.edges ↔ e ∈ H.es.map Prod.fst :=
  h.edges_perm.mem_iff

/-! ### Components -/

theorem mem_components {H : MGraph} {c : List Node} (hc : c ∈ components H) :
    ∃ r ∈ H.nodes, c = H.nodes.filter fun n => uf (H.es.map Prod.fst) n = uf (H.es.map Prod.fst) r := by
  unfold components at hc
  obtain ⟨r, hr, rfl⟩ := List.mem_map.1 hc
  obtain ⟨n, hn, rfl⟩ := List.mem_map.1 ((mem_uniq _ _).1 hr)
  exact ⟨n, hn, rfl⟩

theorem component_of {H : MGraph} {n : Node} (hn : n ∈ H.nodes) : ∃ c ∈ components H, n ∈ c := by
  unfold components
  refine ⟨_, List.mem_map.2 ⟨uf (H.es.map Prod.fst) n, (mem_uniq _ _).2 (List.mem_map.2 ⟨n, hn, rfl⟩), rfl⟩, ?_⟩
  simp [hn]

theorem components_disjoint (H : MGraph) : (components H).Pairwise fun c d => ∀ n, n ∈ c → n ∉ d := by
  unfold components
  rw [List.pairwise_map]
  refine (uniq_nodup _).imp ?_
  intro a b hab n hn hn'
  simp only [List.mem_filter, decide_eq_true_eq] at hn hn'
  exact hab (hn.2.symm.trans hn'.2)

theorem components_nodes {H : MGraph} {c : List Node} (hc : c ∈ components H) : c.Sublist H.nodes := by
  obtain ⟨r, _, rfl⟩ := mem_components hc
  exact List.filter_sublist

theorem component_conn {H : MGraph} {c : List Node} (hc : c ∈ components H) {x y : Node} (hx : x ∈ c) :
    y ∈ c ↔ y ∈ H.nodes ∧ Conn (H.es.map Prod.fst) x y := by
  obtain ⟨r, _, rfl⟩ := mem_components hc
  simp only [List.mem_filter, decide_eq_true_eq] at hx ⊢
  rw [← uf_iff, hx.2]
  exact and_congr_right fun _ => eq_comm

theorem component_pos {H : MGraph} {c : List Node} (hc : c ∈ components H) : c ≠ [] := by
  obtain ⟨r, hr, rfl⟩ := mem_components hc
  intro h
  have : r ∈ (H.nodes.filter fun n => uf (H.es.map Prod.fst) n = uf (H.es.map Prod.fst) r) := by simp [hr]
  rw [h] at this; cases this

theorem sum_filter_classes {α β : Type} [DecidableEq β] (f : α → β) : ∀ (cs : List β), cs.Nodup → ∀ (l : List α),
    (∀ a ∈ l, f a ∈ cs) → (cs.map fun r => (l.filter fun a => f a = r).length).sum = l.length := by
  intro cs hcs l
  induction l with
  | nil => intro _; simp
  | cons a l ih =>
    intro h
    have h1 := ih fun b hb => h b (by simp [hb])
    have h2 : (cs.map fun r => ((a :: l).filter fun a => f a = r).length) =
        cs.map fun r => (if f a = r then 1 else 0) + (l.filter fun a => f a = r).length := by
      apply List.map_congr_left
      intro r _
      rw [List.filter_cons]
      by_cases hr : f a = r
      · simp [hr]; omega
      · simp [hr]
    rw [h2, List.sum_map_add, h1, List.length_cons]
    have h3 : (cs.map fun r => if f a = r then 1 else 0).sum = cs.count (f a) := by
      clear h2 h1 ih h
      induction cs with
      | nil => rfl
      | cons b cs ih' =>
        have := ih' (List.nodup_cons.1 hcs).2
        rw [List.map_cons, List.sum_cons, this, List.count_cons]
        by_cases hb : f a = b
        · simp [hb]; omega
        · have hb' : ¬ b = f a := fun h => hb h.symm
          simp [hb, hb']
    rw [h3, List.count_eq_one_of_mem hcs (h a (by simp))]
    omega

theorem components_sum (H : MGraph) : ((components H).map List.length).sum = H.nodes.length := by
  unfold components
  rw [List.map_map]
  exact sum_filter_classes _ _ (uniq_nodup _) _ fun a ha => (mem_uniq _ _).2 (List.mem_map.2 ⟨a, ha, rfl⟩)

theorem components_count (H : MGraph) : (components H).length = classes (uf (H.es.map Prod.fst)) H.nodes.toFinset := by
  unfold components classes
  rw [List.length_map]
  have : (H.nodes.toFinset.image (uf (H.es.map Prod.fst))) = (uniq (H.nodes.map (uf (H.es.map Prod.fst)))).toFinset := by
    ext y; simp
  rw [this, List.toFinset_card_of_nodup (uniq_nodup _)]

/-- The edges inside a component. -/
def inside (H : MGraph) (c : List Node) : List (Edge × String) := H.es.filter fun p => p.1.1 ∈ c ∧ p.1.2.1 ∈ c

theorem inside_of_end {H : MGraph} (h : H.WF) {c : List Node} (hc : c ∈ components H) {p : Edge × String} (hp : p ∈ H.es) :
    (p.1.1 ∈ c ↔ p.1.2.1 ∈ c) := by
  have hcon : Conn (H.es.map Prod.fst) p.1.1 p.1.2.1 := Conn.edge (List.mem_map.2 ⟨p, hp, rfl⟩)
  have he := h.ends p hp
  constructor
  · intro hx; exact (component_conn hc hx).2 ⟨he.2, hcon⟩
  · intro hx; exact (component_conn hc hx).2 ⟨he.1, hcon.symm⟩

theorem inside_sum {H : MGraph} (h : H.WF) : ((components H).map fun c => (inside H c).length).sum = H.es.length := by
  have hsum := sum_filter_classes (fun p : Edge × String => uf (H.es.map Prod.fst) p.1.1) (uniq (H.nodes.map (uf (H.es.map Prod.fst))))
    (uniq_nodup _) H.es (fun p hp => (mem_uniq _ _).2 (List.mem_map.2 ⟨_, (h.ends p hp).1, rfl⟩))
  rw [← hsum]
  unfold components
  rw [List.map_map]
  congr 1
  apply List.map_congr_left
  intro r _
  simp only [Function.comp, inside]
  congr 1
  apply List.filter_congr
  intro p hp
  have hcon : Conn (H.es.map Prod.fst) p.1.1 p.1.2.1 := Conn.edge (List.mem_map.2 ⟨p, hp, rfl⟩)
  have he := h.ends p hp
  have := (uf_iff _ _ _).2 hcon
  simp [he.1, he.2, ← this]

theorem inside_conn {H : MGraph} (h : H.WF) {c : List Node} (hc : c ∈ components H) {x y : Node} (hx : x ∈ c) (hy : y ∈ c) :
    Conn ((inside H c).map Prod.fst) x y := by
  have hcon := ((component_conn hc hx).1 hy).2
  have : (x ∈ c ↔ y ∈ c) ∧ (x ∈ c → Conn ((inside H c).map Prod.fst) x y) := by
    refine Conn.of_edges (R := fun x y => (x ∈ c ↔ y ∈ c) ∧ (x ∈ c → Conn ((inside H c).map Prod.fst) x y)) ?_ ?_ hcon
    · refine ⟨fun x => ⟨Iff.rfl, fun _ => Conn.refl _ _⟩, ?_, ?_⟩
      · rintro x y ⟨h1, h2⟩
        exact ⟨h1.symm, fun hy => (h2 (h1.2 hy)).symm⟩
      · rintro x y z ⟨h1, h2⟩ ⟨h3, h4⟩
        exact ⟨h1.trans h3, fun hx => (h2 hx).trans (h4 (h1.1 hx))⟩
    · intro e he
      obtain ⟨p, hp, rfl⟩ := List.mem_map.1 he
      have hiff := inside_of_end h hc hp
      refine ⟨hiff, fun hx => Conn.edge (List.mem_map.2 ⟨p, ?_, rfl⟩)⟩
      exact List.mem_filter.2 ⟨hp, by simp [hx, hiff.1 hx]⟩
  exact this.2 hx

/-! ### One component -/

theorem subCopy_nodes_perm {o : Orc} (ho : o.OK) (H : MGraph) (c : List Node) : (subCopy o H c).nodes.Perm c := by
  unfold subCopy
  split_ifs
  · exact ho.node c
  · exact List.Perm.refl _

theorem subCopy_es (o : Orc) (H : MGraph) (c : List Node) : (subCopy o H c).es = inside H c := rfl

theorem subCopy_wf {o : Orc} (ho : o.OK) {H : MGraph} (h : H.WF) {c : List Node} (hc : c ∈ components H) : (subCopy o H c).WF := by
  have hp := subCopy_nodes_perm ho H c
  refine ⟨?_, ?_, ?_⟩
  · rw [hp.nodup_iff]; exact h.nodup.sublist (components_nodes hc)
  · intro p hpm
    rw [subCopy_es] at hpm
    have := (List.mem_filter.1 hpm).2
    simp only [decide_eq_true_eq] at this
    exact ⟨hp.mem_iff.2 this.1, hp.mem_iff.2 this.2⟩
  · exact h.keys.sublist List.filter_sublist

theorem mst_oriented {G : MGraph} (h : G.WF) : Oriented (minimumSpanningTree G) := by
  unfold minimumSpanningTree
  have := kruskal_inv G.nodes.toFinset G.view (fun p hp => by simpa using view_mem_nodes h hp)
  exact Oriented.of_view h this.2.2.1

theorem mst_edges_subset {G : MGraph} (h : G.WF) : (minimumSpanningTree G).edges ⊆ G.edges := by
  intro e he
  have h1 := ((mst_oriented h).mem_edges e).1 he
  have := kruskal_inv G.nodes.toFinset G.view (fun p hp => by simpa using view_mem_nodes h hp)
  obtain ⟨p, hp, rfl⟩ := List.mem_map.1 h1
  exact List.mem_map.2 ⟨p, this.2.2.1.subset hp, rfl⟩

theorem mst_conn {G : MGraph} (h : G.WF) (x y : Node) : Conn (minimumSpanningTree G).edges x y ↔ Conn G.edges x y := by
  have hk := kruskal_inv G.nodes.toFinset G.view (fun p hp => by simpa using view_mem_nodes h hp)
  have h1 := (mst_oriented h).edges_perm
  constructor
  · exact Conn.subset (mst_edges_subset h)
  · intro hc
    have h2 := (uf_iff _ _ _).2 hc
    have h3 : uf G.edges = uf ((minimumSpanningTree G).es.map Prod.fst) := hk.1.symm.trans hk.2.1
    rw [h3, uf_iff] at h2
    exact Conn.subset (fun e he => h1.mem_iff.2 he) h2

theorem mst_count {G : MGraph} (h : G.WF) :
    classes (uf G.edges) G.nodes.toFinset + (minimumSpanningTree G).edges.length = G.nodes.length := by
  have hk := kruskal_inv G.nodes.toFinset G.view (fun p hp => by simpa using view_mem_nodes h hp)
  have h1 := (mst_oriented h).edges_perm.length_eq
  have h4 := hk.2.2.2
  rw [hk.1, List.toFinset_card_of_nodup h.nodup] at h4
  rw [h1, List.length_map]
  exact h4

/-- The tree of a component. -/
def treeOf (o : Orc) (H : MGraph) (c : List Node) : List Edge := (minimumSpanningTree (subCopy o H c)).edges

/-- The closure branches of a component. -/
def closuresOf (o : Orc) (H : MGraph) (c : List Node) : List Edge :=
  if c.length = 1 then [] else (o.edgeOrd ((subCopy o H c).edges.filter fun e => e ∉ treeOf o H c)).map Edge.rev

section Component

variable {o : Orc} (ho : o.OK) {H : MGraph} (h : H.WF) {c : List Node} (hc : c ∈ components H)
include ho h hc

theorem treeOf_length : (treeOf o H c).length + 1 = c.length := by
  have hw := subCopy_wf ho h hc
  have h1 := mst_count hw
  have hperm := subCopy_nodes_perm ho H c
  have h2 : classes (uf (subCopy o H c).edges) (subCopy o H c).nodes.toFinset = 1 := by
    unfold classes
    rw [Finset.card_eq_one]
    obtain ⟨a, ha⟩ := List.exists_mem_of_ne_nil _ (component_pos hc)
    refine ⟨uf (subCopy o H c).edges a, ?_⟩
    ext y
    simp only [Finset.mem_image, List.mem_toFinset, Finset.mem_singleton]
    constructor
    · rintro ⟨b, hb, rfl⟩
      rw [uf_iff, MGraph.conn_edges hw]
      exact inside_conn h hc (hperm.mem_iff.1 hb) ha
    · rintro rfl
      exact ⟨a, hperm.mem_iff.2 ha, rfl⟩
  rw [h2, hperm.length_eq] at h1
  unfold treeOf
  omega

theorem treeOf_nodup : (treeOf o H c).Nodup := MGraph.edges_nodup (mst_oriented (subCopy_wf ho h hc)).toWF

theorem treeOf_mem {e : Edge} (he : e ∈ treeOf o H c) : e.1 ∈ c ∧ e.2.1 ∈ c := by
  have hw := subCopy_wf ho h hc
  have h1 := MGraph.mem_edges_nodes hw (mst_edges_subset hw he)
  have hperm := subCopy_nodes_perm ho H c
  exact ⟨hperm.mem_iff.1 h1.1, hperm.mem_iff.1 h1.2⟩

theorem treeOf_conn {x y : Node} (hx : x ∈ c) (hy : y ∈ c) : Conn (treeOf o H c) x y := by
  have hw := subCopy_wf ho h hc
  unfold treeOf
  rw [mst_conn hw, MGraph.conn_edges hw]
  exact inside_conn h hc hx hy

theorem sub_edges_iff (e : Edge) : (e ∈ (subCopy o H c).edges ∨ e.rev ∈ (subCopy o H c).edges) ↔
    ∃ p ∈ inside H c, e = p.1 ∨ e = p.1.rev := by
  have hw := subCopy_wf ho h hc
  rw [MGraph.mem_edges hw, MGraph.mem_edges hw, subCopy_es]
  constructor
  · rintro (⟨p, hp, he⟩ | ⟨p, hp, he⟩)
    · refine ⟨p, hp, ?_⟩
      rw [he]; exact orient_cases _ _
    · refine ⟨p, hp, ?_⟩
      rcases orient_cases (subCopy o H c).nodes p.1 with h' | h' <;> rw [h'] at he
      · right; rw [← he, rev_rev]
      · left; exact rev_inj he
  · rintro ⟨p, hp, he⟩
    rcases orient_cases (subCopy o H c).nodes p.1 with h' | h' <;> rcases he with rfl | rfl
    · exact Or.inl ⟨p, hp, h'.symm⟩
    · exact Or.inr ⟨p, hp, h'.symm⟩
    · exact Or.inr ⟨p, hp, h'.symm⟩
    · exact Or.inl ⟨p, hp, h'.symm⟩

theorem tree_noself {e : Edge} (he : e ∈ treeOf o H c) : e.1 ≠ e.2.1 := by
  have hw := subCopy_wf ho h hc
  have hcount : classes (uf (treeOf o H c)) (subCopy o H c).nodes.toFinset + (treeOf o H c).length =
      (subCopy o H c).nodes.toFinset.card := by
    rw [List.toFinset_card_of_nodup hw.nodup, ← mst_count hw]
    congr 1
    exact classes_congr fun x _ y _ => by rw [uf_iff, uf_iff]; exact mst_conn hw x y
  have hf := forest_of_count (fun e he => by simpa using MGraph.mem_edges_nodes hw (mst_edges_subset hw he))
    (treeOf_nodup ho h hc) hcount
  intro heq
  exact hf.2 e he (by rw [heq]; exact Conn.refl _ _)

theorem rootOf_isSome (hlen : c.length ≠ 1) : ∃ n ∈ c, rootOf (treeOf o H c) = some n := by
  have hw := subCopy_wf ho h hc
  have hl := treeOf_length ho h hc
  have hpos : 0 < c.length := List.length_pos_of_ne_nil (component_pos hc)
  have hori := (mst_oriented hw)
  cases hr : rootOf (treeOf o H c) with
  | some n =>
    refine ⟨n, ?_, rfl⟩
    unfold rootOf at hr
    have := List.mem_of_find?_eq_some hr
    rw [mem_uniq, List.mem_flatMap] at this
    obtain ⟨e, he, hn⟩ := this
    have hm := treeOf_mem ho h hc he
    simp only [List.mem_cons, List.not_mem_nil, or_false] at hn
    rcases hn with rfl | rfl
    · exact hm.1
    · exact hm.2
  | none =>
    exfalso
    unfold rootOf at hr
    rw [List.find?_eq_none] at hr
    have hin : ∀ e ∈ treeOf o H c, ∃ e' ∈ treeOf o H c, e'.2.1 = e.1 := by
      intro e he
      have := hr e.1 ((mem_uniq _ _).2 (List.mem_flatMap.2 ⟨e, he, by simp⟩))
      simpa using this
    have hlt : ∀ e ∈ treeOf o H c, (subCopy o H c).nodes.idxOf e.1 < (subCopy o H c).nodes.idxOf e.2.1 := by
      intro e he
      have h1 := (hori.mem_edges e).1 he
      obtain ⟨p, hp, rfl⟩ := List.mem_map.1 h1
      have h2 := hori.ori p hp
      have h3 := tree_noself ho h hc he
      have h4 : (subCopy o H c).nodes.idxOf p.1.1 ≠ (subCopy o H c).nodes.idxOf p.1.2.1 := fun h =>
        h3 ((List.idxOf_inj (hori.ends p hp).1).1 h)
      have h5 : (subCopy o H c).nodes.idxOf p.1.1 ≤ (subCopy o H c).nodes.idxOf p.1.2.1 := h2
      omega
    have hdesc : ∀ (k : ℕ) (e : Edge), e ∈ treeOf o H c → (subCopy o H c).nodes.idxOf e.1 = k → False := by
      intro k
      induction k using Nat.strong_induction_on with
      | _ k ih =>
        intro e he hk
        obtain ⟨e', he', hee⟩ := hin e he
        have := hlt e' he'
        rw [hee, hk] at this
        exact ih _ this e' he' rfl
    cases ht : treeOf o H c with
    | nil => rw [ht] at hl; simp at hl; omega
    | cons e t => exact hdesc _ e (by rw [ht]; simp) rfl

omit h in
theorem groundOf_eq {d : Dict Node VG} (hd : groundOf o H c = some d) (h : H.WF) :
    ∃ n ∈ c, (c.length ≠ 1 → rootOf (treeOf o H c) = some n) ∧ d = [(n, ⟨closuresOf o H c, treeOf o H c⟩)] := by
  have hl := treeOf_length ho h hc
  have hperm := subCopy_nodes_perm ho H c
  unfold groundOf at hd
  simp only at hd
  by_cases hall : ∀ e ∈ (minimumSpanningTree (subCopy o H c)).edges, e ∈ H.edges
  swap
  · rw [if_neg hall] at hd; cases hd
  rw [if_pos hall] at hd
  injection hd with hd
  by_cases h1 : c.length = 1
  · have hnil : treeOf o H c = [] := List.eq_nil_of_length_eq_zero (by omega)
    have hnil' : (minimumSpanningTree (subCopy o H c)).edges = [] := hnil
    obtain ⟨a, rfl⟩ := List.length_eq_one_iff.1 h1
    have hn : (subCopy o H [a]).nodes = [a] := List.perm_singleton.1 hperm
    refine ⟨a, by simp, fun h => absurd h1 h, ?_⟩
    rw [← hd, hnil', hnil, closuresOf, if_pos h1, if_pos h1, hn]
    rfl
  · obtain ⟨n, hn, hr⟩ := rootOf_isSome ho h hc h1
    refine ⟨n, hn, fun _ => hr, ?_⟩
    unfold treeOf at hr
    rw [← hd, if_neg h1, hr]
    simp only [Dict.set, closuresOf, if_neg h1, treeOf]
    rfl

/-- Each edge of the component is in the tree or among the closure branches, up to direction. -/
theorem cover {e : Edge} (he : e ∈ (inside H c).map Prod.fst) (h1 : c.length ≠ 1) :
    (e ∈ treeOf o H c ∨ e.rev ∈ treeOf o H c) ∨ (e ∈ closuresOf o H c ∨ e.rev ∈ closuresOf o H c) := by
  obtain ⟨p, hp, rfl⟩ := List.mem_map.1 he
  have hcl : ∀ x : Edge, x ∈ (subCopy o H c).edges → x ∉ treeOf o H c → x.rev ∈ closuresOf o H c := by
    intro x hx hx'
    unfold closuresOf
    rw [if_neg h1]
    exact List.mem_map.2 ⟨x, (ho.edge _).mem_iff.2 (List.mem_filter.2 ⟨hx, by simpa using hx'⟩), rfl⟩
  rcases (sub_edges_iff ho h hc p.1).2 ⟨p, hp, Or.inl rfl⟩ with h2 | h2
  · by_cases h3 : p.1 ∈ treeOf o H c
    · exact Or.inl (Or.inl h3)
    · exact Or.inr (Or.inr (hcl _ h2 h3))
  · by_cases h3 : p.1.rev ∈ treeOf o H c
    · exact Or.inl (Or.inr h3)
    · exact Or.inr (Or.inl (by have := hcl _ h2 h3; rwa [rev_rev] at this))

theorem closuresOf_mem {e : Edge} (he : e ∈ closuresOf o H c) :
    e.rev ∈ (subCopy o H c).edges ∧ e.rev ∉ treeOf o H c := by
  unfold closuresOf at he
  split_ifs at he with h1
  · cases he
  · obtain ⟨x, hx, rfl⟩ := List.mem_map.1 he
    have := List.mem_filter.1 ((ho.edge _).mem_iff.1 hx)
    rw [rev_rev]
    exact ⟨this.1, by simpa using this.2⟩

theorem closuresOf_ends {e : Edge} (he : e ∈ closuresOf o H c) : e.1 ∈ c ∧ e.2.1 ∈ c := by
  have hw := subCopy_wf ho h hc
  have h1 := MGraph.mem_edges_nodes hw (closuresOf_mem ho h hc he).1
  have hperm := subCopy_nodes_perm ho H c
  exact ⟨hperm.mem_iff.1 h1.2, hperm.mem_iff.1 h1.1⟩

theorem closuresOf_length (h1 : c.length ≠ 1) :
    (closuresOf o H c).length + (treeOf o H c).length = (inside H c).length := by
  have hw := subCopy_wf ho h hc
  unfold closuresOf
  rw [if_neg h1, List.length_map, (ho.edge _).length_eq]
  have h2 : ((subCopy o H c).edges.filter fun e => e ∈ treeOf o H c).Perm (treeOf o H c) := by
    rw [List.perm_ext_iff_of_nodup ((MGraph.edges_nodup hw).filter _) (treeOf_nodup ho h hc)]
    intro e
    rw [List.mem_filter]
    constructor
    · rintro ⟨_, h'⟩; simpa using h'
    · intro h'; exact ⟨mst_edges_subset hw h', by simpa using h'⟩
  have h3 : (inside H c).length = (subCopy o H c).edges.length := by
    rw [MGraph.edges_length hw, subCopy_es]
  have h4 := List.length_eq_length_filter_add (l := (subCopy o H c).edges) (fun e => decide (e ∈ treeOf o H c))
  rw [h3, h4, ← h2.length_eq]
  have h5 : (((subCopy o H c).edges.filter fun x => !decide (x ∈ treeOf o H c))) =
      (subCopy o H c).edges.filter fun e => e ∉ treeOf o H c := by
    apply List.filter_congr; intro x _; simp
  rw [h5]; omega

theorem closuresOf_nodup : (closuresOf o H c).Nodup := by
  have hw := subCopy_wf ho h hc
  unfold closuresOf
  split_ifs with h1
  · exact List.nodup_nil
  · refine List.Nodup.map (fun a b => rev_inj) ?_
    rw [(ho.edge _).nodup_iff]
    exact (MGraph.edges_nodup hw).filter _

end Component

/-! ### All components -/

theorem foldl_set_append (d : Dict Node VG) (n : Node) (v : VG) (hn : n ∉ Dict.keys d) : d.set n v = d ++ [(n, v)] := by
  induction d with
  | nil => rfl
  | cons p d ih =>
    obtain ⟨k', v'⟩ := p
    simp only [Dict.keys, List.map_cons, List.mem_cons, not_or] at hn
    have hj : ¬ k' = n := fun e => hn.1 e.symm
    simp [Dict.set, hj, ih hn.2]

theorem virtualGrounds_eq {o : Orc} (ho : o.OK) {H : MGraph} (h : H.WF) :
    ∀ (cs : List (List Node)) (d : Dict Node VG), (∀ c ∈ cs, c ∈ components H) →
      cs.Pairwise (fun c d => ∀ n, n ∈ c → n ∉ d) → (∀ n ∈ Dict.keys d, ∀ c ∈ cs, n ∉ c) →
      (virtualGrounds o H cs d).2 = .ok () →
      ∃ roots : List Node, List.Forall₂ (fun n c => n ∈ c ∧ (c.length ≠ 1 → rootOf (treeOf o H c) = some n)) roots cs ∧
        (virtualGrounds o H cs d).1 = d ++ (roots.zip cs).map fun q => (q.1, ⟨closuresOf o H q.2, treeOf o H q.2⟩) := by
  intro cs
  induction cs with
  | nil => intro d _ _ _ _; exact ⟨[], List.Forall₂.nil, by simp [virtualGrounds]⟩
  | cons c cs ih =>
    intro d hcs hdis hkeys hok
    rw [virtualGrounds] at hok ⊢
    cases hg : groundOf o H c with
    | none => rw [hg] at hok; cases hok
    | some d' =>
      rw [hg] at hok
      simp only at hok ⊢
      obtain ⟨n, hn, hroot, rfl⟩ := groundOf_eq ho (hcs c (by simp)) hg h
      simp only [List.foldl_cons, List.foldl_nil] at hok ⊢
      have hnk : n ∉ Dict.keys d := fun hk => hkeys n hk c (by simp) hn
      rw [foldl_set_append _ _ _ hnk] at hok ⊢
      obtain ⟨roots, hr1, hr2⟩ := ih _ (fun c' hc' => hcs c' (by simp [hc'])) (List.pairwise_cons.1 hdis).2 (by
        intro m hm c' hc'
        simp only [Dict.keys, List.map_append, List.map_cons, List.map_nil, List.mem_append, List.mem_singleton] at hm
        rcases hm with hm | rfl
        · exact hkeys m hm c' (by simp [hc'])
        · exact (List.pairwise_cons.1 hdis).1 c' hc' _ hn) hok
      refine ⟨n :: roots, List.Forall₂.cons ⟨hn, hroot⟩ hr1, ?_⟩
      rw [hr2]
      simp

theorem forall₂_zip_map {α β γ : Type} {R : α → β → Prop} {f : β → γ} : ∀ {l : List α} {l' : List β}, List.Forall₂ R l l' →
    ((l.zip l').map fun q => f q.2) = l'.map f := by
  intro l l' h
  induction h with
  | nil => rfl
  | cons _ _ ih => simp [ih]

/-- The spanning forest, all components together. -/
def forestOf (o : Orc) (H : MGraph) : List Edge := (components H).flatMap (treeOf o H)

/-- All closure branches. -/
def allClosures (o : Orc) (H : MGraph) : List Edge := (components H).flatMap (closuresOf o H)

theorem grounds_values {o : Orc} (ho : o.OK) {H : MGraph} (h : H.WF)
    (hok : (virtualGrounds o H (components H) []).2 = .ok ()) :
    ((virtualGrounds o H (components H) []).1.values.flatMap VG.tree) = forestOf o H ∧
    ((virtualGrounds o H (components H) []).1.values.flatMap VG.closures) = allClosures o H := by
  obtain ⟨roots, hr1, hr2⟩ := virtualGrounds_eq ho h (components H) [] (fun c hc => hc) (components_disjoint H) (by simp [Dict.keys]) hok
  rw [hr2]
  simp only [Dict.values, List.nil_append, List.map_map, forestOf, allClosures]
  constructor
  · rw [show (Prod.snd ∘ fun q : Node × List Node => (q.1, (⟨closuresOf o H q.2, treeOf o H q.2⟩ : VG))) =
        fun q => (fun c => (⟨closuresOf o H c, treeOf o H c⟩ : VG)) q.2 from rfl,
      forall₂_zip_map (f := fun c => (⟨closuresOf o H c, treeOf o H c⟩ : VG)) hr1, List.flatMap_map]
  · rw [show (Prod.snd ∘ fun q : Node × List Node => (q.1, (⟨closuresOf o H q.2, treeOf o H q.2⟩ : VG))) =
        fun q => (fun c => (⟨closuresOf o H c, treeOf o H c⟩ : VG)) q.2 from rfl,
      forall₂_zip_map (f := fun c => (⟨closuresOf o H c, treeOf o H c⟩ : VG)) hr1, List.flatMap_map]

section All

variable {o : Orc} (ho : o.OK) {H : MGraph} (h : H.WF)
include ho h

theorem forestOf_nodup : (forestOf o H).Nodup := by
  unfold forestOf
  rw [List.nodup_flatMap]
  refine ⟨fun c hc => treeOf_nodup ho h hc, ?_⟩
  refine (components_disjoint H).imp_of_mem ?_
  intro c d hc hd hdis e he he'
  exact hdis e.1 (treeOf_mem ho h hc he).1 (treeOf_mem ho h hd he').1

theorem allClosures_nodup : (allClosures o H).Nodup := by
  unfold allClosures
  rw [List.nodup_flatMap]
  refine ⟨fun c hc => closuresOf_nodup ho h hc, ?_⟩
  refine (components_disjoint H).imp_of_mem ?_
  intro c d hc hd hdis e he he'
  exact hdis e.1 (closuresOf_ends ho h hc he).1 (closuresOf_ends ho h hd he').1

theorem forestOf_sub {e : Edge} (he : e ∈ forestOf o H) : e ∈ H.es.map Prod.fst ∨ e.rev ∈ H.es.map Prod.fst := by
  obtain ⟨c, hc, he⟩ := List.mem_flatMap.1 he
  have h1 := mst_edges_subset (subCopy_wf ho h hc) he
  obtain ⟨p, hp, hpe⟩ := (sub_edges_iff ho h hc e).1 (Or.inl h1)
  have hpH := (List.mem_filter.1 hp).1
  rcases hpe with rfl | rfl
  · exact Or.inl (List.mem_map.2 ⟨p, hpH, rfl⟩)
  · exact Or.inr (List.mem_map.2 ⟨p, hpH, rfl⟩)

theorem allClosures_sub {e : Edge} (he : e ∈ allClosures o H) : e ∈ H.es.map Prod.fst ∨ e.rev ∈ H.es.map Prod.fst := by
  obtain ⟨c, hc, he⟩ := List.mem_flatMap.1 he
  obtain ⟨p, hp, hpe⟩ := (sub_edges_iff ho h hc e).1 (Or.inr (closuresOf_mem ho h hc he).1)
  have hpH := (List.mem_filter.1 hp).1
  rcases hpe with rfl | rfl
  · exact Or.inl (List.mem_map.2 ⟨p, hpH, rfl⟩)
  · exact Or.inr (List.mem_map.2 ⟨p, hpH, rfl⟩)

theorem forestOf_conn (x y : Node) : Conn (forestOf o H) x y ↔ Conn (H.es.map Prod.fst) x y := by
  constructor
  · apply Conn.mono
    intro e he
    rcases forestOf_sub ho h he with h1 | h1
    · exact Conn.edge h1
    · exact (Conn.edge h1).symm
  · apply Conn.mono
    intro e he
    obtain ⟨p, hp, rfl⟩ := List.mem_map.1 he
    obtain ⟨c, hc, hx⟩ := component_of (h.ends p hp).1
    have hy := (inside_of_end h hc hp).1 hx
    refine Conn.subset ?_ (treeOf_conn ho h hc hx hy)
    intro e he; exact List.mem_flatMap.2 ⟨c, hc, he⟩

theorem sum_succ {α : Type} (f g : α → ℕ) : ∀ l : List α, (∀ a ∈ l, f a + 1 = g a) → (l.map f).sum + l.length = (l.map g).sum := by
  intro l
  induction l with
  | nil => intro _; rfl
  | cons a l ih =>
    intro hl
    have := ih fun b hb => hl b (by simp [hb])
    have h2 := hl a (by simp)
    simp only [List.map_cons, List.sum_cons, List.length_cons]
    omega

theorem forestOf_length : (forestOf o H).length + (components H).length = H.nodes.length := by
  unfold forestOf
  rw [List.length_flatMap, ← components_sum H]
  exact sum_succ ho h _ _ _ fun c hc => treeOf_length ho h hc

theorem forestOf_forest : Forest (forestOf o H) := by
  apply forest_of_count (ns := H.nodes.toFinset)
  · intro e he
    obtain ⟨c, hc, he⟩ := List.mem_flatMap.1 he
    have h1 := treeOf_mem ho h hc he
    have h2 := (components_nodes hc).subset
    simpa using ⟨h2 h1.1, h2 h1.2⟩
  · exact forestOf_nodup ho h
  · rw [List.toFinset_card_of_nodup h.nodup, ← forestOf_length ho h, components_count, add_comm]
    congr 1
    exact classes_congr fun x _ y _ => by rw [uf_iff, uf_iff]; exact forestOf_conn ho h x y

/-- No conductive self-loop on a node without other conductive neighbours. -/
def NoLoneLoop (H : MGraph) : Prop := ∀ c ∈ components H, c.length = 1 → inside H c = []

omit h in
theorem sum_add {α : Type} (f g k : α → ℕ) : ∀ l : List α, (∀ a ∈ l, f a + g a = k a) → (l.map f).sum + (l.map g).sum = (l.map k).sum := by
  intro l
  induction l with
  | nil => intro _; rfl
  | cons a l ih =>
    intro hl
    have := ih fun b hb => hl b (by simp [hb])
    have h2 := hl a (by simp)
    simp only [List.map_cons, List.sum_cons]
    omega

theorem allClosures_length (hn : NoLoneLoop H) : (allClosures o H).length + (forestOf o H).length = H.es.length := by
  unfold allClosures forestOf
  rw [List.length_flatMap, List.length_flatMap, ← inside_sum h]
  apply sum_add ho
  intro c hc
  by_cases h1 : c.length = 1
  · have := treeOf_length ho h hc
    have h0 : (treeOf o H c).length = 0 := by omega
    rw [closuresOf, if_pos h1, hn c hc h1, h0]
    rfl
  · exact closuresOf_length ho h hc h1

theorem wc_cover (hn : NoLoneLoop H) {e : Edge} (he : e ∈ H.es.map Prod.fst) :
    (e ∈ forestOf o H ∨ e.rev ∈ forestOf o H) ∨ (e ∈ allClosures o H ∨ e.rev ∈ allClosures o H) := by
  obtain ⟨p, hp, rfl⟩ := List.mem_map.1 he
  obtain ⟨c, hc, hx⟩ := component_of (h.ends p hp).1
  have hy := (inside_of_end h hc hp).1 hx
  have hin : p ∈ inside H c := List.mem_filter.2 ⟨hp, by simp [hx, hy]⟩
  have h1 : c.length ≠ 1 := by
    intro h1; rw [hn c hc h1] at hin; cases hin
  have hm : ∀ {x : Edge}, x ∈ treeOf o H c → x ∈ forestOf o H := fun hx => List.mem_flatMap.2 ⟨c, hc, hx⟩
  have hm' : ∀ {x : Edge}, x ∈ closuresOf o H c → x ∈ allClosures o H := fun hx => List.mem_flatMap.2 ⟨c, hc, hx⟩
  rcases cover ho h hc (List.mem_map.2 ⟨p, hin, rfl⟩) h1 with (h2 | h2) | (h2 | h2)
  · exact Or.inl (Or.inl (hm h2))
  · exact Or.inl (Or.inr (hm h2))
  · exact Or.inr (Or.inl (hm' h2))
  · exact Or.inr (Or.inr (hm' h2))

/-- A closure branch is not in the tree, in either direction. -/
theorem closure_not_tree {e : Edge} (he : e ∈ allClosures o H) : e ∉ forestOf o H ∧ e.rev ∉ forestOf o H := by
  obtain ⟨c, hc, he⟩ := List.mem_flatMap.1 he
  obtain ⟨h1, h2⟩ := closuresOf_mem ho h hc he
  have hw := subCopy_wf ho h hc
  have hends := closuresOf_ends ho h hc he
  have key : ∀ d ∈ components H, e.1 ∈ d → d = c := by
    intro d hd hx
    have hc1 := fun n => component_conn hc (x := e.1) (y := n) hends.1
    have hd1 := fun n => component_conn hd (x := e.1) (y := n) hx
    obtain ⟨r, hr, rfl⟩ := mem_components hc
    obtain ⟨r', hr', rfl⟩ := mem_components hd
    apply List.filter_congr
    intro n hn
    have := (hd1 n).trans (hc1 n).symm
    simp only [List.mem_filter, hn, true_and, decide_eq_true_eq] at this
    simpa using this
  have inj : ∀ x y : Edge, x ∈ (subCopy o H c).edges → x.rev ∈ (subCopy o H c).edges → x = x.rev := by
    intro x y hx hx'
    by_contra hne
    obtain ⟨p, hp, rfl⟩ := List.mem_map.1 hx
    obtain ⟨q, hq, hqe⟩ := List.mem_map.1 hx'
    have hpq : p ≠ q := by rintro rfl; exact hne hqe
    haveI : Std.Symm fun p q : Edge × String => p.1 ≠ q.1 ∧ p.1 ≠ q.1.rev :=
      ⟨fun p q ⟨h1, h2⟩ => ⟨fun h => h1 h.symm, fun h => h2 (by rw [h, rev_rev])⟩⟩
    exact ((view_keys hw).forall hp hq hpq).2 (by rw [hqe, rev_rev])
  constructor
  · intro hm
    obtain ⟨d, hd, hm⟩ := List.mem_flatMap.1 hm
    have := key d hd (treeOf_mem ho h hd hm).1
    subst this
    have h3 := inj e.rev e.rev h1 (by rw [rev_rev]; exact mst_edges_subset hw hm)
    rw [rev_rev] at h3
    exact h2 (by rw [h3]; exact hm)
  · intro hm
    obtain ⟨d, hd, hm⟩ := List.mem_flatMap.1 hm
    have := key d hd (treeOf_mem ho h hd hm).2
    subst this
    exact h2 hm

end All

end Verif.Circuit
