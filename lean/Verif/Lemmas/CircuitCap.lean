import Verif.Lemmas.CircuitBias

/-!
# Lemmas: the oriented circuit lists each branch in one direction, and capacitors do not change it
-/

set_option linter.unusedVariables false

namespace Verif.Circuit

open Verif Verif.Spec

section

variable {o : Orc} (ho : o.OK) {H : MGraph} (h : H.WF)

theorem component_eq {c d : List Node} (hc : c ∈ components H) (hd : d ∈ components H) {x : Node} (hx : x ∈ c) (hx' : x ∈ d) : c = d := by
  by_contra hne
  have hp := components_disjoint H
  haveI : Std.Symm fun c d : List Node => ∀ n, n ∈ c → n ∉ d := ⟨fun c d h n hn hn' => h n hn' hn⟩
  exact hp.forall hc hd hne x hx hx'

include ho h

theorem wc_anti {e : Edge} (h1 : e ∈ forestOf o H ++ allClosures o H) (h2 : e.rev ∈ forestOf o H ++ allClosures o H) : e = e.rev := by
  by_contra hne
  rcases List.mem_append.1 h1 with h1 | h1 <;> rcases List.mem_append.1 h2 with h2 | h2
  · have hf := (forestOf_forest ho h).2 e h1
    apply hf
    have : e.rev ∈ (forestOf o H).erase e := (List.mem_erase_of_ne (Ne.symm hne)).2 h2
    exact (Conn.edge this).symm
  · have := (closure_not_tree ho h h2).2
    rw [rev_rev] at this; exact this h1
  · exact (closure_not_tree ho h h1).2 h2
  · obtain ⟨c, hc, he⟩ := List.mem_flatMap.1 h1
    obtain ⟨d, hd, he'⟩ := List.mem_flatMap.1 h2
    have hcd := component_eq hc hd (closuresOf_ends ho h hc he).1 (closuresOf_ends ho h hd he').2
    subst hcd
    have m1 := (closuresOf_mem ho h hc he).1
    have m2 := (closuresOf_mem ho h hc he').1
    rw [rev_rev] at m2
    obtain ⟨p, hp, hp1⟩ := List.mem_map.1 m1
    obtain ⟨q, hq, hq1⟩ := List.mem_map.1 m2
    have hpq : p ≠ q := by
      rintro rfl; exact hne (hq1.symm.trans hp1)
    haveI : Std.Symm fun p q : Edge × String => p.1 ≠ q.1 ∧ p.1 ≠ q.1.rev :=
      ⟨fun p q ⟨h1, h2⟩ => ⟨fun h => h1 h.symm, fun h => h2 (by rw [h, rev_rev])⟩⟩
    exact ((view_keys (subCopy_wf ho h hc)).forall hp hq hpq).2 (by rw [hp1, hq1])

end

/-! ### Adding a capacitor -/

theorem nbrs_addEdge (G : MGraph) (u v k : ℕ) (c : String) (n : Node) :
    (G.addEdge u v k c).nbrs n = G.nbrs n ∨ ∃ m, (G.addEdge u v k c).nbrs n = G.nbrs n ++ [m] ∧ m ∉ G.nbrs n := by
  unfold MGraph.nbrs
  simp only [MGraph.addEdge, MGraph.addNode_es, List.filterMap_append]
  rw [List.filterMap_cons, List.filterMap_nil]
  generalize G.es.filterMap _ = l
  split
  · left; rw [List.append_nil]
  · rename_i m hm
    rw [uniq_snoc]
    split_ifs with h1
    · exact Or.inl rfl
    · exact Or.inr ⟨m, rfl, h1⟩

theorem between_addEdge (G : MGraph) (u v k : ℕ) {c : String} (hc : pre c = some 'C') (n m : Node) :
    ((G.addEdge u v k c).between n m).filter noncap = (G.between n m).filter noncap := by
  unfold MGraph.between
  simp only [MGraph.addEdge, MGraph.addNode_es, List.filter_append, List.map_append]
  have : ((List.filter (fun p : Edge × String => MGraph.joins p.1 n m) [((u, v, k), c)]).map fun p => ((n, m, p.1.2.2), p.2)).filter noncap = [] := by
    rw [List.filter_cons]
    split_ifs
    · simp [noncap, hc]
    · simp
  rw [this, List.append_nil]

theorem between_nil {G : MGraph} {n m : Node} (h : m ∉ G.nbrs n) : G.between n m = [] := by
  by_contra hne
  obtain ⟨x, hx⟩ := List.exists_mem_of_ne_nil _ hne
  exact h (MGraph.mem_nbrs_of_between hx)

theorem between_nil' {G : MGraph} (hw : G.WF) {n m : Node} (h : n ∉ G.nodes) : G.between n m = [] := by
  by_contra hne
  obtain ⟨x, hx⟩ := List.exists_mem_of_ne_nil _ hne
  obtain ⟨rfl, rfl, p, hp, _, hor⟩ := (MGraph.mem_between G n m x).1 hx
  have he := hw.ends p hp
  rcases hor with h' | h'
  · rw [h'] at he; exact h he.1
  · rw [h'] at he; exact h he.2

theorem filter_flatMap_append {α β : Type} (l : List α) (f : α → List β) (p : β → Bool) :
    (l.flatMap f).filter p = l.flatMap fun a => (f a).filter p := by
  induction l with
  | nil => rfl
  | cons a l ih => simp [List.flatMap_cons, List.filter_append, ih]

theorem viewFrom_cap {G : MGraph} (hw : G.WF) (u v k : ℕ) {c : String} (hc : pre c = some 'C') :
    ∀ (rest seen : List Node), ((G.addEdge u v k c).viewFrom seen rest).filter noncap = (G.viewFrom seen rest).filter noncap := by
  intro rest
  induction rest with
  | nil => intro seen; rfl
  | cons n rest ih =>
    intro seen
    rw [MGraph.viewFrom, MGraph.viewFrom, List.filter_append, List.filter_append, ih]
    congr 1
    rw [filter_flatMap_append, filter_flatMap_append]
    simp only [between_addEdge G u v k hc]
    rcases nbrs_addEdge G u v k c n with h1 | ⟨m, h1, h2⟩
    · rw [h1]
    · rw [h1, List.filter_append, List.flatMap_append]
      have : (List.filter (fun m => decide (m ∉ seen)) [m]).flatMap (fun a => (G.between n a).filter noncap) = [] := by
        rw [List.filter_cons]
        split_ifs
        · simp [between_nil h2]
        · simp
      rw [this, List.append_nil]

theorem viewFrom_fresh {G : MGraph} (hw : G.WF) : ∀ (rest seen : List Node), (∀ n ∈ rest, n ∉ G.nodes) → G.viewFrom seen rest = [] := by
  intro rest
  induction rest with
  | nil => intro seen _; rfl
  | cons n rest ih =>
    intro seen h
    rw [MGraph.viewFrom, ih _ fun n' hn' => h n' (by simp [hn'])]
    simp [between_nil' hw (h n (by simp))]

theorem viewFrom_append (G : MGraph) : ∀ (l l' seen : List Node),
    G.viewFrom seen (l ++ l') = G.viewFrom seen l ++ G.viewFrom (l.reverse ++ seen) l' := by
  intro l
  induction l with
  | nil => intro l' seen; rfl
  | cons n l ih =>
    intro l' seen
    rw [List.cons_append, MGraph.viewFrom, MGraph.viewFrom, ih, List.append_assoc, List.reverse_cons, List.append_assoc]
    rfl

theorem addEdge_nodes_append (G : MGraph) (u v k : ℕ) (c : String) :
    ∃ ext, (G.addEdge u v k c).nodes = G.nodes ++ ext ∧ ∀ n ∈ ext, n ∉ G.nodes := by
  have key : ∀ (G : MGraph) (n : Node), ∃ ext, (G.addNode n).nodes = G.nodes ++ ext ∧ ∀ n ∈ ext, n ∉ G.nodes := by
    intro G n
    unfold MGraph.addNode
    split_ifs with h
    · exact ⟨[], by simp, by simp⟩
    · exact ⟨[n], rfl, by simpa using h⟩
  obtain ⟨e1, h1, h1'⟩ := key G u
  obtain ⟨e2, h2, h2'⟩ := key (G.addNode u) v
  refine ⟨e1 ++ e2, ?_, ?_⟩
  · simp only [MGraph.addEdge]; rw [h2, h1, List.append_assoc]
  · intro n hn
    rcases List.mem_append.1 hn with hn | hn
    · exact h1' n hn
    · intro hG; exact h2' n hn (by rw [h1]; exact List.mem_append_left _ hG)

/-- A capacitor leaves the conductive graph's edges as they are and adds nodes at the end. -/
theorem conductive_cap {G : MGraph} (hi : GraphInv G) (u v : ℕ) {c : String} (hc : pre c = some 'C') :
    (conductiveGraph (G.addEdge u v (G.newKey u v) c)).es = (conductiveGraph G).es ∧
    ∃ ext, (conductiveGraph (G.addEdge u v (G.newKey u v) c)).nodes = (conductiveGraph G).nodes ++ ext ∧
      ∀ n ∈ ext, n ∉ (conductiveGraph G).nodes := by
  have hw := hi.toWF
  have hw' := (hi.addEdge u v c).toWF
  rw [conductiveGraph_eq hw, conductiveGraph_eq hw']
  obtain ⟨ext, h1, h2⟩ := addEdge_nodes_append G u v (G.newKey u v) c
  refine ⟨?_, ext, h1, h2⟩
  simp only
  unfold MGraph.view
  rw [viewFrom_cap hw _ _ _ hc, h1, viewFrom_append, List.filter_append, viewFrom_fresh hw ext _ h2]
  simp

/-- Isolated nodes do not matter. -/
theorem wc_isolated {o o' : Orc} (ho : o.OK) (ho' : o'.OK) (hord : ∀ l, o.nodeOrd l = l) (hord' : ∀ l, o'.nodeOrd l = l)
    {H H' : MGraph} (h : H.WF) (h' : H'.WF) (hes : H'.es = H.es) {ext : List Node} (hn : H'.nodes = H.nodes ++ ext)
    (hext : ∀ n ∈ ext, n ∉ H.nodes) (e : Edge) :
    e ∈ forestOf o' H' ++ allClosures o' H' ↔ e ∈ forestOf o H ++ allClosures o H := by
  -- components with edges are the same
  have hiso : ∀ n ∈ ext, ∀ p ∈ H.es, p.1.1 ≠ n ∧ p.1.2.1 ≠ n := by
    intro n hn' p hp
    have := h.ends p hp
    exact ⟨fun h1 => hext n hn' (h1 ▸ this.1), fun h1 => hext n hn' (h1 ▸ this.2)⟩
  have hconn : ∀ n ∈ ext, ∀ x, Conn (H.es.map Prod.fst) x n → x = n := by
    intro n hn' x hx
    by_contra hne
    obtain ⟨e', he', hor⟩ := ((Conn_touch hx.symm).resolve_left (Ne.symm hne)).1
    obtain ⟨p, hp, rfl⟩ := List.mem_map.1 he'
    have := hiso n hn' p hp
    rcases hor with h1 | h1
    · exact this.1 h1
    · exact this.2 h1
  have hcomp : ∀ c x, x ∈ c → x ∈ H.nodes → (c ∈ components H' ↔ c ∈ components H) := by
    intro c x hx hxH
    have e1 : (H.nodes ++ ext).filter (fun n => uf (H.es.map Prod.fst) n = uf (H.es.map Prod.fst) x) =
        H.nodes.filter fun n => uf (H.es.map Prod.fst) n = uf (H.es.map Prod.fst) x := by
      rw [List.filter_append]
      have : ext.filter (fun n => uf (H.es.map Prod.fst) n = uf (H.es.map Prod.fst) x) = [] := by
        rw [List.filter_eq_nil_iff]
        intro n hn' hnx
        simp only [decide_eq_true_eq] at hnx
        have := hconn n hn' x ((uf_iff _ _ _).1 hnx).symm
        subst this
        exact hext x hn' hxH
      rw [this, List.append_nil]
    have key : ∀ (K : MGraph), c ∈ components K → x ∈ c → c = K.nodes.filter fun n => uf (K.es.map Prod.fst) n = uf (K.es.map Prod.fst) x := by
      intro K hcK hxc
      obtain ⟨r, hr, rfl⟩ := mem_components hcK
      simp only [List.mem_filter, decide_eq_true_eq] at hxc
      rw [hxc.2]
    have key2 : ∀ (K : MGraph), x ∈ K.nodes → (K.nodes.filter fun n => uf (K.es.map Prod.fst) n = uf (K.es.map Prod.fst) x) ∈ components K := by
      intro K hxK
      obtain ⟨d, hd, hxd⟩ := component_of hxK
      obtain ⟨r, hr, rfl⟩ := mem_components hd
      simp only [List.mem_filter, decide_eq_true_eq] at hxd
      rw [hxd.2]; exact hd
    constructor
    · intro hc
      rw [key H' hc hx, hn, hes, e1]
      exact key2 H hxH
    · intro hc
      have := key2 H' (by rw [hn]; exact List.mem_append_left _ hxH)
      rw [hn, hes, e1, ← key H hc hx] at this
      exact this
  have hsub : ∀ c, subCopy o' H' c = subCopy o H c := by
    intro c
    have h1 := subCopy_nodes_eq hord H c
    have h2 := subCopy_nodes_eq hord' H' c
    have h3 : (subCopy o' H' c).es = (subCopy o H c).es := by rw [subCopy_es, subCopy_es, inside, inside, hes]
    cases hA : subCopy o' H' c with
    | mk n1 s1 =>
      cases hB : subCopy o H c with
      | mk n2 s2 =>
        rw [hA] at h2 h3; rw [hB] at h1 h3
        simp only at h1 h2 h3
        rw [h1, h2, h3]
  have htree : ∀ c, treeOf o' H' c = treeOf o H c := fun c => by unfold treeOf; rw [hsub]
  have hclo : ∀ c e, e ∈ closuresOf o' H' c ↔ e ∈ closuresOf o H c := by
    intro c e
    unfold closuresOf
    rw [htree, hsub]
    split_ifs
    · rfl
    · simp only [List.mem_map, (ho'.edge _).mem_iff, (ho.edge _).mem_iff]
  have hend : ∀ (o : Orc) (ho : o.OK) (K : MGraph) (hK : K.WF) c, c ∈ components K → e ∈ treeOf o K c ∨ e ∈ closuresOf o K c → e.1 ∈ c := by
    intro o ho K hK c hc hor
    rcases hor with h1 | h1
    · exact (treeOf_mem ho hK hc h1).1
    · exact (closuresOf_ends ho hK hc h1).1
  have hinH : ∀ c, e ∈ treeOf o H c ∨ e ∈ closuresOf o H c → c ∈ components H' → e.1 ∈ H.nodes := by
    intro c hor hc
    have hpe : e ∈ (subCopy o' H' c).edges ∨ e.rev ∈ (subCopy o' H' c).edges := by
      rcases hor with h1 | h1
      · rw [← htree] at h1
        exact Or.inl (mst_edges_subset (subCopy_wf ho' h' hc) h1)
      · rw [← hclo] at h1
        exact Or.inr (closuresOf_mem ho' h' hc h1).1
    obtain ⟨p, hp, hpe⟩ := (sub_edges_iff ho' h' hc e).1 hpe
    have hp' := (List.mem_filter.1 hp).1
    rw [hes] at hp'
    have := h.ends p hp'
    rcases hpe with rfl | rfl
    · exact this.1
    · exact this.2
  have main : (∃ c ∈ components H', e ∈ treeOf o' H' c ∨ e ∈ closuresOf o' H' c) ↔
      ∃ c ∈ components H, e ∈ treeOf o H c ∨ e ∈ closuresOf o H c := by
    constructor
    · rintro ⟨c, hc, hor⟩
      have hx := hend o' ho' H' h' c hc hor
      rw [htree, hclo] at hor
      exact ⟨c, (hcomp c e.1 hx (hinH c hor hc)).1 hc, hor⟩
    · rintro ⟨c, hc, hor⟩
      have hx := hend o ho H h c hc hor
      refine ⟨c, (hcomp c e.1 hx ((components_nodes hc).subset hx)).2 hc, ?_⟩
      rw [htree, hclo]; exact hor
  unfold forestOf allClosures
  simp only [List.mem_append, List.mem_flatMap]
  constructor
  · intro hor
    obtain ⟨c, hc, h1⟩ := main.1 (by
      rcases hor with ⟨c, hc, h1⟩ | ⟨c, hc, h1⟩
      · exact ⟨c, hc, Or.inl h1⟩
      · exact ⟨c, hc, Or.inr h1⟩)
    rcases h1 with h1 | h1
    · exact Or.inl ⟨c, hc, h1⟩
    · exact Or.inr ⟨c, hc, h1⟩
  · intro hor
    obtain ⟨c, hc, h1⟩ := main.2 (by
      rcases hor with ⟨c, hc, h1⟩ | ⟨c, hc, h1⟩
      · exact ⟨c, hc, Or.inl h1⟩
      · exact ⟨c, hc, Or.inr h1⟩)
    rcases h1 with h1 | h1
    · exact Or.inl ⟨c, hc, h1⟩
    · exact Or.inr ⟨c, hc, h1⟩

end Verif.Circuit
