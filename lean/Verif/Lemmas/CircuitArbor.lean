import Verif.Lemmas.CircuitSettled
import Verif.Lemmas.Paths

/-!
# Lemmas: when the spanning tree is an arborescence
-/

set_option linter.unusedVariables false

namespace Verif.Circuit

open Verif Verif.Spec

/-! ### The order of the edge view -/

theorem viewFrom_first (G : MGraph) : ∀ (rest seen : List Node) (x : Edge × String), x ∈ G.viewFrom seen rest → x.1.1 ∈ rest := by
  intro rest seen x hx
  obtain ⟨l1, l2, he, -⟩ := (MGraph.mem_viewFrom G rest seen x).1 hx
  rw [he]; simp

theorem viewFrom_sorted {G : MGraph} (hn : G.nodes.Nodup) : ∀ (rest seen pre : List Node), G.nodes = pre ++ rest →
    (G.viewFrom seen rest).Pairwise fun p q => G.nodes.idxOf p.1.1 ≤ G.nodes.idxOf q.1.1 := by
  intro rest
  induction rest with
  | nil => intro _ _ _; exact List.Pairwise.nil
  | cons n rest ih =>
    intro seen pre he
    unfold MGraph.viewFrom
    rw [List.pairwise_append]
    have hblock : ∀ x ∈ ((G.nbrs n).filter fun m => m ∉ seen).flatMap (fun m => G.between n m), x.1.1 = n := by
      intro x hx
      obtain ⟨m, _, hx⟩ := List.mem_flatMap.1 hx
      exact ((MGraph.mem_between _ _ _ _).1 hx).1
    refine ⟨?_, ih (n :: seen) (pre ++ [n]) (by simp [he]), ?_⟩
    · rw [List.pairwise_iff_forall_sublist]
      intro a b hab
      rw [hblock a (hab.subset (by simp)), hblock b (hab.subset (by simp))]
    · intro a ha b hb
      rw [hblock a ha]
      have hb1 := viewFrom_first G _ _ _ hb
      rw [he] at hn ⊢
      have hnp : n ∉ pre := fun h => (List.nodup_append.1 hn).2.2 n h n (by simp) rfl
      have hbp : b.1.1 ∉ pre := fun h => (List.nodup_append.1 hn).2.2 _ h _ (by simp [hb1]) rfl
      rw [List.idxOf_append_of_notMem hnp, List.idxOf_append_of_notMem hbp]
      simp

theorem view_sorted {G : MGraph} (hn : G.nodes.Nodup) :
    G.view.Pairwise fun p q => G.nodes.idxOf p.1.1 ≤ G.nodes.idxOf q.1.1 := viewFrom_sorted hn _ _ [] rfl

/-! ### The edges that Kruskal's algorithm accepts -/

theorem kruskal_snd_append (l : List (Edge × String)) (q : Edge × String) :
    ((l ++ [q]).foldl kruskalStep (id, [])).2 =
      if (l.foldl kruskalStep (id, [])).1 q.1.1 = (l.foldl kruskalStep (id, [])).1 q.1.2.1 then (l.foldl kruskalStep (id, [])).2
      else (l.foldl kruskalStep (id, [])).2 ++ [q] := by
  rw [List.foldl_append, List.foldl_cons, List.foldl_nil]
  generalize l.foldl kruskalStep (id, []) = st
  unfold kruskalStep
  split_ifs <;> rfl

theorem kruskal_fst (l : List (Edge × String)) : (l.foldl kruskalStep (id, [])).1 = uf (l.map Prod.fst) :=
  (kruskal_inv ((l.flatMap fun p => [p.1.1, p.1.2.1]).toFinset) l (fun p hp => by
    simp only [List.mem_toFinset, List.mem_flatMap]
    exact ⟨⟨p, hp, by simp⟩, ⟨p, hp, by simp⟩⟩)).1

theorem kruskal_conn (l : List (Edge × String)) (x y : Node) :
    Conn (((l.foldl kruskalStep (id, [])).2).map Prod.fst) x y ↔ Conn (l.map Prod.fst) x y := by
  have h := kruskal_inv ((l.flatMap fun p => [p.1.1, p.1.2.1]).toFinset) l (fun p hp => by
    simp only [List.mem_toFinset, List.mem_flatMap]
    exact ⟨⟨p, hp, by simp⟩, ⟨p, hp, by simp⟩⟩)
  rw [← uf_iff, ← uf_iff, ← h.1, ← h.2.1]

theorem kruskal_mem (l : List (Edge × String)) (p : Edge × String) :
    p ∈ (l.foldl kruskalStep (id, [])).2 ↔ ∃ l1 l2, l = l1 ++ p :: l2 ∧ ¬ Conn (l1.map Prod.fst) p.1.1 p.1.2.1 := by
  induction l using List.reverseRecOn with
  | nil => simp
  | append_singleton l q ih =>
    rw [kruskal_snd_append, kruskal_fst]
    constructor
    · intro h
      have : p ∈ (l.foldl kruskalStep (id, [])).2 ∨ (p = q ∧ ¬ Conn (l.map Prod.fst) q.1.1 q.1.2.1) := by
        split_ifs at h with hc
        · exact Or.inl h
        · rcases List.mem_append.1 h with h | h
          · exact Or.inl h
          · exact Or.inr ⟨List.mem_singleton.1 h, fun h => hc ((uf_iff _ _ _).2 h)⟩
      rcases this with h | ⟨rfl, hc⟩
      · obtain ⟨l1, l2, rfl, h1⟩ := ih.1 h
        exact ⟨l1, l2 ++ [q], by simp, h1⟩
      · exact ⟨l, [], rfl, hc⟩
    · rintro ⟨l1, l2, he, hc⟩
      rcases List.eq_nil_or_concat l2 with rfl | ⟨l2', q', rfl⟩
      · have := List.append_inj' he rfl
        obtain ⟨rfl, h2⟩ := this
        injection h2 with h2 _
        subst h2
        rw [if_neg fun h => hc ((uf_iff _ _ _).1 h)]; simp
      · have he' : l ++ [q] = (l1 ++ p :: l2') ++ [q'] := by rw [he]; simp
        obtain ⟨rfl, -⟩ := List.append_inj' he' rfl
        have := ih.2 ⟨l1, l2', rfl, hc⟩
        split_ifs
        · exact this
        · exact List.mem_append.2 (Or.inl this)

/-- Every node but the first has an earlier neighbour. -/
def GrownG (G : MGraph) : Prop := ∀ n ∈ G.nodes, G.nodes.idxOf n ≠ 0 →
  ∃ p ∈ G.es, (p.1.1 = n ∧ G.nodes.idxOf p.1.2.1 < G.nodes.idxOf n) ∨ (p.1.2.1 = n ∧ G.nodes.idxOf p.1.1 < G.nodes.idxOf n)

theorem Conn_touch {es : List Edge} {x y : Node} (h : Conn es x y) : x = y ∨ ((∃ e ∈ es, e.1 = x ∨ e.2.1 = x) ∧ ∃ e ∈ es, e.1 = y ∨ e.2.1 = y) := by
  induction h with
  | rel x y hxy => obtain ⟨e, he, rfl, rfl⟩ := hxy; exact Or.inr ⟨⟨e, he, Or.inl rfl⟩, ⟨e, he, Or.inr rfl⟩⟩
  | refl x => exact Or.inl rfl
  | symm x y _ ih =>
    rcases ih with rfl | ⟨h1, h2⟩
    · exact Or.inl rfl
    · exact Or.inr ⟨h2, h1⟩
  | trans x y z _ _ ih1 ih2 =>
    rcases ih1 with rfl | ⟨h1, h2⟩
    · exact ih2
    · rcases ih2 with rfl | ⟨h3, h4⟩
      · exact Or.inr ⟨h1, h2⟩
      · exact Or.inr ⟨h1, h4⟩

theorem idxOf_lt_of_split {α : Type} [DecidableEq α] {l1 l2 : List α} {p q : α} (hn : (l1 ++ p :: l2).Nodup) (hq : q ∈ l2) :
    (l1 ++ p :: l2).idxOf p < (l1 ++ p :: l2).idxOf q := by
  have hd := (List.nodup_append.1 hn)
  have hp1 : p ∉ l1 := fun h => hd.2.2 p h p (by simp) rfl
  have hq1 : q ∉ l1 := fun h => hd.2.2 q h q (by simp [hq]) rfl
  have hpq : p ≠ q := by rintro rfl; exact (List.nodup_cons.1 hd.2.1).1 hq
  rw [List.idxOf_append_of_notMem hp1, List.idxOf_append_of_notMem hq1, List.idxOf_cons_self, List.idxOf_cons_ne _ hpq]
  omega

section Mst

variable {G : MGraph} (h : G.WF) (hg : GrownG G)
include h hg

theorem grown_edge {n : Node} (hn : n ∈ G.nodes) (h0 : G.nodes.idxOf n ≠ 0) :
    ∃ p ∈ G.view, p.1.2.1 = n ∧ G.nodes.idxOf p.1.1 < G.nodes.idxOf n := by
  obtain ⟨p, hp, hor⟩ := hg n hn h0
  refine ⟨(MGraph.orient G.nodes p.1, p.2), (MGraph.mem_view h _).2 ⟨p, hp, rfl⟩, ?_⟩
  unfold MGraph.orient
  rcases hor with ⟨rfl, hlt⟩ | ⟨rfl, hlt⟩
  · rw [if_neg (by omega)]; exact ⟨rfl, hlt⟩
  · rw [if_pos (by omega)]; exact ⟨rfl, hlt⟩

/-- Nodes up to the first end of an edge are connected by the edges listed before it. -/
theorem prefix_conn {l1 l2 : List (Edge × String)} {q : Edge × String} (hv : G.view = l1 ++ q :: l2) {r : Node}
    (hr : G.nodes.head? = some r) : ∀ (k : ℕ) (n : Node), G.nodes.idxOf n = k → n ∈ G.nodes →
      k ≤ G.nodes.idxOf q.1.1 → Conn (l1.map Prod.fst) r n := by
  intro k
  induction k using Nat.strong_induction_on with
  | _ k ih =>
    intro n hk hn hle
    by_cases h0 : k = 0
    · have : n = r := by
        cases hns : G.nodes with
        | nil => rw [hns] at hn; cases hn
        | cons a l =>
          rw [hns] at hr hk
          simp only [List.head?_cons, Option.some.injEq] at hr
          rw [h0] at hk
          rw [← hr]
          by_contra hne
          rw [List.idxOf_cons_ne _ (fun h => hne h.symm)] at hk
          omega
      rw [this]; exact Conn.refl _ _
    · obtain ⟨p, hp, hp2, hlt⟩ := grown_edge h hg hn (by omega)
      have hpm : p ∈ l1 := by
        rw [hv] at hp
        rcases List.mem_append.1 hp with hp | hp
        · exact hp
        · exfalso
          have hs := view_sorted h.nodup
          rw [hv] at hs
          have hs2 := (List.pairwise_append.1 hs).2.1
          rcases List.mem_cons.1 hp with rfl | hp
          · omega
          · have := (List.pairwise_cons.1 hs2).1 p hp
            omega
      have hnodes := view_mem_nodes h hp
      have h1 := ih (G.nodes.idxOf p.1.1) (by omega) p.1.1 rfl hnodes.1 (by omega)
      have h2 : Conn (l1.map Prod.fst) p.1.1 p.1.2.1 := Conn.edge (List.mem_map.2 ⟨p, hpm, rfl⟩)
      rw [hp2] at h2
      exact h1.trans h2

theorem mst_inc {e : Edge} (he : e ∈ (minimumSpanningTree G).edges) : G.nodes.idxOf e.1 < G.nodes.idxOf e.2.1 := by
  have hori := mst_oriented h
  obtain ⟨p, hp, rfl⟩ := List.mem_map.1 ((hori.mem_edges e).1 he)
  have h1 : G.nodes.idxOf p.1.1 ≤ G.nodes.idxOf p.1.2.1 := hori.ori p hp
  have hk : p ∈ (G.view.foldl kruskalStep (id, [])).2 := hp
  obtain ⟨l1, l2, hv, hc⟩ := (kruskal_mem _ _).1 hk
  have hnodes := view_mem_nodes h (p := p) (by rw [hv]; simp)
  have h2 : G.nodes.idxOf p.1.1 ≠ G.nodes.idxOf p.1.2.1 := by
    intro heq
    have := (List.idxOf_inj hnodes.1).1 heq
    exact hc (by rw [this]; exact Conn.refl _ _)
  omega

theorem mst_uniqIn {e e' : Edge} (he : e ∈ (minimumSpanningTree G).edges) (he' : e' ∈ (minimumSpanningTree G).edges)
    (heq : e.2.1 = e'.2.1) : e = e' := by
  by_contra hne
  have hori := mst_oriented h
  obtain ⟨p, hp, rfl⟩ := List.mem_map.1 ((hori.mem_edges e).1 he)
  obtain ⟨q, hq, rfl⟩ := List.mem_map.1 ((hori.mem_edges e').1 he')
  have key : ∀ p q : Edge × String, p ∈ (G.view.foldl kruskalStep (id, [])).2 → p.1.2.1 = q.1.2.1 →
      ∀ l1 l2, G.view = l1 ++ q :: l2 → p ∈ l1 → ¬ Conn (l1.map Prod.fst) q.1.1 q.1.2.1 → False := by
    intro p q hp heq l1 l2 hv hpl hc
    have hpn := view_mem_nodes h (p := p) (by rw [hv]; simp [hpl])
    have hqn := view_mem_nodes h (p := q) (by rw [hv]; simp)
    cases hr : G.nodes.head? with
    | none => rw [List.head?_eq_none_iff] at hr; rw [hr] at hpn; cases hpn.1
    | some r =>
      have hle : G.nodes.idxOf p.1.1 ≤ G.nodes.idxOf q.1.1 := by
        have hs := view_sorted h.nodup
        rw [hv] at hs
        exact (List.pairwise_append.1 hs).2.2 p hpl q (by simp)
      have h1 := prefix_conn h hg hv hr _ p.1.1 rfl hpn.1 hle
      have h2 := prefix_conn h hg hv hr _ q.1.1 rfl hqn.1 le_rfl
      have h3 : Conn (l1.map Prod.fst) p.1.1 p.1.2.1 := Conn.edge (List.mem_map.2 ⟨p, hpl, rfl⟩)
      rw [heq] at h3
      exact hc ((h2.symm.trans h1).trans h3)
  have hp' : p ∈ (G.view.foldl kruskalStep (id, [])).2 := hp
  have hq' : q ∈ (G.view.foldl kruskalStep (id, [])).2 := hq
  obtain ⟨l1, l2, hv, hc⟩ := (kruskal_mem _ _).1 hp'
  obtain ⟨m1, m2, hv', hc'⟩ := (kruskal_mem _ _).1 hq'
  have hqv : q ∈ G.view := by rw [hv']; simp
  rw [hv] at hqv
  rcases List.mem_append.1 hqv with hql | hql
  · exact key q p hq' heq.symm l1 l2 hv hql hc
  · rcases List.mem_cons.1 hql with rfl | hql
    · exact hne rfl
    · -- q after p: then p is before q in the other split
      have hpv : p ∈ m1 := by
        have hpv : p ∈ G.view := by rw [hv]; simp
        rw [hv'] at hpv
        rcases List.mem_append.1 hpv with h1 | h1
        · exact h1
        · exfalso
          rcases List.mem_cons.1 h1 with rfl | h1
          · exact hne rfl
          · have hnd : G.view.Nodup := MGraph.viewFrom_nodup h _ _ h.nodup
            have i1 := idxOf_lt_of_split (hv ▸ hnd) hql
            have i2 := idxOf_lt_of_split (hv' ▸ hnd) h1
            rw [← hv] at i1
            rw [← hv'] at i2
            omega
      exact key p q hp' heq m1 m2 hv' hpv hc'

theorem mst_parent {n : Node} (hn : n ∈ G.nodes) (h0 : G.nodes.idxOf n ≠ 0) :
    ∃ e ∈ (minimumSpanningTree G).edges, e.2.1 = n := by
  have hori := mst_oriented h
  obtain ⟨p, hp, hp2, hlt⟩ := grown_edge h hg hn h0
  obtain ⟨l1, l2, hv⟩ := List.append_of_mem hp
  have lift : ∀ q, q ∈ (G.view.foldl kruskalStep (id, [])).2 → q.1 ∈ (minimumSpanningTree G).edges := by
    intro q hq
    exact (hori.mem_edges _).2 (List.mem_map.2 ⟨q, hq, rfl⟩)
  by_cases hc : Conn (l1.map Prod.fst) p.1.1 p.1.2.1
  · have hc2 := (kruskal_conn l1 _ _).2 hc
    rcases Conn_touch hc2 with heq | ⟨-, e, he, hor⟩
    · rw [hp2] at heq; rw [heq] at hlt; omega
    · obtain ⟨q, hq, rfl⟩ := List.mem_map.1 he
      obtain ⟨m1, m2, hm, hcq⟩ := (kruskal_mem _ _).1 hq
      have hq' : q ∈ (G.view.foldl kruskalStep (id, [])).2 :=
        (kruskal_mem _ _).2 ⟨m1, m2 ++ p :: l2, by rw [hv, hm]; simp, hcq⟩
      refine ⟨q.1, lift q hq', ?_⟩
      rw [hp2] at hor
      rcases hor with h1 | h1
      · exfalso
        have hs := view_sorted h.nodup
        rw [hv] at hs
        have := (List.pairwise_append.1 hs).2.2 q (by rw [hm]; simp) p (by simp)
        rw [h1] at this; omega
      · exact h1
  · exact ⟨p.1, lift p ((kruskal_mem _ _).2 ⟨l1, l2, hv, hc⟩), hp2⟩

theorem mst_arbor {r : Node} (hr : G.nodes.head? = some r) :
    Arbor (minimumSpanningTree G).edges G.nodes.idxOf r G.nodes := by
  have hr0 : G.nodes.idxOf r = 0 := by
    cases hns : G.nodes with
    | nil => rw [hns] at hr; cases hr
    | cons a l => rw [hns] at hr; simp only [List.head?_cons, Option.some.injEq] at hr; rw [hr]; exact List.idxOf_cons_self
  refine ⟨fun e he => mst_inc h hg he, fun e he e' he' => mst_uniqIn h hg he he', ?_, ?_⟩
  · intro e he heq
    have := mst_inc h hg he
    rw [heq, hr0] at this; omega
  · have : ∀ (k : ℕ) (n : Node), G.nodes.idxOf n = k → n ∈ G.nodes → ∃ p, DiWalk (minimumSpanningTree G).edges r p n := by
      intro k
      induction k using Nat.strong_induction_on with
      | _ k ih =>
        intro n hk hn
        by_cases h0 : k = 0
        · have hrm : r ∈ G.nodes := List.mem_of_head? hr
          have : n = r := (List.idxOf_inj hn).1 (by rw [hk, h0, hr0])
          rw [this]; exact ⟨[], DiWalk.nil _⟩
        · obtain ⟨e, he, rfl⟩ := mst_parent h hg hn (by omega)
          have h1 := mst_inc h hg he
          have h2 := (MGraph.mem_edges_nodes h (mst_edges_subset h he)).1
          obtain ⟨p, hp⟩ := ih _ (by omega) e.1 rfl h2
          exact ⟨p ++ [e], DiWalk_append hp (DiWalk_cons_iff.2 ⟨he, rfl, DiWalk.nil _⟩)⟩
    exact fun n hn => this _ n rfl hn

theorem mst_root {r : Node} (hr : G.nodes.head? = some r) (hne : (minimumSpanningTree G).edges ≠ []) :
    rootOf (minimumSpanningTree G).edges = some r := by
  have hA := mst_arbor h hg hr
  have hr0 : G.nodes.idxOf r = 0 := by
    cases hns : G.nodes with
    | nil => rw [hns] at hr; cases hr
    | cons a l => rw [hns] at hr; simp only [List.head?_cons, Option.some.injEq] at hr; rw [hr]; exact List.idxOf_cons_self
  cases hS : (minimumSpanningTree G).edges with
  | nil => exact absurd hS hne
  | cons e S =>
    have he : e ∈ (minimumSpanningTree G).edges := by rw [hS]; simp
    -- the first edge starts at the root
    have hfirst : e.1 = r := by
      have hn := (MGraph.mem_edges_nodes h (mst_edges_subset h he)).2
      obtain ⟨p, hp⟩ := hA.reach e.2.1 hn
      cases p with
      | nil => exact absurd (DiWalk_nil_iff.1 hp).symm (hA.noRoot e he)
      | cons a p =>
        obtain ⟨ha, har, -⟩ := DiWalk_cons_iff.1 hp
        have hs := view_sorted (G := minimumSpanningTree G) h.nodup
        have hsE : (minimumSpanningTree G).edges.Pairwise fun p q => G.nodes.idxOf p.1 ≤ G.nodes.idxOf q.1 := by
          unfold MGraph.edges
          rw [List.pairwise_map]
          exact hs
        rw [hS] at hsE ha
        have hle : G.nodes.idxOf e.1 ≤ G.nodes.idxOf a.1 := by
          rcases List.mem_cons.1 ha with rfl | ha
          · exact le_rfl
          · exact (List.pairwise_cons.1 hsE).1 a ha
        rw [har, hr0] at hle
        have hn1 := (MGraph.mem_edges_nodes h (mst_edges_subset h he)).1
        exact (List.idxOf_inj hn1).1 (by rw [hr0]; omega)
    unfold rootOf
    obtain ⟨t, ht⟩ := uniq_cons_head e.1 (e.2.1 :: S.flatMap fun e => [e.1, e.2.1])
    have hfm : ((e :: S).flatMap fun e => [e.1, e.2.1]) = e.1 :: e.2.1 :: S.flatMap fun e => [e.1, e.2.1] := rfl
    rw [hfm, ht, List.find?_cons_of_pos]
    · rw [hfirst]
    · rw [List.all_eq_true]
      intro x hx
      have := hA.noRoot x (by rw [hS]; exact hx)
      simpa [hfirst] using this

end Mst

end Verif.Circuit
