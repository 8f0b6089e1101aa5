import Verif.Model.DiGraph
import Mathlib.Logic.Relation
import Mathlib.Tactic

/-! # Correctness of the graph algorithms -/

set_option linter.unusedSectionVars false
set_option linter.unusedVariables false

namespace Verif.DiGraph

variable {ν : Type} [DecidableEq ν]

/-- `u → v` is an edge. -/
def Adj (g : DiGraph ν) (u v : ν) : Prop := (u, v) ∈ g.edges

/-- No closed walk. -/
def Acyclic (g : DiGraph ν) : Prop := ∀ x, ¬ Relation.TransGen g.Adj x x

/-- Edges join listed nodes, nodes are listed once. -/
structure WF (g : DiGraph ν) : Prop where
  src : ∀ u v, g.Adj u v → u ∈ g.nodes
  tgt : ∀ u v, g.Adj u v → v ∈ g.nodes
  nodup : g.nodes.Nodup
  nodupE : g.edges.Nodup

theorem wf_empty : (empty : DiGraph ν).WF := by
  constructor <;> simp [empty, Adj]

@[simp] theorem addNode_edges (g : DiGraph ν) (n : ν) : (g.addNode n).edges = g.edges := by
  unfold addNode; split_ifs <;> rfl

theorem mem_addNode (g : DiGraph ν) (n m : ν) : m ∈ (g.addNode n).nodes ↔ m ∈ g.nodes ∨ m = n := by
  unfold addNode; split_ifs with h
  · constructor
    · exact Or.inl
    · rintro (h1 | rfl) <;> assumption
  · simp

theorem addNode_of_mem {g : DiGraph ν} {n : ν} (h : n ∈ g.nodes) : g.addNode n = g := by
  simp [addNode, h]

theorem wf_addNode {g : DiGraph ν} (h : g.WF) (n : ν) : (g.addNode n).WF := by
  refine ⟨?_, ?_, ?_, ?_⟩
  · intro u v huv; rw [mem_addNode]; left; apply h.src u v; simpa [Adj] using huv
  · intro u v huv; rw [mem_addNode]; left; apply h.tgt u v; simpa [Adj] using huv
  · unfold addNode; split_ifs with hn
    · exact h.nodup
    · refine List.nodup_append.2 ⟨h.nodup, by simp, ?_⟩
      intro a ha b hb; simp only [List.mem_singleton] at hb; subst hb; rintro rfl; exact hn ha
  · simpa using h.nodupE

theorem addEdge_adj (g : DiGraph ν) (u v a b : ν) :
    (g.addEdge u v).Adj a b ↔ g.Adj a b ∨ (a = u ∧ b = v) := by
  unfold addEdge Adj
  simp only [addNode_edges]
  split_ifs with h
  · simp only [addNode_edges]
    constructor
    · exact Or.inl
    · rintro (h1 | ⟨rfl, rfl⟩) <;> assumption
  · simp

theorem mem_addEdge (g : DiGraph ν) (u v m : ν) :
    m ∈ (g.addEdge u v).nodes ↔ m ∈ g.nodes ∨ m = u ∨ m = v := by
  unfold addEdge
  simp only
  split_ifs <;> simp [mem_addNode, or_assoc]

theorem wf_addEdge {g : DiGraph ν} (h : g.WF) (u v : ν) : (g.addEdge u v).WF := by
  have h' := wf_addNode (wf_addNode h u) v
  refine ⟨?_, ?_, ?_, ?_⟩
  · intro a b hab
    rw [mem_addEdge]; rw [addEdge_adj] at hab
    rcases hab with hab | ⟨rfl, rfl⟩
    · exact Or.inl (h.src a b hab)
    · exact Or.inr (Or.inl rfl)
  · intro a b hab
    rw [mem_addEdge]; rw [addEdge_adj] at hab
    rcases hab with hab | ⟨rfl, rfl⟩
    · exact Or.inl (h.tgt a b hab)
    · exact Or.inr (Or.inr rfl)
  · unfold addEdge; simp only; split_ifs <;> exact h'.nodup
  · unfold addEdge; simp only; split_ifs with hm
    · exact h'.nodupE
    · refine List.nodup_append.2 ⟨h'.nodupE, by simp, ?_⟩
      intro a ha b hb; simp only [List.mem_singleton] at hb; subst hb; rintro rfl; exact hm ha

theorem removeEdge?_adj {g g' : DiGraph ν} {u v : ν} (h : g.removeEdge? u v = some g') (a b : ν) :
    g'.Adj a b ↔ g.Adj a b ∧ ¬ (a = u ∧ b = v) := by
  unfold removeEdge? at h
  split_ifs at h with hm
  simp only [Option.some.injEq] at h
  subst h
  simp only [Adj, List.mem_filter, decide_eq_true_eq, ne_eq, Prod.mk.injEq]

theorem removeEdge?_nodes {g g' : DiGraph ν} {u v : ν} (h : g.removeEdge? u v = some g') :
    g'.nodes = g.nodes := by
  unfold removeEdge? at h
  split_ifs at h with hm
  simp only [Option.some.injEq] at h
  subst h; rfl

theorem removeEdge?_isSome {g : DiGraph ν} {u v : ν} (h : g.Adj u v) :
    ∃ g', g.removeEdge? u v = some g' := by
  unfold removeEdge?; unfold Adj at h; simp [h]

theorem wf_removeEdge? {g g' : DiGraph ν} {u v : ν} (hw : g.WF) (h : g.removeEdge? u v = some g') :
    g'.WF := by
  refine ⟨?_, ?_, ?_, ?_⟩
  · intro a b hab; rw [removeEdge?_nodes h]; exact hw.src a b ((removeEdge?_adj h a b).1 hab).1
  · intro a b hab; rw [removeEdge?_nodes h]; exact hw.tgt a b ((removeEdge?_adj h a b).1 hab).1
  · rw [removeEdge?_nodes h]; exact hw.nodup
  · unfold removeEdge? at h
    split_ifs at h with hm
    simp only [Option.some.injEq] at h
    subst h
    exact hw.nodupE.filter _

theorem Acyclic.mono {g g' : DiGraph ν} (h : g.Acyclic) (hs : ∀ a b, g'.Adj a b → g.Adj a b) :
    g'.Acyclic := fun x hx => h x (hx.lift id hs)

theorem inDegree_eq_zero_iff (g : DiGraph ν) (n : ν) : g.inDegree n = 0 ↔ ∀ u, ¬ g.Adj u n := by
  unfold inDegree Adj
  rw [List.length_eq_zero_iff, List.filter_eq_nil_iff]
  constructor
  · intro h u hu; exact h _ hu (by simp)
  · rintro h ⟨a, b⟩ he hb
    simp only [decide_eq_true_eq] at hb; subst hb; exact h _ he

/-! ### Kahn's algorithm decides acyclicity -/

theorem mem_generation (g : DiGraph ν) (rem : List ν) (n : ν) :
    n ∈ g.generation rem ↔ n ∈ rem ∧ ∀ u, g.Adj u n → u ∉ rem := by
  unfold generation Adj
  rw [List.mem_filter]
  simp only [decide_eq_true_eq, Prod.forall]
  constructor
  · rintro ⟨h1, h2⟩; exact ⟨h1, fun u hu => h2 u n hu rfl⟩
  · rintro ⟨h1, h2⟩; refine ⟨h1, ?_⟩; rintro a b hab rfl; exact h2 a hab

/-- Nodes lying on a closed walk are never removed. -/
theorem leftover_keeps (g : DiGraph ν) (hw : g.WF) (x : ν) (hx : Relation.TransGen g.Adj x x) :
    ∀ fuel rem, (∀ y, Relation.TransGen g.Adj x y → Relation.TransGen g.Adj y x → y ∈ rem) →
      x ∈ g.leftover fuel rem := by
  intro fuel
  induction fuel with
  | zero => intro rem h; exact h x hx hx
  | succ k ih =>
    intro rem h
    unfold leftover
    split_ifs
    · exact h x hx hx
    · apply ih
      intro y hxy hyx
      rw [List.mem_filter]
      refine ⟨h y hxy hyx, ?_⟩
      simp only [decide_eq_true_eq, mem_generation, not_and, not_forall, not_not]
      intro _
      -- a predecessor of y on the closed walk
      obtain ⟨z, hz, hzy⟩ : ∃ z, Relation.ReflTransGen g.Adj x z ∧ g.Adj z y := by
        obtain ⟨z, hz, hzy⟩ := Relation.TransGen.tail'_iff.1 hxy
        exact ⟨z, hz, hzy⟩
      refine ⟨z, hzy, ?_⟩
      have hzx : Relation.TransGen g.Adj z x := Relation.TransGen.head hzy hyx
      exact h z (Relation.TransGen.trans_left hx hz) hzx

/-- In a nonempty set of nodes of a finite acyclic graph some node has no predecessor in the set. -/
theorem exists_source (g : DiGraph ν) (ha : g.Acyclic) (rem : List ν) (hne : rem ≠ []) :
    ∃ n ∈ rem, ∀ u, g.Adj u n → u ∉ rem := by
  by_contra hc
  push Not at hc
  -- walk backwards forever inside rem
  obtain ⟨x0, hx0⟩ := List.exists_mem_of_ne_nil _ hne
  have : ∀ n : {n // n ∈ rem}, ∃ m : {n // n ∈ rem}, g.Adj m.1 n.1 := by
    rintro ⟨n, hn⟩
    obtain ⟨u, hu, hur⟩ := hc n hn
    exact ⟨⟨u, hur⟩, hu⟩
  choose pred hpred using this
  let f : ℕ → {n // n ∈ rem} := fun k => Nat.rec ⟨x0, hx0⟩ (fun _ y => pred y) k
  have hf : ∀ k, g.Adj (f (k+1)).1 (f k).1 := fun k => hpred (f k)
  have htr : ∀ i d, Relation.TransGen g.Adj (f (i + d + 1)).1 (f i).1 := by
    intro i d
    induction d with
    | zero => exact Relation.TransGen.single (hf i)
    | succ d ih => exact Relation.TransGen.head (hf (i + d + 1)) ih
  have hfin : Finite {n // n ∈ rem} := List.finite_toSet rem
  obtain ⟨i, j, hij, he⟩ := Finite.exists_ne_map_eq_of_infinite f
  rcases lt_or_gt_of_ne hij with h | h
  · obtain ⟨d, rfl⟩ := Nat.exists_eq_add_of_lt h
    have := htr i d
    rw [← he] at this
    exact ha _ this
  · obtain ⟨d, rfl⟩ := Nat.exists_eq_add_of_lt h
    have := htr j d
    rw [he] at this
    exact ha _ this

theorem leftover_nil (g : DiGraph ν) (ha : g.Acyclic) :
    ∀ fuel rem, rem.length ≤ fuel → g.leftover fuel rem = [] := by
  intro fuel
  induction fuel with
  | zero => intro rem h; simp [leftover]; exact List.length_eq_zero_iff.1 (by omega)
  | succ k ih =>
    intro rem h
    unfold leftover
    split_ifs with hg
    · by_contra hne
      obtain ⟨n, hn, hs⟩ := exists_source g ha rem hne
      have : n ∈ g.generation rem := (mem_generation g rem n).2 ⟨hn, hs⟩
      rw [List.isEmpty_iff] at hg
      rw [hg] at this; simp at this
    · apply ih
      obtain ⟨n, hn⟩ : ∃ n, n ∈ g.generation rem := by
        rw [List.isEmpty_iff] at hg
        exact List.exists_mem_of_ne_nil _ hg
      have hnr := ((mem_generation g rem n).1 hn).1
      have : (rem.filter (fun n => decide (n ∉ g.generation rem))).length < rem.length := by
        apply List.length_filter_lt_length_iff_exists.2
        exact ⟨n, hnr, by simpa using hn⟩
      omega

/-- `isDag` is exactly the absence of closed walks. -/
theorem isDag_iff (g : DiGraph ν) (hw : g.WF) : g.isDag = true ↔ g.Acyclic := by
  unfold isDag
  constructor
  · intro h x hx
    have := leftover_keeps g hw x hx g.nodes.length g.nodes (by
      intro y hxy hyx
      obtain ⟨z, -, hzy⟩ := Relation.TransGen.tail'_iff.1 hxy
      exact hw.tgt z y hzy)
    rw [List.isEmpty_iff] at h
    rw [h] at this; simp at this
  · intro h
    rw [leftover_nil g h _ _ le_rfl]; rfl

/-! ### Breadth-first search computes reachability -/

theorem mem_bfsStep (g : DiGraph ν) (S : List ν) (v : ν) :
    v ∈ g.bfsStep S ↔ v ∈ g.nodes ∧ (v ∈ S ∨ ∃ u ∈ S, g.Adj u v) := by
  unfold bfsStep Adj
  rw [List.mem_filter]
  simp only [decide_eq_true_eq, Prod.exists]
  constructor
  · rintro ⟨h1, h | ⟨a, b, hab, rfl, ha⟩⟩
    · exact ⟨h1, Or.inl h⟩
    · exact ⟨h1, Or.inr ⟨a, ha, hab⟩⟩
  · rintro ⟨h1, h | ⟨u, hu, hab⟩⟩
    · exact ⟨h1, Or.inl h⟩
    · exact ⟨h1, Or.inr ⟨u, v, hab, rfl, hu⟩⟩

theorem bfs_sound (g : DiGraph ν) (n : ν) : ∀ k S,
    (∀ v ∈ S, Relation.ReflTransGen g.Adj n v) →
    ∀ v ∈ g.bfs k S, Relation.ReflTransGen g.Adj n v := by
  intro k
  induction k with
  | zero => intro S h; exact h
  | succ k ih =>
    intro S h
    apply ih
    intro v hv
    rcases ((mem_bfsStep g S v).1 hv).2 with h1 | ⟨u, hu, huv⟩
    · exact h v h1
    · exact (h u hu).tail huv

theorem bfs_mono (g : DiGraph ν) : ∀ k S v, (∀ w ∈ S, w ∈ g.nodes) → v ∈ S → v ∈ g.bfs k S := by
  intro k
  induction k with
  | zero => intro S v _ h; exact h
  | succ k ih =>
    intro S v hS h
    apply ih
    · intro w hw; exact ((mem_bfsStep g S w).1 hw).1
    · exact (mem_bfsStep g S v).2 ⟨hS v h, Or.inl h⟩

theorem bfs_closed (g : DiGraph ν) (hw : g.WF) : ∀ k S, S.Nodup → (∀ w ∈ S, w ∈ g.nodes) →
    g.nodes.length < S.length + k + 1 →
    ∀ u v, u ∈ g.bfs k S → g.Adj u v → v ∈ g.bfs k S := by
  intro k
  induction k with
  | zero =>
    intro S hnd hS hlen u v hu huv
    -- S already contains every node
    have hperm : S.Subperm g.nodes := List.subperm_of_subset hnd hS
    have : S.Perm g.nodes := hperm.perm_of_length_le (by omega)
    exact this.mem_iff.2 (hw.tgt u v huv)
  | succ k ih =>
    intro S hnd hS hlen u v hu huv
    have hnd' : (g.bfsStep S).Nodup := hw.nodup.filter _
    have hS' : ∀ w ∈ g.bfsStep S, w ∈ g.nodes := fun w hw' => ((mem_bfsStep g S w).1 hw').1
    have hsub : S ⊆ g.bfsStep S := fun w hw' => (mem_bfsStep g S w).2 ⟨hS w hw', Or.inl hw'⟩
    have hsp : S.Subperm (g.bfsStep S) := List.subperm_of_subset hnd hsub
    by_cases hgrow : S.length < (g.bfsStep S).length
    · exact ih _ hnd' hS' (by omega) u v hu huv
    · -- nothing new: S is closed under successors and all later steps have the same members
      have hp : S.Perm (g.bfsStep S) := hsp.perm_of_length_le (by omega)
      have hcl : ∀ a b, a ∈ S → g.Adj a b → b ∈ S := by
        intro a b ha hab
        rw [hp.mem_iff, mem_bfsStep]
        exact ⟨hw.tgt a b hab, Or.inr ⟨a, ha, hab⟩⟩
      have hsame : ∀ j T, (∀ w, w ∈ T ↔ w ∈ S) → ∀ w, w ∈ g.bfs j T ↔ w ∈ S := by
        intro j
        induction j with
        | zero => intro T hT w; exact hT w
        | succ j ihj =>
          intro T hT w
          apply ihj
          intro w
          rw [mem_bfsStep]
          constructor
          · rintro ⟨h1, h2 | ⟨u, hu, huw⟩⟩
            · exact (hT w).1 h2
            · exact hcl u w ((hT u).1 hu) huw
          · intro h; exact ⟨hS w h, Or.inl ((hT w).2 h)⟩
      have := hsame k (g.bfsStep S) (fun w => hp.mem_iff.symm)
      have e : g.bfs (k+1) S = g.bfs k (g.bfsStep S) := rfl
      rw [e, this] at hu ⊢
      exact hcl u v hu huv

/-- `descendants` is reachability through at least one edge, minus the start. -/
theorem mem_descendants (g : DiGraph ν) (hw : g.WF) (n : ν) (hn : n ∈ g.nodes) (v : ν) :
    v ∈ g.descendants n ↔ Relation.TransGen g.Adj n v ∧ v ≠ n := by
  unfold descendants
  rw [List.mem_filter]
  simp only [decide_eq_true_eq]
  constructor
  · rintro ⟨h1, h2⟩
    have := bfs_sound g n g.nodes.length [n] (by simp; exact Relation.ReflTransGen.refl) v h1
    rcases Relation.reflTransGen_iff_eq_or_transGen.1 this with h | h
    · exact absurd h h2
    · exact ⟨h, h2⟩
  · rintro ⟨h1, h2⟩
    refine ⟨?_, h2⟩
    have hS : ∀ w ∈ [n], w ∈ g.nodes := by simp [hn]
    have hcl := bfs_closed g hw g.nodes.length [n] (by simp) hS (by simp)
    have h0 : n ∈ g.bfs g.nodes.length [n] := bfs_mono g _ _ _ hS (by simp)
    induction h1 with
    | single h => exact hcl _ _ h0 h
    | tail hab hbc ih =>
      rename_i b c
      by_cases hb : b = n
      · subst hb; exact hcl _ _ h0 hbc
      · exact hcl _ _ (ih hb) hbc

end Verif.DiGraph
