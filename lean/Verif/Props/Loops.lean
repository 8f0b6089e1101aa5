import Verif.Lemmas.Loops
import Verif.Props.Circuit

/-!
# Property C96: the loops of the circuit
-/

namespace Verif.Props

open Verif Verif.Circuit Verif.Spec

/-- **C96** (independent loops). The loops of the circuit are independent and generate all others: every choice of branches in which each node has
even degree is obtained in exactly one way by putting some of them together. -/
theorem C96_basis {h : List Call} {g : CG} (hs : Settled h g) {cyc : List (List Node)} (hc : CycleBasis (simplePairs g.graph.edges) cyc) :
    LoopBasis g.graph.edges (loopsMap cyc g.graph) := by
  obtain ⟨o, f⟩ := settled_facts hs
  exact loopsMap_basis f.inv hc

/-- **C96** (cycles). If no branch joins a node to itself, each of the loops is a cycle. -/
theorem C96_cycles {h : List Call} {g : CG} (hs : Settled h g) {cyc : List (List Node)} (hc : CycleBasis (simplePairs g.graph.edges) cyc)
    (hself : ∀ b ∈ branches h, b.1 ≠ b.2.1) : ∀ l ∈ loopsMap cyc g.graph, IsCycle l := by
  obtain ⟨o, f⟩ := settled_facts hs
  refine loopsMap_cycles f.inv hc fun e he => ?_
  obtain ⟨x, hx, rfl⟩ := List.mem_map.1 he
  obtain ⟨p, hp, rfl⟩ := (MGraph.mem_view f.inv.toWF x).1 hx
  have := hself (strip p) (by rw [← f.content]; exact List.mem_map.2 ⟨p, hp, rfl⟩)
  simp only
  rcases orient_cases g.graph.nodes p.1 with h1 | h1 <;> rw [h1]
  · exact this
  · exact fun h => this h.symm

/-- **C96** (branches). The loops consist of branches of the circuit. -/
theorem C96_branches {h : List Call} {g : CG} (hs : Settled h g) {cyc : List (List Node)} (hc : CycleBasis (simplePairs g.graph.edges) cyc) :
    ∀ l ∈ loopsMap cyc g.graph, ∀ e ∈ l, named e ∈ g.graph.edges.map named := by
  obtain ⟨o, f⟩ := settled_facts hs
  intro l hl e he
  rcases mem_edges_loop f.inv hc hl he with h | h
  · exact List.mem_map.2 ⟨e, h, rfl⟩
  · exact h.2

/-- Both loops contain the branch. -/
def Shared (loops : List (List Edge)) (i j : ℕ) (b : Edge) : Prop := b ∈ (loops.getD i []).map named ∧ b ∈ (loops.getD j []).map named

/-- **C96** (shared branches, soundness). Two loops that are listed as adjacent are two different loops, and the branches listed for them are
shared. -/
theorem C96_shared {g : CG} {cyc : List (List Node)} {i j : ℕ} {S : List Edge}
    (hS : (loopAdjacency (loopsMap cyc g.graph)).get? (i, j) = some S) :
    i < j ∧ j < (loopsMap cyc g.graph).length ∧ S ≠ [] ∧ ∀ e ∈ S, Shared (loopsMap cyc g.graph) i j (named e) := by
  rw [loopAdjacency_get] at hS
  split_ifs at hS with h
  obtain rfl := Option.some.inj hS
  refine ⟨h.1, h.2.1, h.2.2, fun e he => ?_⟩
  have := List.mem_filter.1 he
  exact ⟨List.mem_map.2 ⟨e, this.1, rfl⟩, List.mem_map.2 ⟨e, by simpa using this.2, rfl⟩⟩

/-- The nodes are first mentioned in ascending order. -/
def Ascending (bs : List (ℕ × ℕ × String)) : Prop := ∀ m ∈ nodesOf bs, ∀ n ∈ nodesOf bs, m < n → firstSeen bs m < firstSeen bs n

/-- **C96** (shared branches). If the nodes are first mentioned in ascending order, the loops that share a branch are exactly the adjacent ones, and
the branches listed for them are exactly the shared ones. (For other orders see `C96_false_shared`.) -/
theorem C96_shared_partial {h : List Call} {g : CG} (hs : Settled h g) {cyc : List (List Node)} (hc : CycleBasis (simplePairs g.graph.edges) cyc)
    (ha : Ascending (branches h)) {i j : ℕ} (hij : i < j) (hj : j < (loopsMap cyc g.graph).length) :
    ((∃ b, Shared (loopsMap cyc g.graph) i j b) ↔ ∃ S, (loopAdjacency (loopsMap cyc g.graph)).get? (i, j) = some S) ∧
      ∀ S, (loopAdjacency (loopsMap cyc g.graph)).get? (i, j) = some S → ∀ b, b ∈ S.map named ↔ Shared (loopsMap cyc g.graph) i j b := by
  obtain ⟨o, f⟩ := settled_facts hs
  have hnodes : g.graph.nodes = uniq ((branches h).flatMap fun b => [b.1, b.2.1]) := by
    obtain ⟨l, o, a, b, c, l', _, _, _, _, rfl⟩ := hs
    exact nodes_run h
  have hord : ∀ e ∈ g.graph.edges, e.1 ≤ e.2.1 := by
    intro e he
    obtain ⟨x, hx, rfl⟩ := List.mem_map.1 he
    have h1 := view_oriented f.inv.toWF hx
    have hm := view_mem_nodes f.inv.toWF hx
    rw [hnodes] at h1 hm
    rw [mem_uniq, mem_uniq] at hm
    by_contra hlt
    have h2 := ha _ (List.mem_toFinset.2 hm.2) _ (List.mem_toFinset.2 hm.1) (by omega)
    unfold firstSeen at h2
    rw [← idxOf_uniq_lt _ _ _ hm.2 hm.1] at h2
    omega
  have hname : ∀ k, ∀ e ∈ (loopsMap cyc g.graph).getD k [], named e = e := by
    intro k e he
    by_cases hk : k < (loopsMap cyc g.graph).length
    · rw [List.getD_eq_getElem?_getD, List.getElem?_eq_getElem hk, Option.getD_some] at he
      have : e.1 ≤ e.2.1 := by
        rcases mem_edges_loop f.inv hc (List.getElem_mem hk) he with h | h
        · exact hord e h
        · exact h.1
      unfold named
      rw [if_pos this]
    · rw [List.getD_eq_getElem?_getD, List.getElem?_eq_none (by omega), Option.getD_none] at he
      cases he
  have hiff : ∀ b, b ∈ (((loopsMap cyc g.graph).getD i []).filter fun k => k ∈ (loopsMap cyc g.graph).getD j []).map named ↔
      Shared (loopsMap cyc g.graph) i j b := by
    intro b
    constructor
    · intro hb
      obtain ⟨e, he, rfl⟩ := List.mem_map.1 hb
      have := List.mem_filter.1 he
      exact ⟨List.mem_map.2 ⟨e, this.1, rfl⟩, List.mem_map.2 ⟨e, by simpa using this.2, rfl⟩⟩
    · rintro ⟨h1, h2⟩
      obtain ⟨e, he, rfl⟩ := List.mem_map.1 h1
      obtain ⟨e', he', hee⟩ := List.mem_map.1 h2
      rw [hname i e he, hname j e' he'] at hee
      subst hee
      exact List.mem_map.2 ⟨e', List.mem_filter.2 ⟨he, by simpa using he'⟩, rfl⟩
  rw [loopAdjacency_get]
  by_cases hne : (((loopsMap cyc g.graph).getD i []).filter fun k => k ∈ (loopsMap cyc g.graph).getD j []) = []
  · rw [if_neg (fun hh => hh.2.2 hne)]
    refine ⟨⟨fun ⟨b, hb⟩ => ?_, fun ⟨S, hS⟩ => (by cases hS)⟩, fun S hS => (by cases hS)⟩
    have := (hiff b).2 hb
    rw [hne] at this
    cases this
  · rw [if_pos ⟨hij, hj, hne⟩]
    refine ⟨⟨fun _ => ⟨_, rfl⟩, fun _ => ?_⟩, fun S hS => ?_⟩
    · obtain ⟨e, he⟩ := List.exists_mem_of_ne_nil _ hne
      exact ⟨named e, (hiff _).1 (List.mem_map.2 ⟨e, he, rfl⟩)⟩
    · obtain rfl := Option.some.inj hS
      exact hiff

/-! ### Triangles -/

theorem loopTriangle_basis {bs l : List Edge} (hb : (bs.map named).Perm [(0, 1, 0), (0, 2, 0), (1, 2, 0)])
    (hl : (l.map named).Perm [(0, 1, 0), (0, 2, 0), (1, 2, 0)]) : LoopBasis bs [l] := by
  have hp : ∀ e, parity l e = ((List.count e [((0, 1, 0) : Edge), (0, 2, 0), (1, 2, 0)] : ℕ) : ZMod 2) := by
    intro e; unfold parity; rw [hl.count_eq]
  have p1 : parity l (0, 1, 0) = 1 := by rw [hp]; rfl
  have p2 : parity l (0, 2, 0) = 1 := by rw [hp]; rfl
  have p3 : parity l (1, 2, 0) = 1 := by rw [hp]; rfl
  have hsum : ∀ f : Edge → ZMod 2, ∀ n, ((bs.map named).map fun e => f e * endsOn e n).sum =
      f (0, 1, 0) * endsOn (0, 1, 0) n + (f (0, 2, 0) * endsOn (0, 2, 0) n + f (1, 2, 0) * endsOn (1, 2, 0) n) := by
    intro f n
    rw [(hb.map _).sum_eq]
    simp
  constructor
  · intro l' hl'
    rw [List.mem_singleton.1 hl']
    refine ⟨fun e he => ?_, fun n => ?_⟩
    · by_contra hn
      refine he (parity_zero fun h => hn ?_)
      exact List.mem_map.1 (hb.mem_iff.2 (hl.mem_iff.1 h))
    · rw [hsum, p1, p2, p3]
      unfold endsOn
      generalize (if (0 : ℕ) = n then (1 : ZMod 2) else 0) = x
      generalize (if (1 : ℕ) = n then (1 : ZMod 2) else 0) = y
      generalize (if (2 : ℕ) = n then (1 : ZMod 2) else 0) = z
      revert x y z
      decide
  · intro f hf
    have h0 := hf.even 0
    have h1 := hf.even 1
    rw [hsum] at h0 h1
    simp only [endsOn] at h0 h1
    norm_num at h0 h1
    have e2 : f (0, 1, 0) = f (0, 2, 0) := eq_of_add_zero h0
    have e3 : f (0, 1, 0) = f (1, 2, 0) := eq_of_add_zero h1
    refine ⟨fun _ => f (0, 1, 0), fun e => ?_, fun a ha => ?_⟩
    · change _ = ∑ i : Fin 1, f (0, 1, 0) * parity ([l].get i) e
      rw [Fin.sum_univ_one]
      change _ = _ * parity l e
      by_cases he : e ∈ [((0, 1, 0) : Edge), (0, 2, 0), (1, 2, 0)]
      · simp only [List.mem_cons, List.not_mem_nil, or_false] at he
        rcases he with rfl | rfl | rfl
        · rw [p1, mul_one]
        · rw [p2, mul_one, e2]
        · rw [p3, mul_one, e3]
      · rw [parity_zero (fun h => he (hl.mem_iff.1 h)), mul_zero]
        by_contra hne
        exact he (hb.mem_iff.1 (List.mem_map.2 (hf.branches e hne)))
    · funext i
      have := ha (0, 1, 0)
      change _ = ∑ i : Fin 1, a i * parity ([l].get i) (0, 1, 0) at this
      rw [Fin.sum_univ_one] at this
      change _ = a 0 * parity l (0, 1, 0) at this
      rw [p1, mul_one] at this
      rw [this]
      congr 1
      exact Fin.ext (by have := i.2; simp at this; simp [this])

/-- A junction, an inductor across it, and two inductors in a triangle. -/
def loopTriangle : List Call :=
  [(0, 1, "I1"), (0, 1, "L1"), (1, 2, "L2")].map (fun b => Call.addBranch Orc.id b.1 b.2.1 b.2.2) ++ [Call.addBranch Orc.id 0 2 "L3"]

theorem loopTriangle_settled : Settled loopTriangle (run {} loopTriangle) :=
  settled_of_list orcId_ok [(0, 1, "I1"), (0, 1, "L1"), (1, 2, "L2")] (0, 2, "L3") (by decide +kernel)

theorem loopTriangle_cycles : CycleBasis (simplePairs (run {} loopTriangle).graph.edges) [[0, 1, 2]] := by
  have hp : simplePairs (run {} loopTriangle).graph.edges = [(0, 1), (0, 2), (1, 2)] := by decide +kernel
  rw [hp]
  refine ⟨by decide, by decide, loopTriangle_basis (by decide) (by decide)⟩

/-- The loops of the sample circuit and what they share. -/
example : Settled loopTriangle (run {} loopTriangle) ∧ CycleBasis (simplePairs (run {} loopTriangle).graph.edges) [[0, 1, 2]] ∧
    loopsMap [[0, 1, 2]] (run {} loopTriangle).graph = [[(0, 1, 0), (0, 1, 1)], [(0, 1, 0), (1, 2, 0), (0, 2, 0)]] ∧
    loopAdjacency (loopsMap [[0, 1, 2]] (run {} loopTriangle).graph) = [((0, 1), [(0, 1, 0)])] ∧
    (∀ b ∈ branches loopTriangle, b.1 ≠ b.2.1) ∧ Ascending (branches loopTriangle) :=
  ⟨loopTriangle_settled, loopTriangle_cycles, by decide +kernel, by decide +kernel, by decide +kernel, by unfold Ascending; decide +kernel⟩

/-- The same circuit with the nodes mentioned in another order. -/
def triangleDown : List Call :=
  [(1, 0, "I1"), (1, 0, "L1"), (0, 2, "L2")].map (fun b => Call.addBranch Orc.id b.1 b.2.1 b.2.2) ++ [Call.addBranch Orc.id 2 1 "L3"]

/-- **C96**, negative part. If the nodes are mentioned in another order, two loops that share a branch need not be adjacent in the loop graph. -/
theorem C96_false_shared : ∃ h g cyc, Settled h g ∧ CycleBasis (simplePairs g.graph.edges) cyc ∧ (loopsMap cyc g.graph).length = 2 ∧
    (∃ b, Shared (loopsMap cyc g.graph) 0 1 b) ∧ loopAdjacency (loopsMap cyc g.graph) = [] := by
  refine ⟨triangleDown, run {} triangleDown, [[1, 0, 2]],
    settled_of_list orcId_ok [(1, 0, "I1"), (1, 0, "L1"), (0, 2, "L2")] (2, 1, "L3") (by decide +kernel), ?_, by decide +kernel,
    ⟨(0, 1, 0), by unfold Shared; decide +kernel⟩, by decide +kernel⟩
  have hp : simplePairs (run {} triangleDown).graph.edges = [(1, 0), (1, 2), (0, 2)] := by decide +kernel
  rw [hp]
  refine ⟨by decide, by decide, loopTriangle_basis (by decide) (by decide)⟩

end Verif.Props
