import Verif.Model.Symbolic
import Verif.Lemmas.CircuitSettled
import Mathlib.Algebra.BigOperators.Ring.Finset
import Mathlib.Algebra.BigOperators.Fin
import Mathlib.Tactic.Ring
import Mathlib.Tactic.LinearCombination

/-!
# Lemmas: the capacitance matrix as a quadratic form
-/

set_option linter.unusedVariables false

namespace Verif.Sym

open Verif Verif.Circuit Verif.Spec

variable {K : Type} [CommRing K]

/-- The bilinear form of the leading block. -/
def bil (N : ℕ) (M : Mat K) (x : ℕ → K) : K := ∑ i ∈ Finset.range N, ∑ j ∈ Finset.range N, x i * M i j * x j

theorem bil_zero (N : ℕ) (x : ℕ → K) : bil N (fun _ _ => (0 : K)) x = 0 := by simp [bil]

theorem bil_addAt {N : ℕ} (M : Mat K) (x : ℕ → K) {i j : ℕ} (hi : i < N) (hj : j < N) (c : K) :
    bil N (M.addAt i j c) x = bil N M x + x i * c * x j := by
  have h1 : ∀ a b, x a * (M.addAt i j c) a b * x b = x a * M a b * x b + (if a = i then (if b = j then x i * c * x j else 0) else 0) := by
    intro a b
    unfold Mat.addAt
    by_cases ha : a = i
    · by_cases hb : b = j
      · subst ha hb; simp; ring
      · simp [hb]
    · simp [ha]
  unfold bil
  simp only [h1, Finset.sum_add_distrib]
  congr 1
  rw [Finset.sum_eq_single i]
  · rw [Finset.sum_eq_single j]
    · simp
    · intro b _ hb; simp [hb]
    · intro h; exact absurd (Finset.mem_range.2 hj) h
  · intro a _ ha; simp [ha]
  · intro h; exact absurd (Finset.mem_range.2 hi) h

theorem subAt_eq (M : Mat K) (i j : ℕ) (c : K) : M.subAt i j c = M.addAt i j (-c) := by
  funext a b; unfold Mat.subAt Mat.addAt; split_ifs <;> ring

theorem bil_subAt {N : ℕ} (M : Mat K) (x : ℕ → K) {i j : ℕ} (hi : i < N) (hj : j < N) (c : K) :
    bil N (M.subAt i j c) x = bil N M x - x i * c * x j := by
  rw [subAt_eq, bil_addAt M x hi hj]; ring

/-- The capacitance of an edge in the components map. -/
def capOf (val : String → K) (g : CG) (e : Edge) : K :=
  match g.cmap.get? e with
  | some c => if pre c = some 'C' then val c else 0
  | none => 0

/-- The gate capacitance of a node. -/
def gateCap (val : String → K) (g : CG) (n : Node) : K :=
  match g.chargeBias.get? n with
  | some b => match b.comp with
    | some c => val c
    | none => 0
  | none => 0

/-- The resonator term of a node. -/
def resCap (res : Resonator → K) (g : CG) (n : Node) : K :=
  match g.resonators.get? n with
  | some (some r) => res r
  | _ => 0

theorem diagEdge_eq (val : String → K) (g : CG) (i : ℕ) (M : Mat K) (e : Edge) :
    diagEdge val g i M e = M.addAt i i (capOf val g e) := by
  unfold diagEdge capOf
  have : M.addAt i i 0 = M := by funext a b; unfold Mat.addAt; split_ifs <;> ring
  cases g.cmap.get? e with
  | none => exact this.symm
  | some c =>
    simp only
    split_ifs
    · rfl
    · exact this.symm

theorem addAt_zero (M : Mat K) (i j : ℕ) : M.addAt i j 0 = M := by funext a b; unfold Mat.addAt; split_ifs <;> ring

theorem addAt_addAt (M : Mat K) (i j : ℕ) (c d : K) : (M.addAt i j c).addAt i j d = M.addAt i j (c + d) := by
  funext a b; unfold Mat.addAt; split_ifs <;> ring

theorem foldl_diagEdge (val : String → K) (g : CG) (i : ℕ) : ∀ (l : List Edge) (M : Mat K),
    l.foldl (diagEdge val g i) M = M.addAt i i (l.map (capOf val g)).sum := by
  intro l
  induction l with
  | nil => intro M; simp [addAt_zero]
  | cons e l ih => intro M; rw [List.foldl_cons, ih, diagEdge_eq, addAt_addAt]; simp

/-- The diagonal entry of a node. -/
def nodeCap (val : String → K) (res : Resonator → K) (g : CG) (n : Node) : K :=
  ((incident g.graph n).map (capOf val g)).sum + gateCap val g n + resCap res g n

theorem diagNode_eq (val : String → K) (res : Resonator → K) (g : CG) (M : Mat K) (p : Node × ℕ) :
    diagNode val res g M p = M.addAt p.2 p.2 (nodeCap val res g p.1) := by
  unfold diagNode
  rw [foldl_diagEdge]
  have h1 : ∀ M : Mat K, diagGate val g p.1 p.2 M = M.addAt p.2 p.2 (gateCap val g p.1) := by
    intro M
    unfold diagGate gateCap
    cases g.chargeBias.get? p.1 with
    | none => exact (addAt_zero _ _ _).symm
    | some b => cases hb : b.comp with
      | none => simp only [hb]; exact (addAt_zero _ _ _).symm
      | some c => simp only [hb]
  have h2 : ∀ M : Mat K, diagRes res g p.1 p.2 M = M.addAt p.2 p.2 (resCap res g p.1) := by
    intro M
    unfold diagRes resCap
    cases g.resonators.get? p.1 with
    | none => exact (addAt_zero _ _ _).symm
    | some r => cases r with
      | none => exact (addAt_zero _ _ _).symm
      | some r => rfl
  rw [h1, h2, addAt_addAt, addAt_addAt, ← add_assoc]; rfl

theorem bil_diag {N : ℕ} (val : String → K) (res : Resonator → K) (g : CG) (x : ℕ → K) (v : Node → K) :
    ∀ (l : List (Node × ℕ)) (M : Mat K), (∀ p ∈ l, p.2 < N ∧ x p.2 = v p.1) →
      bil N (l.foldl (diagNode val res g) M) x = bil N M x + (l.map fun p => nodeCap val res g p.1 * v p.1 ^ 2).sum := by
  intro l
  induction l with
  | nil => intro M _; simp
  | cons p l ih =>
    intro M h
    obtain ⟨h1, h2⟩ := h p (by simp)
    rw [List.foldl_cons, ih _ fun q hq => h q (List.mem_cons_of_mem _ hq), diagNode_eq, bil_addAt _ _ h1 h1, h2]
    simp only [List.map_cons, List.sum_cons]; ring

theorem offEdge_eq (val : String → K) (g : CG) (ns : List Node) (M : Mat K) (e : Edge) :
    offEdge val g ns M e = if e.1 = 0 ∨ e.2.1 = 0 then M
      else (M.subAt (ns.idxOf e.1) (ns.idxOf e.2.1) (capOf val g e)).subAt (ns.idxOf e.2.1) (ns.idxOf e.1) (capOf val g e) := by
  unfold offEdge capOf
  have h0 : ∀ (M : Mat K) i j, M.subAt i j 0 = M := by intro M i j; rw [subAt_eq, neg_zero, addAt_zero]
  cases g.cmap.get? e with
  | none => simp [h0]
  | some c =>
    by_cases hc : pre c = some 'C'
    · simp [hc]
    · simp [hc, h0]

theorem bil_off {N : ℕ} (val : String → K) (g : CG) (ns : List Node) (x : ℕ → K) (v : Node → K) (hv : v 0 = 0) :
    ∀ (l : List Edge) (M : Mat K),
      (∀ e ∈ l, ∀ n, n = e.1 ∨ n = e.2.1 → n ≠ 0 → ns.idxOf n < N ∧ x (ns.idxOf n) = v n) →
      bil N (l.foldl (offEdge val g ns) M) x = bil N M x - (l.map fun e => capOf val g e * (2 * v e.1 * v e.2.1)).sum := by
  intro l
  induction l with
  | nil => intro M _; simp
  | cons e l ih =>
    intro M h
    rw [List.foldl_cons, ih _ fun q hq => h q (List.mem_cons_of_mem _ hq), offEdge_eq]
    simp only [List.map_cons, List.sum_cons]
    by_cases h0 : e.1 = 0 ∨ e.2.1 = 0
    · rw [if_pos h0]
      have : v e.1 * v e.2.1 = 0 := by rcases h0 with h0 | h0 <;> rw [h0, hv] <;> ring
      linear_combination (2 * capOf val g e) * this
    · rw [if_neg h0]
      push Not at h0
      obtain ⟨a1, a2⟩ := h e (by simp) e.1 (Or.inl rfl) h0.1
      obtain ⟨b1, b2⟩ := h e (by simp) e.2.1 (Or.inr rfl) h0.2
      rw [bil_subAt _ _ b1 a1, bil_subAt _ _ a1 b1, a2, b2]; ring

/-! ### Incident edges -/

theorem sum_ite_unique {α : Type} [DecidableEq α] (c : K) (a : α) : ∀ l : List α, l.Nodup → a ∈ l →
    (l.map fun m => if m = a then c else 0).sum = c := by
  intro l
  induction l with
  | nil => intro _ h; cases h
  | cons b l ih =>
    intro hn ha
    simp only [List.map_cons, List.sum_cons]
    by_cases hb : b = a
    · subst hb
      have : (l.map fun m => if m = b then c else (0 : K)).sum = 0 := by
        apply List.sum_eq_zero
        intro y hy
        obtain ⟨m, hm, rfl⟩ := List.mem_map.1 hy
        rw [if_neg]
        rintro rfl
        exact (List.nodup_cons.1 hn).1 hm
      rw [this]; simp
    · rw [if_neg hb, zero_add]
      exact ih (List.nodup_cons.1 hn).2 ((List.mem_cons.1 ha).resolve_left (Ne.symm hb))

theorem sum_swap {α β : Type} (f : α → β → K) (l : List α) (m : List β) :
    (l.map fun a => (m.map fun b => f a b).sum).sum = (m.map fun b => (l.map fun a => f a b).sum).sum := by
  induction l with
  | nil => simp
  | cons a l ih =>
    simp only [List.map_cons, List.sum_cons, ih]
    clear ih
    induction m with
    | nil => simp
    | cons b m ih => simp only [List.map_cons, List.sum_cons, ← ih]; ring

/-- The other end of an edge. -/
def other (e : Edge) (n : Node) : Node := if e.1 = n then e.2.1 else e.1

theorem sum_filter_map {α : Type} (P : α → Bool) (f : α → K) (l : List α) :
    ((l.filter P).map f).sum = (l.map fun a => if P a = true then f a else 0).sum := by
  induction l with
  | nil => rfl
  | cons a l ih =>
    rw [List.filter_cons]
    split_ifs with h <;> simp [h, ih]

theorem sum_incident {G : MGraph} (h : G.WF) (n : Node) (f : Edge → K) (F : Edge × String → K)
    (hf : ∀ p ∈ G.es, f p.1 = F p ∧ f p.1.rev = F p) :
    ((incident G n).map f).sum = (G.es.map fun p => if p.1.1 = n ∨ p.1.2.1 = n then F p else 0).sum := by
  have hnd : (G.nbrs n).Nodup := by unfold MGraph.nbrs; exact uniq_nodup _
  have h1 : ((incident G n).map f).sum = ((G.nbrs n).map fun m => (G.es.map fun p => if MGraph.joins p.1 n m = true then F p else 0).sum).sum := by
    unfold incident
    rw [List.map_flatMap, List.flatMap_def, List.sum_flatten, List.map_map]
    congr 1
    apply List.map_congr_left
    intro m _
    simp only [Function.comp, MGraph.between, List.map_map]
    rw [← sum_filter_map]
    congr 1
    apply List.map_congr_left
    intro p hp
    obtain ⟨hp, hj⟩ := List.mem_filter.1 hp
    obtain ⟨e1, e2⟩ := hf p hp
    rw [MGraph.joins_iff] at hj
    simp only [Function.comp]
    rcases hj with ⟨rfl, rfl⟩ | ⟨rfl, rfl⟩
    · exact e1
    · exact e2
  rw [h1, sum_swap]
  congr 1
  apply List.map_congr_left
  intro p hp
  by_cases ht : p.1.1 = n ∨ p.1.2.1 = n
  · rw [if_pos ht]
    refine Eq.trans ?_ (sum_ite_unique (F p) (other p.1 n) (G.nbrs n) hnd ?_)
    · congr 1
      apply List.map_congr_left
      intro m _
      have : (MGraph.joins p.1 n m = true) ↔ m = other p.1 n := by
        rw [MGraph.joins_iff]
        unfold other
        split_ifs with hc
        · constructor
          · rintro (⟨_, h⟩ | ⟨h, h'⟩)
            · exact h.symm
            · rw [← h, hc, h']
          · intro h; exact Or.inl ⟨hc, h.symm⟩
        · constructor
          · rintro (⟨h, _⟩ | ⟨h, _⟩)
            · exact absurd h hc
            · exact h.symm
          · intro h; exact Or.inr ⟨h.symm, ht.resolve_left hc⟩
      simp only [this]
    · unfold MGraph.nbrs
      rw [mem_uniq, List.mem_filterMap]
      refine ⟨p, hp, ?_⟩
      unfold other
      split_ifs with h1 h2
      · rfl
      · rfl
      · exact absurd ht (by rintro (h | h); exacts [h1 h, h2 h])
  · rw [if_neg ht]
    apply List.sum_eq_zero
    intro y hy
    obtain ⟨m, _, rfl⟩ := List.mem_map.1 hy
    rw [if_neg]
    intro hj
    rw [MGraph.joins_iff] at hj
    exact ht (by rcases hj with ⟨h, _⟩ | ⟨_, h⟩; exacts [Or.inl h, Or.inr h])

/-! ### The form -/

theorem nodes_nodup {g : CG} (h : g.graph.WF) : (nodes g).Nodup := h.nodup.erase 0

theorem mem_nodes {g : CG} (h : g.graph.WF) (n : Node) : n ∈ nodes g ↔ n ∈ g.graph.nodes ∧ n ≠ 0 := by
  unfold nodes; rw [h.nodup.mem_erase_iff]; exact and_comm

/-- The capacitance of a branch. -/
def capv (val : String → K) (p : Edge × String) : K := if pre p.2 = some 'C' then val p.2 else 0

theorem cmap_of_es {g : CG} {o : Orc} (hw : g.graph.WF) (hs : Synced o g) {p : Edge × String} (hp : p ∈ g.graph.es) :
    g.cmap.get? p.1 = some p.2 ∧ g.cmap.get? p.1.rev = some p.2 := by
  have hv : (MGraph.orient g.graph.nodes p.1, p.2) ∈ g.graph.view := (MGraph.mem_view hw _).2 ⟨p, hp, rfl⟩
  rw [hs.cmap, hs.cmap, rev_rev]
  rcases orient_cases g.graph.nodes p.1 with h | h <;> rw [h] at hv
  · exact ⟨Or.inl hv, Or.inr hv⟩
  · exact ⟨Or.inr hv, Or.inl hv⟩

theorem capOf_es {g : CG} {o : Orc} (hw : g.graph.WF) (hs : Synced o g) (val : String → K) {p : Edge × String} (hp : p ∈ g.graph.es) :
    capOf val g p.1 = capv val p ∧ capOf val g p.1.rev = capv val p := by
  obtain ⟨h1, h2⟩ := cmap_of_es hw hs hp
  unfold capOf capv
  rw [h1, h2]
  exact ⟨rfl, rfl⟩

/-- The energy-like term of one capacitive branch. -/
def branchForm (val : String → K) (v : Node → K) (p : Edge × String) : K :=
  capv val p * (if p.1.1 = p.1.2.1 then -(v p.1.1 ^ 2) else (v p.1.1 - v p.1.2.1) ^ 2)

/-- The unchecked matrix. -/
def rawCap (val : String → K) (res : Resonator → K) (g : CG) : Mat K :=
  g.graph.edges.foldl (offEdge val g (nodes g)) ((nodes g).zipIdx.foldl (diagNode val res g) fun _ _ => 0)

theorem capacitance_ok {val : String → K} {res : Resonator → K} {g : CG} {M : Mat K} (h : capacitance val res g = .ok M) :
    M = rawCap val res g ∧ 0 ∈ g.graph.nodes := by
  unfold capacitance at h
  split_ifs at h with h1 h2
  · exact ⟨(Except.ok.inj h).symm, h1⟩

theorem sum_touch {ns : List Node} (hn : ns.Nodup) (v : Node → K) (hv : v 0 = 0) (a b : Node) (c : K)
    (ha : a ≠ 0 → a ∈ ns) (hb : b ≠ 0 → b ∈ ns) (h0 : 0 ∉ ns) :
    (ns.map fun n => (if a = n ∨ b = n then c else 0) * v n ^ 2).sum = c * (v a ^ 2 + if a = b then 0 else v b ^ 2) := by
  have key : ∀ a : Node, (a ≠ 0 → a ∈ ns) → (ns.map fun n => if n = a then c * v a ^ 2 else 0).sum = c * v a ^ 2 := by
    intro a ha
    by_cases h : a = 0
    · subst h
      rw [hv]
      apply (List.sum_eq_zero _).trans (by ring)
      intro y hy
      obtain ⟨n, _, rfl⟩ := List.mem_map.1 hy
      split_ifs <;> ring
    · exact sum_ite_unique _ a ns hn (ha h)
  by_cases hab : a = b
  · subst hab
    rw [if_pos rfl, add_zero, ← key a ha]
    congr 1
    apply List.map_congr_left
    intro n _
    by_cases h : n = a
    · subst h; simp
    · rw [if_neg h, if_neg (by tauto)]; ring
  · rw [if_neg hab, mul_add, ← key a ha, ← key b hb, ← List.sum_map_add]
    congr 1
    apply List.map_congr_left
    intro n _
    by_cases h : n = a
    · subst h; simp [hab]
    · by_cases h' : n = b
      · subst h'; simp [hab, Ne.symm]
      · rw [if_neg h, if_neg h', if_neg (by tauto)]; ring

theorem sum_map_sub' {α : Type} (f k : α → K) (l : List α) : (l.map fun a => f a - k a).sum = (l.map f).sum - (l.map k).sum := by
  induction l with
  | nil => simp
  | cons a l ih => simp only [List.map_cons, List.sum_cons, ih]; ring

theorem sum_mul_right' {α : Type} (f : α → K) (c : K) (l : List α) : (l.map fun a => f a * c).sum = (l.map f).sum * c := by
  induction l with
  | nil => simp
  | cons a l ih => simp only [List.map_cons, List.sum_cons, ih]; ring

theorem bil_rawCap {g : CG} {o : Orc} (hw : g.graph.WF) (hs : Synced o g) (val : String → K) (res : Resonator → K)
    (v : Node → K) (hv : v 0 = 0) :
    bil (nodes g).length (rawCap val res g) (fun i => v ((nodes g).getD i 0)) =
      (g.graph.es.map (branchForm val v)).sum + ((nodes g).map fun n => (gateCap val g n + resCap res g n) * v n ^ 2).sum := by
  have hnd := nodes_nodup hw
  have h0 : (0 : Node) ∉ nodes g := fun h => ((mem_nodes hw 0).1 h).2 rfl
  unfold rawCap
  rw [bil_off val g (nodes g) _ v hv]
  · rw [bil_diag val res g _ v]
    · rw [bil_zero, zero_add]
      have e1 : ((nodes g).zipIdx.map fun p => nodeCap val res g p.1 * v p.1 ^ 2) = (nodes g).map fun n => nodeCap val res g n * v n ^ 2 := by
        conv_rhs => rw [← List.zipIdx_map_fst 0 (nodes g), List.map_map]
        rfl
      have e2 : (g.graph.edges.map fun e => capOf val g e * (2 * v e.1 * v e.2.1)).sum =
          (g.graph.es.map fun p => capv val p * (2 * v p.1.1 * v p.1.2.1)).sum := by
        rw [((MGraph.edges_perm hw).map _).sum_eq, List.map_map]
        congr 1
        apply List.map_congr_left
        intro p hp
        obtain ⟨c1, c2⟩ := capOf_es hw hs val hp
        simp only [Function.comp]
        rcases orient_cases g.graph.nodes p.1 with h | h <;> rw [h]
        · rw [c1]
        · rw [c2]; simp only [Edge.rev]; ring
      have e3 : ((nodes g).map fun n => nodeCap val res g n * v n ^ 2).sum =
          (g.graph.es.map fun p => capv val p * (v p.1.1 ^ 2 + if p.1.1 = p.1.2.1 then 0 else v p.1.2.1 ^ 2)).sum +
            ((nodes g).map fun n => (gateCap val g n + resCap res g n) * v n ^ 2).sum := by
        have : ∀ n, nodeCap val res g n * v n ^ 2 =
            (g.graph.es.map fun p => (if p.1.1 = n ∨ p.1.2.1 = n then capv val p else 0) * v n ^ 2).sum +
              (gateCap val g n + resCap res g n) * v n ^ 2 := by
          intro n
          unfold nodeCap
          rw [sum_incident hw n _ (capv val) fun p hp => capOf_es hw hs val hp, sum_mul_right']
          ring
        simp only [this]
        rw [List.sum_map_add, sum_swap]
        congr 2
        apply List.map_congr_left
        intro p hp
        obtain ⟨ha, hb⟩ := hw.ends p hp
        exact sum_touch hnd v hv _ _ _ (fun h => (mem_nodes hw _).2 ⟨ha, h⟩) (fun h => (mem_nodes hw _).2 ⟨hb, h⟩) h0
      rw [e1, e2, e3]
      have e4 : ((g.graph.es.map (branchForm val v)).sum) =
          (g.graph.es.map fun p => capv val p * (v p.1.1 ^ 2 + if p.1.1 = p.1.2.1 then 0 else v p.1.2.1 ^ 2)).sum -
          (g.graph.es.map fun p => capv val p * (2 * v p.1.1 * v p.1.2.1)).sum := by
        rw [← sum_map_sub']
        congr 1
        apply List.map_congr_left
        intro p _
        unfold branchForm
        split_ifs with h
        · rw [← h]; ring
        · ring
      rw [e4]; ring
    · intro p hp
      have := List.mem_zipIdx' hp
      refine ⟨this.1, ?_⟩
      simp [this.1, this.2]
  · intro e he n hn h
    have hm : n ∈ nodes g := by
      rw [mem_nodes hw]
      obtain ⟨h1, h2⟩ := MGraph.mem_edges_nodes hw he
      rcases hn with rfl | rfl
      · exact ⟨h1, h⟩
      · exact ⟨h2, h⟩
    have hlt := List.idxOf_lt_length_iff.2 hm
    refine ⟨hlt, ?_⟩
    simp [hlt]

/-! ### Symmetry -/

theorem addAt_symm {M : Mat K} (h : ∀ i j, M i j = M j i) (i : ℕ) (c : K) : ∀ a b, (M.addAt i i c) a b = (M.addAt i i c) b a := by
  intro a b
  unfold Mat.addAt
  by_cases ha : a = i <;> by_cases hb : b = i <;> simp [ha, hb, h]

theorem rawCap_symm (val : String → K) (res : Resonator → K) (g : CG) (i j : ℕ) : rawCap val res g i j = rawCap val res g j i := by
  unfold rawCap
  have h1 : ∀ (l : List (Node × ℕ)) (M : Mat K), (∀ i j, M i j = M j i) → ∀ i j,
      (l.foldl (diagNode val res g) M) i j = (l.foldl (diagNode val res g) M) j i := by
    intro l
    induction l with
    | nil => intro M h; exact h
    | cons p l ih => intro M h; rw [List.foldl_cons]; exact ih _ (by rw [diagNode_eq]; exact addAt_symm h _ _)
  have h2 : ∀ (l : List Edge) (M : Mat K), (∀ i j, M i j = M j i) → ∀ i j,
      (l.foldl (offEdge val g (nodes g)) M) i j = (l.foldl (offEdge val g (nodes g)) M) j i := by
    intro l
    induction l with
    | nil => intro M h; exact h
    | cons e l ih =>
      intro M h
      rw [List.foldl_cons]
      refine ih _ ?_
      rw [offEdge_eq]
      split_ifs
      · exact h
      · intro a b
        unfold Mat.subAt
        generalize (nodes g).idxOf e.1 = p
        generalize (nodes g).idxOf e.2.1 = q
        by_cases h1 : a = p <;> by_cases h2 : b = p <;> by_cases h3 : a = q <;> by_cases h4 : b = q <;> simp_all
  exact h2 _ _ (h1 _ _ fun _ _ => rfl) i j

end Verif.Sym
