import Verif.Lemmas.SymbolicCap
import Verif.Spec.Symbolic
import Verif.Lemmas.CircuitCap
import Verif.Lemmas.Sweep
import Verif.Props.CircuitBias
import Mathlib.Algebra.Order.Field.Basic
import Mathlib.Algebra.Order.BigOperators.Group.List
import Mathlib.LinearAlgebra.Matrix.ToLinearEquiv
import Mathlib.Tactic.Positivity

/-!
# C29: the capacitance matrix is the circuit's charging energy
-/

set_option linter.unusedVariables false

namespace Verif.Props

open Verif Verif.Spec Verif.Circuit Verif.Sym

variable {K : Type}

/-- The voltages of the non-ground nodes, in the order of the rows. -/
def atNodes (g : CG) (v : ℕ → K) : Fin (nodes g).length → K := fun i => v ((nodes g).get i)

theorem dot_block [CommRing K] (g : CG) (M : Mat K) (v : ℕ → K) :
    atNodes g v ⬝ᵥ (M.block (nodes g).length (nodes g).length).mulVec (atNodes g v) =
      bil (nodes g).length M (fun i => v ((nodes g).getD i 0)) := by
  unfold bil dotProduct Matrix.mulVec dotProduct
  rw [Finset.sum_range]
  apply Finset.sum_congr rfl
  intro i _
  rw [Finset.sum_range, Finset.mul_sum]
  apply Finset.sum_congr rfl
  intro j _
  simp [atNodes, Mat.block, mul_assoc]

theorem gateCap_eq [CommRing K] (val : String → K) (g : CG) (n : ℕ) : gateCap val g n = gateCapacitance val g n := by
  unfold gateCap gateCapacitance
  cases g.chargeBias.get? n with
  | none => rfl
  | some b => cases b with | mk c s => cases c <;> rfl

theorem resCap_eq [Field K] (val : String → K) (g : CG) (n : ℕ) : resCap (resonatorCap val) g n = resonatorLoad val g n := by
  unfold resCap resonatorLoad resonatorCap
  cases g.resonators.get? n with
  | none => rfl
  | some r => cases r <;> rfl

/-- The matrix is symmetric. -/
theorem C29_symmetric [Field K] (val : String → K) (g : CG) (M : Mat K) (hM : capacitance val (resonatorCap val) g = .ok M) :
    (M.block (nodes g).length (nodes g).length).transpose = M.block (nodes g).length (nodes g).length := by
  obtain ⟨rfl, _⟩ := capacitance_ok hM
  ext i j
  exact rawCap_symm _ _ _ _ _

/-- **C29** The rows of the matrix are the nodes that the history mentions, each once, without the ground. -/
theorem C29_rows (h : List Call) (g : CG) (hs : Settled h g) :
    (nodes g).Nodup ∧ ∀ n, n ∈ nodes g ↔ n ∈ nodesOf (branches h) ∧ n ≠ 0 := by
  obtain ⟨o, hf⟩ := settled_facts hs
  obtain ⟨_, _, _, _, _, _, _, _, _, _, rfl⟩ := hs
  refine ⟨nodes_nodup hf.inv.toWF, fun n => ?_⟩
  rw [mem_nodes hf.inv.toWF, nodes_run, mem_uniq]
  simp [nodesOf]

theorem nodes_finset {h : List Call} {g : CG} (hs : Settled h g) [CommRing K] (f : ℕ → K) (h0 : f 0 = 0) :
    ((nodes g).map f).sum = ∑ n ∈ nodesOf (branches h), f n := by
  obtain ⟨hnd, hmem⟩ := C29_rows h g hs
  rw [← List.sum_toFinset f hnd]
  apply Finset.sum_subset
  · intro n hn
    exact ((hmem n).1 (List.mem_toFinset.1 hn)).1
  · intro n hn hn'
    by_cases hz : n = 0
    · rw [hz, h0]
    · exact absurd (List.mem_toFinset.2 ((hmem n).2 ⟨hn, hz⟩)) hn'

theorem startsWith_iff (c : String) (p : Char) : startsWith c p = true ↔ pre c = some p := by
  unfold startsWith pre; simp

/-- **C29** The quadratic form at node voltages `v` (the ground at 0), for every circuit: the capacitors between different
nodes, the gate capacitors and the resonators contribute `C v²`; a capacitor joining a node to itself counts negatively. -/
theorem C29_quadratic_form [Field K] (h : List Call) (g : CG) (hs : Settled h g) (val : String → K) (M : Mat K)
    (hM : capacitance val (resonatorCap val) g = .ok M) (v : ℕ → K) (hv : v 0 = 0) :
    atNodes g v ⬝ᵥ (M.block (nodes g).length (nodes g).length).mulVec (atNodes g v) =
      capacitorForm val (branches h) v
        - (((branchesOf 'C' (branches h)).filter fun b => b.1 = b.2.1).map fun b => val b.2.2 * v b.1 ^ 2).sum
        + ∑ n ∈ nodesOf (branches h), (gateCapacitance val g n + resonatorLoad val g n) * v n ^ 2 := by
  obtain ⟨rfl, _⟩ := capacitance_ok hM
  obtain ⟨o, hf⟩ := settled_facts hs
  rw [dot_block, bil_rawCap hf.inv.toWF hf.synced val _ v hv]
  congr 1
  · have e1 : g.graph.es.map (branchForm val v) = (branches h).map fun b =>
        (if startsWith b.2.2 'C' = true then val b.2.2 else 0) * (if b.1 = b.2.1 then -(v b.1 ^ 2) else (v b.1 - v b.2.1) ^ 2) := by
      rw [← hf.content, List.map_map]
      apply List.map_congr_left
      intro p _
      have : ∀ (c : String) (x : K), (if pre c = some 'C' then x else 0) = if startsWith c 'C' = true then x else 0 := by
        intro c x
        by_cases hc : pre c = some 'C'
        · rw [if_pos hc, if_pos ((startsWith_iff _ _).2 hc)]
        · rw [if_neg hc, if_neg fun h => hc ((startsWith_iff _ _).1 h)]
      unfold branchForm capv
      rw [this]; rfl
    rw [e1]
    unfold capacitorForm branchesOf
    rw [sum_filter_map, List.filter_filter, sum_filter_map, ← sum_map_sub']
    congr 1
    apply List.map_congr_left
    intro b _
    by_cases hc : startsWith b.2.2 'C' = true <;> by_cases hb : b.1 = b.2.1 <;> simp [hc, hb]
  · rw [nodes_finset hs]
    · apply Finset.sum_congr rfl
      intro n _
      rw [gateCap_eq, resCap_eq]
    · rw [hv]; ring

/-- **C29, the part that holds**: when no capacitor joins a node to itself, the quadratic form is the sum of `C (v_a - v_b)²`
over the capacitors plus `Cg v²` over the gate capacitors (and the series capacitance of each resonator).  Missing for the
full claim: capacitors joining a node to itself, see `C29_self_loop_false`. -/
theorem C29_quadratic_form_partial [Field K] (h : List Call) (g : CG) (hs : Settled h g) (val : String → K) (M : Mat K)
    (hM : capacitance val (resonatorCap val) g = .ok M) (hloop : ∀ b ∈ branchesOf 'C' (branches h), b.1 ≠ b.2.1)
    (v : ℕ → K) (hv : v 0 = 0) :
    atNodes g v ⬝ᵥ (M.block (nodes g).length (nodes g).length).mulVec (atNodes g v) =
      capacitorForm val (branches h) v
        + ∑ n ∈ nodesOf (branches h), (gateCapacitance val g n + resonatorLoad val g n) * v n ^ 2 := by
  rw [C29_quadratic_form h g hs val M hM v hv]
  have : (branchesOf 'C' (branches h)).filter (fun b => b.1 = b.2.1) = [] := by
    rw [List.filter_eq_nil_iff]
    intro b hb
    simpa using hloop b hb
  rw [this]; simp

section Order

variable [Field K] [LinearOrder K] [IsStrictOrderedRing K]

theorem sum_nonneg_list {α : Type} (f : α → K) (l : List α) (h : ∀ a ∈ l, 0 ≤ f a) : 0 ≤ (l.map f).sum :=
  List.sum_nonneg (by intro y hy; obtain ⟨a, ha, rfl⟩ := List.mem_map.1 hy; exact h a ha)

theorem sum_eq_zero_list {α : Type} (f : α → K) (l : List α) (h : ∀ a ∈ l, 0 ≤ f a) (hz : (l.map f).sum = 0) : ∀ a ∈ l, f a = 0 := by
  induction l with
  | nil => intro a ha; cases ha
  | cons b l ih =>
    simp only [List.map_cons, List.sum_cons] at hz
    have h1 := h b (by simp)
    have h2 := sum_nonneg_list f l fun a ha => h a (List.mem_cons_of_mem _ ha)
    intro a ha
    rcases List.mem_cons.1 ha with rfl | ha
    · linarith
    · exact ih (fun a ha => h a (List.mem_cons_of_mem _ ha)) (by linarith) a ha

/-- The values are not negative: capacitors, gate capacitors, coupling capacitors and resonator capacitances. -/
structure Nonneg (val : String → K) (h : List Call) (g : CG) : Prop where
  capacitors : ∀ b ∈ branchesOf 'C' (branches h), 0 ≤ val b.2.2
  gates : ∀ n b c, g.chargeBias.get? n = some b → b.comp = some c → 0 ≤ val c
  resonators : ∀ n r, g.resonators.get? n = some (some r) → 0 ≤ val r.coupling ∧ 0 ≤ val r.cr

theorem gate_nonneg {val : String → K} {h : List Call} {g : CG} (hn : Nonneg val h g) (n : ℕ) : 0 ≤ gateCapacitance val g n := by
  unfold gateCapacitance
  cases hb : g.chargeBias.get? n with
  | none => simp
  | some b =>
    cases hc : b.comp with
    | none => simp [hc]
    | some c => simpa [hc] using hn.gates n b c hb hc

theorem load_nonneg {val : String → K} {h : List Call} {g : CG} (hn : Nonneg val h g) (n : ℕ) : 0 ≤ resonatorLoad val g n := by
  unfold resonatorLoad
  cases hr : g.resonators.get? n with
  | none => simp
  | some r =>
    cases r with
    | none => simp
    | some r =>
      obtain ⟨h1, h2⟩ := hn.resonators n r hr
      simp only [Option.join_some]
      positivity

theorem capacitorForm_nonneg {val : String → K} {h : List Call} {g : CG} (hn : Nonneg val h g) (v : ℕ → K) :
    0 ≤ capacitorForm val (branches h) v :=
  sum_nonneg_list _ _ fun b hb => mul_nonneg (hn.capacitors b hb) (sq_nonneg _)

/-- **C29, the part that holds**: with non-negative values the matrix is positive semidefinite.  Missing: capacitors joining
a node to itself, see `C29_self_loop_false`. -/
theorem C29_semidefinite_partial (h : List Call) (g : CG) (hs : Settled h g) (val : String → K) (M : Mat K)
    (hM : capacitance val (resonatorCap val) g = .ok M) (hloop : ∀ b ∈ branchesOf 'C' (branches h), b.1 ≠ b.2.1)
    (hn : Nonneg val h g) (x : Fin (nodes g).length → K) :
    0 ≤ x ⬝ᵥ (M.block (nodes g).length (nodes g).length).mulVec x := by
  obtain ⟨hnd, hmem⟩ := C29_rows h g hs
  let v : ℕ → K := fun n => if hn : (nodes g).idxOf n < (nodes g).length then x ⟨(nodes g).idxOf n, hn⟩ else 0
  have hx : x = atNodes g v := by
    funext i
    simp only [atNodes, v, List.get_eq_getElem, hnd.idxOf_getElem, i.2, dif_pos]
  have hv : v 0 = 0 := by
    have : ¬ (nodes g).idxOf 0 < (nodes g).length := by
      rw [List.idxOf_lt_length_iff, hmem]; tauto
    simp only [v, this, dif_neg, not_false_iff]
  rw [hx, C29_quadratic_form_partial h g hs val M hM hloop v hv]
  refine add_nonneg (capacitorForm_nonneg hn v) (Finset.sum_nonneg fun n _ => mul_nonneg ?_ (sq_nonneg _))
  exact add_nonneg (gate_nonneg hn n) (load_nonneg hn n)

/-- The connections through positive capacitances; a gate capacitor or a loaded resonator connects its node to the ground. -/
def capacitiveWires (val : String → K) (h : List Call) (g : CG) : List (ℕ × ℕ × ℕ) :=
  wires ((branchesOf 'C' (branches h)).filter fun b => 0 < val b.2.2) ++
    ((nodes g).filter fun n => 0 < gateCapacitance val g n + resonatorLoad val g n).map fun n => (n, 0, 0)

theorem const_of_conn {es : List (ℕ × ℕ × ℕ)} {v : ℕ → K} (h : ∀ e ∈ es, v e.1 = v e.2.1) {a b : ℕ} (hc : Conn es a b) : v a = v b := by
  unfold Conn at hc
  induction hc with
  | rel x y hxy => obtain ⟨e, he, rfl, rfl⟩ := hxy; exact h e he
  | refl x => rfl
  | symm x y _ ih => exact ih.symm
  | trans x y z _ _ ih1 ih2 => exact ih1.trans ih2

/-- **C29, the part that holds**: if moreover every node is connected to the ground through positive capacitances, the matrix
is positive definite, so it is invertible and the inverse capacitance matrix exists.  Missing: capacitors joining a node to
itself. -/
theorem C29_definite_partial (h : List Call) (g : CG) (hs : Settled h g) (val : String → K) (M : Mat K)
    (hM : capacitance val (resonatorCap val) g = .ok M) (hloop : ∀ b ∈ branchesOf 'C' (branches h), b.1 ≠ b.2.1)
    (hn : Nonneg val h g) (hconn : ∀ n ∈ nodesOf (branches h), Conn (capacitiveWires val h g) n 0) :
    (∀ x : Fin (nodes g).length → K, x ≠ 0 → 0 < x ⬝ᵥ (M.block (nodes g).length (nodes g).length).mulVec x) ∧
    (M.block (nodes g).length (nodes g).length).det ≠ 0 := by
  have hpos : ∀ x : Fin (nodes g).length → K, x ≠ 0 → 0 < x ⬝ᵥ (M.block (nodes g).length (nodes g).length).mulVec x := by
    intro x hx0
    refine lt_of_le_of_ne (C29_semidefinite_partial h g hs val M hM hloop hn x) fun heq => hx0 ?_
    obtain ⟨hnd, hmem⟩ := C29_rows h g hs
    let v : ℕ → K := fun n => if hn : (nodes g).idxOf n < (nodes g).length then x ⟨(nodes g).idxOf n, hn⟩ else 0
    have hx : x = atNodes g v := by
      funext i
      simp only [atNodes, v, List.get_eq_getElem, hnd.idxOf_getElem, i.2, dif_pos]
    have hv : v 0 = 0 := by
      have : ¬ (nodes g).idxOf 0 < (nodes g).length := by
        rw [List.idxOf_lt_length_iff, hmem]; tauto
      simp only [v, this, dif_neg, not_false_iff]
    rw [hx, C29_quadratic_form_partial h g hs val M hM hloop v hv] at heq
    have h1 := capacitorForm_nonneg hn v
    have h2 : 0 ≤ ∑ n ∈ nodesOf (branches h), (gateCapacitance val g n + resonatorLoad val g n) * v n ^ 2 :=
      Finset.sum_nonneg fun n _ => mul_nonneg (add_nonneg (gate_nonneg hn n) (load_nonneg hn n)) (sq_nonneg _)
    have z1 : capacitorForm val (branches h) v = 0 := by linarith
    have z2 : ∑ n ∈ nodesOf (branches h), (gateCapacitance val g n + resonatorLoad val g n) * v n ^ 2 = 0 := by linarith
    have w1 : ∀ b ∈ branchesOf 'C' (branches h), val b.2.2 * (v b.1 - v b.2.1) ^ 2 = 0 := by
      intro b hb
      exact sum_eq_zero_list _ _ (fun b hb => mul_nonneg (hn.capacitors b hb) (sq_nonneg _)) z1 b hb
    have w2 : ∀ n ∈ nodesOf (branches h), (gateCapacitance val g n + resonatorLoad val g n) * v n ^ 2 = 0 :=
      (Finset.sum_eq_zero_iff_of_nonneg fun n _ =>
        mul_nonneg (add_nonneg (gate_nonneg hn n) (load_nonneg hn n)) (sq_nonneg _)).1 z2
    have w : ∀ e ∈ capacitiveWires val h g, v e.1 = v e.2.1 := by
      intro e he
      unfold capacitiveWires at he
      rcases List.mem_append.1 he with he | he
      · obtain ⟨b, hb, rfl⟩ := List.mem_map.1 he
        obtain ⟨hb, hp⟩ := List.mem_filter.1 hb
        have := w1 b hb
        rcases mul_eq_zero.1 this with h | h
        · exact absurd h (ne_of_gt (by simpa using hp))
        · exact sub_eq_zero.1 (pow_eq_zero_iff (two_ne_zero)|>.1 h)
      · obtain ⟨n, hb, rfl⟩ := List.mem_map.1 he
        obtain ⟨hb, hp⟩ := List.mem_filter.1 hb
        have := w2 n ((hmem n).1 hb).1
        rcases mul_eq_zero.1 this with h | h
        · exact absurd h (ne_of_gt (by simpa using hp))
        · change v n = v 0
          rw [hv]; exact pow_eq_zero_iff (two_ne_zero)|>.1 h
    rw [hx]
    funext i
    have hi : (nodes g).get i ∈ nodesOf (branches h) := ((hmem _).1 (List.get_mem _ _)).1
    change v ((nodes g).get i) = 0
    rw [const_of_conn w (hconn _ hi), hv]
  refine ⟨hpos, fun hdet => ?_⟩
  obtain ⟨x, hx, hx'⟩ := Matrix.exists_mulVec_eq_zero_iff.2 hdet
  have := hpos x hx
  rw [hx'] at this
  simp at this

end Order

/-! ### The computation succeeds -/

theorem allOk_init {h : List Call} {c : Call} (ha : AllOk (h ++ [c])) : AllOk h := by
  intro l c' l' he
  exact ha l c' (l' ++ [c]) (by rw [he]; simp)

theorem updateCouplings_has (d : Dict Node (Option Resonator)) (a b n : Node) :
    (updateCouplings d a b).has n = true ↔ d.has n = true ∨ n = a ∨ n = b := by
  have key : ∀ (d : Dict Node (Option Resonator)) (a n : Node), (if d.has a then d else d.set a none).has n = true ↔ d.has n = true ∨ n = a := by
    intro d a n
    split_ifs with h
    · constructor
      · exact Or.inl
      · rintro (h' | rfl)
        · exact h'
        · exact h
    · rw [Dict.has_iff, Dict.mem_keys_set, Dict.has_iff]; tauto
  unfold updateCouplings
  rw [key, key]; tauto

theorem addBranch_okPrefix {o : Orc} {g : CG} {a b : Node} {c : String} (hok : (addBranch o g a b c).2 = .ok ()) : okPrefix c = true := by
  cases hc : okPrefix c with
  | true => rfl
  | false =>
    obtain ⟨x, hx⟩ := (addBranch_bad (o := o) (g := g) (a := a) (b := b) hc).2
    rw [hx] at hok; cases hok

theorem addBranch_resonators {o : Orc} {g : CG} {a b : Node} {c : String} (hok : (addBranch o g a b c).2 = .ok ()) :
    (addBranch o g a b c).1.resonators = updateCouplings g.resonators a b := by
  have hp := addBranch_okPrefix hok
  rw [addBranch_good hp] at hok ⊢
  obtain ⟨r2, r3, h2, h3, he⟩ := insertBranch_eq o g a b c
  rw [he] at hok ⊢
  have f2 := updateComponentsMap_frame (withEdge g a b c)
  rw [← h2] at f2
  have f3 := updateGraphs_frame o r2.1
  rw [← h3] at f3
  clear h2 h3 he
  obtain ⟨s2, x2⟩ := r2
  obtain ⟨s3, x3⟩ := r3
  simp only at f2 f3 hok ⊢
  have e5 : s2.resonators = g.resonators := by rw [f2]; rfl
  have d5 : s3.resonators = s2.resonators := by rw [f3]
  cases x2 with
  | error e => cases hok
  | ok u =>
    cases x3 with
    | error e => cases hok
    | ok u => simp only; rw [d5.trans e5]

theorem coupleResonator_res (g : CG) (m : Node) (c : String) : ∃ r, (coupleResonator g m c).1.resonators = g.resonators ∨
    (coupleResonator g m c).1.resonators = g.resonators.set m r := by
  refine ⟨some (mkResonator m c), ?_⟩
  unfold coupleResonator
  by_cases h1 : m ∉ g.graph.nodes
  · rw [if_pos h1]; exact Or.inl rfl
  rw [if_neg h1]
  by_cases h2 : m = 0
  · rw [if_pos h2]; exact Or.inl rfl
  rw [if_neg h2]
  rcases g.resonators.get? m with _ | _ | r
  · exact Or.inl rfl
  · cases pre c with
    | none => exact Or.inl rfl
    | some p =>
      simp only
      by_cases h3 : p ≠ 'C'
      · rw [if_pos h3]; exact Or.inl rfl
      rw [if_neg h3]
      by_cases h4 : c ∈ g.cmap.values
      · rw [if_pos h4]; exact Or.inl rfl
      rw [if_neg h4]; exact Or.inr rfl
  · exact Or.inl rfl

theorem has_resonators {h : List Call} (ha : AllOk h) : ∀ n ∈ (run {} h).graph.nodes, (run {} h).resonators.has n = true := by
  induction h using List.reverseRecOn with
  | nil => intro n hn; cases hn
  | append_singleton h c ih =>
    have hc := ha h c [] rfl
    have ih := ih (allOk_init ha)
    rw [run_append]
    change ∀ n ∈ (step (run {} h) c).1.graph.nodes, (step (run {} h) c).1.resonators.has n = true
    intro n hn
    cases c with
    | addBranch o a b c =>
      simp only [step] at hc hn ⊢
      have hp := addBranch_okPrefix hc
      rw [addBranch_graph hp] at hn
      have hr : (addBranch o (run {} h) a b c).1.resonators = updateCouplings (run {} h).resonators a b := addBranch_resonators hc
      rw [hr, updateCouplings_has]
      simp only [MGraph.addEdge] at hn
      rw [MGraph.addNode_nodes_mem, MGraph.addNode_nodes_mem] at hn
      rcases hn with (hn | hn) | hn
      · exact Or.inl (ih n hn)
      · exact Or.inr (Or.inl hn)
      · exact Or.inr (Or.inr hn)
    | coupleBranches a b m => simp only [step] at hn ⊢; rw [coupleBranches_frame] at hn ⊢; exact ih n hn
    | coupleResonator m c =>
      have hg := (step_same (g := run {} h) (c := Call.coupleResonator m c) rfl).graph
      rw [hg] at hn
      have := ih n hn
      simp only [step] at hc ⊢
      obtain ⟨r, hr⟩ := coupleResonator_res (run {} h) m c
      rcases hr with hr | hr <;> rw [hr]
      · exact this
      · rw [Dict.has_iff, Dict.mem_keys_set, ← Dict.has_iff]; exact Or.inr this
    | removeAllResonators =>
      simp only [step, removeAllResonators] at hn ⊢
      rw [Dict.has_iff, Dict.mem_keys_iff, Dict.get?_foldl_set_key (fun _ => none), if_pos hn]
      rfl
    | addFluxBias c s m => simp only [step] at hn ⊢; rw [addFluxBias_frame] at hn ⊢; exact ih n hn
    | addChargeBias m s c => simp only [step] at hn ⊢; rw [addChargeBias_frame] at hn ⊢; exact ih n hn

/-- **C29** The matrix is computed, without error, for every circuit with a ground node built by successful calls. -/
theorem C29_defined [Field K] (h : List Call) (g : CG) (hs : Settled h g) (ha : AllOk h) (h0 : 0 ∈ nodesOf (branches h)) (val : String → K) :
    ∃ M, capacitance val (resonatorCap val) g = .ok M := by
  have hg : g = run {} h := by obtain ⟨_, _, _, _, _, _, _, _, _, _, rfl⟩ := hs; rfl
  obtain ⟨o, hf⟩ := settled_facts hs
  have hw := hf.inv.toWF
  have hn0 : 0 ∈ g.graph.nodes := by
    rw [hg, nodes_run, mem_uniq]; simpa [nodesOf] using h0
  unfold capacitance
  rw [if_neg (not_not.2 hn0), if_pos]
  · exact ⟨_, rfl⟩
  · have hk : ∀ p ∈ g.graph.es, g.cmap.has p.1 = true ∧ g.cmap.has p.1.rev = true := by
      intro p hp
      obtain ⟨h1, h2⟩ := cmap_of_es hw hf.synced hp
      unfold Dict.has; rw [h1, h2]; exact ⟨rfl, rfl⟩
    refine ⟨fun n hn => ⟨fun e he => ?_, ?_⟩, fun e he => ?_⟩
    · unfold incident at he
      obtain ⟨m, _, he⟩ := List.mem_flatMap.1 he
      obtain ⟨x, hx, rfl⟩ := List.mem_map.1 he
      obtain ⟨_, _, p, hp, _, h' | h'⟩ := (MGraph.mem_between _ _ _ _).1 hx
      · rw [← h']; exact (hk p hp).1
      · rw [← rev_rev x.1, ← h']; exact (hk p hp).2
    · have := ((mem_nodes hw n).1 hn).1
      rw [hg] at this ⊢
      exact has_resonators ha n this
    · obtain ⟨p, hp, rfl⟩ := (MGraph.mem_edges hw e).1 he
      rcases orient_cases g.graph.nodes p.1 with h' | h' <;> rw [h']
      · exact (hk p hp).1
      · exact (hk p hp).2

/-- **C29** Without a ground node, no system is made: the constructor raises before any matrix is computed. -/
theorem C29_no_ground [Field K] (h : List Call) (g : CG) (hs : Settled h g) (h0 : 0 ∉ nodesOf (branches h)) (val : String → K) :
    capacitance val (resonatorCap val) g = .error .userError := by
  have hg : g = run {} h := by obtain ⟨_, _, _, _, _, _, _, _, _, _, rfl⟩ := hs; rfl
  unfold capacitance
  rw [if_pos]
  rw [hg, nodes_run, mem_uniq]
  simpa [nodesOf] using h0

/-- A capacitor between two nodes that are not the ground. -/
example : ∃ h g, Settled h g ∧ (0 : ℕ) ∉ nodesOf (branches h) :=
  ⟨[.addBranch Orc.id 1 2 "C1"], _, ⟨[], Orc.id, 1, 2, "C1", [], rfl, by simp only [List.mem_singleton, forall_eq]; exact ⟨fun l => List.Perm.refl l, fun l => List.Perm.refl l⟩, by decide +kernel, by simp, rfl⟩, by decide +kernel⟩

/-! ### Witnesses -/

/-- A transmon with a gate, coupled to a second node with a resonator. -/
def gatedCalls : List Call :=
  [.addBranch Orc.id 0 1 "C1", .addBranch Orc.id 0 1 "I1", .addBranch Orc.id 1 2 "C2", .addBranch Orc.id 0 2 "L1",
    .addChargeBias 1 (some "1") (some "Cg"), .coupleResonator 2 "Cc"]

def gated : CG := run {} gatedCalls

theorem gated_settled : Settled gatedCalls gated :=
  ⟨gatedCalls.take 3, Orc.id, 0, 2, "L1", gatedCalls.drop 4, rfl, by
      intro x hx
      simp only [gatedCalls, List.mem_cons, List.not_mem_nil, or_false] at hx
      rcases hx with rfl | rfl | rfl | rfl | rfl | rfl <;> first | exact ⟨fun l => List.Perm.refl l, fun l => List.Perm.refl l⟩ | trivial,
    by decide +kernel, by
      intro x hx o a b c
      simp only [gatedCalls, List.drop, List.mem_cons, List.not_mem_nil, or_false] at hx
      rcases hx with rfl | rfl <;> simp, rfl⟩

/-- Values for the example. -/
def gatedVal (c : String) : ℚ := if c = "C1" then 5 else if c = "C2" then 3 else if c = "Cg" then 1 else if c = "Cc" then 2 else if c = "C2r" then 2 else 0

-- the hypotheses of C29 hold: the matrix exists (here [[9, -3], [-3, 4]]) …
example : ∃ M, capacitance gatedVal (resonatorCap gatedVal) gated = .ok M ∧ M 0 0 = 9 ∧ M 0 1 = -3 ∧ M 1 0 = -3 ∧ M 1 1 = 4 := by
  refine ⟨_, rfl, ?_⟩
  decide +kernel

-- … no capacitor joins a node to itself …
example : ∀ b ∈ branchesOf 'C' (branches gatedCalls), b.1 ≠ b.2.1 := by decide +kernel

-- … the values are positive …
example : Nonneg gatedVal gatedCalls gated :=
  ⟨by decide +kernel, by
    intro n b c _ _
    unfold gatedVal
    split_ifs <;> norm_num, by
    intro n r _
    unfold gatedVal
    constructor <;> split_ifs <;> norm_num⟩

-- … and every node is connected to the ground.
example : ∀ n ∈ nodesOf (branches gatedCalls), Conn (capacitiveWires gatedVal gatedCalls gated) n 0 := by
  have h : ∀ n ∈ nodesOf (branches gatedCalls), n = 0 ∨ (n, 0, 0) ∈ capacitiveWires gatedVal gatedCalls gated := by decide +kernel
  intro n hn
  rcases h n hn with rfl | h
  · exact Relation.EqvGen.refl 0
  · exact Relation.EqvGen.rel _ _ ⟨_, h, rfl, rfl⟩

/-- A capacitor from node 1 to the ground and one joining node 1 to itself. -/
def selfCalls : List Call := [.addBranch Orc.id 0 1 "C1", .addBranch Orc.id 1 1 "C2"]

/-- **C29 is false** in general: a capacitor that joins a node to itself (which stores no energy, and which `addBranch`
accepts) lowers the diagonal entry; with positive values the matrix can have a negative diagonal entry. -/
theorem C29_self_loop_false : ∃ (h : List Call) (g : CG) (val : String → ℚ) (M : Mat ℚ), Settled h g ∧ AllOk h ∧
    (∀ c, 0 < val c) ∧ capacitance val (resonatorCap val) g = .ok M ∧ (nodes g).length = 1 ∧ M 0 0 < 0 ∧
    ∃ v : ℕ → ℚ, v 0 = 0 ∧ atNodes g v ⬝ᵥ (M.block (nodes g).length (nodes g).length).mulVec (atNodes g v) ≠
      capacitorForm val (branches h) v + ∑ n ∈ nodesOf (branches h), (gateCapacitance val g n + resonatorLoad val g n) * v n ^ 2 := by
  refine ⟨selfCalls, run {} selfCalls, fun c => if c = "C1" then 1 else 2, _, ?_, ?_, ?_, rfl, by decide +kernel, by decide +kernel,
    fun n => n, rfl, by decide +kernel⟩
  · refine ⟨selfCalls.take 1, Orc.id, 1, 1, "C2", [], rfl, ?_, by decide +kernel, by simp, rfl⟩
    intro x hx
    simp only [selfCalls, List.mem_cons, List.not_mem_nil, or_false] at hx
    rcases hx with rfl | rfl <;> exact ⟨fun l => List.Perm.refl l, fun l => List.Perm.refl l⟩
  · intro l c l' he
    have : l.length < 2 := by
      have := congrArg List.length he
      simp [selfCalls] at this; omega
    match l, this, he with
    | [], _, he =>
      simp only [selfCalls, List.nil_append, List.cons.injEq] at he
      rw [← he.1]; decide +kernel
    | [x], _, he =>
      simp only [selfCalls, List.cons_append, List.nil_append, List.cons.injEq] at he
      rw [← he.1, ← he.2.1]; decide +kernel
  · intro c; dsimp only; split_ifs <;> norm_num

end Verif.Props
