import Verif.Model.Lookup
import Verif.Spec.Lookup
import Verif.Props.SymbolicInd
import Verif.Props.Expansion
import Verif.Lemmas.CircuitBias
import Verif.Props.Assembly

/-!
# C105: node numbers, branch numbers and the sparsity of operators
-/

namespace Verif.Props

open Verif Verif.Circuit Verif.Sym Verif.Num Verif.Spec Matrix

theorem listIndex_ok {α : Type} [DecidableEq α] {l : List α} (hl : l.Nodup) (x : α) (i : ℕ) : listIndex l x = .ok i ↔ l[i]? = some x := by
  unfold listIndex
  by_cases hx : x ∈ l
  · rw [if_pos hx, Except.ok.injEq]
    constructor
    · rintro rfl
      exact List.getElem?_idxOf hx
    · intro h
      obtain ⟨hi, rfl⟩ := List.getElem?_eq_some_iff.1 h
      exact hl.idxOf_getElem i hi
  · rw [if_neg hx]
    constructor
    · intro h; cases h
    · intro h
      exact absurd (List.mem_of_getElem? h) hx

/-- **C105** Node numbers: the node list contains every node of the description but the ground, each once; `getNodeIndex` returns the position in this
list, and raises `ValueError` exactly for the ground and for nodes that do not occur. -/
theorem C105_nodes (h : List Call) (g : CG) (hs : Settled h g) :
    (getNodeList g).Nodup ∧ (∀ n, n ∈ getNodeList g ↔ n ∈ nodesOf (branches h) ∧ n ≠ 0) ∧
    (∀ n i, getNodeIndex g n = .ok i ↔ (getNodeList g)[i]? = some n) ∧
    ∀ n, getNodeIndex g n = .error .valueError ↔ n ∉ nodesOf (branches h) ∨ n = 0 := by
  obtain ⟨h1, h2⟩ := C29_rows h g hs
  refine ⟨h1, h2, fun n i => listIndex_ok h1 n i, fun n => ?_⟩
  unfold getNodeIndex listIndex
  by_cases hn : n ∈ nodes g
  · rw [if_pos hn]
    have := (h2 n).1 hn
    constructor
    · intro h; cases h
    · rintro (h | h)
      · exact absurd this.1 h
      · exact absurd h this.2
  · rw [if_neg hn]
    refine ⟨fun _ => ?_, fun _ => rfl⟩
    by_contra hc
    push Not at hc
    exact hn ((h2 n).2 hc)

/-- **C105 (partial)** Branch numbers: the branch list contains each branch once.  The edge that `getComponentEdge` returns for an inductor, junction or
phase slip has a number, and the branch with this number carries the component; the edge of a capacitor has none.  Missing: conductive self-loops at
nodes without other conductive branch (`C21_isolated_loop_false`). -/
theorem C105_branches_partial (h : List Call) (g : CG) (hs : Settled h g) (hn : NoIsolatedLoop (branches h)) :
    (getEdgeList g).Nodup ∧ (∀ e i, getEdgeIndex g e = .ok i ↔ (getEdgeList g)[i]? = some e) ∧
    ∀ b ∈ branches h, ∃ e, getComponentEdge g b.2.2 = .ok e ∧
      (startsWith b.2.2 'C' = false → ∃ i, getEdgeIndex g e = .ok i ∧ ∀ e', (getEdgeList g)[i]? = some e' → g.cmap.get? e' = some b.2.2 ∧ IsBranch e' b) ∧
      (startsWith b.2.2 'C' = true → getEdgeIndex g e = .error .valueError) := by
  have hnd := wc_nodup hs
  refine ⟨hnd, fun e i => listIndex_ok hnd e i, fun b hb => ?_⟩
  obtain ⟨e, he⟩ := C21_getComponentEdge_total_partial hs hn hb
  obtain ⟨hc, hw⟩ := getComponentEdge_ok he
  obtain ⟨-, b', hb', hbb, hbr⟩ := (C21_getComponentEdge hs b.2.2).1 e he
  obtain rfl : b' = b := List.inj_on_of_nodup_map (C21_names hs).1 hb' hb hbb
  refine ⟨e, he, fun hC => ?_, fun hC => ?_⟩
  · have hm : e ∈ g.wc := hw fun hp => by
      rw [(startsWith_iff _ _).2 hp] at hC
      cases hC
    obtain ⟨i, hi⟩ := List.mem_iff_getElem?.1 hm
    refine ⟨i, (listIndex_ok hnd e i).2 hi, fun e' he' => ?_⟩
    obtain rfl : e = e' := Option.some.inj (hi.symm.trans he')
    exact ⟨hc, hbr⟩
  · unfold getEdgeIndex listIndex
    rw [if_neg]
    intro hm
    obtain ⟨b'', hb'', -, hc''⟩ := wc_branch hs hm
    have hne := (List.mem_filter.1 hb'').2
    rw [← Option.some.inj (hc.symm.trans hc''), hC] at hne
    cases hne

/-- The value of the capacitance form on unit voltages at two nodes. -/
theorem form_polar (val : String → ℝ) (n m : ℕ) (hnm : n ≠ m) : ∀ bs : List (ℕ × ℕ × String), (∀ b ∈ branchesOf 'C' bs, b.1 ≠ b.2.1) →
    capacitorForm val bs (fun k => (if k = n then 1 else 0) + (if k = m then 1 else 0)) -
      capacitorForm val bs (fun k => if k = n then 1 else 0) - capacitorForm val bs (fun k => if k = m then 1 else 0) =
      -2 * capacitanceBetween val bs n m := by
  intro bs hl
  unfold capacitorForm capacitanceBetween
  generalize branchesOf 'C' bs = L at hl ⊢
  induction L with
  | nil => simp
  | cons b l ih =>
    have ih' := ih fun b hb => hl b (List.mem_cons_of_mem _ hb)
    have hb := hl b (by simp)
    simp only [List.map_cons, List.sum_cons]
    have hterm : val b.2.2 * (((if b.1 = n then 1 else 0) + (if b.1 = m then 1 else 0)) - ((if b.2.1 = n then 1 else 0) + (if b.2.1 = m then 1 else 0))) ^ 2 -
        val b.2.2 * ((if b.1 = n then 1 else 0) - (if b.2.1 = n then 1 else 0)) ^ 2 - val b.2.2 * ((if b.1 = m then 1 else 0) - (if b.2.1 = m then 1 else 0)) ^ 2 =
        -2 * (if (b.1 = n ∧ b.2.1 = m) ∨ (b.1 = m ∧ b.2.1 = n) then val b.2.2 else 0) := by
      obtain ⟨a, c, x⟩ := b
      dsimp only at hb ⊢
      split_ifs <;> first | (exfalso; omega) | ring
    by_cases hf : (b.1 = n ∧ b.2.1 = m) ∨ (b.1 = m ∧ b.2.1 = n)
    · rw [List.filter_cons_of_pos (by simpa using hf), List.map_cons, List.sum_cons]
      rw [if_pos hf] at hterm
      linarith
    · rw [List.filter_cons_of_neg (by simpa using hf)]
      rw [if_neg hf] at hterm
      linarith

theorem form_unit (val : String → ℝ) (n : ℕ) : ∀ bs : List (ℕ × ℕ × String), (∀ b ∈ branchesOf 'C' bs, b.1 ≠ b.2.1) →
    capacitorForm val bs (fun k => if k = n then 1 else 0) = capacitanceAt val bs n := by
  intro bs hl
  unfold capacitorForm capacitanceAt
  generalize branchesOf 'C' bs = L at hl ⊢
  induction L with
  | nil => simp
  | cons b l ih =>
    have ih' := ih fun b hb => hl b (List.mem_cons_of_mem _ hb)
    have hb := hl b (by simp)
    simp only [List.map_cons, List.sum_cons, List.filter_cons, ih']
    by_cases h1 : b.1 = n
    · have h2 : b.2.1 ≠ n := fun h => hb (h1.trans h.symm)
      simp [h1, h2]
    · by_cases h2 : b.2.1 = n
      · simp [h1, h2]
      · simp [h1, h2]

/-- **C105 (partial)** The capacitance matrix by node numbers: the entry at the numbers of two different nodes is minus the capacitance between them, the
entry at the number of one node is the capacitance of all capacitors at it, with its gate capacitance and its resonator load.  Missing: capacitors
that join a node to itself (`C29_self_loop_false`). -/
theorem C105_capacitance_partial (h : List Call) (g : CG) (hs : Settled h g) (val : String → ℝ) (M : Mat ℝ)
    (hM : capacitance val (resonatorCap val) g = .ok M) (hloop : ∀ b ∈ branchesOf 'C' (branches h), b.1 ≠ b.2.1) (n m i j : ℕ)
    (hi : getNodeIndex g n = .ok i) (hj : getNodeIndex g m = .ok j) :
    (n ≠ m → M i j = -capacitanceBetween val (branches h) n m) ∧
    M i i = capacitanceAt val (branches h) n + gateCapacitance val g n + resonatorLoad val g n := by
  obtain ⟨hnd, hmem, hidx, -⟩ := C105_nodes h g hs
  have entry : ∀ k r, getNodeIndex g k = .ok r → ∃ hr : r < (nodes g).length, (nodes g).get ⟨r, hr⟩ = k ∧ k ∈ nodesOf (branches h) ∧ k ≠ 0 := by
    intro k r hk
    obtain ⟨hr, he⟩ := List.getElem?_eq_some_iff.1 ((hidx k r).1 hk)
    exact ⟨hr, he, (hmem k).1 (List.mem_of_getElem? ((hidx k r).1 hk))⟩
  have unit : ∀ k r, getNodeIndex g k = .ok r → ∀ hr : r < (nodes g).length,
      atNodes g (fun l => if l = k then (1 : ℝ) else 0) = Pi.single ⟨r, hr⟩ 1 := by
    intro k r hk hr
    obtain ⟨_, he, -⟩ := entry k r hk
    funext s
    unfold atNodes
    by_cases hsr : s = ⟨r, hr⟩
    · subst hsr
      rw [he, Pi.single_eq_same]
      exact if_pos rfl
    · rw [Pi.single_eq_of_ne hsr]
      refine if_neg ?_
      intro hh
      exact hsr (hnd.injective_get (hh.trans he.symm))
  have diag : ∀ k r, getNodeIndex g k = .ok r → M r r = capacitanceAt val (branches h) k + gateCapacitance val g k + resonatorLoad val g k := by
    intro k r hk
    obtain ⟨hr, he, hkm, hk0⟩ := entry k r hk
    have hq := C29_quadratic_form_partial h g hs val M hM hloop (fun l => if l = k then 1 else 0) (if_neg hk0.symm)
    rw [unit k r hk hr, single_dotProduct, one_mul, mulVec_single_one, form_unit val k _ hloop] at hq
    have hsum : ∑ l ∈ nodesOf (branches h), (gateCapacitance val g l + resonatorLoad val g l) * (if l = k then (1 : ℝ) else 0) ^ 2 =
        gateCapacitance val g k + resonatorLoad val g k := by
      rw [Finset.sum_eq_single k]
      · simp
      · intro l _ hl; simp [hl]
      · intro hh; exact absurd hkm hh
    rw [hsum] at hq
    rw [add_assoc, ← hq]
    rfl
  refine ⟨fun hnm => ?_, diag n i hi⟩
  obtain ⟨hr, he, hkm, hk0⟩ := entry n i hi
  obtain ⟨hr', he', hkm', hk0'⟩ := entry m j hj
  have hq := C29_quadratic_form_partial h g hs val M hM hloop (fun l => (if l = n then 1 else 0) + (if l = m then 1 else 0))
    (by rw [if_neg hk0.symm, if_neg hk0'.symm, add_zero])
  have hat : atNodes g (fun l => (if l = n then (1 : ℝ) else 0) + (if l = m then 1 else 0)) =
      Pi.single ⟨i, hr⟩ 1 + Pi.single ⟨j, hr'⟩ 1 := by
    rw [← unit n i hi hr, ← unit m j hj hr']
    rfl
  rw [hat, mulVec_add, add_dotProduct, dotProduct_add, dotProduct_add, mulVec_single_one, mulVec_single_one, single_dotProduct, single_dotProduct,
    single_dotProduct, single_dotProduct, one_mul, one_mul, one_mul, one_mul] at hq
  have hq' : M i i + M i j + (M j i + M j j) = capacitorForm val (branches h) (fun l => (if l = n then 1 else 0) + (if l = m then 1 else 0)) +
      ∑ l ∈ nodesOf (branches h), (gateCapacitance val g l + resonatorLoad val g l) * ((if l = n then (1 : ℝ) else 0) + (if l = m then 1 else 0)) ^ 2 := hq
  have hsym : M j i = M i j := by
    have := congrFun (congrFun (C29_symmetric val g M hM) ⟨i, hr⟩) ⟨j, hr'⟩
    exact this
  have hsum : ∑ l ∈ nodesOf (branches h), (gateCapacitance val g l + resonatorLoad val g l) * ((if l = n then (1 : ℝ) else 0) + (if l = m then 1 else 0)) ^ 2 =
      (gateCapacitance val g n + resonatorLoad val g n) + (gateCapacitance val g m + resonatorLoad val g m) := by
    have : ∀ l ∈ nodesOf (branches h), (gateCapacitance val g l + resonatorLoad val g l) * ((if l = n then (1 : ℝ) else 0) + (if l = m then 1 else 0)) ^ 2 =
        (if l = n then gateCapacitance val g l + resonatorLoad val g l else 0) + (if l = m then gateCapacitance val g l + resonatorLoad val g l else 0) := by
      intro l _
      by_cases h1 : l = n
      · have h2 : l ≠ m := fun h => hnm (h1.symm.trans h)
        simp [h1, hnm]
      · by_cases h2 : l = m
        · simp [h2, Ne.symm hnm]
        · simp [h1, h2]
    rw [Finset.sum_congr rfl this, Finset.sum_add_distrib, Finset.sum_ite_eq', Finset.sum_ite_eq', if_pos hkm, if_pos hkm']
  have hp := form_polar val n m hnm _ hloop
  rw [form_unit val n _ hloop, form_unit val m _ hloop] at hp
  rw [hsum, hsym, diag n i hi, diag m j hj] at hq'
  linarith

/-- **C105 (partial)** The sparsity of an operator of a system whose nodes are in the charge or oscillator basis is the fraction of its elements that are
zero, a number from 0 to 1.  Missing: the flux bases, see `C105_sparsity_false`. -/
theorem C105_sparsity_partial {n : ℕ} (cfg : Fin n → NodeCfg) (hst : Standard cfg) (hd : ∀ i, 0 < (cfg i).dim) (data : List NodeCfg)
    (hp : data.Perm (List.ofFn cfg)) (O : BigOp cfg) :
    sparsity data O * (Fintype.card ((i : Fin n) → Fin (cfg i).dim) : ℝ) ^ 2 =
      (Nat.card {p : ((i : Fin n) → Fin (cfg i).dim) × ((i : Fin n) → Fin (cfg i).dim) // O p.1 p.2 = 0} : ℝ) ∧
    0 ≤ sparsity data O ∧ sparsity data O ≤ 1 := by
  classical
  have hcard : 0 < Fintype.card ((i : Fin n) → Fin (cfg i).dim) := by
    rw [Fintype.card_pi]
    exact Finset.prod_pos fun i _ => by rw [Fintype.card_fin]; exact hd i
  set N := Fintype.card ((i : Fin n) → Fin (cfg i).dim) with hN
  have hNr : (0 : ℝ) < (N : ℝ) ^ 2 := by positivity
  have hsplit := Finset.card_filter_add_card_filter_not (s := (Finset.univ : Finset (((i : Fin n) → Fin (cfg i).dim) × ((i : Fin n) → Fin (cfg i).dim))))
    (fun p => O p.1 p.2 ≠ 0)
  rw [Finset.card_univ, Fintype.card_prod, ← hN] at hsplit
  have hz : Nat.card {p : ((i : Fin n) → Fin (cfg i).dim) × ((i : Fin n) → Fin (cfg i).dim) // O p.1 p.2 = 0} =
      (Finset.univ.filter fun p : ((i : Fin n) → Fin (cfg i).dim) × ((i : Fin n) → Fin (cfg i).dim) => ¬ O p.1 p.2 ≠ 0).card := by
    rw [Nat.card_eq_fintype_card, Fintype.card_subtype]
    congr 1
    ext p
    simp
  have hs : sparsity data O = 1 - ((Finset.univ.filter fun p : ((i : Fin n) → Fin (cfg i).dim) × ((i : Fin n) → Fin (cfg i).dim) =>
      O p.1 p.2 ≠ 0).card : ℝ) / (N : ℝ) ^ 2 := by
    unfold sparsity
    rw [C39_size_partial cfg hst data hp]
  set a := (Finset.univ.filter fun p : ((i : Fin n) → Fin (cfg i).dim) × ((i : Fin n) → Fin (cfg i).dim) => O p.1 p.2 ≠ 0).card with ha
  set z := (Finset.univ.filter fun p : ((i : Fin n) → Fin (cfg i).dim) × ((i : Fin n) → Fin (cfg i).dim) => ¬ O p.1 p.2 ≠ 0).card with hzd
  have hsum : (a : ℝ) + z = (N : ℝ) ^ 2 := by
    rw [pow_two]
    exact_mod_cast hsplit
  have ha0 : (0 : ℝ) ≤ a := Nat.cast_nonneg _
  have hz0 : (0 : ℝ) ≤ z := Nat.cast_nonneg _
  rw [hs, hz]
  refine ⟨?_, ?_, ?_⟩
  · rw [sub_mul, div_mul_cancel₀ _ hNr.ne', one_mul]
    linarith
  · rw [sub_nonneg, div_le_one hNr]
    linarith
  · have : 0 ≤ (a : ℝ) / (N : ℝ) ^ 2 := by positivity
    linarith

/-- **C105 is false** for the flux bases: the size of the space is taken to be 1 (`C39_size_false`), and an operator of a node with three flux states all of
whose elements are 1 has sparsity -8. -/
theorem C105_sparsity_false : sparsity [⟨1, .flux⟩] (fun _ _ => 1 : Op (NodeCfg.mk 1 .flux).dim) = -8 := by
  unfold sparsity
  have h1 : getHilbertSpaceSize [⟨1, .flux⟩] = 1 := rfl
  have h2 : (NodeCfg.mk 1 .flux).dim = 3 := rfl
  rw [h1]
  simp only [ne_eq, one_ne_zero, not_false_eq_true, Finset.filter_true, Finset.card_univ, Fintype.card_prod, Fintype.card_fin, h2]
  norm_num

/-- Three nodes: two capacitors in parallel between nodes 1 and 2, one to the ground, an inductor to the ground. -/
def pairCalls : List Call :=
  [.addBranch Orc.id 0 1 "C1", .addBranch Orc.id 1 2 "C2", .addBranch Orc.id 2 1 "C3", .addBranch Orc.id 0 2 "L1"]

theorem pairCalls_settled : Settled pairCalls (run {} pairCalls) :=
  ⟨[.addBranch Orc.id 0 1 "C1", .addBranch Orc.id 1 2 "C2", .addBranch Orc.id 2 1 "C3"], Orc.id, 0, 2, "L1", [],
    rfl, by simp [pairCalls, Call.OK, orcId_ok], by decide +kernel, by simp, rfl⟩

/-- The hypotheses of `C105_branches_partial` and `C105_capacitance_partial` are met, and what they give: between the nodes 1 and 2 the entry is minus
the sum of both capacitances. -/
example (val : String → ℝ) : NoIsolatedLoop (branches pairCalls) ∧ ∃ M i j, capacitance val (resonatorCap val) (run {} pairCalls) = .ok M ∧
    getNodeIndex (run {} pairCalls) 1 = .ok i ∧ getNodeIndex (run {} pairCalls) 2 = .ok j ∧ M i j = -(val "C2" + val "C3") := by
  have hbr : branches pairCalls = [(0, 1, "C1"), (1, 2, "C2"), (2, 1, "C3"), (0, 2, "L1")] := by decide +kernel
  have hok : AllOk pairCalls := by
    apply allOk_of_prefixes
    decide +kernel
  refine ⟨by unfold NoIsolatedLoop; rw [hbr]; decide +kernel, ?_⟩
  obtain ⟨M, hM⟩ := C29_defined pairCalls _ pairCalls_settled hok (by rw [hbr]; decide +kernel) val
  have hn : nodes (run {} pairCalls) = [1, 2] := by decide +kernel
  have h1 : getNodeIndex (run {} pairCalls) 1 = .ok 0 := by unfold getNodeIndex; rw [hn]; rfl
  have h2 : getNodeIndex (run {} pairCalls) 2 = .ok 1 := by unfold getNodeIndex; rw [hn]; rfl
  refine ⟨M, 0, 1, hM, h1, h2, ?_⟩
  rw [(C105_capacitance_partial pairCalls _ pairCalls_settled val M hM (by rw [hbr]; decide +kernel) 1 2 0 1 h1 h2).1 (by decide)]
  unfold capacitanceBetween
  have : (branchesOf 'C' (branches pairCalls)).filter (fun b => (b.1 = 1 ∧ b.2.1 = 2) ∨ (b.1 = 2 ∧ b.2.1 = 1)) = [(1, 2, "C2"), (2, 1, "C3")] := by
    rw [hbr]; decide +kernel
  rw [this]
  simp

/-- The hypotheses of `C105_sparsity_partial` are met. -/
example : Standard ![⟨5, .charge⟩, ⟨7, .oscillator⟩] ∧ (∀ i, 0 < ((![⟨5, .charge⟩, ⟨7, .oscillator⟩] : Fin 2 → NodeCfg) i).dim) ∧
    ([⟨7, .oscillator⟩, ⟨5, .charge⟩] : List NodeCfg).Perm (List.ofFn ![⟨5, .charge⟩, ⟨7, .oscillator⟩]) := by
  refine ⟨?_, ?_, ?_⟩
  · intro i; fin_cases i <;> simp
  · intro i; fin_cases i <;> decide
  · rw [List.ofFn_succ, List.ofFn_succ]
    exact List.Perm.swap _ _ _

end Verif.Props
