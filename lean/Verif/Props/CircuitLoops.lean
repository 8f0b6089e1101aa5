import Verif.Lemmas.CircuitLoops
import Verif.Props.Circuit

/-!
# C23: the superconducting loops, and when `addBranch` succeeds (C20)
-/

set_option linter.unusedVariables false

namespace Verif.Props

open Verif Verif.Spec Verif.Circuit

theorem zip_range_get? {α : Type} (l : List α) (i : ℕ) : Dict.get? ((List.range l.length).zip l) i = l[i]? := by
  have key : ∀ (l : List α) (s i : ℕ), Dict.get? ((List.range' s l.length).zip l) (s + i) = l[i]? := by
    intro l
    induction l with
    | nil => intro s i; rfl
    | cons a l ih =>
      intro s i
      rw [List.length_cons, List.range'_succ, List.zip_cons_cons, Dict.get?]
      cases i with
      | zero => simp
      | succ i =>
        rw [if_neg (by omega), show s + (i + 1) = s + 1 + i by omega, ih]
        simp
  have := key l 0 i
  rwa [Nat.zero_add, ← List.range_eq_range'] at this

theorem zip_range_keys {α : Type} (l : List α) : Dict.keys ((List.range l.length).zip l) = List.range l.length := by
  unfold Dict.keys
  rw [List.map_fst_zip]
  simp

/-- **C23 (partial)** After any history whose last `addBranch` succeeded, the loops are numbered like the closure
branches; loop `i` contains the `i`-th closure branch, no other closure branch, and otherwise only spanning-tree branches.
Missing: that the branches form a cycle, which needs an assumption (see the next two theorems). -/
theorem C23_loop_members_partial {h : List Call} {g : CG} (hs : Settled h g) :
    Dict.keys g.loops = List.range g.closures.length ∧
    ∀ i (hi : i < g.closures.length), ∃ loop, g.loops.get? i = some loop ∧ g.closures[i] ∈ loop ∧
      (∀ e ∈ loop, e = g.closures[i] ∨ e ∈ g.tree) ∧
      ∀ j (hj : j < g.closures.length), g.closures[j] ∈ loop → j = i := by
  obtain ⟨o, f⟩ := settled_facts hs
  have hw := (conductive_oriented f.inv.toWF).toWF
  have hv := grounds_values f.ok hw f.synced.grounds_ok
  rw [← f.synced.grounds, ← f.synced.tree, ← f.synced.closures] at hv
  have hshape := allLoops_shape f.ok (T := g.tree) g.grounds none
    (by
      intro q hq e he
      rw [← hv.1]
      exact List.mem_flatMap.2 ⟨q.2, List.mem_map.2 ⟨q, hq, rfl⟩, he⟩)
    (by rintro _ ⟨⟩) f.synced.loops_ok
  rw [hv.2] at hshape
  have hlen := hshape.length_eq
  have hcl := C22_closures hs
  refine ⟨?_, fun i hi => ?_⟩
  · rw [f.synced.loops, zip_range_keys, hlen]
  · have hi' : i < (allLoops o g.grounds none).1.length := by rw [hlen]; exact hi
    refine ⟨(allLoops o g.grounds none).1[i], ?_, ?_⟩
    · rw [f.synced.loops, zip_range_get?, List.getElem?_eq_getElem hi']
    · obtain ⟨x, hx, hxT⟩ := (List.forall₂_iff_get.1 hshape).2 i hi' hi
      simp only [List.get_eq_getElem] at hx hxT
      rw [hx]
      refine ⟨by simp, ?_, ?_⟩
      · intro e he
        rcases List.mem_append.1 he with he | he
        · exact Or.inr (hxT e he)
        · exact Or.inl (List.mem_singleton.1 he)
      · intro j hj hmem
        rcases List.mem_append.1 hmem with he | he
        · exact absurd (hxT _ he) (hcl.2.1 _ (List.getElem_mem hj)).1
        · exact (List.Nodup.getElem_inj_iff hcl.1).1 (List.mem_singleton.1 he)

theorem DiWalk_mono {S T : List Edge} (h : ∀ e ∈ S, e ∈ T) {u v : ℕ} {p : List Edge} (w : DiWalk S u p v) : DiWalk T u p v := by
  induction w with
  | nil u => exact DiWalk.nil u
  | cons he _ ih => exact DiWalk.cons (h _ he) ih

theorem SimpleCycle_mono {S T : List Edge} (h : ∀ e ∈ S, e ∈ T) {cl : Edge} {l : List Edge} (hc : SimpleCycle S cl l) :
    SimpleCycle T cl l := by
  obtain ⟨m, p, q, h1, h2, h3⟩ := hc
  exact ⟨m, p, q, DiWalk_mono h h1, DiWalk_mono h h2, h3⟩

theorem grounds_nodes {h : List Call} : (run {} h).graph.nodes =
    uniq (((run {} h).graph.es.map strip).flatMap fun b => [b.1, b.2.1]) := by
  rw [nodes_run, run_graph]; rfl

/-- **C23 (partial)** If the circuit was grown along conductive branches (each node that is conductively connected to an
earlier one has a conductive branch to an earlier one) and Python's sets of nodes come out in order, then every loop is a
simple cycle: its closure branch and two disjoint tree paths from a common node to the ends of the closure branch.
Missing: circuits that were not grown so, for which it is false (`C23_wrong_loop_false`). -/
theorem C23_loops_are_cycles_partial {h : List Call} {g : CG} (hs : Settled h g) (hord : ∀ x ∈ h, KeepsOrder x)
    (hg : Grown (branches h)) (i : ℕ) (hi : i < g.closures.length) :
    ∃ loop, g.loops.get? i = some loop ∧ SimpleCycle g.tree g.closures[i] loop := by
  obtain ⟨o, f⟩ := settled_facts hs
  have hgh : g = run {} h := by obtain ⟨_, _, _, _, _, _, _, _, _, _, rfl⟩ := hs; rfl
  have hord' : ∀ l, o.nodeOrd l = l := by
    obtain ⟨a, b, c, hm⟩ := f.last
    exact hord _ hm o a b c rfl
  have hw := (conductive_oriented f.inv.toWF).toWF
  have hv := grounds_values f.ok hw f.synced.grounds_ok
  rw [← f.synced.grounds, ← f.synced.tree, ← f.synced.closures] at hv
  have hgood := loops_good f.inv.toWF (by rw [hgh]; exact grounds_nodes) (by rw [f.content]; exact hg) f.ok hord'
  simp only [← f.synced.grounds] at hgood
  have hall := allLoops_good (o := o) g.grounds none fun q hq e he => ⟨(hgood q hq e he).1, (hgood q hq e he).2.1⟩
  have hF : List.Forall₂ (fun l e => SimpleCycle g.tree e l) (allLoops o g.grounds none).1 g.closures := by
    rw [hall.1, ← hv.2]
    have hsub : ∀ q ∈ g.grounds, ∀ e ∈ q.2.closures, SimpleCycle g.tree e (loopFor o q.1 q.2.tree e) := by
      intro q hq e he
      refine SimpleCycle_mono ?_ (hgood q hq e he).2.2
      intro e' he'
      rw [← hv.1]
      exact List.mem_flatMap.2 ⟨q.2, List.mem_map.2 ⟨q, hq, rfl⟩, he'⟩
    generalize g.grounds = d at hsub ⊢
    induction d with
    | nil => exact List.Forall₂.nil
    | cons q d ih =>
      simp only [Dict.values, List.map_cons, List.flatMap_cons]
      refine List.rel_append ?_ (ih fun q' hq' => hsub q' (by simp [hq']))
      rw [List.forall₂_map_left_iff]
      exact List.forall₂_same.2 (hsub q (by simp))
  have hlen := hF.length_eq
  have hi' : i < (allLoops o g.grounds none).1.length := by rw [hlen]; exact hi
  refine ⟨(allLoops o g.grounds none).1[i], ?_, ?_⟩
  · rw [f.synced.loops, zip_range_get?, List.getElem?_eq_getElem hi']
  · exact (List.forall₂_iff_get.1 hF).2 i hi' hi

/-- The sample circuit is grown along conductive branches. -/
theorem sample_grown : Grown (branches sampleCalls) := by
  intro n hn ⟨m, _, hm, _⟩
  have h1 : ∀ n ∈ nodesOf (branches sampleCalls), n = 0 ∨ ∃ b ∈ conductors (branches sampleCalls),
      (b.1 = n ∧ firstSeen (branches sampleCalls) b.2.1 < firstSeen (branches sampleCalls) n) ∨
      (b.2.1 = n ∧ firstSeen (branches sampleCalls) b.1 < firstSeen (branches sampleCalls) n) := by decide +kernel
  rcases h1 n hn with rfl | h2
  · have : firstSeen (branches sampleCalls) 0 = 0 := by decide +kernel
    omega
  · exact h2

example : ∀ x ∈ sampleCalls, KeepsOrder x := by
  intro x hx o a b c he l
  unfold sampleCalls at hx
  rw [List.mem_append] at hx
  rcases hx with hx | hx
  · obtain ⟨b', _, rfl⟩ := List.mem_map.1 hx
    injection he with h1; rw [← h1]; rfl
  · rw [List.mem_singleton] at hx; subst hx
    injection he with h1; rw [← h1]; rfl

example : (run {} sampleCalls).closures.length = 2 := by decide +kernel

/-- Two capacitively separated nodes come before the node that joins them conductively. -/
def badOrder : List (ℕ × ℕ × String) := [(0, 1, "C1"), (0, 2, "L1"), (1, 2, "L2")]

def badOrderCalls : List Call :=
  (badOrder.map fun b => Call.addBranch Orc.id b.1 b.2.1 b.2.2) ++ [Call.addBranch Orc.id 1 2 "I1"]

/-- **C23 is false** otherwise: in this circuit (`I1` in parallel with `L2`, and `L1` leading to ground) the only loop is
listed as `I1` and `L1`, which is not a cycle: node 0 is the end of just one of its branches.  As a consequence `L2`,
which is in the loop, is refused a flux bias, while `L1`, which is in no loop at all, is given one. -/
theorem C23_wrong_loop_false :
    Settled badOrderCalls (run {} badOrderCalls) ∧
    (run {} badOrderCalls).loops = [(0, [(0, 2, 0), (2, 1, 1)])] ∧
    (run {} badOrderCalls).cmap.get? (0, 2, 0) = some "L1" ∧ (run {} badOrderCalls).cmap.get? (2, 1, 1) = some "I1" ∧
    (addFluxBias (run {} badOrderCalls) "L2" (some "z") none).2 = .error .typeError ∧
    (addFluxBias (run {} badOrderCalls) "L1" (some "z") none).2 = .ok () := by
  refine ⟨settled_of_list orcId_ok badOrder (1, 2, "I1") (by decide +kernel), ?_, ?_, ?_, ?_, ?_⟩ <;> decide +kernel

/-- **C23** `getEdgesSharedWithLoop` accepts exactly the numbers of loops, and returns the branches of the loop together with all
branches of every loop that has a branch in common with it. -/
theorem C23_shared_loops {h : List Call} {g : CG} (hs : Settled h g) (key : ℕ) :
    (key ≥ g.closures.length → getEdgesSharedWithLoop g key = .error .valueError) ∧
    (key < g.closures.length → ∃ es loop, getEdgesSharedWithLoop g key = .ok es ∧ g.loops.get? key = some loop ∧
      ∀ e, e ∈ es ↔ e ∈ loop ∨ ∃ i loop', g.loops.get? i = some loop' ∧ (∃ x ∈ loop, x ∈ loop') ∧ e ∈ loop') := by
  obtain ⟨hk, hl⟩ := C23_loop_members_partial hs
  have hnd : (Dict.keys g.loops).Nodup := by rw [hk]; exact List.nodup_range
  constructor
  · intro h1
    unfold getEdgesSharedWithLoop
    rw [(Dict.get?_eq_none_iff _ _).2 (by rw [hk, List.mem_range]; omega)]
  · intro h1
    obtain ⟨loop, h2, -⟩ := hl key h1
    unfold getEdgesSharedWithLoop
    rw [h2]
    refine ⟨_, loop, rfl, rfl, fun e => ?_⟩
    rw [List.mem_append, List.mem_flatMap]
    constructor
    · rintro (he | ⟨p, hp, he⟩)
      · exact Or.inl he
      · obtain ⟨hp1, hp2⟩ := List.mem_filter.1 hp
        have hp2 := (of_decide_eq_true hp2).2
        push Not at hp2
        exact Or.inr ⟨p.1, p.2, Dict.get?_of_mem hnd hp1, hp2, he⟩
    · rintro (he | ⟨i, loop', h3, h4, he⟩)
      · exact Or.inl he
      · by_cases hi : i = key
        · subst hi
          rw [h2] at h3
          cases h3
          exact Or.inl he
        · refine Or.inr ⟨(i, loop'), List.mem_filter.2 ⟨Dict.mem_of_get? h3, decide_eq_true ⟨hi, ?_⟩⟩, he⟩
          push Not
          exact h4

-- three loops: the first two share the branch `L1`, the third is apart
example : let l := [(0, 1, "L1"), (0, 1, "I1"), (0, 1, "I2"), (0, 2, "L2"), (0, 2, "I3")].map fun b : ℕ × ℕ × String => Call.addBranch Orc.id b.1 b.2.1 b.2.2
    (run {} l).closures.length = 3 ∧
    (getEdgesSharedWithLoop (run {} l) 0).toOption.map List.length = some 4 ∧
    (getEdgesSharedWithLoop (run {} l) 2).toOption.map List.length = some 2 ∧
    getEdgesSharedWithLoop (run {} l) 3 = .error .valueError := by decide +kernel

/-! ### C20: when adding a branch succeeds -/

/-- **C20 (partial)** After any history (some calls of which may have raised) that used no name twice, adding a branch
with a valid new name succeeds, provided the circuit is grown along conductive branches and Python's sets of nodes come
out in order.  Missing: circuits not grown so (`C20_internal_error_false`), other set orders (`C20_set_order_false`) and
histories that contain a duplicate name (`C20_duplicate_name_false`). -/
theorem C20_valid_call_succeeds_partial (l : List Call) (o : Orc) (a b : ℕ) (c : String) (ho : o.OK)
    (hord : ∀ l, o.nodeOrd l = l) (hc : validName c = true)
    (hn : ((branches l).map fun b => b.2.2).Nodup) (hfresh : c ∉ (branches l).map fun b => b.2.2)
    (hg : Grown (branches l ++ [(a, b, c)])) :
    (addBranch o (run {} l) a b c).2 = .ok () := by
  have hinv := graphInv_run l
  have hcont := run_graph l {}
  simp only [List.map_nil, List.nil_append] at hcont
  have hc' : okPrefix c = true := by rw [okPrefix_eq]; exact hc
  have hstep := step_graph (run {} l) (Call.addBranch o a b c)
  have hG : (step (run {} l) (Call.addBranch o a b c)).1.graph = (withEdge (run {} l) a b c).graph := addBranch_graph hc'
  have hnod := grounds_nodes (h := l ++ [Call.addBranch o a b c])
  rw [run_append] at hnod
  have hrun : run (run {} l) [Call.addBranch o a b c] = (step (run {} l) (Call.addBranch o a b c)).1 := rfl
  rw [hrun, hG] at hnod
  rw [hG, hcont] at hstep
  simp only [branchOf, hc, if_true, Option.toList_some] at hstep
  have hnames : ((withEdge (run {} l) a b c).graph.es.map Prod.snd).Nodup := by
    have : (withEdge (run {} l) a b c).graph.es.map Prod.snd = ((branches l ++ [(a, b, c)]).map fun b => b.2.2) := by
      rw [← hstep]; simp [List.map_map, Function.comp_def, strip]
    rw [this, List.map_append]
    refine List.nodup_append.2 ⟨hn, by simp, ?_⟩
    intro x hx y hy
    simp only [List.map_cons, List.map_nil, List.mem_singleton] at hy
    rw [hy]; rintro rfl; exact hfresh hx
  have hwf : (withEdge (run {} l) a b c).graph.WF := (hinv.addEdge a b c).toWF
  rw [addBranch_good hc']
  obtain ⟨r2, r3, h2, h3, he⟩ := insertBranch_eq o (run {} l) a b c
  have hok2 : r2.2 = .ok () := by rw [h2]; exact updateComponentsMap_fresh hwf hnames
  have hgr : r2.1.graph = (withEdge (run {} l) a b c).graph := by rw [h2, updateComponentsMap_frame]
  have hok3 : r3.2 = .ok () := by
    have hor := conductive_oriented hwf
    have hvg := virtualGrounds_ok ho hord hor (components (conductiveGraph (withEdge (run {} l) a b c).graph)) [] fun c hc => hc
    have hgood := loops_good hwf hnod (by rw [hstep]; exact hg) ho hord
    simp only at hgood
    have hall := allLoops_good (o := o) (virtualGrounds o (conductiveGraph (withEdge (run {} l) a b c).graph)
      (components (conductiveGraph (withEdge (run {} l) a b c).graph)) []).1 none
      fun q hq e he => ⟨(hgood q hq e he).1, (hgood q hq e he).2.1⟩
    rw [h3]
    unfold updateGraphs
    simp only
    rw [hgr, hvg]
    simp only
    rw [hall.2]
    rfl
  rw [he, hok2]
  simp only
  rw [hok3]

example : validName "V1" = true ∧ ((branches sampleCalls).map fun b => b.2.2).Nodup ∧
    "V1" ∉ (branches sampleCalls).map fun b => b.2.2 := by decide +kernel

example : Grown (branches sampleCalls ++ [(2, 3, "V1")]) := by
  intro n hn ⟨m, _, hm, _⟩
  have h1 : ∀ n ∈ nodesOf (branches sampleCalls ++ [(2, 3, "V1")]), n = 0 ∨ ∃ b ∈ conductors (branches sampleCalls ++ [(2, 3, "V1")]),
      (b.1 = n ∧ firstSeen (branches sampleCalls ++ [(2, 3, "V1")]) b.2.1 < firstSeen (branches sampleCalls ++ [(2, 3, "V1")]) n) ∨
      (b.2.1 = n ∧ firstSeen (branches sampleCalls ++ [(2, 3, "V1")]) b.1 < firstSeen (branches sampleCalls ++ [(2, 3, "V1")]) n) := by
    decide +kernel
  rcases h1 n hn with rfl | h2
  · have : firstSeen (branches sampleCalls ++ [(2, 3, "V1")]) 0 = 0 := by decide +kernel
    omega
  · exact h2

end Verif.Props
