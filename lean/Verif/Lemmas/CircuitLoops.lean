import Verif.Lemmas.CircuitArbor

/-!
# Lemmas: the superconducting loops
-/

set_option linter.unusedVariables false

namespace Verif.Circuit

open Verif Verif.Spec

/-! ### The shape of the loops -/

/-- A loop is some tree edges followed by its closure edge. -/
def LoopShape (T : List Edge) (l : List Edge) (e : Edge) : Prop := ∃ x, l = x ++ [e] ∧ ∀ e' ∈ x, e' ∈ T

theorem symDiff_mem {o : Orc} (ho : o.OK) {p q : List Edge} {e : Edge} (h : e ∈ symDiff o p q) : e ∈ p ∨ e ∈ q := by
  unfold symDiff at h
  rw [(ho.edge _).mem_iff, mem_uniq, List.mem_append, List.mem_filter, List.mem_filter] at h
  rcases h with h | h
  · exact Or.inl h.1
  · exact Or.inr h.1

theorem loopsOf_some {o : Orc} {src : Node} {S : List Edge} {e : Edge} {rest : List Edge} {p1 : Option (List Edge)} {p : List Edge}
    (h : firstPath S src e.1 = some p) : loopsOf o src S (e :: rest) p1 =
      ((match firstPath S src e.2.1 with
        | some q => symDiff o p q ++ [e]
        | none => p ++ [e]) :: (loopsOf o src S rest (some p)).1, (loopsOf o src S rest (some p)).2) := by
  rw [loopsOf.eq_def]; simp only; rw [h]; rfl

theorem loopsOf_none {o : Orc} {src : Node} {S : List Edge} {e : Edge} {rest : List Edge} {p : List Edge}
    (h : firstPath S src e.1 = none) : loopsOf o src S (e :: rest) (some p) =
      ((p ++ [e]) :: (loopsOf o src S rest (some p)).1, (loopsOf o src S rest (some p)).2) := by
  rw [loopsOf.eq_def]; simp only; rw [h]

theorem loopsOf_fail {o : Orc} {src : Node} {S : List Edge} {e : Edge} {rest : List Edge}
    (h : firstPath S src e.1 = none) : loopsOf o src S (e :: rest) none = ([], none, false) := by
  rw [loopsOf.eq_def]; simp only; rw [h]

theorem loopsOf_shape {o : Orc} (ho : o.OK) {src : Node} {S T : List Edge} (hS : ∀ e ∈ S, e ∈ T) :
    ∀ (cl : List Edge) (p1 : Option (List Edge)), (∀ p, p1 = some p → ∀ e ∈ p, e ∈ T) →
      (loopsOf o src S cl p1).2.2 = true →
      List.Forall₂ (LoopShape T) (loopsOf o src S cl p1).1 cl ∧
      ∀ p, (loopsOf o src S cl p1).2.1 = some p → ∀ e ∈ p, e ∈ T := by
  intro cl
  induction cl with
  | nil => intro p1 h _; exact ⟨List.Forall₂.nil, h⟩
  | cons e cl ih =>
    intro p1 h hok
    cases hf : firstPath S src e.1 with
    | some p =>
      rw [loopsOf_some hf] at hok ⊢
      simp only at hok ⊢
      have hpT : ∀ e ∈ p, e ∈ T := fun e he => hS e (DiWalk_mem (firstPath_some hf) e he)
      obtain ⟨h1, h2⟩ := ih (some p) (by rintro _ ⟨⟩; exact hpT) hok
      refine ⟨List.Forall₂.cons ?_ h1, h2⟩
      cases hf2 : firstPath S src e.2.1 with
      | none => exact ⟨p, rfl, hpT⟩
      | some q =>
        have hqT : ∀ e ∈ q, e ∈ T := fun e he => hS e (DiWalk_mem (firstPath_some hf2) e he)
        exact ⟨_, rfl, fun e' he' => (symDiff_mem ho he').elim (hpT e') (hqT e')⟩
    | none =>
      cases p1 with
      | none => rw [loopsOf_fail hf] at hok; cases hok
      | some p =>
        rw [loopsOf_none hf] at hok ⊢
        simp only at hok ⊢
        obtain ⟨h1, h2⟩ := ih (some p) h hok
        exact ⟨List.Forall₂.cons ⟨p, rfl, h p rfl⟩ h1, h2⟩

theorem allLoops_shape {o : Orc} (ho : o.OK) {T : List Edge} : ∀ (d : Dict Node VG) (p1 : Option (List Edge)),
    (∀ q ∈ d, ∀ e ∈ q.2.tree, e ∈ T) → (∀ p, p1 = some p → ∀ e ∈ p, e ∈ T) → (allLoops o d p1).2 = true →
    List.Forall₂ (LoopShape T) (allLoops o d p1).1 (d.values.flatMap VG.closures) := by
  intro d
  induction d with
  | nil => intro p1 _ _ _; exact List.Forall₂.nil
  | cons q d ih =>
    obtain ⟨src, vg⟩ := q
    intro p1 hT h hok
    rw [allLoops] at hok ⊢
    simp only at hok ⊢
    have hS : ∀ e ∈ vg.tree, e ∈ T := hT (src, vg) (by simp)
    cases hl : (loopsOf o src vg.tree vg.closures p1).2.2 with
    | false => rw [hl] at hok; simp at hok
    | true =>
      rw [hl] at hok
      simp only [if_true] at hok ⊢
      obtain ⟨h1, h2⟩ := loopsOf_shape ho hS vg.closures p1 h hl
      have h3 := ih _ (fun q hq => hT q (by simp [hq])) h2 hok
      exact List.rel_append h1 h3

/-! ### Loops from paths -/

/-- The loop of a closure edge when both of its ends can be reached. -/
def loopFor (o : Orc) (src : Node) (S : List Edge) (e : Edge) : List Edge :=
  symDiff o ((firstPath S src e.1).getD []) ((firstPath S src e.2.1).getD []) ++ [e]

theorem loopsOf_good {o : Orc} {src : Node} {S : List Edge} : ∀ (cl : List Edge) (p1 : Option (List Edge)),
    (∀ e ∈ cl, (∃ p, firstPath S src e.1 = some p) ∧ ∃ q, firstPath S src e.2.1 = some q) →
    (loopsOf o src S cl p1).1 = cl.map (loopFor o src S) ∧ (loopsOf o src S cl p1).2.2 = true := by
  intro cl
  induction cl with
  | nil => intro p1 _; exact ⟨rfl, rfl⟩
  | cons e cl ih =>
    intro p1 h
    obtain ⟨⟨p, hp⟩, q, hq⟩ := h e (by simp)
    rw [loopsOf_some hp]
    simp only
    obtain ⟨h1, h2⟩ := ih (some p) fun e' he' => h e' (by simp [he'])
    refine ⟨?_, h2⟩
    rw [h1, List.map_cons, hq]
    simp only [loopFor, hp, hq, Option.getD_some]

theorem allLoops_good {o : Orc} : ∀ (d : Dict Node VG) (p1 : Option (List Edge)),
    (∀ q ∈ d, ∀ e ∈ q.2.closures, (∃ p, firstPath q.2.tree q.1 e.1 = some p) ∧ ∃ p', firstPath q.2.tree q.1 e.2.1 = some p') →
    (allLoops o d p1).1 = d.flatMap (fun q => q.2.closures.map (loopFor o q.1 q.2.tree)) ∧ (allLoops o d p1).2 = true := by
  intro d
  induction d with
  | nil => intro p1 _; exact ⟨rfl, rfl⟩
  | cons q d ih =>
    obtain ⟨src, vg⟩ := q
    intro p1 h
    obtain ⟨h1, h2⟩ := loopsOf_good (o := o) vg.closures p1 (h (src, vg) (by simp))
    obtain ⟨h3, h4⟩ := ih (loopsOf o src vg.tree vg.closures p1).2.1 fun q hq => h q (by simp [hq])
    rw [allLoops]
    simp only
    rw [h2]
    simp only [if_true]
    exact ⟨by rw [h1, h3]; rfl, h4⟩

/-! ### Order of the nodes -/

theorem uniq_snoc {α : Type} [DecidableEq α] (l : List α) (a : α) : uniq (l ++ [a]) = if a ∈ uniq l then uniq l else uniq l ++ [a] := by
  unfold uniq; rw [List.foldl_append]; rfl

/-- The nodes of the graph are listed in the order of their first mention. -/
theorem nodes_run (l : List Call) : (run {} l).graph.nodes = uniq ((branches l).flatMap fun b => [b.1, b.2.1]) := by
  have h1 : (run {} l).graph.nodes = uniq ((run {} l).graph.es.flatMap fun p => [p.1.1, p.1.2.1]) := by
    apply run_inv (P := fun g => g.graph.nodes = uniq (g.graph.es.flatMap fun p => [p.1.1, p.1.2.1]))
    · rfl
    · intro g c _ h
      cases hb : c.isBranch with
      | false => rw [(step_same hb).graph]; exact h
      | true =>
        cases c with
        | addBranch o a b c =>
          cases hc : okPrefix c with
          | false => simp only [step]; rw [(addBranch_bad hc).1]; exact h
          | true =>
            simp only [step]; rw [addBranch_graph hc]
            have hn : ∀ (G : MGraph) (l : List Node) (n : Node), G.nodes = uniq l → (G.addNode n).nodes = uniq (l ++ [n]) := by
              intro G l n hG
              rw [uniq_snoc, ← hG]
              unfold MGraph.addNode
              split_ifs <;> rfl
            simp only [MGraph.addEdge, MGraph.addNode_es, List.flatMap_append, List.flatMap_cons, List.flatMap_nil, List.append_nil]
            rw [show (g.graph.es.flatMap fun p => [p.1.1, p.1.2.1]) ++ [a, b] =
              ((g.graph.es.flatMap fun p => [p.1.1, p.1.2.1]) ++ [a]) ++ [b] by simp]
            exact hn _ _ _ (hn _ _ _ h)
        | _ => cases hb
  rw [h1]
  have h2 := run_graph l {}
  simp only [List.map_nil, List.nil_append] at h2
  rw [← h2, List.flatMap_map]
  rfl

theorem idxOf_uniq_lt {α : Type} [DecidableEq α] : ∀ (l : List α) (x y : α), x ∈ l → y ∈ l →
    ((uniq l).idxOf x < (uniq l).idxOf y ↔ l.idxOf x < l.idxOf y) := by
  intro l
  induction l using List.reverseRecOn with
  | nil => intro x y h; cases h
  | append_singleton l a ih =>
    intro x y hx hy
    rw [uniq_snoc]
    have idx_in : ∀ z, z ∈ l → (l ++ [a]).idxOf z = l.idxOf z := fun z hz => List.idxOf_append_of_mem hz
    by_cases ha : a ∈ l
    · rw [if_pos ((mem_uniq _ _).2 ha)]
      have hin : ∀ z, z ∈ l ++ [a] → z ∈ l := by
        intro z hz
        rcases List.mem_append.1 hz with h | h
        · exact h
        · rw [List.mem_singleton.1 h]; exact ha
      rw [idx_in x (hin x hx), idx_in y (hin y hy)]
      exact ih x y (hin x hx) (hin y hy)
    · rw [if_neg (by simpa using ha)]
      have hau : a ∉ uniq l := by simpa using ha
      have uin : ∀ z, z ∈ l → (uniq l ++ [a]).idxOf z = (uniq l).idxOf z :=
        fun z hz => List.idxOf_append_of_mem ((mem_uniq _ _).2 hz)
      have aend : (l ++ [a]).idxOf a = l.length := by rw [List.idxOf_append_of_notMem ha]; simp
      have uend : (uniq l ++ [a]).idxOf a = (uniq l).length := by rw [List.idxOf_append_of_notMem hau]; simp
      rw [List.mem_append, List.mem_singleton] at hx hy
      rcases hx with hx | rfl <;> rcases hy with hy | rfl
      · rw [idx_in x hx, idx_in y hy, uin x hx, uin y hy]; exact ih x y hx hy
      · rw [idx_in x hx, uin x hx, aend, uend]
        have h1 := List.idxOf_lt_length_of_mem hx
        have h2 := List.idxOf_lt_length_of_mem ((mem_uniq l x).2 hx)
        exact ⟨fun _ => h1, fun _ => h2⟩
      · rw [idx_in y hy, uin y hy, aend, uend]
        have h1 := List.idxOf_lt_length_of_mem hy
        have h2 := List.idxOf_lt_length_of_mem ((mem_uniq l y).2 hy)
        constructor <;> intro h <;> omega
      · simp

theorem pair_sublist {α : Type} [DecidableEq α] {l : List α} {x y : α} (hx : x ∈ l) (hy : y ∈ l) (h : l.idxOf x < l.idxOf y) :
    [x, y].Sublist l := by
  induction l with
  | nil => cases hx
  | cons a l ih =>
    by_cases hax : a = x
    · subst hax
      have : y ∈ l := by
        rcases List.mem_cons.1 hy with rfl | hy
        · omega
        · exact hy
      exact (List.singleton_sublist.2 this).cons_cons a
    · by_cases hay : a = y
      · subst hay; rw [List.idxOf_cons_self] at h; omega
      · rw [List.idxOf_cons_ne _ hax, List.idxOf_cons_ne _ hay] at h
        have hx' : x ∈ l := (List.mem_cons.1 hx).resolve_left fun h => hax h.symm
        have hy' : y ∈ l := (List.mem_cons.1 hy).resolve_left fun h => hay h.symm
        exact (ih hx' hy' (by omega)).cons a

theorem idxOf_lt_of_pair {α : Type} [DecidableEq α] {l : List α} {x y : α} (hn : l.Nodup) (h : [x, y].Sublist l) :
    l.idxOf x < l.idxOf y := by
  induction l with
  | nil => cases h
  | cons a l ih =>
    cases h with
    | cons _ h =>
      have hx : x ∈ l := h.subset (by simp)
      have hy : y ∈ l := h.subset (by simp)
      have ha := (List.nodup_cons.1 hn).1
      rw [List.idxOf_cons_ne _ (by rintro rfl; exact ha hx), List.idxOf_cons_ne _ (by rintro rfl; exact ha hy)]
      have := ih (List.nodup_cons.1 hn).2 h
      omega
    | cons_cons _ h =>
      have hy : y ∈ l := List.singleton_sublist.1 h
      have ha := (List.nodup_cons.1 hn).1
      rw [List.idxOf_cons_self, List.idxOf_cons_ne _ (by rintro rfl; exact ha hy)]
      omega

theorem idxOf_sublist {α : Type} [DecidableEq α] {c l : List α} (hs : c.Sublist l) (hn : l.Nodup) {x y : α} (hx : x ∈ c) (hy : y ∈ c) :
    c.idxOf x < c.idxOf y ↔ l.idxOf x < l.idxOf y := by
  have fwd : ∀ {x y : α}, x ∈ c → y ∈ c → c.idxOf x < c.idxOf y → l.idxOf x < l.idxOf y :=
    fun hx hy h => idxOf_lt_of_pair hn ((pair_sublist hx hy h).trans hs)
  refine ⟨fwd hx hy, fun h => ?_⟩
  by_contra hc
  rcases Nat.lt_or_ge (c.idxOf y) (c.idxOf x) with h' | h'
  · have := fwd hy hx h'; omega
  · have : c.idxOf x = c.idxOf y := by omega
    have := (List.idxOf_inj hx).1 this
    rw [this] at h; omega

/-! ### Components of a grown circuit -/

section Grown

variable {o : Orc} (ho : o.OK) (hord : ∀ l, o.nodeOrd l = l)
include hord

theorem subCopy_nodes_eq (H : MGraph) (c : List Node) : (subCopy o H c).nodes = c := by
  unfold subCopy; rw [hord]; split_ifs <;> rfl

include ho

theorem tree_oriented {H : MGraph} (h : Oriented H) {c : List Node} (hc : c ∈ components H) :
    ∀ e ∈ treeOf o H c, e ∈ H.edges := by
  intro e he
  have hw := subCopy_wf ho h.toWF hc
  obtain ⟨p, hp, rfl⟩ := (MGraph.mem_edges hw e).1 (mst_edges_subset hw he)
  rw [subCopy_es] at hp
  obtain ⟨hp1, hp2⟩ := List.mem_filter.1 hp
  simp only [decide_eq_true_eq] at hp2
  have hori : MGraph.orient (subCopy o H c).nodes p.1 = p.1 := by
    apply MGraph.orient_self
    rw [subCopy_nodes_eq hord]
    by_contra hlt
    have := (idxOf_sublist (components_nodes hc) h.nodup hp2.2 hp2.1).1 (by omega)
    have := h.ori p hp1
    omega
  rw [hori]
  exact (h.mem_edges _).2 (List.mem_map.2 ⟨p, hp1, rfl⟩)

theorem virtualGrounds_ok {H : MGraph} (h : Oriented H) : ∀ (cs : List (List Node)) (d : Dict Node VG),
    (∀ c ∈ cs, c ∈ components H) → (virtualGrounds o H cs d).2 = .ok () := by
  intro cs
  induction cs with
  | nil => intro d _; rfl
  | cons c cs ih =>
    intro d hcs
    rw [virtualGrounds]
    have hall : ∀ e ∈ (minimumSpanningTree (subCopy o H c)).edges, e ∈ H.edges := tree_oriented ho hord h (hcs c (by simp))
    have : ∃ d', groundOf o H c = some d' := by
      unfold groundOf
      simp only
      rw [if_pos hall]
      exact ⟨_, rfl⟩
    obtain ⟨d', hd⟩ := this
    rw [hd]
    exact ih _ fun c' hc' => hcs c' (by simp [hc'])

end Grown

/-- The conductive components of a grown circuit are grown. -/
theorem grown_component {G : MGraph} (h : G.WF) (hnodes : G.nodes = uniq ((G.es.map strip).flatMap fun b => [b.1, b.2.1]))
    (hg : Grown (G.es.map strip)) {o : Orc} (hord : ∀ l, o.nodeOrd l = l) {c : List Node}
    (hc : c ∈ components (conductiveGraph G)) : GrownG (subCopy o (conductiveGraph G) c) := by
  intro n hn h0
  rw [subCopy_nodes_eq hord] at hn h0 ⊢
  have hor := conductive_oriented h
  have hcn := components_nodes hc
  rw [conductive_nodes h] at hcn
  -- positions
  have hmem : ∀ x, x ∈ G.nodes ↔ x ∈ ((G.es.map strip).flatMap fun b => [b.1, b.2.1]) := by
    intro x; rw [hnodes]; simp
  have hseen : ∀ x y, x ∈ G.nodes → y ∈ G.nodes → (G.nodes.idxOf x < G.nodes.idxOf y ↔ firstSeen (G.es.map strip) x < firstSeen (G.es.map strip) y) := by
    intro x y hx hy
    unfold firstSeen
    conv_lhs => rw [hnodes]
    exact idxOf_uniq_lt _ x y ((hmem x).1 hx) ((hmem y).1 hy)
  have hnf : ∀ x, x ∈ G.nodes → x ∈ nodesOf (G.es.map strip) := fun x hx => List.mem_toFinset.2 ((hmem x).1 hx)
  have hidx : ∀ x y, x ∈ c → y ∈ c → (c.idxOf x < c.idxOf y ↔ firstSeen (G.es.map strip) x < firstSeen (G.es.map strip) y) := by
    intro x y hx hy
    rw [idxOf_sublist hcn h.nodup hx hy]
    exact hseen x y (hcn.subset hx) (hcn.subset hy)
  obtain ⟨r, hr⟩ : ∃ r, c.head? = some r := by
    cases c with
    | nil => cases hn
    | cons a l => exact ⟨a, rfl⟩
  have hrc : r ∈ c := List.mem_of_head? hr
  have hr0 : c.idxOf r = 0 := by
    cases c with
    | nil => cases hr
    | cons a l => simp only [List.head?_cons, Option.some.injEq] at hr; rw [hr]; exact List.idxOf_cons_self
  have hconn := ((component_conn hc hrc).1 hn).2
  rw [conductive_conn h] at hconn
  have hlt : firstSeen (G.es.map strip) r < firstSeen (G.es.map strip) n := (hidx r n hrc hn).1 (by omega)
  obtain ⟨b, hb, hbor⟩ := hg n (hnf n (hcn.subset hn)) ⟨r, hnf r (hcn.subset hrc), hlt, hconn⟩
  obtain ⟨hb1, hb2⟩ := List.mem_filter.1 hb
  obtain ⟨q, hq, rfl⟩ := List.mem_map.1 hb1
  have hm : (MGraph.orient G.nodes q.1, q.2) ∈ (conductiveGraph G).es :=
    (conductive_mem h _).2 ⟨q, hq, by rw [noncap_iff]; exact hb2, rfl⟩
  have hin := inside_of_end hor.toWF hc hm
  have hboth : q.1.1 ∈ c ∧ q.1.2.1 ∈ c := by
    have hnq : q.1.1 ∈ c ∨ q.1.2.1 ∈ c := by
      rcases hbor with ⟨h1, _⟩ | ⟨h1, _⟩
      · left; have : q.1.1 = n := h1; rw [this]; exact hn
      · right; have : q.1.2.1 = n := h1; rw [this]; exact hn
    rcases orient_cases G.nodes q.1 with h' | h' <;> simp only [h'] at hin
    · rcases hnq with h1 | h1
      · exact ⟨h1, hin.1 h1⟩
      · exact ⟨hin.2 h1, h1⟩
    · rcases hnq with h1 | h1
      · exact ⟨h1, hin.2 h1⟩
      · exact ⟨hin.1 h1, h1⟩
  refine ⟨(MGraph.orient G.nodes q.1, q.2), ?_, ?_⟩
  · rw [subCopy_es]
    refine List.mem_filter.2 ⟨hm, ?_⟩
    rcases orient_cases G.nodes q.1 with h' | h' <;> simp [h', Edge.rev, hboth]
  · have hfin : (q.1.1 = n ∧ c.idxOf q.1.2.1 < c.idxOf n) ∨ (q.1.2.1 = n ∧ c.idxOf q.1.1 < c.idxOf n) := by
      rcases hbor with ⟨h1, h2⟩ | ⟨h1, h2⟩
      · exact Or.inl ⟨h1, (hidx _ _ hboth.2 hn).2 h2⟩
      · exact Or.inr ⟨h1, (hidx _ _ hboth.1 hn).2 h2⟩
    rcases orient_cases G.nodes q.1 with h' | h' <;> simp only [h', Edge.rev]
    · exact hfin
    · exact hfin.symm

/-- In a grown circuit every closure edge's ends are reached, and the loop is a simple cycle. -/
theorem loops_good {G : MGraph} (h : G.WF) (hnodes : G.nodes = uniq ((G.es.map strip).flatMap fun b => [b.1, b.2.1]))
    (hg : Grown (G.es.map strip)) {o : Orc} (ho : o.OK) (hord : ∀ l, o.nodeOrd l = l) :
    let d := (virtualGrounds o (conductiveGraph G) (components (conductiveGraph G)) []).1
    (∀ q ∈ d, ∀ e ∈ q.2.closures,
      (∃ p, firstPath q.2.tree q.1 e.1 = some p) ∧ (∃ p', firstPath q.2.tree q.1 e.2.1 = some p') ∧
      SimpleCycle q.2.tree e (loopFor o q.1 q.2.tree e)) := by
  intro d q hq e he
  have hor := conductive_oriented h
  have hok := virtualGrounds_ok ho hord hor (components (conductiveGraph G)) [] fun c hc => hc
  obtain ⟨roots, hr1, hr2⟩ := virtualGrounds_eq ho hor.toWF (components (conductiveGraph G)) [] (fun c hc => hc)
    (components_disjoint _) (by simp [Dict.keys]) hok
  have hd : d = _ := hr2
  rw [hd, List.nil_append] at hq
  obtain ⟨⟨n, c⟩, hnc, rfl⟩ := List.mem_map.1 hq
  have hrel : n ∈ c ∧ (c.length ≠ 1 → rootOf (treeOf o (conductiveGraph G) c) = some n) ∧ c ∈ components (conductiveGraph G) := by
    have : ∀ {l : List Node} {l' : List (List Node)}, List.Forall₂ (fun n c => n ∈ c ∧ (c.length ≠ 1 → rootOf (treeOf o (conductiveGraph G) c) = some n)) l l' →
        (n, c) ∈ l.zip l' → n ∈ c ∧ (c.length ≠ 1 → rootOf (treeOf o (conductiveGraph G) c) = some n) ∧ c ∈ l' := by
      intro l l' hf
      induction hf with
      | nil => intro hm; cases hm
      | cons hab _ ih =>
        intro hm
        rcases List.mem_cons.1 hm with heq | hm
        · injection heq with h1 h2
          subst h1; subst h2
          exact ⟨hab.1, hab.2, by simp⟩
        · have := ih hm
          exact ⟨this.1, this.2.1, by simp [this.2.2]⟩
    exact this hr1 hnc
  obtain ⟨hn, hroot, hc⟩ := hrel
  simp only at he ⊢
  have h1 : c.length ≠ 1 := by
    intro h1; rw [closuresOf, if_pos h1] at he; cases he
  have hw := subCopy_wf ho hor.toWF hc
  have hgG := grown_component h hnodes hg hord hc
  obtain ⟨r, hr⟩ : ∃ r, (subCopy o (conductiveGraph G) c).nodes.head? = some r := by
    rw [subCopy_nodes_eq hord]
    cases c with
    | nil => cases hn
    | cons a l => exact ⟨a, rfl⟩
  have hA := mst_arbor hw hgG hr
  have hlen := treeOf_length ho hor.toWF hc
  have hpos : 0 < c.length := List.length_pos_of_mem hn
  have hne : (minimumSpanningTree (subCopy o (conductiveGraph G) c)).edges ≠ [] := by
    intro hnil
    have : (treeOf o (conductiveGraph G) c).length = 0 := by unfold treeOf; rw [hnil]; rfl
    omega
  have hrn : n = r := by
    have h2 := mst_root hw hgG hr hne
    have h3 := hroot h1
    unfold treeOf at h3
    rw [h3] at h2
    injection h2
  subst hrn
  have hends := closuresOf_ends ho hor.toWF hc he
  have hreach : ∀ x ∈ c, ∃ p, firstPath (treeOf o (conductiveGraph G) c) n x = some p := by
    intro x hx
    obtain ⟨p, hp⟩ := hA.reach x (by rw [subCopy_nodes_eq hord]; exact hx)
    exact firstPath_exists hp (visited_nodup (rank := fun n => (subCopy o (conductiveGraph G) c).nodes.idxOf n) hA.inc hp)
  obtain ⟨p, hp⟩ := hreach _ hends.1
  obtain ⟨q, hq⟩ := hreach _ hends.2
  refine ⟨⟨p, hp⟩, ⟨q, hq⟩, ?_⟩
  unfold loopFor
  rw [hp, hq, Option.getD_some, Option.getD_some]
  exact simpleCycle_of_paths ho hA (firstPath_some hp) (firstPath_some hq)

end Verif.Circuit
