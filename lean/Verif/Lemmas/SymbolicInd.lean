import Verif.Lemmas.SymbolicCap
import Verif.Spec.Symbolic
import Verif.Props.CircuitBias

/-!
# Lemmas: branches of the oriented circuit, the inductance matrix, pseudo-inverses
-/

set_option linter.unusedVariables false

namespace Verif.Sym

open Verif Verif.Circuit Verif.Spec Verif.Props

variable {K : Type}

/-! ### The oriented circuit lists the conductive branches -/

theorem wc_cover_ne {o : Orc} {H : MGraph} (ho : o.OK) (h : H.WF) {e : Edge} (he : e ∈ H.es.map Prod.fst) (hne : e.1 ≠ e.2.1) :
    (e ∈ forestOf o H ∨ e.rev ∈ forestOf o H) ∨ (e ∈ allClosures o H ∨ e.rev ∈ allClosures o H) := by
  obtain ⟨p, hp, rfl⟩ := List.mem_map.1 he
  obtain ⟨c, hc, hx⟩ := component_of (h.ends p hp).1
  have hy := (inside_of_end h hc hp).1 hx
  have hin : p ∈ inside H c := List.mem_filter.2 ⟨hp, by simp [hx, hy]⟩
  have h1 : c.length ≠ 1 := by
    intro h1
    obtain ⟨x, rfl⟩ := List.length_eq_one_iff.1 h1
    exact hne ((List.mem_singleton.1 hx).trans (List.mem_singleton.1 hy).symm)
  have hm : ∀ {x : Edge}, x ∈ treeOf o H c → x ∈ forestOf o H := fun hx => List.mem_flatMap.2 ⟨c, hc, hx⟩
  have hm' : ∀ {x : Edge}, x ∈ closuresOf o H c → x ∈ allClosures o H := fun hx => List.mem_flatMap.2 ⟨c, hc, hx⟩
  rcases cover ho h hc (List.mem_map.2 ⟨p, hin, rfl⟩) h1 with (h2 | h2) | (h2 | h2)
  · exact Or.inl (Or.inl (hm h2))
  · exact Or.inl (Or.inr (hm h2))
  · exact Or.inr (Or.inl (hm' h2))
  · exact Or.inr (Or.inr (hm' h2))

theorem conductor_in_wc_ne {h : List Call} {g : CG} (hs : Settled h g)
    {b : ℕ × ℕ × String} (hb : b ∈ conductors (branches h)) (hne : b.1 ≠ b.2.1) : ∃ k ∈ g.wc, g.cmap.get? k = some b.2.2 := by
  obtain ⟨o, f⟩ := settled_facts hs
  have hG := f.inv.toWF
  have hw := (conductive_oriented hG).toWF
  rw [← f.content] at hb
  obtain ⟨hb1, hb2⟩ := List.mem_filter.1 hb
  obtain ⟨q, hq, rfl⟩ := List.mem_map.1 hb1
  have hm : (MGraph.orient g.graph.nodes q.1, q.2) ∈ (conductiveGraph g.graph).es :=
    (conductive_mem hG _).2 ⟨q, hq, by rw [noncap_iff]; exact hb2, rfl⟩
  have hv : (MGraph.orient g.graph.nodes q.1, q.2) ∈ g.graph.view := (MGraph.mem_view hG _).2 ⟨q, hq, rfl⟩
  have hne' : (MGraph.orient g.graph.nodes q.1).1 ≠ (MGraph.orient g.graph.nodes q.1).2.1 := by
    rcases orient_cases g.graph.nodes q.1 with h' | h' <;> rw [h']
    · exact hne
    · exact hne.symm
  have hc := wc_cover_ne f.ok hw (List.mem_map.2 ⟨_, hm, rfl⟩) hne'
  have hget1 : g.cmap.get? (MGraph.orient g.graph.nodes q.1) = some q.2 := (f.synced.cmap _ _).2 (Or.inl hv)
  have hget2 : g.cmap.get? (MGraph.orient g.graph.nodes q.1).rev = some q.2 :=
    (f.synced.cmap _ _).2 (Or.inr (by rw [rev_rev]; exact hv))
  rw [f.synced.wc, f.synced.tree, f.synced.closures]
  rcases hc with (h1 | h1) | (h1 | h1)
  · exact ⟨_, List.mem_append.2 (Or.inl h1), hget1⟩
  · exact ⟨_, List.mem_append.2 (Or.inl h1), hget2⟩
  · exact ⟨_, List.mem_append.2 (Or.inr h1), hget1⟩
  · exact ⟨_, List.mem_append.2 (Or.inr h1), hget2⟩

theorem wc_nodup {h : List Call} {g : CG} (hs : Settled h g) : g.wc.Nodup := by
  obtain ⟨o, f⟩ := settled_facts hs
  rw [f.synced.wc]
  refine List.nodup_append.2 ⟨(C22_spanning_forest hs).1.1, (C22_closures hs).1, ?_⟩
  intro a ha b hb hab
  subst hab
  exact ((C22_closures hs).2.1 a hb).1 ha

theorem wc_branch {h : List Call} {g : CG} (hs : Settled h g) {e : Edge} (he : e ∈ g.wc) :
    ∃ b ∈ conductors (branches h), IsBranch e b ∧ g.cmap.get? e = some b.2.2 := by
  obtain ⟨o, f⟩ := settled_facts hs
  rw [f.synced.wc, List.mem_append] at he
  rcases he with he | he
  · exact (C22_spanning_forest hs).2.2 e he
  · exact (C22_closures hs).2.2 e he

theorem wc_ends {h : List Call} {g : CG} (hs : Settled h g) {e : Edge} (he : e ∈ g.wc) : e.1 ∈ g.graph.nodes ∧ e.2.1 ∈ g.graph.nodes := by
  obtain ⟨b, hb, hbr, _⟩ := wc_branch hs he
  obtain ⟨o, f⟩ := settled_facts hs
  have hb := (List.mem_filter.1 hb).1
  rw [← f.content] at hb
  obtain ⟨p, hp, rfl⟩ := List.mem_map.1 hb
  obtain ⟨h1, h2⟩ := f.inv.ends p hp
  rcases hbr with ⟨e1, e2⟩ | ⟨e1, e2⟩ <;> rw [e1, e2]
  · exact ⟨h1, h2⟩
  · exact ⟨h2, h1⟩

/-- A quantity of branches that does not depend on the direction and vanishes on self-loops can be summed over the oriented
circuit or over the conductive branches of the history. -/
theorem sum_wc [AddCommMonoid K] {h : List Call} {g : CG} (hs : Settled h g) (F : ℕ × ℕ × String → K)
    (hsym : ∀ a b c, F (a, b, c) = F (b, a, c)) (hloop : ∀ a c, F (a, a, c) = 0) :
    (g.wc.map fun e => match g.cmap.get? e with | some c => F (e.1, e.2.1, c) | none => 0).sum =
      ((conductors (branches h)).map F).sum := by
  obtain ⟨hnames, _, _⟩ := C21_names hs
  -- the value belonging to a name
  let G : String → K := fun c => match (branches h).find? (fun b => b.2.2 = c) with | some b => F b | none => 0
  have hG : ∀ b ∈ branches h, G b.2.2 = F b := by
    intro b hb
    simp only [G]
    cases hf : (branches h).find? (fun b' => b'.2.2 = b.2.2) with
    | none => exact absurd (List.find?_eq_none.1 hf b hb) (by simp)
    | some b' =>
      have h1 := List.mem_of_find?_eq_some hf
      have h2 := List.find?_some hf
      rw [List.inj_on_of_nodup_map hnames h1 hb (by simpa using h2)]
  have sel : ∀ {α : Type} (l : List α) (P : α → Bool) (f : α → K), (∀ a ∈ l, P a = false → f a = 0) →
      (l.map f).sum = ((l.filter P).map f).sum := by
    intro α l P f hP
    induction l with
    | nil => rfl
    | cons a l ih =>
      rw [List.filter_cons]
      have ih := ih fun a ha => hP a (List.mem_cons_of_mem _ ha)
      cases hp : P a with
      | true => simp [ih]
      | false => simp [ih, hP a (by simp) hp]
  have nm : ∀ e ∈ g.wc, ∃ b ∈ conductors (branches h), IsBranch e b ∧ g.cmap.get? e = some b.2.2 := fun e he => wc_branch hs he
  rw [sel g.wc (fun e => e.1 ≠ e.2.1), sel (conductors (branches h)) (fun b => b.1 ≠ b.2.1)]
  · -- both lists have the same names
    let name : Edge → String := fun e => (g.cmap.get? e).getD ""
    have e1 : ((g.wc.filter fun e => e.1 ≠ e.2.1).map fun e => match g.cmap.get? e with | some c => F (e.1, e.2.1, c) | none => 0) =
        ((g.wc.filter fun e => e.1 ≠ e.2.1).map name).map G := by
      rw [List.map_map]
      apply List.map_congr_left
      intro e he
      obtain ⟨b, hb, hbr, hc⟩ := nm e (List.mem_filter.1 he).1
      simp only [Function.comp, name, hc, Option.getD_some]
      rw [hG b (List.mem_filter.1 hb).1]
      rcases hbr with ⟨h1, h2⟩ | ⟨h1, h2⟩ <;> rw [h1, h2]
      exact hsym _ _ _
    have e2 : ((conductors (branches h)).filter fun b => b.1 ≠ b.2.1).map F =
        (((conductors (branches h)).filter fun b => b.1 ≠ b.2.1).map fun b => b.2.2).map G := by
      rw [List.map_map]
      apply List.map_congr_left
      intro b hb
      exact (hG b (List.mem_filter.1 (List.mem_filter.1 hb).1).1).symm
    rw [e1, e2]
    refine (List.Perm.map G ?_).sum_eq
    rw [List.perm_ext_iff_of_nodup]
    · intro c
      simp only [List.mem_map, List.mem_filter, decide_eq_true_eq]
      constructor
      · rintro ⟨e, ⟨he, hne⟩, rfl⟩
        obtain ⟨b, hb, hbr, hc⟩ := nm e he
        refine ⟨b, ⟨hb, ?_⟩, by simp [name, hc]⟩
        rcases hbr with ⟨h1, h2⟩ | ⟨h1, h2⟩
        · rw [← h1, ← h2]; exact hne
        · rw [← h1, ← h2]; exact hne.symm
      · rintro ⟨b, ⟨hb, hne⟩, rfl⟩
        obtain ⟨e, he, hc⟩ := conductor_in_wc_ne hs hb hne
        refine ⟨e, ⟨he, ?_⟩, by simp [name, hc]⟩
        obtain ⟨b', hb', hbr, hc'⟩ := nm e he
        have : b' = b := List.inj_on_of_nodup_map hnames (List.mem_filter.1 hb').1 (List.mem_filter.1 hb).1
          (Option.some.inj (hc'.symm.trans hc))
        subst this
        rcases hbr with ⟨h1, h2⟩ | ⟨h1, h2⟩ <;> rw [h1, h2]
        · exact hne
        · exact hne.symm
    · rw [List.nodup_map_iff_inj_on ((wc_nodup hs).filter _)]
      intro x hx y hy hxy
      obtain ⟨b, _, _, hc⟩ := nm x (List.mem_filter.1 hx).1
      obtain ⟨b', _, _, hc'⟩ := nm y (List.mem_filter.1 hy).1
      simp only [name, hc, hc', Option.getD_some] at hxy
      exact wc_name_inj hs (List.mem_filter.1 hx).1 (List.mem_filter.1 hy).1 hc (by rw [hc', hxy])
    · have : ((branches h).map fun b => b.2.2).Nodup := hnames
      exact (this.sublist (List.Sublist.map _ ((List.filter_sublist).trans List.filter_sublist)))
  · intro b hb hne
    obtain ⟨x, y, c⟩ := b
    simp at hne
    rw [hne]; exact hloop _ _
  · intro e he hne
    simp at hne
    cases g.cmap.get? e with
    | none => rfl
    | some c => simp only; rw [hne]; exact hloop _ _

/-! ### Branch fluxes -/

theorem sum_pick [CommRing K] {ns : List Node} (hn : ns.Nodup) (φ : ℕ → K) (h0 : φ 0 = 0) (a : Node) (ha : a ≠ 0 → a ∈ ns) :
    ∑ i : Fin ns.length, (if a = ns.get i then 1 else 0) * φ (ns.get i) = φ a := by
  have h1 : ∑ i : Fin ns.length, (if a = ns.get i then 1 else 0) * φ (ns.get i) = (ns.map fun n => (if a = n then 1 else 0) * φ n).sum :=
    Fin.sum_univ_fun_getElem ns fun n => (if a = n then 1 else 0) * φ n
  rw [h1]
  have h2 : (ns.map fun n => (if a = n then 1 else 0) * φ n) = ns.map fun n => if n = a then φ a else 0 := by
    apply List.map_congr_left
    intro n _
    by_cases h : n = a
    · subst h; simp
    · rw [if_neg h, if_neg fun h' => h h'.symm]; ring
  rw [h2]
  by_cases h : a = 0
  · subst h
    rw [h0]
    apply List.sum_eq_zero
    intro y hy
    obtain ⟨n, _, rfl⟩ := List.mem_map.1 hy
    split_ifs <;> rfl
  · exact sum_ite_unique _ a ns hn (ha h)

theorem incidence_eq [Ring K] (g : CG) (i : Fin (nodes g).length) (j : Fin (edges g).length) :
    Mat.block (K := K) (incidence g) (nodes g).length (edges g).length i j =
      (if ((edges g).get j).1 = (nodes g).get i then 1 else 0) - (if ((edges g).get j).2.1 = (nodes g).get i then 1 else 0) := by
  unfold Mat.block incidence
  rw [List.getElem?_eq_getElem i.2, List.getElem?_eq_getElem j.2]
  rfl

theorem branchFluxes_eq [CommRing K] {h : List Call} {g : CG} (hs : Settled h g) (φ : ℕ → K) (h0 : φ 0 = 0) (j : Fin (edges g).length) :
    branchFluxes g (fun i => φ ((nodes g).get i)) j = φ ((edges g).get j).1 - φ ((edges g).get j).2.1 := by
  obtain ⟨o, f⟩ := settled_facts hs
  have hw := f.inv.toWF
  have hnd := nodes_nodup hw
  have hin : (edges g).get j ∈ g.wc := List.get_mem _ _
  obtain ⟨ha, hb⟩ := wc_ends hs hin
  unfold branchFluxes Matrix.mulVec dotProduct
  simp only [Matrix.transpose_apply, incidence_eq, sub_mul, Finset.sum_sub_distrib]
  rw [sum_pick hnd φ h0 _ fun h => (mem_nodes hw _).2 ⟨ha, h⟩, sum_pick hnd φ h0 _ fun h => (mem_nodes hw _).2 ⟨hb, h⟩]

/-! ### The branch inductance matrix -/

/-- The inductance of a branch, if it is an inductor. -/
def indVal (val : String → K) (g : CG) (e : Edge) : Option K :=
  match g.cmap.get? e with
  | some c => if pre c = some 'L' then some (val c) else none
  | none => none

theorem indDiag_ok {val : String → K} {g : CG} {M M' : Mat K} {p : Edge × ℕ} (h : indDiag val g M p = .ok M') :
    M' = match indVal val g p.1 with | some x => M.setAt p.2 p.2 x | none => M := by
  unfold indDiag at h
  unfold indVal
  cases hc : g.cmap.get? p.1 with
  | none => rw [hc] at h; cases h
  | some c =>
    rw [hc] at h
    simp only at h ⊢
    by_cases hp : pre c = some 'L'
    · rw [if_pos hp] at h ⊢
      cases hb : g.fluxBias.get? p.1 with
      | none => rw [hb] at h; exact (Except.ok.inj h).symm
      | some b =>
        rw [hb] at h
        simp only at h
        cases hm : b.comp with
        | none => rw [hm] at h; exact (Except.ok.inj h).symm
        | some m => rw [hm] at h; cases h
    · rw [if_neg hp] at h ⊢
      exact (Except.ok.inj h).symm

theorem foldlM_indDiag {val : String → K} {g : CG} : ∀ (l : List Edge) (k : ℕ) (M M' : Mat K),
    (l.zipIdx k).foldlM (indDiag val g) M = .ok M' → ∀ a b,
      M' a b = if a = b ∧ k ≤ a then ((l[a - k]?).bind (indVal val g)).getD (M a b) else M a b := by
  intro l
  induction l with
  | nil => intro k M M' h a b; cases Except.ok.inj h; simp
  | cons e l ih =>
    intro k M M' h a b
    rw [List.zipIdx_cons, List.foldlM_cons] at h
    cases hd : indDiag val g M (e, k) with
    | error x => rw [hd] at h; cases h
    | ok M1 =>
      rw [hd] at h
      rw [ih (k + 1) M1 M' h a b]
      have h1 := indDiag_ok hd
      simp only at h1
      by_cases hab : a = b
      · subst hab
        by_cases hk : k + 1 ≤ a
        · rw [if_pos ⟨rfl, hk⟩, if_pos ⟨rfl, by omega⟩]
          have : a - k = (a - (k + 1)) + 1 := by omega
          rw [this, List.getElem?_cons_succ]
          congr 1
          rw [h1]
          cases indVal val g e with
          | none => rfl
          | some x => simp only [Mat.setAt]; rw [if_neg]; omega
        · rw [if_neg (by omega)]
          by_cases hka : k = a
          · subst hka
            rw [if_pos ⟨rfl, le_refl _⟩]
            simp only [Nat.sub_self, List.getElem?_cons_zero, Option.bind_some]
            rw [h1]
            cases indVal val g e with
            | none => rfl
            | some x => simp [Mat.setAt]
          · rw [if_neg (by omega), h1]
            cases indVal val g e with
            | none => rfl
            | some x => simp only [Mat.setAt]; rw [if_neg]; omega
      · rw [if_neg (by tauto), if_neg (by tauto), h1]
        cases indVal val g e with
        | none => rfl
        | some x => simp only [Mat.setAt]; rw [if_neg]; omega

theorem indOff_ok {val : String → K} {g : CG} {M M' : Mat K} {q : String × (Edge × Edge)} (h : indOff val g M q = .ok M') :
    q.2.1 ∈ edges g ∧ q.2.2 ∈ edges g ∧
    M' = (M.setAt ((edges g).idxOf q.2.1) ((edges g).idxOf q.2.2) (val q.1)).setAt ((edges g).idxOf q.2.2) ((edges g).idxOf q.2.1) (val q.1) := by
  unfold indOff at h
  split_ifs at h with h1
  push Not at h1
  exact ⟨h1.1, h1.2, (Except.ok.inj h).symm⟩

/-- The pair of branches that a coupling names. -/
def pairs (g : CG) (q : String × (Edge × Edge)) (a b : ℕ) : Prop :=
  (a = (edges g).idxOf q.2.1 ∧ b = (edges g).idxOf q.2.2) ∨ (a = (edges g).idxOf q.2.2 ∧ b = (edges g).idxOf q.2.1)

theorem pairs_symm {g : CG} {q : String × (Edge × Edge)} {a b : ℕ} : pairs g q a b ↔ pairs g q b a := by unfold pairs; tauto

/-- Entries after the couplings: the value of a coupling that names the pair, or the entry before. -/
theorem foldlM_indOff {val : String → K} {g : CG} : ∀ (l : List (String × (Edge × Edge))) (M M' : Mat K),
    l.foldlM (indOff val g) M = .ok M' →
      (∀ q ∈ l, q.2.1 ∈ edges g ∧ q.2.2 ∈ edges g) ∧
      (∀ a b, ((∀ q ∈ l, ¬ pairs g q a b) ∧ M' a b = M a b) ∨ ∃ q ∈ l, pairs g q a b ∧ M' a b = val q.1) ∧
      ((∀ a b, M a b = M b a) → ∀ a b, M' a b = M' b a) := by
  intro l
  induction l with
  | nil =>
    intro M M' h
    cases Except.ok.inj h
    exact ⟨by simp, fun a b => Or.inl ⟨by simp, rfl⟩, fun h => h⟩
  | cons q l ih =>
    intro M M' h
    rw [List.foldlM_cons] at h
    cases hd : indOff val g M q with
    | error x => rw [hd] at h; cases h
    | ok M1 =>
      rw [hd] at h
      obtain ⟨i1, i2, i3⟩ := ih M1 M' h
      obtain ⟨h1, h2, h3⟩ := indOff_ok hd
      refine ⟨?_, ?_, ?_⟩
      · intro q' hq'
        rcases List.mem_cons.1 hq' with rfl | hq'
        · exact ⟨h1, h2⟩
        · exact i1 q' hq'
      · intro a b
        rcases i2 a b with ⟨hn, he⟩ | ⟨q', hq', hp, he⟩
        · by_cases hp : pairs g q a b
          · refine Or.inr ⟨q, by simp, hp, ?_⟩
            rw [he, h3]
            unfold pairs at hp
            unfold Mat.setAt
            rcases hp with ⟨rfl, rfl⟩ | ⟨rfl, rfl⟩ <;> simp
          · refine Or.inl ⟨?_, ?_⟩
            · intro q' hq'
              rcases List.mem_cons.1 hq' with rfl | hq'
              · exact hp
              · exact hn q' hq'
            · rw [he, h3]
              unfold pairs at hp
              unfold Mat.setAt
              rw [if_neg (by tauto), if_neg (by tauto)]
        · exact Or.inr ⟨q', List.mem_cons_of_mem _ hq', hp, he⟩
      · intro hM
        apply i3
        intro a b
        rw [h3]
        unfold Mat.setAt
        generalize (edges g).idxOf q.2.1 = i
        generalize (edges g).idxOf q.2.2 = j
        by_cases h : (a = j ∧ b = i) ∨ (a = i ∧ b = j)
        · rcases h with ⟨rfl, rfl⟩ | ⟨rfl, rfl⟩ <;> simp
        · rw [if_neg (by tauto), if_neg (by tauto), if_neg (by tauto), if_neg (by tauto)]; exact hM a b

theorem branchInductance_ok [Zero K] {val : String → K} {g : CG} {M : Mat K} (h : branchInductance val g = .ok M) :
    (∀ q ∈ g.coupled, q.2.1 ∈ edges g ∧ q.2.2 ∈ edges g) ∧
    (∀ a b, ((∀ q ∈ g.coupled, ¬ pairs g q a b) ∧ M a b = if a = b then (((edges g)[a]?).bind (indVal val g)).getD 0 else 0) ∨
      ∃ q ∈ g.coupled, pairs g q a b ∧ M a b = val q.1) ∧
    ∀ a b, M a b = M b a := by
  unfold branchInductance at h
  cases hd : (edges g).zipIdx.foldlM (indDiag val g) (fun _ _ => 0) with
  | error x => rw [hd] at h; cases h
  | ok M0 =>
    rw [hd] at h
    have h0 := foldlM_indDiag (edges g) 0 _ _ hd
    have h0' : ∀ a b, M0 a b = if a = b then (((edges g)[a]?).bind (indVal val g)).getD 0 else 0 := by
      intro a b; rw [h0]; simp
    obtain ⟨h1, h2, h3⟩ := foldlM_indOff _ _ _ h
    refine ⟨h1, ?_, h3 ?_⟩
    · intro a b
      rcases h2 a b with ⟨hn, he⟩ | h
      · exact Or.inl ⟨hn, by rw [he, h0']⟩
      · exact Or.inr h
    · intro a b
      rw [h0', h0']
      by_cases hab : a = b
      · subst hab; rfl
      · rw [if_neg hab, if_neg fun h => hab h.symm]

/-! ### Pseudo-inverses -/

section Pinv

variable {n : ℕ} [Field K] {A B C : Matrix (Fin n) (Fin n) K}

open Matrix

theorem pinv_unique (hB : IsPinv A B) (hC : IsPinv A C) : B = C := by
  have h1 : A * B = A * C := by
    calc A * B = (A * B)ᵀ := hB.ab.symm
      _ = Bᵀ * Aᵀ := by rw [transpose_mul]
      _ = Bᵀ * (A * C * A)ᵀ := by rw [hC.aba]
      _ = Bᵀ * (Aᵀ * (A * C)ᵀ) := by rw [transpose_mul (A * C) A]
      _ = (A * B)ᵀ * (A * C)ᵀ := by rw [← Matrix.mul_assoc, ← transpose_mul]
      _ = A * B * (A * C) := by rw [hB.ab, hC.ab]
      _ = A * B * A * C := by rw [← Matrix.mul_assoc]
      _ = A * C := by rw [hB.aba]
  have h2 : B * A = C * A := by
    calc B * A = (B * A)ᵀ := hB.ba.symm
      _ = Aᵀ * Bᵀ := by rw [transpose_mul]
      _ = (A * C * A)ᵀ * Bᵀ := by rw [hC.aba]
      _ = (A * (C * A))ᵀ * Bᵀ := by rw [Matrix.mul_assoc]
      _ = ((C * A)ᵀ * Aᵀ) * Bᵀ := by rw [transpose_mul A (C * A)]
      _ = (C * A)ᵀ * (B * A)ᵀ := by rw [Matrix.mul_assoc, ← transpose_mul]
      _ = C * A * (B * A) := by rw [hB.ba, hC.ba]
      _ = C * (A * B * A) := by simp only [Matrix.mul_assoc]
      _ = C * A := by rw [hB.aba]
  calc B = B * A * B := hB.bab.symm
    _ = B * (A * B) := by rw [Matrix.mul_assoc]
    _ = B * (A * C) := by rw [h1]
    _ = B * A * C := by rw [← Matrix.mul_assoc]
    _ = C * A * C := by rw [h2]
    _ = C := hC.bab

theorem pinv_symm (hA : Aᵀ = A) (hB : IsPinv A B) : Bᵀ = B := by
  apply pinv_unique (A := A) _ hB
  refine ⟨?_, ?_, ?_, ?_⟩
  · have := congrArg transpose hB.aba
    rw [transpose_mul, transpose_mul, hA] at this
    rw [Matrix.mul_assoc]; exact this
  · have := congrArg transpose hB.bab
    rw [transpose_mul, transpose_mul, hA] at this
    rw [Matrix.mul_assoc]; exact this
  · have := hB.ba
    rw [transpose_mul, hA] at this
    rw [transpose_mul, transpose_transpose, hA]; exact this.symm
  · have := hB.ab
    rw [transpose_mul, hA] at this
    rw [transpose_mul, transpose_transpose, hA]; exact this.symm

/-- Fluxes that a symmetric matrix annihilates do not matter for the form of the pseudo-inverse. -/
theorem pinv_form (hA : Aᵀ = A) (hB : IsPinv A B) (I z : Fin n → K) (hz : A.mulVec z = 0) :
    (A.mulVec I + z) ⬝ᵥ B.mulVec (A.mulVec I + z) = I ⬝ᵥ A.mulVec I := by
  have hBz : B.mulVec z = 0 := by
    calc B.mulVec z = (B * A * B).mulVec z := by rw [hB.bab]
      _ = (B * (A * B)).mulVec z := by rw [Matrix.mul_assoc]
      _ = (B * (A * B)ᵀ).mulVec z := by rw [hB.ab]
      _ = (B * (Bᵀ * A)).mulVec z := by rw [transpose_mul, hA]
      _ = B.mulVec (Bᵀ.mulVec (A.mulVec z)) := by rw [mulVec_mulVec, mulVec_mulVec, ← Matrix.mul_assoc]
      _ = 0 := by rw [hz, mulVec_zero, mulVec_zero]
  have hsym := pinv_symm hA hB
  rw [mulVec_add, hBz, add_zero, add_dotProduct]
  have h1 : z ⬝ᵥ B.mulVec (A.mulVec I) = 0 := by
    rw [dotProduct_mulVec, ← hsym, vecMul_transpose, hBz, zero_dotProduct]
  rw [h1, add_zero]
  calc A.mulVec I ⬝ᵥ B.mulVec (A.mulVec I) = I ⬝ᵥ A.mulVec (B.mulVec (A.mulVec I)) := by
        rw [dotProduct_comm, dotProduct_mulVec, dotProduct_comm, ← mulVec_transpose, hA]
    _ = I ⬝ᵥ (A * B * A).mulVec I := by rw [mulVec_mulVec, mulVec_mulVec]
    _ = I ⬝ᵥ A.mulVec I := by rw [hB.aba]

end Pinv

end Verif.Sym
