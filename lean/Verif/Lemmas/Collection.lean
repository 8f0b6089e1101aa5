import Verif.Spec.Collection
import Verif.Lemmas.DiGraph
import Mathlib.Tactic

/-! # Supporting lemmas for `ParamCollection` -/

set_option linter.unusedSectionVars false
set_option linter.unusedVariables false

namespace Verif

open Verif.Spec

namespace PC

variable {E D : Type}

/-! ### Graph folds -/

theorem foldl_addEdge_adj (names : List String) (name : String) : ∀ (g : DiGraph String) (a b : String),
    (names.foldl (fun g p => g.addEdge p name) g).Adj a b ↔ g.Adj a b ∨ (a ∈ names ∧ b = name) := by
  induction names with
  | nil => intro g a b; simp
  | cons p ps ih =>
    intro g a b
    rw [List.foldl_cons, ih, DiGraph.addEdge_adj]
    simp only [List.mem_cons]
    tauto

theorem foldl_addEdge_mem (names : List String) (name : String) : ∀ (g : DiGraph String) (m : String),
    m ∈ (names.foldl (fun g p => g.addEdge p name) g).nodes ↔
      m ∈ g.nodes ∨ m ∈ names ∨ (names ≠ [] ∧ m = name) := by
  induction names with
  | nil => intro g m; simp
  | cons p ps ih =>
    intro g m
    rw [List.foldl_cons, ih, DiGraph.mem_addEdge]
    simp only [List.mem_cons, ne_eq, reduceCtorEq, not_false_eq_true, true_and]
    tauto

theorem foldl_addEdge_wf (names : List String) (name : String) : ∀ (g : DiGraph String), g.WF →
    (names.foldl (fun g p => g.addEdge p name) g).WF := by
  induction names with
  | nil => intro g h; exact h
  | cons p ps ih => intro g h; exact ih _ (DiGraph.wf_addEdge h _ _)

theorem removeEdges_spec (name : String) : ∀ (ps : List String) (g : DiGraph String), g.WF →
    (removeEdges g name ps).1.WF ∧ (removeEdges g name ps).1.nodes = g.nodes ∧
    (∀ a b, (removeEdges g name ps).1.Adj a b → g.Adj a b) ∧
    (∀ a b, b ≠ name → g.Adj a b → (removeEdges g name ps).1.Adj a b) ∧
    ((removeEdges g name ps).2 = .ok () → ∀ a b, (removeEdges g name ps).1.Adj a b ↔
        g.Adj a b ∧ ¬ (a ∈ ps ∧ b = name)) ∧
    (ps.Nodup → (∀ p ∈ ps, g.Adj p name) → (removeEdges g name ps).2 = .ok ()) := by
  intro ps
  induction ps with
  | nil => intro g h; simp [removeEdges, h]
  | cons p ps ih =>
    intro g h
    unfold removeEdges
    cases hr : g.removeEdge? p name with
    | none =>
      refine ⟨h, rfl, fun _ _ h => h, fun _ _ _ h => h, by simp, ?_⟩
      intro _ hp
      obtain ⟨g', hg'⟩ := DiGraph.removeEdge?_isSome (hp p (by simp))
      rw [hr] at hg'; cases hg'
    | some g' =>
      simp only
      have hadj := DiGraph.removeEdge?_adj hr
      obtain ⟨i1, i2, i3, i4, i5, i6⟩ := ih g' (DiGraph.wf_removeEdge? h hr)
      refine ⟨i1, by rw [i2, DiGraph.removeEdge?_nodes hr], ?_, ?_, ?_, ?_⟩
      · intro a b hab; exact ((hadj a b).1 (i3 a b hab)).1
      · intro a b hb hab
        exact i4 a b hb ((hadj a b).2 ⟨hab, fun hc => hb hc.2⟩)
      · intro hok a b
        rw [i5 hok a b, hadj]
        simp only [List.mem_cons]
        tauto
      · intro hnd hp
        rw [List.nodup_cons] at hnd
        apply i6 hnd.2
        intro q hq
        rw [hadj]
        refine ⟨hp q (by simp [hq]), ?_⟩
        rintro ⟨rfl, -⟩
        exact hnd.1 hq

/-! ### What each call leaves alone -/

theorem update_frame (eng : Engine E) (ho : HashOrder) (fuel : ℕ) (st : PC E) :
    (updateParameterisations eng ho fuel st).1.symMap = st.symMap ∧
    (updateParameterisations eng ho fuel st).1.parz = st.parz ∧
    (updateParameterisations eng ho fuel st).1.graph = st.graph := by
  unfold updateParameterisations
  simp only
  split <;> simp

theorem setParameterValue_frame (eng : Engine E) (ho : HashOrder) (fuel : ℕ) (st : PC E) (n : String)
    (v : PyVal) :
    (setParameterValue eng ho fuel st n v).1.symMap = st.symMap ∧
    (setParameterValue eng ho fuel st n v).1.parz = st.parz ∧
    (setParameterValue eng ho fuel st n v).1.graph = st.graph := by
  unfold setParameterValue
  split
  · simp
  · split_ifs
    · simp
    · split
      · simp
      · rename_i p' _
        exact update_frame eng ho fuel { st with coll := st.coll.set n p' }

theorem setPairs_frame : ∀ (l : List (Option String × PyVal)) (st : PC E),
    (setPairs st l).1.symMap = st.symMap ∧ (setPairs st l).1.parz = st.parz ∧
    (setPairs st l).1.graph = st.graph := by
  intro l
  induction l with
  | nil => intro st; simp [setPairs]
  | cons x l ih =>
    intro st
    obtain ⟨n, v⟩ := x
    cases n with
    | none => simp [setPairs]
    | some n =>
      unfold setPairs
      split
      · simp
      · split_ifs
        · exact ih st
        · split
          · simp
          · exact ih _

theorem setParameterValues_frame (eng : Engine E) (ho : HashOrder) (fuel : ℕ) (st : PC E)
    (args : List BulkArg) :
    (setParameterValues eng ho fuel st args).1.symMap = st.symMap ∧
    (setParameterValues eng ho fuel st args).1.parz = st.parz ∧
    (setParameterValues eng ho fuel st args).1.graph = st.graph := by
  unfold setParameterValues
  split
  · simp
  · rename_i pairs _
    have h := setPairs_frame pairs st
    split
    · rename_i st' e heq; rw [heq] at h; exact h
    · rename_i st' heq
      rw [heq] at h
      have := update_frame eng ho fuel st'
      simp only at h
      rw [this.1, this.2.1, this.2.2]
      exact h

/-! ### The invariant of all histories -/

/-- Holds after every history, clean or not. -/
structure Inv (st : PC E) : Prop where
  wf : st.graph.WF
  acyclic : st.graph.Acyclic
  recorded : ∀ n ex ns, st.parz.get? n = some (ex, ns) → ∀ m ∈ ns, st.graph.Adj m n
  nodupNames : ∀ n ex ns, st.parz.get? n = some (ex, ns) → ns.Nodup

theorem foldlM_init_cons (n : String) (ns : List String) (st st' : PC E)
    (h : (n :: ns).foldlM initOne st = .ok st') :
    ∃ p, Param.new n = .ok p ∧ ns.foldlM initOne { st with coll := st.coll.set n p
                                                           symMap := st.symMap.set n p.symbol
                                                           graph := st.graph.addNode n } = .ok st' := by
  rw [List.foldlM_cons] at h
  cases hp : Param.new n with
  | error e => simp [initOne, hp, bind, Except.bind] at h
  | ok p =>
    refine ⟨p, rfl, ?_⟩
    simpa [initOne, hp, bind, Except.bind] using h

theorem foldlM_init_inv : ∀ (names : List String) (st st' : PC E), st.Inv → st.parz = [] →
    names.foldlM initOne st = .ok st' → st'.Inv ∧ st'.parz = [] := by
  intro names
  induction names with
  | nil =>
    intro st st' h h0 he
    simp only [List.foldlM_nil] at he
    cases he; exact ⟨h, h0⟩
  | cons n ns ih =>
    intro st st' h h0 he
    obtain ⟨p, hp, he⟩ := foldlM_init_cons n ns st st' he
    refine ih _ st' ?_ (by simpa using h0) he
    refine ⟨DiGraph.wf_addNode h.wf _, ?_, ?_, ?_⟩
    · exact h.acyclic.mono (by intro a b hab; simpa [DiGraph.Adj] using hab)
    · intro n ex ns hn; simp [h0] at hn
    · intro n ex ns hn; simp [h0] at hn

theorem Inv.congr {st st' : PC E} (h : st.Inv) (h1 : st'.parz = st.parz) (h2 : st'.graph = st.graph) :
    st'.Inv := by
  refine ⟨?_, ?_, ?_, ?_⟩
  · rw [h2]; exact h.wf
  · rw [h2]; exact h.acyclic
  · rw [h1, h2]; exact h.recorded
  · rw [h1]; exact h.nodupNames

theorem new_inv {names : List String} {st : PC E} (h : PC.new names = .ok st) : st.Inv := by
  refine (foldlM_init_inv names _ st ?_ rfl h).1
  refine ⟨DiGraph.wf_empty, ?_, ?_, ?_⟩
  · intro x hx
    obtain ⟨y, -, hy⟩ := Relation.TransGen.tail'_iff.1 hx
    simp [DiGraph.Adj, DiGraph.empty] at hy
  · intro n ex ns hn; simp at hn
  · intro n ex ns hn; simp at hn

/-- The names found for a list of symbols carry these symbols, in order. -/
theorem symbolNames_spec (st : PC E) : ∀ (l : List Sym) (ns : List String),
    st.symbolNames l = .ok ns → List.Forall₂ (fun s n => st.revMap s = some n) l ns := by
  intro l
  induction l with
  | nil => intro ns h; simp [symbolNames] at h; subst h; exact List.Forall₂.nil
  | cons s ss ih =>
    intro ns h
    unfold symbolNames at h
    split at h
    · cases h
    · rename_i n hn
      split at h
      · cases h
      · rename_i ns' hns'
        simp only [Except.ok.injEq] at h
        subst h
        exact List.Forall₂.cons hn (ih _ hns')

theorem symbolNames_error_iff (st : PC E) : ∀ (l : List Sym),
    (∃ e, st.symbolNames l = .error e) ↔ ∃ s ∈ l, st.revMap s = none := by
  intro l
  induction l with
  | nil => simp [symbolNames]
  | cons s ss ih =>
    unfold symbolNames
    cases hs : st.revMap s with
    | none => simp [hs]
    | some n =>
      simp only [List.mem_cons, exists_eq_or_imp, hs]
      rw [← (by rw [ih] : (∃ e, st.symbolNames ss = .error e) ↔ ∃ s ∈ ss, st.revMap s = none)]
      cases hns : st.symbolNames ss with
      | error e => simp
      | ok ns => simp

theorem revMap_some {st : PC E} {s : Sym} {n : String} (h : st.revMap s = some n) :
    (n, s) ∈ st.symMap := by
  unfold revMap at h
  rw [Option.map_eq_some_iff] at h
  obtain ⟨⟨a, b⟩, hf, rfl⟩ := h
  have h1 := List.find?_some hf
  have h2 := List.mem_of_find?_eq_some hf
  simp only [decide_eq_true_eq] at h1
  subst h1
  simpa using h2

theorem revMap_none_iff {st : PC E} {s : Sym} : st.revMap s = none ↔ s ∉ st.symMap.values := by
  unfold revMap Dict.values
  rw [Option.map_eq_none_iff, List.find?_eq_none]
  simp only [List.mem_reverse, decide_eq_true_eq, Prod.forall, List.mem_map, Prod.exists,
    exists_eq_right, not_exists]
  constructor
  · intro h x hx; exact h x s hx rfl
  · rintro h a b hab rfl; exact h a hab

/-- Distinct symbols have distinct names. -/
theorem symbolNames_nodup (st : PC E) (hk : st.symMap.keys.Nodup) {l : List Sym} {ns : List String}
    (hl : l.Nodup) (h : st.symbolNames l = .ok ns) : ns.Nodup := by
  have h2 := symbolNames_spec st l ns h
  clear h
  induction h2 with
  | nil => simp
  | cons hsn htl ih =>
    rename_i s n ss ns
    rw [List.nodup_cons] at hl ⊢
    refine ⟨?_, ih hl.2⟩
    intro hn
    apply hl.1
    have hs := Dict.get?_of_mem hk (revMap_some hsn)
    -- the symbol at the position of n in ns is also the symbol of n
    have : ∃ t ∈ ss, st.revMap t = some n := by
      clear ih hl
      induction htl with
      | nil => simp at hn
      | cons h1 h2 ih2 =>
        rename_i t m ts ms
        rcases List.mem_cons.1 hn with rfl | hn
        · exact ⟨t, by simp, h1⟩
        · obtain ⟨u, hu, hu2⟩ := ih2 hn; exact ⟨u, by simp [hu], hu2⟩
    obtain ⟨t, ht, htn⟩ := this
    have ht2 := Dict.get?_of_mem hk (revMap_some htn)
    rw [hs] at ht2
    cases ht2
    exact ht

/-- Names and symbols stay in step: no key occurs twice in the dictionaries. -/
structure KeysInv (st : PC E) : Prop where
  symKeys : st.symMap.keys.Nodup
  collKeys : st.coll.keys.Nodup
  parzKeys : st.parz.keys.Nodup

theorem storeOne_keys (eng : Engine E) (coll : Dict String Param) (kv : String × Option E) :
    (storeOne eng coll kv).keys = coll.keys := by
  unfold storeOne
  split
  · rfl
  · split
    · rfl
    · split
      · rfl
      · rename_i p hp
        exact Dict.keys_set_of_mem _ (Dict.mem_keys_of_get? hp)

theorem foldl_storeOne_keys (eng : Engine E) : ∀ (vals : Dict String (Option E)) (coll : Dict String Param),
    (vals.foldl (storeOne eng) coll).keys = coll.keys := by
  intro vals
  induction vals with
  | nil => intro coll; rfl
  | cons kv vals ih => intro coll; rw [List.foldl_cons, ih, storeOne_keys]

theorem update_keys (eng : Engine E) (ho : HashOrder) (fuel : ℕ) (st : PC E) :
    (updateParameterisations eng ho fuel st).1.coll.keys = st.coll.keys := by
  unfold updateParameterisations
  simp only
  split
  · rfl
  · exact foldl_storeOne_keys eng _ _

theorem setParameterValue_keys (eng : Engine E) (ho : HashOrder) (fuel : ℕ) (st : PC E) (n : String)
    (v : PyVal) : (setParameterValue eng ho fuel st n v).1.coll.keys = st.coll.keys := by
  unfold setParameterValue
  split
  · rfl
  · rename_i p hp
    split_ifs
    · rfl
    · split
      · rfl
      · rw [update_keys]
        exact Dict.keys_set_of_mem _ (Dict.mem_keys_of_get? hp)

theorem setPairs_keys : ∀ (l : List (Option String × PyVal)) (st : PC E),
    (setPairs st l).1.coll.keys = st.coll.keys := by
  intro l
  induction l with
  | nil => intro st; rfl
  | cons x l ih =>
    intro st
    obtain ⟨n, v⟩ := x
    cases n with
    | none => rfl
    | some n =>
      unfold setPairs
      split
      · rfl
      · rename_i p hp
        split_ifs
        · exact ih st
        · split
          · rfl
          · rw [ih]; exact Dict.keys_set_of_mem _ (Dict.mem_keys_of_get? hp)

theorem setParameterValues_keys (eng : Engine E) (ho : HashOrder) (fuel : ℕ) (st : PC E)
    (args : List BulkArg) : (setParameterValues eng ho fuel st args).1.coll.keys = st.coll.keys := by
  unfold setParameterValues
  split
  · rfl
  · rename_i pairs _
    have h := setPairs_keys pairs st
    split
    · rename_i st' e heq; rw [heq] at h; exact h
    · rename_i st' heq
      rw [heq] at h
      rw [update_keys]; exact h

theorem call_keysInv (eng : Engine E) (st : PC E) (c : Call E) (h : st.KeysInv) :
    (call eng st c).1.KeysInv := by
  unfold call
  cases c.op with
  | addParameter n o =>
    simp only [addParameter]
    split_ifs
    · exact h
    · split
      · exact h
      · exact ⟨Dict.nodup_keys_set h.symKeys _ _, Dict.nodup_keys_set h.collKeys _ _, h.parzKeys⟩
  | rmParameter n =>
    simp only [rmParameter]
    split_ifs
    · exact ⟨Dict.nodup_keys_del h.symKeys _, Dict.nodup_keys_del h.collKeys _, h.parzKeys⟩
    · exact h
  | setParameterValue n v =>
    have := setParameterValue_frame eng c.ho c.fuel st n v
    refine ⟨?_, ?_, ?_⟩
    · simp only; rw [this.1]; exact h.symKeys
    · simp only; rw [setParameterValue_keys]; exact h.collKeys
    · simp only; rw [this.2.1]; exact h.parzKeys
  | setParameterValues a =>
    have := setParameterValues_frame eng c.ho c.fuel st a
    refine ⟨?_, ?_, ?_⟩
    · simp only; rw [this.1]; exact h.symKeys
    · simp only; rw [setParameterValues_keys]; exact h.collKeys
    · simp only; rw [this.2.1]; exact h.parzKeys
  | addParameterisation n e =>
    simp only [addParameterisation]
    split_ifs
    · split
      · exact h
      · split_ifs
        · exact ⟨h.symKeys, h.collKeys, Dict.nodup_keys_set h.parzKeys _ _⟩
        · exact h
    · exact h
  | addParameterisationPrefactor n e =>
    simp only [addParameterisationPrefactor]
    split
    · exact h
    · exact ⟨h.symKeys, h.collKeys, Dict.nodup_keys_set h.parzKeys _ _⟩
  | rmParameterisation n =>
    simp only [rmParameterisation]
    split_ifs
    · split
      · exact h
      · split
        · exact ⟨h.symKeys, h.collKeys, h.parzKeys⟩
        · exact ⟨h.symKeys, h.collKeys, Dict.nodup_keys_del h.parzKeys _⟩
    · exact h
  | onParam n pc =>
    simp only
    split
    · exact h
    · exact ⟨h.symKeys, Dict.nodup_keys_set h.collKeys _ _, h.parzKeys⟩

theorem new_keysInv {names : List String} {st : PC E} (h : PC.new names = .ok st) : st.KeysInv := by
  have : ∀ (names : List String) (st st' : PC E), st.KeysInv → names.foldlM initOne st = .ok st' →
      st'.KeysInv := by
    intro names
    induction names with
    | nil => intro st st' h he; simp only [List.foldlM_nil] at he; cases he; exact h
    | cons n ns ih =>
      intro st st' h he
      obtain ⟨p, hp, he⟩ := foldlM_init_cons n ns st st' he
      refine ih _ st' ?_ he
      exact ⟨Dict.nodup_keys_set h.symKeys _ _, Dict.nodup_keys_set h.collKeys _ _, h.parzKeys⟩
  exact this names _ st ⟨by simp [Dict.keys], by simp [Dict.keys], by simp [Dict.keys]⟩ h

theorem call_inv (eng : Engine E) (hfree : ∀ e, (eng.free e).Nodup) (st : PC E) (c : Call E)
    (hk : st.KeysInv) (h : st.Inv) :
    (call eng st c).1.Inv := by
  unfold call
  cases c.op with
  | addParameter n o =>
    simp only [addParameter]
    split_ifs
    · exact h
    · split
      · exact h
      · refine ⟨DiGraph.wf_addNode h.wf _, ?_, ?_, ?_⟩
        · exact h.acyclic.mono (by intro a b hab; simpa [DiGraph.Adj] using hab)
        · intro n ex ns hn m hm
          have := h.recorded n ex ns hn m hm
          simpa [DiGraph.Adj] using this
        · exact h.nodupNames
  | rmParameter n =>
    simp only [rmParameter]
    split_ifs
    · exact h.congr rfl rfl
    · exact h
  | setParameterValue n v =>
    have := setParameterValue_frame eng c.ho c.fuel st n v
    exact h.congr this.2.1 this.2.2
  | setParameterValues a =>
    have := setParameterValues_frame eng c.ho c.fuel st a
    exact h.congr this.2.1 this.2.2
  | addParameterisation n e =>
    simp only [addParameterisation]
    split_ifs
    · split
      · exact h
      · rename_i names hnames
        split_ifs with hdag
        · have hwf := foldl_addEdge_wf names n st.graph h.wf
          refine ⟨hwf, (DiGraph.isDag_iff _ hwf).1 hdag, ?_, ?_⟩
          · intro n' ex ns hn m hm
            simp only at hn ⊢
            rw [foldl_addEdge_adj]
            rw [Dict.get?_set] at hn
            split_ifs at hn with hnn
            · simp only [Option.some.injEq, Prod.mk.injEq] at hn
              obtain ⟨rfl, rfl⟩ := hn
              exact Or.inr ⟨hm, hnn.symm⟩
            · exact Or.inl (h.recorded n' ex ns hn m hm)
          · intro n' ex ns hn
            simp only at hn
            rw [Dict.get?_set] at hn
            split_ifs at hn with hnn
            · simp only [Option.some.injEq, Prod.mk.injEq] at hn
              obtain ⟨rfl, rfl⟩ := hn
              exact symbolNames_nodup st hk.symKeys (hfree e) hnames
            · exact h.nodupNames n' ex ns hn
        · exact h
    · exact h
  | addParameterisationPrefactor n e =>
    simp only [addParameterisationPrefactor]
    split
    · exact h
    · rename_i ex names hn0
      refine ⟨h.wf, h.acyclic, ?_, ?_⟩
      · intro n' ex' ns hn m hm
        simp only at hn ⊢
        rw [Dict.get?_set] at hn
        split_ifs at hn with hnn
        · simp only [Option.some.injEq, Prod.mk.injEq] at hn
          obtain ⟨rfl, rfl⟩ := hn
          subst hnn
          exact h.recorded n ex names hn0 m hm
        · exact h.recorded n' ex' ns hn m hm
      · intro n' ex' ns hn
        simp only at hn
        rw [Dict.get?_set] at hn
        split_ifs at hn with hnn
        · simp only [Option.some.injEq, Prod.mk.injEq] at hn
          obtain ⟨rfl, rfl⟩ := hn
          exact h.nodupNames n ex names hn0
        · exact h.nodupNames n' ex' ns hn
  | rmParameterisation n =>
    simp only [rmParameterisation]
    split_ifs
    · split
      · exact h
      · rename_i ex names hn0
        have hs := removeEdges_spec n names st.graph h.wf
        have hok := hs.2.2.2.2.2 (h.nodupNames n ex names hn0) (h.recorded n ex names hn0)
        split
        · rename_i g e heq
          rw [heq] at hok; simp at hok
        · rename_i g heq
          rw [heq] at hs
          refine ⟨hs.1, h.acyclic.mono hs.2.2.1, ?_, ?_⟩
          · intro n' ex' ns hn m hm
            simp only at hn ⊢
            rw [Dict.get?_del] at hn
            split_ifs at hn with hnn
            exact hs.2.2.2.1 m n' (fun e => hnn e.symm) (h.recorded n' ex' ns hn m hm)
          · intro n' ex' ns hn
            simp only at hn
            rw [Dict.get?_del] at hn
            split_ifs at hn with hnn
            exact h.nodupNames n' ex' ns hn
    · exact h
  | onParam n pc =>
    simp only
    split
    · exact h
    · exact h.congr rfl rfl

theorem run_inv (eng : Engine E) (hfree : ∀ e, (eng.free e).Nodup) : ∀ (h : List (Call E)) (st : PC E),
    st.KeysInv → st.Inv → (runPC eng st h).KeysInv ∧ (runPC eng st h).Inv := by
  intro h
  induction h with
  | nil => intro st hk hi; exact ⟨hk, hi⟩
  | cons c h ih =>
    intro st hk hi
    exact ih _ (call_keysInv eng st c hk) (call_inv eng hfree st c hk hi)

end PC

end Verif
