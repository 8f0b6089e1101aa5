import Verif.Lemmas.Collection

/-! # States reached by clean histories, expansion and update -/

set_option linter.unusedSectionVars false
set_option linter.unusedVariables false

namespace Verif

open Verif.Spec

namespace PC

variable {E D : Type}

/-- The invariant of clean histories. -/
structure Good (eng : Engine E) (st : PC E) : Prop extends st.Inv, st.KeysInv where
  symInj : ∀ a b s, st.symMap.get? a = some s → st.symMap.get? b = some s → a = b
  sameKeys : ∀ n, n ∈ st.symMap.keys ↔ n ∈ st.coll.keys
  nodesColl : ∀ n, n ∈ st.graph.nodes ↔ n ∈ st.coll.keys
  parzColl : ∀ n, n ∈ st.parz.keys → n ∈ st.coll.keys
  parzSyms : ∀ n ex ns, st.parz.get? n = some (ex, ns) → ∀ s ∈ eng.free ex,
    ∃ m ∈ ns, st.symMap.get? m = some s
  edgesRecorded : ∀ a n, st.graph.Adj a n → ∃ ex ns, st.parz.get? n = some (ex, ns) ∧ a ∈ ns

theorem mem_symMap_iff {st : PC E} (hk : st.symMap.keys.Nodup) {n : String} {s : Sym} :
    (n, s) ∈ st.symMap ↔ st.symMap.get? n = some s :=
  ⟨Dict.get?_of_mem hk, Dict.mem_of_get?⟩

theorem fromSymbol_ok {st : PC E} (hk : st.symMap.keys.Nodup) {s : Sym} {m : String}
    (h : st.getParameterFromSymbol s = .ok m) : st.symMap.get? m = some s := by
  unfold getParameterFromSymbol at h
  split at h
  · cases h
  · rename_i p hp
    cases h
    have h1 := List.find?_some hp
    have h2 := List.mem_of_find?_eq_some hp
    simp only [decide_eq_true_eq] at h1
    subst h1
    exact Dict.get?_of_mem hk h2

theorem fromSymbol_isOk {st : PC E} {s : Sym} {m : String} (h : st.symMap.get? m = some s) :
    ∃ m', st.getParameterFromSymbol s = .ok m' := by
  unfold getParameterFromSymbol
  cases hf : st.symMap.find? (fun p => decide (p.2 = s)) with
  | none =>
    rw [List.find?_eq_none] at hf
    have := hf _ (Dict.mem_of_get? h)
    simp at this
  | some p => exact ⟨p.1, rfl⟩

theorem Good.fromSymbol {eng : Engine E} {st : PC E} (hg : st.Good eng) {s : Sym} {m : String} :
    st.getParameterFromSymbol s = .ok m ↔ st.symMap.get? m = some s := by
  constructor
  · exact fromSymbol_ok hg.symKeys
  · intro h
    obtain ⟨m', hm'⟩ := fromSymbol_isOk h
    rw [hm', hg.symInj m m' s h (fromSymbol_ok hg.symKeys hm')]

theorem revMap_isSome_of {st : PC E} {s : Sym} {m : String} (h : st.symMap.get? m = some s) :
    ∃ n, st.revMap s = some n := by
  cases hr : st.revMap s with
  | some n => exact ⟨n, rfl⟩
  | none =>
    rw [revMap_none_iff] at hr
    exact absurd (List.mem_map.2 ⟨_, Dict.mem_of_get? h, rfl⟩) hr

theorem param_new_symbol {n : String} {p : Param} (h : Param.new n = .ok p) :
    Param.symbolOf n = some p.symbol := by
  unfold Param.new at h
  split_ifs at h
  simp only at h
  split at h <;> try contradiction
  split at h <;> try contradiction
  split_ifs at h
  split at h <;> try contradiction
  rename_i s hs
  simp only [Except.ok.injEq] at h
  subst h
  exact hs

/-! ### Clean calls preserve `Good` -/

theorem Good.of_coll {eng : Engine E} {st st' : PC E} (hg : st.Good eng)
    (h1 : st'.symMap = st.symMap) (h2 : st'.parz = st.parz) (h3 : st'.graph = st.graph)
    (h4 : st'.coll.keys = st.coll.keys) : st'.Good eng where
  toInv := hg.toInv.congr h2 h3
  symKeys := by rw [h1]; exact hg.symKeys
  collKeys := by rw [h4]; exact hg.collKeys
  parzKeys := by rw [h2]; exact hg.parzKeys
  symInj := by rw [h1]; exact hg.symInj
  sameKeys := by rw [h1, h4]; exact hg.sameKeys
  nodesColl := by rw [h3, h4]; exact hg.nodesColl
  parzColl := by rw [h2, h4]; exact hg.parzColl
  parzSyms := by rw [h1, h2]; exact hg.parzSyms
  edgesRecorded := by rw [h2, h3]; exact hg.edgesRecorded

theorem get?_none_of_has {st : PC E} {n : String} (h : ¬ st.coll.has n = true) : n ∉ st.coll.keys := by
  rwa [Dict.has_iff] at h

theorem parametric_iff {st : PC E} {n : String} : Parametric st n ↔ n ∈ st.parz.keys := Iff.rfl

theorem parametric_iff_get {st : PC E} {n : String} :
    Parametric st n ↔ ∃ ex ns, st.parz.get? n = some (ex, ns) := by
  rw [parametric_iff, Dict.mem_keys_iff, Option.isSome_iff_exists]
  simp

theorem good_addOne {eng : Engine E} {st : PC E} (hg : st.Good eng) {n : String} {p : Param}
    (hn : n ∉ st.coll.keys) (hfresh : ∀ m, st.symMap.get? m ≠ some p.symbol) :
    Good eng { st with coll := st.coll.set n p, symMap := st.symMap.set n p.symbol,
                       graph := st.graph.addNode n } := by
  have hns : n ∉ st.symMap.keys := by rw [hg.sameKeys]; exact hn
  have hadj : ∀ a b, (st.graph.addNode n).Adj a b ↔ st.graph.Adj a b := by
    intro a b; simp [DiGraph.Adj]
  refine ⟨⟨DiGraph.wf_addNode hg.wf _, ?_, ?_, hg.nodupNames⟩,
    ⟨Dict.nodup_keys_set hg.symKeys _ _, Dict.nodup_keys_set hg.collKeys _ _, hg.parzKeys⟩,
    ?_, ?_, ?_, ?_, ?_, ?_⟩
  · exact hg.acyclic.mono (fun a b hab => (hadj a b).1 hab)
  · intro m ex ns hm k hk; exact (hadj _ _).2 (hg.recorded m ex ns hm k hk)
  · intro a b s ha hb
    simp only at ha hb
    rw [Dict.get?_set] at ha hb
    split_ifs at ha hb with h1 h2 h2
    · rw [← h1, ← h2]
    · simp only [Option.some.injEq] at ha; subst ha; exact absurd hb (hfresh b)
    · simp only [Option.some.injEq] at hb; subst hb; exact absurd ha (hfresh a)
    · exact hg.symInj a b s ha hb
  · intro m; simp only; rw [Dict.mem_keys_set, Dict.mem_keys_set, hg.sameKeys]
  · intro m; simp only; rw [DiGraph.mem_addNode, Dict.mem_keys_set, hg.nodesColl]; tauto
  · intro m hm; simp only at hm ⊢; rw [Dict.mem_keys_set]; exact Or.inr (hg.parzColl m hm)
  · intro m ex ns hm s hs
    simp only at hm ⊢
    obtain ⟨k, hk, hks⟩ := hg.parzSyms m ex ns hm s hs
    refine ⟨k, hk, ?_⟩
    rw [Dict.get?_set_ne _ _ (by rintro rfl; exact hns (Dict.mem_keys_of_get? hks))]
    exact hks
  · intro a b hab
    exact hg.edgesRecorded a b ((hadj a b).1 hab)

theorem good_addParz {eng : Engine E} (hfree : ∀ e, (eng.free e).Nodup) {st : PC E} (hg : st.Good eng)
    {n : String} {e : E} {names : List String}
    (hn : n ∈ st.coll.keys) (hnp : n ∉ st.parz.keys) (hnames : st.symbolNames (eng.free e) = .ok names)
    (hdag : (names.foldl (fun g p => g.addEdge p n) st.graph).isDag = true) :
    Good eng { st with parz := st.parz.set n (e, names),
                       graph := names.foldl (fun g p => g.addEdge p n) st.graph } := by
  have hwf := foldl_addEdge_wf names n st.graph hg.wf
  have hsn := symbolNames_spec st _ _ hnames
  have hnsym : ∀ m ∈ names, ∃ s ∈ eng.free e, st.symMap.get? m = some s := by
    intro m hm
    clear hnames hdag hwf
    generalize eng.free e = l at hsn ⊢
    induction hsn with
    | nil => simp at hm
    | cons h1 h2 ih =>
      rename_i s n' ss ns'
      rcases List.mem_cons.1 hm with rfl | hm
      · exact ⟨s, by simp, Dict.get?_of_mem hg.symKeys (revMap_some h1)⟩
      · obtain ⟨t, ht, ht2⟩ := ih hm; exact ⟨t, by simp [ht], ht2⟩
  have hsymn : ∀ s ∈ eng.free e, ∃ m ∈ names, st.symMap.get? m = some s := by
    intro s hs
    clear hnames hdag hwf hnsym
    generalize eng.free e = l at hsn hs
    induction hsn with
    | nil => simp at hs
    | cons h1 h2 ih =>
      rename_i s' n' ss ns'
      rcases List.mem_cons.1 hs with rfl | hs
      · exact ⟨n', by simp, Dict.get?_of_mem hg.symKeys (revMap_some h1)⟩
      · obtain ⟨t, ht, ht2⟩ := ih hs; exact ⟨t, by simp [ht], ht2⟩
  refine ⟨⟨hwf, (DiGraph.isDag_iff _ hwf).1 hdag, ?_, ?_⟩,
    ⟨hg.symKeys, hg.collKeys, Dict.nodup_keys_set hg.parzKeys _ _⟩, hg.symInj, hg.sameKeys,
    ?_, ?_, ?_, ?_⟩
  · intro n' ex ns hn m hm
    simp only at hn ⊢
    rw [foldl_addEdge_adj]
    rw [Dict.get?_set] at hn
    split_ifs at hn with hnn
    · simp only [Option.some.injEq, Prod.mk.injEq] at hn
      obtain ⟨rfl, rfl⟩ := hn
      exact Or.inr ⟨hm, hnn.symm⟩
    · exact Or.inl (hg.recorded n' ex ns hn m hm)
  · intro n' ex ns hn
    simp only at hn
    rw [Dict.get?_set] at hn
    split_ifs at hn with hnn
    · simp only [Option.some.injEq, Prod.mk.injEq] at hn
      obtain ⟨rfl, rfl⟩ := hn
      exact symbolNames_nodup st hg.symKeys (hfree e) hnames
    · exact hg.nodupNames n' ex ns hn
  · intro m
    simp only
    rw [foldl_addEdge_mem, hg.nodesColl]
    constructor
    · rintro (h | h | ⟨_, rfl⟩)
      · exact h
      · obtain ⟨s, _, hs⟩ := hnsym m h
        rw [← hg.sameKeys]; exact Dict.mem_keys_of_get? hs
      · exact hn
    · exact Or.inl
  · intro m hm
    simp only at hm ⊢
    rw [Dict.mem_keys_set] at hm
    rcases hm with rfl | hm
    · exact hn
    · exact hg.parzColl m hm
  · intro n' ex ns hn' s hs
    simp only at hn' ⊢
    rw [Dict.get?_set] at hn'
    split_ifs at hn' with hnn
    · simp only [Option.some.injEq, Prod.mk.injEq] at hn'
      obtain ⟨rfl, rfl⟩ := hn'
      exact hsymn s hs
    · exact hg.parzSyms n' ex ns hn' s hs
  · intro a b hab
    simp only at hab ⊢
    rw [foldl_addEdge_adj] at hab
    rcases hab with hab | ⟨ha, rfl⟩
    · obtain ⟨ex, ns, h1, h2⟩ := hg.edgesRecorded a b hab
      have : n ≠ b := by
        rintro rfl; exact hnp (Dict.mem_keys_of_get? h1)
      exact ⟨ex, ns, by rw [Dict.get?_set_ne _ _ this]; exact h1, h2⟩
    · exact ⟨e, names, by simp, ha⟩

theorem good_call {eng : Engine E} (law : eng.Lawful D) {st : PC E} (hg : st.Good eng) (c : Call E)
    (hc : CleanCall eng st c) : (call eng st c).1.Good eng := by
  unfold CleanCall at hc
  unfold call
  cases hop : c.op with
  | addParameter n o =>
    rw [hop] at hc
    simp only [addParameter] at hc ⊢
    split_ifs with hh
    · exact hg
    · split
      · exact hg
      · rename_i p hp
        have hsym := param_new_symbol hp
        apply good_addOne hg (get?_none_of_has hh)
        intro m hm
        have := hc hh
        cases o with
        | none =>
          simp only [Option.none_or] at this
          exact this p.symbol hsym m (by simp only [getSymbol]; simp only at hm; rw [hm])
        | some s =>
          simp only [Option.some_or] at this
          exact this s rfl m (by simp only [getSymbol]; simp only at hm; rw [hm])
  | rmParameter n => rw [hop] at hc; exact hc.elim
  | setParameterValue n v =>
    have := setParameterValue_frame eng c.ho c.fuel st n v
    exact hg.of_coll this.1 this.2.1 this.2.2 (setParameterValue_keys eng c.ho c.fuel st n v)
  | setParameterValues a =>
    have := setParameterValues_frame eng c.ho c.fuel st a
    exact hg.of_coll this.1 this.2.1 this.2.2 (setParameterValues_keys eng c.ho c.fuel st a)
  | addParameterisation n e =>
    rw [hop] at hc
    simp only [addParameterisation]
    split_ifs with hh
    · split
      · exact hg
      · rename_i names hnames
        split_ifs with hdag
        · exact good_addParz law.free_nodup hg ((Dict.has_iff _ _).1 hh) hc hnames hdag
        · exact hg
    · exact hg
  | addParameterisationPrefactor n e =>
    rw [hop] at hc
    have hinv := call_inv eng law.free_nodup st ⟨c.ho, c.fuel, .addParameterisationPrefactor n e⟩
      hg.toKeysInv hg.toInv
    have hkinv := call_keysInv eng st ⟨c.ho, c.fuel, .addParameterisationPrefactor n e⟩ hg.toKeysInv
    simp only [call] at hinv hkinv
    simp only [addParameterisationPrefactor] at hinv hkinv hc ⊢
    split
    · exact hg
    · rename_i ex names hn0
      rw [hn0] at hinv hkinv
      refine ⟨hinv, hkinv, hg.symInj, hg.sameKeys, hg.nodesColl, ?_, ?_, ?_⟩
      · intro m hm
        simp only at hm ⊢
        rw [Dict.mem_keys_set] at hm
        rcases hm with rfl | hm
        · exact hg.parzColl m (Dict.mem_keys_of_get? hn0)
        · exact hg.parzColl m hm
      · intro n' ex' ns hn' s hs
        simp only at hn' ⊢
        rw [Dict.get?_set] at hn'
        split_ifs at hn' with hnn
        · simp only [Option.some.injEq, Prod.mk.injEq] at hn'
          obtain ⟨rfl, rfl⟩ := hn'
          rcases law.free_mul ex e s hs with h | h
          · exact hg.parzSyms n ex names hn0 s h
          · rw [hc] at h; simp at h
        · exact hg.parzSyms n' ex' ns hn' s hs
      · intro a b hab
        simp only at hab ⊢
        obtain ⟨ex', ns, h1, h2⟩ := hg.edgesRecorded a b hab
        rw [Dict.get?_set]
        split_ifs with hnn
        · subst hnn; rw [hn0] at h1; cases h1; exact ⟨_, _, rfl, h2⟩
        · exact ⟨ex', ns, h1, h2⟩
  | rmParameterisation n =>
    have hinv := call_inv eng law.free_nodup st ⟨c.ho, c.fuel, .rmParameterisation n⟩
      hg.toKeysInv hg.toInv
    have hkinv := call_keysInv eng st ⟨c.ho, c.fuel, .rmParameterisation n⟩ hg.toKeysInv
    simp only [call] at hinv hkinv
    simp only [rmParameterisation] at hinv hkinv ⊢
    split_ifs with hh
    · simp only [hh, if_true] at hinv hkinv
      split
      · exact hg
      · rename_i ex names hn0
        have hs := removeEdges_spec n names st.graph hg.wf
        have hok := hs.2.2.2.2.2 (hg.nodupNames n ex names hn0) (hg.recorded n ex names hn0)
        rw [hn0] at hinv hkinv
        simp only at hinv hkinv
        split
        · rename_i g e heq
          rw [heq] at hok; simp at hok
        · rename_i g heq
          rw [heq] at hs hinv hkinv
          simp only at hs hinv hkinv
          refine ⟨hinv, hkinv, hg.symInj, hg.sameKeys, ?_, ?_, ?_, ?_⟩
          · intro m; simp only; rw [hs.2.1]; exact hg.nodesColl m
          · intro m hm; simp only at hm ⊢; rw [Dict.mem_keys_del] at hm; exact hg.parzColl m hm.2
          · intro n' ex' ns hn' s hs
            simp only at hn' ⊢
            rw [Dict.get?_del] at hn'
            split_ifs at hn' with hnn
            exact hg.parzSyms n' ex' ns hn' s hs
          · intro a b hab
            simp only at hab ⊢
            rw [hs.2.2.2.2.1 trivial a b] at hab
            obtain ⟨ex', ns, h1, h2⟩ := hg.edgesRecorded a b hab.1
            have : n ≠ b := by
              rintro rfl
              rw [hn0] at h1; cases h1
              exact hab.2 ⟨h2, rfl⟩
            exact ⟨ex', ns, by rw [Dict.get?_del, if_neg this]; exact h1, h2⟩
    · exact hg
  | onParam n pc =>
    simp only
    split
    · exact hg
    · rename_i p hp
      exact hg.of_coll rfl rfl rfl (Dict.keys_set_of_mem _ (Dict.mem_keys_of_get? hp))

theorem good_run {eng : Engine E} (law : eng.Lawful D) : ∀ (h : List (Call E)) (st : PC E),
    st.Good eng → CleanHistory eng st h → (runPC eng st h).Good eng := by
  intro h
  induction h with
  | nil => intro st hg _; exact hg
  | cons c h ih => intro st hg hc; exact ih _ (good_call law hg c hc.1) hc.2

/-- Generated symbols are injective in the name. -/
theorem symbolOf_inj {a b : String} {s : Sym} (ha : Param.symbolOf a = some s)
    (hb : Param.symbolOf b = some s) : a = b := by
  unfold Param.symbolOf at ha hb
  split at ha
  · cases ha
  · rename_i c cs hca
    split at hb
    · cases hb
    · rename_i c' cs' hcb
      rw [← hb] at ha
      simp only [Option.some.injEq] at ha
      have := congrArg String.toList ha
      simp only [String.toList_ofList, List.cons.injEq, true_and] at this
      obtain ⟨rfl, h2⟩ := this
      have := List.append_cancel_right h2
      subst this
      rw [← String.toList_inj, hca, hcb]

theorem new_good {eng : Engine E} {names : List String} {st : PC E} (h : PC.new names = .ok st) :
    st.Good eng := by
  have key : ∀ (names : List String) (st st' : PC E), st.Good eng →
      (∀ m s, st.symMap.get? m = some s → Param.symbolOf m = some s) →
      names.foldlM initOne st = .ok st' → st'.Good eng := by
    intro names
    induction names with
    | nil => intro st st' hg _ he; simp only [List.foldlM_nil] at he; cases he; exact hg
    | cons n ns ih =>
      intro st st' hg hsy he
      obtain ⟨p, hp, he⟩ := foldlM_init_cons n ns st st' he
      have hps := param_new_symbol hp
      refine ih _ st' ?_ ?_ he
      · by_cases hn : n ∈ st.coll.keys
        · -- the name was given twice: the entry is replaced by an identical one
          have hsn : n ∈ st.symMap.keys := (hg.sameKeys n).2 hn
          have hsym : st.symMap.get? n = some p.symbol := by
            rw [Dict.mem_keys_iff, Option.isSome_iff_exists] at hsn
            obtain ⟨s, hs⟩ := hsn
            rw [hs]; have := hsy n s hs; rw [hps] at this; cases this; rfl
          have hget : ∀ m, (st.symMap.set n p.symbol).get? m = st.symMap.get? m := by
            intro m; rw [Dict.get?_set]; split_ifs with h
            · subst h; exact hsym.symm
            · rfl
          have hgr : st.graph.addNode n = st.graph := DiGraph.addNode_of_mem ((hg.nodesColl n).2 hn)
          rw [hgr]
          refine ⟨hg.toInv.congr rfl rfl, ⟨Dict.nodup_keys_set hg.symKeys _ _,
            Dict.nodup_keys_set hg.collKeys _ _, hg.parzKeys⟩, ?_, ?_, ?_, ?_, ?_, hg.edgesRecorded⟩
          · intro a b s; simp only [hget]; exact hg.symInj a b s
          · intro m; simp only; rw [Dict.keys_set_of_mem _ hsn, Dict.keys_set_of_mem _ hn]; exact hg.sameKeys m
          · intro m; simp only; rw [Dict.keys_set_of_mem _ hn]; exact hg.nodesColl m
          · intro m; simp only; rw [Dict.keys_set_of_mem _ hn]; exact hg.parzColl m
          · intro m ex ns; simp only [hget]; exact hg.parzSyms m ex ns
        · apply good_addOne hg hn
          intro m hm
          have := symbolOf_inj (hsy m _ hm) hps
          subst this
          exact hn ((hg.sameKeys m).1 (Dict.mem_keys_of_get? hm))
      · intro m s hm
        simp only at hm
        rw [Dict.get?_set] at hm
        split_ifs at hm with h
        · simp only [Option.some.injEq] at hm; subst h; subst hm; exact hps
        · exact hsy m s hm
  refine key names _ st ?_ (by intro m s hm; simp at hm) h
  refine ⟨⟨DiGraph.wf_empty, ?_, ?_, ?_⟩, ⟨by simp [Dict.keys], by simp [Dict.keys], by simp [Dict.keys]⟩,
    ?_, ?_, ?_, ?_, ?_, ?_⟩
  · intro x hx
    obtain ⟨y, -, hy⟩ := Relation.TransGen.tail'_iff.1 hx
    simp [DiGraph.Adj, DiGraph.empty] at hy
  · intro n ex ns hn; simp at hn
  · intro n ex ns hn; simp at hn
  · intro a b s ha; simp at ha
  · intro n; simp [Dict.keys]
  · intro n; simp [Dict.keys, DiGraph.empty]
  · intro n hn; simp [Dict.keys] at hn
  · intro n ex ns hn; simp at hn
  · intro a b hab; simp [DiGraph.Adj, DiGraph.empty] at hab

end PC

end Verif
