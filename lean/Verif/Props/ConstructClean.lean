import Verif.Props.Construct
import Verif.Props.SweepDict

/-!
# Property C89: a new system is where the theorems about collections start
-/

namespace Verif.Props

open Verif Verif.Circuit Verif.Sym Verif.Spec Verif.PC Verif.Derived

variable {E : Type}

/-- A cleanly reached collection in which every parameter is written as it should. -/
structure Tidy (eng : Engine E) (st : PC E) : Prop where
  clean : CleanReachable eng st
  syms : SymKeys st
  own : ∀ n s, st.symMap.get? n = some s → s = writtenAs n ∧ n ≠ ""

theorem Tidy.add {eng : Engine E} {st st' : PC E} (h : Tidy eng st) {n : String} {o : Option Sym}
    (hw : ∀ s, o.or (Param.symbolOf n) = some s → s = writtenAs n) (ha : st.addParameter n o = (st', .ok ())) : Tidy eng st' := by
  have hadd := added_one _ _ _ _ ha
  have hcl : CleanCall eng st ⟨HashOrder.id, 0, .addParameter n o⟩ := by
    intro hn s hs m hm
    have hs := hw s hs
    subst hs
    unfold getSymbol at hm
    cases hg : st.symMap.get? m with
    | none => rw [hg] at hm; cases hm
    | some s' =>
      rw [hg] at hm
      cases hm
      obtain ⟨e, hne⟩ := h.own _ _ hg
      have hn0 : n ≠ "" := by
        rintro rfl
        have := congrArg String.toList e
        rw [writtenAs_toList, writtenAs_toList] at this
        have hm' : m.toList ≠ [] := fun e => hne (String.toList_eq_nil_iff.1 e)
        simp only [String.toList_empty] at this
        split at this
        · cases this
        · cases this
        · rename_i h0; exact hm' h0
      have := writtenAs_inj hn0 hne e
      subst this
      exact hn (by rw [Dict.has_iff, ← h.syms.2]; exact Dict.mem_keys_of_get? hg)
  refine ⟨?_, hadd.syms h.syms, ?_⟩
  · have := clean_step h.clean _ hcl
    rw [show call eng st ⟨HashOrder.id, 0, .addParameter n o⟩ = st.addParameter n o from rfl, ha] at this
    exact this
  · intro m s hm
    have hmk : m ∈ st'.coll.keys := ((hadd.syms h.syms).2 m).1 (Dict.mem_keys_of_get? hm)
    by_cases hg : st.coll.get? m = none
    · have hmn : m = n := by
        rw [hadd.keys] at hmk
        rcases hmk with h1 | h1
        · exact absurd h1 ((Dict.get?_eq_none_iff _ _).1 hg)
        · simpa [Dict.keys] using h1
      subst hmn
      obtain ⟨p, hp, -, h2⟩ := hadd.new m o hg (by simp)
      rw [h2] at hm
      cases hm
      refine ⟨hw _ ?_, fresh_nonempty hp⟩
      have := param_new_symbol hp
      rw [this]
      cases o <;> rfl
    · rw [(hadd.old m hg).2] at hm
      exact h.own _ _ hm

theorem Tidy.parz {eng : Engine E} {st st' : PC E} (h : Tidy eng st) {n : String} {e : E} (hn : n ∉ st.parz.keys)
    (ha : st.addParameterisation eng n e = (st', .ok ())) : Tidy eng st' := by
  obtain ⟨names, b1, b2, b3⟩ := parz_set ha
  refine ⟨?_, by unfold SymKeys; rw [b1, b2]; exact h.syms, by rw [b2]; exact h.own⟩
  have := clean_step h.clean ⟨HashOrder.id, 0, .addParameterisation n e⟩ hn
  rw [show call eng st ⟨HashOrder.id, 0, .addParameterisation n e⟩ = st.addParameterisation eng n e from rfl, ha] at this
  exact this

theorem writtenAs_plain {n : String} (hp : pre n ≠ some 'p') (s : Sym) (h : (none : Option Sym).or (Param.symbolOf n) = some s) : s = writtenAs n :=
  writtenAs_of_symbolOf (by simpa using h) hp

theorem tidy_list {eng : Engine E} (names : List String) : ∀ {st st' : PC E}, Tidy eng st → (∀ n ∈ names, pre n ≠ some 'p') →
    st.addParameters names = (st', .ok ()) → Tidy eng st' := by
  induction names with
  | nil => intro st st' h _ ha; unfold addParameters at ha; cases ha; exact h
  | cons n names ih =>
    intro st st' h hp ha
    unfold addParameters at ha
    split at ha
    · cases ha
    · rename_i st1 h1
      exact ih (h.add (writtenAs_plain (hp n (by simp))) h1) (fun m hm => hp m (by simp [hm])) ha

theorem tidy_flux {eng : Engine E} (g : CG) (l : List (Edge × Bias)) : ∀ {st st' : PC E}, Tidy eng st →
    addFluxParameters Prefixes.default g l st = (st', .ok ()) → Tidy eng st' := by
  induction l with
  | nil => intro st st' h ha; unfold addFluxParameters at ha; cases ha; exact h
  | cons q l ih =>
    obtain ⟨e, b⟩ := q
    intro st st' h ha
    unfold addFluxParameters at ha
    split_ifs at ha with h1 h2
    · cases ha
    split at ha
    · cases ha
    · rename_i st1 h3
      refine ih (h.add (fun s hs => ?_) h3) ha
      obtain rfl : biasSymbol "\\Phi" b.suffix = s := by simpa [Prefixes.default] using hs
      exact writtenAs_flux _
    · cases ha

theorem tidy_charge {eng : Engine E} (l : List Bias) : ∀ {st st' : PC E}, Tidy eng st →
    addChargeParameters Prefixes.default l st = (st', .ok ()) → Tidy eng st' := by
  induction l with
  | nil => intro st st' h ha; unfold addChargeParameters at ha; cases ha; exact h
  | cons b l ih =>
    intro st st' h ha
    unfold addChargeParameters at ha
    split_ifs at ha with h2
    · cases ha
    split at ha
    · cases ha
    · rename_i st1 h3
      refine ih (h.add (fun s hs => ?_) h3) ha
      obtain rfl : biasSymbol "Q" b.suffix = s := by simpa [Prefixes.default] using hs
      exact writtenAs_charge _

theorem tidy_parz {eng : Engine E} (l : List (String × E)) : ∀ {st st' : PC E}, Tidy eng st → (l.map Prod.fst).Nodup → (∀ q ∈ l, q.1 ∉ st.parz.keys) →
    addParameterisations eng l st = (st', .ok ()) → Tidy eng st' := by
  induction l with
  | nil => intro st st' h _ _ ha; unfold addParameterisations at ha; cases ha; exact h
  | cons q l ih =>
    obtain ⟨n, e⟩ := q
    intro st st' h hnd hp ha
    unfold addParameterisations at ha
    rw [List.map_cons, List.nodup_cons] at hnd
    split at ha
    · cases ha
    · rename_i st1 h1
      obtain ⟨names, -, -, b3⟩ := parz_set h1
      refine ih (h.parz (hp (n, e) (by simp)) h1) hnd.2 (fun q hq => ?_) ha
      rw [b3, Dict.mem_keys_set, not_or]
      exact ⟨fun e => hnd.1 (List.mem_map.2 ⟨q, hq, e⟩), hp q (by simp [hq])⟩

theorem tidy_loop {eng : Engine E} (isZero : E → Bool) (symE : Sym → E) (name : ℕ → ℕ → String) (hpre : ∀ i j, pre (name i j) ≠ some 'p') :
    ∀ (l : List (ℕ × ℕ)) {st st' : PC E} {M M' : ℕ → ℕ → E}, Tidy eng st → (l.map fun p => name p.1 p.2).Nodup → (∀ p ∈ l, name p.1 p.2 ∉ st.parz.keys) →
    parLoop eng isZero symE name l st M = (st', .ok M') → Tidy eng st' := by
  intro l
  induction l with
  | nil => intro st st' M M' h _ _ ha; unfold parLoop at ha; cases ha; exact h
  | cons p l ih =>
    obtain ⟨i, j⟩ := p
    intro st st' M M' h hnd hp ha
    rw [List.map_cons, List.nodup_cons] at hnd
    unfold parLoop at ha
    by_cases hsk : skipped eng isZero (M i j) = true
    · rw [if_pos hsk] at ha
      exact ih h hnd.2 (fun p hp' => hp p (by simp [hp'])) ha
    · rw [if_neg hsk] at ha
      split at ha
      · cases ha
      rename_i st1 h1
      split at ha
      · cases ha
      rename_i st2 h2
      split at ha
      · cases ha
      have hadd := added_one _ _ _ _ h1
      obtain ⟨names, -, -, b3⟩ := parz_set h2
      have hn : name i j ∉ st1.parz.keys := by rw [hadd.parz]; exact hp (i, j) (by simp)
      refine ih ((h.add (writtenAs_plain (hpre i j)) h1).parz hn h2) hnd.2 (fun q hq => ?_) ha
      rw [b3, Dict.mem_keys_set, not_or, hadd.parz]
      exact ⟨fun e => hnd.1 (by rw [← e]; exact List.mem_map.2 ⟨q, hq, rfl⟩), hp q (by simp [hq])⟩

theorem computed_digits {n : ℕ} {k : String} (h : k ∈ resonatorComputed n) : k.toList.tail.takeWhile Char.isDigit = (toString n).toList := by
  have key : ∀ (c : Char) (t : List Char), t.head?.map Char.isDigit ≠ some true →
      ((c :: ((toString n).toList ++ t)).tail.takeWhile Char.isDigit) = (toString n).toList := by
    intro c t ht
    rw [List.tail_cons, List.takeWhile_append_of_pos (digits_of n).2]
    cases t with
    | nil => simp
    | cons a t => simp at ht; simp [ht]
  unfold resonatorComputed at h
  simp only [List.mem_cons, List.not_mem_nil, or_false] at h
  rcases h with rfl | rfl | rfl | rfl | rfl
  · exact (congrArg (fun l => List.takeWhile Char.isDigit (List.tail l)) (by simp [toString])).trans (key 'C' ['r'] (by decide))
  · exact (congrArg (fun l => List.takeWhile Char.isDigit (List.tail l)) (by simp [toString])).trans (key 'L' ['r'] (by decide))
  · exact (congrArg (fun l => List.takeWhile Char.isDigit (List.tail l)) (by simp [toString])).trans (key 'f' ['r', 'l'] (by decide))
  · exact (congrArg (fun l => List.takeWhile Char.isDigit (List.tail l)) (by simp [toString])).trans (key 'Z' ['r', 'l'] (by decide))
  · exact (congrArg (fun l => List.takeWhile Char.isDigit (List.tail l)) (by simp [toString])).trans (key 'g' ['r'] (by decide))

theorem computed_inj {n m : ℕ} {k : String} (h : k ∈ resonatorComputed n) (h' : k ∈ resonatorComputed m) : n = m :=
  toString_nat_inj (String.toList_inj.1 ((computed_digits h).symm.trans (computed_digits h')))

theorem computed_nodup (n : ℕ) : (resonatorComputed n).Nodup := by
  have hh : (resonatorComputed n).map (fun k => k.toList.head?) = [some 'C', some 'L', some 'f', some 'Z', some 'g'] := by
    unfold resonatorComputed
    simp [toString]
  apply List.Nodup.of_map (fun k : String => k.toList.head?)
  rw [hh]; decide

theorem computed_last {n : ℕ} {k : String} (h : k ∈ resonatorComputed n) (i j : ℕ) : k ≠ dname 'L' true i j := by
  rintro rfl
  have h1 : (dname 'L' true i j).toList.getLast? = some 'i' := by
    rw [dname_toList, if_pos rfl, List.getLast?_cons]; simp
  unfold resonatorComputed at h
  simp only [List.mem_cons, List.not_mem_nil, or_false] at h
  rcases h with h | h | h | h | h <;> rw [h] at h1 <;> simp [toString, List.getLast?_cons] at h1

theorem pairs_names {ex : Resonator → Except Err (ResExprs E)} : ∀ (l : List Resonator) (ps : List (List (String × E))),
    l.mapM (fun r => (ex r).map (resPairs r)) = .ok ps → ps.flatten.map Prod.fst = l.flatMap fun r => [r.cr, r.lr, r.frl, r.zrl, r.gc] := by
  intro l
  induction l with
  | nil => intro ps h; cases h; rfl
  | cons r l ih =>
    intro ps h
    rw [List.mapM_cons] at h
    cases hx : ex r with
    | error e => rw [hx] at h; cases h
    | ok x =>
      rw [hx] at h
      cases hl : l.mapM (fun r => (ex r).map (resPairs r)) with
      | error e => rw [hl] at h; cases h
      | ok ps' =>
        rw [hl] at h
        cases h
        rw [List.flatten_cons, List.map_append, ih ps' hl, List.flatMap_cons]
        rfl

theorem computed_all_nodup : ∀ (d : Dict Node (Option Resonator)), (Dict.keys d).Nodup →
    (∀ n r, (n, some r) ∈ d → ∃ c, r = mkResonator n c) →
    ((d.values.filterMap id).flatMap fun r => [r.cr, r.lr, r.frl, r.zrl, r.gc]).Nodup ∧
    ∀ k ∈ (d.values.filterMap id).flatMap (fun r => [r.cr, r.lr, r.frl, r.zrl, r.gc]), ∃ n ∈ Dict.keys d, k ∈ resonatorComputed n := by
  intro d
  induction d with
  | nil => intro _ _; simp [Dict.values]
  | cons p d ih =>
    obtain ⟨n, r⟩ := p
    intro hnd hd
    rw [show Dict.keys ((n, r) :: d) = n :: Dict.keys d from rfl] at hnd ⊢
    rw [List.nodup_cons] at hnd
    obtain ⟨h1, h2⟩ := ih hnd.2 fun m r hm => hd m r (List.mem_cons_of_mem _ hm)
    rw [show Dict.values ((n, r) :: d) = r :: Dict.values d from rfl]
    cases r with
    | none =>
      rw [List.filterMap_cons_none rfl]
      exact ⟨h1, fun k hk => (h2 k hk).imp fun m hm => ⟨List.mem_cons_of_mem _ hm.1, hm.2⟩⟩
    | some r =>
      obtain ⟨c, rfl⟩ := hd n r (by simp)
      rw [show List.filterMap id (some (mkResonator n c) :: Dict.values d) = mkResonator n c :: List.filterMap id (Dict.values d) from rfl,
        List.flatMap_cons]
      refine ⟨List.nodup_append'.2 ⟨computed_nodup n, h1, ?_⟩, fun k hk => ?_⟩
      · intro k hk hk'
        obtain ⟨m, hm, hkm⟩ := h2 k hk'
        exact hnd.1 (by rw [computed_inj (n := n) hk hkm]; exact hm)
      · rcases List.mem_append.1 hk with hk | hk
        · exact ⟨n, by simp, hk⟩
        · exact (h2 k hk).imp fun m hm => ⟨List.mem_cons_of_mem _ hm.1, hm.2⟩

/-- Up to 111 nodes, and when the eigenvectors of the modes contain no symbols (otherwise the entries are written a second time), the collection of a new system is reached by clean calls. -/
theorem C89_clean_partial (eng : Engine E) (isZero : E → Bool) (symE : Sym → E) (o : Orc) (ex : Resonator → Except Err (ResExprs E)) (M : ℕ → ℕ → E)
    (h : List Circuit.Call) (pc : PC E) (hok : ∀ x ∈ h, x.OK) (ha : AllOk h) (hk : KeepsResonators h) (hn : (nodes (run {} h)).length ≤ 111)
    (hc : construct eng isZero symE Prefixes.default o ex (.ok M) false (run {} h) = .ok pc) : CleanReachable eng pc := by
  have ht0 : Tidy eng ({ coll := [], symMap := [], parz := [], graph := DiGraph.empty } : PC E) :=
    ⟨⟨[], _, [], rfl, trivial, rfl⟩, ⟨by simp [Dict.keys], by simp [Dict.keys]⟩, fun n s h => by cases h⟩
  have hplain : ∀ q ∈ parameterList Prefixes.default (run {} h), q.2 = none → pre q.1 ≠ some 'p' := by
    intro q hq ho
    exact entry_pre hok ha ((entry_iff hok ha hk q).1 hq) ho
  unfold construct at hc
  split_ifs at hc with h0
  rw [show (PC.new [] : Except Err (PC E)) = .ok { coll := [], symMap := [], parz := [], graph := DiGraph.empty } from rfl] at hc
  simp only at hc
  split at hc
  · cases hc
  rename_i pc1 h1
  split at hc
  · cases hc
  rename_i pc2 h2
  cases hc
  obtain ⟨-, hpz, -⟩ := create_spec h1
  have hres : ∀ r ∈ resonatorsOf (run {} h), ∃ n c, (run {} h).resonators.get? n = some (some r) ∧ r = mkResonator n c := by
    intro r hr
    obtain ⟨n, hn⟩ := (mem_resonatorsOf (resonators_nodup h hok) r).1 hr
    obtain ⟨c, -, rfl⟩ := (resonator_run ha hk n r).1 hn
    exact ⟨n, c, hn, rfl⟩
  have ht1 : Tidy eng pc1 := by
    unfold createParameters at h1
    split at h1
    · cases h1
    rename_i s1 e1
    split at h1
    · cases h1
    rename_i s2 e2
    split at h1
    · cases h1
    rename_i s3 e3
    have a := ((added_list _ _ _ e1).trans (added_flux _ _ _ _ _ e2).1).trans (added_charge _ _ _ _ e3)
    have t1 := tidy_list _ ht0 (fun n hn => hplain (n, none) (by
      unfold parameterList
      exact List.mem_append_left _ (List.mem_append_left _ (List.mem_append_left _ (List.mem_map.2 ⟨n, hn, rfl⟩)))) rfl) e1
    have t3 := tidy_charge _ (tidy_flux _ _ t1 e2) e3
    by_cases hr : (resonatorsOf (run {} h)).isEmpty = true
    · rw [if_pos hr] at h1
      cases h1
      exact t3
    · rw [if_neg hr] at h1
      unfold addResonatorParameters at h1
      split at h1
      · cases h1
      split at h1
      · cases h1
      rename_i s4 e4
      split at h1
      · cases h1
      rename_i ps hps
      have t4 := tidy_list _ t3 (fun n hn => hplain (n, none) (by
        unfold parameterList
        exact List.mem_append_right _ (List.mem_map.2 ⟨n, hn, rfl⟩)) rfl) e4
      have a4 := a.trans (added_list _ _ _ e4)
      refine tidy_parz _ t4 ?_ (fun q _ => ?_) h1
      · rw [pairs_names _ _ hps]
        refine (computed_all_nodup _ (resonators_nodup h hok) fun n r hr => ?_).1
        obtain ⟨c, -, e⟩ := (resonator_run ha hk n r).1 (Dict.get?_of_mem (resonators_nodup h hok) hr)
        exact ⟨c, e⟩
      · rw [a4.parz]; simp [Dict.keys]
  unfold transformParameters at h2
  split at h2
  · cases h2
  rename_i pc3 M1 e1
  rw [if_neg (by simp)] at h2
  cases h2
  refine (tidy_loop isZero symE (dname 'L' true) (fun i j => by rw [dname_text, pre_derived]; decide) (upper (nodes (run {} h)).length) ht1 ?_ ?_ e1).clean
  · apply List.Nodup.map_on _ (upper_nodup _)
    intro p hp q hq e
    obtain ⟨p1, p2⟩ := upper_mem.1 hp
    obtain ⟨q1, q2⟩ := upper_mem.1 hq
    obtain ⟨e1, e2⟩ := C36_entries_partial 'L' true p1 (by omega) q1 (by omega) e
    exact Prod.ext e1 e2
  · intro p hp hm
    rw [hpz] at hm
    rcases hm with hm | ⟨r, hr, hm⟩
    · simp [Dict.keys] at hm
    · obtain ⟨n, c, -, rfl⟩ := hres r hr
      exact computed_last (n := n) hm _ _ rfl

/-- The hypotheses are met by the circuit of `biasedLoop`. -/
example : ∃ pc, construct Ast.engine (fun _ => false) .sym Prefixes.default Orc.id biasedEx (.ok biasedInv) false (run {} biasedLoop) = .ok pc ∧
    (nodes (run {} biasedLoop)).length ≤ 111 ∧ CleanReachable Ast.engine pc := by
  have h := biasedLoop_names
  cases hc : construct Ast.engine (fun _ => false) .sym Prefixes.default Orc.id biasedEx (.ok biasedInv) false (run {} biasedLoop) with
  | error e => rw [hc] at h; cases h
  | ok pc =>
    have hn : (nodes (run {} biasedLoop)).length ≤ 111 := by decide +kernel
    exact ⟨pc, rfl, hn, C89_clean_partial _ _ _ _ _ _ biasedLoop pc (by simp [biasedLoop, Circuit.Call.OK, orcId_ok]) biasedLoop_ok
      (by simp [KeepsResonators, biasedLoop]) hn hc⟩

end Verif.Props
