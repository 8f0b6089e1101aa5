import Verif.Lemmas.Expressions
import Verif.Props.ConstructAgain

/-!
# The collection that `getSymbolicExpressions` leaves behind
-/

namespace Verif.Props

open Verif Verif.Spec Verif.PC Verif.Sym Verif.Circuit Verif.Derived

variable {E D : Type}

/-- The entries of `M'` are those of `M`, or symbols of parameters that stand for them. -/
def Standing (eng : Engine E) (A : Arith E) (pc : PC E) (c : Char) (inv : Bool) (n : ℕ) (M M' : ℕ → ℕ → E) : Prop :=
  ∀ i j, i ≤ j → j < n → (M' i j = M i j ∧ M' j i = M j i) ∨
    (Stored eng pc (dname c inv i j) (M i j) ∧ eng.free (M i j) ≠ [] ∧
      ∃ s, pc.symMap.get? (dname c inv i j) = some s ∧ M' i j = A.sym s ∧ M' j i = A.sym s)

theorem Standing.grown {eng : Engine E} {A : Arith E} {pc pc' : PC E} {names : String → Prop} (hg : Grown pc pc' names) {c : Char} {inv : Bool} {n : ℕ}
    {M M' : ℕ → ℕ → E} (hno : ∀ i j, ¬ names (dname c inv i j)) (h : Standing eng A pc c inv n M M') : Standing eng A pc' c inv n M M' := by
  intro i j hij hj
  rcases h i j hij hj with h | ⟨h1, h2, s, h3, h4⟩
  · exact Or.inl h
  · exact Or.inr ⟨h1.grown hg (hno i j), h2, s, hg.syms _ _ h3, h4⟩

/-- The parameter stands for an entry of the matrix. -/
def StandsIn (eng : Engine E) (pc : PC E) (c : Char) (inv : Bool) (n : ℕ) (M : ℕ → ℕ → E) (k : String) : Prop :=
  ∃ i j, i ≤ j ∧ j < n ∧ k = dname c inv i j ∧ eng.free (M i j) ≠ [] ∧ Stored eng pc k (M i j)

theorem StandsIn.grown {eng : Engine E} {pc pc' : PC E} {names : String → Prop} (hg : Grown pc pc' names) {c : Char} {inv : Bool} {n : ℕ} {M : ℕ → ℕ → E}
    {k : String} (hno : ¬ names k) (h : StandsIn eng pc c inv n M k) : StandsIn eng pc' c inv n M k := by
  obtain ⟨i, j, h1, h2, h3, h4, h5⟩ := h
  exact ⟨i, j, h1, h2, h3, h4, h5.grown hg hno⟩

theorem free_of_skipped {eng : Engine E} {isZero : E → Bool} {e : E} (h : skipped eng isZero e = false) : eng.free e ≠ [] := by
  intro h0
  unfold skipped at h
  rw [h0] at h
  simp at h

theorem reserved_symbol {k : String} (h : Reserved k) : Param.symbolOf k = some (writtenAs k) := by
  obtain ⟨c, ds, hc, hlen, -, hk⟩ := h
  have hpre : pre k ≠ some 'p' := by
    unfold pre
    rcases hc with rfl | rfl <;> rcases hk with hk | hk <;> rw [hk] <;> simp
  cases hs : Param.symbolOf k with
  | none =>
    unfold Param.symbolOf at hs
    rcases hk with hk | hk <;> rw [hk] at hs <;> cases hs
  | some s => rw [writtenAs_of_symbolOf hs hpre]

theorem Tidy.own_names {eng : Engine E} {pc : PC E} (h : Tidy eng pc) : Own pc := by
  intro k hr hk
  refine ⟨writtenAs k, reserved_symbol hr, ?_⟩
  have hm : k ∈ pc.symMap.keys := (h.syms.2 k).2 ((Dict.has_iff _ _).1 hk)
  rw [Dict.mem_keys_iff] at hm
  obtain ⟨s, hs⟩ := Option.isSome_iff_exists.1 hm
  rw [getSymbol_iff, hs, (h.own k s hs).1]

theorem Tidy.symbol {eng : Engine E} {pc : PC E} (h : Tidy eng pc) {k : String} (hk : k ∈ pc.coll.keys) : pc.getSymbol k = .ok (writtenAs k) := by
  have hm : k ∈ pc.symMap.keys := (h.syms.2 k).2 hk
  rw [Dict.mem_keys_iff] at hm
  obtain ⟨s, hs⟩ := Option.isSome_iff_exists.1 hm
  rw [getSymbol_iff, hs, (h.own k s hs).1]

/-- All parameters accept all numbers. -/
def Unbounded (pc : PC E) : Prop := ∀ k ∈ pc.coll.keys, ∀ q : ℚ, Admits pc k (.fin q)

theorem new_bounds {k : String} {p : Param} (h : Param.new k = .ok p) : p.lo = .ninf ∧ p.hi = .pinf := by
  unfold Param.new at h
  split at h
  · cases h
  · replace h : (match Param.symbolOf k with
      | none => Except.error Err.indexError
      | some s => .ok ({ name := k, symbol := s, value := none, lo := PF.ninf, hi := PF.pinf, upref := PF.fin 1, sweep := [], N := 0 } : Param)) = .ok p := h
    split at h
    · cases h
    · cases h
      exact ⟨rfl, rfl⟩

theorem admits_all {p : Param} (h : p.lo = .ninf ∧ p.hi = .pinf) (q : ℚ) : (p.setValue (.float (.fin q))).2 = .ok () := by
  unfold Param.setValue
  simp only [PyVal.toFloat?, h.1, h.2]
  rfl

/-- One of the loops, on a collection that does not have its parameterisations. -/
theorem parameterise_step {eng : Engine E} {A : Arith E} {c : Char} (hc : c = 'C' ∨ c = 'L') (inv : Bool) {n : ℕ} (hn : n ≤ 111) {pc pc' : PC E}
    {M M' : ℕ → ℕ → E} (ht : Tidy eng pc) (hu : Unbounded pc) (hf : ∀ i j, dname c inv i j ∉ pc.parz.keys)
    (h : parameterise eng A.isZero A.sym c inv n pc M = (pc', .ok M')) :
    Tidy eng pc' ∧ Unbounded pc' ∧ Standing eng A pc' c inv n M M' ∧ Grown pc pc' (fun k => ∃ i j, k = dname c inv i j) ∧
      (∀ i j, i ≤ j → j < n → skipped eng A.isZero (M i j) = false → Stored eng pc' (dname c inv i j) (M i j)) ∧
      ∀ k ∈ pc'.parz.keys, k ∈ pc.parz.keys ∨ StandsIn eng pc' c inv n M k := by
  have hinj : ∀ p ∈ upper n, ∀ q ∈ upper n, dname c inv p.1 p.2 = dname c inv q.1 q.2 → p = q := by
    intro p hp q hq e
    obtain ⟨p1, p2⟩ := upper_mem.1 hp
    obtain ⟨q1, q2⟩ := upper_mem.1 hq
    obtain ⟨e1, e2⟩ := C36_entries_partial c inv p1 (by omega) q1 (by omega) e
    exact Prod.ext e1 e2
  have hpre : ∀ i j, pre (dname c inv i j) ≠ some 'p' := by
    intro i j
    unfold pre
    rw [dname_toList]
    rcases hc with rfl | rfl <;> simp
  have ht' : Tidy eng pc' := tidy_loop A.isZero A.sym (dname c inv) hpre (upper n) ht (List.Nodup.map_on (fun p hp q hq e => hinj p hp q hq e) (upper_nodup n))
    (fun p _ => hf _ _) h
  obtain ⟨g1, -, g3⟩ := parameterise_stored A.isZero A.sym c inv hn ht.syms h
  obtain ⟨-, -, h3⟩ := parameterise_spec eng A.isZero A.sym hc inv hn ht.own_names h
  obtain ⟨k1, k2, k3, k4, -, -⟩ := parLoop_keys eng A.isZero A.sym (dname c inv) (upper n) pc pc' M M' (upper_nodup n) (fun p hp => (upper_mem.1 hp).1) h
  refine ⟨ht', ?_, ?_, g1, g3, fun k hk => ((k2 k).1 hk).imp_right fun ⟨p, p1, p2, p3⟩ => ?_⟩
  rotate_left 2
  · obtain ⟨p4, p5⟩ := upper_mem.1 p1
    exact ⟨p.1, p.2, p4, p5, p3, free_of_skipped p2, p3 ▸ g3 p.1 p.2 p4 p5 p2⟩
  · intro k hk q
    by_cases h0 : pc.coll.get? k = none
    · rw [Dict.mem_keys_iff, Option.isSome_iff_ne_none] at hk
      obtain ⟨p, a1, a2, -⟩ := k4 k h0 hk
      exact ⟨p, a2, admits_all (new_bounds a1) q⟩
    · obtain ⟨p, hp, hadm⟩ := hu k (by rw [Dict.mem_keys_iff, Option.isSome_iff_ne_none]; exact h0) q
      exact ⟨p, by rw [(k3 k h0).1, hp], hadm⟩
  · intro i j hij hj
    obtain ⟨s1, s2⟩ := h3 i j hij hj
    by_cases hsk : skipped eng A.isZero (M i j) = true
    · exact Or.inl (s1 hsk).2
    · rw [Bool.not_eq_true] at hsk
      obtain ⟨s, -, b2, -, b4, b5⟩ := s2 hsk
      refine Or.inr ⟨g3 i j hij hj hsk, ?_, s, getSymbol_iff.1 b2, b4, b5⟩
      intro h0
      unfold skipped at hsk
      rw [h0] at hsk
      simp at hsk

/-- The loop gives the same matrix whenever it is run. -/
theorem parameterise_same {eng : Engine E} {A : Arith E} {c : Char} (hc : c = 'C' ∨ c = 'L') (inv : Bool) {n : ℕ} (hn : n ≤ 111) {pc pc' qc qc' : PC E}
    {M M' M'' : ℕ → ℕ → E} (ho : Own pc) (ho' : Own qc) (h : parameterise eng A.isZero A.sym c inv n pc M = (pc', .ok M'))
    (h' : parameterise eng A.isZero A.sym c inv n qc M = (qc', .ok M'')) : M'' = M' := by
  have hinj : ∀ p ∈ upper n, ∀ q ∈ upper n, dname c inv p.1 p.2 = dname c inv q.1 q.2 → p = q := by
    intro p hp q hq e
    obtain ⟨p1, p2⟩ := upper_mem.1 hp
    obtain ⟨q1, q2⟩ := upper_mem.1 hq
    obtain ⟨e1, e2⟩ := C36_entries_partial c inv p1 (by omega) q1 (by omega) e
    exact Prod.ext e1 e2
  obtain ⟨-, a2, a3⟩ := par_spec eng A.isZero A.sym (dname c inv) (upper n) pc pc' M M' (upper_nodup n) (fun p hp => (upper_mem.1 hp).1) hinj
    (fun p _ hk => ho _ (C36_reserved c hc inv _ _) hk) h
  obtain ⟨-, b2, b3⟩ := par_spec eng A.isZero A.sym (dname c inv) (upper n) qc qc' M M'' (upper_nodup n) (fun p hp => (upper_mem.1 hp).1) hinj
    (fun p _ hk => ho' _ (C36_reserved c hc inv _ _) hk) h'
  have key : ∀ p ∈ upper n, M'' p.1 p.2 = M' p.1 p.2 ∧ M'' p.2 p.1 = M' p.2 p.1 := by
    intro p hp
    by_cases hsk : skipped eng A.isZero (M p.1 p.2) = true
    · rw [((a2 p hp).1 hsk).2.1, ((a2 p hp).1 hsk).2.2, ((b2 p hp).1 hsk).2.1, ((b2 p hp).1 hsk).2.2]
      exact ⟨rfl, rfl⟩
    · rw [Bool.not_eq_true] at hsk
      obtain ⟨s, e1, -, -, e4, e5⟩ := (a2 p hp).2 hsk
      obtain ⟨t, f1, -, -, f4, f5⟩ := (b2 p hp).2 hsk
      rw [e1] at f1
      cases f1
      rw [e4, e5, f4, f5]
      exact ⟨rfl, rfl⟩
  funext i j
  by_cases h1 : (i, j) ∈ upper n
  · exact (key _ h1).1
  · by_cases h2 : (j, i) ∈ upper n
    · exact (key _ h2).2
    · rw [a3 i j h1 h2, b3 i j h1 h2]

/-- No resonators are added or removed. -/
def NoResonators (h : List Circuit.Call) : Prop := ∀ x ∈ h, x ≠ .removeAllResonators ∧ ∀ n c, x ≠ .coupleResonator n c

theorem netlist_noRes {h : List Circuit.Call} (hn : CircuitNetlist h) : NoResonators h := by
  intro x hx
  rcases hn.calls _ hx with ⟨o, a, b, c, rfl⟩ | ⟨c, s, m, rfl, -⟩ | ⟨n, s, c, rfl⟩ <;> simp

theorem NoResonators.keeps {h : List Circuit.Call} (hn : NoResonators h) : KeepsResonators h := fun x hx => (hn x hx).1

/-- The parameter of a resonator, with the expression that it is given. -/
def ResOwn (g : CG) (ex : Resonator → Except Err (ResExprs E)) (k : String) (e : E) : Prop :=
  ∃ r ∈ resonatorsOf g, ∃ x, ex r = .ok x ∧ (k, e) ∈ resPairs r x

theorem NoResonators.computed {h : List Circuit.Call} (hn : NoResonators h) (k : String) : ¬ Computed h k := by
  rintro ⟨n, c, hc, -⟩
  exact (hn _ hc).2 n c rfl

theorem resOwn_computed {h : List Circuit.Call} (hok : ∀ x ∈ h, x.OK) (ha : AllOk h) (hk : KeepsResonators h) {ex : Resonator → Except Err (ResExprs E)}
    {k : String} {e : E} (hr : ResOwn (run {} h) ex k e) : Computed h k := by
  obtain ⟨r, hr, x, -, hm⟩ := hr
  obtain ⟨n, hn⟩ := (mem_resonatorsOf (resonators_nodup h hok) r).1 hr
  obtain ⟨c, hc, rfl⟩ := (resonator_run ha hk n r).1 hn
  refine ⟨n, c, hc, ?_⟩
  simp only [resPairs, List.mem_cons, Prod.mk.injEq, List.not_mem_nil, or_false] at hm
  unfold resonatorComputed
  rcases hm with ⟨rfl, -⟩ | ⟨rfl, -⟩ | ⟨rfl, -⟩ | ⟨rfl, -⟩ | ⟨rfl, -⟩
  · exact .head _
  · exact .tail _ (.head _)
  · exact .tail _ (.tail _ (.head _))
  · exact .tail _ (.tail _ (.tail _ (.head _)))
  · exact .tail _ (.tail _ (.tail _ (.tail _ (.head _))))

theorem NoResonators.resOwn {h : List Circuit.Call} (hn : NoResonators h) (hok : ∀ x ∈ h, x.OK) (ha : AllOk h) {ex : Resonator → Except Err (ResExprs E)}
    {k : String} {e : E} : ¬ ResOwn (run {} h) ex k e := fun hr => hn.computed k (resOwn_computed hok ha hn.keeps hr)

theorem computed_declared {h : List Circuit.Call} {k : String} (hc : Computed h k) : ∃ x ∈ h, Declares x k := by
  obtain ⟨n, c, hc, hk⟩ := hc
  refine ⟨_, hc, .resonator n c k ?_⟩
  unfold resonatorComputed at hk
  unfold resonatorNames
  simp only [List.mem_cons, List.not_mem_nil, or_false] at hk ⊢
  tauto

theorem parz_stored {eng : Engine E} : ∀ (l : List (String × E)) {pc pc' : PC E}, SymKeys pc → (l.map Prod.fst).Nodup →
    addParameterisations eng l pc = (pc', .ok ()) → SymKeys pc' ∧ Grown pc pc' (fun k => k ∈ l.map Prod.fst) ∧ ∀ q ∈ l, Stored eng pc' q.1 q.2 := by
  intro l
  induction l with
  | nil => intro pc pc' hs _ h; unfold addParameterisations at h; cases h; exact ⟨hs, Grown.refl _ _, by simp⟩
  | cons q l ih =>
    obtain ⟨n, e⟩ := q
    intro pc pc' hs hnd h
    unfold addParameterisations at h
    rw [List.map_cons, List.nodup_cons] at hnd
    split at h
    · cases h
    rename_i pc1 h1
    obtain ⟨g1, s1, k1⟩ := parz_grown hs h1
    obtain ⟨k2, g2, s2⟩ := ih k1 hnd.2 h
    refine ⟨k2, (g1.trans g2).mono fun k hk => ?_, fun q hq => ?_⟩
    · rcases hk with rfl | hk
      · simp
      · exact List.mem_cons_of_mem _ hk
    · rcases List.mem_cons.1 hq with rfl | hq
      · exact s1.grown g2 hnd.1
      · exact s2 q hq

theorem mem_pairs {ex : Resonator → Except Err (ResExprs E)} : ∀ (l : List Resonator) (ps : List (List (String × E))),
    l.mapM (fun r => (ex r).map (resPairs r)) = .ok ps → ∀ q, q ∈ ps.flatten ↔ ∃ r ∈ l, ∃ x, ex r = .ok x ∧ q ∈ resPairs r x := by
  intro l
  induction l with
  | nil => intro ps h; cases h; simp
  | cons r l ih =>
    intro ps h q
    rw [List.mapM_cons] at h
    cases hx : ex r with
    | error e => rw [hx] at h; cases h
    | ok x =>
      rw [hx] at h
      cases hl : l.mapM (fun r => (ex r).map (resPairs r)) with
      | error e => rw [hl] at h; cases h
      | ok ps' =>
        rw [hl] at h
        cases h
        rw [List.flatten_cons, List.mem_append, ih ps' hl]
        simp [hx]

/-- The expressions of the resonators are in the collection. -/
theorem create_resonators {eng : Engine E} {o : Orc} {ex : Resonator → Except Err (ResExprs E)} {h : List Circuit.Call} (hok : ∀ x ∈ h, x.OK) (ha : AllOk h)
    (hk : KeepsResonators h) {pc pc1 : PC E} (hs : SymKeys pc) (h1 : createParameters eng Prefixes.default o ex (run {} h) pc = (pc1, .ok ())) :
    (∀ k e, ResOwn (run {} h) ex k e → Stored eng pc1 k e) ∧ ∀ r ∈ resonatorsOf (run {} h), ∃ x, ex r = .ok x := by
  unfold createParameters at h1
  split at h1
  · cases h1
  rename_i s1 e1
  split at h1
  · cases h1
  rename_i s2 e2
  split at h1
  · cases h1
  rename_i s3 e3
  have a := ((added_list _ _ _ e1).trans (added_flux _ _ _ _ _ e2).1).trans (added_charge _ _ _ _ e3)
  by_cases hr : (resonatorsOf (run {} h)).isEmpty = true
  · have hr' : resonatorsOf (run {} h) = [] := List.isEmpty_iff.1 hr
    refine ⟨fun k e hm => ?_, fun r hr => ?_⟩
    · obtain ⟨r, hm, -⟩ := hm
      rw [hr'] at hm
      simp at hm
    · rw [hr'] at hr
      simp at hr
  · rw [if_neg hr] at h1
    unfold addResonatorParameters at h1
    split at h1
    · cases h1
    split at h1
    · cases h1
    rename_i s4 e4
    split at h1
    · cases h1
    rename_i ps hps
    have a4 := a.trans (added_list _ _ _ e4)
    obtain ⟨-, -, s5⟩ := parz_stored _ (a4.syms hs) (by
      rw [pairs_names _ _ hps]
      refine (computed_all_nodup _ (resonators_nodup h hok) fun n r hr => ?_).1
      obtain ⟨c, -, e⟩ := (resonator_run ha hk n r).1 (Dict.get?_of_mem (resonators_nodup h hok) hr)
      exact ⟨c, e⟩) h1
    refine ⟨fun k e hm => s5 (k, e) ((mem_pairs _ _ hps _).2 hm), fun r hr => ?_⟩
    have key : ∀ (l : List Resonator) (ps : List (List (String × E))), l.mapM (fun r => (ex r).map (resPairs r)) = .ok ps → ∀ r ∈ l, ∃ x, ex r = .ok x := by
      intro l
      induction l with
      | nil => simp
      | cons r l ih =>
        intro ps h r' hr'
        rw [List.mapM_cons] at h
        cases hx : ex r with
        | error e => rw [hx] at h; cases h
        | ok x =>
          rw [hx] at h
          cases hl : l.mapM (fun r => (ex r).map (resPairs r)) with
          | error e => rw [hl] at h; cases h
          | ok ps' =>
            rcases List.mem_cons.1 hr' with rfl | hr'
            · exact ⟨x, hx⟩
            · exact ih ps' hl r' hr'
    exact key _ _ hps r hr

theorem construct_tidy {eng : Engine E} (law : eng.Lawful D) {A : Arith E} {o : Orc} {ex : Resonator → Except Err (ResExprs E)} {again : Bool}
    {h : List Circuit.Call} (hok : ∀ x ∈ h, x.OK) (ha : AllOk h) (hk : KeepsResonators h) (hlen : (nodes (run {} h)).length ≤ 111) {pc : PC E} {M : ℕ → ℕ → E}
    (hc : construct eng A.isZero A.sym Prefixes.default o ex (.ok M) again (run {} h) = .ok pc) :
    Tidy eng pc ∧ Unbounded pc ∧ (∀ k ∈ pc.parz.keys, (∃ e, ResOwn (run {} h) ex k e) ∨ StandsIn eng pc 'L' true (nodes (run {} h)).length M k) ∧ (∀ x ∈ h, ∀ k, Declares x k → k ∈ pc.coll.keys) ∧
      (∀ i j, i ≤ j → j < (nodes (run {} h)).length → skipped eng A.isZero (M i j) = false → Stored eng pc (dname 'L' true i j) (M i j)) ∧
      (∀ k e, ResOwn (run {} h) ex k e → Stored eng pc k e) ∧ ∀ r ∈ resonatorsOf (run {} h), ∃ x, ex r = .ok x := by
  obtain ⟨hc', hcl⟩ := C89_again_partial eng law A.isZero A.sym o ex M again h pc hok ha hk hlen hc
  have f := construct_fresh hok ha hk hc'
  have hstored : (∀ i j, i ≤ j → j < (nodes (run {} h)).length → skipped eng A.isZero (M i j) = false → Stored eng pc (dname 'L' true i j) (M i j)) ∧
      (∀ k e, ResOwn (run {} h) ex k e → Stored eng pc k e) ∧ ∀ r ∈ resonatorsOf (run {} h), ∃ x, ex r = .ok x := by
    unfold construct at hc'
    split_ifs at hc' with h0
    rw [show (PC.new [] : Except Err (PC E)) = .ok { coll := [], symMap := [], parz := [], graph := DiGraph.empty } from rfl] at hc'
    simp only at hc'
    split at hc'
    · cases hc'
    rename_i pc1 h1
    split at hc'
    · cases hc'
    rename_i pc2 h2
    cases hc'
    unfold transformParameters at h2
    split at h2
    · cases h2
    rename_i pc3 M3 h3
    rw [if_neg (by simp)] at h2
    cases h2
    have hs1 : SymKeys pc1 := by
      obtain ⟨⟨st1, hadd, e1, e2⟩, -, -⟩ := create_spec h1
      have := hadd.syms ⟨by simp [Dict.keys], by simp [Dict.keys]⟩
      unfold SymKeys at this ⊢
      rw [e1, e2]
      exact this
    obtain ⟨g3, -, s3⟩ := parameterise_stored A.isZero A.sym 'L' true hlen hs1 h3
    obtain ⟨r1, r2⟩ := create_resonators hok ha hk ⟨by simp [Dict.keys], by simp [Dict.keys]⟩ h1
    refine ⟨s3, fun k e hr => (r1 k e hr).grown g3 ?_, r2⟩
    rintro ⟨i, j, e⟩
    obtain ⟨n, c, -, hm⟩ := resOwn_computed hok ha hk hr
    exact computed_last hm i j e
  obtain ⟨hstored, hro, hex⟩ := hstored
  refine ⟨⟨hcl, f.syms, fun n s hs => ?_⟩, fun k hkey q => ?_, fun k hkey => ?_, fun x hx k hd => (f.keys k).2 (Or.inl ⟨x, hx, hd⟩), hstored, hro, hex⟩
  · obtain ⟨p, h1, -, h3⟩ := f.params n ((f.syms.2 n).1 (Dict.mem_keys_of_get? hs))
    rw [hs] at h3
    exact ⟨Option.some.inj h3, fresh_nonempty h1⟩
  · obtain ⟨p, h1, h2, -⟩ := f.params k hkey
    exact ⟨_, h2, admits_all (p := { p with symbol := writtenAs k }) (by have := new_bounds h1; exact this) q⟩
  · rcases (f.parz k).1 hkey with ⟨x, hx, m, c, rfl, hm⟩ | ⟨i, j, hij, hj, h1, h2, rfl⟩
    · obtain ⟨n', r, hr⟩ : ∃ n' r, (run {} h).resonators.get? n' = some (some r) ∧ r = mkResonator m c := ⟨m, _, (resonator_run ha hk m _).2 ⟨c, hx, rfl⟩, rfl⟩
      have hrm := (mem_resonatorsOf (resonators_nodup h hok) r).2 ⟨n', hr.1⟩
      obtain ⟨x, hx'⟩ := hex r hrm
      rw [hr.2] at hrm hx'
      left
      unfold resonatorComputed at hm
      simp only [List.mem_cons, List.not_mem_nil, or_false] at hm
      rcases hm with rfl | rfl | rfl | rfl | rfl
      · exact ⟨x.cr, _, hrm, x, hx', .head _⟩
      · exact ⟨x.lr, _, hrm, x, hx', .tail _ (.head _)⟩
      · exact ⟨x.frl, _, hrm, x, hx', .tail _ (.tail _ (.head _))⟩
      · exact ⟨x.zrl, _, hrm, x, hx', .tail _ (.tail _ (.tail _ (.head _)))⟩
      · exact ⟨x.gc, _, hrm, x, hx', .tail _ (.tail _ (.tail _ (.tail _ (.head _))))⟩
    · right
      have hsk : skipped eng A.isZero (M i j) = false := by
        unfold skipped
        simp only [h1, Bool.false_or, decide_eq_false_iff_not]
        omega
      exact ⟨i, j, hij, hj, (dname_text i j).symm, free_of_skipped hsk, dname_text i j ▸ hstored i j hij hj hsk⟩

theorem keys_parz {pc pc' : PC E} {names : String → Prop} (hg : Grown pc pc' names) {k : String} (hk : ¬ names k) (h : k ∉ pc.parz.keys) : k ∉ pc'.parz.keys := by
  rw [← Dict.get?_eq_none_iff] at h ⊢
  rw [hg.parz k hk, h]

theorem dname_ne {c c' : Char} {inv inv' : Bool} (h : ¬ (c = c' ∧ inv = inv')) (i j : ℕ) : ¬ ∃ k l, dname c inv i j = dname c' inv' k l := by
  rintro ⟨k, l, e⟩
  exact h (C36_matrices e)

/-- What `getSymbolicExpressions` does: it names the entries of the capacitance matrix and of its inverse, repeats what is done, and returns the
attributes. -/
theorem expressions_flow {eng : Engine E} (law : eng.Lawful D) {A : Arith E} {o : Orc} {ex : Resonator → Except Err (ResExprs E)} {again : Bool}
    {h : List Circuit.Call} {b : Biases} (hok : ∀ x ∈ h, x.OK) (ha : AllOk h) (hk : KeepsResonators h) (hlen : (nodes (run {} h)).length ≤ 111)
    (hres : ∀ x ∈ h, ∀ k, Declares x k → ¬ Reserved k) {pc0 pc1 : PC E} {exprs : Num.Attr → List E}
    (h0 : systemParameters eng A o ex again (run {} h) = .ok pc0) (h1 : symbolicExpressions eng A (run {} h) b pc0 = (pc1, .ok exprs)) :
    Tidy eng pc1 ∧ Unbounded pc1 ∧ (∀ x ∈ h, ∀ k, Declares x k → pc1.getSymbol k = .ok (writtenAs k) ∧ (¬ Computed h k → ¬ Parametric pc1 k)) ∧
    (∀ k, (∀ c inv, c = 'C' ∨ c = 'L' → ¬ ∃ i j, k = dname c inv i j) → k ∈ pc1.parz.keys → ∃ e, ResOwn (run {} h) ex k e) ∧
    (∀ k e, ResOwn (run {} h) ex k e → Stored eng pc1 k e) ∧ (∀ r ∈ resonatorsOf (run {} h), ∃ x, ex r = .ok x) ∧
    ∃ C C' N Ci L B Li, capacitanceExpr eng A (run {} h) = .ok C ∧ Standing eng A pc1 'C' false (nodes (run {} h)).length C C' ∧
      A.inverse (nodes (run {} h)).length C' = .ok N ∧ Standing eng A pc1 'C' true (nodes (run {} h)).length N Ci ∧
      branchInductanceExpr eng A (run {} h) = .ok L ∧ A.pinv (edges (run {} h)).length L = .ok B ∧
      Standing eng A pc1 'L' true (nodes (run {} h)).length (toNodesExpr eng A (run {} h) B) Li ∧
      (∀ k ∈ pc1.parz.keys, (∃ e, ResOwn (run {} h) ex k e) ∨ StandsIn eng pc1 'C' false (nodes (run {} h)).length C k ∨ StandsIn eng pc1 'C' true (nodes (run {} h)).length N k ∨
        StandsIn eng pc1 'L' true (nodes (run {} h)).length (toNodesExpr eng A (run {} h) B) k) ∧
      exprs = attributes eng A (run {} h) b Ci Li B := by
  -- the matrices
  unfold symbolicExpressions at h1
  split at h1
  · cases h1
  rename_i pca Cinv e1
  split at h1
  · cases h1
  rename_i pcb Linv e2
  split at h1
  · cases h1
  rename_i B e3
  split at h1
  · cases h1
  rename_i pcc Cinv2 e4
  cases h1
  unfold branchInverseExpr at e3
  split at e3
  · cases e3
  rename_i L eL
  have eInv : inverseInductanceExpr eng A (run {} h) = .ok (toNodesExpr eng A (run {} h) B) := by
    unfold inverseInductanceExpr branchInverseExpr
    simp only [eL, e3]
  unfold systemParameters at h0
  rw [eInv] at h0
  obtain ⟨t0, u0, z0, d0, s0, ro0, hex⟩ := construct_tidy law hok ha hk hlen h0
  have hdn : ∀ {x k}, x ∈ h → Declares x k → ∀ (c : Char) (inv : Bool), c = 'C' ∨ c = 'L' → ¬ ∃ i j, k = dname c inv i j := by
    rintro x k hx hd c inv hc ⟨i, j, e⟩
    exact hres x hx k hd (by rw [e]; exact C36_reserved c hc inv i j)
  have hro : ∀ {k e}, ResOwn (run {} h) ex k e → ∀ (c : Char) (inv : Bool), c = 'C' ∨ c = 'L' → ¬ ∃ i j, k = dname c inv i j := by
    intro k e hr
    obtain ⟨x, hx, hd⟩ := computed_declared (resOwn_computed hok ha hk hr)
    exact hdn hx hd
  unfold inverseInductancePar at e2
  rw [eInv] at e2
  simp only at e2
  unfold inverseCapacitancePar at e1 e4
  cases hC : capacitanceExpr eng A (run {} h) with
  | error e => rw [hC] at e1; cases e1
  | ok C =>
    rw [hC] at e1 e4
    simp only at e1 e4
    split at e1
    · cases e1
    rename_i pcx C' p1
    split at e1
    · cases e1
    rename_i N i1
    have z1 : ∀ k ∈ pc0.parz.keys, (∃ e, ResOwn (run {} h) ex k e) ∨ ∃ i j, k = dname 'L' true i j := fun k hk => by
      rcases z0 k hk with hr | ⟨i, j, -, -, e, -⟩
      · exact Or.inl hr
      · exact Or.inr ⟨i, j, e⟩
    have f1 : ∀ i j, dname 'C' false i j ∉ pc0.parz.keys := fun i j hm => by
      rcases z1 _ hm with ⟨e, hr⟩ | ⟨k, l, e⟩
      · exact hro hr _ _ (Or.inl rfl) ⟨i, j, rfl⟩
      have := (C36_matrices e).1
      revert this; decide
    obtain ⟨t1, u1, st1, g1, sd1, n1⟩ := parameterise_step (Or.inl rfl) false hlen t0 u0 f1 p1
    have f2 : ∀ i j, dname 'C' true i j ∉ pcx.parz.keys := fun i j => by
      refine keys_parz g1 (dname_ne (by decide) i j) fun hm => ?_
      rcases z1 _ hm with ⟨e, hr⟩ | ⟨k, l, e⟩
      · exact hro hr _ _ (Or.inl rfl) ⟨i, j, rfl⟩
      have := (C36_matrices e).1
      revert this; decide
    obtain ⟨t2, u2, st2, g2, sd2, n2⟩ := parameterise_step (Or.inl rfl) true hlen t1 u1 f2 e1
    have hgood := CleanReachable.good law t2.clean
    -- the inverse inductances
    obtain ⟨Li, a2⟩ := parameterise_again A.isZero A.sym 'L' true hgood fun i j hij hj hsk =>
      ((s0 i j hij hj hsk).grown g1 (dname_ne (by decide) i j)).grown g2 (dname_ne (by decide) i j)
    rw [a2] at e2
    cases e2
    -- the capacitances again
    obtain ⟨C2, a4⟩ := parameterise_again A.isZero A.sym 'C' false hgood fun i j hij hj hsk => (sd1 i j hij hj hsk).grown g2 (dname_ne (by decide) i j)
    rw [a4] at e4
    simp only at e4
    obtain rfl := parameterise_same (Or.inl rfl) false hlen t0.own_names t2.own_names p1 a4
    rw [i1] at e4
    simp only at e4
    obtain ⟨N2, a5⟩ := parameterise_again A.isZero A.sym 'C' true hgood sd2
    rw [a5] at e4
    cases e4
    have st3 : Standing eng A pc1 'L' true (nodes (run {} h)).length (toNodesExpr eng A (run {} h) B) Linv := by
      obtain ⟨-, -, h3⟩ := parameterise_spec eng A.isZero A.sym (Or.inr rfl) true hlen t2.own_names a2
      intro i j hij hj
      obtain ⟨s1, s2⟩ := h3 i j hij hj
      by_cases hsk : skipped eng A.isZero (toNodesExpr eng A (run {} h) B i j) = true
      · exact Or.inl (s1 hsk).2
      · rw [Bool.not_eq_true] at hsk
        obtain ⟨s, -, b2, -, b4, b5⟩ := s2 hsk
        refine Or.inr ⟨((s0 i j hij hj hsk).grown g1 (dname_ne (by decide) i j)).grown g2 (dname_ne (by decide) i j), ?_, s, getSymbol_iff.1 b2, b4, b5⟩
        intro h0
        unfold skipped at hsk
        rw [h0] at hsk
        simp at hsk
    have hpz : ∀ k, (∀ c inv, c = 'C' ∨ c = 'L' → ¬ ∃ i j, k = dname c inv i j) → k ∈ pc1.parz.keys → ∃ e, ResOwn (run {} h) ex k e := fun k hno hm => by
      by_contra hc
      exact keys_parz g2 (hno _ _ (Or.inl rfl)) (keys_parz g1 (hno _ _ (Or.inl rfl)) fun hm => (z1 k hm).elim hc (hno _ _ (Or.inr rfl))) hm
    have hrs : ∀ k e, ResOwn (run {} h) ex k e → Stored eng pc1 k e := fun k e hr =>
      ((ro0 k e hr).grown g1 (hro hr _ _ (Or.inl rfl))).grown g2 (hro hr _ _ (Or.inl rfl))
    refine ⟨t2, u2, fun x hx k hd => ?_, hpz, hrs, hex, C, C2, N, Cinv, L, B, Linv, rfl, st1.grown g2 (dname_ne (by decide)), i1, st2, eL, e3, st3, fun k hk => ?_, rfl⟩
    rotate_left
    · rcases n2 k hk with hk | hk
      · rcases n1 k hk with hk | hk
        · rcases z0 k hk with hr | h2
          · exact Or.inl hr
          have h3 := h2
          obtain ⟨i, j, -, -, e, -⟩ := h3
          refine Or.inr (Or.inr (Or.inr ((h2.grown g1 ?_).grown g2 ?_))) <;> rw [e] <;> exact dname_ne (by decide) i j
        · have h2 := hk
          obtain ⟨i, j, -, -, e, -⟩ := hk
          refine Or.inr (Or.inl (h2.grown g2 ?_))
          rw [e]
          exact dname_ne (by decide) i j
      · exact Or.inr (Or.inr (Or.inl hk))
    have hkey := d0 x hx k hd
    have hno := hdn hx hd
    constructor
    · apply t2.symbol
      rw [Dict.mem_keys_iff] at hkey ⊢
      obtain ⟨p, hp⟩ := Option.isSome_iff_exists.1 hkey
      rw [g2.coll k p (g1.coll k p hp)]
      rfl
    · intro hc hp
      obtain ⟨e, hr⟩ := hpz k hno hp
      exact hc (resOwn_computed hok ha hk hr)

end Verif.Props
