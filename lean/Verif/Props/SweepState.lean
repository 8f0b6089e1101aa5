import Verif.Props.NumericalSet

/-!
# C79: what a sweep leaves behind
-/

namespace Verif.Props

open Verif Verif.Spec Verif.PC Verif.Num

variable {E D R O H P X V Q : Type}

/-! ### What sweeps, failed or not, may change -/

/-- What a sweep over `ks` may change in a collection of parameters. -/
structure PFrame (eng : Engine E) (ks : List String) (st st' : PC E) : Prop where
  clean : CleanReachable eng st → CleanReachable eng st'
  sym : st'.symMap = st.symMap
  parz : st'.parz = st.parz
  keys : st'.coll.keys = st.coll.keys
  param : ∀ k p, st.coll.get? k = some p → ∃ p', st'.coll.get? k = some p' ∧ p'.lo = p.lo ∧ p'.hi = p.hi ∧
      (k ∉ ks → ¬ Parametric st k → p'.value = p.value)

theorem PFrame.refl (eng : Engine E) (ks : List String) (st : PC E) : PFrame eng ks st st :=
  ⟨id, rfl, rfl, rfl, fun _ p hp => ⟨p, hp, rfl, rfl, fun _ _ => rfl⟩⟩

theorem PFrame.parametric {eng : Engine E} {ks : List String} {st st' : PC E} (h : PFrame eng ks st st') (k : String) :
    Parametric st' k ↔ Parametric st k := by
  unfold Parametric getParametricParametersList; rw [h.parz]

theorem PFrame.trans {eng : Engine E} {ks : List String} {a b c : PC E} (h : PFrame eng ks a b) (h' : PFrame eng ks b c) : PFrame eng ks a c := by
  refine ⟨fun x => h'.clean (h.clean x), h'.sym.trans h.sym, h'.parz.trans h.parz, h'.keys.trans h.keys, ?_⟩
  intro k p hp
  obtain ⟨q, hq, q1, q2, q3⟩ := h.param k p hp
  obtain ⟨r, hr, r1, r2, r3⟩ := h'.param k q hq
  exact ⟨r, hr, r1.trans q1, r2.trans q2, fun hk hnp => (r3 hk (by rwa [h.parametric])).trans (q3 hk hnp)⟩

theorem PFrame.value {eng : Engine E} {ks : List String} {st st' : PC E} (h : PFrame eng ks st st') {m : String} (hm : m ∉ ks)
    (hnp : ¬ Parametric st m) : st'.getParameterValue m = st.getParameterValue m := by
  unfold getParameterValue
  cases hc : st.coll.get? m with
  | none =>
    have : st'.coll.get? m = none := by rw [Dict.get?_eq_none_iff] at hc ⊢; rwa [h.keys]
    rw [this]
  | some p =>
    obtain ⟨p', a, _, _, c⟩ := h.param m p hc
    rw [a]
    exact congrArg Except.ok (c hm hnp)

theorem PFrame.admits {eng : Engine E} {ks : List String} {st st' : PC E} (h : PFrame eng ks st st') {n : String} {f : PF}
    (ha : Admits st n f) : Admits st' n f := by
  obtain ⟨p, hp, hadm⟩ := ha
  obtain ⟨p', a, h1, h2, _⟩ := h.param n p hp
  refine ⟨p', a, ?_⟩
  unfold Param.setValue at hadm ⊢
  simp only [PyVal.toFloat?, h1, h2] at hadm ⊢
  split_ifs at hadm ⊢ <;> first | rfl | simp at hadm

theorem PFrame.hasSource {eng : Engine E} {ks : List String} {st st' : PC E} (h : PFrame eng ks st st') {n : String}
    (hs : HasSource eng st n) : HasSource eng st' n := by
  obtain ⟨i, hi, hti⟩ := hs
  refine ⟨i, by rwa [h.parametric], ?_⟩
  refine Relation.TransGen.lift (p := Mentions eng st') id ?_ _ _ hti
  rintro a b ⟨ex, s, x1, x2, x3⟩
  refine ⟨ex, s, ?_, ?_, x3⟩
  · rw [getExpr_iff] at x1 ⊢; rw [h.parz]; exact x1
  · rw [getSymbol_iff] at x2 ⊢; rw [h.sym]; exact x2

/-- Setting parameters among `ks`, whether it succeeds or not. -/
theorem pframe_set {eng : Engine E} (law : eng.Lawful D) {st : PC E} (h : CleanReachable eng st) (ks : List String) (ho : HashOrder) (fuel : ℕ)
    (values : Dict String PyVal) (hkeys : ∀ n ∈ values.keys, n ∈ ks) :
    PFrame eng ks st (st.setParameterValues eng ho fuel [.dict values]).1 := by
  have hg := CleanReachable.good law h
  have hf := setParameterValues_frame eng ho fuel st [.dict values]
  refine ⟨?_, hf.1, hf.2.1, setParameterValues_keys eng ho fuel st [.dict values], ?_⟩
  · intro h
    exact clean_step h ⟨ho, fuel, .setParameterValues [.dict values]⟩ (by simp [CleanCall])
  · intro k p hp
    obtain ⟨q, q1, q2, q3⟩ := setPairs_param (values.map fun p => (some p.1, p.2)) st k p hp
    have hfr := setPairs_frame (values.map fun p => (some p.1, p.2)) st
    have hq : q.lo = p.lo ∧ q.hi = p.hi := by rcases q2 with rfl | ⟨f, rfl⟩ <;> exact ⟨rfl, rfl⟩
    have hkv : k ∉ ks → q = p := by
      intro hk
      apply q3
      intro v hv
      simp only [List.mem_map, Prod.mk.injEq, Option.some.injEq, Prod.exists] at hv
      obtain ⟨a, b, hab, rfl, rfl⟩ := hv
      exact hk (hkeys _ (List.mem_map.2 ⟨_, hab, rfl⟩))
    unfold setParameterValues
    simp only [parseBulk]
    split
    · rename_i st1 e heq
      rw [heq] at q1
      exact ⟨q, q1, hq.1, hq.2, fun hk _ => by rw [hkv hk]⟩
    · rename_i st1 heq
      rw [heq] at q1 hfr
      simp only at q1 hfr
      obtain ⟨p', a, b, c⟩ := update_param_frame eng ho fuel st1 (by rw [hfr.2.2]; exact hg.wf) k q q1
      refine ⟨p', a, ?_, ?_, ?_⟩
      · rcases b with rfl | ⟨g, rfl⟩ <;> exact hq.1
      · rcases b with rfl | ⟨g, rfl⟩ <;> exact hq.2
      · intro hk hnp
        rw [c (by unfold Parametric getParametricParametersList at hnp ⊢; rw [hfr.2.1]; exact hnp), hkv hk]

/-- Generating a grid, whether it succeeds or not, changes no value. -/
theorem pframe_grid {eng : Engine E} {st : SW E R} (h : CleanReachable eng st.pc) (ks : List String) (spec : List SweepSpec) :
    PFrame eng ks st.pc (st.ndSweep spec).1.pc := by
  have key : ∀ (spec : List SweepSpec) (pc : PC E) (n : ℤ), (SW.ndLoop pc n spec).1.symMap = pc.symMap ∧ (SW.ndLoop pc n spec).1.parz = pc.parz ∧
      (SW.ndLoop pc n spec).1.coll.keys = pc.coll.keys ∧
      ∀ k p, pc.coll.get? k = some p → ∃ p', (SW.ndLoop pc n spec).1.coll.get? k = some p' ∧ p'.lo = p.lo ∧ p'.hi = p.hi ∧ p'.value = p.value := by
    intro spec
    induction spec with
    | nil => intro pc n; exact ⟨rfl, rfl, rfl, fun k p hp => ⟨p, hp, rfl, rfl, rfl⟩⟩
    | cons s spec ih =>
      intro pc n
      have hid : pc.symMap = pc.symMap ∧ pc.parz = pc.parz ∧ pc.coll.keys = pc.coll.keys ∧
        ∀ k p, pc.coll.get? k = some p → ∃ p', pc.coll.get? k = some p' ∧ p'.lo = p.lo ∧ p'.hi = p.hi ∧ p'.value = p.value :=
        ⟨rfl, rfl, rfl, fun k p hp => ⟨p, hp, rfl, rfl, rfl⟩⟩
      unfold SW.ndLoop
      split
      · exact hid
      · rename_i p hp
        split
        · exact hid
        · rename_i p' pts hp'
          have hpp : p'.lo = p.lo ∧ p'.hi = p.hi ∧ p'.value = p.value := by
            unfold Param.linearSweep at hp'
            split at hp'
            · cases hp'
            · split at hp'
              · cases hp'
              · split at hp'
                · cases hp'
                · split_ifs at hp' <;> simp only [Prod.mk.injEq] at hp' <;> rw [← hp'.1] <;> exact ⟨rfl, rfl, rfl⟩
          have := ih { pc with coll := pc.coll.set s.name p' } (n * p'.N)
          have h2 : (SW.ndLoop { pc with coll := pc.coll.set s.name p' } (n * p'.N) spec).1.symMap = pc.symMap ∧
              (SW.ndLoop { pc with coll := pc.coll.set s.name p' } (n * p'.N) spec).1.parz = pc.parz ∧
              (SW.ndLoop { pc with coll := pc.coll.set s.name p' } (n * p'.N) spec).1.coll.keys = pc.coll.keys ∧
              ∀ k p, pc.coll.get? k = some p → ∃ q, (SW.ndLoop { pc with coll := pc.coll.set s.name p' } (n * p'.N) spec).1.coll.get? k = some q ∧
                q.lo = p.lo ∧ q.hi = p.hi ∧ q.value = p.value := by
            refine ⟨this.1, this.2.1, this.2.2.1.trans (Dict.keys_set_of_mem _ (Dict.mem_keys_of_get? hp)), ?_⟩
            intro k q hq
            by_cases hk : s.name = k
            · subst hk
              rw [hp] at hq; cases hq
              obtain ⟨r, r1, r2, r3, r4⟩ := this.2.2.2 s.name p' (by simp)
              exact ⟨r, r1, r2.trans hpp.1, r3.trans hpp.2.1, r4.trans hpp.2.2⟩
            · exact this.2.2.2 k q (by simp only [Dict.get?_set_ne _ _ hk]; exact hq)
          split
          · rename_i heq; rw [heq] at h2; exact h2
          · rename_i heq; rw [heq] at h2; exact h2
  have hk := key spec st.pc 1
  have hc := ndSweep_clean h spec
  have hpc : (st.ndSweep spec).1.pc = (SW.ndLoop st.pc 1 spec).1 := by
    unfold SW.ndSweep
    split
    · rename_i heq; rw [heq]
    · rename_i heq; rw [heq]
  rw [hpc] at hc ⊢
  exact ⟨fun _ => hc, hk.1, hk.2.1, hk.2.2.1, fun k p hp => by
    obtain ⟨p', a, b, c, d⟩ := hk.2.2.2 k p hp
    exact ⟨p', a, b, c, fun _ _ => d⟩⟩

/-- What a sweep over `ks` may change in a system. -/
structure SFrame (eng : Engine E) (ks : List String) (st st' : NS E R O) : Prop where
  pc : PFrame eng ks st.sw.pc st'.sw.pc
  exprs : st'.exprs = st.exprs
  cfg : st'.cfg = st.cfg
  nodes : st'.nodes = st.nodes
  vec : st'.vec = st.vec
  specs : st'.specs = st.specs
  circ : ∀ node, node ∉ st.nodes → st'.circ.get? node = st.circ.get? node

theorem SFrame.trans {eng : Engine E} {ks : List String} {a b c : NS E R O} (h : SFrame eng ks a b) (h' : SFrame eng ks b c) : SFrame eng ks a c :=
  ⟨h.pc.trans h'.pc, h'.exprs.trans h.exprs, h'.cfg.trans h.cfg, h'.nodes.trans h.nodes, h'.vec.trans h.vec, h'.specs.trans h.specs,
    fun n hn => (h'.circ n (by rwa [h.nodes])).trans (h.circ n hn)⟩

theorem sframe_postsub {eng : Engine E} (law : eng.Lawful D) (ho : HashOrder) (fuel : ℕ) (gen : List (ℕ × BasisName) → ℕ → Option PF → Except Err O)
    (ks : List String) (st : NS E R O) (h : CleanReachable eng st.sw.pc) (p : Dict String PF) (hp : ∀ n ∈ p.keys, n ∈ ks) :
    SFrame eng ks st (st.postsub eng ho fuel gen p).1 ∧ (st.postsub eng ho fuel gen p).1.evals = st.evals := by
  have hf := pframe_set law h ks ho fuel (p.map fun p => (p.1, PyVal.np p.2)) (by
    intro n hn; apply hp; unfold Dict.keys at hn ⊢; simpa using hn)
  unfold NS.postsub
  split
  · rename_i pc e heq; rw [heq] at hf; exact ⟨⟨hf, rfl, rfl, rfl, rfl, rfl, fun _ _ => rfl⟩, rfl⟩
  · rename_i pc heq
    rw [heq] at hf
    dsimp only
    split
    · exact ⟨⟨hf, rfl, rfl, rfl, rfl, rfl, fun _ _ => rfl⟩, rfl⟩
    · split
      · exact ⟨⟨hf, rfl, rfl, rfl, rfl, rfl, fun _ _ => rfl⟩, rfl⟩
      · split_ifs
        · exact ⟨⟨hf, rfl, rfl, rfl, rfl, rfl, fun _ _ => rfl⟩, rfl⟩
        · unfold NS.expand
          split
          · exact ⟨⟨hf, rfl, rfl, rfl, rfl, rfl, fun _ _ => rfl⟩, rfl⟩
          · exact ⟨⟨hf, rfl, rfl, rfl, rfl, rfl, fun n hn => expandLoop_outside gen _ _ _ n _ _ hn⟩, rfl⟩

theorem sframe_multi {eng : Engine E} (law : eng.Lawful D) (ho : HashOrder) (fuel : ℕ) (ph : Phys O H P X V R) (gv : Bool) (ks : List String)
    (entries : List Entry) : ∀ (pts : List (Dict String PF)) (st : NS E Q O) (res : Dict Method (Res X V R)), CleanReachable eng st.sw.pc →
      (∀ p ∈ pts, ∀ n ∈ p.keys, n ∈ ks) → SFrame eng ks st (multiLoop eng ho fuel ph gv entries pts st res).1 ∧
        (multiLoop eng ho fuel ph gv entries pts st res).1.evals = st.evals := by
  intro pts
  induction pts with
  | nil => intro st res _ _; exact ⟨⟨PFrame.refl _ _ _, rfl, rfl, rfl, rfl, rfl, fun _ _ => rfl⟩, rfl⟩
  | cons p pts ih =>
    intro st res hc hp
    obtain ⟨h1, h1'⟩ := sframe_postsub law ho fuel ph.gen ks st hc p (hp p (by simp))
    unfold multiLoop
    split
    · rename_i heq; rw [heq] at h1 h1'; exact ⟨h1, h1'⟩
    · rename_i st1 heq
      rw [heq] at h1 h1'
      split
      · exact ⟨h1, h1'⟩
      · rename_i res1 _
        obtain ⟨h2, h2'⟩ := ih st1 res1 (h1.pc.clean hc) (fun q hq => hp q (by simp [hq]))
        exact ⟨h1.trans h2, h2'.trans h1'⟩

theorem sframe_single {eng : Engine E} (law : eng.Lawful D) (ho : HashOrder) (fuel : ℕ) (ph : Phys O H P X V R) (gv : Bool) (ks : List String)
    (entry : Entry) : ∀ (pts : List (Dict String PF)) (st : NS E Q O), CleanReachable eng st.sw.pc →
      (∀ p ∈ pts, ∀ n ∈ p.keys, n ∈ ks) → SFrame eng ks st (singleLoop eng ho fuel ph gv entry pts st).1 ∧
        (singleLoop eng ho fuel ph gv entry pts st).1.evals = st.evals := by
  intro pts
  induction pts with
  | nil => intro st _ _; exact ⟨⟨PFrame.refl _ _ _, rfl, rfl, rfl, rfl, rfl, fun _ _ => rfl⟩, rfl⟩
  | cons p pts ih =>
    intro st hc hp
    obtain ⟨h1, h1'⟩ := sframe_postsub law ho fuel ph.gen ks st hc p (hp p (by simp))
    unfold singleLoop
    split
    · rename_i heq; rw [heq] at h1 h1'; exact ⟨h1, h1'⟩
    · rename_i st1 heq
      rw [heq] at h1 h1'
      split
      · exact ⟨h1, h1'⟩
      · obtain ⟨h2, h2'⟩ := ih st1 (h1.pc.clean hc) (fun q hq => hp q (by simp [hq]))
        exact ⟨h1.trans h2, h2'.trans h1'⟩

theorem ndLoop_names : ∀ (spec : List SweepSpec) (pc : PC E) (n : ℤ) (pc' : PC E) (n' : ℤ) (ks : List String) (sw : List (List PF)),
    SW.ndLoop pc n spec = (pc', n', .ok (ks, sw)) → ks = spec.map SweepSpec.name := by
  intro spec
  induction spec with
  | nil => intro pc n pc' n' ks sw h; simp only [SW.ndLoop, Prod.mk.injEq, Except.ok.injEq] at h; rw [← h.2.2.1]; rfl
  | cons s spec ih =>
    intro pc n pc' n' ks sw h
    unfold SW.ndLoop at h
    split at h
    · cases h
    · split at h
      · cases h
      · split at h
        · cases h
        · rename_i heq
          simp only [Prod.mk.injEq, Except.ok.injEq] at h
          rw [← h.2.2.1, ih _ _ _ _ _ _ heq]; rfl

theorem grid_names {st sw : SW E R} {spec : List SweepSpec} (h : st.ndSweep spec = (sw, .ok ())) : sw.params = some (spec.map SweepSpec.name) := by
  unfold SW.ndSweep at h
  split at h
  · cases h
  · rename_i heq
    simp only [Prod.mk.injEq, and_true] at h
    rw [← h, ndLoop_names _ _ _ _ _ _ _ heq]

/-- What a sweep changes, whether it succeeds or not. -/
theorem sweep_frame {eng : Engine E} (law : eng.Lawful D) (ho : HashOrder) (fuel : ℕ) (ph : Phys O H P X V R) (gv : Bool) (st : NS E Q O)
    (hc : CleanReachable eng st.sw.pc) (st' : NS E Q O) (files : List (SW.Pickled (Res X V R))) (r : Except Err Unit)
    (hrun : paramSweep eng ho fuel ph gv st = (st', files, r)) :
    ∃ stX : NS E Q O, SFrame eng (st.specs.map SweepSpec.name) st stX ∧ stX.evals = evaluations st ∧
      ((∃ e, r = .error e ∧ st' = stX) ∨ (r = .ok () ∧ st' = { stX with specs := [], evals := [] })) := by
  have hst : (if st.evals.length = 0 then { st with evals := [⟨.getHamiltonian, true, none, {}⟩] } else st) =
      { st with evals := evaluations st } := by
    unfold evaluations
    by_cases h : st.evals = []
    · simp [h, hamEntry]
    · simp [h]
  have hg := pframe_grid (st := st.sw) hc (st.specs.map SweepSpec.name) st.specs
  unfold paramSweep at hrun
  simp only [hst] at hrun
  split at hrun
  · rename_i sw e heq
    rw [heq] at hg
    simp only [Prod.mk.injEq] at hrun
    obtain ⟨rfl, _, rfl⟩ := hrun
    exact ⟨{ st with sw := sw, evals := evaluations st }, ⟨hg, rfl, rfl, rfl, rfl, rfl, fun _ _ => rfl⟩, rfl, Or.inl ⟨e, rfl, rfl⟩⟩
  · rename_i sw heq
    have hn := grid_names heq
    rw [heq] at hg
    have hp : ∀ (x : NS E Q O) (y : Except Err Unit), ({ st with sw := sw, evals := evaluations st } : NS E Q O).presub eng ho = (x, y) →
        SFrame eng (st.specs.map SweepSpec.name) st x ∧ x.evals = evaluations st ∧ x.sw = sw := by
      intro x y h
      unfold NS.presub at h
      split at h
      · cases h; exact ⟨⟨hg, rfl, rfl, rfl, rfl, rfl, fun _ _ => rfl⟩, rfl, rfl⟩
      · dsimp only at h
        split at h
        · cases h; exact ⟨⟨hg, rfl, rfl, rfl, rfl, rfl, fun _ _ => rfl⟩, rfl, rfl⟩
        · cases h; exact ⟨⟨hg, rfl, rfl, rfl, rfl, rfl, fun _ _ => rfl⟩, rfl, rfl⟩
    split at hrun
    · rename_i x e hx
      obtain ⟨p1, p2, _⟩ := hp _ _ hx
      simp only [Prod.mk.injEq] at hrun
      obtain ⟨rfl, _, rfl⟩ := hrun
      exact ⟨_, p1, p2, Or.inl ⟨e, rfl, rfl⟩⟩
    · rename_i x hx
      obtain ⟨p1, p2, p3⟩ := hp _ _ hx
      split at hrun
      · rename_i e _
        simp only [Prod.mk.injEq] at hrun
        obtain ⟨rfl, _, rfl⟩ := hrun
        exact ⟨_, p1, p2, Or.inl ⟨e, rfl, rfl⟩⟩
      · rename_i pts hpts
        rw [p3] at hpts
        have hk := grid_keys heq hpts hn
        have he : SFrame eng (st.specs.map SweepSpec.name) x (evaluate eng ho fuel ph gv x.evals pts x).1 ∧
            (evaluate eng ho fuel ph gv x.evals pts x).1.evals = x.evals := by
          unfold evaluate
          split
          · exact sframe_single law ho fuel ph gv _ _ pts x (p1.pc.clean hc) (fun q hq n hn => (hk q hq n).1 hn)
          · exact sframe_multi law ho fuel ph gv _ _ pts x _ (p1.pc.clean hc) (fun q hq n hn => (hk q hq n).1 hn)
        split at hrun
        · rename_i y f e hy
          rw [hy] at he
          simp only [Prod.mk.injEq] at hrun
          obtain ⟨rfl, _, rfl⟩ := hrun
          exact ⟨_, p1.trans he.1, he.2.trans p2, Or.inl ⟨e, rfl, rfl⟩⟩
        · rename_i y f hy
          rw [hy] at he
          simp only [Prod.mk.injEq] at hrun
          obtain ⟨rfl, _, rfl⟩ := hrun
          exact ⟨_, p1.trans he.1, he.2.trans p2, Or.inr ⟨rfl, rfl⟩⟩

/-! ### C79 -/

/-- **C79** A sweep that ends normally forgets its specifications and evaluations; one that raises keeps them for the next sweep. -/
theorem C79_pending (eng : Engine E) (law : eng.Lawful D) (ho : HashOrder) (fuel : ℕ) (ph : Phys O H P X V R) (gv : Bool) (st : NS E Q O)
    (hc : CleanReachable eng st.sw.pc) (st' : NS E Q O) (files : List (SW.Pickled (Res X V R))) (r : Except Err Unit)
    (hrun : paramSweep eng ho fuel ph gv st = (st', files, r)) :
    (r = .ok () → st'.specs = [] ∧ st'.evals = []) ∧ (r ≠ .ok () → st'.specs = st.specs ∧ st'.evals = evaluations st) := by
  obtain ⟨x, h1, h2, ⟨e, rfl, rfl⟩ | ⟨rfl, rfl⟩⟩ := sweep_frame law ho fuel ph gv st hc st' files r hrun
  · exact ⟨fun h => (by cases h), fun _ => ⟨h1.specs, h2⟩⟩
  · exact ⟨fun _ => ⟨rfl, rfl⟩, fun h => absurd rfl h⟩

theorem lastVal_const : ∀ (l : List (Option String × PyVal)) (n : String) (f acc : Option PF), (∀ v, (some n, v) ∈ l → v.toFloat? = f) →
    ((∃ v, (some n, v) ∈ l) ∨ acc = f) → lastVal l n acc = f := by
  intro l
  induction l with
  | nil =>
    intro n f acc _ h
    rcases h with ⟨v, hv⟩ | h
    · simp at hv
    · exact h
  | cons x l ih =>
    intro n f acc h1 h2
    obtain ⟨k, w⟩ := x
    unfold lastVal
    refine ih n f _ (fun v hv => h1 v (by simp [hv])) ?_
    by_cases hk : k = some n
    · rw [if_pos hk]
      exact Or.inr (h1 w (by simp [hk]))
    · rw [if_neg hk]
      rcases h2 with ⟨v, hv⟩ | h
      · simp only [List.mem_cons, Prod.mk.injEq] at hv
        exact Or.inl ⟨v, hv.resolve_left (fun h => hk h.1.symm)⟩
      · exact Or.inr h

/-- Setting the changed parameters back gives every parameter the value it had. -/
theorem restore_values {eng : Engine E} (law : eng.Lawful D) {st pcM pc : PC E} (hc : CleanReachable eng st) (ks : List String)
    (hks : ∀ k ∈ ks, st.coll.get? k ≠ none ∧ ¬ Parametric st k)
    (hsettled : ∀ k, Parametric st k → ∃ f, HasSource eng st k ∧ Computable eng law st k f ∧ st.getParameterValue k = .ok (some f))
    (hM : PFrame eng ks st pcM) (old : Dict String PF) (hkeys : ∀ n, n ∈ old.keys ↔ n ∈ ks) (hold : ∀ n v, (n, v) ∈ old → st.getParameterValue n = .ok (some v))
    (ho : HashOrder) (fuel : ℕ) (hset : pcM.setParameterValues eng ho fuel (pointArg old) = (pc, .ok ())) :
    PFrame eng ks st pc ∧ ∀ n, pc.getParameterValue n = st.getParameterValue n := by
  have hpk : ∀ n, n ∈ (Dict.keys (old.map fun kv => (kv.1, PyVal.np kv.2))) ↔ n ∈ ks := by
    intro n
    rw [← hkeys n]
    unfold Dict.keys; simp
  have hF := pframe_set law (hM.clean hc) ks ho fuel (old.map fun kv => (kv.1, PyVal.np kv.2)) (fun n hn => (hpk n).1 hn)
  have hset' : pcM.setParameterValues eng ho fuel [.dict (old.map fun kv => (kv.1, PyVal.np kv.2))] = (pc, .ok ()) := hset
  rw [hset'] at hF
  have hSF := hM.trans hF
  have hind : ∀ m, ¬ Parametric st m → pc.getParameterValue m = st.getParameterValue m := by
    intro m hm
    by_cases hk : m ∈ ks
    · have hmem : ∃ v, (m, v) ∈ old := by
        have := (hkeys m).2 hk
        unfold Dict.keys at this
        obtain ⟨x, hx, rfl⟩ := List.mem_map.1 this
        exact ⟨x.2, hx⟩
      obtain ⟨v, hv⟩ := hmem
      rw [hold m v hv]
      have hM0 : ¬ Parametric pcM m := by rwa [hM.parametric]
      obtain ⟨p, hp⟩ : ∃ p, pcM.coll.get? m = some p := by
        rw [← Option.ne_none_iff_exists', Ne, Dict.get?_eq_none_iff, hM.keys, ← Dict.get?_eq_none_iff]; exact (hks m hk).1
      have hg := CleanReachable.good law (hM.clean hc)
      unfold setParameterValues at hset'
      simp only [parseBulk] at hset'
      split at hset'
      · cases hset'
      · rename_i st1 heq
        have hfr := setPairs_frame ((old.map fun kv => (kv.1, PyVal.np kv.2)).map fun p => (some p.1, p.2)) pcM
        rw [heq] at hfr
        simp only at hfr
        obtain ⟨q, q1, q2⟩ := setPairs_value _ pcM st1 m p heq (by
          have := (Dict.has_iff pcM.parz m).not.2 hM0
          simpa using this) hp
        obtain ⟨p', a, _, c⟩ := update_param_frame eng ho fuel st1 (by rw [hfr.2.2]; exact hg.wf) m q q1
        rw [hset'] at a
        rw [c (by unfold Parametric getParametricParametersList at hM0 ⊢; rw [hfr.2.1]; exact hM0)] at a
        unfold getParameterValue
        simp only at a
        rw [a]
        simp only [Param.getValue, q2, Except.ok.injEq]
        refine lastVal_const _ _ _ _ ?_ (Or.inl ?_)
        · intro w hw
          simp only [List.map_map, List.mem_map, Function.comp_apply, Prod.mk.injEq, Option.some.injEq, Prod.exists] at hw
          obtain ⟨x, y, hxy, rfl, rfl⟩ := hw
          have := hold _ _ hxy
          rw [hold _ _ hv] at this
          simp only [Except.ok.injEq, Option.some.injEq] at this
          rw [this]; rfl
        · refine ⟨PyVal.np v, ?_⟩
          simp only [List.map_map, List.mem_map, Function.comp_apply, Prod.mk.injEq, Option.some.injEq, Prod.exists]
          exact ⟨m, v, hv, rfl, rfl⟩
    · exact hSF.value hk hm
  refine ⟨hSF, ?_⟩
  intro n
  by_cases hp : Parametric st n
  · obtain ⟨f, hs, ⟨d, hd, hto, hadm⟩, hv⟩ := hsettled n hp
    rw [hv]
    exact C06_dependents_follow_bulk_set_partial eng law pcM (hM.clean hc) ho fuel _ pc hset' n f (hSF.hasSource hs)
      ⟨d, denotes_congr hSF.sym hSF.parz hind hd, hto, hSF.admits hadm⟩
  · exact hind n hp

theorem valuesDict_of {pc pc' : PC E} (hk : pc'.coll.keys = pc.coll.keys) (hnd : pc.coll.keys.Nodup)
    (h : ∀ n, pc'.getParameterValue n = pc.getParameterValue n) : pc'.getParameterValuesDict = pc.getParameterValuesDict := by
  have key : ∀ p : PC E, p.coll.keys.Nodup → p.getParameterValuesDict = p.coll.keys.map fun n => (n, (p.getParameterValue n).toOption.getD none) := by
    intro p hp
    unfold getParameterValuesDict Dict.keys
    rw [List.map_map]
    refine List.map_congr_left ?_
    intro x hx
    have : p.coll.get? x.1 = some x.2 := Dict.get?_of_mem hp hx
    simp only [Function.comp_apply, getParameterValue, this]
    rfl
  rw [key _ (by rwa [hk]), key _ hnd, hk]
  exact List.map_congr_left fun n _ => by rw [h n]

/-- **C79** A sweep can be undone: after a sweep, whether it ended normally or raised, setting the swept parameters back to the values they had
gives every parameter, the numeric attributes, the operators and the operator vectors their values from before the sweep, so every evaluation gives
what it gave then. -/
theorem C79_undo_partial (eng : Engine E) (law : eng.Lawful D) (ho : HashOrder) (fuel : ℕ) (ph : Phys O H P X V R) (gv : Bool) (st : NS E Q O)
    (hc : CleanReachable eng st.sw.pc) (hcur : Current eng ph.gen st)
    (hindep : ∀ s ∈ st.specs, st.sw.pc.coll.get? s.name ≠ none ∧ ¬ Parametric st.sw.pc s.name)
    (hsettled : ∀ k, Parametric st.sw.pc k →
      ∃ f, HasSource eng st.sw.pc k ∧ Computable eng law st.sw.pc k f ∧ st.sw.pc.getParameterValue k = .ok (some f))
    (st' : NS E Q O) (files : List (SW.Pickled (Res X V R))) (r : Except Err Unit)
    (hrun : paramSweep eng ho fuel ph gv st = (st', files, r))
    (old : Dict String PF) (hkeys : ∀ n, n ∈ old.keys ↔ ∃ s ∈ st.specs, s.name = n)
    (hold : ∀ n v, (n, v) ∈ old → st.sw.pc.getParameterValue n = .ok (some v))
    (ho' : HashOrder) (fuel' : ℕ) (st'' : NS E Q O) (hset : st'.setParameterValues eng ho' fuel' ph.gen (pointArg old) = (st'', .ok ())) :
    (∀ n, st''.sw.pc.getParameterValue n = st.sw.pc.getParameterValue n) ∧ (∀ a, st''.num.get? a = st.num.get? a) ∧
    (∀ node, st''.circ.get? node = st.circ.get? node) ∧ st''.vec = st.vec ∧
    ∀ (m : Method) (arg : Option (Unpacked X V)) (k : Kw), callMethod ph st'' m arg k = callMethod ph st m arg k := by
  obtain ⟨x, hx, -, hx'⟩ := sweep_frame law ho fuel ph gv st hc st' files r hrun
  have e0 : st'.sw = x.sw ∧ st'.exprs = x.exprs ∧ st'.cfg = x.cfg ∧ st'.nodes = x.nodes ∧ st'.circ = x.circ := by
    rcases hx' with ⟨e, rfl, rfl⟩ | ⟨rfl, rfl⟩ <;> exact ⟨rfl, rfl, rfl, rfl, rfl⟩
  have hM : PFrame eng (st.specs.map SweepSpec.name) st.sw.pc st'.sw.pc := by rw [e0.1]; exact hx.pc
  have hcur' := C78_current eng ph.gen st' st'' (ho', fuel', .many (pointArg old)) hset
  have hfr := setCall_frame eng ph.gen st' (ho', fuel', .many (pointArg old))
  have hset' : st'.set eng ph.gen (ho', fuel', .many (pointArg old)) = (st'', .ok ()) := hset
  rw [hset'] at hfr
  obtain ⟨f1, f2, f3, f4, f5⟩ := hfr
  -- the parameters
  have hpc : st'.sw.pc.setParameterValues eng ho' fuel' (pointArg old) = (st''.sw.pc, .ok ()) := by
    unfold NS.setParameterValues at hset
    split at hset
    · cases hset
    · rename_i pc hpc
      dsimp only at hset
      split_ifs at hset
      · have := (refresh_frame eng ph.gen ({ st' with sw := { st'.sw with pc := pc } } : NS E Q O)).2.2.2.1
        dsimp only at this
        split at hset
        · cases hset
        · rename_i stS hS
          rw [hS] at this
          simp only at this
          rw [hset] at this
          rw [hpc, this]
      · cases hset
  obtain ⟨hF, hv⟩ := restore_values law hc (st.specs.map SweepSpec.name) (by
      intro k hk
      obtain ⟨s, hs, rfl⟩ := List.mem_map.1 hk
      exact hindep s hs) hsettled hM old (fun n => (hkeys n).trans (by simp)) hold ho' fuel' hpc
  have hnd : st.sw.pc.coll.keys.Nodup := (CleanReachable.good law hc).collKeys
  have hd : st''.sw.pc.getParameterValuesDict = st.sw.pc.getParameterValuesDict := valuesDict_of hF.keys hnd hv
  -- both systems are up to date
  obtain ⟨⟨d, a1, a2⟩, ⟨sh, a3, a4⟩, ⟨v, a5, a6⟩⟩ := hcur
  obtain ⟨⟨d', b1, b2⟩, ⟨sh', b3, b4⟩, ⟨v', b5, b6⟩⟩ := hcur'
  have i1 : st''.exprs = st.exprs := f1.trans (e0.2.1.trans hx.exprs)
  have i2 : st''.cfg = st.cfg := f2.trans (e0.2.2.1.trans hx.cfg)
  have i3 : st''.nodes = st.nodes := f3.trans (e0.2.2.2.1.trans hx.nodes)
  have i5 : ∀ node, node ∉ st.nodes → st''.circ.get? node = st.circ.get? node := by
    intro node hn
    rw [f5 node (by rw [e0.2.2.2.1, hx.nodes]; exact hn), e0.2.2.2.2, hx.circ node hn]
  have hdd : d' = d := by
    have := symbolValues_congr hF.sym hd
    rw [a1, b1] at this
    exact Except.ok.inj this
  subst hdd
  have hsh : sh' = sh := by
    have : st''.shape = st.shape := by unfold NS.shape; rw [i2, i3]
    rw [a3, b3] at this
    exact Except.ok.inj this
  subst hsh
  have hnum : ∀ a, st''.num.get? a = st.num.get? a := by
    intro a
    obtain ⟨xs, x1, x2⟩ := a2 a
    obtain ⟨ys, y1, y2⟩ := b2 a
    rw [x1, y1]
    rw [i1, x2] at y2
    rw [(List.map_injective_iff.2 (Option.some_injective _)) y2]
  have hcirc : ∀ node, st''.circ.get? node = st.circ.get? node := by
    intro node
    by_cases hn : node ∈ st.nodes
    · obtain ⟨o, o1, o2⟩ := a4 node hn
      obtain ⟨o', o3, o4⟩ := b4 node (by rwa [i3])
      have : st''.opsOf ph.gen sh' node = st.opsOf ph.gen sh' node := opsOf_congr (by rw [i2]) (fun _ _ _ => hv _)
      rw [o1, o3] at this
      cases this
      rw [o2, o4]
    · exact i5 node hn
  have hvec : st''.vec = st.vec := by
    rw [a5, b5]
    congr 1
    apply List.map_injective_iff.2 (Option.some_injective _)
    rw [← a6, ← b6, i3]
    exact List.map_congr_left fun node _ => hcirc node
  refine ⟨hv, hnum, hcirc, hvec, ?_⟩
  intro m arg k
  unfold callMethod
  rw [show st''.num.get? = st.num.get? from funext hnum, show st''.circ.get? = st.circ.get? from funext hcirc, hvec,
    show st''.sw.pc.getParameterValue = st.sw.pc.getParameterValue from funext hv]

/-- The evaluations do not change the system: after a normal end it is as the visits of the points leave it. -/
theorem evaluate_visit (eng : Engine E) (ho : HashOrder) (fuel : ℕ) (ph : Phys O H P X V R) (gv : Bool) (entries : List Entry)
    (pts : List (Dict String PF)) (st st' : NS E Q O) (files : List (SW.Pickled (Res X V R)))
    (h : evaluate eng ho fuel ph gv entries pts st = (st', files, .ok ())) : visit eng ho fuel ph.gen pts st = (st', .ok ()) := by
  have hm : ∀ (pts : List (Dict String PF)) (st st' : NS E Q O) (files : List (SW.Pickled (Res X V R))) (res : Dict Method (Res X V R)),
      multiLoop eng ho fuel ph gv entries pts st res = (st', files, .ok ()) → visit eng ho fuel ph.gen pts st = (st', .ok ()) := by
    intro pts
    induction pts with
    | nil => intro st st' files res h; cases h; rfl
    | cons p pts ih =>
      intro st st' files res h
      unfold multiLoop at h
      split at h
      · cases h
      rename_i st1 h1
      split at h
      · cases h
      rename_i res1 _
      generalize hq : multiLoop eng ho fuel ph gv entries pts st1 res1 = q at h
      obtain ⟨st2, files', r⟩ := q
      simp only [Prod.mk.injEq] at h
      obtain ⟨rfl, rfl, rfl⟩ := h
      simp only [visit, h1, ih st1 _ _ _ hq]
  have hs : ∀ (e : Entry) (pts : List (Dict String PF)) (st st' : NS E Q O) (files : List (SW.Pickled (Res X V R))),
      singleLoop eng ho fuel ph gv e pts st = (st', files, .ok ()) → visit eng ho fuel ph.gen pts st = (st', .ok ()) := by
    intro e pts
    induction pts with
    | nil => intro st st' files h; cases h; rfl
    | cons p pts ih =>
      intro st st' files h
      unfold singleLoop at h
      split at h
      · cases h
      rename_i st1 h1
      split at h
      · cases h
      generalize hq : singleLoop eng ho fuel ph gv e pts st1 = q at h
      obtain ⟨st2, files', r⟩ := q
      simp only [Prod.mk.injEq] at h
      obtain ⟨rfl, rfl, rfl⟩ := h
      simp only [visit, h1, ih st1 _ _ hq]
  unfold evaluate at h
  split at h
  · exact hs _ pts st st' files h
  · exact hm pts st st' files _ h

/-- **C79** After a sweep that ended normally the system is at the last point of the grid: its parameters, numeric attributes and operators are those
that setting that point gives; its operator vectors are still those from before the sweep. -/
theorem C79_last_point_partial (eng : Engine E) (law : eng.Lawful D) (ho : HashOrder) (fuel : ℕ) (ph : Phys O H P X V R) (gv : Bool) (ks : List String)
    (st st₁ st' : NS E Q O) (sw : SW E Q) (pts : List (Dict String PF)) (p : Dict String PF) (files : List (SW.Pickled (Res X V R)))
    (hsw : st.sw.ndSweep st.specs = (sw, .ok ())) (hready : Ready eng law ph.gen ks { st with sw := sw })
    (hpre : ({ st with sw := sw, evals := evaluations st } : NS E Q O).presub eng ho = (st₁, .ok ())) (hpts : gridPoints sw = .ok (pts ++ [p]))
    (hrun : paramSweep eng ho fuel ph gv st = (st', files, .ok ()))
    (stF : NS E Q O) (ho' : HashOrder) (fuel' : ℕ) (hF : NS.setParameterValues eng ho' fuel' ph.gen { st with sw := sw } (pointArg p) = (stF, .ok ()))
    (hdef : Defined eng law { st with sw := sw } stF.sw.pc) :
    (∀ n, st'.sw.pc.getParameterValue n = stF.sw.pc.getParameterValue n) ∧ (∀ a, st'.num.get? a = stF.num.get? a) ∧
    (∀ node, st'.circ.get? node = stF.circ.get? node) ∧ st'.vec = st.vec := by
  have hkeys := grid_keys hsw hpts hready.params
  have hst₁ : st₁.sw = sw ∧ st₁.vec = st.vec := by
    unfold NS.presub at hpre
    split at hpre
    · cases hpre
    · dsimp only at hpre
      split at hpre
      · cases hpre
      · simp only [Prod.mk.injEq, and_true] at hpre
        subst hpre
        exact ⟨rfl, rfl⟩
  rw [paramSweep_eq eng ho fuel ph gv st st₁ sw _ hsw hpre hpts] at hrun
  cases hev : evaluate eng ho fuel ph gv (evaluations st) (pts ++ [p]) st₁ with
  | mk st2 q =>
  obtain ⟨files', r⟩ := q
  rw [hev] at hrun
  cases r with
  | error e => simp at hrun
  | ok u =>
  simp only [Prod.mk.injEq, and_true] at hrun
  obtain ⟨rfl, rfl⟩ := hrun
  have hv := evaluate_visit eng ho fuel ph gv _ _ _ _ _ hev
  have hF' : NS.setParameterValues eng ho' fuel' ph.gen ({ st with sw := sw, evals := evaluations st } : NS E Q O) (pointArg p) =
      ({ stF with evals := evaluations st }, .ok ()) := by
    rw [set_evals eng ho' fuel' ph.gen { st with sw := sw } (evaluations st), hF]
  obtain ⟨c1, c2, c3, -⟩ := C40_point_partial eng law ph.gen ks _ st₁ st2 _ ho ho' fuel fuel' (ready_evals hready (evaluations st)) hpre pts p hkeys hv hF'
    ⟨hdef.1, hdef.2⟩
  have hfr := visit_frame law (ks := ks) (pts ++ [p]) st₁ st2 (by rw [hst₁.1]; exact hready.clean) (fun q hq n hn => (hkeys q hq n).1 hn) hv
  exact ⟨c1, c2, c3, hfr.2.2.2.2.2.2.2.1.trans hst₁.2⟩

/-! ### The hypotheses are met, and what fails -/

theorem lc_current (spec : List SweepSpec) (evals : List Entry) : Current Ast.engine lcPhys.gen (lcBefore spec evals) := by
  have hset : lcNS₀.1.set Ast.engine lcGen (.id, 10, .many [.dict [("C", .int 1), ("L", .int 1), ("phie", .int 0)]]) = (lcNS.1, .ok ()) := by
    rw [← lc_ok.2]; rfl
  obtain ⟨a, b, c⟩ := C78_current _ _ _ _ _ hset
  exact ⟨a, b, c⟩

/-- A sweep of `L` down to 0, where `1/L` has no value: it raises at its second point. -/
def sweepDown : List SweepSpec := [⟨"L", .int 4, .int 0, .int 2⟩]

/-- The hypotheses of `C79_undo_partial` are met by a sweep of the inductance that ends normally and by one that raises, and the system has moved. -/
example : (paramSweep Ast.engine .id 10 lcPhys true (lcBefore sweepL [])).2.2 = .ok () ∧
    (paramSweep Ast.engine .id 10 lcPhys true (lcBefore sweepDown [])).2.2 = .error .typeError ∧
    ∀ spec, spec = sweepL ∨ spec = sweepDown →
      CleanReachable Ast.engine (lcBefore spec []).sw.pc ∧ Current Ast.engine lcPhys.gen (lcBefore spec []) ∧
      (∀ s ∈ (lcBefore spec []).specs, (lcBefore spec []).sw.pc.coll.get? s.name ≠ none ∧ ¬ Parametric (lcBefore spec []).sw.pc s.name) ∧
      (∀ k, Parametric (lcBefore spec []).sw.pc k → ∃ f, HasSource Ast.engine (lcBefore spec []).sw.pc k ∧
        Computable Ast.engine Ast.lawful (lcBefore spec []).sw.pc k f ∧ (lcBefore spec []).sw.pc.getParameterValue k = .ok (some f)) ∧
      (∀ n, n ∈ (at1 "L" 1).keys ↔ ∃ s ∈ (lcBefore spec []).specs, s.name = n) ∧
      (∀ n v, (n, v) ∈ at1 "L" 1 → (lcBefore spec []).sw.pc.getParameterValue n = .ok (some v)) ∧
      ((paramSweep Ast.engine .id 10 lcPhys true (lcBefore spec [])).1.setParameterValues Ast.engine .id 10 lcPhys.gen (pointArg (at1 "L" 1))).2 = .ok () ∧
      (paramSweep Ast.engine .id 10 lcPhys true (lcBefore spec [])).1.sw.pc.getParameterValue "L" ≠ (lcBefore spec []).sw.pc.getParameterValue "L" := by
  refine ⟨by decide +kernel, by decide +kernel, ?_⟩
  intro spec hspec
  have hname : ∀ n, (∃ s ∈ spec, s.name = n) ↔ n = "L" := by
    intro n
    rcases hspec with rfl | rfl <;> simp [sweepL, sweepDown, eq_comm]
  have hgood : lcGood lcNS.1.sw.pc 1 1 1 := by decide +kernel
  refine ⟨lc_clean, lc_current spec [], ?_, fun k hk => lc_good hgood k hk, ?_, ?_, ?_, ?_⟩
  · intro s hs
    have : s.name = "L" := (hname _).1 ⟨s, hs, rfl⟩
    rw [this]
    have h1 : lcNS.1.sw.pc.coll.get? "L" ≠ none ∧ ¬ Parametric lcNS.1.sw.pc "L" := by unfold Parametric; decide +kernel
    exact h1
  · intro n
    exact (by simp [at1, Dict.keys] : n ∈ (at1 "L" 1).keys ↔ n = "L").trans (hname n).symm
  · intro n v h
    simp only [at1, List.mem_singleton, Prod.mk.injEq] at h
    obtain ⟨rfl, rfl⟩ := h
    have h1 : lcNS.1.sw.pc.getParameterValue "L" = .ok (some (.fin 1)) := by decide +kernel
    exact h1
  · rcases hspec with rfl | rfl <;> decide +kernel
  · rcases hspec with rfl | rfl <;> decide +kernel

/-- The hypotheses of `C79_last_point_partial` are met by that sweep. -/
example : (lcBefore sweepL []).sw.ndSweep (lcBefore sweepL []).specs = ((lcNS.1.sw.ndSweep sweepL).1, .ok ()) ∧
    Ready Ast.engine Ast.lawful lcPhys.gen ["L"] { lcBefore sweepL [] with sw := (lcNS.1.sw.ndSweep sweepL).1 } ∧
    gridPoints (lcNS.1.sw.ndSweep sweepL).1 = .ok ([at1 "L" 1] ++ [at1 "L" 4]) ∧
    (paramSweep Ast.engine .id 10 lcPhys true (lcBefore sweepL [])).2.2 = .ok () ∧
    ∃ stF, NS.setParameterValues Ast.engine .id 10 lcPhys.gen { lcBefore sweepL [] with sw := (lcNS.1.sw.ndSweep sweepL).1 } (pointArg (at1 "L" 4)) =
      (stF, .ok ()) ∧ Defined Ast.engine Ast.lawful { lcBefore sweepL [] with sw := (lcNS.1.sw.ndSweep sweepL).1 } stF.sw.pc := by
  have hgood : lcGood (NS.setParameterValues Ast.engine .id 10 lcPhys.gen { lcBefore sweepL [] with sw := (lcNS.1.sw.ndSweep sweepL).1 }
    (pointArg (at1 "L" 4))).1.sw.pc 4 (1/2) 2 := by decide +kernel
  refine ⟨Prod.ext rfl (by decide +kernel), ready_evals (lc_ready sweepL "L" (Or.inr ⟨rfl, rfl⟩)) [], by decide +kernel, by decide +kernel, _,
    Prod.ext rfl (by decide +kernel), ?_, ?_⟩
  · intro k hk
    obtain ⟨f, a, b, _⟩ := lc_good hgood k hk
    exact ⟨f, a, b⟩
  · have hd : ∀ a, lcNS.1.exprs a = lcExprs a := by intro a; cases a <;> decide +kernel
    intro a e he
    exact lc_attrs hgood (by norm_num) (by decide +kernel) (by decide +kernel : _ = Except.ok (some (PF.fin 0))) a e (by rw [← hd]; exact he)

/-- **C79** A sweep does not put the parameters back, and with them the operator vectors are stale: after a sweep of `L` from 1 to 4 the parameter is 4
and the operators of the node are made for the impedance 2, while the vectors still hold those for the impedance 1, so the Hamiltonian of the system
is neither that of `L = 1` nor that of `L = 4`. -/
theorem C79_false_values : ∃ (st st' : NS Ast LcRes (Option PF)) (files : List (SW.Pickled LcRes)),
    Current Ast.engine lcPhys.gen st ∧ paramSweep Ast.engine .id 10 lcPhys true st = (st', files, .ok ()) ∧
    st.sw.pc.getParameterValue "L" = .ok (some (.fin 1)) ∧ st'.sw.pc.getParameterValue "L" = .ok (some (.fin 4)) ∧
    st'.circ.get? 1 = some (some (.fin 2)) ∧ st'.vec = some [some (.fin 1)] ∧
    ∀ L : ℤ, L = 1 ∨ L = 4 → (evalEntry lcPhys true st' hamEntry none).toOption ≠
      (evalEntry lcPhys true (st.setParameterValue Ast.engine .id 10 lcPhys.gen "L" (.int L)).1 hamEntry none).toOption := by
  refine ⟨lcBefore sweepL [], (paramSweep Ast.engine .id 10 lcPhys true (lcBefore sweepL [])).1, (paramSweep Ast.engine .id 10 lcPhys true (lcBefore sweepL [])).2.1,
    lc_current _ _, Prod.ext rfl (Prod.ext rfl (by decide +kernel)), by decide +kernel, by decide +kernel, by decide +kernel, by decide +kernel, ?_⟩
  rintro L (rfl | rfl) <;> decide +kernel

/-- **C79** A sweep that raises spoils the next one: the specification of the failed sweep is swept again with the new one, and raises again, although
the new sweep alone ends normally.  `newSweep` prevents it. -/
theorem C79_false_pending : ∃ (st st₁ st₂ : NS Ast LcRes (Option PF)),
    st.specs = [] ∧ st.evals = [] ∧
    addSweep st "L" (.int 4) (.int 0) (.int 2) = (st₁, .ok ()) ∧ (paramSweep Ast.engine .id 10 lcPhys true st₁).2.2 = .error .typeError ∧
    addSweep (paramSweep Ast.engine .id 10 lcPhys true st₁).1 "phie" (.int 0) (.int 1) (.int 3) = (st₂, .ok ()) ∧
    (paramSweep Ast.engine .id 10 lcPhys true st₂).2.2 = .error .typeError ∧
    (paramSweep Ast.engine .id 10 lcPhys true (addSweep st "phie" (.int 0) (.int 1) (.int 3)).1).2.2 = .ok () ∧
    (paramSweep Ast.engine .id 10 lcPhys true
      (addSweep (((paramSweep Ast.engine .id 10 lcPhys true st₁).1.setParameterValue Ast.engine .id 10 lcPhys.gen "L" (.int 1)).1.newSweep)
        "phie" (.int 0) (.int 1) (.int 3)).1).2.2 = .ok () := by
  refine ⟨lcBefore [] [], (addSweep (lcBefore [] []) "L" (.int 4) (.int 0) (.int 2)).1,
    (addSweep (paramSweep Ast.engine .id 10 lcPhys true (addSweep (lcBefore [] []) "L" (.int 4) (.int 0) (.int 2)).1).1 "phie" (.int 0) (.int 1) (.int 3)).1,
    rfl, rfl, Prod.ext rfl (by decide +kernel), by decide +kernel, Prod.ext rfl (by decide +kernel), by decide +kernel, by decide +kernel, by decide +kernel⟩

end Verif.Props
