import Verif.Lemmas.Numerical
import Verif.Spec.Numerical
import Verif.Props.SweepResult

/-!
# Properties C40-C42: sweeps and evaluations of a `NumericalSystem`
-/

set_option linter.unusedVariables false

namespace Verif.Props

open Verif Verif.Spec Verif.PC Verif.Num

variable {E R D O : Type}

theorem mem_order (a : Attr) : a ∈ NS.substituteOrder ∧ a ∈ NS.postsubOrder := by
  cases a <;> simp [NS.substituteOrder, NS.postsubOrder]

/-- What one visit of a point does. -/
theorem postsub_spec {eng : Engine E} {ho : HashOrder} {fuel : ℕ} {gen : List (ℕ × BasisName) → ℕ → Option PF → Except Err O} {st st' : NS E R O}
    {p : Dict String PF} (h : st.postsub eng ho fuel gen p = (st', .ok ())) :
    ∃ pc dS, st.sw.pc.setParameterValues eng ho fuel (pointArg p) = (pc, .ok ()) ∧ st'.sw = { st.sw with pc := pc } ∧
      ({ st.sw with pc := pc } : SW E R).getSweepParametersDict ho = .ok dS ∧
      st'.exprs = st.exprs ∧ st'.pre = st.pre ∧ st'.cfg = st.cfg ∧ st'.nodes = st.nodes ∧ st'.regen = st.regen ∧ st'.vec = st.vec ∧
      (∀ a, ∃ xs, NS.toNumbers eng dS (st.pre a) = .ok xs ∧ st'.num.get? a = some xs) ∧
      (∀ node, node ∉ st.regen → st'.circ.get? node = st.circ.get? node) ∧
      (∀ node, node ∉ st.nodes → st'.circ.get? node = st.circ.get? node) ∧
      (∀ node, node ∈ st.nodes → node ∈ st.regen → ∃ sh o, st.shape = .ok sh ∧ st'.opsOf gen sh node = .ok o ∧ st'.circ.get? node = some o) := by
  unfold NS.postsub at h
  split at h
  · cases h
  · rename_i pc hpc
    dsimp only at h
    split at h
    · cases h
    · rename_i dS hdS
      split at h
      · cases h
      · rename_i num hnum
        obtain ⟨g1, g2⟩ := NS.assign_get eng st.pre dS _ _ _ hnum
        have hnums : ∀ a, ∃ xs, NS.toNumbers eng dS (st.pre a) = .ok xs ∧ num.get? a = some xs := fun a => g1 a (mem_order a).2
        split_ifs at h with hr
        · simp only [Prod.mk.injEq, and_true] at h
          subst h
          exact ⟨pc, dS, hpc, rfl, hdS, rfl, rfl, rfl, rfl, rfl, rfl, hnums, fun _ _ => rfl, fun _ _ => rfl,
            fun node _ hx => by rw [hr] at hx; simp at hx⟩
        · unfold NS.expand at h
          split at h
          · cases h
          · rename_i sh hsh
            simp only [Prod.mk.injEq] at h
            obtain ⟨rfl, h⟩ := h
            have hs : st.shape = .ok sh := hsh
            generalize hc : NS.expandLoop gen _ sh _ _ _ = q at h
            obtain ⟨circ, r⟩ := q
            simp only at h
            subst h
            have := NS.expand_get gen _ sh _ _ _ _ hc
            refine ⟨pc, dS, hpc, rfl, hdS, rfl, rfl, rfl, rfl, rfl, rfl, hnums, ?_, ?_, ?_⟩
            · intro node hn
              exact (this node).2 (fun hx => hn (hx.2 _ rfl))
            · intro node hn
              exact (this node).2 (fun hx => hn hx.1)
            · intro node hn hx
              obtain ⟨o, h1, h2⟩ := (this node).1 ⟨hn, fun l hl => by cases hl; exact hx⟩
              exact ⟨sh, o, hs, h1, h2⟩

/-- What visiting several points keeps. -/
theorem visit_frame {eng : Engine E} (law : eng.Lawful D) {ho : HashOrder} {fuel : ℕ} {gen : List (ℕ × BasisName) → ℕ → Option PF → Except Err O} {ks : List String} :
    ∀ (pts : List (Dict String PF)) (st st' : NS E R O), CleanReachable eng st.sw.pc → (∀ q ∈ pts, ∀ n ∈ q.keys, n ∈ ks) →
      visit eng ho fuel gen pts st = (st', .ok ()) →
      Frame eng ks st.sw.pc st'.sw.pc ∧ st'.sw = { st.sw with pc := st'.sw.pc } ∧ st'.exprs = st.exprs ∧ st'.pre = st.pre ∧ st'.cfg = st.cfg ∧
        st'.nodes = st.nodes ∧ st'.regen = st.regen ∧ st'.vec = st.vec ∧
        (∀ node, node ∉ st.regen → st'.circ.get? node = st.circ.get? node) ∧
        (∀ node, node ∉ st.nodes → st'.circ.get? node = st.circ.get? node) := by
  intro pts
  induction pts with
  | nil =>
    intro st st' _ _ h
    cases h
    exact ⟨Frame.refl _ _ _, rfl, rfl, rfl, rfl, rfl, rfl, rfl, fun _ _ => rfl, fun _ _ => rfl⟩
  | cons p pts ih =>
    intro st st' hc hk h
    unfold visit at h
    split at h
    · cases h
    · rename_i st1 h1
      obtain ⟨pc, dS, a1, a2, a3, a4, a5, a6, a7, a8, a9, _, a10, a11, _⟩ := postsub_spec h1
      have hf : Frame eng ks st.sw.pc st1.sw.pc := by
        rw [a2]
        refine set_frame law hc ks ho fuel _ ?_ pc a1
        intro n hn
        refine hk p (by simp) n ?_
        unfold Dict.keys at hn ⊢
        simpa using hn
      obtain ⟨b1, b2, b3, b4, b5, b6, b7, b8, b9, b10⟩ := ih st1 st' (hf.clean hc) (fun q hq => hk q (by simp [hq])) h
      refine ⟨hf.trans b1, ?_, b3.trans a4, b4.trans a5, b5.trans a6, b6.trans a7, b7.trans a8, b8.trans a9, ?_, ?_⟩
      · rw [b2, a2]
      · intro node hn
        rw [b9 node (by rwa [a8]), a10 node hn]
      · intro node hn
        rw [b10 node (by rwa [a7]), a11 node hn]

theorem visit_append {eng : Engine E} {ho : HashOrder} {fuel : ℕ} {gen : List (ℕ × BasisName) → ℕ → Option PF → Except Err O} :
    ∀ (pts : List (Dict String PF)) (p : Dict String PF) (st st' : NS E R O),
      visit eng ho fuel gen (pts ++ [p]) st = (st', .ok ()) →
      ∃ st1, visit eng ho fuel gen pts st = (st1, .ok ()) ∧ st1.postsub eng ho fuel gen p = (st', .ok ()) := by
  intro pts
  induction pts with
  | nil =>
    intro p st st' h
    refine ⟨st, rfl, ?_⟩
    simp only [List.nil_append, visit] at h
    split at h
    · cases h
    · rename_i heq; rw [heq]; exact h
  | cons q pts ih =>
    intro p st st' h
    simp only [List.cons_append, visit] at h ⊢
    split at h
    · cases h
    · rename_i st1 heq
      obtain ⟨st2, c1, c2⟩ := ih p st1 st' h
      exact ⟨st2, by simp only [heq, c1], c2⟩

/-- Operators that are prepared. -/
theorem prepared_spec {gen : List (ℕ × BasisName) → ℕ → Option PF → Except Err O} {st st' : NS E R O}
    (h : st.prepareOperators gen = (st', .ok ())) :
    ∃ sh l, st.shape = .ok sh ∧ st'.nodes.mapM (fun node => st'.circ.get? node) = some l ∧ st'.vec = some l ∧ st'.sw = st.sw ∧ st'.num = st.num ∧
      st'.cfg = st.cfg ∧ st'.nodes = st.nodes ∧
      (∀ node ∈ st.nodes, ∃ o, st.opsOf gen sh node = .ok o ∧ st'.circ.get? node = some o) ∧
      (∀ node, node ∉ st.nodes → st'.circ.get? node = st.circ.get? node) := by
  unfold NS.prepareOperators at h
  split at h
  · cases h
  · rename_i st1 h1
    unfold NS.expand at h1
    split at h1
    · cases h1
    · rename_i sh hsh
      simp only [Prod.mk.injEq] at h1
      obtain ⟨rfl, h1⟩ := h1
      generalize hc : NS.expandLoop gen _ sh _ _ _ = q at h1 h
      obtain ⟨circ, r⟩ := q
      simp only at h1 h
      subst h1
      have := NS.expand_get gen _ sh _ _ _ _ hc
      unfold NS.vectors at h
      split at h
      · cases h
      · rename_i l hl
        simp only [Prod.mk.injEq, and_true] at h
        subst h
        refine ⟨sh, l, hsh, hl, rfl, rfl, rfl, rfl, rfl, ?_, ?_⟩
        · intro node hn
          exact (this node).1 ⟨hn, by simp⟩
        · intro node hn
          exact (this node).2 (fun hx => hn hx.1)

theorem mapM_congr_mem {α β : Type} {f g : α → Option β} : ∀ (l : List α), (∀ x ∈ l, f x = g x) → l.mapM f = l.mapM g := by
  intro l
  induction l with
  | nil => intro _; rfl
  | cons x l ih =>
    intro h
    rw [List.mapM_cons, List.mapM_cons, h x (by simp), ih (fun y hy => h y (by simp [hy]))]

theorem opsOf_congr {gen : List (ℕ × BasisName) → ℕ → Option PF → Except Err O} {st st' : NS E R O} {sh : List (ℕ × BasisName)} {node : ℕ}
    (hc : st'.cfg = st.cfg)
    (hv : ∀ c, st.cfg.get? node = some c → c.basis = .oscillator →
      st'.sw.pc.getParameterValue (NS.zName node) = st.sw.pc.getParameterValue (NS.zName node)) :
    st'.opsOf gen sh node = st.opsOf gen sh node := by
  unfold NS.opsOf
  rw [hc]
  cases hx : st.cfg.get? node with
  | none => rfl
  | some c =>
    simp only
    by_cases hb : c.basis = .oscillator
    · rw [if_pos hb, if_pos hb, hv c hx hb]
    · rw [if_neg hb, if_neg hb]

/-- C40: at a point of a sweep, whatever points were visited before it, the parameter values, the numeric attributes and the operators of
the nodes are those that setting the point on the system as it was before the sweep gives.  The operator vectors are too, if no
parameter that the sweep affects occurs in the impedance of an oscillator. -/
theorem C40_point_partial (eng : Engine E) (law : eng.Lawful D) (gen : List (ℕ × BasisName) → ℕ → Option PF → Except Err O) (ks : List String)
    (st st₁ st₂ stF : NS E R O) (ho ho' : HashOrder) (fuel fuel' : ℕ) (hready : Ready eng law gen ks st)
    (hpre : st.presub eng ho = (st₁, .ok ())) (pts : List (Dict String PF)) (p : Dict String PF)
    (hkeys : ∀ q ∈ pts ++ [p], ∀ n, n ∈ q.keys ↔ n ∈ ks)
    (hvisit : visit eng ho fuel gen (pts ++ [p]) st₁ = (st₂, .ok ()))
    (hfresh : st.setParameterValues eng ho' fuel' gen (pointArg p) = (stF, .ok ()))
    (hdef : Defined eng law st stF.sw.pc) :
    (∀ n, st₂.sw.pc.getParameterValue n = stF.sw.pc.getParameterValue n) ∧
      (∀ a, st₂.num.get? a = stF.num.get? a) ∧
      (∀ node, st₂.circ.get? node = stF.circ.get? node) ∧
      ((∀ node c imp n s, st.cfg.get? node = some c → c.basis = .oscillator → c.impedance = some imp →
        st.sw.pc.getSymbol n = .ok s → s ∈ eng.free imp → ¬ Affected st.sw.pc ks n) → st₂.vec = stF.vec) := by
  obtain ⟨hclean, hparams, hindep, hsettled, hprep, hconf⟩ := hready
  have hg := CleanReachable.good law hclean
  -- the fresh system
  unfold NS.setParameterValues at hfresh
  split at hfresh
  · cases hfresh
  rename_i pcF hpcF
  dsimp only at hfresh
  split_ifs at hfresh with hall
  rotate_left
  · cases hfresh
  split at hfresh
  · cases hfresh
  rename_i stS hsub
  unfold NS.substitute at hsub
  split at hsub
  · cases hsub
  rename_i dA hdA
  generalize hnumF : NS.assignNumbers eng _ dA _ _ = q at hsub
  obtain ⟨numF, r⟩ := q
  simp only [Prod.mk.injEq] at hsub
  obtain ⟨rfl, rfl⟩ := hsub
  obtain ⟨shF, lF, f1, f2, f3, f4, f5, f6, f7, f8, f9⟩ := prepared_spec hfresh
  simp only at f1 f4 f5 f6 f7 f8 f9 hdA
  have hgF := NS.assign_get eng _ dA _ _ _ hnumF
  -- before the sweep
  obtain ⟨sh0, l0, p1, p2, p3, _, _, _, _, p8, _⟩ := prepared_spec hprep
  have hsh : shF = sh0 := by
    have : st.shape = .ok shF := f1
    rw [p1] at this; cases this; rfl
  subst hsh
  -- the sweep
  unfold NS.presub at hpre
  split at hpre
  · cases hpre
  rename_i dN hdN
  dsimp only at hpre
  split at hpre
  · cases hpre
  rename_i regen hregen
  simp only [Prod.mk.injEq, and_true] at hpre
  subst hpre
  obtain ⟨st1, hv1, hv2⟩ := visit_append _ _ _ _ hvisit
  obtain ⟨b1, b2, b3, b4, b5, b6, b7, b8, b9, b10⟩ := visit_frame law (ks := ks) pts _ _ (by exact hclean)
    (fun q hq n hn => (hkeys q (by simp [hq]) n).1 hn) hv1
  simp only at b1 b2 b3 b4 b5 b6 b7 b8 b9 b10
  obtain ⟨pcA, dS, a1, a2, a3, a4, a5, a6, a7, a8, a9, a10, a11, a12, a13⟩ := postsub_spec hv2
  have hpk : ∀ n, n ∈ (Dict.keys (p.map fun kv => (kv.1, PyVal.np kv.2))) ↔ n ∈ ks := by
    intro n
    rw [← hkeys p (by simp) n]
    unfold Dict.keys; simp
  have hMA := set_frame law (b1.clean hclean) ks ho fuel _ (fun n hn => (hpk n).1 hn) pcA a1
  have hSF := set_frame law hclean ks ho' fuel' _ (fun n hn => (hpk n).1 hn) pcF hpcF
  have hSA := b1.trans hMA
  have hpcs : stF.sw.pc = pcF := by rw [f4]
  rw [hpcs] at hdef ⊢
  have hval := path_value law hclean ks hindep b1 ho ho' fuel fuel' _ hpk a1 hpcF
    (fun k hk => hdef.parametric k (by rwa [hSF.parametric]))
  have hunF : ∀ n, ¬ Affected st.sw.pc ks n → pcF.getParameterValue n = st.sw.pc.getParameterValue n :=
    fun n hn => path_unaffected law hclean ks hsettled ho' fuel' _ (fun n hn => (hpk n).1 hn) hpcF n hn
  have hunA : ∀ n, ¬ Affected st.sw.pc ks n → pcA.getParameterValue n = st.sw.pc.getParameterValue n :=
    fun n hn => (hval n).trans (hunF n hn)
  have hpcA : st₂.sw.pc = pcA := by rw [a2]
  have hstA : ({ st1.sw with pc := pcA } : SW E R) = { st.sw with pc := pcA } := by rw [b2]
  rw [hstA] at a3
  -- the operators of a node that is not regenerated
  have hcircF : ∀ node, node ∈ st.nodes → ∃ o, NS.opsOf gen { st with sw := { st.sw with pc := pcF }, num := numF } shF node = .ok o ∧
      stF.circ.get? node = some o := fun node hn => f8 node hn
  have hregen' : ∀ node c imp, st.cfg.get? node = some c → c.basis = .oscillator → c.impedance = some imp → node ∉ regen →
      ∀ s ∈ eng.free imp, ∀ m, st.sw.pc.getSymbol m = .ok s → ¬ Affected st.sw.pc ks m := by
    intro node c imp hc hb himp hn s hs m hm haff
    unfold NS.regenNodes at hregen
    split at hregen
    · cases hregen
    rename_i d hd
    simp only [Except.ok.injEq] at hregen
    apply hn
    rw [← hregen, List.mem_map]
    refine ⟨(node, c), List.mem_filter.2 ⟨Dict.mem_of_get? hc, ?_⟩, rfl⟩
    simp only [Bool.and_eq_true, decide_eq_true_eq, himp, List.any_eq_true]
    refine ⟨hb, s, hs, ?_⟩
    obtain ⟨dS', _, e1, _, _, _, e3, _, _, _⟩ := C19_partition_partial eng law st.sw hclean ks hparams hindep ho ho
    have : SW.getSweepParametersDict st.sw ho = .ok d := hd
    rw [e1] at this; cases this
    have hin : m ∈ st.sw.pc.coll.keys := (hg.sameKeys m).1 (Dict.mem_keys_of_get? (getSymbol_iff.1 hm))
    obtain ⟨pp, hpp⟩ := Option.isSome_iff_exists.1 ((Dict.mem_keys_iff _ _).1 hin)
    have hv : st.sw.pc.getParameterValue m = .ok pp.getValue := by unfold getParameterValue; rw [hpp]
    exact Dict.mem_keys_of_get? ((e3 s _).2 ⟨m, hm, hv, haff⟩)
  have hkeep : ∀ node, node ∉ regen → stF.circ.get? node = st.circ.get? node := by
    intro node hn
    by_cases hin : node ∈ st.nodes
    · obtain ⟨o, o1, o2⟩ := hcircF node hin
      obtain ⟨o', o1', o2'⟩ := p8 node hin
      rw [o2, o2']
      have : NS.opsOf gen ({ st with sw := { st.sw with pc := pcF }, num := numF } : NS E R O) shF node = st.opsOf gen shF node := by
        refine opsOf_congr rfl ?_
        intro c hc hb
        obtain ⟨imp, himp, hex⟩ := hconf node c hc hb
        exact path_expr_unaffected law hclean ks hsettled ho' fuel' _ (fun n hn => (hpk n).1 hn) hpcF _ imp hex
          (hregen' node c imp hc hb himp hn)
      rw [this, o1'] at o1
      cases o1; rfl
    · exact f9 node hin
  have hcirc : ∀ node, st₂.circ.get? node = stF.circ.get? node := by
    intro node
    by_cases hr : node ∈ regen
    · by_cases hin : node ∈ st.nodes
      · obtain ⟨o, o1, o2⟩ := hcircF node hin
        obtain ⟨sh, o', o3, o1', o2'⟩ := a13 node (by rw [b6]; exact hin) (by rw [b7]; exact hr)
        have hsh' : sh = shF := by
          have hx : st1.shape = st.shape := by unfold NS.shape; rw [b6, b5]
          rw [hx, p1] at o3; cases o3; rfl
        subst hsh'
        rw [o2, o2']
        have : NS.opsOf gen st₂ sh node = NS.opsOf gen ({ st with sw := { st.sw with pc := pcF }, num := numF } : NS E R O) sh node := by
          refine opsOf_congr ?_ ?_
          · rw [a6, b5]
          · intro c _ _
            rw [hpcA]; exact hval _
        rw [this, o1] at o1'
        cases o1'; rfl
      · rw [a12 node (by rw [b6]; exact hin), b10 node hin, f9 node hin]
    · rw [a11 node (by rw [b7]; exact hr), b9 node hr, hkeep node hr]
  refine ⟨fun n => by rw [hpcA]; exact hval n, ?_, hcirc, ?_⟩
  · intro a
    obtain ⟨xs, x1, x2⟩ := a10 a
    obtain ⟨ys, y1, y2⟩ := hgF.1 a (mem_order a).1
    rw [x2, f5, y2]
    have hexp : st1.pre a = (st.exprs a).map fun e => subsDict eng e dN := by rw [b4]
    rw [hexp, NS.toNumbers_congr (d' := dA) (st.exprs a), y1] at x1
    · cases x1; rfl
    · intro e he
      obtain ⟨ρ, d, hd, hρ⟩ := hdef.attrs a e he
      obtain ⟨_, _, dA', _, _, u3, _, u5⟩ := two_stage_core eng law st.sw hclean ks hparams hindep ho ho pcF (hSF.clean hclean) hunF
        ⟨hSF.sym, hSF.parz⟩ hSF.keys e ρ d hρ hd
      obtain ⟨dN', dS', _, v1, v2, _, v4, _⟩ := two_stage_core eng law st.sw hclean ks hparams hindep ho ho pcA (hSA.clean hclean) hunA
        ⟨hSA.sym, hSA.parz⟩ hSA.keys e ρ d (by
          intro s hs
          obtain ⟨n, f, n1, n2, n3⟩ := hρ s hs
          refine ⟨n, f, ?_, ?_, n3⟩
          · rw [getSymbol_iff, hSA.sym, ← hSF.sym, ← getSymbol_iff]; exact n1
          · rw [hval]; exact n2) hd
      have e1 : dA' = dA := by rw [hdA] at u3; cases u3; rfl
      have e2 : dN' = dN := by rw [hdN] at v1; cases v1; rfl
      have e3 : dS' = dS := by rw [a3] at v2; cases v2; rfl
      subst e1 e2 e3
      rw [v4, u5]
  · intro hnone
    have hr : ∀ node ∈ st.nodes, stF.circ.get? node = st.circ.get? node := by
      intro node hin
      obtain ⟨o, o1, o2⟩ := hcircF node hin
      obtain ⟨o', o1', o2'⟩ := p8 node hin
      rw [o2, o2']
      have : NS.opsOf gen ({ st with sw := { st.sw with pc := pcF }, num := numF } : NS E R O) shF node = st.opsOf gen shF node := by
        refine opsOf_congr rfl ?_
        intro c hc hb
        obtain ⟨imp, himp, hex⟩ := hconf node c hc hb
        exact path_expr_unaffected law hclean ks hsettled ho' fuel' _ (fun n hn => (hpk n).1 hn) hpcF _ imp hex
          (fun s hs m hm => hnone node c imp m s hc hb himp hm hs)
      rw [this, o1'] at o1
      cases o1; rfl
    rw [a9, b8, p3, f3]
    congr 1
    have hcongr : stF.nodes.mapM (fun node => stF.circ.get? node) = st.nodes.mapM (fun node => st.circ.get? node) := by
      rw [f7]
      exact mapM_congr_mem _ (fun node hin => (hr node hin))
    rw [f2, p2] at hcongr
    cases hcongr; rfl

theorem prepare_evals (gen : List (ℕ × BasisName) → ℕ → Option PF → Except Err O) (st : NS E R O) (ev : List Entry) :
    NS.prepareOperators gen { st with evals := ev } =
      ({ (NS.prepareOperators gen st).1 with evals := ev }, (NS.prepareOperators gen st).2) := by
  have hl : ∀ (sh : List (ℕ × BasisName)) (nodes : List ℕ) (circ : Dict ℕ O),
      NS.expandLoop gen { st with evals := ev } sh none nodes circ = NS.expandLoop gen st sh none nodes circ := by
    intro sh nodes
    induction nodes with
    | nil => intro circ; rfl
    | cons n nodes ih =>
      intro circ
      simp only [NS.expandLoop, NS.selected, if_true]
      have : NS.opsOf gen { st with evals := ev } sh n = NS.opsOf gen st sh n := rfl
      rw [this]
      cases NS.opsOf gen st sh n with
      | error e => rfl
      | ok o => exact ih _
  unfold NS.prepareOperators NS.expand
  have hs : NS.shape { st with evals := ev } = NS.shape st := rfl
  rw [hs]
  cases NS.shape st with
  | error e => rfl
  | ok sh =>
    simp only [hl]
    generalize NS.expandLoop gen st sh none st.nodes st.circ = q
    obtain ⟨circ, r⟩ := q
    cases r with
    | error e => rfl
    | ok u =>
      simp only [NS.vectors]
      cases st.nodes.mapM (fun node => Dict.get? circ node) <;> rfl

theorem set_evals (eng : Engine E) (ho : HashOrder) (fuel : ℕ) (gen : List (ℕ × BasisName) → ℕ → Option PF → Except Err O) (st : NS E R O)
    (ev : List Entry) (args : List BulkArg) : NS.setParameterValues eng ho fuel gen { st with evals := ev } args =
      ({ (NS.setParameterValues eng ho fuel gen st args).1 with evals := ev }, (NS.setParameterValues eng ho fuel gen st args).2) := by
  unfold NS.setParameterValues
  simp only
  generalize st.sw.pc.setParameterValues eng ho fuel args = q
  obtain ⟨pc, r⟩ := q
  cases r with
  | error e => rfl
  | ok u =>
    simp only
    split_ifs
    · unfold NS.substitute
      simp only
      cases pc.getSymbolValuesDict with
      | error e => rfl
      | ok d =>
        simp only
        generalize NS.assignNumbers eng st.exprs d NS.substituteOrder st.num = q
        obtain ⟨num, r⟩ := q
        cases r with
        | error e => rfl
        | ok u => exact prepare_evals gen { st with sw := { st.sw with pc := pc }, num := num } ev
    · rfl

/-! ### Evaluations -/

section

variable {H P X V Q : Type}

theorem evalEntry_congr (ph : Phys O H P X V R) (gv : Bool) {st st' : NS E Q O} (hv : ∀ n, st.sw.pc.getParameterValue n = st'.sw.pc.getParameterValue n)
    (hn : ∀ a, st.num.get? a = st'.num.get? a) (hc : ∀ node, st.circ.get? node = st'.circ.get? node) (hvec : st.vec = st'.vec) (e : Entry)
    (arg : Option (Unpacked X V)) : evalEntry ph gv st e arg = evalEntry ph gv st' e arg := by
  have h1 : st.sw.pc.getParameterValue = st'.sw.pc.getParameterValue := funext hv
  have h2 : st.num.get? = st'.num.get? := funext hn
  have h3 : st.circ.get? = st'.circ.get? := funext hc
  have : callMethod ph st e.eval arg e.kwargs = callMethod ph st' e.eval arg e.kwargs := by
    unfold callMethod
    rw [h1, h2, h3, hvec]
  unfold evalEntry
  rw [this]

theorem valueAt_congr (ph : Phys O H P X V R) (gv : Bool) {st st' : NS E Q O} (hv : ∀ n, st.sw.pc.getParameterValue n = st'.sw.pc.getParameterValue n)
    (hn : ∀ a, st.num.get? a = st'.num.get? a) (hc : ∀ node, st.circ.get? node = st'.circ.get? node) (hvec : st.vec = st'.vec) (e : Entry) :
    valueAt ph gv st e = valueAt ph gv st' e := by
  have h := fun e arg => evalEntry_congr ph gv hv hn hc hvec e arg
  unfold valueAt
  rw [h e none, h hamEntry none]
  cases e.depends with
  | none => rfl
  | some m =>
    simp only
    cases evalEntry ph gv st' hamEntry none with
    | error err => rfl
    | ok r =>
      simp only
      cases unpack r with
      | none => rfl
      | some a => exact h e (some a)

theorem requested_cases {e : Entry} (h : Requested e) : (e.eval = .getHamiltonian ∧ e.diag = true ∧ e.depends = none) ∨
    (e.eval ≠ .getHamiltonian ∧ (e.depends = none ∨ e.depends = some .getHamiltonian)) := by
  obtain ⟨name, e₀, k, h, rfl⟩ := h
  simp only [evalSpec, Dict.get?_cons, Dict.get?_nil] at h
  split_ifs at h <;> cases h <;> simp

/-- The Hamiltonian's evaluation does not look at keyword arguments. -/
theorem evalEntry_ham (ph : Phys O H P X V R) (gv : Bool) (st : NS E Q O) {e : Entry} (h1 : e.eval = .getHamiltonian) (h2 : e.diag = true) :
    evalEntry ph gv st e none = evalEntry ph gv st hamEntry none := by
  unfold evalEntry
  rw [h1, h2]
  simp only [hamEntry, callMethod]

/-- Every dependent evaluation comes after the Hamiltonian (`b`: the Hamiltonian has been seen). -/
def Ordered : List Entry → Bool → Prop
  | [], _ => True
  | e :: l, b => (e.depends ≠ none → b = true) ∧ Ordered l (b || decide (e.eval = .getHamiltonian))

theorem ordered_of_ok (ph : Phys O H P X V R) (gv : Bool) (st : NS E Q O) : ∀ (l : List Entry) (res res' : Dict Method (Res X V R)) (b : Bool),
    (∀ e ∈ l, Requested e) → (b = false → ∀ r, res.get? .getHamiltonian = some r → unpack r = none) →
    evalEntries ph gv st l res = .ok res' → Ordered l b := by
  intro l
  induction l with
  | nil => intros; trivial
  | cons e l ih =>
    intro res res' b hreq hb h
    unfold evalEntries at h
    rcases requested_cases (hreq e (by simp)) with ⟨c1, c2, c3⟩ | ⟨c1, c2⟩
    · rw [c3] at h
      simp only at h
      split at h
      · cases h
      · refine ⟨by rw [c3]; simp, ?_⟩
        rw [c1]
        simp only [decide_true, Bool.or_true]
        exact ih _ _ true (fun e he => hreq e (by simp [he])) (by simp) h
    · have keep : ∀ r, (b || decide (e.eval = .getHamiltonian)) = false → ∀ r', (res.set e.eval r).get? .getHamiltonian = some r' → unpack r' = none := by
        intro r hbb r' hr'
        rw [Dict.get?_set_ne _ _ c1] at hr'
        exact hb (by simpa using (Bool.or_eq_false_iff.1 hbb).1) r' hr'
      rcases c2 with c2 | c2
      · rw [c2] at h
        simp only at h
        split at h
        · cases h
        · exact ⟨by rw [c2]; simp, ih _ _ _ (fun e he => hreq e (by simp [he])) (keep _) h⟩
      · rw [c2] at h
        simp only at h
        split at h
        · cases h
        · rename_i dep hdep
          split at h
          · cases h
          · rename_i a ha
            split at h
            · cases h
            · refine ⟨fun _ => ?_, ih _ _ _ (fun e he => hreq e (by simp [he])) (keep _) h⟩
              by_contra hbf
              rw [hb (by simpa using hbf) dep hdep] at ha
              cases ha

/-- The results at a point, whatever the results were before. -/
theorem evalEntries_values (ph : Phys O H P X V R) (gv : Bool) (st : NS E Q O) : ∀ (l : List Entry) (res res' : Dict Method (Res X V R)) (b : Bool),
    (∀ e ∈ l, Requested e) → Ordered l b →
    (b = true → ∃ r, res.get? .getHamiltonian = some r ∧ evalEntry ph gv st hamEntry none = .ok r) →
    evalEntries ph gv st l res = .ok res' →
    (∀ l₁ e l₂, l = l₁ ++ e :: l₂ → (∀ e' ∈ l₂, e'.eval ≠ e.eval) → ∃ v, valueAt ph gv st e = .ok v ∧ res'.get? e.eval = some v) ∧
      (∀ m, (∀ e ∈ l, e.eval ≠ m) → res'.get? m = res.get? m) ∧ ∀ e ∈ l, ∃ v, valueAt ph gv st e = .ok v := by
  intro l
  induction l with
  | nil =>
    intro res res' b _ _ _ h
    cases h
    exact ⟨by intro l₁ e l₂ h; simp at h, fun _ _ => rfl, by simp⟩
  | cons e l ih =>
    intro res res' b hreq hord hb h
    have key : ∃ v, valueAt ph gv st e = .ok v ∧ evalEntries ph gv st l (res.set e.eval v) = .ok res' ∧
        ((b || decide (e.eval = .getHamiltonian)) = true → ∃ r, (res.set e.eval v).get? .getHamiltonian = some r ∧
          evalEntry ph gv st hamEntry none = .ok r) := by
      unfold evalEntries at h
      rcases requested_cases (hreq e (by simp)) with ⟨c1, c2, c3⟩ | ⟨c1, c2⟩
      · rw [c3] at h
        simp only at h
        split at h
        · cases h
        · rename_i r hr
          refine ⟨r, ?_, h, ?_⟩
          · unfold valueAt; rw [c3]; exact hr
          · intro _
            refine ⟨r, by rw [c1]; simp, ?_⟩
            rw [← evalEntry_ham ph gv st c1 c2]; exact hr
      · have keep : ∀ v, (b || decide (e.eval = .getHamiltonian)) = true → ∃ r, (res.set e.eval v).get? .getHamiltonian = some r ∧
            evalEntry ph gv st hamEntry none = .ok r := by
          intro v hbb
          rw [Dict.get?_set_ne _ _ c1]
          exact hb (by simpa [c1] using hbb)
        rcases c2 with c2 | c2
        · rw [c2] at h
          simp only at h
          split at h
          · cases h
          · rename_i r hr
            exact ⟨r, by unfold valueAt; rw [c2]; exact hr, h, keep r⟩
        · obtain ⟨rh, hrh, hrh'⟩ := hb (hord.1 (by rw [c2]; simp))
          rw [c2] at h
          simp only [hrh] at h
          split at h
          · cases h
          · rename_i a ha
            split at h
            · cases h
            · rename_i r hr
              refine ⟨r, ?_, h, keep r⟩
              unfold valueAt
              rw [c2]
              simp only [hrh', ha]
              exact hr
    obtain ⟨v, k1, k2, k3⟩ := key
    obtain ⟨i1, i2, i3⟩ := ih _ _ _ (fun e he => hreq e (by simp [he])) hord.2 k3 k2
    refine ⟨?_, ?_, ?_⟩
    · intro l₁ e' l₂ heq hlast
      cases l₁ with
      | nil =>
        simp only [List.nil_append, List.cons.injEq] at heq
        obtain ⟨rfl, rfl⟩ := heq
        exact ⟨v, k1, by rw [i2 _ hlast]; simp⟩
      | cons x l₁ =>
        simp only [List.cons_append, List.cons.injEq] at heq
        exact i1 l₁ e' l₂ heq.2 hlast
    · intro m hm
      rw [i2 m (fun e he => hm e (by simp [he])), Dict.get?_set_ne _ _ (hm e (by simp))]
    · intro e' he'
      rcases List.mem_cons.1 he' with rfl | he'
      · exact ⟨v, k1⟩
      · exact i3 e' he'

theorem method_name_inj {m m' : Method} (h : m.name = m'.name) : m = m' := by
  cases m <;> cases m' <;> first | rfl | exact absurd h (by decide)

theorem stored_pickle (res : Dict Method (Res X V R)) (m : Method) : stored (pickleMany res) m = res.get? m := by
  unfold stored pickleMany
  simp only
  induction res with
  | nil => rfl
  | cons x res ih =>
    obtain ⟨k, v⟩ := x
    simp only [List.map_cons, Dict.get?_cons, ih]
    by_cases h : k = m
    · subst h; simp
    · rw [if_neg (fun hc => h (method_name_inj hc)), if_neg h]

/-- The files written in a sweep with several evaluations that ends normally. -/
theorem multiLoop_files (eng : Engine E) (ho : HashOrder) (fuel : ℕ) (ph : Phys O H P X V R) (gv : Bool) (entries : List Entry)
    (hreq : ∀ e ∈ entries, Requested e) :
    ∀ (pts : List (Dict String PF)) (st st' : NS E Q O) (res : Dict Method (Res X V R)) (files : List (SW.Pickled (Res X V R))),
    (Ordered entries false ∨ ∀ r, res.get? .getHamiltonian = some r → unpack r = none) →
    multiLoop eng ho fuel ph gv entries pts st res = (st', files, .ok ()) →
    files.length = pts.length ∧ ∀ (i : ℕ) (p : Dict String PF), pts[i]? = some p → ∃ sti f,
      visit eng ho fuel ph.gen (pts.take i ++ [p]) st = (sti, .ok ()) ∧ files[i]? = some f ∧
      ∀ l₁ e l₂, entries = l₁ ++ e :: l₂ → (∀ e' ∈ l₂, e'.eval ≠ e.eval) → ∃ v, valueAt ph gv sti e = .ok v ∧ stored f e.eval = some v := by
  intro pts
  induction pts with
  | nil => intro st st' res files _ h; cases h; exact ⟨rfl, by intro i p h; simp at h⟩
  | cons p pts ih =>
    intro st st' res files hinit h
    unfold multiLoop at h
    split at h
    · cases h
    rename_i st1 h1
    split at h
    · cases h
    rename_i res1 hres
    have hord : Ordered entries false := by
      rcases hinit with h | h
      · exact h
      · exact ordered_of_ok ph gv st1 entries res res1 false hreq (fun _ => h) hres
    generalize hm : multiLoop eng ho fuel ph gv entries pts st1 res1 = q at h
    obtain ⟨st2, files', r⟩ := q
    simp only [Prod.mk.injEq] at h
    obtain ⟨rfl, rfl, rfl⟩ := h
    obtain ⟨j1, j2⟩ := ih st1 st2 res1 files' (Or.inl hord) hm
    refine ⟨by simp [j1], ?_⟩
    intro i q hq
    cases i with
    | zero =>
      simp only [List.getElem?_cons_zero, Option.some.injEq] at hq
      subst hq
      refine ⟨st1, pickleMany res1, ?_, rfl, ?_⟩
      · simp only [List.take_zero, List.nil_append, visit, h1]
      · intro l₁ e l₂ heq hlast
        obtain ⟨v, v1, v2⟩ := (evalEntries_values ph gv st1 entries res res1 false hreq hord (by simp) hres).1 l₁ e l₂ heq hlast
        exact ⟨v, v1, by rw [stored_pickle]; exact v2⟩
    | succ i =>
      simp only [List.getElem?_cons_succ] at hq
      obtain ⟨sti, f, g1, g2, g3⟩ := j2 i q hq
      refine ⟨sti, f, ?_, by simpa using g2, g3⟩
      simp only [List.take_succ_cons, List.cons_append, visit, h1, g1]

/-- The files written in a sweep with one evaluation that ends normally. -/
theorem singleLoop_files (eng : Engine E) (ho : HashOrder) (fuel : ℕ) (ph : Phys O H P X V R) (gv : Bool) (e : Entry) :
    ∀ (pts : List (Dict String PF)) (st st' : NS E Q O) (files : List (SW.Pickled (Res X V R))),
    singleLoop eng ho fuel ph gv e pts st = (st', files, .ok ()) →
    files.length = pts.length ∧ ∀ (i : ℕ) (p : Dict String PF), pts[i]? = some p → ∃ sti v,
      visit eng ho fuel ph.gen (pts.take i ++ [p]) st = (sti, .ok ()) ∧ evalEntry ph gv sti e none = .ok v ∧ files[i]? = some (pickleOne v) := by
  intro pts
  induction pts with
  | nil => intro st st' files h; cases h; exact ⟨rfl, by intro i p h; simp at h⟩
  | cons p pts ih =>
    intro st st' files h
    unfold singleLoop at h
    split at h
    · cases h
    rename_i st1 h1
    split at h
    · cases h
    rename_i r hr
    generalize hm : singleLoop eng ho fuel ph gv e pts st1 = q at h
    obtain ⟨st2, files', o⟩ := q
    simp only [Prod.mk.injEq] at h
    obtain ⟨rfl, rfl, rfl⟩ := h
    obtain ⟨j1, j2⟩ := ih st1 st2 files' hm
    refine ⟨by simp [j1], ?_⟩
    intro i q hq
    cases i with
    | zero =>
      simp only [List.getElem?_cons_zero, Option.some.injEq] at hq
      subst hq
      exact ⟨st1, r, by simp only [List.take_zero, List.nil_append, visit, h1], hr, rfl⟩
    | succ i =>
      simp only [List.getElem?_cons_succ] at hq
      obtain ⟨sti, v, g1, g2, g3⟩ := j2 i q hq
      refine ⟨sti, v, ?_, g2, by simpa using g3⟩
      simp only [List.take_succ_cons, List.cons_append, visit, h1, g1]

theorem init_results (l : List Entry) : ∀ (d : Dict Method (Res X V R)), (∀ m r, d.get? m = some r → r = .empty) →
    ∀ m r, Dict.get? (l.foldl (fun d (e : Entry) => Dict.set d e.eval .empty) d) m = some r → r = .empty := by
  induction l with
  | nil => intro d h; exact h
  | cons e l ih =>
    intro d h
    refine ih _ ?_
    intro m r hr
    rw [Dict.get?_set] at hr
    split_ifs at hr
    · cases hr; rfl
    · exact h m r hr

theorem init_unpack (l : List Entry) (r : Res X V R) (h : Dict.get? (initResults l) .getHamiltonian = some r) : unpack r = none := by
  rw [init_results l [] (by simp) _ r h]; rfl

/-- The steps of a sweep, up to the evaluations. -/
theorem paramSweep_eq (eng : Engine E) (ho : HashOrder) (fuel : ℕ) (ph : Phys O H P X V R) (gv : Bool) (st st₁ : NS E Q O) (sw : SW E Q)
    (pts : List (Dict String PF)) (hsw : st.sw.ndSweep st.specs = (sw, .ok ()))
    (hpre : ({ st with sw := sw, evals := evaluations st } : NS E Q O).presub eng ho = (st₁, .ok ())) (hpts : gridPoints sw = .ok pts) :
    paramSweep eng ho fuel ph gv st = (match evaluate eng ho fuel ph gv (evaluations st) pts st₁ with
      | (st, files, .error e) => (st, files, .error e)
      | (st, files, .ok ()) => ({ st with specs := [], evals := [] }, files, .ok ())) := by
  have hst : (if st.evals.length = 0 then { st with evals := [⟨.getHamiltonian, true, none, {}⟩] } else st) =
      { st with evals := evaluations st } := by
    unfold evaluations
    by_cases h : st.evals = []
    · simp [h, hamEntry]
    · simp [h]
  have h1 : st₁.sw = sw ∧ st₁.evals = evaluations st := by
    unfold NS.presub at hpre
    split at hpre
    · cases hpre
    · dsimp only at hpre
      split at hpre
      · cases hpre
      · simp only [Prod.mk.injEq, and_true] at hpre
        subst hpre
        exact ⟨rfl, rfl⟩
  unfold paramSweep
  simp only [hst, hsw, hpre, h1.1, hpts, h1.2]
  generalize evaluate eng ho fuel ph gv (evaluations st) pts st₁ = q
  obtain ⟨a, b, c⟩ := q
  cases c <;> rfl

/-- C42: a sweep in which an evaluation that depends on the Hamiltonian's eigenvalues and eigenvectors comes before the Hamiltonian (or
without it) raises at the first point, and writes no file. -/
theorem C42_wrong_order (eng : Engine E) (ho : HashOrder) (fuel : ℕ) (ph : Phys O H P X V R) (gv : Bool) (st st₁ : NS E Q O) (sw : SW E Q)
    (p : Dict String PF) (pts : List (Dict String PF)) (hsw : st.sw.ndSweep st.specs = (sw, .ok ()))
    (hpre : ({ st with sw := sw, evals := evaluations st } : NS E Q O).presub eng ho = (st₁, .ok ())) (hpts : gridPoints sw = .ok (p :: pts))
    (hreq : ∀ e ∈ st.evals, Requested e) (l₁ : List Entry) (e : Entry) (l₂ : List Entry) (hl : st.evals = l₁ ++ e :: l₂)
    (he : e.depends ≠ none) (hham : ∀ e' ∈ l₁, e'.eval ≠ .getHamiltonian) :
    ∃ err, (paramSweep eng ho fuel ph gv st).2 = ([], .error err) := by
  have hne : evaluations st = st.evals := by unfold evaluations; rw [if_neg (by rw [hl]; simp)]
  rw [paramSweep_eq eng ho fuel ph gv st st₁ sw _ hsw hpre hpts, hne]
  have key : ∃ stx err, evaluate eng ho fuel ph gv st.evals (p :: pts) st₁ = (stx, [], .error err) := by
    have hnot : ∀ l b, b = false → (∀ e' ∈ l, e'.eval ≠ .getHamiltonian) → ¬ Ordered (l ++ e :: l₂) b := by
      intro l
      induction l with
      | nil => intro b hb _ h; subst hb; simpa using h.1 he
      | cons x l ih =>
        intro b hb hx h
        subst hb
        exact ih _ (by simp [hx x (by simp)]) (fun e' he' => hx e' (by simp [he'])) h.2
    unfold evaluate
    split
    · rename_i e₀ heq
      have hee : e = e₀ := by
        rw [hl] at heq
        cases l₁ with
        | nil => simp at heq; exact heq.1
        | cons x l => simp at heq
      subst hee
      unfold singleLoop
      split
      · exact ⟨_, _, rfl⟩
      · rename_i st1 _
        have : evalEntry ph gv st1 e none = .error .typeError := by
          obtain ⟨name, e₁, k, hk, rfl⟩ := hreq e (by rw [hl]; simp)
          simp only [evalSpec, Dict.get?_cons, Dict.get?_nil] at hk
          split_ifs at hk <;> cases hk <;> simp_all [evalEntry, callMethod]
        rw [this]
        exact ⟨_, _, rfl⟩
    · unfold multiLoop
      split
      · exact ⟨_, _, rfl⟩
      · rename_i st1 _
        split
        · exact ⟨_, _, rfl⟩
        · rename_i res hres
          refine absurd (ordered_of_ok ph gv st1 _ _ res false hreq (fun _ r hr => init_unpack _ r hr) hres) ?_
          rw [hl]
          exact hnot l₁ false rfl hham
  obtain ⟨stx, err, hk⟩ := key
  rw [hk]
  exact ⟨err, rfl⟩

/-- A method that reads eigenvectors raises when it is given numbers. -/
theorem call_scalars {ph : Phys O H P X V R} {st : NS E Q O} {e : Entry} {x y : X} {z : H ⊕ Res X V R} (h : ReadsVectors e)
    (hz : callMethod ph st e.eval (some (.scalars x y)) e.kwargs = .ok z) : False := by
  rcases h with ⟨h1, h2⟩ | ⟨h1, h2⟩ | ⟨h1, h2⟩
  · rw [h1] at hz
    simp only [callMethod] at hz
    split at hz
    · cases hz
    · split at hz
      · cases hz
      · split at hz
        · cases hz
        · rename_i l hl
          cases l with
          | nil => exact h2 hl
          | cons _ _ => simp [elemLoop] at hz
  · rw [h1] at hz
    simp only [callMethod] at hz
    split at hz
    · cases hz
    · split at hz
      · cases hz
      · split at hz
        · cases hz
        · rename_i l hl
          cases l with
          | nil => exact h2 hl
          | cons _ _ => simp [elemLoop] at hz
  · rw [h1] at hz
    simp only [callMethod] at hz
    split at hz
    · rename_i hn; exact h2 hn
    · cases hz

/-- C42: a sweep with an evaluation that reads eigenvectors, when the diagonaliser is configured not to give them, raises at the first point,
and writes no file. -/
theorem C42_missing_vectors (eng : Engine E) (ho : HashOrder) (fuel : ℕ) (ph : Phys O H P X V R) (st st₁ : NS E Q O) (sw : SW E Q)
    (p : Dict String PF) (pts : List (Dict String PF)) (hsw : st.sw.ndSweep st.specs = (sw, .ok ()))
    (hpre : ({ st with sw := sw, evals := evaluations st } : NS E Q O).presub eng ho = (st₁, .ok ())) (hpts : gridPoints sw = .ok (p :: pts))
    (hreq : ∀ e ∈ st.evals, Requested e) (e : Entry) (he : e ∈ st.evals) (hreads : ReadsVectors e) :
    ∃ err, (paramSweep eng ho fuel ph false st).2 = ([], .error err) := by
  have hne : evaluations st = st.evals := by
    unfold evaluations; rw [if_neg (by intro h; rw [h] at he; simp at he)]
  have hval : ∀ (st1 : NS E Q O) v, valueAt ph false st1 e ≠ .ok v := by
    intro st1 v hv
    have hd : e.depends = some .getHamiltonian ∧ e.diag = false := by
      obtain ⟨name, e₁, k, hk, rfl⟩ := hreq e he
      simp only [evalSpec, Dict.get?_cons, Dict.get?_nil] at hk
      split_ifs at hk <;> cases hk <;> simp_all [ReadsVectors]
    unfold valueAt at hv
    rw [hd.1] at hv
    simp only at hv
    split at hv
    · cases hv
    rename_i r hr
    split at hv
    · cases hv
    rename_i a ha
    have hsc : ∃ x y, a = .scalars x y := by
      unfold evalEntry at hr
      simp only [hamEntry, callMethod] at hr
      split at hr
      · cases hr
      · rename_i h hh
        split at hh <;> cases hh
        simp only [if_true, diagonalize] at hr
        split at hr
        · cases hr
        · simp only [Bool.false_eq_true, if_false, Except.ok.injEq] at hr
          subst hr
          unfold unpack at ha
          split at ha
          · rename_i heq; cases heq
          · cases ha; exact ⟨_, _, rfl⟩
          · cases ha; exact ⟨_, _, rfl⟩
          · cases ha
      · rename_i r' hr'
        split at hr' <;> cases hr'
    obtain ⟨x, y, rfl⟩ := hsc
    unfold evalEntry at hv
    cases hz : callMethod ph st1 e.eval (some (.scalars x y)) e.kwargs with
    | error err => rw [hz] at hv; cases hv
    | ok z => exact call_scalars hreads hz
  rw [paramSweep_eq eng ho fuel ph false st st₁ sw _ hsw hpre hpts, hne]
  have key : ∃ stx err, evaluate eng ho fuel ph false st.evals (p :: pts) st₁ = (stx, [], .error err) := by
    unfold evaluate
    split
    · rename_i e₀ heq
      rw [heq, List.mem_singleton] at he
      subst he
      unfold singleLoop
      split
      · exact ⟨_, _, rfl⟩
      · rename_i st1 _
        have : evalEntry ph false st1 e none = .error .typeError := by
          unfold evalEntry
          rcases hreads with ⟨h1, _⟩ | ⟨h1, _⟩ | ⟨h1, _⟩ <;> rw [h1] <;> rfl
        rw [this]
        exact ⟨_, _, rfl⟩
    · unfold multiLoop
      split
      · exact ⟨_, _, rfl⟩
      · rename_i st1 _
        split
        · exact ⟨_, _, rfl⟩
        · rename_i res hres
          have hord := ordered_of_ok ph false st1 _ _ res false hreq (fun _ r hr => init_unpack _ r hr) hres
          obtain ⟨v, hv⟩ := (evalEntries_values ph false st1 _ _ res false hreq hord (by simp) hres).2.2 e he
          exact absurd hv (hval st1 v)
  obtain ⟨stx, err, hk⟩ := key
  rw [hk]
  exact ⟨err, rfl⟩

theorem grid_keys {sw : SW E Q} {st : SW E Q} {spec : List SweepSpec} (h : st.ndSweep spec = (sw, .ok ())) {pts : List (Dict String PF)}
    (hpts : gridPoints sw = .ok pts) {ks : List String} (hks : sw.params = some ks) : ∀ q ∈ pts, ∀ n, n ∈ q.keys ↔ n ∈ ks := by
  unfold SW.ndSweep at h
  split at h
  · cases h
  rename_i pc n keys sweeps hnd
  simp only [Prod.mk.injEq, and_true] at h
  subst h
  simp only [Option.some.injEq] at hks
  subst hks
  unfold gridPoints at hpts
  simp only [Except.ok.injEq] at hpts
  subst hpts
  have hnc : ∀ (l : List (String × ℕ)) (d : Dict String (NDArray PF)) k,
      k ∈ (l.foldl (fun d kj => d.set kj.1 (meshgridIJ .nan sweeps kj.2)) d).keys ↔ k ∈ d.keys ∨ k ∈ l.map Prod.fst := by
    intro l
    induction l with
    | nil => intro d k; simp
    | cons x l ih => intro d k; rw [List.foldl_cons, ih, Dict.mem_keys_set]; simp; tauto
  have hc : ∀ (nc : Dict String (NDArray PF)) (l : List String) (d : Dict String (List PF)) k, (∀ x ∈ l, x ∈ nc.keys) →
      (k ∈ (l.foldl (fun d k => match nc.get? k with | none => d | some a => d.set k a.flatten) d).keys ↔ k ∈ d.keys ∨ k ∈ l) := by
    intro nc l
    induction l with
    | nil => intro d k _; simp
    | cons x l ih =>
      intro d k hx
      obtain ⟨a, ha⟩ := Option.isSome_iff_exists.1 ((Dict.mem_keys_iff _ _).1 (hx x (by simp)))
      rw [List.foldl_cons, ih _ _ (fun y hy => hx y (by simp [hy]))]
      simp only [ha]
      rw [Dict.mem_keys_set]; simp; tauto
  intro q hq m
  simp only [List.mem_map, List.mem_range] at hq
  obtain ⟨i, _, rfl⟩ := hq
  have : Dict.keys ((SW.cOf keys (SW.ncOf keys sweeps)).map fun kv => (kv.1, kv.2.getD i PF.nan)) = (SW.cOf keys (SW.ncOf keys sweeps)).keys := by
    unfold Dict.keys; simp
  rw [this]
  refine (hc (SW.ncOf keys sweeps) keys [] m ?_).trans (by simp [Dict.keys])
  intro x hx
  rw [SW.ncOf, hnc]
  right
  rw [List.zipIdx_map_fst]; exact hx

/-- C40: in a sweep that ends normally, the file of each point holds the values that the evaluations have on the system on which that point
is set, without a sweep; if no parameter that the sweep affects occurs in the impedance of an oscillator. -/
theorem C40_sweep_partial (eng : Engine E) (law : eng.Lawful D) (ho : HashOrder) (fuel : ℕ) (ph : Phys O H P X V R) (gv : Bool) (ks : List String)
    (st st₁ st' : NS E Q O) (sw : SW E Q) (pts : List (Dict String PF)) (files : List (SW.Pickled (Res X V R)))
    (hsw : st.sw.ndSweep st.specs = (sw, .ok ())) (hready : Ready eng law ph.gen ks { st with sw := sw })
    (hpre : ({ st with sw := sw, evals := evaluations st } : NS E Q O).presub eng ho = (st₁, .ok ())) (hpts : gridPoints sw = .ok pts)
    (hreq : ∀ e ∈ st.evals, Requested e)
    (himp : ∀ node c imp n s, st.cfg.get? node = some c → c.basis = .oscillator → c.impedance = some imp →
      sw.pc.getSymbol n = .ok s → s ∈ eng.free imp → ¬ Affected sw.pc ks n)
    (hrun : paramSweep eng ho fuel ph gv st = (st', files, .ok ())) :
    files.length = pts.length ∧ ∀ (i : ℕ) (p : Dict String PF), pts[i]? = some p → ∃ f, files[i]? = some f ∧
      ∀ (stF : NS E Q O) (ho' : HashOrder) (fuel' : ℕ), NS.setParameterValues eng ho' fuel' ph.gen { st with sw := sw } (pointArg p) = (stF, .ok ()) →
        Defined eng law { st with sw := sw } stF.sw.pc →
        (∀ e, evaluations st = [e] → ∃ v, evalEntry ph gv stF e none = .ok v ∧ f = pickleOne v) ∧
        ∀ l₁ e l₂, evaluations st = l₁ ++ e :: l₂ → l₁ ++ l₂ ≠ [] → (∀ e' ∈ l₂, e'.eval ≠ e.eval) →
          ∃ v, valueAt ph gv stF e = .ok v ∧ stored f e.eval = some v := by
  rw [paramSweep_eq eng ho fuel ph gv st st₁ sw pts hsw hpre hpts] at hrun
  have hreq' : ∀ e ∈ evaluations st, Requested e := by
    intro e he
    unfold evaluations at he
    split_ifs at he
    · rw [List.mem_singleton] at he
      subst he
      exact ⟨"Hamiltonian", _, {}, rfl, rfl⟩
    · exact hreq e he
  have hkeys := grid_keys hsw hpts hready.params
  -- the state at a point is that of the fresh system
  have hpoint : ∀ (i : ℕ) (p : Dict String PF) (sti stF : NS E Q O) (ho' : HashOrder) (fuel' : ℕ), pts[i]? = some p →
      visit eng ho fuel ph.gen (pts.take i ++ [p]) st₁ = (sti, .ok ()) →
      NS.setParameterValues eng ho' fuel' ph.gen { st with sw := sw } (pointArg p) = (stF, .ok ()) →
      Defined eng law { st with sw := sw } stF.sw.pc →
      (∀ n, sti.sw.pc.getParameterValue n = stF.sw.pc.getParameterValue n) ∧ (∀ a, sti.num.get? a = stF.num.get? a) ∧
        (∀ node, sti.circ.get? node = stF.circ.get? node) ∧ sti.vec = stF.vec := by
    intro i p sti stF ho' fuel' hi hv hF hdef
    have hk : ∀ q ∈ pts.take i ++ [p], ∀ n, n ∈ q.keys ↔ n ∈ ks := by
      intro q hq
      rcases List.mem_append.1 hq with hq | hq
      · exact hkeys q (List.mem_of_mem_take hq)
      · rw [List.mem_singleton] at hq
        subst hq
        exact hkeys q (List.mem_of_getElem? hi)
    have hready' : Ready eng law ph.gen ks ({ st with sw := sw, evals := evaluations st } : NS E Q O) := by
      obtain ⟨a, b, c, d, e, f⟩ := hready
      refine ⟨a, b, c, d, ?_, f⟩
      have hh : NS.prepareOperators ph.gen ({ st with sw := sw, evals := evaluations st } : NS E Q O) =
          ({ (NS.prepareOperators ph.gen ({ st with sw := sw } : NS E Q O)).1 with evals := evaluations st },
            (NS.prepareOperators ph.gen ({ st with sw := sw } : NS E Q O)).2) := prepare_evals ph.gen { st with sw := sw } (evaluations st)
      rw [hh, e]
    have hF' : NS.setParameterValues eng ho' fuel' ph.gen ({ st with sw := sw, evals := evaluations st } : NS E Q O) (pointArg p) =
        ({ stF with evals := evaluations st }, .ok ()) := by
      rw [set_evals eng ho' fuel' ph.gen { st with sw := sw } (evaluations st), hF]
    obtain ⟨c1, c2, c3, c4⟩ := C40_point_partial eng law ph.gen ks _ st₁ sti _ ho ho' fuel fuel' hready' hpre (pts.take i) p hk hv hF'
      ⟨hdef.1, hdef.2⟩
    exact ⟨c1, c2, c3, c4 himp⟩
  cases hx : evaluate eng ho fuel ph gv (evaluations st) pts st₁ with
  | mk st2 q =>
  obtain ⟨files', r⟩ := q
  rw [hx] at hrun
  cases r with
  | error e => simp at hrun
  | ok u =>
  simp only [Prod.mk.injEq, and_true] at hrun
  obtain ⟨_, rfl⟩ := hrun
  unfold evaluate at hx
  split at hx
  · rename_i e₀ heq
    obtain ⟨h1, h2⟩ := singleLoop_files eng ho fuel ph gv e₀ pts st₁ st2 files' hx
    refine ⟨h1, ?_⟩
    intro i p hp
    obtain ⟨sti, v, g1, g2, g3⟩ := h2 i p hp
    refine ⟨pickleOne v, g3, ?_⟩
    intro stF ho' fuel' hF hdef
    obtain ⟨c1, c2, c3, c4⟩ := hpoint i p sti stF ho' fuel' hp g1 hF hdef
    refine ⟨?_, ?_⟩
    · intro e he
      rw [heq] at he
      cases he
      exact ⟨v, by rw [← evalEntry_congr ph gv c1 c2 c3 c4]; exact g2, rfl⟩
    · intro l₁ e l₂ hl hne _
      rw [heq] at hl
      exfalso
      apply hne
      cases l₁ with
      | nil => simp at hl; rw [hl.2]; rfl
      | cons x l => simp at hl
  · rename_i hns
    obtain ⟨h1, h2⟩ := multiLoop_files eng ho fuel ph gv (evaluations st) hreq' pts st₁ st2 _ files'
      (Or.inr (fun r hr => init_unpack _ r hr)) hx
    refine ⟨h1, ?_⟩
    intro i p hp
    obtain ⟨sti, f, g1, g2, g3⟩ := h2 i p hp
    refine ⟨f, g2, ?_⟩
    intro stF ho' fuel' hF hdef
    obtain ⟨c1, c2, c3, c4⟩ := hpoint i p sti stF ho' fuel' hp g1 hF hdef
    refine ⟨fun e he => absurd he (hns e), ?_⟩
    intro l₁ e l₂ hl _ hlast
    obtain ⟨v, v1, v2⟩ := g3 l₁ e l₂ hl hlast
    exact ⟨v, by rw [← valueAt_congr ph gv c1 c2 c3 c4]; exact v1, v2⟩

/-- C42: in a sweep of several evaluations that ends normally, each dependent evaluation is computed, at each point, from the eigenvalues and
eigenvectors of the Hamiltonian of that point. -/
theorem C42_same_point (eng : Engine E) (ho : HashOrder) (fuel : ℕ) (ph : Phys O H P X V R) (gv : Bool) (st st₁ st' : NS E Q O) (sw : SW E Q)
    (pts : List (Dict String PF)) (files : List (SW.Pickled (Res X V R))) (hsw : st.sw.ndSweep st.specs = (sw, .ok ()))
    (hpre : ({ st with sw := sw, evals := evaluations st } : NS E Q O).presub eng ho = (st₁, .ok ())) (hpts : gridPoints sw = .ok pts)
    (hreq : ∀ e ∈ st.evals, Requested e) (hrun : paramSweep eng ho fuel ph gv st = (st', files, .ok ()))
    (l₁ : List Entry) (e : Entry) (l₂ : List Entry) (hl : st.evals = l₁ ++ e :: l₂) (hlast : ∀ e' ∈ l₂, e'.eval ≠ e.eval)
    (he : e.depends ≠ none) (hreads : ReadsVectors e) :
    ∀ (i : ℕ) (p : Dict String PF), pts[i]? = some p → ∃ sti f h es vs v,
      visit eng ho fuel ph.gen (pts.take i ++ [p]) st₁ = (sti, .ok ()) ∧ files[i]? = some f ∧
      ph.ham sti.num.get? sti.circ.get? sti.vec = .ok h ∧ ph.solve h = .ok (es, vs) ∧
      evalEntry ph gv sti e (some (.arrays es vs)) = .ok v ∧ stored f e.eval = some v := by
  have hne : evaluations st = st.evals := by unfold evaluations; rw [if_neg (by rw [hl]; simp)]
  rw [paramSweep_eq eng ho fuel ph gv st st₁ sw pts hsw hpre hpts, hne] at hrun
  cases hx : evaluate eng ho fuel ph gv st.evals pts st₁ with
  | mk st2 q =>
  obtain ⟨files', r⟩ := q
  rw [hx] at hrun
  cases r with
  | error e => simp at hrun
  | ok u =>
  simp only [Prod.mk.injEq, and_true] at hrun
  obtain ⟨_, rfl⟩ := hrun
  intro i p hp
  unfold evaluate at hx
  split at hx
  · rename_i e₀ heq
    exfalso
    have hee : e = e₀ := by
      rw [hl] at heq
      cases l₁ with
      | nil => simp at heq; exact heq.1
      | cons x l => simp at heq
    subst hee
    obtain ⟨sti, v, _, g2, _⟩ := (singleLoop_files eng ho fuel ph gv e pts st₁ st2 files' hx).2 i p hp
    unfold evalEntry at g2
    rcases hreads with ⟨h1, _⟩ | ⟨h1, _⟩ | ⟨h1, _⟩ <;> rw [h1] at g2 <;> cases g2
  · obtain ⟨h1, h2⟩ := multiLoop_files eng ho fuel ph gv st.evals hreq pts st₁ st2 _ files'
      (Or.inr (fun r hr => init_unpack _ r hr)) hx
    obtain ⟨sti, f, g1, g2, g3⟩ := h2 i p hp
    obtain ⟨v, v1, v2⟩ := g3 l₁ e l₂ hl hlast
    unfold valueAt at v1
    cases hd : e.depends with
    | none => exact absurd hd he
    | some m =>
      rw [hd] at v1
      simp only at v1
      split at v1
      · cases v1
      rename_i r hr
      split at v1
      · cases v1
      rename_i a ha
      unfold evalEntry at hr
      simp only [hamEntry, callMethod] at hr
      cases hh : ph.ham sti.num.get? sti.circ.get? sti.vec with
      | error err => rw [hh] at hr; cases hr
      | ok h =>
        rw [hh] at hr
        simp only [if_true, diagonalize] at hr
        cases hs : ph.solve h with
        | error err => rw [hs] at hr; cases hr
        | ok ev =>
          obtain ⟨es, vs⟩ := ev
          rw [hs] at hr
          cases gv with
          | true =>
            simp only [if_true, Except.ok.injEq] at hr
            subst hr
            cases ha
            exact ⟨sti, f, h, es, vs, v, g1, g2, hh, hs, v1, v2⟩
          | false =>
            simp only [Bool.false_eq_true, if_false, Except.ok.injEq] at hr
            subst hr
            exfalso
            have : ∃ x y, a = .scalars x y := by
              unfold unpack at ha
              split at ha
              · rename_i heq; cases heq
              · cases ha; exact ⟨_, _, rfl⟩
              · cases ha; exact ⟨_, _, rfl⟩
              · cases ha
            obtain ⟨x, y, rfl⟩ := this
            unfold evalEntry at v1
            cases hz : callMethod ph sti e.eval (some (.scalars x y)) e.kwargs with
            | error err => rw [hz] at v1; cases v1
            | ok z => exact call_scalars hreads hz

/-- C41: after a sweep of several different evaluations that ends normally, `getSweep` for one of them is `getSweepResult` (see C18) for the list
of the values of that evaluation at the points of the sweep, in the order of the points. -/
theorem C41_multiple_partial (eng : Engine E) (ho : HashOrder) (fuel : ℕ) (ph : Phys O H P X V R) (gv : Bool) (st st₁ st' : NS E (Res X V R) O)
    (sw : SW E (Res X V R)) (pts : List (Dict String PF)) (files : List (SW.Pickled (Res X V R))) (hsw : st.sw.ndSweep st.specs = (sw, .ok ()))
    (hpre : ({ st with sw := sw, evals := evaluations st } : NS E (Res X V R) O).presub eng ho = (st₁, .ok ())) (hpts : gridPoints sw = .ok pts)
    (hne : pts ≠ []) (hreq : ∀ e ∈ st.evals, Requested e) (hrun : paramSweep eng ho fuel ph gv st = (st', files, .ok ()))
    (hmany : 2 ≤ st.evals.length) (hdist : (st.evals.map Entry.eval).Nodup)
    (names : ℕ → String) (disk : String → Option (SW.Pickled (Res X V R))) (hdisk : ∀ i, i < files.length → disk (names i) = files[i]?)
    (name : String) (e₀ e : Entry) (hname : evalSpec.get? name = some e₀) (he : e ∈ st.evals) (hee : e.eval = e₀.eval) :
    ∃ vals : List (Res X V R), vals.length = pts.length ∧
      (∀ (i : ℕ) (p : Dict String PF), pts[i]? = some p → ∃ sti v, visit eng ho fuel ph.gen (pts.take i ++ [p]) st₁ = (sti, .ok ()) ∧
        valueAt ph gv sti e = .ok v ∧ vals[i]? = some v) ∧
      ∀ (ind : String) (static : List (String × PF)),
        getSweep st'.sw files names disk ind static name =
          st'.sw.getSweepResult disk ind static (.list (vals.map .val)) (some e.eval.name) := by
  have hev : evaluations st = st.evals := by unfold evaluations; rw [if_neg (by intro h; rw [h] at he; simp at he)]
  rw [paramSweep_eq eng ho fuel ph gv st st₁ sw pts hsw hpre hpts, hev] at hrun
  cases hx : evaluate eng ho fuel ph gv st.evals pts st₁ with
  | mk st2 q =>
  obtain ⟨files', r⟩ := q
  rw [hx] at hrun
  cases r with
  | error e => simp at hrun
  | ok u =>
  simp only [Prod.mk.injEq, and_true] at hrun
  obtain ⟨_, rfl⟩ := hrun
  unfold evaluate at hx
  split at hx
  · rename_i e₁ heq; rw [heq] at hmany; simp at hmany
  obtain ⟨h1, h2⟩ := multiLoop_files eng ho fuel ph gv st.evals hreq pts st₁ st2 _ files'
    (Or.inr (fun r hr => init_unpack _ r hr)) hx
  obtain ⟨l₁, l₂, hl⟩ := List.append_of_mem he
  have hlast : ∀ e' ∈ l₂, e'.eval ≠ e.eval := by
    intro e' he' hc
    rw [hl, List.map_append, List.map_cons, List.nodup_append] at hdist
    exact (List.nodup_cons.1 hdist.2.1).1 (hc ▸ List.mem_map.2 ⟨e', he', rfl⟩)
  have hfile : ∀ f ∈ files', ∃ v, stored f e.eval = some v := by
    intro f hf
    obtain ⟨i, hi⟩ := List.mem_iff_getElem?.1 hf
    have hil : i < pts.length := by
      rw [← h1]; exact (List.getElem?_eq_some_iff.1 hi).1
    obtain ⟨sti, f', _, g2, g3⟩ := h2 i pts[i] (List.getElem?_eq_getElem hil)
    rw [hi] at g2
    cases g2
    obtain ⟨v, _, v2⟩ := g3 l₁ e l₂ hl hlast
    exact ⟨v, v2⟩
  refine ⟨files'.map fun f => (stored f e.eval).getD .empty, by simp [h1], ?_, ?_⟩
  · intro i p hp
    obtain ⟨sti, f, g1, g2, g3⟩ := h2 i p hp
    obtain ⟨v, v1, v2⟩ := g3 l₁ e l₂ hl hlast
    exact ⟨sti, v, g1, v1, by rw [List.getElem?_map, g2]; simp [v2]⟩
  · intro ind static
    unfold getSweep
    rw [hname]
    simp only
    rw [← hee]
    set content : String → Res X V R := fun n => match disk n with
      | none => .empty
      | some f => (stored f e.eval).getD .empty with hcontent
    set fn := (List.range files'.length).map names with hfn
    have hfn' : (List.range files'.length).map (fun i => SW.Datum.file (R := Res X V R) (names i)) = fn.map SW.Datum.file := by
      rw [hfn, List.map_map]; rfl
    have hc' : (files'.map fun f => (stored f e.eval).getD .empty).map SW.Datum.val = fn.map fun n => SW.Datum.val (content n) := by
      rw [hfn, List.map_map, List.map_map]
      apply List.ext_getElem
      · simp
      · intro i a b
        simp only [List.length_map, List.length_range] at a b
        simp only [List.getElem_map, List.getElem_range, Function.comp_apply, hcontent, hdisk i b, List.getElem?_eq_getElem b]
    rw [hfn', hc']
    have hpos : fn ≠ [] := by
      intro h
      rw [hfn, List.map_eq_nil_iff, List.range_eq_nil, h1] at h
      exact hne (List.length_eq_zero_iff.1 h)
    obtain ⟨f0, fs, hf0⟩ := List.exists_cons_of_ne_nil hpos
    rw [hf0]
    refine C18_temporary_files st'.sw disk content f0 fs ind static _ (Or.inr ⟨_, rfl, ?_⟩)
    intro n hn
    rw [← hf0, hfn, List.mem_map] at hn
    obtain ⟨i, hi, rfl⟩ := hn
    rw [List.mem_range] at hi
    have hd := hdisk i hi
    rw [List.getElem?_eq_getElem hi] at hd
    obtain ⟨v, hv⟩ := hfile _ (List.getElem_mem hi)
    generalize hfi : files'[i] = fi at hd hv
    cases fi with
    | plain r => simp [stored] at hv
    | keyed d =>
      refine ⟨d, hd, ?_⟩
      simp only [hcontent, hd]
      rw [hv]
      exact hv

/-- C41: after a sweep of one evaluation that ends normally (by default the Hamiltonian), `getSweep` for it is `getSweepResult` (see C18) for the
list of its values at the points of the sweep; an energy must be that of one node or edge. -/
theorem C41_single_partial (eng : Engine E) (ho : HashOrder) (fuel : ℕ) (ph : Phys O H P X V R) (gv : Bool) (st st₁ st' : NS E (Res X V R) O)
    (sw : SW E (Res X V R)) (pts : List (Dict String PF)) (files : List (SW.Pickled (Res X V R))) (hsw : st.sw.ndSweep st.specs = (sw, .ok ()))
    (hpre : ({ st with sw := sw, evals := evaluations st } : NS E (Res X V R) O).presub eng ho = (st₁, .ok ())) (hpts : gridPoints sw = .ok pts)
    (hne : pts ≠ []) (e : Entry) (hone : evaluations st = [e]) (hreq : Requested e)
    (henergy : e.eval ∈ [Method.getChargingEnergies, .getFluxEnergies, .getJosephsonEnergies] → e.kwargs.edge ≠ none ∨ e.kwargs.node ≠ none)
    (hrun : paramSweep eng ho fuel ph gv st = (st', files, .ok ()))
    (names : ℕ → String) (disk : String → Option (SW.Pickled (Res X V R))) (hdisk : ∀ i, i < files.length → disk (names i) = files[i]?)
    (name : String) (e₀ : Entry) (hname : evalSpec.get? name = some e₀) (hee : e.eval = e₀.eval) :
    ∃ vals : List (Res X V R), vals.length = pts.length ∧
      (∀ (i : ℕ) (p : Dict String PF), pts[i]? = some p → ∃ sti v, visit eng ho fuel ph.gen (pts.take i ++ [p]) st₁ = (sti, .ok ()) ∧
        valueAt ph gv sti e = .ok v ∧ vals[i]? = some v) ∧
      ∀ (ind : String) (static : List (String × PF)),
        getSweep st'.sw files names disk ind static name =
          st'.sw.getSweepResult disk ind static (.list (vals.map .val)) (some e.eval.name) := by
  rw [paramSweep_eq eng ho fuel ph gv st st₁ sw pts hsw hpre hpts, hone] at hrun
  cases hx : evaluate eng ho fuel ph gv [e] pts st₁ with
  | mk st2 q =>
  obtain ⟨files', r⟩ := q
  rw [hx] at hrun
  cases r with
  | error e => simp at hrun
  | ok u =>
  simp only [Prod.mk.injEq, and_true] at hrun
  obtain ⟨_, rfl⟩ := hrun
  unfold evaluate at hx
  obtain ⟨h1, h2⟩ := singleLoop_files eng ho fuel ph gv e pts st₁ st2 files' hx
  have hplain : ∀ (s : NS E (Res X V R) O) v, evalEntry ph gv s e none = .ok v → pickleOne v = .plain v ∧ valueAt ph gv s e = .ok v := by
    intro s v hv
    have hen : ∀ m, e.eval = m → m ∈ [Method.getChargingEnergies, .getFluxEnergies, .getJosephsonEnergies] → e.diag = false → pickleOne v = .plain v := by
      intro m hm hmem hdg
      have hk := henergy (hm ▸ hmem)
      have hk' : ¬ (e.kwargs.edge = none ∧ e.kwargs.node = none) := fun hc => hk.elim (fun h => h hc.1) (fun h => h hc.2)
      unfold evalEntry at hv
      rw [hm] at hv
      simp only [List.mem_cons, List.not_mem_nil, or_false] at hmem
      rcases hmem with rfl | rfl | rfl <;> simp only [callMethod, if_neg hk', hdg] at hv <;> (
        generalize ph.energy _ _ _ _ = q at hv
        cases q with
        | error err => cases hv
        | ok r => cases hv; rfl)
    obtain ⟨nm, e₁, k, hreq, rfl⟩ := hreq
    simp only [evalSpec, Dict.get?_cons, Dict.get?_nil] at hreq
    split_ifs at hreq
    · cases hreq
      refine ⟨?_, hv⟩
      simp only [evalEntry, callMethod] at hv
      cases hh : ph.ham s.num.get? s.circ.get? s.vec with
      | error err => rw [hh] at hv; cases hv
      | ok h =>
        rw [hh] at hv
        simp only [if_true, diagonalize] at hv
        cases hs : ph.solve h with
        | error err => rw [hs] at hv; cases hv
        | ok ev =>
          rw [hs] at hv
          simp only at hv
          split_ifs at hv <;> cases hv <;> rfl
    · cases hreq; cases hv
    · cases hreq; cases hv
    · cases hreq; cases hv
    · cases hreq; exact ⟨hen _ rfl (by simp) rfl, hv⟩
    · cases hreq; exact ⟨hen _ rfl (by simp) rfl, hv⟩
    · cases hreq; exact ⟨hen _ rfl (by simp) rfl, hv⟩
  have hfile : ∀ f ∈ files', ∃ v, f = .plain v := by
    intro f hf
    obtain ⟨i, hi⟩ := List.mem_iff_getElem?.1 hf
    have hil : i < pts.length := by
      rw [← h1]; exact (List.getElem?_eq_some_iff.1 hi).1
    obtain ⟨sti, v, _, g2, g3⟩ := h2 i pts[i] (List.getElem?_eq_getElem hil)
    rw [hi] at g3
    cases g3
    exact ⟨v, (hplain sti v g2).1⟩
  let content : SW.Pickled (Res X V R) → Res X V R := fun f => match f with
    | .plain v => v
    | .keyed _ => .empty
  refine ⟨files'.map content, by simp [h1], ?_, ?_⟩
  · intro i p hp
    obtain ⟨sti, v, g1, g2, g3⟩ := h2 i p hp
    refine ⟨sti, v, g1, (hplain sti v g2).2, ?_⟩
    rw [List.getElem?_map, g3, (hplain sti v g2).1]
    rfl
  · intro ind static
    unfold getSweep
    rw [hname]
    simp only
    rw [← hee]
    set fn := (List.range files'.length).map names with hfn
    have hfn' : (List.range files'.length).map (fun i => SW.Datum.file (R := Res X V R) (names i)) = fn.map SW.Datum.file := by
      rw [hfn, List.map_map]; rfl
    have hc' : (files'.map content).map SW.Datum.val = fn.map fun n => SW.Datum.val (match disk n with | none => .empty | some f => content f) := by
      rw [hfn, List.map_map, List.map_map]
      apply List.ext_getElem
      · simp
      · intro i a b
        simp only [List.length_map, List.length_range] at a b
        simp only [List.getElem_map, List.getElem_range, Function.comp_apply, hdisk i b, List.getElem?_eq_getElem b]
    rw [hfn', hc']
    have hpos : fn ≠ [] := by
      intro h
      rw [hfn, List.map_eq_nil_iff, List.range_eq_nil, h1] at h
      exact hne (List.length_eq_zero_iff.1 h)
    obtain ⟨f0, fs, hf0⟩ := List.exists_cons_of_ne_nil hpos
    rw [hf0]
    refine C18_temporary_files st'.sw disk _ f0 fs ind static _ (Or.inl ?_)
    intro n hn
    rw [← hf0, hfn, List.mem_map] at hn
    obtain ⟨i, hi, rfl⟩ := hn
    rw [List.mem_range] at hi
    have hd := hdisk i hi
    rw [List.getElem?_eq_getElem hi] at hd
    obtain ⟨v, hv⟩ := hfile _ (List.getElem_mem hi)
    rw [hd, hv]

end

end Verif.Props
