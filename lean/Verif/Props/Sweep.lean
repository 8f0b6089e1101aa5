import Verif.Lemmas.Sweep
import Verif.Model.AstEngine

/-!
# Properties C15, C16, C17: the grid of a sweep and its evaluation
-/

namespace Verif.Props

open Verif Verif.Spec

variable {E R : Type}

/-! ## A concrete sweep: three parameters, `a` at 2 points, `b` at 3, `c` untouched -/

/-- A collection with parameters `a`, `b`, `c`. -/
def sweepStart : SW Ast PF :=
  { pc := { coll := [("a", ⟨"a", "a_{}", none, .ninf, .pinf, .fin 1, [], 0⟩),
                     ("b", ⟨"b", "b_{}", none, .fin (-5), .fin 5, .fin 1, [], 0⟩),
                     ("c", ⟨"c", "c_{}", some (.fin 7), .ninf, .pinf, .fin 1, [], 0⟩)]
            symMap := [("a", "a_{}"), ("b", "b_{}"), ("c", "c_{}")]
            parz := []
            graph := ⟨["a", "b", "c"], []⟩ } }

/-- `a` from 0 to 1 in 2 points, `b` from -1 to 1 in 3 points. -/
def sweepSpecAB : List SweepSpec :=
  [⟨"a", .int 0, .int 1, .int 2⟩, ⟨"b", .float (.fin (-1)), .int 1, .int 3⟩]

theorem sweepAB_ok : (sweepStart.ndSweep sweepSpecAB).2 = .ok () := by decide +kernel

theorem sweepAB_names : (sweptNames sweepSpecAB).Nodup := by decide +kernel

theorem sweepAB_eq : sweepStart.ndSweep sweepSpecAB = ((sweepStart.ndSweep sweepSpecAB).1, .ok ()) :=
  Prod.ext rfl sweepAB_ok

/-! ## C15 -/

/-- C15: after a successful `ndSweep` over distinct parameters, `collapsedIndices` maps the index tuples
of the sweep one-to-one onto `0 … (number of points) - 1`, and lexicographically larger tuples to larger
flat indices. -/
theorem C15_flat_index_bijection (st st' : SW E R) (spec : List SweepSpec)
    (h : st.ndSweep spec = (st', .ok ())) (hn : (sweptNames spec).Nodup) :
    ∃ f : {t : List ℕ // InGrid (sizes spec) t} → Fin (sizes spec).prod,
      Function.Bijective f ∧
      (∀ t, st'.collapsedIndices (t.1.map (fun (x : ℕ) => (x : ℤ))) = .ok ((f t : ℕ) : ℤ)) ∧
      (∀ t u, t.1 < u.1 → f t < f u) := by
  obtain ⟨sw, hs⟩ := SW.ndSweep_ok h hn
  refine ⟨fun t => ⟨rowMajor (sizes spec) t.1, rowMajor_lt t.2⟩, ⟨?_, ?_⟩, ?_, ?_⟩
  · intro t u e
    simp only [Fin.mk.injEq] at e
    exact Subtype.ext (rowMajor_inj t.2 u.2 e)
  · intro k
    obtain ⟨t, ht, e⟩ := rowMajor_surj k.2
    exact ⟨⟨t, ht⟩, Fin.ext e⟩
  · intro t
    exact hs.collapsed (by rw [InGrid.length t.2]; simp [sizes])
  · intro t u htu
    exact rowMajor_lt_of_lex t.2 u.2 htu

/-- C15 on the example: there are 6 points, and the tuple (1, 2) is the last one. -/
example : (sizes sweepSpecAB).prod = 6 ∧
    (sweepStart.ndSweep sweepSpecAB).1.collapsedIndices [1, 2] = .ok 5 ∧
    InGrid (sizes sweepSpecAB) [1, 2] :=
  ⟨by decide +kernel, by decide +kernel, by repeat constructor⟩

/-- C15: the flat index is computed from the *current* number of points of the parameters, so a later
`linearSweep` on one of them silently renumbers the points of the earlier sweep: here two different
points of the sweep get the same index. -/
theorem C15_false_after_linearSweep :
    ∃ (st st' : SW Ast PF) (spec : List SweepSpec) (p : Param),
      st.ndSweep spec = (st', .ok ()) ∧ (sweptNames spec).Nodup ∧ st'.pc.coll.get? "b" = some p ∧
      ∃ t u, InGrid (sizes spec) t ∧ InGrid (sizes spec) u ∧ t ≠ u ∧
        let after : SW Ast PF := { st' with pc := { st'.pc with
          coll := st'.pc.coll.set "b" (p.linearSweep (.int 0) (.int 1) (.int 2)).1 } }
        after.collapsedIndices (t.map (fun (x : ℕ) => (x : ℤ))) =
          after.collapsedIndices (u.map (fun (x : ℕ) => (x : ℤ))) := by
  refine ⟨sweepStart, _, sweepSpecAB, _, sweepAB_eq, sweepAB_names, rfl, [0, 2], [1, 0], ?_, ?_, ?_, ?_⟩
  · repeat constructor
  · repeat constructor
  · decide
  · decide +kernel

/-! ## C16 -/

/-- C16: after a successful `ndSweep` over distinct parameters, the number of points is the product of
the sizes; the stored sweep of the `j`-th parameter is the one `linearSweep` computes from the
specification; and at every index tuple the flat grid of that parameter holds, at the flat index given
by `collapsedIndices`, the `t_j`-th point of its own sweep, which is also what the mesh grid holds at
that tuple. -/
theorem C16_grid_values (st st' : SW E R) (spec : List SweepSpec)
    (h : st.ndSweep spec = (st', .ok ())) (hn : (sweptNames spec).Nodup) :
    st'.npts = some (((sizes spec).prod : ℕ) : ℤ) ∧ st'.params = some (sweptNames spec) ∧
    (spec ≠ [] → st'.cLen = some (sizes spec).prod) ∧
    ∃ c nc, st'.c = some c ∧ st'.nc = some nc ∧
      ∀ (j : ℕ) (s : SweepSpec), spec[j]? = some s →
        ∃ p p' pts g a, st.pc.coll.get? s.name = some p ∧
          p.linearSweep s.start s.stop s.N = (p', .ok pts) ∧ st'.pc.coll.get? s.name = some p' ∧
          p'.sweep = pts ∧ pts.length = (sizes spec).getD j 0 ∧
          c.get? s.name = some g ∧ nc.get? s.name = some a ∧ a.shape = sizes spec ∧
          g.length = (sizes spec).prod ∧
          ∀ t, InGrid (sizes spec) t → ∃ i k x, t[j]? = some i ∧
            st'.collapsedIndices (t.map (fun (x : ℕ) => (x : ℤ))) = .ok ((k : ℕ) : ℤ) ∧
            pts[i]? = some x ∧ g[k]? = some x ∧ a.get t = x := by
  obtain ⟨sw, hs⟩ := SW.ndSweep_ok h hn
  refine ⟨hs.npts_eq, hs.params_eq, hs.cLen_eq, _, _, hs.c_eq, hs.nc_eq, ?_⟩
  intro j s hj
  obtain ⟨p, p', pts, h1, h2, h3, h4⟩ := hs.swept j s hj
  obtain ⟨g, a, g1, g2, g3, g4, g5⟩ := hs.grid hn hj
  obtain ⟨z, hz, _, e, hlen⟩ := SW.linearSweep_ok h2
  have hjl : j < spec.length := by
    by_contra hc; rw [List.getElem?_eq_none (by omega)] at hj; cases hj
  refine ⟨p, p', pts, g, a, h1, h2, h3, e, ?_, g1, g2, g3, g4, ?_⟩
  · simp [hlen, sizes, hj, hz]
  · intro t ht
    obtain ⟨x, q, hq, hx, hx2, hx3⟩ := g5 t ht
    have hlt : j < t.length := by rw [InGrid.length ht]; simpa [sizes] using hjl
    rw [h3] at hq; cases hq
    refine ⟨t[j], _, x, List.getElem?_eq_getElem hlt,
      hs.collapsed (by rw [InGrid.length ht]; simp [sizes]), ?_, hx2, hx3⟩
    rw [← e]
    simpa [List.getD, List.getElem?_eq_getElem hlt] using hx

/-- C16 on the example: the flat grids. -/
example : ((sweepStart.ndSweep sweepSpecAB).1.c) = some
    [("a", [.fin 0, .fin 0, .fin 0, .fin 1, .fin 1, .fin 1]),
     ("b", [.fin (-1), .fin 0, .fin 1, .fin (-1), .fin 0, .fin 1])] := by decide +kernel

/-- C16 frame: `ndSweep` over distinct parameters leaves every other parameter, all values, bounds and
symbols, and the parameterisations alone. -/
theorem C16_ndSweep_frame (st st' : SW E R) (spec : List SweepSpec)
    (h : st.ndSweep spec = (st', .ok ())) (hn : (sweptNames spec).Nodup) :
    st'.pc.coll.keys = st.pc.coll.keys ∧ st'.pc.symMap = st.pc.symMap ∧ st'.pc.parz = st.pc.parz ∧
    st'.pc.graph = st.pc.graph ∧ st'.result = st.result ∧
    (∀ k, k ∉ sweptNames spec → st'.pc.coll.get? k = st.pc.coll.get? k) ∧
    (∀ k p p', st.pc.coll.get? k = some p → st'.pc.coll.get? k = some p' →
      p'.value = p.value ∧ p'.lo = p.lo ∧ p'.hi = p.hi ∧ p'.symbol = p.symbol) := by
  obtain ⟨sw, hs⟩ := SW.ndSweep_ok h hn
  refine ⟨hs.keys_eq, hs.symMap_eq, hs.parz_eq, hs.graph_eq, hs.result_eq, hs.others, ?_⟩
  intro k p p' hp hp'
  by_cases hk : k ∈ sweptNames spec
  · obtain ⟨s, hsm, rfl⟩ := List.mem_map.1 hk
    obtain ⟨j, hj⟩ := List.mem_iff_getElem?.1 hsm
    obtain ⟨q, q', pts, h1, h2, h3, _⟩ := hs.swept j s hj
    rw [hp] at h1; rw [hp'] at h3
    cases h1; cases h3
    unfold Param.linearSweep at h2
    cases ha : s.start.toFloat? with
    | none => simp [ha] at h2
    | some x =>
      cases hb : s.stop.toFloat? with
      | none => simp [ha, hb] at h2
      | some y =>
        cases hN : s.N with
        | other => simp [ha, hb, hN] at h2
        | int z =>
          simp only [ha, hb, hN] at h2
          split_ifs at h2 <;> cases h2 <;> simp
  · rw [hs.others k hk, hp] at hp'; cases hp'; simp

/-! ## C17 -/

theorem evalLoop_calls {σ : Type} (func : σ → Dict String PF → σ × Except Err R) (ps : List String)
    (c : Dict String (List PF)) (left i : ℕ) (s : σ) (acc : List R) :
    ∃ s' rs o, SW.evalLoop func ps c left i s acc = (s', acc ++ rs, o) ∧
      Calls func s ((List.range' i left).map (SW.pointParams ps c)) s' rs o := by
  induction left generalizing i s acc with
  | zero => exact ⟨s, [], .ok (), by simp [SW.evalLoop], by simpa using Calls.done s⟩
  | succ left ih =>
    simp only [SW.evalLoop, List.range'_succ, List.map_cons]
    rcases hf : func s (SW.pointParams ps c i) with ⟨s', o⟩
    cases o with
    | error e => exact ⟨s', [], .error e, by simp, Calls.raised _ _ _ _ _ hf⟩
    | ok r =>
      obtain ⟨s'', rs, o, h1, h2⟩ := ih (i + 1) s' (acc ++ [r])
      exact ⟨s'', r :: rs, o, by simp [h1], Calls.returned _ _ _ _ _ _ _ _ hf h2⟩

/-- C17: for a nonempty specification over distinct parameters that `ndSweep` accepts, `computeFuncSweep`
calls the user function on the points of the grid in flat-index order, once each, until the function
raises; the stored results are the values returned, in that order; the outcome is the function's.  The
`k`-th call receives exactly the swept parameters, each with its grid value: at the flat index of an
index tuple `t`, the `j`-th parameter has the `t_j`-th point of its sweep. -/
theorem C17_evaluates_each_point_once {σ : Type} (st st₁ : SW E R) (spec : List SweepSpec)
    (func : σ → Dict String PF → σ × Except Err R) (s : σ)
    (h : st.ndSweep spec = (st₁, .ok ())) (hn : (sweptNames spec).Nodup) (hne : spec ≠ []) :
    ∃ points s' rs o,
      st.computeFuncSweep func spec s = (s', { st₁ with result := some rs }, o) ∧
      Calls func s points s' rs o ∧
      points.length = (sizes spec).prod ∧
      (∀ d ∈ points, d.keys = sweptNames spec) ∧
      ∀ t, InGrid (sizes spec) t → ∃ (k : ℕ) (d : Dict String PF),
        st₁.collapsedIndices (t.map (fun (x : ℕ) => (x : ℤ))) = .ok (k : ℤ) ∧ points[k]? = some d ∧
        ∀ (j : ℕ) (sp : SweepSpec), spec[j]? = some sp → ∃ i x p, t[j]? = some i ∧
          st₁.pc.coll.get? sp.name = some p ∧ p.sweep[i]? = some x ∧ d.get? sp.name = some x := by
  obtain ⟨sw, hs⟩ := SW.ndSweep_ok h hn
  obtain ⟨s', rs, o, h1, h2⟩ := evalLoop_calls func (sweptNames spec)
    (SW.cOf (sweptNames spec) (SW.ncOf (sweptNames spec) sw)) (sizes spec).prod 0 s []
  refine ⟨_, s', rs, o, ?_, h2, by simp, ?_, ?_⟩
  · simp only [SW.computeFuncSweep, h, hs.cLen_eq hne, hs.params_eq, hs.c_eq, h1, List.nil_append]
  · intro d hd
    obtain ⟨i, _, rfl⟩ := List.mem_map.1 hd
    unfold SW.pointParams
    rw [Dict.keys_foldl_set _ _ _ hn (by simp [Dict.keys])]
    simp [Dict.keys]
  · intro t ht
    refine ⟨rowMajor (sizes spec) t, SW.pointParams (sweptNames spec)
      (SW.cOf (sweptNames spec) (SW.ncOf (sweptNames spec) sw)) (rowMajor (sizes spec) t),
      hs.collapsed (by rw [InGrid.length ht]; simp [sizes]), ?_, ?_⟩
    · rw [List.getElem?_map, List.getElem?_range' (rowMajor_lt ht)]; simp
    · intro j sp hj
      obtain ⟨g, a, g1, _, _, g4, g5⟩ := hs.grid hn hj
      obtain ⟨x, p', hp', hx, hx2, _⟩ := g5 t ht
      have hjl : j < spec.length := by
        by_contra hc; rw [List.getElem?_eq_none (by omega)] at hj; cases hj
      have hlt : j < t.length := by rw [InGrid.length ht]; simpa [sizes] using hjl
      refine ⟨t[j], x, p', List.getElem?_eq_getElem hlt, hp', ?_, ?_⟩
      · simpa [List.getD, List.getElem?_eq_getElem hlt] using hx
      · unfold SW.pointParams
        have hmem : sp.name ∈ sweptNames spec := List.mem_map.2 ⟨sp, List.mem_of_getElem? hj, rfl⟩
        rw [Dict.get?_foldl_set_key, if_pos hmem]
        simp [g1, hx2, List.getD]

/-- What `Calls` means for the results: on success there is one result per point; when the function
raises at some point, the results kept are those of exactly the earlier points. -/
theorem C17_results_of_calls {σ A : Type} (func : σ → A → σ × Except Err R) (s s' : σ) (as : List A)
    (rs : List R) (o : Except Err Unit) (h : Calls func s as s' rs o) :
    (o = .ok () → rs.length = as.length) ∧
    (∀ e, o = .error e → rs.length < as.length ∧
      ∃ s₁ a, as[rs.length]? = some a ∧ func s₁ a = (s', .error e)) := by
  induction h with
  | done s => simp
  | raised s s' a as e hf =>
    refine ⟨by simp, ?_⟩
    intro e' he
    cases he
    exact ⟨by simp, s, a, by simp, hf⟩
  | returned s s' s'' a as r rs o hf _ ih =>
    refine ⟨by intro ho; simp [ih.1 ho], ?_⟩
    intro e he
    obtain ⟨h1, s₁, b, h2, h3⟩ := ih.2 e he
    exact ⟨by simpa using h1, s₁, b, by simpa using h2, h3⟩

/-- A user function that counts its calls, returns `10 a + b`, and raises once `a` is 1 and `b` is 0. -/
def countingFunc (n : ℕ) (d : Dict String PF) : ℕ × Except Err PF :=
  match d.get? "a", d.get? "b" with
  | some a, some b =>
    if a = .fin 1 ∧ b = .fin 0 then (n + 1, .error .userError)
    else (n + 1, .ok (PF.add (PF.smul 10 a) b))
  | _, _ => (n + 1, .error .keyError)

/-- C17 on the example: the function raises at the fifth of the six points; it has been called five times
and four results are kept. -/
example : let out := sweepStart.computeFuncSweep countingFunc sweepSpecAB 0
    out.1 = 5 ∧ out.2.1.result = some [.fin (-1), .fin 0, .fin 1, .fin 9] ∧
    out.2.2 = .error .userError := by decide +kernel

/-- A rejected sweep: if `ndSweep` raises, `computeFuncSweep` raises the same exception without calling
the function, and the results of the previous sweep are kept. -/
theorem C17_rejected_sweep_calls_nothing {σ : Type} (st st₁ : SW E R) (spec : List SweepSpec)
    (func : σ → Dict String PF → σ × Except Err R) (s : σ) (e : Err)
    (h : st.ndSweep spec = (st₁, .error e)) :
    st.computeFuncSweep func spec s = (s, st₁, .error e) ∧ st₁.result = st.result := by
  refine ⟨by simp [SW.computeFuncSweep, h], ?_⟩
  unfold SW.ndSweep at h
  rcases hl : SW.ndLoop st.pc 1 spec with ⟨pc, n, o⟩
  rw [hl] at h
  cases o with
  | error e' => simp only [Prod.mk.injEq] at h; rw [← h.1]
  | ok r => simp at h

/-- The hypothesis is met: the second parameter's sweep leaves its bounds. -/
example : (sweepStart.ndSweep [⟨"a", .int 0, .int 1, .int 2⟩, ⟨"b", .int 0, .int 9, .int 3⟩]).2 =
    .error .valueError := by decide +kernel

/-- C17 is false for an empty specification: on a fresh collection it raises, and after an earlier sweep
of six points the function is called six times, with no parameters, instead of once or never. -/
theorem C17_false_empty_specification :
    (sweepStart.computeFuncSweep (fun (n : ℕ) _ => (n + 1, Except.ok (PF.fin n))) [] 0).2.2 =
      .error .attributeError ∧
    ((sweepStart.ndSweep sweepSpecAB).1.computeFuncSweep
      (fun (n : ℕ) d => (n + d.length + 1, Except.ok (PF.fin n))) [] 0).1 = 6 := by decide +kernel

/-- C17 is false for a repeated name: sweeping `a` twice, 2 points and then 3, calls the function six
times, but each call sees a single `a`. -/
theorem C17_false_repeated_name :
    let spec := [⟨"a", .int 0, .int 1, .int 2⟩, ⟨"a", .int 5, .int 7, .int 3⟩]
    ((sweepStart.computeFuncSweep (fun (l : List (Dict String PF)) d => (l ++ [d], Except.ok (PF.fin 0)))
      spec []).1) =
      [[("a", .fin 5)], [("a", .fin 6)], [("a", .fin 7)], [("a", .fin 5)], [("a", .fin 6)], [("a", .fin 7)]] := by
  decide +kernel

end Verif.Props
