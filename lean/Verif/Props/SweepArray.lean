import Verif.Lemmas.SweepArray
import Verif.Props.SweepResult
import Verif.Props.SweepPoints
import Verif.Props.NumericalExamples

/-!
# Property C88: sweeps whose results are arrays

`np.array(res).T` puts the swept parameter on the last axis: row `l` of the result of a sweep of the energy levels is level `l` as a
function of the parameter.
-/

namespace Verif.Props

open Verif Verif.Num Verif.Spec Verif.Num.NS

variable {E O H P X V R Q D α : Type}

/-- **C88** One independent variable.  Sweep two or more parameters with a function whose results all have the shape `s`, and ask for
the results as a function of one of them at given values of the others.  The array returned has the axes of an entry, in reverse
order, and then the swept parameter: at `(v_q, …, v_1, i)` it holds element `(v_1, …, v_q)` of the result of the function with the
independent parameter at its `i`-th value and every other one at its sweep point nearest the requested value. -/
theorem C88_one_variable [Inhabited α] (arr : R → Option (NDArray α)) (s : List ℕ) (st st₁ : SW E R) (spec : List SweepSpec)
    (f : Dict String PF → R) (hf : ∀ d, ∃ b, arr (f d) = some b ∧ b.shape = s) (disk : String → Option (SW.Pickled R))
    (h : st.ndSweep spec = (st₁, .ok ())) (hn : (sweptNames spec).Nodup) (h2 : 2 ≤ spec.length)
    (hpos : (sizes spec).prod ≠ 0) (hfin : FiniteSweeps st₁ spec)
    (m : ℕ) (si : SweepSpec) (hm : spec[m]? = some si) (static : List (String × PF))
    (hst : StaticsFor spec [si.name] static) :
    ∃ st₂ p a vals,
      st.computeFuncSweep (fun (_ : Unit) d => ((), .ok (f d))) spec () = ((), st₂, .ok ()) ∧
      st₁.pc.coll.get? si.name = some p ∧
      st₂.getSweepArray arr disk si.name static = .ok (p.sweep, a, vals) ∧
      a.shape = s.reverse ++ [p.sweep.length] ∧
      ∀ i, i < p.sweep.length → ∃ (d : Dict String PF) (b : NDArray α), arr (f d) = some b ∧ d.keys = sweptNames spec ∧
        d.get? si.name = p.sweep[i]? ∧
        (∀ s ∈ spec, ∀ v : ℚ, (s.name, PF.fin v) ∈ static → ∃ q k x, st₁.pc.coll.get? s.name = some q ∧
          IsNearest q.sweep v k ∧ q.sweep[k]? = some x ∧ d.get? s.name = some x ∧ Dict.get? vals s.name = some x) ∧
        ∀ v, a.get (v.reverse ++ [i]) = b.get v := by
  obtain ⟨st₂, p, rs, vals, c1, c2, c3, c4, c5⟩ := C18_sweep_then_slice st st₁ spec f disk h hn h2 hpos hfin m si hm static hst
  have hmem : ∀ r ∈ rs, ∃ b, arr r = some b ∧ b.shape = s := by
    intro r hr
    obtain ⟨i, hi⟩ := List.mem_iff_getElem?.1 hr
    obtain ⟨d, hd, _⟩ := c5 i (c4 ▸ SW.pos_lt hi)
    rw [hi] at hd
    cases hd
    exact hf d
  have hpl : 0 < p.sweep.length := by
    obtain ⟨sw, hs⟩ := SW.ndSweep_ok h hn
    obtain ⟨p0, p', pts, _, hl, hp', _⟩ := hs.swept m si hm
    obtain ⟨z, hz, _, e, hlen⟩ := SW.linearSweep_ok hl
    rw [c2] at hp'
    cases hp'
    exact sizes_pos hpos (j := m) (by simp [sizes, hm, hz, e, hlen])
  obtain ⟨a, a1, a2, a3⟩ := SW.stackEntries_ok arr rs s (by intro e; rw [e] at c4; simp at c4; omega) hmem
  refine ⟨st₂, p, a.T, vals, c1, c2, ?_, ?_, ?_⟩
  · simp only [SW.getSweepArray, c3, a1]
  · simp [NDArray.T, a2, c4]
  · intro i hi
    obtain ⟨d, hd, e1, e2, e3⟩ := c5 i hi
    obtain ⟨b, hb, _⟩ := hf d
    refine ⟨d, b, hb, e1, e2, e3, ?_⟩
    intro v
    simp only [NDArray.T, List.reverse_append, List.reverse_cons, List.reverse_nil, List.nil_append, List.singleton_append,
      List.reverse_reverse]
    exact a3 i _ b hd hb v

/-- The single-variable and the several-variable forms of `getSweepResult` for entries that are arrays. -/
theorem array_multi [Inhabited α] [Inhabited R] (arr : R → Option (NDArray α)) (s : List ℕ) (st : SW E R) (disk : String → Option (SW.Pickled R))
    (inds : List String) (static : List (String × PF)) (data : SW.DataArg R) (key : Option String) (sws : List (List PF)) (A : NDArray R)
    (vals : List (String × PF)) (h : st.getSweepResultMulti disk inds static data key = .ok (sws, A, vals))
    (hs : ∀ w, InGrid A.shape.reverse w → ∃ b, arr (A.get w.reverse) = some b ∧ b.shape = s) :
    ∃ B, st.getSweepArrayMulti arr disk inds static data key = .ok (sws, B, vals) ∧ B.shape = s.reverse ++ A.shape ∧
      ∀ w b v, InGrid A.shape.reverse w → arr (A.get w.reverse) = some b → InGrid s v → B.get (v.reverse ++ w.reverse) = b.get v := by
  unfold SW.getSweepResultMulti at h
  unfold SW.getSweepArrayMulti
  cases hr : st.resolveData disk data key with
  | error e => rw [hr] at h; cases h
  | ok x =>
  obtain ⟨l, tmp, key'⟩ := x
  rw [hr] at h
  simp only at h ⊢
  cases hsl : st.sliceMulti l inds static with
  | error e => rw [hsl] at h; cases h
  | ok x =>
  obtain ⟨sw, Ns, xs, vals'⟩ := x
  rw [hsl] at h
  simp only at h ⊢
  cases hra : SW.readAll disk tmp key' xs with
  | error e => rw [hra] at h; cases h
  | ok rs =>
  rw [hra] at h
  simp only at h ⊢
  unfold SW.reshapeT at h
  split_ifs at h with h1 h2
  push Not at h2
  simp only [Except.ok.injEq, Prod.mk.injEq] at h
  obtain ⟨rfl, rfl, rfl⟩ := h
  simp only [NDArray.T, List.reverse_reverse] at hs ⊢
  have hNs : Ns ≠ [] := by simpa using h1
  have hget : ∀ w, InGrid Ns w → rs[rowMajor Ns w]? = some (rs.getD (SW.flatIndex (Ns.map (fun (x : ℕ) => (x : ℤ))) (w.map (fun (x : ℕ) => (x : ℤ)))).toNat default) := by
    intro w hw
    have hlt : rowMajor Ns w < rs.length := h2 ▸ rowMajor_lt hw
    rw [flatIndex_eq (List.Forall₂.length_eq hw), Int.toNat_natCast, List.getD_eq_getElem?_getD, List.getElem?_eq_getElem hlt]
    rfl
  have hall : ∀ r ∈ rs, ∃ b, arr r = some b ∧ b.shape = s := by
    intro r hr
    obtain ⟨i, hi⟩ := List.mem_iff_getElem?.1 hr
    have hlt : i < Ns.prod := h2 ▸ SW.pos_lt hi
    obtain ⟨w, hw, e⟩ := rowMajor_surj hlt
    have := hget w hw
    rw [e, hi] at this
    have hx := hs w hw
    rw [← Option.some.inj this] at hx
    exact hx
  have hrne : rs ≠ [] := by
    rintro rfl
    have hx : xs = [] := by
      cases xs with
      | nil => rfl
      | cons x xs =>
        simp only [SW.readAll] at hra
        split at hra
        · cases hra
        · split at hra <;> cases hra
    subst hx
    unfold SW.sliceMulti at hsl
    split_ifs at hsl
    split at hsl
    · cases hsl
    · simp only at hsl
      split at hsl
      · cases hsl
      · split at hsl
        · cases hsl
        · split at hsl
          · cases hsl
          · split at hsl
            · cases hsl
            · split_ifs at hsl with hz
              simp only [Except.ok.injEq, Prod.mk.injEq] at hsl
              rw [hsl.2.2.1] at hz
              exact hz rfl
  obtain ⟨a, a1, a2, a3⟩ := SW.stackEntries_ok arr rs s hrne hall
  obtain ⟨b0, hb0, hbs⟩ := hall _ (List.getLast_mem hrne)
  obtain ⟨B, b1, b2, b3⟩ := NDArray.reshape_ok a rs.length Ns s a2 h2 hNs
  refine ⟨B.T, ?_, ?_, ?_⟩
  · rw [List.getLast?_eq_getLast_of_ne_nil hrne]
    simp only [Option.bind_some, hb0, a1, hbs, b1]
    rfl
  · simp [NDArray.T, b2]
  · intro w b v hw hb hv
    simp only [NDArray.T, List.reverse_append, List.reverse_reverse]
    rw [b3 w v hw hv]
    exact a3 _ _ b (hget w hw) hb v

/-- **C88** Several independent variables: the result has the axes of an entry in reverse order and then the independent variables,
last one first.  At `(v_q, …, v_1, u_m, …, u_1)` it holds element `(v_1, …, v_q)` of the entry stored at the grid point where the
independent variables are at `u_1, …, u_m` and each static parameter is at its nearest sweep point. -/
theorem C88_several_variables [Inhabited α] [Inhabited R] (arr : R → Option (NDArray α)) (s : List ℕ) (st st₁ : SW E R) (spec : List SweepSpec)
    (data : List R) (hf : ∀ r ∈ data, ∃ b, arr r = some b ∧ b.shape = s) (disk : String → Option (SW.Pickled R))
    (h : st.ndSweep spec = (st₁, .ok ())) (hn : (sweptNames spec).Nodup)
    (hdata : data.length = (sizes spec).prod) (hne : data ≠ []) (hfin : FiniteSweeps st₁ spec)
    (inds : List String) (hinds : ∀ k ∈ inds, k ∈ sweptNames spec) (hi0 : inds ≠ [])
    (static : List (String × PF)) (hst : StaticsFor spec inds static) :
    let ivs := spec.filter (fun s => decide (s.name ∈ inds))
    ∃ sws a vals,
      ({ st₁ with result := some data } : SW E R).getSweepArrayMulti arr disk inds static = .ok (sws, a, vals) ∧
      (∀ (m : ℕ) (s : SweepSpec), ivs[m]? = some s → ∃ p, st₁.pc.coll.get? s.name = some p ∧ sws[m]? = some p.sweep) ∧
      a.shape = s.reverse ++ (sws.map List.length).reverse ∧
      ∀ u, InGrid (sws.map List.length) u → ∃ (t : List ℕ) (k : ℕ) (r : R) (b : NDArray α), InGrid (sizes spec) t ∧
        (∀ (j m : ℕ) (s : SweepSpec), spec[j]? = some s → ivs[m]? = some s → t[j]? = u[m]?) ∧
        StaticsAt st₁ spec static vals t ∧
        st₁.collapsedIndices (t.map (fun (x : ℕ) => (x : ℤ))) = .ok (k : ℤ) ∧
        data[k]? = some r ∧ arr r = some b ∧ ∀ v, InGrid s v → a.get (v.reverse ++ u.reverse) = b.get v := by
  intro ivs
  obtain ⟨sws, A, vals, c1, _, c3, c4, c5⟩ :=
    C18_multi_slice_partial st st₁ spec data disk h hn hdata hne hfin inds hinds hi0 static hst
  have hrev : A.shape.reverse = sws.map List.length := by rw [c4, List.reverse_reverse]
  obtain ⟨B, d1, d2, d3⟩ := array_multi arr s ({ st₁ with result := some data } : SW E R) disk inds static .default none sws A vals c1 (by
    intro w hw
    rw [hrev] at hw
    obtain ⟨_, _, r, _, _, _, _, e1, e2⟩ := c5 w hw
    rw [e2]
    exact hf r (List.mem_of_getElem? e1))
  refine ⟨sws, B, vals, d1, c3, by rw [d2, c4], ?_⟩
  intro u hu
  obtain ⟨t, k, r, e1, e2, e3, e4, e5, e6⟩ := c5 u hu
  obtain ⟨b, hb, _⟩ := hf r (List.mem_of_getElem? e5)
  refine ⟨t, k, r, b, e1, e2, e3, e4, e5, hb, ?_⟩
  intro v hv
  exact d3 u b v (by rw [hrev]; exact hu) (by rw [e6]; exact hb) hv

/-- **C88** If two of the selected results have different shapes, for instance different numbers of levels, the request raises. -/
theorem C88_ragged [Inhabited α] (arr : R → Option (NDArray α)) (st : SW E R) (disk : String → Option (SW.Pickled R)) (ind : String)
    (static : List (String × PF)) (data : SW.DataArg R) (key : Option String) (sw : List PF) (rs : List R) (vals : List (String × PF))
    (h : st.getSweepResult disk ind static data key = .ok (sw, rs, vals)) (x y : R) (hx : x ∈ rs) (hy : y ∈ rs)
    (hxy : (arr x).map NDArray.shape ≠ (arr y).map NDArray.shape) :
    st.getSweepArray arr disk ind static data key = .error .valueError := by
  simp only [SW.getSweepArray, h, SW.stackEntries_ragged arr rs x y hx hy hxy]


/-! ### The levels of a numerical system along a sweep -/

theorem visit_of_single (eng : Engine E) (ho : HashOrder) (fuel : ℕ) (ph : Phys O H P X V R) (gv : Bool) (e : Entry) :
    ∀ (pts : List (Dict String PF)) (st st' : NS E Q O) (files : List (SW.Pickled (Res X V R))),
    singleLoop eng ho fuel ph gv e pts st = (st', files, .ok ()) → visit eng ho fuel ph.gen pts st = (st', .ok ()) := by
  intro pts
  induction pts with
  | nil => intro st st' files h; cases h; rfl
  | cons p pts ih =>
    intro st st' files h
    unfold singleLoop at h
    unfold visit
    split at h
    · cases h
    rename_i st1 h1
    split at h
    · cases h
    rename_i r hr
    cases hm : singleLoop eng ho fuel ph gv e pts st1 with
    | mk a b =>
      obtain ⟨fs, o⟩ := b
      rw [hm] at h
      simp only [Prod.mk.injEq] at h
      obtain ⟨rfl, _, rfl⟩ := h
      simp only [h1]
      exact ih _ _ _ hm

/-- Selection along one variable, for any number of swept parameters. -/
theorem slice_any (st st₁ : SW E R) (spec : List SweepSpec) (data : List R) (disk : String → Option (SW.Pickled R))
    (h : st.ndSweep spec = (st₁, .ok ())) (hn : (sweptNames spec).Nodup)
    (hdata : data.length = (sizes spec).prod) (hne : data ≠ []) (hfin : FiniteSweeps st₁ spec)
    (m : ℕ) (si : SweepSpec) (hm : spec[m]? = some si) (static : List (String × PF)) (hst : StaticsFor spec [si.name] static) :
    ∃ p rs vals, st₁.pc.coll.get? si.name = some p ∧
      ({ st₁ with result := some data } : SW E R).getSweepResult disk si.name static = .ok (p.sweep, rs, vals) ∧
      rs.length = p.sweep.length ∧
      ∀ i, i < p.sweep.length → ∃ (t : List ℕ) (k : ℕ) (r : R), InGrid (sizes spec) t ∧ t[m]? = some i ∧
        StaticsAt st₁ spec static vals t ∧
        st₁.collapsedIndices (t.map (fun (x : ℕ) => (x : ℤ))) = .ok (k : ℤ) ∧ data[k]? = some r ∧ rs[i]? = some r := by
  by_cases h2 : 2 ≤ spec.length
  · exact C18_single_slice_partial st st₁ spec data disk h hn h2 hdata hne hfin m si hm static hst
  · have hl : m < spec.length := SW.pos_lt hm
    have h1 : spec = [si] := by
      match spec, hm, hl, h2 with
      | [s], hm, hl, _ =>
        have : m = 0 := by simpa using hl
        subst this
        simpa using hm
      | _ :: _ :: _, _, _, h2 => simp at h2
    have hm0 : m = 0 := by rw [h1] at hl; simpa using hl
    subst h1 hm0
    have hs0 : static = [] := by
      cases static with
      | nil => rfl
      | cons x l =>
        have := (hst.cover x.1).1 (by simp)
        simp [sweptNames] at this
    subst hs0
    obtain ⟨p, hp, hr⟩ := C18_one_parameter_partial st st₁ si data disk h hne
    obtain ⟨sw, hs⟩ := SW.ndSweep_ok h hn
    obtain ⟨p0, p', pts, _, hl', hp', _⟩ := hs.swept 0 si rfl
    obtain ⟨z, hz, _, e, hlen⟩ := SW.linearSweep_ok hl'
    rw [hp] at hp'
    cases hp'
    have hsz : sizes [si] = [p.sweep.length] := by simp [sizes, hz, e, hlen]
    have hdl : data.length = p.sweep.length := by rw [hdata, hsz]; simp
    refine ⟨p, data, [], hp, hr, hdl, ?_⟩
    intro i hi
    refine ⟨[i], i, data[i]'(hdl ▸ hi), ?_, rfl, ?_, ?_, List.getElem?_eq_getElem _, List.getElem?_eq_getElem _⟩
    · rw [hsz]; exact List.Forall₂.cons hi List.Forall₂.nil
    · intro j s v _ hv; simp at hv
    · have := hs.collapsed (t := [i]) rfl
      rw [this, hsz]
      simp [rowMajor]

theorem ham_result (ph : Phys O H P X V R) (gv : Bool) (st : NS E Q O) (v : Res X V R) (h : evalEntry ph gv st hamEntry none = .ok v) :
    ∃ hm es vs, ph.ham st.num.get? st.circ.get? st.vec = .ok hm ∧ ph.solve hm = .ok (es, vs) ∧
      v = if gv then .eig es vs else .vals es := by
  simp only [evalEntry, hamEntry, callMethod] at h
  cases hh : ph.ham st.num.get? st.circ.get? st.vec with
  | error err => rw [hh] at h; cases h
  | ok hm =>
    rw [hh] at h
    simp only [if_true, diagonalize] at h
    cases hs : ph.solve hm with
    | error err => rw [hs] at h; cases h
    | ok ev =>
      obtain ⟨es, vs⟩ := ev
      rw [hs] at h
      refine ⟨hm, es, vs, rfl, hs, ?_⟩
      cases gv <;> simp at h ⊢ <;> exact h.symm

/-- `sweep[:, j]` of an array with axes level, kind, point. -/
theorem column_ok (a : NDArray α) (j n m : ℕ) (ns : List ℕ) (ha : a.shape = n :: m :: ns) (hj : j < m) :
    ∃ c, a.column j = .ok c ∧ c.shape = n :: ns ∧ ∀ i t, c.get (i :: t) = a.get (i :: j :: t) := by
  unfold NDArray.column
  rw [ha]
  simp only [if_pos hj]
  exact ⟨_, rfl, rfl, fun i t => rfl⟩

theorem numbers_ok [Inhabited X] (a : NDArray (Cell X V R)) (f : List ℕ → X) (h : ∀ t, InGrid a.shape t → a.get t = .num (f t)) :
    ∃ b, asNumbers a = .ok b ∧ b.shape = a.shape ∧ ∀ t, InGrid a.shape t → b.get t = f t := by
  unfold asNumbers
  rw [if_pos]
  · refine ⟨_, rfl, rfl, ?_⟩
    intro t ht
    simp only [h t ht]
  · rw [List.all_eq_true]
    intro c hc
    unfold NDArray.flatten at hc
    obtain ⟨t, ht, rfl⟩ := List.mem_map.1 hc
    rw [h t (mem_indexTuples.1 ht)]

/-- What the system computes at a point of the sweep: its levels and vectors when it is set to that point directly. -/
def LevelsAt (eng : Engine E) (law : eng.Lawful D) (ph : Phys O H P X V R) (st : NS E Q O) (d : Dict String PF) (es : List X) (vs : List V) : Prop :=
  ∀ (stF : NS E Q O) (ho : HashOrder) (fuel : ℕ), NS.setParameterValues eng ho fuel ph.gen st (pointArg d) = (stF, .ok ()) →
    Defined eng law st stF.sw.pc → ∃ hm, ph.ham stF.num.get? stF.circ.get? stF.vec = .ok hm ∧ ph.solve hm = .ok (es, vs)

/-- What the system computes at a point of the sweep from the operator vectors that it holds: levels and vectors of the Hamiltonian with the numbers
and the operators of the nodes that the system has when it is set to that point directly. -/
def StoredLevelsAt (eng : Engine E) (law : eng.Lawful D) (ph : Phys O H P X V R) (st : NS E Q O) (d : Dict String PF) (es : List X) (vs : List V) : Prop :=
  ∀ (stF : NS E Q O) (ho : HashOrder) (fuel : ℕ), NS.setParameterValues eng ho fuel ph.gen st (pointArg d) = (stF, .ok ()) →
    Defined eng law st stF.sw.pc → ∃ hm, ph.ham stF.num.get? stF.circ.get? st.vec = .ok hm ∧ ph.solve hm = .ok (es, vs)

/-- A point of a sweep names each parameter once. -/
theorem grid_nodup {sw st : SW E Q} {spec : List SweepSpec} (h : st.ndSweep spec = (sw, .ok ())) {pts : List (Dict String PF)}
    (hpts : gridPoints sw = .ok pts) : ∀ q ∈ pts, q.keys.Nodup := by
  unfold SW.ndSweep at h
  split at h
  · cases h
  rename_i pc n keys sweeps hnd
  simp only [Prod.mk.injEq, and_true] at h
  subst h
  unfold gridPoints at hpts
  simp only [Except.ok.injEq] at hpts
  subst hpts
  intro q hq
  simp only [List.mem_map, List.mem_range] at hq
  obtain ⟨i, _, rfl⟩ := hq
  have hk : Dict.keys ((SW.cOf keys (SW.ncOf keys sweeps)).map fun kv => (kv.1, kv.2.getD i PF.nan)) = (SW.cOf keys (SW.ncOf keys sweeps)).keys := by
    unfold Dict.keys; simp
  rw [hk]
  unfold SW.cOf
  generalize SW.ncOf keys sweeps = nc
  have key : ∀ (l : List String) (d : Dict String (List PF)), d.keys.Nodup →
      (l.foldl (fun d k => match nc.get? k with | none => d | some a => d.set k a.flatten) d).keys.Nodup := by
    intro l
    induction l with
    | nil => intro d hd; exact hd
    | cons x l ih =>
      intro d hd
      rw [List.foldl_cons]
      apply ih
      split
      · exact hd
      · exact Dict.nodup_keys_set hd _ _
  exact key keys [] (by simp [Dict.keys])

/-- Which point of the sweep: the independent parameter at its `i`-th value, the others at the sweep points nearest the requested
values, which are those reported in `vals`. -/
structure PointAt (sw : SW E Q) (spec : List SweepSpec) (ind : String) (static vals : List (String × PF)) (sweep : List PF) (i : ℕ)
    (d : Dict String PF) : Prop where
  nodup : d.keys.Nodup
  keys : ∀ n, n ∈ d.keys ↔ n ∈ sweptNames spec
  ind : d.get? ind = sweep[i]?
  static : ∀ s ∈ spec, ∀ v : ℚ, (s.name, PF.fin v) ∈ static → ∃ q j x, sw.pc.coll.get? s.name = some q ∧ IsNearest q.sweep v j ∧
    q.sweep[j]? = some x ∧ d.get? s.name = some x ∧ Dict.get? vals s.name = some x

/-- The levels of a sweep, and what is known of them when the impedances are kept. -/
theorem levels_core (K : Prop) (eng : Engine E) (law : eng.Lawful D) (ho : HashOrder) (fuel : ℕ) (ph : Phys O H P X V R) (gv : Bool) (ks : List String)
    (st st₁ st' : NS E (Res X V R) O) (sw : SW E (Res X V R)) (pts : List (Dict String PF)) (files : List (SW.Pickled (Res X V R)))
    (hsw : st.sw.ndSweep st.specs = (sw, .ok ())) (hready : Ready eng law ph.gen ks { st with sw := sw })
    (hpre : ({ st with sw := sw, evals := evaluations st } : NS E (Res X V R) O).presub eng ho = (st₁, .ok ()))
    (hpts : gridPoints sw = .ok pts) (hev : evaluations st = [hamEntry])
    (himp : K → ∀ node c imp n s, st.cfg.get? node = some c → c.basis = .oscillator → c.impedance = some imp →
      sw.pc.getSymbol n = .ok s → s ∈ eng.free imp → ¬ Affected sw.pc ks n)
    (hrun : paramSweep eng ho fuel ph gv st = (st', files, .ok ()))
    (k : ℕ) (hk : ∀ hm es vs, ph.solve hm = .ok (es, vs) → es.length = k ∧ vs.length = k)
    (hn : (sweptNames st.specs).Nodup) (hpos : (sizes st.specs).prod ≠ 0) (hfin : FiniteSweeps sw st.specs)
    (names : ℕ → String) (disk : String → Option (SW.Pickled (Res X V R))) (hdisk : ∀ i, i < files.length → disk (names i) = files[i]?)
    (m : ℕ) (si : SweepSpec) (hm : st.specs[m]? = some si) (static : List (String × PF)) (hst : StaticsFor st.specs [si.name] static) :
    ∃ p a vals, sw.pc.coll.get? si.name = some p ∧
      getSweepLevels st'.sw files names disk si.name static "Hamiltonian" = .ok (p.sweep, a, vals) ∧
      a.shape = (if gv then [k, 2, p.sweep.length] else [k, p.sweep.length]) ∧
      ∀ i, i < p.sweep.length → ∃ d es vs, PointAt sw st.specs si.name static vals p.sweep i d ∧
        (StoredLevelsAt eng law ph { st with sw := sw } d es vs ∧ (K → LevelsAt eng law ph { st with sw := sw } d es vs)) ∧ es.length = k ∧ vs.length = k ∧
        ∀ l, if gv then a.get [l, 0, i] = ((es[l]?).map Cell.num).getD .none ∧ a.get [l, 1, i] = ((vs[l]?).map Cell.vec).getD .none
          else a.get [l, i] = ((es[l]?).map Cell.num).getD .none := by
  -- the files
  have hrun0 := hrun
  rw [paramSweep_eq eng ho fuel ph gv st st₁ sw pts hsw hpre hpts, hev] at hrun
  cases hx : evaluate eng ho fuel ph gv [hamEntry] pts st₁ with
  | mk st2 q =>
  obtain ⟨files', r⟩ := q
  rw [hx] at hrun
  cases r with
  | error e => simp at hrun
  | ok u =>
  simp only [Prod.mk.injEq, and_true] at hrun
  obtain ⟨hst', rfl⟩ := hrun
  unfold evaluate at hx
  obtain ⟨h1, h2⟩ := singleLoop_files eng ho fuel ph gv hamEntry pts st₁ st2 files' hx
  have hvis := visit_of_single eng ho fuel ph gv hamEntry pts st₁ st2 files' hx
  have hsw1 : st₁.sw = sw := by
    unfold NS.presub at hpre
    split at hpre
    · cases hpre
    · dsimp only at hpre
      split at hpre
      · cases hpre
      · simp only [Prod.mk.injEq, and_true] at hpre
        rw [← hpre]
  have hkeys := grid_keys hsw hpts hready.params
  obtain ⟨hframe, hsw2, -⟩ := visit_frame law (ks := ks) pts st₁ st2 (by rw [hsw1]; exact hready.clean) (fun q hq n hn => (hkeys q hq n).1 hn) hvis
  rw [hsw1] at hframe hsw2
  have hsw' : st'.sw = { sw with pc := st2.sw.pc } := by rw [← hst']; exact hsw2
  -- contents
  let content : SW.Pickled (Res X V R) → Res X V R := fun f => match f with
    | .plain v => v
    | .keyed _ => .empty
  set data := files'.map content with hdata
  have hval : ∀ (i : ℕ) (p : Dict String PF), pts[i]? = some p → ∃ (es : List X) (vs : List V), files'[i]? = some (SW.Pickled.plain (if gv then Res.eig es vs else Res.vals es)) ∧
      data[i]? = some (if gv then Res.eig es vs else Res.vals es) ∧ es.length = k ∧ vs.length = k ∧
      (StoredLevelsAt eng law ph { st with sw := sw } p es vs ∧ (K → LevelsAt eng law ph { st with sw := sw } p es vs)) := by
    intro i p hp
    obtain ⟨sti, v, hv, g2, g3⟩ := h2 i p hp
    obtain ⟨hmm, es, vs, e1, e2, e3⟩ := ham_result ph gv sti v g2
    have hpk : pickleOne v = .plain v := by rw [e3]; cases gv <;> rfl
    obtain ⟨l1, l2⟩ := hk hmm es vs e2
    refine ⟨es, vs, by rw [g3, hpk, e3], by rw [hdata, List.getElem?_map, g3, hpk, e3]; rfl, l1, l2, ?_⟩
    have hkk : ∀ q ∈ pts.take i ++ [p], ∀ n, n ∈ q.keys ↔ n ∈ ks := by
      intro q hq
      rcases List.mem_append.1 hq with hq | hq
      · exact hkeys q (List.mem_of_mem_take hq)
      · rw [List.mem_singleton] at hq
        subst hq
        exact hkeys q (List.mem_of_getElem? hp)
    have hready' : Ready eng law ph.gen ks ({ st with sw := sw, evals := evaluations st } : NS E (Res X V R) O) := by
      obtain ⟨a, b, c, d, e, f⟩ := hready
      refine ⟨a, b, c, d, ?_, f⟩
      have hh : NS.prepareOperators ph.gen ({ st with sw := sw, evals := evaluations st } : NS E (Res X V R) O) =
          ({ (NS.prepareOperators ph.gen ({ st with sw := sw } : NS E (Res X V R) O)).1 with evals := evaluations st },
            (NS.prepareOperators ph.gen ({ st with sw := sw } : NS E (Res X V R) O)).2) := prepare_evals ph.gen { st with sw := sw } (evaluations st)
      rw [hh, e]
    have hsub : visit eng ho fuel ph.gen (pts.take i ++ [p]) st₁ = (sti, .ok ()) := hv
    have hvec : sti.vec = st.vec := by
      obtain ⟨-, -, -, -, -, -, -, hv', -⟩ := visit_frame law (ks := ks) _ st₁ sti (by rw [hsw1]; exact hready.clean) (fun q hq n hn => (hkk q hq n).1 hn) hsub
      rw [hv']
      unfold NS.presub at hpre
      split at hpre
      · cases hpre
      · dsimp only at hpre
        split at hpre
        · cases hpre
        · simp only [Prod.mk.injEq, and_true] at hpre
          rw [← hpre]
    have key : ∀ (stF : NS E (Res X V R) O) (ho' : HashOrder) (fuel' : ℕ), NS.setParameterValues eng ho' fuel' ph.gen { st with sw := sw } (pointArg p) = (stF, .ok ()) →
        Defined eng law { st with sw := sw } stF.sw.pc → stF.num.get? = sti.num.get? ∧ stF.circ.get? = sti.circ.get? ∧ (K → stF.vec = sti.vec) := by
      intro stF ho' fuel' hF hdef
      have hF' : NS.setParameterValues eng ho' fuel' ph.gen ({ st with sw := sw, evals := evaluations st } : NS E (Res X V R) O) (pointArg p) =
          ({ stF with evals := evaluations st }, .ok ()) := by
        rw [set_evals eng ho' fuel' ph.gen { st with sw := sw } (evaluations st), hF]
      obtain ⟨-, c2, c3, c4⟩ := C40_point_partial eng law ph.gen ks _ st₁ sti _ ho ho' fuel fuel' hready' hpre (pts.take i) p hkk hv hF'
        ⟨hdef.1, hdef.2⟩
      exact ⟨funext fun a => (c2 a).symm, funext fun a => (c3 a).symm, fun hK => (c4 (himp hK)).symm⟩
    refine ⟨?_, ?_⟩
    · intro stF ho' fuel' hF hdef
      obtain ⟨q1, q2, -⟩ := key stF ho' fuel' hF hdef
      refine ⟨hmm, ?_, e2⟩
      rw [← e1, q1, q2, hvec]
    · intro hK stF ho' fuel' hF hdef
      obtain ⟨q1, q2, q3⟩ := key stF ho' fuel' hF hdef
      refine ⟨hmm, ?_, e2⟩
      rw [← e1, q1, q2, q3 hK]
  -- the points
  obtain ⟨pts', hpts', hlen, hpk, hpt⟩ := C40_points st.sw sw st.specs hsw hn
  rw [hpts] at hpts'
  cases hpts'
  have hdl : data.length = (sizes st.specs).prod := by rw [hdata, List.length_map, h1, hlen]
  have hdne : data ≠ [] := by intro e; rw [e] at hdl; exact hpos hdl.symm
  obtain ⟨p, rs, vals, s1, s2, s3, s4⟩ := slice_any st.sw sw st.specs data disk hsw hn hdl hdne hfin m si hm static hst
  have hpl : 0 < p.sweep.length := by
    obtain ⟨sw0, hs⟩ := SW.ndSweep_ok hsw hn
    obtain ⟨p0, p', pts, _, hl, hp', _⟩ := hs.swept m si hm
    obtain ⟨z, hz, _, e, hlen⟩ := SW.linearSweep_ok hl
    rw [s1] at hp'
    cases hp'
    exact sizes_pos hpos (j := m) (by simp [sizes, hm, hz, e, hlen])
  -- reading the files
  have hres : st'.sw.getSweepResult disk si.name static (.list ((List.range files'.length).map fun i => .file (names i)))
      (some Method.getHamiltonian.name) = .ok (p.sweep, rs, vals) := by
    have hsame : SW.SameSweeps st'.sw ({ sw with result := some data } : SW E (Res X V R)) := by
      refine ⟨by rw [hsw'], by rw [hsw'], ?_⟩
      intro n
      rw [hsw']
      cases hc : sw.pc.coll.get? n with
      | none =>
        have : st2.sw.pc.coll.get? n = none := by
          rw [Dict.get?_eq_none_iff, hframe.keys, ← Dict.get?_eq_none_iff]; exact hc
        simp [this]
      | some q =>
        obtain ⟨q', hq', hqq, _⟩ := hframe.param n q hc
        simp only [hq', Option.map_some]
        rcases hqq with rfl | ⟨f, rfl⟩ <;> rfl
    rw [← s2, ← hsame.getSweepResult disk si.name static data hdne (some Method.getHamiltonian.name) rfl]
    set fn := (List.range files'.length).map names with hfn
    have hfn' : (List.range files'.length).map (fun i => SW.Datum.file (R := Res X V R) (names i)) = fn.map SW.Datum.file := by
      rw [hfn, List.map_map]; rfl
    have hc' : data.map SW.Datum.val = fn.map fun n => SW.Datum.val (match disk n with | none => .empty | some f => content f) := by
      rw [hdata, hfn, List.map_map, List.map_map]
      apply List.ext_getElem
      · simp
      · intro i a b
        simp only [List.length_map, List.length_range] at a b
        simp only [List.getElem_map, List.getElem_range, Function.comp_apply, hdisk i b, List.getElem?_eq_getElem b]
    rw [hfn', hc']
    have hfne : fn ≠ [] := by
      intro h
      rw [hfn, List.map_eq_nil_iff, List.range_eq_nil, h1, hlen] at h
      exact hpos h
    obtain ⟨f0, fs, hf0⟩ := List.exists_cons_of_ne_nil hfne
    rw [hf0]
    refine C18_temporary_files st'.sw disk _ f0 fs si.name static _ (Or.inl ?_)
    intro n hn
    rw [← hf0, hfn, List.mem_map] at hn
    obtain ⟨i, hi, rfl⟩ := hn
    rw [List.mem_range] at hi
    have hd := hdisk i hi
    have hip : i < pts.length := h1 ▸ hi
    obtain ⟨es, vs, w1, -⟩ := hval i _ (List.getElem?_eq_getElem hip)
    rw [hd, w1]
  -- stacking
  have hentry : ∀ i, i < p.sweep.length → ∃ d es vs, PointAt sw st.specs si.name static vals p.sweep i d ∧
      (StoredLevelsAt eng law ph { st with sw := sw } d es vs ∧ (K → LevelsAt eng law ph { st with sw := sw } d es vs)) ∧ es.length = k ∧ vs.length = k ∧
      rs[i]? = some (if gv then Res.eig es vs else Res.vals es) := by
    intro i hi
    obtain ⟨t, n, r, t1, t2, t3, t4, t5, t6⟩ := s4 i hi
    obtain ⟨n', d, u1, u2, u3⟩ := hpt t t1
    rw [t4] at u1
    have hnn : n = n' := by simpa using u1
    subst hnn
    obtain ⟨es, vs, -, w2, w3, w4, w5⟩ := hval n d u2
    rw [w2] at t5
    cases t5
    refine ⟨d, es, vs, ⟨grid_nodup hsw hpts d (List.mem_of_getElem? u2), hpk d (List.mem_of_getElem? u2), ?_, ?_⟩, w5, w3, w4, t6⟩
    · obtain ⟨i', x, q, e1, e2, e3, e4⟩ := u3 m si hm
      rw [t2] at e1; cases e1
      rw [s1] at e2; cases e2
      rw [e4, e3]
    · intro s hs v hv
      obtain ⟨j, hj⟩ := List.mem_iff_getElem?.1 hs
      obtain ⟨k1, q, x, e1, e2, e3, e4, e5⟩ := t3 j s v hj hv
      obtain ⟨i', x', q', g1, g2, g3, g4⟩ := u3 j s hj
      rw [e1] at g1; cases g1
      rw [e2] at g2; cases g2
      rw [e4] at g3; cases g3
      exact ⟨q, k1, x, e2, e3, e4, g4, e5⟩
  set shp : List ℕ := if gv then [2, k] else [k] with hshp
  have hshape : ∀ (es : List X) (vs : List V), es.length = k → vs.length = k →
      ∃ b, resArray (if gv then Res.eig es vs else Res.vals es : Res X V R) = some b ∧ b.shape = shp ∧
        ∀ l, if gv then b.get [0, l] = ((es[l]?).map Cell.num).getD .none ∧ b.get [1, l] = ((vs[l]?).map Cell.vec).getD .none
          else b.get [l] = ((es[l]?).map Cell.num).getD .none := by
    intro es vs l1 l2
    cases gv
    · exact ⟨_, rfl, by simp [hshp, l1], fun l => rfl⟩
    · simp only [if_true, resArray]
      rw [if_pos (by rw [l1, l2])]
      exact ⟨_, rfl, by simp [hshp, l1], fun l => ⟨rfl, rfl⟩⟩
  obtain ⟨a, a1, a2, a3⟩ := SW.stackEntries_ok resArray rs shp (by intro e; rw [e] at s3; simp at s3; omega) (by
    intro r hr
    obtain ⟨i, hi⟩ := List.mem_iff_getElem?.1 hr
    obtain ⟨d, es, vs, -, -, l1, l2, e⟩ := hentry i (s3 ▸ SW.pos_lt hi)
    rw [hi] at e
    cases e
    obtain ⟨b, hb, hbs, -⟩ := hshape es vs l1 l2
    exact ⟨b, hb, hbs⟩)
  refine ⟨p, a.T, vals, s1, ?_, ?_, ?_⟩
  · have : evalSpec.get? "Hamiltonian" = some hamEntry := rfl
    simp only [getSweepLevels, this, SW.getSweepArray]
    rw [show hamEntry.eval = Method.getHamiltonian from rfl, hres]
    simp only [a1]
  · simp only [NDArray.T, a2, s3, hshp]
    cases gv <;> simp
  · intro i hi
    obtain ⟨d, es, vs, q1, q2, l1, l2, e⟩ := hentry i hi
    obtain ⟨b, hb, -, hbl⟩ := hshape es vs l1 l2
    refine ⟨d, es, vs, q1, q2, l1, l2, ?_⟩
    intro l
    have hg : ∀ t, a.T.get (t.reverse ++ [i]) = b.get t := by
      intro t
      simp only [NDArray.T, List.reverse_append, List.reverse_cons, List.reverse_nil, List.nil_append, List.singleton_append,
        List.reverse_reverse]
      exact a3 i _ b e hb t
    have hb' := hbl l
    have g1 := hg [0, l]
    have g2 := hg [1, l]
    have g3 := hg [l]
    simp only [List.reverse_cons, List.reverse_nil, List.nil_append, List.cons_append] at g1 g2 g3
    split_ifs at hb' ⊢
    · rw [g1, g2]; exact hb'
    · rw [g3]; exact hb'

/-- **C88** From the circuit to the plot.  Sweep any parameters of a numerical system that is ready, evaluating the energy levels, and
ask for the levels as a function of one parameter.  The call returns the values of the parameter and an array `a` in which `a[l, i]`
(or `a[l, 0, i]` and `a[l, 1, i]` when eigenvectors are kept) is the `l`-th level (and its vector) of the system set directly to
the `i`-th value of the parameter and to the nearest sweep points of the others. -/
theorem C88_levels (eng : Engine E) (law : eng.Lawful D) (ho : HashOrder) (fuel : ℕ) (ph : Phys O H P X V R) (gv : Bool) (ks : List String)
    (st st₁ st' : NS E (Res X V R) O) (sw : SW E (Res X V R)) (pts : List (Dict String PF)) (files : List (SW.Pickled (Res X V R)))
    (hsw : st.sw.ndSweep st.specs = (sw, .ok ())) (hready : Ready eng law ph.gen ks { st with sw := sw })
    (hpre : ({ st with sw := sw, evals := evaluations st } : NS E (Res X V R) O).presub eng ho = (st₁, .ok ()))
    (hpts : gridPoints sw = .ok pts) (hev : evaluations st = [hamEntry])
    (himp : ∀ node c imp n s, st.cfg.get? node = some c → c.basis = .oscillator → c.impedance = some imp →
      sw.pc.getSymbol n = .ok s → s ∈ eng.free imp → ¬ Affected sw.pc ks n)
    (hrun : paramSweep eng ho fuel ph gv st = (st', files, .ok ()))
    (k : ℕ) (hk : ∀ hm es vs, ph.solve hm = .ok (es, vs) → es.length = k ∧ vs.length = k)
    (hn : (sweptNames st.specs).Nodup) (hpos : (sizes st.specs).prod ≠ 0) (hfin : FiniteSweeps sw st.specs)
    (names : ℕ → String) (disk : String → Option (SW.Pickled (Res X V R))) (hdisk : ∀ i, i < files.length → disk (names i) = files[i]?)
    (m : ℕ) (si : SweepSpec) (hm : st.specs[m]? = some si) (static : List (String × PF)) (hst : StaticsFor st.specs [si.name] static) :
    ∃ p a vals, sw.pc.coll.get? si.name = some p ∧
      getSweepLevels st'.sw files names disk si.name static "Hamiltonian" = .ok (p.sweep, a, vals) ∧
      a.shape = (if gv then [k, 2, p.sweep.length] else [k, p.sweep.length]) ∧
      ∀ i, i < p.sweep.length → ∃ d es vs, PointAt sw st.specs si.name static vals p.sweep i d ∧
        LevelsAt eng law ph { st with sw := sw } d es vs ∧ es.length = k ∧ vs.length = k ∧
        ∀ l, if gv then a.get [l, 0, i] = ((es[l]?).map Cell.num).getD .none ∧ a.get [l, 1, i] = ((vs[l]?).map Cell.vec).getD .none
          else a.get [l, i] = ((es[l]?).map Cell.num).getD .none := by
  obtain ⟨p, a, vals, a1, a2, a3, a4⟩ := levels_core True eng law ho fuel ph gv ks st st₁ st' sw pts files hsw hready hpre hpts hev (fun _ => himp) hrun k hk hn hpos hfin
    names disk hdisk m si hm static hst
  refine ⟨p, a, vals, a1, a2, a3, fun i hi => ?_⟩
  obtain ⟨d, es, vs, d1, d2, d3⟩ := a4 i hi
  exact ⟨d, es, vs, d1, d2.2 trivial, d3⟩

/-- **C88** What a sweep computes when it changes the impedances of oscillators.  As `C88_levels`, for any sweep: the levels are those of the
Hamiltonian of the numbers and of the displacement operators of the point, but of the charge and flux operators that the system had before the sweep. -/
theorem C88_levels_stored (eng : Engine E) (law : eng.Lawful D) (ho : HashOrder) (fuel : ℕ) (ph : Phys O H P X V R) (gv : Bool) (ks : List String)
    (st st₁ st' : NS E (Res X V R) O) (sw : SW E (Res X V R)) (pts : List (Dict String PF)) (files : List (SW.Pickled (Res X V R)))
    (hsw : st.sw.ndSweep st.specs = (sw, .ok ())) (hready : Ready eng law ph.gen ks { st with sw := sw })
    (hpre : ({ st with sw := sw, evals := evaluations st } : NS E (Res X V R) O).presub eng ho = (st₁, .ok ()))
    (hpts : gridPoints sw = .ok pts) (hev : evaluations st = [hamEntry])
    (hrun : paramSweep eng ho fuel ph gv st = (st', files, .ok ()))
    (k : ℕ) (hk : ∀ hm es vs, ph.solve hm = .ok (es, vs) → es.length = k ∧ vs.length = k)
    (hn : (sweptNames st.specs).Nodup) (hpos : (sizes st.specs).prod ≠ 0) (hfin : FiniteSweeps sw st.specs)
    (names : ℕ → String) (disk : String → Option (SW.Pickled (Res X V R))) (hdisk : ∀ i, i < files.length → disk (names i) = files[i]?)
    (m : ℕ) (si : SweepSpec) (hm : st.specs[m]? = some si) (static : List (String × PF)) (hst : StaticsFor st.specs [si.name] static) :
    ∃ p a vals, sw.pc.coll.get? si.name = some p ∧
      getSweepLevels st'.sw files names disk si.name static "Hamiltonian" = .ok (p.sweep, a, vals) ∧
      a.shape = (if gv then [k, 2, p.sweep.length] else [k, p.sweep.length]) ∧
      ∀ i, i < p.sweep.length → ∃ d es vs, PointAt sw st.specs si.name static vals p.sweep i d ∧
        StoredLevelsAt eng law ph { st with sw := sw } d es vs ∧ es.length = k ∧ vs.length = k ∧
        ∀ l, if gv then a.get [l, 0, i] = ((es[l]?).map Cell.num).getD .none ∧ a.get [l, 1, i] = ((vs[l]?).map Cell.vec).getD .none
          else a.get [l, i] = ((es[l]?).map Cell.num).getD .none := by
  obtain ⟨p, a, vals, a1, a2, a3, a4⟩ := levels_core False eng law ho fuel ph gv ks st st₁ st' sw pts files hsw hready hpre hpts hev (fun h => h.elim) hrun k hk hn hpos hfin
    names disk hdisk m si hm static hst
  refine ⟨p, a, vals, a1, a2, a3, fun i hi => ?_⟩
  obtain ⟨d, es, vs, d1, d2, d3⟩ := a4 i hi
  exact ⟨d, es, vs, d1, d2.1, d3⟩

/-- **C88** `getEigenValuesAndVectors` splits the array of a sweep with eigenvectors: the levels as numbers and the vectors, each with
the level on the first axis and the sweep on the others. -/
theorem C88_split [Inhabited X] (a : NDArray (Cell X V R)) (k : ℕ) (ns : List ℕ) (es : ℕ → List ℕ → X)
    (hshape : a.shape = k :: 2 :: ns)
    (he : ∀ l t, l < k → InGrid ns t → a.get (l :: 0 :: t) = .num (es l t)) :
    ∃ b c, getEigenValuesAndVectors a = .ok (b, c) ∧ b.shape = k :: ns ∧ c.shape = k :: ns ∧
      ∀ l t, l < k → InGrid ns t → b.get (l :: t) = es l t ∧ c.get (l :: t) = a.get (l :: 1 :: t) := by
  obtain ⟨c0, h1, h2, h3⟩ := column_ok a 0 k 2 ns hshape (by decide)
  obtain ⟨c1, k1, k2, k3⟩ := column_ok a 1 k 2 ns hshape (by decide)
  obtain ⟨b, b1, b2, b3⟩ := numbers_ok c0 (fun t => es (t.headD 0) t.tail) (by
    intro t ht
    rw [h2] at ht
    cases ht with
    | cons hi hr =>
      rw [h3]
      exact he _ _ hi hr)
  refine ⟨b, c1, by simp only [getEigenValuesAndVectors, h1, b1, k1], by rw [b2, h2], k2, ?_⟩
  intro l t hl ht
  refine ⟨?_, by rw [k3]⟩
  rw [b3 (l :: t) (by rw [h2]; exact List.Forall₂.cons hl ht)]
  rfl

/-- **C88** With eigenvectors kept, `getEigenValuesAndVectors` applied to what `getSweep` returns gives the levels `b[l, i]` and the
vectors `c[l, i]` of the system set directly to the `i`-th value of the parameter. -/
theorem C88_levels_and_vectors [Inhabited X] (eng : Engine E) (law : eng.Lawful D) (ho : HashOrder) (fuel : ℕ) (ph : Phys O H P X V R) (ks : List String)
    (st st₁ st' : NS E (Res X V R) O) (sw : SW E (Res X V R)) (pts : List (Dict String PF)) (files : List (SW.Pickled (Res X V R)))
    (hsw : st.sw.ndSweep st.specs = (sw, .ok ())) (hready : Ready eng law ph.gen ks { st with sw := sw })
    (hpre : ({ st with sw := sw, evals := evaluations st } : NS E (Res X V R) O).presub eng ho = (st₁, .ok ()))
    (hpts : gridPoints sw = .ok pts) (hev : evaluations st = [hamEntry])
    (himp : ∀ node c imp n s, st.cfg.get? node = some c → c.basis = .oscillator → c.impedance = some imp →
      sw.pc.getSymbol n = .ok s → s ∈ eng.free imp → ¬ Affected sw.pc ks n)
    (hrun : paramSweep eng ho fuel ph true st = (st', files, .ok ()))
    (k : ℕ) (hk : ∀ hm es vs, ph.solve hm = .ok (es, vs) → es.length = k ∧ vs.length = k)
    (hn : (sweptNames st.specs).Nodup) (hpos : (sizes st.specs).prod ≠ 0) (hfin : FiniteSweeps sw st.specs)
    (names : ℕ → String) (disk : String → Option (SW.Pickled (Res X V R))) (hdisk : ∀ i, i < files.length → disk (names i) = files[i]?)
    (m : ℕ) (si : SweepSpec) (hm : st.specs[m]? = some si) (static : List (String × PF)) (hst : StaticsFor st.specs [si.name] static) :
    ∃ p a vals b c, sw.pc.coll.get? si.name = some p ∧
      getSweepLevels st'.sw files names disk si.name static "Hamiltonian" = .ok (p.sweep, a, vals) ∧
      getEigenValuesAndVectors a = .ok (b, c) ∧ b.shape = [k, p.sweep.length] ∧ c.shape = [k, p.sweep.length] ∧
      ∀ i, i < p.sweep.length → ∃ d es vs, PointAt sw st.specs si.name static vals p.sweep i d ∧
        LevelsAt eng law ph { st with sw := sw } d es vs ∧ es.length = k ∧ vs.length = k ∧
        ∀ l, l < k → es[l]? = some (b.get [l, i]) ∧ ∃ v, vs[l]? = some v ∧ c.get [l, i] = .vec v := by
  obtain ⟨p, a, vals, h1, h2, h3, h4⟩ := C88_levels eng law ho fuel ph true ks st st₁ st' sw pts files hsw hready hpre hpts hev himp hrun k hk
    hn hpos hfin names disk hdisk m si hm static hst
  simp only [if_true] at h3 h4
  choose! d es vs g1 g2 g3 g4 g5 using h4
  have hin : ∀ t, InGrid [p.sweep.length] t → ∃ i, t = [i] ∧ i < p.sweep.length := by
    intro t ht
    cases ht with
    | cons hi hr => cases hr; exact ⟨_, rfl, hi⟩
  have hcol : ∀ l i, l < k → i < p.sweep.length → ∃ (x : X), (es i)[l]? = some x ∧ a.get [l, 0, i] = .num x ∧
      ∃ v, (vs i)[l]? = some v ∧ a.get [l, 1, i] = .vec v := by
    intro l i hl hi
    obtain ⟨e1, e2⟩ := g5 i hi l
    have q1 : l < (es i).length := by rw [g3 i hi]; exact hl
    have q2 : l < (vs i).length := by rw [g4 i hi]; exact hl
    rw [List.getElem?_eq_getElem q1] at e1
    rw [List.getElem?_eq_getElem q2] at e2
    exact ⟨_, List.getElem?_eq_getElem q1, e1, _, List.getElem?_eq_getElem q2, e2⟩
  choose! fx k1 k3 k4 using hcol
  obtain ⟨b, c, c1, c2, c3, c4⟩ := C88_split a k [p.sweep.length] (fun l t => fx l (t.headD 0)) h3 (by
      intro l t hl ht
      obtain ⟨i, rfl, hi⟩ := hin t ht
      exact k3 l i hl hi)
  refine ⟨p, a, vals, b, c, h1, h2, c1, c2, c3, ?_⟩
  intro i hi
  refine ⟨d i, es i, vs i, g1 i hi, g2 i hi, g3 i hi, g4 i hi, ?_⟩
  intro l hl
  obtain ⟨w1, w2⟩ := c4 l [i] hl (List.Forall₂.cons hi List.Forall₂.nil)
  obtain ⟨v, v1, v2⟩ := k4 l i hl hi
  refine ⟨?_, v, v1, by rw [w2, v2]⟩
  rw [w1]
  exact k1 l i hl hi

/-! ### The hypotheses are met -/

/-- The levels of the example circuit: two numbers it depends on. -/
def lcPhys2 : Phys (Option PF) (List PF) PF PF PF PF :=
  { lcPhys with solve := fun h => .ok ([h.getD 2 .nan, h.getD 0 .nan], [h.getD 1 .nan, h.getD 3 .nan]) }

theorem lc_impedance (n : String) (s : Sym) (hs : (lcNS.1.sw.ndSweep sweepPhi).1.pc.getSymbol n = .ok s)
    (hfree : s ∈ Ast.engine.free (lcImp 1)) : ¬ Affected (lcNS.1.sw.ndSweep sweepPhi).1.pc ["phie"] n := by
  intro haff
  have hn : n = "C" ∨ n = "L" := by
    have hf : s = "C_{}" ∨ s = "L_{}" := by
      have : Ast.engine.free (lcImp 1) = ["C_{}", "L_{}"] := by decide +kernel
      rw [this] at hfree
      simpa using hfree
    have hm : ∀ p ∈ (lcNS.1.sw.ndSweep sweepPhi).1.pc.symMap, p.2 = "C_{}" ∨ p.2 = "L_{}" → p.1 = "C" ∨ p.1 = "L" := by decide +kernel
    unfold PC.getSymbol at hs
    split at hs
    · cases hs
    · rename_i s' hs'
      cases hs
      exact hm _ (Dict.mem_of_get? hs') hf
  have hno : ∀ m x, (m = "C" ∨ m = "L") → ¬ RecordedDep (lcNS.1.sw.ndSweep sweepPhi).1.pc m x := by
    have hp : ((lcNS.1.sw.ndSweep sweepPhi).1.pc.getParameterisationParameters "C").toOption.getD [] = [] ∧
        ((lcNS.1.sw.ndSweep sweepPhi).1.pc.getParameterisationParameters "L").toOption.getD [] = [] := by decide +kernel
    rintro m x (rfl | rfl) ⟨names, h1, h2⟩
    · rw [h1] at hp; have : names = [] := hp.1; rw [this] at h2; simp at h2
    · rw [h1] at hp; have : names = [] := hp.2; rw [this] at h2; simp at h2
  obtain ⟨k, hk, hk'⟩ := haff
  rw [List.mem_singleton] at hk
  subst hk
  rcases hk' with rfl | hk'
  · simp at hn
  · rcases Relation.TransGen.head'_iff.1 hk' with ⟨x, hx, _⟩
    exact hno n x hn hx

/-- The hypotheses of `C88_levels` and `C88_levels_and_vectors` are met by a sweep of the external flux at three points. -/
example (gv : Bool) : ∃ (st st₁ st' : NS Ast LcRes (Option PF)) (sw : SW Ast LcRes) (pts : List (Dict String PF)) (files : List (SW.Pickled LcRes)),
    st.sw.ndSweep st.specs = (sw, .ok ()) ∧ Ready Ast.engine Ast.lawful lcPhys2.gen ["phie"] { st with sw := sw } ∧
    ({ st with sw := sw, evals := evaluations st } : NS Ast LcRes (Option PF)).presub Ast.engine .id = (st₁, .ok ()) ∧ gridPoints sw = .ok pts ∧
    evaluations st = [hamEntry] ∧
    (∀ node c imp n s, st.cfg.get? node = some c → c.basis = .oscillator → c.impedance = some imp →
      sw.pc.getSymbol n = .ok s → s ∈ Ast.engine.free imp → ¬ Affected sw.pc ["phie"] n) ∧
    paramSweep Ast.engine .id 10 lcPhys2 gv st = (st', files, .ok ()) ∧
    (∀ hm es vs, lcPhys2.solve hm = .ok (es, vs) → es.length = 2 ∧ vs.length = 2) ∧
    (sweptNames st.specs).Nodup ∧ (sizes st.specs).prod ≠ 0 ∧ FiniteSweeps sw st.specs ∧ files.length = 3 ∧
    (∃ disk : String → Option (SW.Pickled LcRes), ∀ i, i < files.length → disk (String.ofList (List.replicate i 'x')) = files[i]?) ∧
    st.specs[0]? = some ⟨"phie", .int 0, .int 1, .int 3⟩ ∧ StaticsFor st.specs ["phie"] [] := by
  refine ⟨lcBefore sweepPhi [],
    (({ lcBefore sweepPhi [] with sw := (lcNS.1.sw.ndSweep sweepPhi).1, evals := [hamEntry] } : NS Ast LcRes (Option PF)).presub Ast.engine .id).1,
    (paramSweep Ast.engine .id 10 lcPhys2 gv (lcBefore sweepPhi [])).1, (lcNS.1.sw.ndSweep sweepPhi).1, [at1 "phie" 0, at1 "phie" (1/2), at1 "phie" 1],
    (paramSweep Ast.engine .id 10 lcPhys2 gv (lcBefore sweepPhi [])).2.1, Prod.ext rfl (by decide +kernel), ?_, Prod.ext rfl (by decide +kernel),
    by decide +kernel, rfl, ?_, Prod.ext rfl (Prod.ext rfl (by cases gv <;> decide +kernel)), ?_, by decide +kernel, by decide +kernel, ?_,
    by cases gv <;> decide +kernel, ?_, rfl, ?_⟩
  · exact ready_evals (lc_ready sweepPhi "phie" (Or.inl ⟨rfl, rfl⟩)) []
  · intro node c imp n s hc hb hi hs hfree
    have hcfg : (lcBefore sweepPhi []).cfg = [(1, ⟨2, .oscillator, some (lcImp 1)⟩)] := by decide +kernel
    rw [hcfg, Dict.get?_cons] at hc
    split_ifs at hc with h1
    · cases hc
      cases hi
      exact lc_impedance n s hs hfree
    · simp at hc
  · intro hm es vs h
    simp only [lcPhys2, Except.ok.injEq, Prod.mk.injEq] at h
    obtain ⟨rfl, rfl⟩ := h
    exact ⟨rfl, rfl⟩
  · have key : ∀ s ∈ sweepPhi, ∀ p ∈ ((lcNS.1.sw.ndSweep sweepPhi).1.pc.coll.get? s.name).toList,
        ∀ x ∈ p.sweep, (match x with | PF.fin _ => true | _ => false) = true := by decide +kernel
    intro s hs p hp x hx
    have := key s hs p (by rw [hp]; simp) x hx
    cases x <;> simp_all
  · exact ⟨fun f => (paramSweep Ast.engine .id 10 lcPhys2 gv (lcBefore sweepPhi [])).2.1[f.toList.length]?, fun i _ => by simp⟩
  · refine ⟨by simp, ?_, by simp⟩
    intro k
    simp [lcBefore, sweepPhi, sweptNames]

/-- The array of that sweep: the second level, which depends on the flux in the first row only. -/
example : ∃ a vals, getSweepLevels (paramSweep Ast.engine .id 10 lcPhys2 false (lcBefore sweepPhi [])).1.sw
      (paramSweep Ast.engine .id 10 lcPhys2 false (lcBefore sweepPhi [])).2.1 (fun i => String.ofList (List.replicate i 'x'))
      (fun f => (paramSweep Ast.engine .id 10 lcPhys2 false (lcBefore sweepPhi [])).2.1[f.toList.length]?) "phie" [] "Hamiltonian" =
        .ok ([.fin 0, .fin (1/2), .fin 1], a, vals) ∧ a.shape = [2, 3] := by
  have key : ((getSweepLevels (paramSweep Ast.engine .id 10 lcPhys2 false (lcBefore sweepPhi [])).1.sw
      (paramSweep Ast.engine .id 10 lcPhys2 false (lcBefore sweepPhi [])).2.1 (fun i => String.ofList (List.replicate i 'x'))
      (fun f => (paramSweep Ast.engine .id 10 lcPhys2 false (lcBefore sweepPhi [])).2.1[f.toList.length]?) "phie" [] "Hamiltonian").toOption.map
        fun x => (x.1, x.2.1.shape)) = some ([.fin 0, .fin (1/2), .fin 1], [2, 3]) := by decide +kernel
  generalize getSweepLevels _ _ _ _ _ _ _ = r at key
  cases r with
  | error e => cases key
  | ok x =>
    obtain ⟨sw, a, vals⟩ := x
    simp only [Except.toOption, Option.map_some, Option.some.injEq, Prod.mk.injEq] at key
    exact ⟨a, vals, by rw [key.1], key.2⟩

/-- The hypotheses of `C88_one_variable` and `C88_several_variables` are met by two levels swept over `a` and `b`. -/
example : ∃ (arr : List PF → Option (NDArray PF)) (f : Dict String PF → List PF),
    (∀ d, ∃ b, arr (f d) = some b ∧ b.shape = [2]) ∧ (sizes sweepSpecAB).prod ≠ 0 ∧ 2 ≤ sweepSpecAB.length ∧
    (sweptNames sweepSpecAB).Nodup ∧ StaticsFor sweepSpecAB ["a"] [("b", .fin (2 / 5))] :=
  ⟨fun l => some { shape := [l.length], get := fun t => l.getD (t.headD 0) .nan }, fun d => [(d.get? "a").getD .nan, (d.get? "b").getD .nan],
    fun d => ⟨_, rfl, rfl⟩, by decide +kernel, by decide +kernel, by decide +kernel, sweepAB_statics⟩

/-- **C88** `getEigenValuesAndVectors` does not notice that the vectors were not kept.  It then returns as eigenvalues the levels at the
first point of the sweep, and as eigenvectors the levels at the second point. -/
theorem C88_false_without_vectors [Inhabited X] (a : NDArray (Cell X V R)) (k N : ℕ) (es : ℕ → ℕ → X) (hN : 2 ≤ N) (hshape : a.shape = [k, N])
    (he : ∀ l i, l < k → i < N → a.get [l, i] = .num (es l i)) :
    ∃ b c, getEigenValuesAndVectors a = .ok (b, c) ∧ b.shape = [k] ∧ c.shape = [k] ∧
      ∀ l, l < k → b.get [l] = es l 0 ∧ c.get [l] = .num (es l 1) := by
  obtain ⟨c0, h1, h2, h3⟩ := column_ok a 0 k N [] hshape (by omega)
  obtain ⟨c1, k1, k2, k3⟩ := column_ok a 1 k N [] hshape (by omega)
  obtain ⟨b, b1, b2, b3⟩ := numbers_ok c0 (fun t => es (t.headD 0) 0) (by
    intro t ht
    rw [h2] at ht
    cases ht with
    | cons hi hr =>
      cases hr
      rw [h3]
      exact he _ _ hi (by omega))
  refine ⟨b, c1, by simp only [getEigenValuesAndVectors, h1, b1, k1], by rw [b2, h2], k2, ?_⟩
  intro l hl
  refine ⟨?_, by rw [k3]; exact he l 1 hl (by omega)⟩
  rw [b3 [l] (by rw [h2]; exact List.Forall₂.cons hl List.Forall₂.nil)]
  rfl

end Verif.Props
