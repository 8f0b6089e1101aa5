import Verif.Props.Sweep
import Verif.Lemmas.SweepMulti

/-!
# Property C18: `getSweepResult`
-/

namespace Verif.Props

open Verif Verif.Spec

variable {E R : Type}

/-- `static` gives a (finite) value to every swept parameter but those in `inds`, and to nothing else;
like every Python dictionary it has no repeated key. -/
structure StaticsFor (spec : List SweepSpec) (inds : List String) (static : List (String × PF)) : Prop where
  nodup : (static.map Prod.fst).Nodup
  cover : ∀ k, k ∈ static.map Prod.fst ↔ k ∈ sweptNames spec ∧ k ∉ inds
  finite : ∀ x ∈ static, ∃ v : ℚ, x.2 = .fin v

/-- The sweeps stored in the collection consist of ordinary numbers. -/
def FiniteSweeps (st : SW E R) (spec : List SweepSpec) : Prop :=
  ∀ s ∈ spec, ∀ p, st.pc.coll.get? s.name = some p → ∀ x ∈ p.sweep, ∃ q : ℚ, x = .fin q

/-- At the index tuple `t`, every static parameter sits at the sweep point nearest its requested value
(the first one on ties), and `vals` reports that point. -/
def StaticsAt (st : SW E R) (spec : List SweepSpec) (static vals : List (String × PF)) (t : List ℕ) : Prop :=
  ∀ (j : ℕ) (s : SweepSpec) (v : ℚ), spec[j]? = some s → (s.name, PF.fin v) ∈ static →
    ∃ i p x, t[j]? = some i ∧ st.pc.coll.get? s.name = some p ∧ IsNearest p.sweep v i ∧
      p.sweep[i]? = some x ∧ Dict.get? vals s.name = some x

theorem sizes_pos {spec : List SweepSpec} (h : (sizes spec).prod ≠ 0) {j n : ℕ}
    (hj : (sizes spec)[j]? = some n) : 0 < n := by
  rcases Nat.eq_zero_or_pos n with h0 | h0
  · subst h0
    exact absurd (List.prod_eq_zero (List.mem_of_getElem? hj)) h
  · exact h0

/-- Facts about the static points of a swept state. -/
theorem statics_ok {st st₁ : SW E R} {spec : List SweepSpec} {sw : List (List PF)}
    (hs : SW.Swept st st₁ spec sw) (hn : (sweptNames spec).Nodup) {inds : List String}
    {static : List (String × PF)}
    (hst : StaticsFor spec inds static) (hfin : FiniteSweeps st₁ spec) (hpos : (sizes spec).prod ≠ 0) :
    ∃ pts, SW.staticPoints st₁.pc static = .ok pts ∧ pts.map Prod.fst = static.map Prod.fst ∧
      (pts.map Prod.fst).Nodup ∧ (∀ x ∈ pts, x.1 ∈ sweptNames spec) ∧
      (∀ (j : ℕ) (s : SweepSpec), spec[j]? = some s → s.name ∉ inds → ∃ i x p,
        (s.name, i, x) ∈ pts ∧ st₁.pc.coll.get? s.name = some p ∧ p.sweep[i]? = some x ∧
        (∀ n, (sizes spec)[j]? = some n → i < n) ∧
        ∀ v : ℚ, (s.name, PF.fin v) ∈ static → IsNearest p.sweep v i) := by
  have key : ∀ (j : ℕ) (s : SweepSpec), spec[j]? = some s → ∃ p, st₁.pc.coll.get? s.name = some p ∧
      (sizes spec)[j]? = some p.sweep.length ∧ p.sweep ≠ [] := by
    intro j s hj
    obtain ⟨p, p', pts, _, hl, hp', _⟩ := hs.swept j s hj
    obtain ⟨z, hz, _, e, hlen⟩ := SW.linearSweep_ok hl
    have hsz : (sizes spec)[j]? = some p'.sweep.length := by simp [sizes, hj, hz, e, hlen]
    refine ⟨p', hp', hsz, ?_⟩
    have := sizes_pos hpos hsz
    intro h0; rw [h0] at this; simp at this
  obtain ⟨pts, h1, h2, h3⟩ := SW.staticPoints_ok st₁.pc static (by
    intro x hx
    have hk : x.1 ∈ static.map Prod.fst := List.mem_map.2 ⟨x, hx, rfl⟩
    obtain ⟨j, s, hj, e⟩ := SW.pos_of_name ((hst.cover x.1).1 hk).1
    obtain ⟨p, hp, _, hne⟩ := key j s hj
    obtain ⟨v, hv⟩ := hst.finite x hx
    rw [e] at hp
    exact ⟨p, v, hp, hv, hne, hfin s (List.mem_of_getElem? hj) p (by rw [e]; exact hp)⟩)
  refine ⟨pts, h1, h2, by rw [h2]; exact hst.nodup, ?_, ?_⟩
  · intro x hx
    have : x.1 ∈ static.map Prod.fst := by rw [← h2]; exact List.mem_map.2 ⟨x, hx, rfl⟩
    exact ((hst.cover x.1).1 this).1
  · intro j s hj hnot
    have hk : s.name ∈ pts.map Prod.fst := by
      rw [h2, hst.cover]
      exact ⟨List.mem_map.2 ⟨s, List.mem_of_getElem? hj, rfl⟩, hnot⟩
    obtain ⟨x, hx, hx1⟩ := List.mem_map.1 hk
    obtain ⟨k, i, y⟩ := x
    simp only at hx1
    subst hx1
    obtain ⟨p, v, a1, a2, a3, a4⟩ := h3 _ hx
    obtain ⟨p', hp', hsz, _⟩ := key j s hj
    simp only at a1 a2 a3 a4
    have epp : p = p' := by rw [hp'] at a1; exact (Option.some.inj a1).symm
    subst epp
    refine ⟨i, y, p, hx, hp', a4, ?_, ?_⟩
    · intro n hn'
      rw [hsz] at hn'; cases hn'
      exact SW.pos_lt a4
    · intro w hw
      have e1 := Dict.get?_of_mem (d := static) hst.nodup hw
      have e2 := Dict.get?_of_mem (d := static) hst.nodup a2
      rw [e1] at e2
      simp only [Option.some.injEq, PF.fin.injEq] at e2
      rw [e2]; exact a3

theorem vals_get {pts : List (String × ℕ × PF)} (hnd : (pts.map Prod.fst).Nodup) {k : String} {i : ℕ}
    {x : PF} (h : (k, i, x) ∈ pts) : Dict.get? (pts.map fun y => (y.1, y.2.2)) k = some x := by
  apply Dict.get?_of_mem
  · simpa [Dict.keys, Function.comp_def] using hnd
  · exact List.mem_map.2 ⟨_, h, rfl⟩

theorem fetched_vals {data : List R} {rows : List (List ℕ)} {rs : List (SW.Datum R)} {P : List ℕ → ℕ → Prop}
    (g2 : rs.length = rows.length)
    (g3 : ∀ (i : ℕ) (l : List ℕ), rows[i]? = some l → ∃ (k : ℕ) (x : SW.Datum R), P l k ∧
      rs[i]? = some x ∧ (data.map SW.Datum.val)[k]? = some x) :
    ∃ rs' : List R, rs = rs'.map SW.Datum.val := by
  have : ∀ x ∈ rs, ∃ r, x = SW.Datum.val r := by
    intro x hx
    obtain ⟨i, hi⟩ := List.mem_iff_getElem?.1 hx
    have hil : i < rows.length := by rw [← g2]; exact SW.pos_lt hi
    obtain ⟨k, y, _, b2, b3⟩ := g3 i _ (List.getElem?_eq_getElem hil)
    rw [hi] at b2; cases b2
    rw [List.getElem?_map, Option.map_eq_some_iff] at b3
    obtain ⟨r, _, e⟩ := b3
    exact ⟨r, e.symm⟩
  clear g2 g3
  induction rs with
  | nil => exact ⟨[], rfl⟩
  | cons x rs ih =>
    obtain ⟨r, rfl⟩ := this x (by simp)
    obtain ⟨rs', rfl⟩ := ih (fun x hx => this x (by simp [hx]))
    exact ⟨r :: rs', rfl⟩

/-- C18, single independent variable: for a sweep over two or more distinct parameters, any nonempty list
of data with one entry per point, an independent variable that was swept and a static value for every
other swept parameter, `getSweepResult` returns the sweep of the independent variable and, for each of
its points `i`, the datum stored at the grid point where the independent variable is at `i` and each
static parameter is at its nearest sweep point. -/
theorem C18_single_slice_partial (st st₁ : SW E R) (spec : List SweepSpec) (data : List R)
    (disk : String → Option (SW.Pickled R))
    (h : st.ndSweep spec = (st₁, .ok ())) (hn : (sweptNames spec).Nodup) (h2 : 2 ≤ spec.length)
    (hdata : data.length = (sizes spec).prod) (hne : data ≠ [])
    (hfin : FiniteSweeps st₁ spec)
    (m : ℕ) (si : SweepSpec) (hm : spec[m]? = some si) (static : List (String × PF))
    (hst : StaticsFor spec [si.name] static) :
    ∃ p rs vals, st₁.pc.coll.get? si.name = some p ∧
      ({ st₁ with result := some data } : SW E R).getSweepResult disk si.name static =
        .ok (p.sweep, rs, vals) ∧
      rs.length = p.sweep.length ∧
      ∀ i, i < p.sweep.length → ∃ (t : List ℕ) (k : ℕ) (r : R), InGrid (sizes spec) t ∧ t[m]? = some i ∧
        StaticsAt st₁ spec static vals t ∧
        st₁.collapsedIndices (t.map (fun (x : ℕ) => (x : ℤ))) = .ok (k : ℤ) ∧
        data[k]? = some r ∧ rs[i]? = some r := by
  obtain ⟨sw, hs⟩ := SW.ndSweep_ok h hn
  have hpos : (sizes spec).prod ≠ 0 := by
    rw [← hdata]; intro e; exact hne (List.length_eq_zero_iff.1 e)
  obtain ⟨pts, e1, e2, e3, e4, e5⟩ := statics_ok hs hn hst hfin hpos
  obtain ⟨p0, p, ptsi, _, hl, hp, _⟩ := hs.swept m si hm
  obtain ⟨z, hz, _, esw, hlen⟩ := SW.linearSweep_ok hl
  have hNm : (sizes spec)[m]? = some p.sweep.length := by simp [sizes, hm, hz, esw, hlen]
  have hml := SW.pos_lt hm
  have hcard : 1 + static.length = spec.length := by
    have := SW.length_eq_of_cover (sweptNames spec) (static.map Prod.fst) si.name hn hst.nodup
      (List.mem_map.2 ⟨si, List.mem_of_getElem? hm, rfl⟩) (by intro x; rw [hst.cover]; simp)
    simpa [sweptNames] using this
  -- filling the table
  set n := p.sweep.length with hnn
  obtain ⟨f, f1, f2, f3⟩ := SW.assignStatics_ok hn (fun i => some (List.replicate n i)) pts
    ((List.replicate (1 + static.length) (none : Option (List ℕ))).set (spec.length - m - 1)
      (some (List.range n))) (by simp [hcard]) e4 e3
  have fm : f[spec.length - m - 1]? = some (some (List.range n)) := by
    rw [(f3 m si hm).2]
    · rw [List.getElem?_set_self]; simp; omega
    · rw [e2, hst.cover]; simp
  have fj : ∀ (j : ℕ) (s : SweepSpec), spec[j]? = some s → s.name ≠ si.name → ∃ i x q,
      (s.name, i, x) ∈ pts ∧ f[spec.length - j - 1]? = some (some (List.replicate n i)) ∧
      st₁.pc.coll.get? s.name = some q ∧ q.sweep[i]? = some x ∧
      (∀ n, (sizes spec)[j]? = some n → i < n) ∧
      ∀ v : ℚ, (s.name, PF.fin v) ∈ static → IsNearest q.sweep v i := by
    intro j s hj hne
    obtain ⟨i, x, q, a1, a2, a3, a4, a5⟩ := e5 j s hj (by simpa using hne)
    exact ⟨i, x, q, a1, (f3 j s hj).1 i x a1, a2, a3, a4, a5⟩
  have hsome : ¬ (f.any fun o => o.isNone) = true := by
    simp only [List.any_eq_true, not_exists, not_and]
    intro o ho hnone
    obtain ⟨q, hq⟩ := List.mem_iff_getElem?.1 ho
    have hql := SW.pos_lt hq
    set j := spec.length - q - 1 with hj
    have hjl : j < spec.length := by omega
    have hback : spec.length - j - 1 = q := by omega
    have hjs := List.getElem?_eq_getElem hjl
    by_cases hc : (spec[j]).name = si.name
    · have : j = m := SW.name_inj hn hjs hm hc
      rw [← this, hback, hq] at fm
      cases fm; simp at hnone
    · obtain ⟨i, x, q', _, a2, _⟩ := fj j _ hjs hc
      rw [hback, hq] at a2
      cases a2; simp at hnone
  -- the rows
  set rows := ((List.range n).map fun i => f.map fun o => (o.getD []).getD i 0).map List.reverse with hrows
  have hrowat : ∀ i, i < n → ∃ t, rows[i]? = some t ∧ t.length = spec.length ∧
      ∀ (j : ℕ), j < spec.length → t[j]? = (f[spec.length - j - 1]?).map fun o => (o.getD []).getD i 0 := by
    intro i hi
    refine ⟨(f.map fun o => (o.getD []).getD i 0).reverse, ?_, by simp [f2], ?_⟩
    · rw [hrows, List.getElem?_map, List.getElem?_map, List.getElem?_range hi]; rfl
    · intro j hj
      rw [List.getElem?_reverse (by simpa [f2] using hj), List.getElem?_map]
      congr 2
      simp [f2]; omega
  have hrow : ∀ i, i < n → ∃ t, rows[i]? = some t ∧ InGrid (sizes spec) t ∧ t[m]? = some i ∧
      StaticsAt st₁ spec static (pts.map fun y => (y.1, y.2.2)) t := by
    intro i hi
    obtain ⟨t, ht, htl, htj⟩ := hrowat i hi
    have htm : t[m]? = some i := by
      rw [htj m hml, fm]; simp [List.getD, hi]
    have hts : ∀ (j : ℕ) (s : SweepSpec), spec[j]? = some s → s.name ≠ si.name → ∃ i' x q,
        t[j]? = some i' ∧ (s.name, i', x) ∈ pts ∧
        st₁.pc.coll.get? s.name = some q ∧ q.sweep[i']? = some x ∧
        (∀ n, (sizes spec)[j]? = some n → i' < n) ∧
        ∀ v : ℚ, (s.name, PF.fin v) ∈ static → IsNearest q.sweep v i' := by
      intro j s hj hne
      obtain ⟨i', x, q, a1, a2, a3, a4, a5, a6⟩ := fj j s hj hne
      refine ⟨i', x, q, ?_, a1, a3, a4, a5, a6⟩
      rw [htj j (SW.pos_lt hj), a2]; simp [List.getD, hi]
    refine ⟨t, ht, ?_, htm, ?_⟩
    · rw [InGrid, List.forall₂_iff_get]
      refine ⟨by simp [htl, sizes], ?_⟩
      intro j h1 h2
      have hjl : j < spec.length := by simpa [htl] using h1
      have hjs := List.getElem?_eq_getElem hjl
      simp only [List.get_eq_getElem]
      by_cases hc : (spec[j]).name = si.name
      · have e : j = m := SW.name_inj hn hjs hm hc
        subst e
        have x1 := List.getElem?_eq_getElem h1
        have x2 := List.getElem?_eq_getElem h2
        rw [htm] at x1; rw [hNm] at x2
        have y1 := Option.some.inj x1
        have y2 := Option.some.inj x2
        omega
      · obtain ⟨i', x, q, b1, _, _, _, b5, _⟩ := hts j _ hjs hc
        have x1 := List.getElem?_eq_getElem h1
        rw [b1] at x1; cases x1
        exact b5 _ (List.getElem?_eq_getElem h2)
    · intro j s v hj hv
      have hne : s.name ≠ si.name := by
        have : s.name ∈ static.map Prod.fst := List.mem_map.2 ⟨_, hv, rfl⟩
        simpa using ((hst.cover _).1 this).2
      obtain ⟨i', x, q, b1, b2, b3, b4, b5, b6⟩ := hts j s hj hne
      exact ⟨i', q, x, b1, b3, b6 v hv, b4, vals_get e3 b2⟩
  have hfetch := SW.fetchRows_ok (A := SW.Datum R) ({ st₁ with result := some data } : SW E R)
    (data.map .val) rows (by
      intro l hl
      obtain ⟨i, hi⟩ := List.mem_iff_getElem?.1 hl
      have hin : i < n := by have := SW.pos_lt hi; simpa [hrows] using this
      obtain ⟨t, ht, hg, _, _⟩ := hrow i hin
      rw [hi] at ht; cases ht
      refine ⟨rowMajor (sizes spec) l, hs.collapsed (by rw [InGrid.length hg]; simp [sizes]), ?_⟩
      rw [List.length_map, hdata]; exact rowMajor_lt hg)
  obtain ⟨rs, g1, g2, g3⟩ := hfetch
  have hvals : ∃ rs' : List R, rs = rs'.map SW.Datum.val := fetched_vals g2 g3
  obtain ⟨rs', rfl⟩ := hvals
  refine ⟨p, rs', pts.map fun y => (y.1, y.2.2), hp, ?_, by simpa [hrows] using g2, ?_⟩
  · obtain ⟨d0, drest, hd⟩ : ∃ a l, data = a :: l := by
      cases data with
      | nil => exact absurd rfl hne
      | cons a l => exact ⟨a, l, rfl⟩
    have hresolve : ({ st₁ with result := some data } : SW E R).resolveData disk .default none =
        .ok (data.map .val, false, none) := by
      simp [SW.resolveData, hd]
    have hknown : ({ st₁ with result := some data } : SW E R).namesKnown
        (si.name :: static.map Prod.fst) = true := by
      rw [SW.namesKnown_iff]
      have hmem : ∀ k ∈ sweptNames spec, k ∈ st₁.pc.coll.keys := by
        intro k hk
        obtain ⟨j, s, hj, rfl⟩ := SW.pos_of_name hk
        obtain ⟨_, p', _, _, _, hp', _⟩ := hs.swept j s hj
        exact Dict.mem_keys_of_get? hp'
      intro k hk
      rcases List.mem_cons.1 hk with rfl | hk
      · exact hmem _ (List.mem_map.2 ⟨si, List.mem_of_getElem? hm, rfl⟩)
      · exact hmem _ ((hst.cover k).1 hk).1
    have hslice : ({ st₁ with result := some data } : SW E R).sliceSingle (data.map SW.Datum.val)
        si.name static = .ok (p.sweep, rs'.map .val, pts.map fun y => (y.1, y.2.2)) := by
      unfold SW.sliceSingle
      rw [hknown]
      simp only [hp, hs.spec_eq, e1, SW.specIndex_eq hn hm, SW.specN_eq hn hm, hNm, Bool.not_true,
        Bool.false_eq_true, if_false]
      rw [if_neg (by omega), SW.assign_ok _ (by simp; omega)]
      simp only [f1]
      rw [if_neg hsome]
      rw [hs.spec_eq] at g1
      simp only [← hrows, g1]
    simp only [SW.getSweepResult, hresolve, hslice, SW.readAll_val]
  · intro i hi
    obtain ⟨t, ht, hg, htm, hta⟩ := hrow i hi
    obtain ⟨k, x, b1, b2, b3⟩ := g3 i t ht
    rw [List.getElem?_map, Option.map_eq_some_iff] at b2 b3
    obtain ⟨r, hr, e⟩ := b2
    obtain ⟨r', hr', e'⟩ := b3
    subst e
    cases e'
    exact ⟨t, k, _, hg, htm, hta, b1, hr', hr⟩

/-- C18, list of independent variables: for a sweep over distinct parameters, any nonempty list of data
with one entry per point, independent variables that were swept and a static value for every other swept
parameter, `getSweepResult` returns the sweeps of the independent variables in the order of the sweep
specification and an array whose entry at the reversed index tuple `(u_m, …, u_1)` is the datum stored at
the grid point where the independent variables are at `u_1, …, u_m` and each static parameter is at its
nearest sweep point. -/
theorem C18_multi_slice_partial [Inhabited R] (st st₁ : SW E R) (spec : List SweepSpec) (data : List R)
    (disk : String → Option (SW.Pickled R))
    (h : st.ndSweep spec = (st₁, .ok ())) (hn : (sweptNames spec).Nodup)
    (hdata : data.length = (sizes spec).prod) (hne : data ≠ [])
    (hfin : FiniteSweeps st₁ spec)
    (inds : List String) (hinds : ∀ k ∈ inds, k ∈ sweptNames spec) (hi0 : inds ≠ [])
    (static : List (String × PF)) (hst : StaticsFor spec inds static) :
    let ivs := spec.filter (fun s => decide (s.name ∈ inds))
    ∃ sws arr vals,
      ({ st₁ with result := some data } : SW E R).getSweepResultMulti disk inds static =
        .ok (sws, arr, vals) ∧
      sws.length = ivs.length ∧
      (∀ (m : ℕ) (s : SweepSpec), ivs[m]? = some s →
        ∃ p, st₁.pc.coll.get? s.name = some p ∧ sws[m]? = some p.sweep) ∧
      arr.shape = (sws.map List.length).reverse ∧
      ∀ u, InGrid (sws.map List.length) u → ∃ (t : List ℕ) (k : ℕ) (r : R), InGrid (sizes spec) t ∧
        (∀ (j m : ℕ) (s : SweepSpec), spec[j]? = some s → ivs[m]? = some s → t[j]? = u[m]?) ∧
        StaticsAt st₁ spec static vals t ∧
        st₁.collapsedIndices (t.map (fun (x : ℕ) => (x : ℤ))) = .ok (k : ℤ) ∧
        data[k]? = some r ∧ arr.get u.reverse = r := by
  intro ivs
  obtain ⟨sw, hs⟩ := SW.ndSweep_ok h hn
  have hpos : (sizes spec).prod ≠ 0 := by
    rw [← hdata]; intro e; exact hne (List.length_eq_zero_iff.1 e)
  obtain ⟨pts, e1, e2, e3, e4, e5⟩ := statics_ok hs hn hst hfin hpos
  have hsz1 : ∀ (j : ℕ) (s : SweepSpec), spec[j]? = some s → (sizes spec)[j]? = some (SW.sizeOf1 s) := by
    intro j s hj; simp only [sizes, List.getElem?_map, hj, Option.map_some]; rfl
  have hswp : ∀ (j : ℕ) (s : SweepSpec), spec[j]? = some s → ∃ p, st₁.pc.coll.get? s.name = some p ∧
      p.sweep.length = SW.sizeOf1 s := by
    intro j s hj
    obtain ⟨_, p', _, _, hl, hp', _⟩ := hs.swept j s hj
    obtain ⟨z, hz, _, esw, hlen⟩ := SW.linearSweep_ok hl
    exact ⟨p', hp', by simp [SW.sizeOf1, hz, esw, hlen]⟩
  have hsorted : SW.sortedInd spec inds = ivs.map SweepSpec.name := by
    simp only [SW.sortedInd, ivs, List.filter_map]; rfl
  -- number of slots
  have hcard : (SW.sortedInd spec inds).length + static.length = spec.length := by
    have hp : (SW.sortedInd spec inds ++ static.map Prod.fst).Perm (sweptNames spec) := by
      rw [List.perm_ext_iff_of_nodup _ hn]
      · intro k
        simp only [List.mem_append, hst.cover, SW.sortedInd, List.mem_filter, decide_eq_true_eq, sweptNames]
        tauto
      · rw [List.nodup_append]
        refine ⟨hn.sublist List.filter_sublist, hst.nodup, ?_⟩
        intro a ha b hb e
        subst e
        have h1 := (List.mem_filter.1 ha).2
        exact ((hst.cover a).1 hb).2 (by simpa using h1)
    have := hp.length_eq
    simpa [sweptNames] using this
  obtain ⟨f0, a1, a2, a3⟩ := SW.assignInds_ok hn (SW.sortedInd spec inds)
    (List.replicate ((SW.sortedInd spec inds).length + static.length) [0]) (by simp [hcard])
    (by intro k hk; exact (List.mem_filter.1 hk).1)
  obtain ⟨f, f1, f2, f3⟩ := SW.assignStatics_ok hn (fun i => [i]) pts f0 a2 e4 e3
  have hmemind : ∀ s ∈ spec, (s.name ∈ SW.sortedInd spec inds ↔ s.name ∈ inds) := by
    intro s hsm
    simp only [SW.sortedInd, List.mem_filter, decide_eq_true_eq]
    exact ⟨fun x => x.2, fun x => ⟨List.mem_map.2 ⟨s, hsm, rfl⟩, x⟩⟩
  -- the columns
  have hind : ∀ (j : ℕ) (s : SweepSpec), spec[j]? = some s → s.name ∈ inds →
      f.reverse[j]? = some (List.range (SW.sizeOf1 s)) := by
    intro j s hj hin
    have hjl := SW.pos_lt hj
    rw [List.getElem?_reverse (by rw [f2]; exact hjl), f2, show spec.length - 1 - j = spec.length - j - 1 by omega]
    rw [(f3 j s hj).2, (a3 j s hj).1 ((hmemind s (List.mem_of_getElem? hj)).2 hin), hsz1 j s hj]
    · rfl
    · rw [e2, hst.cover]; simp [hin]
  have hstat : ∀ (j : ℕ) (s : SweepSpec), spec[j]? = some s → s.name ∉ inds → ∃ i x q,
      (s.name, i, x) ∈ pts ∧ f.reverse[j]? = some [i] ∧
      st₁.pc.coll.get? s.name = some q ∧ q.sweep[i]? = some x ∧
      (∀ n, (sizes spec)[j]? = some n → i < n) ∧
      ∀ v : ℚ, (s.name, PF.fin v) ∈ static → IsNearest q.sweep v i := by
    intro j s hj hnin
    have hjl := SW.pos_lt hj
    obtain ⟨i, x, q, b1, b2, b3, b4, b5⟩ := e5 j s hj hnin
    refine ⟨i, x, q, b1, ?_, b2, b3, b4, b5⟩
    rw [List.getElem?_reverse (by rw [f2]; exact hjl), f2, show spec.length - 1 - j = spec.length - j - 1 by omega]
    exact (f3 j s hj).1 i x b1
  have hlens : f.reverse.map List.length = SW.axisSizes inds spec := by
    apply List.ext_getElem?
    intro j
    by_cases hj : j < spec.length
    · have hjs := List.getElem?_eq_getElem hj
      simp only [List.getElem?_map, SW.axisSizes, hjs, Option.map_some]
      by_cases hin : spec[j].name ∈ inds
      · rw [hind j _ hjs hin]; simp [hin]
      · obtain ⟨i, x, q, _, b2, _⟩ := hstat j _ hjs hin
        rw [b2]; simp [hin]
    · rw [List.getElem?_eq_none (by simp [f2]; omega), List.getElem?_eq_none (by simp [SW.axisSizes]; omega)]
  -- every row is an index tuple
  have hrowgrid : ∀ t ∈ meshRows f.reverse, InGrid (sizes spec) t := by
    intro t ht
    rw [SW.mem_meshRows] at ht
    rw [InGrid, List.forall₂_iff_get]
    have htl := ht.length_eq
    refine ⟨by rw [htl]; simp [f2, sizes], ?_⟩
    intro j h1 h2
    have hjl : j < spec.length := by simpa [sizes] using h2
    have hjs := List.getElem?_eq_getElem hjl
    have hjr : j < f.reverse.length := by simpa [f2] using hjl
    have hmem := (List.forall₂_iff_get.1 ht).2 j h1 hjr
    simp only [List.get_eq_getElem] at hmem ⊢
    have hN := hsz1 j _ hjs
    rw [List.getElem?_eq_getElem h2] at hN
    have hN := Option.some.inj hN
    by_cases hin : spec[j].name ∈ inds
    · have hc := hind j _ hjs hin
      rw [List.getElem?_eq_getElem hjr] at hc
      rw [Option.some.inj hc, List.mem_range] at hmem
      rw [hN]; exact hmem
    · obtain ⟨i, x, q, _, b2, _, _, b5, _⟩ := hstat j _ hjs hin
      rw [List.getElem?_eq_getElem hjr] at b2
      rw [Option.some.inj b2, List.mem_singleton] at hmem
      rw [hmem]
      exact b5 _ (List.getElem?_eq_getElem h2)
  have hfetch := SW.fetchRows_ok (A := SW.Datum R) ({ st₁ with result := some data } : SW E R)
    (data.map .val) (meshRows f.reverse) (by
      intro l hl
      have hg := hrowgrid l hl
      refine ⟨rowMajor (sizes spec) l, hs.collapsed (by rw [InGrid.length hg]; simp [sizes]), ?_⟩
      rw [List.length_map, hdata]; exact rowMajor_lt hg)
  obtain ⟨rs, g1, g2, g3⟩ := hfetch
  obtain ⟨rs', rfl⟩ := fetched_vals g2 g3
  have hNs : (SW.sortedInd spec inds).map (fun iv => (SW.specN spec iv).getD 0) = SW.indSizes inds spec := by
    rw [hsorted, List.map_map]
    apply List.map_congr_left
    intro s hsm
    obtain ⟨j, hj⟩ := List.mem_iff_getElem?.1 (List.mem_filter.1 hsm).1
    simp [SW.specN_eq hn hj, hsz1 j s hj]
  have hswl : (((SW.sortedInd spec inds).map fun iv => ((st₁.pc.coll.get? iv).map Param.sweep).getD []).map
      List.length) = SW.indSizes inds spec := by
    rw [hsorted, List.map_map, List.map_map]
    apply List.map_congr_left
    intro s hsm
    obtain ⟨j, hj⟩ := List.mem_iff_getElem?.1 (List.mem_filter.1 hsm).1
    obtain ⟨p, hp, hl⟩ := hswp j s hj
    simp [hp, hl]
  have hlen' : rs'.length = (SW.indSizes inds spec).prod := by
    have : rs'.length = (meshRows f.reverse).length := by simpa using g2
    rw [this, SW.length_meshRows, hlens, SW.indSizes_prod]
  have hprodpos : (SW.indSizes inds spec).prod ≠ 0 := by
    intro h0
    rw [List.prod_eq_zero_iff] at h0
    obtain ⟨s, hsm, hs0⟩ := List.mem_map.1 h0
    obtain ⟨j, hj⟩ := List.mem_iff_getElem?.1 (List.mem_filter.1 hsm).1
    have := sizes_pos hpos (hsz1 j s hj)
    omega
  have hivne : ivs ≠ [] := by
    obtain ⟨k, l, rfl⟩ := List.exists_cons_of_ne_nil hi0
    obtain ⟨j, s, hj, e⟩ := SW.pos_of_name (hinds k (by simp))
    intro h0
    have : s ∈ ivs := List.mem_filter.2 ⟨List.mem_of_getElem? hj, by simp [e]⟩
    rw [h0] at this; simp at this
  obtain ⟨d0, drest, hd⟩ := List.exists_cons_of_ne_nil hne
  have hresolve : ({ st₁ with result := some data } : SW E R).resolveData disk .default none =
      .ok (data.map .val, false, none) := by
    simp [SW.resolveData, hd]
  have hknown : ({ st₁ with result := some data } : SW E R).namesKnown
      (inds ++ static.map Prod.fst) = true := by
    rw [SW.namesKnown_iff]
    intro k hk
    have hk' : k ∈ sweptNames spec := by
      rcases List.mem_append.1 hk with hk | hk
      · exact hinds k hk
      · exact ((hst.cover k).1 hk).1
    obtain ⟨j, s, hj, rfl⟩ := SW.pos_of_name hk'
    obtain ⟨_, p', _, _, _, hp', _⟩ := hs.swept j s hj
    exact Dict.mem_keys_of_get? hp'
  have hrsne : (rs'.map SW.Datum.val).isEmpty = false := by
    cases hr : rs' with
    | nil => rw [hr] at hlen'; simp at hlen'; exact absurd hlen'.symm hprodpos
    | cons a l => rfl
  have hslice : ({ st₁ with result := some data } : SW E R).sliceMulti (data.map SW.Datum.val)
      inds static = .ok ((SW.sortedInd spec inds).map (fun iv => ((st₁.pc.coll.get? iv).map Param.sweep).getD []),
        SW.indSizes inds spec, rs'.map .val, pts.map fun y => (y.1, y.2.2)) := by
    unfold SW.sliceMulti
    rw [hknown]
    rw [hs.spec_eq] at g1
    simp only [hs.spec_eq, e1, a1, f1, g1, hrsne, hNs, Bool.not_true, Bool.false_eq_true, if_false]
  have hNse : (SW.indSizes inds spec).isEmpty = false := by
    cases hr : ivs with
    | nil => exact absurd hr hivne
    | cons a l =>
      have : SW.indSizes inds spec = ivs.map SW.sizeOf1 := rfl
      rw [this, hr]; rfl
  refine ⟨_, _, _, by
    simp only [SW.getSweepResultMulti, hresolve, hslice, SW.readAll_val, SW.reshapeT, hNse,
      Bool.false_eq_true, if_false]
    rw [if_neg (by rw [hlen']; simp)], by rw [hsorted]; simp, ?_, ?_, ?_⟩
  · intro m s hm
    obtain ⟨j, hj⟩ := List.mem_iff_getElem?.1 (List.mem_filter.1 (List.mem_of_getElem? hm)).1
    obtain ⟨p, hp, _⟩ := hswp j s hj
    refine ⟨p, hp, ?_⟩
    rw [hsorted]; simp [hm, hp]
  · rw [hswl]; rfl
  · intro u hu
    rw [hswl] at hu
    obtain ⟨m1, m2⟩ := SW.embed_ok inds spec u hu
    rw [← hlens] at m1
    obtain ⟨t, t1, t2, t3⟩ := SW.meshRows_get f.reverse _ m1
    rw [hlens, m2] at t1
    obtain ⟨k, x, b1, b2, b3⟩ := g3 _ t t1
    rw [List.getElem?_map, Option.map_eq_some_iff] at b2 b3
    obtain ⟨r, hr, e⟩ := b2
    obtain ⟨r', hr', e'⟩ := b3
    subst e
    cases e'
    refine ⟨t, k, _, hrowgrid t (List.mem_of_getElem? t1), ?_, ?_, b1, hr', ?_⟩
    · intro j m s hj hm
      have hin : s.name ∈ inds := by
        have := (List.mem_filter.1 (List.mem_of_getElem? hm)).2
        simpa using this
      have hemb := SW.embed_ind inds spec hn u hu hj hm
      have hml : m < u.length := by
        have := SW.pos_lt hm
        rw [InGrid.length hu]; simpa [SW.indSizes] using this
      rw [List.getElem?_eq_getElem hml] at hemb
      rw [t3 j _ _ (hind j s hj hin) hemb, List.getElem?_eq_getElem hml]
      have hlt := (List.forall₂_iff_get.1 hu).2 m hml (by rw [← InGrid.length hu]; exact hml)
      simp only [List.get_eq_getElem, SW.indSizes, List.getElem_map] at hlt
      have hs' : ivs[m]? = some s := hm
      rw [List.getElem?_eq_getElem (SW.pos_lt hm)] at hs'
      rw [Option.some.inj hs'] at hlt
      exact List.getElem?_range hlt
    · intro j s v hj hv
      have hnin : s.name ∉ inds := by
        have : s.name ∈ static.map Prod.fst := List.mem_map.2 ⟨_, hv, rfl⟩
        exact ((hst.cover _).1 this).2
      obtain ⟨i, x, q, c1, c2, c3, c4, c5, c6⟩ := hstat j s hj hnin
      refine ⟨i, q, x, ?_, c3, c6 v hv, c4, vals_get e3 c1⟩
      rw [t3 j _ _ c2 (SW.embed_static inds spec u hj hnin)]; rfl
    · simp only [NDArray.T, List.reverse_reverse]
      rw [flatIndex_eq (InGrid.length hu)]
      simp [hr, List.getD]

/-- C18 for a sweep over one parameter: asked for that parameter, `getSweepResult` returns its sweep and
all the data, in order. -/
theorem C18_one_parameter_partial (st st₁ : SW E R) (s : SweepSpec) (data : List R)
    (disk : String → Option (SW.Pickled R)) (h : st.ndSweep [s] = (st₁, .ok ())) (hne : data ≠ []) :
    ∃ p, st₁.pc.coll.get? s.name = some p ∧
      ({ st₁ with result := some data } : SW E R).getSweepResult disk s.name [] = .ok (p.sweep, data, []) := by
  obtain ⟨sw, hs⟩ := SW.ndSweep_ok h (by simp [sweptNames])
  obtain ⟨_, p, _, _, _, hp, _⟩ := hs.swept 0 s rfl
  refine ⟨p, hp, ?_⟩
  obtain ⟨d0, drest, hd⟩ := List.exists_cons_of_ne_nil hne
  have hresolve : ({ st₁ with result := some data } : SW E R).resolveData disk .default none =
      .ok (data.map .val, false, none) := by
    simp [SW.resolveData, hd]
  have hslice : ({ st₁ with result := some data } : SW E R).sliceSingle (data.map SW.Datum.val) s.name [] =
      .ok (p.sweep, data.map .val, []) := by
    unfold SW.sliceSingle
    simp [SW.namesKnown, Dict.has, hp, hs.spec_eq]
  simp only [SW.getSweepResult, hresolve, hslice, SW.readAll_val]

theorem calls_pure {A : Type} (f : A → R) (as : List A) (s' : Unit) (rs : List R) (o : Except Err Unit)
    (h : Calls (fun (_ : Unit) a => ((), Except.ok (f a))) () as s' rs o) : rs = as.map f ∧ o = .ok () := by
  generalize hs : () = s at h
  induction h with
  | done => simp
  | raised s s' a as e hf => simp at hf
  | returned s s' s'' a as r rs o hf _ ih =>
    simp only [Prod.mk.injEq, Except.ok.injEq, true_and] at hf
    obtain ⟨h1, h2⟩ := ih rfl
    simp [h1, h2, hf]

/-- C17 and C18 together: sweep a pure function `f` over two or more distinct parameters and ask for the
result as a function of one of them at given values of the others: the `i`-th entry is `f` applied to the
swept parameters, the independent one at its `i`-th point and every other one at its sweep point nearest
the requested value (which is the value reported back). -/
theorem C18_sweep_then_slice (st st₁ : SW E R) (spec : List SweepSpec) (f : Dict String PF → R)
    (disk : String → Option (SW.Pickled R))
    (h : st.ndSweep spec = (st₁, .ok ())) (hn : (sweptNames spec).Nodup) (h2 : 2 ≤ spec.length)
    (hpos : (sizes spec).prod ≠ 0) (hfin : FiniteSweeps st₁ spec)
    (m : ℕ) (si : SweepSpec) (hm : spec[m]? = some si) (static : List (String × PF))
    (hst : StaticsFor spec [si.name] static) :
    ∃ st₂ p rs vals,
      st.computeFuncSweep (fun (_ : Unit) d => ((), .ok (f d))) spec () = ((), st₂, .ok ()) ∧
      st₁.pc.coll.get? si.name = some p ∧
      st₂.getSweepResult disk si.name static = .ok (p.sweep, rs, vals) ∧
      rs.length = p.sweep.length ∧
      ∀ i, i < p.sweep.length → ∃ d : Dict String PF, rs[i]? = some (f d) ∧ d.keys = sweptNames spec ∧
        d.get? si.name = p.sweep[i]? ∧
        ∀ s ∈ spec, ∀ v : ℚ, (s.name, PF.fin v) ∈ static → ∃ q k x, st₁.pc.coll.get? s.name = some q ∧
          IsNearest q.sweep v k ∧ q.sweep[k]? = some x ∧ d.get? s.name = some x ∧
          Dict.get? vals s.name = some x := by
  have hspne : spec ≠ [] := by intro e; rw [e] at h2; simp at h2
  obtain ⟨points, s', rs0, o, c1, c2, c3, c4, c5⟩ :=
    C17_evaluates_each_point_once st st₁ spec (fun (_ : Unit) d => ((), Except.ok (f d))) () h hn hspne
  obtain ⟨rfl, rfl⟩ := calls_pure f points s' rs0 o c2
  have hd : (points.map f).length = (sizes spec).prod := by simpa using c3
  obtain ⟨p, rs, vals, a1, a2, a3, a4⟩ := C18_single_slice_partial st st₁ spec (points.map f) disk h hn h2 hd
    (by intro e; rw [e] at hd; simp at hd; exact hpos hd.symm) hfin m si hm static hst
  refine ⟨_, p, rs, vals, c1, a1, a2, a3, ?_⟩
  intro i hi
  obtain ⟨t, k, r, b1, b2, b3, b4, b5, b6⟩ := a4 i hi
  obtain ⟨k', d, d1, d2, d3⟩ := c5 t b1
  rw [b4] at d1
  have hk : k = k' := by
    have := Except.ok.inj d1; exact_mod_cast this
  subst hk
  rw [List.getElem?_map, d2] at b5
  simp only [Option.map_some, Option.some.injEq] at b5
  refine ⟨d, by rw [b6, b5], c4 d (List.mem_of_getElem? d2), ?_, ?_⟩
  · obtain ⟨i', x, q, e1, e2, e3, e4⟩ := d3 m si hm
    rw [b2] at e1; cases e1
    rw [a1] at e2; cases e2
    rw [e4, e3]
  · intro s hsm v hv
    obtain ⟨j, hj⟩ := List.mem_iff_getElem?.1 hsm
    obtain ⟨k1, q, x, e1, e2, e3, e4, e5⟩ := b3 j s v hj hv
    obtain ⟨i', x', q', g1, g2, g3, g4⟩ := d3 j s hj
    rw [e1] at g1; cases g1
    rw [e2] at g2; cases g2
    rw [e4] at g3; cases g3
    exact ⟨q, k1, x, e2, e3, e4, g4, e5⟩

/-! ### The example sweep -/

theorem sweepAB_finite : FiniteSweeps (sweepStart.ndSweep sweepSpecAB).1 sweepSpecAB := by
  have key : ∀ s ∈ sweepSpecAB, ∀ p ∈ ((sweepStart.ndSweep sweepSpecAB).1.pc.coll.get? s.name).toList,
      ∀ x ∈ p.sweep, (match x with | PF.fin _ => true | _ => false) = true := by decide +kernel
  intro s hs p hp x hx
  have := key s hs p (by rw [hp]; simp) x hx
  cases x <;> simp_all

theorem sweepAB_statics : StaticsFor sweepSpecAB ["a"] [("b", .fin (2 / 5))] :=
  { nodup := by decide +kernel
    cover := by
      intro k
      simp only [sweptNames, sweepSpecAB, List.map_cons, List.map_nil, List.mem_cons, List.not_mem_nil, or_false]
      constructor
      · rintro rfl; exact ⟨Or.inr rfl, by decide⟩
      · rintro ⟨rfl | rfl, h⟩
        · exact absurd rfl h
        · rfl
    finite := by intro x hx; simp at hx; subst hx; exact ⟨_, rfl⟩ }

/-- The hypotheses of `C18_single_slice_partial` and `C18_sweep_then_slice` are met: `a` as a function of nothing
else but `b = 0.4`, whose nearest sweep point is 0. -/
example : ∃ rs vals, (sweepStart.computeFuncSweep
      (fun (_ : Unit) d => ((), .ok (PF.add (PF.smul 10 ((d.get? "a").getD .nan)) ((d.get? "b").getD .nan))))
      sweepSpecAB ()).2.1.getSweepResult (fun _ => none) "a" [("b", .fin (2 / 5))] =
        .ok ([.fin 0, .fin 1], rs, vals) ∧ rs = [.fin 0, .fin 10] ∧ vals = [("b", .fin 0)] :=
  ⟨_, _, by decide +kernel, rfl, rfl⟩

example := C18_sweep_then_slice sweepStart _ sweepSpecAB
  (fun d => PF.add (PF.smul 10 ((d.get? "a").getD .nan)) ((d.get? "b").getD .nan)) (fun _ => none)
  sweepAB_eq sweepAB_names (by decide) (by decide +kernel) sweepAB_finite 0 _ rfl _ sweepAB_statics

/-- Both parameters as independent variables: no statics. -/
example := @C18_multi_slice_partial Ast PF ⟨.nan⟩ sweepStart _ sweepSpecAB
  [.fin 0, .fin 1, .fin 2, .fin 3, .fin 4, .fin 5] (fun _ => none) sweepAB_eq sweepAB_names (by decide +kernel)
  (by decide) sweepAB_finite ["b", "a"] (by decide +kernel) (by decide) []
  ⟨by simp, by intro k; simp [sweptNames, sweepSpecAB]; rintro (rfl | rfl) <;> decide, by simp⟩

/-! ### What is not checked -/

/-- Three parameters swept at two points each. -/
def sweepSpecABC : List SweepSpec :=
  [⟨"a", .int 0, .int 1, .int 2⟩, ⟨"b", .int 0, .int 1, .int 2⟩, ⟨"c", .int 0, .int 1, .int 2⟩]

/-- C18: nothing checks that every other swept parameter has a static value.  Sweep `a`, `b`, `c` at two
points each and ask for the result as a function of `c` at `b = 1`, forgetting `a`: the call succeeds,
and the data returned are those of no value of `a` at all. -/
theorem C18_false_missing_static :
    let st := (sweepStart.computeFuncSweep (fun (n : ℕ) _ => (n + 1, .ok (PF.fin n))) sweepSpecABC 0).2.1
    (∃ sw vals, st.getSweepResult (fun _ => none) "c" [("b", .fin 1)] = .ok (sw, [.fin 4, .fin 6], vals)) ∧
    ∀ ia < 2, ¬ ((st.result.getD [])[4 * ia + 2]? = some (PF.fin 4) ∧
      (st.result.getD [])[4 * ia + 3]? = some (PF.fin 6)) := by
  refine ⟨⟨[.fin 0, .fin 1], [("b", .fin 1)], by decide +kernel⟩, by decide +kernel⟩

/-- C18: after a sweep over `a` alone, asking for the result as a function of `c`, which was not swept,
succeeds and pairs the data of the sweep over `a` with an empty sweep. -/
theorem C18_false_wrong_variable :
    let st := (sweepStart.computeFuncSweep (fun (n : ℕ) _ => (n + 1, .ok (PF.fin n)))
      [⟨"a", .int 0, .int 1, .int 2⟩] 0).2.1
    st.getSweepResult (fun _ => none) "c" [("b", .fin 1)] = .ok ([], [.fin 0, .fin 1], []) := by
  decide +kernel

/-! ### Temporary files -/

theorem readAll_files (disk : String → Option (SW.Pickled R)) (content : String → R) (files : List String)
    (h : ∀ f ∈ files, disk f = some (.plain (content f))) :
    SW.readAll disk true none (files.map .file) = .ok (files.map content) := by
  induction files with
  | nil => rfl
  | cons f fs ih =>
    simp [SW.readAll, SW.readDatum, h f (by simp), ih (fun g hg => h g (by simp [hg]))]

theorem readAll_keyed (disk : String → Option (SW.Pickled R)) (key : String) (content : String → R)
    (files : List String)
    (h : ∀ f ∈ files, ∃ d, disk f = some (.keyed d) ∧ Dict.get? d key = some (content f)) :
    SW.readAll disk true (some key) (files.map .file) = .ok (files.map content) := by
  induction files with
  | nil => rfl
  | cons f fs ih =>
    obtain ⟨d, h1, h2⟩ := h f (by simp)
    simp [SW.readAll, SW.readDatum, h1, h2, ih (fun g hg => h g (by simp [hg]))]

theorem fetchRows_map {A B : Type} (st : SW E R) (g : A → B) (data : List A) (rows : List (List ℕ)) :
    st.fetchRows (data.map g) rows = (st.fetchRows data rows).map (List.map g) := by
  induction rows with
  | nil => rfl
  | cons l ls ih =>
    simp only [SW.fetchRows]
    cases st.collapsedIndices (l.map (fun (x : ℕ) => (x : ℤ))) with
    | error e => rfl
    | ok i =>
      simp only [List.getElem?_map]
      cases data[i.toNat]? with
      | none => rfl
      | some r =>
        simp only [Option.map_some, ih]
        cases st.fetchRows data ls <;> rfl

theorem sliceSingle_map {A B : Type} (st : SW E R) (g : A → B) (data : List A) (ind : String)
    (static : List (String × PF)) :
    st.sliceSingle (data.map g) ind static =
      (st.sliceSingle data ind static).map (fun x => (x.1, x.2.1.map g, x.2.2)) := by
  unfold SW.sliceSingle
  split_ifs
  · rfl
  · split
    · split_ifs
      · rfl
      · split
        · rfl
        · split
          · split
            · rfl
            · split
              · rfl
              · split_ifs
                · rfl
                · simp only [fetchRows_map]
                  generalize SW.fetchRows st data _ = o
                  cases o <;> rfl
          · rfl
    · rfl

/-- Keeping the data in temporary files makes no difference: with a list of file names as data,
`getSweepResult` returns what it would return for the list of their contents, for every request that
selects something; the same with keyed files and the key. -/
theorem C18_temporary_files (st : SW E R) (disk : String → Option (SW.Pickled R)) (content : String → R)
    (f0 : String) (fs : List String) (ind : String) (static : List (String × PF)) (key : Option String)
    (h : (∀ f ∈ f0 :: fs, disk f = some (.plain (content f))) ∨
      ∃ k, key = some k ∧ ∀ f ∈ f0 :: fs, ∃ d, disk f = some (.keyed d) ∧ Dict.get? d k = some (content f)) :
    st.getSweepResult disk ind static (.list ((f0 :: fs).map .file)) key =
      st.getSweepResult disk ind static (.list ((f0 :: fs).map fun f => .val (content f))) key := by
  have e1 : st.resolveData disk (.list ((f0 :: fs).map fun f => .val (content f))) key =
      .ok ((f0 :: fs).map (fun f => .val (content f)), false, key) := rfl
  have e2 : ∃ key', st.resolveData disk (.list ((f0 :: fs).map .file)) key =
      .ok ((f0 :: fs).map SW.Datum.file, true, key') ∧
      ∀ l : List String, (∀ f ∈ l, f ∈ f0 :: fs) →
        SW.readAll disk true key' (l.map .file) = .ok (l.map content) := by
    rcases h with h | ⟨k, rfl, h⟩
    · refine ⟨none, ?_, fun l hl => readAll_files disk content l (fun f hf => h f (hl f hf))⟩
      simp [SW.resolveData, h f0 (by simp)]
    · refine ⟨some k, ?_, fun l hl => readAll_keyed disk k content l (fun f hf => h f (hl f hf))⟩
      obtain ⟨d, hd, _⟩ := h f0 (by simp)
      simp [SW.resolveData, hd]
  obtain ⟨key', e2, e3⟩ := e2
  have hmem : ∀ rows l, st.fetchRows (f0 :: fs) rows = .ok l → ∀ f ∈ l, f ∈ f0 :: fs := by
    intro rows
    induction rows with
    | nil => intro l hl; simp only [SW.fetchRows, Except.ok.injEq] at hl; subst hl; simp
    | cons r rows ih =>
      intro l hl
      simp only [SW.fetchRows] at hl
      split at hl
      · cases hl
      · split at hl
        · cases hl
        · rename_i x hx
          split at hl
          · cases hl
          · rename_i l' hl'
            cases hl
            intro f hf
            rcases List.mem_cons.1 hf with rfl | hf
            · exact List.mem_of_getElem? hx
            · exact ih l' hl' f hf
  have hsl : ∀ sw l vals, st.sliceSingle (f0 :: fs) ind static = .ok (sw, l, vals) → ∀ f ∈ l, f ∈ f0 :: fs := by
    intro sw l vals hl
    unfold SW.sliceSingle at hl
    split_ifs at hl
    split at hl
    · split_ifs at hl
      · cases hl; exact fun f hf => hf
      · split at hl
        · cases hl
        · split at hl
          · split at hl
            · cases hl
            · split at hl
              · cases hl
              · split_ifs at hl
                simp only at hl
                split at hl
                · cases hl
                · rename_i hr
                  cases hl
                  exact hmem _ _ hr
          · cases hl
    · cases hl
  simp only [SW.getSweepResult, e1, e2]
  rw [sliceSingle_map, show (fun f => SW.Datum.val (content f)) = SW.Datum.val ∘ content from rfl,
    ← List.map_map, sliceSingle_map, sliceSingle_map]
  cases hr : st.sliceSingle (f0 :: fs) ind static with
  | error e => rfl
  | ok x =>
    obtain ⟨sw, l, vals⟩ := x
    simp only [Except.map, e3 l (hsl sw l vals hr), SW.readAll_val]

/-- A disk with two plain files. -/
example : sweepStart.ndSweep [⟨"a", .int 0, .int 1, .int 2⟩] =
    ((sweepStart.ndSweep [⟨"a", .int 0, .int 1, .int 2⟩]).1, .ok ()) ∧
    (sweepStart.ndSweep [⟨"a", .int 0, .int 1, .int 2⟩]).1.getSweepResult
      (fun f => if f = "part-0.bin" then some (.plain (.fin 3)) else
        if f = "part-1.bin" then some (.plain (.fin 4)) else none) "a" []
      (.list [.file "part-0.bin", .file "part-1.bin"]) = .ok ([.fin 0, .fin 1], [.fin 3, .fin 4], []) :=
  ⟨Prod.ext rfl (by decide +kernel), by decide +kernel⟩

/-- Data under keys: with a dictionary of lists as data, `getSweepResult` with a key returns what it would return for the list under the
key, whether the list holds values or the names of files that hold dictionaries with that key; without a key, or with one that is not
there, it raises. -/
theorem C18_keyed_data (st : SW E R) (disk : String → Option (SW.Pickled R)) (d : Dict String (List (SW.Datum R))) (ind : String)
    (static : List (String × PF)) :
    st.getSweepResult disk ind static (.dict d) none = .error .valueError ∧
    (∀ k, d.get? k = none → st.getSweepResult disk ind static (.dict d) (some k) = .error .keyError) ∧
    (∀ k (r : R) (rs : List R), d.get? k = some ((r :: rs).map .val) →
      st.getSweepResult disk ind static (.dict d) (some k) = st.getSweepResult disk ind static (.list ((r :: rs).map .val)) none) ∧
    (∀ k (content : String → R) (f0 : String) (fs : List String), d.get? k = some ((f0 :: fs).map .file) →
      (∀ f ∈ f0 :: fs, ∃ d', disk f = some (.keyed d') ∧ Dict.get? d' k = some (content f)) →
      st.getSweepResult disk ind static (.dict d) (some k) = st.getSweepResult disk ind static (.list ((f0 :: fs).map fun f => .val (content f))) none) := by
  have hnk : ∀ (l : List R) k, l ≠ [] → st.getSweepResult disk ind static (.list (l.map .val)) (some k) = st.getSweepResult disk ind static (.list (l.map .val)) none := by
    intro l k hl
    cases l with
    | nil => exact absurd rfl hl
    | cons r rs =>
      have e : ∀ key, st.resolveData disk (.list ((r :: rs).map .val)) key = .ok ((r :: rs).map SW.Datum.val, false, key) := fun _ => rfl
      simp only [SW.getSweepResult, e]
      rw [sliceSingle_map]
      cases st.sliceSingle (r :: rs) ind static with
      | error e => rfl
      | ok x => simp only [Except.map, SW.readAll_val]
  refine ⟨rfl, ?_, ?_, ?_⟩
  · intro k hk
    simp [SW.getSweepResult, SW.resolveData, hk]
  · intro k r rs hk
    rw [← hnk (r :: rs) k (by simp)]
    have e1 : st.resolveData disk (.dict d) (some k) = .ok ((r :: rs).map SW.Datum.val, false, some k) := by
      simp [SW.resolveData, hk, SW.Datum.isFile]
    have e2 : st.resolveData disk (.list ((r :: rs).map .val)) (some k) = .ok ((r :: rs).map SW.Datum.val, false, some k) := rfl
    simp only [SW.getSweepResult, e1, e2]
  · intro k content f0 fs hk hc
    have h1 := hnk ((f0 :: fs).map content) k (by simp)
    rw [List.map_map] at h1
    refine Eq.trans ?_ h1
    refine Eq.trans ?_ (C18_temporary_files st disk content f0 fs ind static (some k) (Or.inr ⟨k, rfl, hc⟩))
    have e1 : st.resolveData disk (.dict d) (some k) = .ok ((f0 :: fs).map SW.Datum.file, true, some k) := by
      simp [SW.resolveData, hk, SW.Datum.isFile]
    have e2 : st.resolveData disk (.list ((f0 :: fs).map .file)) (some k) = .ok ((f0 :: fs).map SW.Datum.file, true, some k) := by
      obtain ⟨d', hd', -⟩ := hc f0 (by simp)
      simp [SW.resolveData, hd']
    simp only [SW.getSweepResult, e1, e2]

/-- A dictionary with a list of values and a list of file names. -/
example : (sweepStart.ndSweep [⟨"a", .int 0, .int 1, .int 2⟩]).1.getSweepResult
      (fun f => if f = "part-0.bin" then some (.keyed [("E", .fin 3)]) else
        if f = "part-1.bin" then some (.keyed [("E", .fin 4)]) else none) "a" []
      (.dict [("V", [.val (.fin 7), .val (.fin 8)]), ("E", [.file "part-0.bin", .file "part-1.bin"])]) (some "E") =
      .ok ([.fin 0, .fin 1], [.fin 3, .fin 4], []) := by
  decide +kernel

end Verif.Props
