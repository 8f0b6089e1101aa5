import Verif.Lemmas.Grid

/-!
# Lemmas on the sweep model
-/

namespace Verif

open Verif.Spec

namespace Dict

variable {κ α ι : Type} [DecidableEq κ]

theorem get?_foldl_set_of_not_mem (k : ι → κ) (v : ι → α) (l : List ι) (d : Dict κ α) (j : κ)
    (h : j ∉ l.map k) : get? (l.foldl (fun d x => set d (k x) (v x)) d) j = get? d j := by
  induction l generalizing d with
  | nil => rfl
  | cons x l ih =>
    simp only [List.map_cons, List.mem_cons, not_or] at h
    simp only [List.foldl_cons]
    rw [ih _ h.2, get?_set_ne _ _ (fun e => h.1 e.symm)]

theorem get?_foldl_set_of_mem (k : ι → κ) (v : ι → α) (l : List ι) (d : Dict κ α) (x : ι)
    (hn : (l.map k).Nodup) (h : x ∈ l) :
    get? (l.foldl (fun d x => set d (k x) (v x)) d) (k x) = some (v x) := by
  induction l generalizing d with
  | nil => simp at h
  | cons y l ih =>
    simp only [List.map_cons, List.nodup_cons] at hn
    simp only [List.foldl_cons]
    rcases List.mem_cons.1 h with rfl | h
    · rw [get?_foldl_set_of_not_mem _ _ _ _ _ hn.1, get?_set_self]
    · exact ih _ hn.2 h

theorem get?_foldl_set_key (v : κ → α) (l : List κ) (d : Dict κ α) (j : κ) :
    get? (l.foldl (fun d k => set d k (v k)) d) j = if j ∈ l then some (v j) else get? d j := by
  induction l generalizing d with
  | nil => rfl
  | cons y l ih =>
    simp only [List.foldl_cons, ih, List.mem_cons]
    by_cases hj : j ∈ l
    · simp [hj]
    · by_cases he : j = y
      · subst he; simp [hj]
      · simp [hj, he, get?_set_ne _ _ (fun e => he e.symm)]

theorem keys_foldl_set (v : κ → α) (l : List κ) (d : Dict κ α) (hn : l.Nodup)
    (hd : ∀ k ∈ l, k ∉ keys d) :
    keys (l.foldl (fun d k => set d k (v k)) d) = keys d ++ l := by
  induction l generalizing d with
  | nil => simp
  | cons y l ih =>
    simp only [List.nodup_cons] at hn
    simp only [List.foldl_cons]
    rw [ih _ hn.2, keys_set_of_not_mem _ (hd y (by simp))]
    · simp
    · intro k hk
      rw [keys_set_of_not_mem _ (hd y (by simp))]
      simp only [List.mem_append, List.mem_singleton, not_or]
      exact ⟨hd k (by simp [hk]), fun e => hn.1 (e ▸ hk)⟩

end Dict

namespace SW

variable {E R : Type}

theorem linearSweep_ok {p p' : Param} {a b : PyVal} {n : CountArg} {pts : List PF}
    (h : p.linearSweep a b n = (p', .ok pts)) :
    ∃ z : ℕ, n = .int z ∧ p'.N = z ∧ p'.sweep = pts ∧ pts.length = z := by
  unfold Param.linearSweep at h
  cases ha : a.toFloat? with
  | none => simp [ha] at h
  | some x =>
    cases hb : b.toFloat? with
    | none => simp [ha, hb] at h
    | some y =>
      cases n with
      | other => simp [ha, hb] at h
      | int z =>
        simp only [ha, hb] at h
        split_ifs at h <;> try (cases h; done)
        rename_i _ _ _ _ hz
        simp only [Prod.mk.injEq, Except.ok.injEq] at h
        obtain ⟨rfl, rfl⟩ := h
        refine ⟨z.toNat, ?_, ?_, rfl, by simp [Param.linspace]⟩
        · rw [Int.toNat_of_nonneg (by omega)]
        · simp only; omega

/-- What a successful run of the loop of `ndSweep` over distinct names has done. -/
theorem ndLoop_ok {pc pc' : PC E} {n n' : ℤ} {spec : List SweepSpec} {ks : List String}
    {sw : List (List PF)} (h : ndLoop pc n spec = (pc', n', .ok (ks, sw)))
    (hn : (sweptNames spec).Nodup) :
    ks = sweptNames spec ∧ n' = n * ((sizes spec).prod : ℕ) ∧ sw.map List.length = sizes spec ∧
    pc'.coll.keys = pc.coll.keys ∧ pc'.symMap = pc.symMap ∧ pc'.parz = pc.parz ∧ pc'.graph = pc.graph ∧
    (∀ k, k ∉ sweptNames spec → pc'.coll.get? k = pc.coll.get? k) ∧
    (∀ (j : ℕ) (s : SweepSpec), spec[j]? = some s → ∃ p p' pts, pc.coll.get? s.name = some p ∧
      p.linearSweep s.start s.stop s.N = (p', .ok pts) ∧ pc'.coll.get? s.name = some p' ∧
      sw[j]? = some pts) := by
  induction spec generalizing pc n ks sw n' with
  | nil =>
    simp only [ndLoop, Prod.mk.injEq, Except.ok.injEq] at h
    obtain ⟨rfl, rfl, rfl, rfl⟩ := h
    simp [sweptNames, sizes]
  | cons s rest ih =>
    simp only [ndLoop] at h
    cases hp : pc.coll.get? s.name with
    | none => simp [hp] at h
    | some p =>
      simp only [hp] at h
      rcases hs : p.linearSweep s.start s.stop s.N with ⟨p', o⟩
      rw [hs] at h
      cases o with
      | error e => simp at h
      | ok pts =>
        simp only at h
        rcases hr : ndLoop { pc with coll := pc.coll.set s.name p' } (n * p'.N) rest with ⟨pc2, n2, o2⟩
        rw [hr] at h
        cases o2 with
        | error e => simp at h
        | ok r =>
          obtain ⟨ks2, sw2⟩ := r
          simp only [Prod.mk.injEq, Except.ok.injEq] at h
          obtain ⟨rfl, rfl, rfl, rfl⟩ := h
          simp only [sweptNames, List.map_cons, List.nodup_cons] at hn
          obtain ⟨e1, e2, e3, e4, e5, e6, e7, e8, e9⟩ := ih hr hn.2
          obtain ⟨z, hz, hN, hsw, hlen⟩ := linearSweep_ok hs
          have hname : pc2.coll.get? s.name = some p' := by
            rw [e8 s.name hn.1]; simp
          refine ⟨by simp [e1, sweptNames], ?_, ?_, ?_, e5, e6, e7, ?_, ?_⟩
          · rw [e2, hN]; simp [sizes, hz]; ring
          · simp [e3, sizes, hz, hlen]
          · rw [e4]; exact Dict.keys_set_of_mem _ (Dict.mem_keys_of_get? hp)
          · intro k hk
            simp only [sweptNames, List.map_cons, List.mem_cons, not_or] at hk
            rw [e8 k hk.2]
            exact Dict.get?_set_ne _ _ (fun e => hk.1 e.symm)
          · intro j s' hj
            cases j with
            | zero =>
              simp only [List.getElem?_cons_zero, Option.some.injEq] at hj
              subst hj
              exact ⟨p, p', pts, hp, hs, hname, rfl⟩
            | succ j =>
              simp only [List.getElem?_cons_succ] at hj
              obtain ⟨q, q', qts, a1, a2, a3, a4⟩ := e9 j s' hj
              refine ⟨q, q', qts, ?_, a2, a3, by simpa using a4⟩
              have hne : s.name ≠ s'.name := by
                intro e
                apply hn.1
                rw [e]
                exact List.mem_map.2 ⟨s', List.mem_of_getElem? hj, rfl⟩
              rw [← a1]
              exact (Dict.get?_set_ne _ _ hne).symm

/-- The state after a successful `ndSweep` over distinct names. -/
structure Swept (st st' : SW E R) (spec : List SweepSpec) (sw : List (List PF)) : Prop where
  spec_eq : st'.spec = some spec
  npts_eq : st'.npts = some ((sizes spec).prod : ℕ)
  params_eq : st'.params = some (sweptNames spec)
  ndims_eq : st'.ndims = some spec.length
  lens : sw.map List.length = sizes spec
  nc_eq : st'.nc = some (ncOf (sweptNames spec) sw)
  c_eq : st'.c = some (cOf (sweptNames spec) (ncOf (sweptNames spec) sw))
  result_eq : st'.result = st.result
  keys_eq : st'.pc.coll.keys = st.pc.coll.keys
  symMap_eq : st'.pc.symMap = st.pc.symMap
  parz_eq : st'.pc.parz = st.pc.parz
  graph_eq : st'.pc.graph = st.pc.graph
  others : ∀ k, k ∉ sweptNames spec → st'.pc.coll.get? k = st.pc.coll.get? k
  swept : ∀ (j : ℕ) (s : SweepSpec), spec[j]? = some s → ∃ p p' pts, st.pc.coll.get? s.name = some p ∧
      p.linearSweep s.start s.stop s.N = (p', .ok pts) ∧ st'.pc.coll.get? s.name = some p' ∧
      sw[j]? = some pts
  cLen_eq : spec ≠ [] → st'.cLen = some (sizes spec).prod

theorem get?_ncOf {keys : List String} {sw : List (List PF)} (hn : keys.Nodup) {j : ℕ} {k : String}
    (h : keys[j]? = some k) : (ncOf keys sw).get? k = some (meshgridIJ .nan sw j) := by
  have hm : (k, j) ∈ keys.zipIdx := by
    rw [List.mem_zipIdx_iff_getElem?]; exact h
  have := Dict.get?_foldl_set_of_mem (fun kj : String × ℕ => kj.1) (fun kj => meshgridIJ .nan sw kj.2)
    keys.zipIdx [] (k, j) (by rw [show (fun kj : String × ℕ => kj.1) = Prod.fst from rfl, List.zipIdx_map_fst]; exact hn) hm
  exact this

theorem get?_cOf {keys : List String} {nc : Dict String (NDArray PF)} {k : String} {a : NDArray PF}
    (h : nc.get? k = some a) (hk : k ∈ keys) : (cOf keys nc).get? k = some a.flatten := by
  have key : ∀ (keys : List String) (d : Dict String (List PF)),
      (k ∈ keys ∨ Dict.get? d k = some a.flatten) →
      Dict.get? (keys.foldl (fun d k => match nc.get? k with
        | none => d
        | some a => Dict.set d k a.flatten) d) k = some a.flatten := by
    intro keys
    induction keys with
    | nil => intro d hd; simpa using hd
    | cons y keys ih =>
      intro d hd
      simp only [List.foldl_cons]
      apply ih
      by_cases hy : y = k
      · subst hy; right; simp [h]
      · rcases hd with hd | hd
        · left
          rcases List.mem_cons.1 hd with e | e
          · exact absurd e.symm hy
          · exact e
        · right
          cases nc.get? y with
          | none => exact hd
          | some b => rw [Dict.get?_set_ne _ _ hy]; exact hd
  exact key keys [] (Or.inl hk)

theorem ndSweep_ok {st st' : SW E R} {spec : List SweepSpec} (h : st.ndSweep spec = (st', .ok ()))
    (hn : (sweptNames spec).Nodup) : ∃ sw, Swept st st' spec sw := by
  unfold ndSweep at h
  rcases hl : ndLoop st.pc 1 spec with ⟨pc, n, o⟩
  rw [hl] at h
  cases o with
  | error e => simp at h
  | ok r =>
    obtain ⟨ks, sw⟩ := r
    obtain ⟨rfl, e2, e3, e4, e5, e6, e7, e8, e9⟩ := ndLoop_ok hl hn
    simp only [Prod.mk.injEq, and_true] at h
    subst h
    refine ⟨sw, ⟨rfl, by simp [e2], rfl, ?_, e3, rfl, rfl, rfl, e4, e5, e6, e7, e8, e9, ?_⟩⟩
    · have := congrArg List.length e3
      simpa [sizes] using this
    · intro hne
      cases spec with
      | nil => exact absurd rfl hne
      | cons s rest =>
        have hn' : (s.name :: rest.map SweepSpec.name).Nodup := hn
        simp only [sweptNames, List.map_cons]
        rw [get?_cOf (a := meshgridIJ .nan sw 0) (get?_ncOf hn' (by simp)) (by simp)]
        simp [NDArray.flatten, meshgridIJ, length_indexTuples, e3]

variable {st st' : SW E R} {spec : List SweepSpec} {sw : List (List PF)}

theorem gridSizes_ok {pc : PC E} {ks : List String} {ns : List ℕ}
    (h : List.Forall₂ (fun k n => ∃ p, pc.coll.get? k = some p ∧ p.N = ((n : ℕ) : ℤ)) ks ns) :
    gridSizes pc ks = .ok (ns.map (fun (x : ℕ) => (x : ℤ))) := by
  induction h with
  | nil => rfl
  | cons h _ ih =>
    obtain ⟨p, hp, hN⟩ := h
    simp [gridSizes, hp, ih, hN]

theorem Swept.sizes_forall (h : Swept st st' spec sw) :
    List.Forall₂ (fun k n => ∃ p, st'.pc.coll.get? k = some p ∧ p.N = ((n : ℕ) : ℤ))
      (sweptNames spec) (sizes spec) := by
  rw [List.forall₂_iff_get]
  refine ⟨by simp [sweptNames, sizes], ?_⟩
  intro i h1 h2
  have hi : i < spec.length := by simpa [sweptNames] using h1
  obtain ⟨p, p', pts, _, hl, hp', _⟩ := h.swept i spec[i] (List.getElem?_eq_getElem hi)
  obtain ⟨z, hz, hN, _, _⟩ := linearSweep_ok hl
  refine ⟨p', by simpa [sweptNames] using hp', ?_⟩
  simp [sizes, hz, hN]

theorem Swept.collapsed (h : Swept st st' spec sw) {t : List ℕ} (ht : t.length = spec.length) :
    st'.collapsedIndices (t.map (fun (x : ℕ) => (x : ℤ))) = .ok (rowMajor (sizes spec) t : ℤ) := by
  simp only [collapsedIndices, h.params_eq, gridSizes_ok h.sizes_forall]
  rw [flatIndex_eq (by simp [sizes, ht])]

theorem Swept.sweep_eq (h : Swept st st' spec sw) {j : ℕ} {s : SweepSpec} (hj : spec[j]? = some s) :
    ∃ p', st'.pc.coll.get? s.name = some p' ∧ sw[j]? = some p'.sweep := by
  obtain ⟨p, p', pts, _, hl, hp', hs⟩ := h.swept j s hj
  obtain ⟨z, hz, hN, e, _⟩ := linearSweep_ok hl
  exact ⟨p', hp', by rw [hs, e]⟩

/-- The flat grid of a swept parameter. -/
theorem Swept.grid (h : Swept st st' spec sw) (hn : (sweptNames spec).Nodup) {j : ℕ} {s : SweepSpec}
    (hj : spec[j]? = some s) :
    ∃ g a, (cOf (sweptNames spec) (ncOf (sweptNames spec) sw)).get? s.name = some g ∧
      (ncOf (sweptNames spec) sw).get? s.name = some a ∧ a.shape = sizes spec ∧
      g.length = (sizes spec).prod ∧
      ∀ t, InGrid (sizes spec) t → ∃ x p', st'.pc.coll.get? s.name = some p' ∧
        p'.sweep[t.getD j 0]? = some x ∧ g[rowMajor (sizes spec) t]? = some x ∧ a.get t = x := by
  have hk : (sweptNames spec)[j]? = some s.name := by simp [sweptNames, hj]
  have hnc := get?_ncOf (sw := sw) hn hk
  refine ⟨_, _, get?_cOf hnc (List.mem_of_getElem? hk), hnc, ?_, ?_, ?_⟩
  · simp [meshgridIJ, h.lens]
  · simp [NDArray.flatten, meshgridIJ, length_indexTuples, h.lens]
  · intro t ht
    obtain ⟨p', hp', hs⟩ := h.sweep_eq hj
    have hjl : j < spec.length := by
      by_contra hc; rw [List.getElem?_eq_none (by omega)] at hj; cases hj
    have hlen : p'.sweep.length = (sizes spec).getD j 0 := by
      rw [← h.lens]; simp [List.getD, hs]
    have htj : t.getD j 0 < p'.sweep.length := by
      rw [hlen]
      have := (List.forall₂_iff_get.1 ht).2 j (by rw [InGrid.length ht]; simpa [sizes] using hjl)
        (by simpa [sizes] using hjl)
      simpa [List.getD, List.getElem?_eq_getElem, InGrid.length ht, sizes, hjl] using this
    refine ⟨p'.sweep[t.getD j 0], p', hp', List.getElem?_eq_getElem htj, ?_, ?_⟩
    · simp only [NDArray.flatten, meshgridIJ, h.lens, List.getElem?_map, indexTuples_get ht,
        Option.map_some]
      congr 1
      simp only [List.getD_eq_getElem?_getD] at htj ⊢
      simp [hs, List.getElem?_eq_getElem htj]
    · simp only [meshgridIJ]
      simp only [List.getD_eq_getElem?_getD] at htj ⊢
      simp [hs, List.getElem?_eq_getElem htj]

end SW

end Verif
