import Verif.Lemmas.Sweep

/-!
# Lemmas on `getSweepResult`
-/

namespace Verif

open Verif.Spec

namespace SW

variable {E R : Type}

/-! ### Nearest point -/

theorem exists_min_list (l : List ℚ) (h : l ≠ []) : ∃ x ∈ l, ∀ y ∈ l, x ≤ y := by
  induction l with
  | nil => exact absurd rfl h
  | cons a l ih =>
    by_cases hl : l = []
    · subst hl; exact ⟨a, by simp⟩
    · obtain ⟨x, hx, hmin⟩ := ih hl
      by_cases hax : a ≤ x
      · refine ⟨a, by simp, ?_⟩
        intro y hy
        rcases List.mem_cons.1 hy with rfl | hy
        · exact le_rfl
        · exact hax.trans (hmin y hy)
      · refine ⟨x, by simp [hx], ?_⟩
        intro y hy
        rcases List.mem_cons.1 hy with rfl | hy
        · exact (not_le.1 hax).le
        · exact hmin y hy

theorem argmin_fin (l : List ℚ) (h : l ≠ []) :
    ∃ i x, argmin (l.map PF.fin) = some i ∧ l[i]? = some x ∧ (∀ y ∈ l, x ≤ y) ∧
      ∀ (j : ℕ) y, j < i → l[j]? = some y → x < y := by
  obtain ⟨m, hm, hmin⟩ := exists_min_list l h
  have hnan : (l.map PF.fin).findIdx? (fun x => decide (x = .nan)) = none := by
    rw [List.findIdx?_eq_none_iff]; intro x hx
    obtain ⟨q, _, rfl⟩ := List.mem_map.1 hx
    simp
  simp only [argmin, hnan]
  have hall : ∀ q, ((l.map PF.fin).all (fun y => PF.le (.fin q) y)) = true ↔ ∀ y ∈ l, q ≤ y := by
    intro q; simp [PF.le]
  cases hf : (l.map PF.fin).findIdx? (fun x => (l.map PF.fin).all (fun y => PF.le x y)) with
  | none =>
    rw [List.findIdx?_eq_none_iff] at hf
    have := hf (.fin m) (List.mem_map.2 ⟨m, hm, rfl⟩)
    rw [(hall m).2 hmin] at this
    cases this
  | some i =>
    rw [List.findIdx?_eq_some_iff_getElem] at hf
    obtain ⟨hi, h1, h2⟩ := hf
    have hi' : i < l.length := by simpa using hi
    rw [List.getElem_map, hall] at h1
    refine ⟨i, l[i], rfl, List.getElem?_eq_getElem hi', h1, ?_⟩
    intro j y hj hy
    have hjl : j < l.length := by omega
    rw [List.getElem?_eq_getElem hjl] at hy
    cases hy
    by_contra hc
    have := h2 j hj
    rw [List.getElem_map, hall] at this
    exact this (fun y hy => (not_lt.1 hc).trans (h1 y hy))

theorem nearest_fin (sweep : List PF) (v : ℚ) (hne : sweep ≠ []) (hfin : ∀ x ∈ sweep, ∃ q, x = .fin q) :
    ∃ i, nearest sweep (.fin v) = some i ∧ IsNearest sweep v i := by
  obtain ⟨l, rfl⟩ : ∃ l : List ℚ, sweep = l.map PF.fin := by
    clear hne
    induction sweep with
    | nil => exact ⟨[], rfl⟩
    | cons a sweep ih =>
      obtain ⟨q, rfl⟩ := hfin a (by simp)
      obtain ⟨l, rfl⟩ := ih (fun x hx => hfin x (by simp [hx]))
      exact ⟨q :: l, rfl⟩
  have e : (l.map PF.fin).map (fun x => absPF (PF.sub x (.fin v))) =
      (l.map (fun q => |q - v|)).map PF.fin := by
    simp [absPF, PF.sub, PF.neg, PF.add, sub_eq_add_neg]
  obtain ⟨i, x, h1, h2, h3, h4⟩ := argmin_fin (l.map (fun q => |q - v|)) (by simpa using hne)
  refine ⟨i, by rw [nearest, e]; exact h1, ?_⟩
  rw [List.getElem?_map, Option.map_eq_some_iff] at h2
  obtain ⟨q, hq, rfl⟩ := h2
  refine ⟨q, by simp [hq], ?_, ?_⟩
  · intro j y hy
    rw [List.getElem?_map, Option.map_eq_some_iff] at hy
    obtain ⟨z, hz, e'⟩ := hy
    simp only [PF.fin.injEq] at e'
    subst e'
    exact h3 _ (List.mem_map.2 ⟨z, List.mem_of_getElem? hz, rfl⟩)
  · intro j y hj hy
    rw [List.getElem?_map, Option.map_eq_some_iff] at hy
    obtain ⟨z, hz, e'⟩ := hy
    simp only [PF.fin.injEq] at e'
    subst e'
    exact h4 j _ hj (by simp [hz])

/-! ### Positions in the specification -/

theorem specIndex_eq {spec : List SweepSpec} (hn : (sweptNames spec).Nodup) {j : ℕ} {s : SweepSpec}
    (h : spec[j]? = some s) : specIndex spec s.name = some (spec.length - j - 1) := by
  have hm : (s, j) ∈ spec.zipIdx := by rw [List.mem_zipIdx_iff_getElem?]; exact h
  have hk : spec.zipIdx.map (fun si => si.1.name) = sweptNames spec := by
    rw [show (fun si : SweepSpec × ℕ => si.1.name) = SweepSpec.name ∘ Prod.fst from rfl,
      ← List.map_map, List.zipIdx_map_fst]; rfl
  exact Dict.get?_foldl_set_of_mem (fun si : SweepSpec × ℕ => si.1.name)
    (fun si => spec.length - si.2 - 1) spec.zipIdx [] (s, j) (by rw [hk]; exact hn) hm

theorem specN_eq {spec : List SweepSpec} (hn : (sweptNames spec).Nodup) {j : ℕ} {s : SweepSpec}
    (h : spec[j]? = some s) : specN spec s.name = (sizes spec)[j]? := by
  have := Dict.get?_foldl_set_of_mem (fun s : SweepSpec => s.name)
    (fun s => match s.N with | .int z => z.toNat | .other => 0) spec [] s hn (List.mem_of_getElem? h)
  refine Eq.trans this ?_
  simp only [sizes, List.getElem?_map, h, Option.map_some]
  cases s.N <;> rfl

/-! ### Filling the table of indices -/

theorem assign_ok {α : Type} {f : List α} {i : ℕ} (x : α) (h : i < f.length) :
    assign f i x = .ok (f.set i x) := by simp [assign, h]

theorem index_inj {spec : List SweepSpec} {j j' : ℕ} {s s' : SweepSpec} (h : spec[j]? = some s)
    (h' : spec[j']? = some s') (e : spec.length - j - 1 = spec.length - j' - 1) : j = j' := by
  have h1 : j < spec.length := by
    by_contra hc; rw [List.getElem?_eq_none (by omega)] at h; cases h
  have h2 : j' < spec.length := by
    by_contra hc; rw [List.getElem?_eq_none (by omega)] at h'; cases h'
  omega

theorem pos_lt {α : Type} {l : List α} {j : ℕ} {s : α} (h : l[j]? = some s) : j < l.length := by
  by_contra hc; rw [List.getElem?_eq_none (by omega)] at h; cases h

theorem pos_of_name {spec : List SweepSpec} {k : String} (h : k ∈ sweptNames spec) :
    ∃ (j : ℕ) (s : SweepSpec), spec[j]? = some s ∧ s.name = k := by
  obtain ⟨s, hs, rfl⟩ := List.mem_map.1 h
  obtain ⟨j, hj⟩ := List.mem_iff_getElem?.1 hs
  exact ⟨j, s, hj, rfl⟩

theorem name_inj {spec : List SweepSpec} (hn : (sweptNames spec).Nodup) {j j' : ℕ} {s s' : SweepSpec}
    (h : spec[j]? = some s) (h' : spec[j']? = some s') (e : s.name = s'.name) : j = j' := by
  have h1 : (sweptNames spec)[j]? = some s.name := by simp [sweptNames, h]
  have h2 : (sweptNames spec)[j']? = some s.name := by simp [sweptNames, h', e]
  have hj := pos_lt h1
  exact (List.getElem?_inj hj hn).1 (h1.trans h2.symm)

theorem assignStatics_ok {α : Type} {spec : List SweepSpec} (hn : (sweptNames spec).Nodup) (mk : ℕ → α)
    (pts : List (String × ℕ × PF)) (f : List α) (hlen : f.length = spec.length)
    (hk : ∀ x ∈ pts, x.1 ∈ sweptNames spec) (hnd : (pts.map Prod.fst).Nodup) :
    ∃ f', assignStatics spec mk pts f = .ok f' ∧ f'.length = spec.length ∧
      ∀ (j : ℕ) (s : SweepSpec), spec[j]? = some s →
        (∀ i v, (s.name, i, v) ∈ pts → f'[spec.length - j - 1]? = some (mk i)) ∧
        (s.name ∉ pts.map Prod.fst → f'[spec.length - j - 1]? = f[spec.length - j - 1]?) := by
  induction pts generalizing f with
  | nil => exact ⟨f, rfl, hlen, fun j s _ => ⟨by simp, by simp⟩⟩
  | cons x pts ih =>
    obtain ⟨k, i, v⟩ := x
    obtain ⟨j0, s0, hj0, hs0⟩ := pos_of_name (hk (k, i, v) (by simp))
    simp only at hs0
    subst hs0
    simp only [List.map_cons, List.nodup_cons] at hnd
    have hj0l := pos_lt hj0
    have hb : spec.length - j0 - 1 < f.length := by omega
    obtain ⟨f', e, hl, h⟩ := ih (f.set (spec.length - j0 - 1) (mk i)) (by simpa using hlen)
      (fun x hx => hk x (by simp [hx])) hnd.2
    refine ⟨f', by simp [assignStatics, specIndex_eq hn hj0, assign_ok _ hb, e], hl, ?_⟩
    intro j s hj
    obtain ⟨h1, h2⟩ := h j s hj
    constructor
    · intro i' v' hm
      rcases List.mem_cons.1 hm with e | hm
      · simp only [Prod.mk.injEq] at e
        obtain ⟨e1, rfl, rfl⟩ := e
        have : j = j0 := name_inj hn hj hj0 e1
        subst this
        rw [h2 (by rw [e1]; exact hnd.1)]
        simp [hb]
      · exact h1 i' v' hm
    · intro hnot
      simp only [List.map_cons, List.mem_cons, not_or] at hnot
      rw [h2 hnot.2, List.getElem?_set_ne]
      intro e
      apply hnot.1
      have := index_inj hj0 hj e
      subst this
      rw [hj] at hj0; cases hj0; rfl

theorem assignInds_ok {spec : List SweepSpec} (hn : (sweptNames spec).Nodup)
    (ks : List String) (f : List (List ℕ)) (hlen : f.length = spec.length)
    (hk : ∀ k ∈ ks, k ∈ sweptNames spec) :
    ∃ f', assignInds spec ks f = .ok f' ∧ f'.length = spec.length ∧
      ∀ (j : ℕ) (s : SweepSpec), spec[j]? = some s →
        (s.name ∈ ks → f'[spec.length - j - 1]? = (sizes spec)[j]?.map List.range) ∧
        (s.name ∉ ks → f'[spec.length - j - 1]? = f[spec.length - j - 1]?) := by
  induction ks generalizing f with
  | nil => exact ⟨f, rfl, hlen, fun j s _ => ⟨by simp, by simp⟩⟩
  | cons k ks ih =>
    obtain ⟨j0, s0, hj0, hs0⟩ := pos_of_name (hk k (by simp))
    subst hs0
    have hj0l := pos_lt hj0
    have hb : spec.length - j0 - 1 < f.length := by omega
    obtain ⟨n0, hN⟩ : ∃ n0, (sizes spec)[j0]? = some n0 :=
      ⟨_, List.getElem?_eq_getElem (by simpa [sizes] using hj0l)⟩
    obtain ⟨f', e, hl, h⟩ := ih (f.set (spec.length - j0 - 1) (List.range n0))
      (by simpa using hlen) (fun x hx => hk x (by simp [hx]))
    refine ⟨f', ?_, hl, ?_⟩
    · simp only [assignInds, specIndex_eq hn hj0, specN_eq hn hj0, hN, assign_ok _ hb, e]
    intro j s hj
    obtain ⟨h1, h2⟩ := h j s hj
    constructor
    · intro hm
      by_cases hin : s.name ∈ ks
      · exact h1 hin
      · have e1 : s.name = s0.name := by
          rcases List.mem_cons.1 hm with e1 | e1
          · exact e1
          · exact absurd e1 hin
        have : j = j0 := name_inj hn hj hj0 e1
        subst this
        rw [h2 hin, hN]
        simp [hb]
    · intro hnot
      simp only [List.mem_cons, not_or] at hnot
      rw [h2 hnot.2, List.getElem?_set_ne]
      intro e
      apply hnot.1
      have := index_inj hj0 hj e
      subst this
      rw [hj] at hj0; cases hj0; rfl

/-! ### Fetching -/

theorem fetchRows_ok {A : Type} (st : SW E R) (data : List A) (rows : List (List ℕ))
    (h : ∀ l ∈ rows, ∃ k : ℕ, st.collapsedIndices (l.map (fun (x : ℕ) => (x : ℤ))) = .ok (k : ℤ) ∧
      k < data.length) :
    ∃ rs, st.fetchRows data rows = .ok rs ∧ rs.length = rows.length ∧
      ∀ (i : ℕ) (l : List ℕ), rows[i]? = some l → ∃ (k : ℕ) (x : A),
        st.collapsedIndices (l.map (fun (x : ℕ) => (x : ℤ))) = .ok (k : ℤ) ∧
        rs[i]? = some x ∧ data[k]? = some x := by
  induction rows with
  | nil => exact ⟨[], rfl, rfl, by simp⟩
  | cons l ls ih =>
    obtain ⟨k, hk, hlt⟩ := h l (by simp)
    obtain ⟨rs, e, hl, hr⟩ := ih (fun l hl => h l (by simp [hl]))
    refine ⟨data[k] :: rs, ?_, by simp [hl], ?_⟩
    · simp [fetchRows, hk, List.getElem?_eq_getElem hlt, e]
    · intro i l' hi
      cases i with
      | zero =>
        simp only [List.getElem?_cons_zero, Option.some.injEq] at hi
        subst hi
        exact ⟨k, data[k], hk, by simp, List.getElem?_eq_getElem hlt⟩
      | succ i =>
        simp only [List.getElem?_cons_succ] at hi
        obtain ⟨k', x, a, b, c⟩ := hr i l' hi
        exact ⟨k', x, a, by simpa using b, c⟩

theorem readAll_val (disk : String → Option (Pickled R)) (key : Option String) (rs : List R) :
    readAll disk false key (rs.map .val) = .ok rs := by
  induction rs with
  | nil => rfl
  | cons r rs ih => simp [readAll, readDatum, ih]

/-! ### The static points -/

theorem staticPoints_ok (pc : PC E) (static : List (String × PF))
    (h : ∀ x ∈ static, ∃ p v, pc.coll.get? x.1 = some p ∧ x.2 = .fin v ∧ p.sweep ≠ [] ∧
      ∀ y ∈ p.sweep, ∃ q, y = .fin q) :
    ∃ pts, staticPoints pc static = .ok pts ∧ pts.map Prod.fst = static.map Prod.fst ∧
      (∀ x ∈ pts, ∃ p v, pc.coll.get? x.1 = some p ∧ (x.1, .fin v) ∈ static ∧
        IsNearest p.sweep v x.2.1 ∧ p.sweep[x.2.1]? = some x.2.2) := by
  induction static with
  | nil => exact ⟨[], rfl, rfl, by simp⟩
  | cons x static ih =>
    obtain ⟨k, w⟩ := x
    obtain ⟨p, v, hp, hv, hne, hfin⟩ := h (k, w) (by simp)
    simp only at hp hv
    subst hv
    obtain ⟨pts, e, hk, hs⟩ := ih (fun x hx => h x (by simp [hx]))
    obtain ⟨i, hi, hnear⟩ := nearest_fin p.sweep v hne hfin
    obtain ⟨q, hq, hrest⟩ := hnear
    refine ⟨(k, i, p.sweep.getD i .nan) :: pts, by simp [staticPoints, hp, hi, e], by simp [hk], ?_⟩
    intro x hx
    rcases List.mem_cons.1 hx with rfl | hx
    · exact ⟨p, v, hp, by simp, ⟨q, hq, hrest⟩, by simp [hq, List.getD]⟩
    · obtain ⟨p', v', h1, h2, h3⟩ := hs x hx
      exact ⟨p', v', h1, by simp [h2], h3⟩

theorem namesKnown_iff (st : SW E R) (names : List String) :
    st.namesKnown names = true ↔ ∀ k ∈ names, k ∈ st.pc.coll.keys := by
  simp [namesKnown, Dict.has_iff]

theorem length_eq_of_cover {α : Type} (l m : List α) (a : α) (hl : l.Nodup) (hm : m.Nodup)
    (ha : a ∈ l) (h : ∀ x, x ∈ m ↔ x ∈ l ∧ x ≠ a) : 1 + m.length = l.length := by
  classical
  have h1 : (a :: m).Perm l := by
    rw [List.perm_ext_iff_of_nodup (by simp [hm, h]) hl]
    intro x
    simp only [List.mem_cons, h]
    constructor
    · rintro (rfl | ⟨hx, _⟩)
      · exact ha
      · exact hx
    · intro hx
      by_cases e : x = a
      · exact Or.inl e
      · exact Or.inr ⟨hx, e⟩
  have := h1.length_eq
  simp at this; omega

end SW

end Verif
