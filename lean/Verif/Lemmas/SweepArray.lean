import Verif.Model.SweepArray
import Verif.Lemmas.SweepMulti

/-!
# Lemmas about sweep results that are arrays
-/

namespace Verif

open Verif.Spec

namespace NDArray

variable {α : Type}

theorem stack_ok [Inhabited α] (l : List (NDArray α)) (s : List ℕ) (hne : l ≠ []) (hs : ∀ b ∈ l, b.shape = s) :
    ∃ a, stack l = .ok a ∧ a.shape = l.length :: s ∧ ∀ (i : ℕ) (b : NDArray α), l[i]? = some b → ∀ t, a.get (i :: t) = b.get t := by
  obtain ⟨b0, l', rfl⟩ := List.exists_cons_of_ne_nil hne
  have hall : ((b0 :: l').all fun b => decide (b.shape = b0.shape)) = true := by
    rw [List.all_eq_true]
    intro b hb
    rw [decide_eq_true_eq, hs b hb, hs b0 (by simp)]
  refine ⟨{ shape := (b0 :: l').length :: b0.shape
            get := fun t => (((b0 :: l')[t.headD 0]?).map fun b => b.get t.tail).getD default }, ?_, ?_, ?_⟩
  · simp only [stack]
    rw [if_pos hall]
  · rw [hs b0 (by simp)]
  · intro i b hi t
    simp only [List.headD_cons, hi, List.tail_cons, Option.map_some, Option.getD_some]

theorem stack_ragged [Inhabited α] (l : List (NDArray α)) (a b : NDArray α) (ha : a ∈ l) (hb : b ∈ l) (h : a.shape ≠ b.shape) :
    stack l = .error .valueError := by
  obtain ⟨b0, l', rfl⟩ := List.exists_cons_of_ne_nil (List.ne_nil_of_mem ha)
  simp only [stack]
  rw [if_neg]
  intro hall
  rw [List.all_eq_true] at hall
  have h1 := hall a ha
  have h2 := hall b hb
  rw [decide_eq_true_eq] at h1 h2
  exact h (h1.trans h2.symm)

end NDArray

theorem rowMajor_append {Ns s u v : List ℕ} (hu : InGrid Ns u) :
    rowMajor (Ns ++ s) (u ++ v) = rowMajor Ns u * s.prod + rowMajor s v := by
  unfold InGrid at hu
  induction hu with
  | nil => simp [rowMajor]
  | @cons i n u Ns hi hu ih =>
    simp only [List.cons_append, rowMajor, ih, List.prod_append]
    ring

theorem InGrid.append {Ns s u v : List ℕ} (hu : InGrid Ns u) (hv : InGrid s v) : InGrid (Ns ++ s) (u ++ v) := by
  unfold InGrid at *
  exact List.rel_append hu hv

namespace NDArray

variable {α : Type}

/-- Splitting the first axis of a stack. -/
theorem reshape_ok [Inhabited α] (a : NDArray α) (n : ℕ) (Ns s : List ℕ) (ha : a.shape = n :: s) (hn : Ns.prod = n) (hne : Ns ≠ []) :
    ∃ b, a.reshape (Ns ++ s) = .ok b ∧ b.shape = Ns ++ s ∧
      ∀ u v, InGrid Ns u → InGrid s v → b.get (u ++ v) = a.get (rowMajor Ns u :: v) := by
  refine ⟨_, by unfold reshape; rw [if_neg (by simp [hne]), if_neg (by simp [ha, hn])], rfl, ?_⟩
  intro u v hu hv
  have hlen : (u ++ v).length = (Ns ++ s).length := List.Forall₂.length_eq (InGrid.append hu hv)
  simp only [flatIndex_eq hlen, Int.toNat_natCast]
  have hg : InGrid (n :: s) (rowMajor Ns u :: v) := by
    unfold InGrid
    exact List.Forall₂.cons (hn ▸ rowMajor_lt hu) hv
  have := indexTuples_get hg
  rw [rowMajor_append hu, flatten, ha, List.getD_eq_getElem?_getD, List.getElem?_map]
  simp only [rowMajor] at this
  rw [this]
  rfl

end NDArray

namespace SW

variable {E R α : Type}

theorem stackEntries_ok [Inhabited α] (arr : R → Option (NDArray α)) (rs : List R) (s : List ℕ) (hne : rs ≠ [])
    (hs : ∀ r ∈ rs, ∃ b, arr r = some b ∧ b.shape = s) :
    ∃ a, stackEntries arr rs = .ok a ∧ a.shape = rs.length :: s ∧
      ∀ (i : ℕ) (r : R) (b : NDArray α), rs[i]? = some r → arr r = some b → ∀ t, a.get (i :: t) = b.get t := by
  have key : ∀ rs : List R, (∀ r ∈ rs, ∃ b, arr r = some b ∧ b.shape = s) →
      ∃ l : List (NDArray α), rs.mapM arr = some l ∧ l.length = rs.length ∧ (∀ b ∈ l, b.shape = s) ∧
        ∀ (i : ℕ) (r : R) (b : NDArray α), rs[i]? = some r → arr r = some b → l[i]? = some b := by
    intro rs
    induction rs with
    | nil => intro _; exact ⟨[], rfl, rfl, by simp, by simp⟩
    | cons r rs ih =>
      intro h
      obtain ⟨b, hb, hbs⟩ := h r (by simp)
      obtain ⟨l, h1, h2, h3, h4⟩ := ih (fun r hr => h r (by simp [hr]))
      refine ⟨b :: l, by simp [List.mapM_cons, hb, h1], by simp [h2], ?_, ?_⟩
      · intro c hc
        rcases List.mem_cons.1 hc with rfl | hc
        · exact hbs
        · exact h3 c hc
      · intro i r' b' hi hb'
        cases i with
        | zero =>
          simp only [List.getElem?_cons_zero, Option.some.injEq] at hi
          subst hi
          rw [hb] at hb'
          simpa using hb'
        | succ i => simpa using h4 i r' b' (by simpa using hi) hb'
  obtain ⟨l, h1, h2, h3, h4⟩ := key rs hs
  have hl : l ≠ [] := by
    intro h; rw [h] at h2; exact hne (List.length_eq_zero_iff.1 h2.symm)
  obtain ⟨a, a1, a2, a3⟩ := NDArray.stack_ok l s hl h3
  refine ⟨a, by simp only [stackEntries, h1, a1], by rw [a2, h2], ?_⟩
  intro i r b hi hb t
  exact a3 i b (h4 i r b hi hb) t

theorem stackEntries_ragged [Inhabited α] (arr : R → Option (NDArray α)) (rs : List R) (x y : R) (hx : x ∈ rs) (hy : y ∈ rs)
    (h : (arr x).map NDArray.shape ≠ (arr y).map NDArray.shape) : stackEntries arr rs = .error .valueError := by
  unfold stackEntries
  cases hm : rs.mapM arr with
  | none => rfl
  | some l =>
    have key : ∀ (rs : List R) (l : List (NDArray α)), rs.mapM arr = some l → ∀ z ∈ rs, ∃ b ∈ l, arr z = some b := by
      intro rs
      induction rs with
      | nil => intro l _ z hz; simp at hz
      | cons r rs ih =>
        intro l hl z hz
        rw [List.mapM_cons] at hl
        cases hr : arr r with
        | none => rw [hr] at hl; cases hl
        | some b =>
          rw [hr] at hl
          cases hrs : rs.mapM arr with
          | none => rw [hrs] at hl; cases hl
          | some l' =>
            rw [hrs] at hl
            cases hl
            rcases List.mem_cons.1 hz with rfl | hz
            · exact ⟨b, by simp, hr⟩
            · obtain ⟨c, hc, e⟩ := ih l' hrs z hz
              exact ⟨c, by simp [hc], e⟩
    obtain ⟨a, ha, ea⟩ := key rs l hm x hx
    obtain ⟨b, hb, eb⟩ := key rs l hm y hy
    rw [ea, eb] at h
    exact NDArray.stack_ragged l a b ha hb (fun e => h (by simp [e]))

/-! ### States with the same sweeps -/

/-- The attributes `getSweepResult` looks at are the same. -/
structure SameSweeps (a b : SW E R) : Prop where
  spec : a.spec = b.spec
  params : a.params = b.params
  param : ∀ k, (a.pc.coll.get? k).map (fun p => (p.sweep, p.N)) = (b.pc.coll.get? k).map (fun p => (p.sweep, p.N))

theorem SameSweeps.has {a b : SW E R} (h : SameSweeps a b) (k : String) : a.pc.coll.has k = b.pc.coll.has k := by
  have := h.param k
  unfold Dict.has
  cases ha : a.pc.coll.get? k <;> cases hb : b.pc.coll.get? k <;> simp_all

theorem SameSweeps.namesKnown {a b : SW E R} (h : SameSweeps a b) (l : List String) : a.namesKnown l = b.namesKnown l := by
  unfold SW.namesKnown
  rw [show (fun k => a.pc.coll.has k) = fun k => b.pc.coll.has k from funext h.has]

theorem SameSweeps.staticPoints {a b : SW E R} (h : SameSweeps a b) (l : List (String × PF)) :
    staticPoints a.pc l = staticPoints b.pc l := by
  induction l with
  | nil => rfl
  | cons x l ih =>
    obtain ⟨k, v⟩ := x
    have := h.param k
    simp only [SW.staticPoints, ih]
    cases ha : a.pc.coll.get? k <;> cases hb : b.pc.coll.get? k <;> simp_all

theorem SameSweeps.gridSizes {a b : SW E R} (h : SameSweeps a b) (l : List String) :
    gridSizes a.pc l = gridSizes b.pc l := by
  induction l with
  | nil => rfl
  | cons k l ih =>
    have := h.param k
    simp only [SW.gridSizes, ih]
    cases ha : a.pc.coll.get? k <;> cases hb : b.pc.coll.get? k <;> simp_all

theorem SameSweeps.collapsedIndices {a b : SW E R} (h : SameSweeps a b) (l : List ℤ) :
    a.collapsedIndices l = b.collapsedIndices l := by
  unfold SW.collapsedIndices
  rw [h.params]
  cases b.params with
  | none => rfl
  | some ks => simp only [h.gridSizes ks]

theorem SameSweeps.fetchRows {A : Type} {a b : SW E R} (h : SameSweeps a b) (data : List A) (rows : List (List ℕ)) :
    a.fetchRows data rows = b.fetchRows data rows := by
  induction rows with
  | nil => rfl
  | cons l rows ih => simp only [SW.fetchRows, h.collapsedIndices, ih]

theorem SameSweeps.sliceSingle {A : Type} {a b : SW E R} (h : SameSweeps a b) (data : List A) (ind : String) (static : List (String × PF)) :
    a.sliceSingle data ind static = b.sliceSingle data ind static := by
  unfold SW.sliceSingle
  have := h.param ind
  rw [h.namesKnown, h.spec, h.staticPoints]
  simp only [h.fetchRows]
  cases hsp : b.spec <;> cases ha : a.pc.coll.get? ind <;> cases hb : b.pc.coll.get? ind <;> simp_all

theorem SameSweeps.sliceMulti {A : Type} {a b : SW E R} (h : SameSweeps a b) (data : List A) (inds : List String)
    (static : List (String × PF)) : a.sliceMulti data inds static = b.sliceMulti data inds static := by
  unfold SW.sliceMulti
  have hsw : (fun iv => ((a.pc.coll.get? iv).map Param.sweep).getD []) = fun iv => ((b.pc.coll.get? iv).map Param.sweep).getD [] := by
    funext iv
    have := h.param iv
    cases ha : a.pc.coll.get? iv <;> cases hb : b.pc.coll.get? iv <;> simp_all
  rw [h.namesKnown, h.spec, h.staticPoints]
  simp only [h.fetchRows, hsw]

theorem readAll_key (disk : String → Option (Pickled R)) (key key' : Option String) (l : List (Datum R)) :
    readAll disk false key l = readAll disk false key' l := by
  induction l with
  | nil => rfl
  | cons x l ih =>
    have : readDatum disk false key x = readDatum disk false key' x := by cases x <;> rfl
    simp only [readAll, this, ih]

/-- Passing a list of values is like having computed them. -/
theorem SameSweeps.getSweepResult {a b : SW E R} (h : SameSweeps a b) (disk : String → Option (Pickled R)) (ind : String)
    (static : List (String × PF)) (data : List R) (hne : data ≠ []) (key : Option String) (hb : b.result = some data) :
    a.getSweepResult disk ind static (.list (data.map .val)) key = b.getSweepResult disk ind static := by
  obtain ⟨x, l, rfl⟩ := List.exists_cons_of_ne_nil hne
  unfold SW.getSweepResult
  have h1 : a.resolveData disk (.list ((x :: l).map .val)) key = .ok ((x :: l).map .val, false, key) := rfl
  have h2 : b.resolveData disk .default none = .ok ((x :: l).map .val, false, none) := by
    unfold SW.resolveData
    rw [hb]
  rw [h1, h2]
  simp only [h.sliceSingle]
  cases b.sliceSingle ((x :: l).map Datum.val) ind static with
  | error e => rfl
  | ok y =>
    obtain ⟨sw, xs, vals⟩ := y
    simp only [readAll_key disk key none xs]

end SW

end Verif
