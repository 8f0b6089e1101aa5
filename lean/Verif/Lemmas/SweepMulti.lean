import Verif.Lemmas.SweepResult

/-!
# Lemmas on `getSweepResult` with several independent variables
-/

namespace Verif

open Verif.Spec

namespace SW

theorem getElem?_flatMap_blocks' {α ι : Type} (f : ι → List α) (m : ℕ) (hf : ∀ i, (f i).length = m)
    (x : List ι) (i r : ℕ) (a : ι) (hi : x[i]? = some a) (hr : r < m) :
    (x.flatMap f)[i * m + r]? = (f a)[r]? := by
  induction x generalizing i with
  | nil => simp at hi
  | cons b x ih =>
    rw [List.flatMap_cons]
    cases i with
    | zero =>
      simp only [List.getElem?_cons_zero, Option.some.injEq] at hi
      subst hi
      rw [List.getElem?_append_left (by rw [hf]; omega)]; simp
    | succ i =>
      simp only [List.getElem?_cons_succ] at hi
      rw [List.getElem?_append_right (by rw [hf]; nlinarith), hf]
      rw [show (i + 1) * m + r - m = i * m + r by
        rw [Nat.succ_mul]; omega]
      exact ih i hi

theorem length_meshRows (xs : List (List ℕ)) : (meshRows xs).length = (xs.map List.length).prod := by
  induction xs with
  | nil => rfl
  | cons x xs ih => simp [meshRows, List.length_flatMap, ih, List.map_const', List.sum_replicate]

theorem meshRows_get (xs : List (List ℕ)) (w : List ℕ) (h : InGrid (xs.map List.length) w) :
    ∃ t, (meshRows xs)[rowMajor (xs.map List.length) w]? = some t ∧ t.length = xs.length ∧
      ∀ (j : ℕ) (x : List ℕ) (i : ℕ), xs[j]? = some x → w[j]? = some i → t[j]? = x[i]? := by
  induction xs generalizing w with
  | nil =>
    refine ⟨[], ?_, rfl, by simp⟩
    cases h; rfl
  | cons x xs ih =>
    cases h with
    | @cons i _ w _ hi hw =>
      obtain ⟨t, h1, h2, h3⟩ := ih w hw
      have hx := List.getElem?_eq_getElem hi
      refine ⟨x[i] :: t, ?_, by simp [h2], ?_⟩
      · simp only [List.map_cons, rowMajor, meshRows]
        rw [getElem?_flatMap_blocks' (fun i => (meshRows xs).map (i :: ·)) (xs.map List.length).prod
          (fun i => by simp [length_meshRows]) x i _ x[i] hx (rowMajor_lt hw)]
        simp [h1]
      · intro j y k hj hk
        cases j with
        | zero =>
          simp only [List.getElem?_cons_zero, Option.some.injEq] at hj hk ⊢
          subst hj; subst hk; exact hx.symm
        | succ j =>
          simp only [List.getElem?_cons_succ] at hj hk ⊢
          exact h3 j y k hj hk

theorem mem_meshRows (xs : List (List ℕ)) (t : List ℕ) :
    t ∈ meshRows xs ↔ List.Forall₂ (fun i x => i ∈ x) t xs := by
  induction xs generalizing t with
  | nil => simp [meshRows, List.forall₂_nil_right_iff]
  | cons x xs ih =>
    simp only [meshRows, List.mem_flatMap, List.mem_map, ih]
    constructor
    · rintro ⟨i, hi, u, hu, rfl⟩; exact List.Forall₂.cons hi hu
    · intro h
      cases h with
      | cons hi hu => exact ⟨_, hi, _, hu, rfl⟩

/-- The size of a sweep. -/
def sizeOf1 (s : SweepSpec) : ℕ := match s.N with | .int z => z.toNat | .other => 0

/-- Sizes of the independent variables. -/
def indSizes (inds : List String) (spec : List SweepSpec) : List ℕ :=
  (spec.filter (fun s => decide (s.name ∈ inds))).map sizeOf1

/-- Sizes of the axes of the table: one for the static variables. -/
def axisSizes (inds : List String) (spec : List SweepSpec) : List ℕ :=
  spec.map fun s => if s.name ∈ inds then sizeOf1 s else 1

/-- Positions in the table of a tuple of indices of the independent variables. -/
def embed (inds : List String) : List SweepSpec → List ℕ → List ℕ
  | [], _ => []
  | s :: spec, u => if s.name ∈ inds then u.headD 0 :: embed inds spec u.tail else 0 :: embed inds spec u

theorem indSizes_prod (inds : List String) (spec : List SweepSpec) :
    (indSizes inds spec).prod = (axisSizes inds spec).prod := by
  induction spec with
  | nil => rfl
  | cons s spec ih =>
    simp only [indSizes, axisSizes, List.map_cons, List.prod_cons, List.filter_cons] at ih ⊢
    by_cases h : s.name ∈ inds
    · simp only [h, decide_true, if_true, List.map_cons, List.prod_cons, ih]
    · simp only [h, decide_false, Bool.false_eq_true, if_false, ih, one_mul]

theorem embed_ok (inds : List String) (spec : List SweepSpec) (u : List ℕ)
    (h : InGrid (indSizes inds spec) u) :
    InGrid (axisSizes inds spec) (embed inds spec u) ∧
    rowMajor (axisSizes inds spec) (embed inds spec u) = rowMajor (indSizes inds spec) u := by
  induction spec generalizing u with
  | nil => cases h; exact ⟨List.Forall₂.nil, rfl⟩
  | cons s spec ih =>
    by_cases hs : s.name ∈ inds
    · simp only [indSizes, List.filter_cons, hs, decide_true, if_true, List.map_cons] at h
      cases h with
      | @cons i _ u _ hi hu =>
        obtain ⟨h1, h2⟩ := ih u hu
        simp only [axisSizes, embed, indSizes, List.filter_cons, hs, decide_true, if_true, List.map_cons,
          List.headD_cons, List.tail_cons, rowMajor] at h1 h2 ⊢
        refine ⟨List.Forall₂.cons hi h1, ?_⟩
        rw [h2]
        have := indSizes_prod inds spec
        simp only [indSizes, axisSizes] at this
        rw [this]
    · simp only [indSizes, List.filter_cons, hs, decide_false, Bool.false_eq_true, if_false] at h
      obtain ⟨h1, h2⟩ := ih u h
      simp only [axisSizes, embed, indSizes, List.filter_cons, hs, decide_false, Bool.false_eq_true,
        if_false, List.map_cons, rowMajor] at h1 h2 ⊢
      refine ⟨List.Forall₂.cons Nat.one_pos h1, by rw [h2]; simp⟩

/-- The `m`-th independent variable has the `m`-th index. -/
theorem embed_ind (inds : List String) (spec : List SweepSpec) (hn : (sweptNames spec).Nodup)
    (u : List ℕ) (hu : InGrid (indSizes inds spec) u) {j m : ℕ} {s : SweepSpec} (hj : spec[j]? = some s)
    (hm : (spec.filter (fun s => decide (s.name ∈ inds)))[m]? = some s) :
    (embed inds spec u)[j]? = u[m]? := by
  induction spec generalizing u j m with
  | nil => simp at hj
  | cons a spec ih =>
    simp only [sweptNames, List.map_cons, List.nodup_cons] at hn
    have hsin : s.name ∈ inds := by
      have := List.mem_of_getElem? hm
      simpa using (List.mem_filter.1 this).2
    by_cases ha : a.name ∈ inds
    · simp only [List.filter_cons, ha, decide_true, if_true] at hm
      simp only [indSizes, List.filter_cons, ha, decide_true, if_true, List.map_cons] at hu
      cases hu with
      | @cons i _ u _ hi hu =>
        simp only [embed, ha, if_true, List.headD_cons, List.tail_cons]
        cases j with
        | zero =>
          simp only [List.getElem?_cons_zero, Option.some.injEq] at hj
          subst hj
          cases m with
          | zero => simp
          | succ m =>
            simp only [List.getElem?_cons_succ] at hm
            have := (List.mem_filter.1 (List.mem_of_getElem? hm)).1
            exact absurd (List.mem_map.2 ⟨_, this, rfl⟩) hn.1
        | succ j =>
          simp only [List.getElem?_cons_succ] at hj ⊢
          cases m with
          | zero =>
            simp only [List.getElem?_cons_zero, Option.some.injEq] at hm
            subst hm
            exact absurd (List.mem_map.2 ⟨_, List.mem_of_getElem? hj, rfl⟩) hn.1
          | succ m =>
            simp only [List.getElem?_cons_succ] at hm ⊢
            exact ih hn.2 u hu hj hm
    · simp only [List.filter_cons, ha, decide_false, Bool.false_eq_true, if_false] at hm
      simp only [indSizes, List.filter_cons, ha, decide_false, Bool.false_eq_true, if_false] at hu
      simp only [embed, ha, if_false]
      cases j with
      | zero =>
        simp only [List.getElem?_cons_zero, Option.some.injEq] at hj
        subst hj
        exact absurd hsin ha
      | succ j =>
        simp only [List.getElem?_cons_succ] at hj ⊢
        exact ih hn.2 u hu hj hm

theorem embed_static (inds : List String) (spec : List SweepSpec) (u : List ℕ) {j : ℕ} {s : SweepSpec}
    (hj : spec[j]? = some s) (hs : s.name ∉ inds) : (embed inds spec u)[j]? = some 0 := by
  induction spec generalizing u j with
  | nil => simp at hj
  | cons a spec ih =>
    cases j with
    | zero =>
      simp only [List.getElem?_cons_zero, Option.some.injEq] at hj
      subst hj
      simp [embed, hs]
    | succ j =>
      simp only [List.getElem?_cons_succ] at hj
      by_cases ha : a.name ∈ inds
      · simp only [embed, ha, if_true, List.getElem?_cons_succ]; exact ih _ hj
      · simp only [embed, ha, if_false, List.getElem?_cons_succ]; exact ih _ hj

end SW

end Verif
