import Verif.Props.Numerical

/-!
# C42: which matrix elements a sweep stores
-/

namespace Verif.Props

open Verif Verif.PC Verif.Num Verif.Spec

variable {E O H P X V R Q : Type}

/-- Indexing an array with a Python index. -/
theorem pyIndex_ok_iff {α : Type} (l : List α) (i : ℤ) (v : α) : pyIndex l i = .ok v ↔ ItemAt l i v := by
  unfold pyIndex ItemAt
  by_cases hi : i < 0
  · obtain ⟨n, rfl⟩ : ∃ n : ℕ, i = -(n + 1) := ⟨(-i - 1).toNat, by omega⟩
    simp only [if_pos hi]
    by_cases hn : n < l.length
    · have h1 : ¬ (-(n + 1 : ℤ) + l.length < 0) := by omega
      have h2 : (-(n + 1 : ℤ) + l.length).toNat = l.length - 1 - n := by omega
      rw [if_neg h1, h2, List.getElem?_eq_getElem (by omega)]
      constructor
      · intro h
        refine Or.inr ⟨n, rfl, ?_⟩
        rw [List.getElem?_reverse hn, List.getElem?_eq_getElem (by omega)]
        injection h with h
        rw [h]
      · rintro (⟨m, hm, _⟩ | ⟨m, hm, h⟩)
        · omega
        · obtain rfl : n = m := by omega
          rw [List.getElem?_reverse hn, List.getElem?_eq_getElem (by omega)] at h
          injection h with h
          rw [← h]
    · rw [if_pos (by omega)]
      constructor
      · intro h; cases h
      · rintro (⟨m, hm, _⟩ | ⟨m, hm, h⟩)
        · omega
        · obtain rfl : n = m := by omega
          rw [List.getElem?_eq_none (by simpa using hn)] at h
          cases h
  · obtain ⟨n, rfl⟩ : ∃ n : ℕ, i = n := ⟨i.toNat, by omega⟩
    simp only [if_neg hi, Int.toNat_natCast]
    constructor
    · intro h
      refine Or.inl ⟨n, rfl, ?_⟩
      split at h
      · cases h
      · rename_i w hw
        injection h with h
        rw [hw, h]
    · rintro (⟨m, hm, h⟩ | ⟨m, hm, h⟩)
      · obtain rfl : n = m := by omega
        rw [h]
      · omega

/-- The loop over the elements returns the elements of the pairs of states, in order. -/
theorem elemLoop_ok_iff (ph : Phys O H P X V R) (op : P) (es : List X) (vs : List V) (l : List (ℤ × ℤ)) (xs : List X) :
    elemLoop ph op (.arrays es vs) l = .ok xs ↔
      List.Forall₂ (fun (q : ℤ × ℤ) x => ∃ v w, ItemAt vs q.1 v ∧ ItemAt vs q.2 w ∧ x = ph.elem op v w) l xs := by
  induction l generalizing xs with
  | nil =>
    unfold elemLoop
    constructor
    · intro h; cases h; exact .nil
    · intro h; cases h; rfl
  | cons q l ih =>
    obtain ⟨i, j⟩ := q
    unfold elemLoop
    constructor
    · intro h
      simp only at h
      split at h
      · cases h
      rename_i v hv
      split at h
      · cases h
      rename_i w hw
      split at h
      · cases h
      rename_i ys hys
      cases h
      exact .cons ⟨v, w, (pyIndex_ok_iff _ _ _).1 hv, (pyIndex_ok_iff _ _ _).1 hw, rfl⟩ ((ih ys).1 hys)
    · intro h
      cases h with
      | cons h1 h2 =>
        obtain ⟨v, w, hv, hw, rfl⟩ := h1
        simp only [(pyIndex_ok_iff _ _ _).2 hv, (pyIndex_ok_iff _ _ _).2 hw, (ih _).2 h2]

/-- **C42** (elements) In a sweep of several evaluations that ends normally, the current or voltage matrix elements stored for a point are those of the operator of that point between the
eigenvectors of the Hamiltonian of that point which the pairs of indices name (negative indices count from the end), one for each pair, in order. -/
theorem C42_elements (eng : Engine E) (ho : HashOrder) (fuel : ℕ) (ph : Phys O H P X V R) (gv : Bool) (st st₁ st' : NS E Q O) (sw : SW E Q)
    (pts : List (Dict String PF)) (files : List (SW.Pickled (Res X V R))) (hsw : st.sw.ndSweep st.specs = (sw, .ok ()))
    (hpre : ({ st with sw := sw, evals := evaluations st } : NS E Q O).presub eng ho = (st₁, .ok ())) (hpts : gridPoints sw = .ok pts)
    (hreq : ∀ e ∈ st.evals, Requested e) (hrun : paramSweep eng ho fuel ph gv st = (st', files, .ok ()))
    (l₁ : List Entry) (e : Entry) (l₂ : List Entry) (hl : st.evals = l₁ ++ e :: l₂) (hlast : ∀ e' ∈ l₂, e'.eval ≠ e.eval)
    (he : e.depends ≠ none) (pairs : List (ℤ × ℤ)) (hpairs : e.kwargs.elements = some pairs) (hne : pairs ≠ [])
    (hm : e.eval = .getCurrentMatrixElement ∨ e.eval = .getVoltageMatrixElement) :
    ∀ (i : ℕ) (p : Dict String PF), pts[i]? = some p → ∃ sti f h es vs op xs,
      visit eng ho fuel ph.gen (pts.take i ++ [p]) st₁ = (sti, .ok ()) ∧ files[i]? = some f ∧
      ph.ham sti.num.get? sti.circ.get? sti.vec = .ok h ∧ ph.solve h = .ok (es, vs) ∧
      (e.eval = .getCurrentMatrixElement → ∃ edge, e.kwargs.edge = some edge ∧ ph.curOp sti.num.get? sti.circ.get? edge = .ok op) ∧
      (e.eval = .getVoltageMatrixElement → ∃ node, e.kwargs.node = some node ∧ ph.volOp sti.num.get? sti.vec node = .ok op) ∧
      stored f e.eval = some (.elems xs) ∧
      List.Forall₂ (fun (q : ℤ × ℤ) x => ∃ v w, ItemAt vs q.1 v ∧ ItemAt vs q.2 w ∧ x = ph.elem op v w) pairs xs := by
  intro i p hp
  have hreads : ReadsVectors e := by
    rcases hm with h | h
    · exact Or.inl ⟨h, by rw [hpairs]; simpa using hne⟩
    · exact Or.inr (Or.inl ⟨h, by rw [hpairs]; simpa using hne⟩)
  obtain ⟨sti, f, h, es, vs, v, g1, g2, g3, g4, g5, g6⟩ := C42_same_point eng ho fuel ph gv st st₁ st' sw pts files hsw hpre hpts hreq hrun l₁ e l₂ hl hlast he hreads i p hp
  unfold evalEntry at g5
  rcases hm with hm | hm
  · rw [hm] at g5
    simp only [callMethod] at g5
    cases he1 : e.kwargs.edge with
    | none => rw [he1] at g5; cases g5
    | some edge =>
    rw [he1] at g5
    simp only at g5
    cases ho1 : ph.curOp sti.num.get? sti.circ.get? edge with
    | error err => rw [ho1] at g5; cases g5
    | ok op =>
    rw [ho1, hpairs] at g5
    simp only at g5
    cases hx : elemLoop ph op (.arrays es vs) pairs with
    | error err => rw [hx] at g5; cases g5
    | ok xs =>
    rw [hx] at g5
    simp only at g5
    split at g5
    · cases g5
    cases g5
    exact ⟨sti, f, h, es, vs, op, xs, g1, g2, g3, g4, fun _ => ⟨edge, rfl, ho1⟩, fun hv => absurd (hm.symm.trans hv) (by decide), g6, (elemLoop_ok_iff ph op es vs pairs xs).1 hx⟩
  · rw [hm] at g5
    simp only [callMethod] at g5
    cases he1 : e.kwargs.node with
    | none => rw [he1] at g5; cases g5
    | some node =>
    rw [he1] at g5
    simp only at g5
    cases ho1 : ph.volOp sti.num.get? sti.vec node with
    | error err => rw [ho1] at g5; cases g5
    | ok op =>
    rw [ho1, hpairs] at g5
    simp only at g5
    cases hx : elemLoop ph op (.arrays es vs) pairs with
    | error err => rw [hx] at g5; cases g5
    | ok xs =>
    rw [hx] at g5
    simp only at g5
    split at g5
    · cases g5
    cases g5
    exact ⟨sti, f, h, es, vs, op, xs, g1, g2, g3, g4, fun hv => absurd (hm.symm.trans hv) (by decide), fun _ => ⟨node, rfl, ho1⟩, g6, (elemLoop_ok_iff ph op es vs pairs xs).1 hx⟩

/-- The last two states of three. -/
example : ItemAt [10, 20, 30] (-1) 30 ∧ ItemAt [10, 20, 30] (-2) 20 ∧ ItemAt [10, 20, 30] 0 10 :=
  ⟨Or.inr ⟨0, rfl, rfl⟩, Or.inr ⟨1, rfl, rfl⟩, Or.inl ⟨0, rfl, rfl⟩⟩

end Verif.Props
