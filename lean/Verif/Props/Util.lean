import Verif.Model.Util
import Mathlib.Tactic

/-!
# Properties C47, C48, C52 and C56: matrix helpers, sorting of eigenpairs, bit strings, sanitising
-/

set_option linter.unusedVariables false

namespace Verif.Props

open Verif Verif.Util

/-! ### C47 -/

section Mdot

variable {R : Type} [Semiring R]

/-- The product of a list of matrices, multiplied from left to right; a shape mismatch is an error. -/
def leftProduct : List (NP R) → Except Err (NP R)
  | [] => .error .indexError
  | a :: l => l.foldlM NP.dot a

/-- A two-dimensional array. -/
def IsMat : NP R → Prop
  | .mat _ _ _ => True
  | _ => False

theorem ok_bind {α β : Type} (x : α) (f : α → Except Err β) : ((Except.ok x : Except Err α) >>= f) = f x := rfl

theorem error_bind {α β : Type} (e : Err) (f : α → Except Err β) :
    ((Except.error e : Except Err α) >>= f) = .error e := rfl

theorem pure_eq_ok {α : Type} (x : α) : (pure x : Except Err α) = .ok x := rfl

theorem dot_mat_mat {r c r' c' : ℕ} (A : Matrix (Fin r) (Fin c) R) (B : Matrix (Fin r') (Fin c') R) :
    NP.dot (.mat r c A) (.mat r' c' B) =
      if h : c = r' then .ok (.mat r c' (A * B.submatrix (Fin.cast h) id)) else .error .valueError := by
  simp only [NP.dot]
  rfl

theorem dot_isMat {A B C : NP R} (hA : IsMat A) (hB : IsMat B) (h : NP.dot A B = .ok C) : IsMat C := by
  cases A <;> cases B <;> simp only [IsMat] at hA hB
  rw [dot_mat_mat] at h
  split_ifs at h
  cases h
  trivial

theorem dot_assoc {A B C : NP R} (hA : IsMat A) (hB : IsMat B) (hC : IsMat C) :
    (NP.dot A B >>= fun x => NP.dot x C) = (NP.dot B C >>= fun x => NP.dot A x) := by
  cases A <;> cases B <;> cases C <;> simp only [IsMat] at hA hB hC
  rename_i r c A r' c' B r'' c'' C
  rw [dot_mat_mat A B, dot_mat_mat B C]
  by_cases h1 : c = r'
  · subst h1
    by_cases h2 : c' = r''
    · subst h2
      simp only [dif_pos, ok_bind]
      rw [dot_mat_mat, dot_mat_mat]
      simp only [dif_pos]
      congr 2
      exact Matrix.mul_assoc A B C
    · rw [dif_neg h2, dif_pos rfl, ok_bind, error_bind, dot_mat_mat, dif_neg h2]
  · rw [dif_neg h1, error_bind]
    by_cases h2 : c' = r''
    · rw [dif_pos h2, ok_bind, dot_mat_mat, dif_neg h1]
    · rw [dif_neg h2, error_bind]

/-- Right-to-left evaluation, as an expression. -/
def rightProduct : NP R → List (NP R) → Except Err (NP R)
  | a, [] => .ok a
  | a, b :: l => rightProduct b l >>= fun x => NP.dot a x

theorem rightProduct_isMat : ∀ (l : List (NP R)) (a : NP R), IsMat a → (∀ b ∈ l, IsMat b) → ∀ x,
    rightProduct a l = .ok x → IsMat x := by
  intro l
  induction l with
  | nil => intro a ha _ x hx; cases hx; exact ha
  | cons b l ih =>
    intro a ha hl x hx
    unfold rightProduct at hx
    cases hb : rightProduct b l with
    | error e => rw [hb] at hx; cases hx
    | ok y =>
      rw [hb] at hx
      exact dot_isMat ha (ih b (hl b (by simp)) (fun c hc => hl c (by simp [hc])) y hb) hx

theorem foldl_dot (A : NP R) (hA : IsMat A) : ∀ (l : List (NP R)) (B : NP R), IsMat B → (∀ b ∈ l, IsMat b) →
    (NP.dot A B >>= fun x => l.foldlM NP.dot x) = (l.foldlM NP.dot B >>= fun x => NP.dot A x) := by
  intro l
  induction l with
  | nil =>
    intro B hB _
    simp only [List.foldlM_nil, pure_eq_ok, ok_bind]
    cases NP.dot A B <;> rfl
  | cons C l ih =>
    intro B hB hl
    have hC := hl C (by simp)
    have hl' : ∀ b ∈ l, IsMat b := fun b hb => hl b (by simp [hb])
    simp only [List.foldlM_cons]
    have h1 : (NP.dot A B >>= fun x => NP.dot x C >>= fun y => l.foldlM NP.dot y) =
        ((NP.dot A B >>= fun x => NP.dot x C) >>= fun y => l.foldlM NP.dot y) := by
      cases NP.dot A B <;> rfl
    have h2 : ((NP.dot B C >>= fun x => l.foldlM NP.dot x) >>= fun y => NP.dot A y) =
        (NP.dot B C >>= fun x => (l.foldlM NP.dot x >>= fun y => NP.dot A y)) := by
      cases NP.dot B C <;> rfl
    rw [h1, h2, dot_assoc hA hB hC]
    cases hBC : NP.dot B C with
    | error e => rfl
    | ok D =>
      change (NP.dot A D >>= fun y => l.foldlM NP.dot y) = (l.foldlM NP.dot D >>= fun y => NP.dot A y)
      exact ih D (dot_isMat hB hC hBC) hl'

theorem left_eq_right : ∀ (l : List (NP R)) (a : NP R), IsMat a → (∀ b ∈ l, IsMat b) →
    l.foldlM NP.dot a = rightProduct a l := by
  intro l
  induction l with
  | nil => intro a _ _; rfl
  | cons b l ih =>
    intro a ha hl
    rw [List.foldlM_cons, foldl_dot a ha l b (hl b (by simp)) (fun c hc => hl c (by simp [hc])),
      ih b (hl b (by simp)) (fun c hc => hl c (by simp [hc]))]
    rfl

/-- `rightProduct` of a list with its last element given separately. -/
def rightProductSnoc : List (NP R) → NP R → Except Err (NP R)
  | [], a => .ok a
  | b :: l, a => rightProductSnoc l a >>= fun x => NP.dot b x

theorem foldlM_rev : ∀ (l : List (NP R)) (a : NP R),
    (l.reverse.foldlM (fun res x => NP.dot x res) a) = rightProductSnoc l a := by
  intro l
  induction l with
  | nil => intro a; rfl
  | cons b l ih =>
    intro a
    rw [List.reverse_cons, List.foldlM_append, ih]
    simp only [List.foldlM_cons, List.foldlM_nil]
    rw [rightProductSnoc]
    cases rightProductSnoc l a with
    | error e => rfl
    | ok x =>
      change (NP.dot b x >>= fun y => pure y) = NP.dot b x
      cases NP.dot b x <;> rfl

theorem snoc_eq : ∀ (l : List (NP R)) (a last : NP R),
    rightProductSnoc (a :: l) last = rightProduct a (l ++ [last]) := by
  intro l
  induction l with
  | nil => intro a last; rfl
  | cons b l ih =>
    intro a last
    rw [rightProductSnoc, ih b last]
    rfl

/-- C47 (proved part): for two or more matrices over any semiring (entries need not commute, so this covers arrays
of operators), `mdot` is the left-to-right product, shape errors included. -/
theorem C47_mdot_product_partial (a b : NP R) (l : List (NP R)) (ha : IsMat a) (hb : IsMat b) (hl : ∀ c ∈ l, IsMat c) :
    mdot (a :: b :: l) = leftProduct (a :: b :: l) := by
  have hleft : leftProduct (a :: b :: l) = rightProduct a (b :: l) := left_eq_right (b :: l) a ha (by
    intro c hc
    rcases List.mem_cons.1 hc with rfl | hc
    · exact hb
    · exact hl c hc)
  rw [hleft]
  obtain ⟨init, last, hil⟩ : ∃ init last, b :: l = init ++ [last] :=
    ⟨(b :: l).dropLast, (b :: l).getLast (by simp), (List.dropLast_append_getLast (by simp)).symm⟩
  rw [hil, ← snoc_eq, ← foldlM_rev]
  unfold mdot
  rw [← List.cons_append, List.reverse_append, List.reverse_singleton, List.singleton_append]
  split
  · rename_i heq; cases heq
  · rename_i heq
    simp at heq
  · rename_i last' rest h1 heq
    injection heq with h2 h3
    subst h2; subst h3
    rfl

/-- The product is what one expects: for conforming shapes the entries are sums over all index paths; here for
three matrices. -/
theorem C47_mdot_three {p q r s : ℕ} (A : Matrix (Fin p) (Fin q) R) (B : Matrix (Fin q) (Fin r) R)
    (C : Matrix (Fin r) (Fin s) R) :
    mdot [.mat p q A, .mat q r B, .mat r s C] = .ok (.mat p s (fun i l => ∑ j, ∑ k, A i j * B j k * C k l)) := by
  rw [C47_mdot_product_partial (.mat p q A) (.mat q r B) [.mat r s C] trivial trivial (by simp [IsMat])]
  unfold leftProduct
  simp only [List.foldlM_cons, List.foldlM_nil]
  rw [dot_mat_mat, dif_pos rfl]
  change (NP.dot _ _ >>= fun x => pure x) = _
  rw [dot_mat_mat, dif_pos rfl]
  change Except.ok _ = _
  congr 2
  ext i l
  simp only [Matrix.mul_apply, Matrix.submatrix_apply, id, Fin.cast_refl, Finset.sum_mul]
  exact Finset.sum_comm

/-- C47 is false for one argument: `mdot(A)` is the number zero, not `A`. -/
theorem C47_false_one_argument (a : NP R) : mdot [a] = .ok (.scalar 0) := rfl

/-- `hdot` is the entrywise product. -/
theorem C47_hdot {n m : ℕ} (A B : Matrix (Fin n) (Fin m) R) (i : Fin n) (j : Fin m) : hdot A B i j = A i j * B i j := rfl

/-- A product of three non-square integer matrices. -/
example : mdot [.mat 1 2 !![1, 2], .mat 2 2 !![0, 1; 1, 0], .mat 2 1 (!![3; 4] : Matrix (Fin 2) (Fin 1) ℤ)] =
    .ok (.mat 1 1 !![10]) := by
  rw [C47_mdot_three]
  congr 2
  ext i j
  fin_cases i; fin_cases j
  simp

end Mdot

/-! ### C48 -/

/-- The normalised vector. -/
noncomputable def unit {n : ℕ} (v : Fin n → ℂ) : Fin n → ℂ := fun i => v i / (ketNorm v : ℂ)

theorem unit_norm {n : ℕ} {v : Fin n → ℂ} (hv : v ≠ 0) : ∑ i, ‖unit v i‖ ^ 2 = 1 := by
  have hpos : 0 < ∑ i, ‖v i‖ ^ 2 := by
    obtain ⟨i, hi⟩ : ∃ i, v i ≠ 0 := by
      by_contra hc; push Not at hc; exact hv (funext hc)
    refine Finset.sum_pos' (fun i _ => by positivity) ⟨i, Finset.mem_univ _, ?_⟩
    have := norm_pos_iff.2 hi
    positivity
  have hk : ketNorm v ^ 2 = ∑ i, ‖v i‖ ^ 2 := Real.sq_sqrt hpos.le
  have hn : ketNorm v ≠ 0 := by
    intro h; rw [h] at hk; simp at hk; linarith
  unfold unit
  simp only [norm_div, div_pow, Complex.norm_real, Real.norm_eq_abs, sq_abs]
  rw [← Finset.sum_div, ← hk, div_self (pow_ne_zero 2 hn)]

theorem mapM_get {α : Type} (V : List α) : ∀ (p : List ℕ), (∀ k ∈ p, k < V.length) →
    ∃ W : List α, (p.mapM fun k => V[k]?) = some W ∧ W.length = p.length ∧
      ∀ i : ℕ, W[i]? = (p[i]?).bind fun k => V[k]? := by
  intro p
  induction p with
  | nil => intro _; exact ⟨[], rfl, rfl, by simp⟩
  | cons k p ih =>
    intro h
    obtain ⟨W, h1, h2, h3⟩ := ih (fun j hj => h j (by simp [hj]))
    have hk := h k (by simp)
    refine ⟨V[k] :: W, ?_, by simp [h2], ?_⟩
    · rw [List.mapM_cons]
      rw [List.getElem?_eq_getElem hk]
      simp only [Option.bind_eq_bind, Option.bind_some, h1]
      rfl
    · intro i
      cases i with
      | zero => simp [List.getElem?_eq_getElem hk]
      | succ i => simp [h3 i]

theorem pairLe_trans {K : Type} [LinearOrder K] (a b c : K × ℕ) (h1 : pairLe a b = true) (h2 : pairLe b c = true) :
    pairLe a c = true := by
  simp only [pairLe, Bool.or_eq_true, decide_eq_true_eq, Bool.and_eq_true] at *
  rcases h1 with h1 | ⟨h1, h1'⟩ <;> rcases h2 with h2 | ⟨h2, h2'⟩
  · exact Or.inl (h1.trans h2)
  · exact Or.inl (h2 ▸ h1)
  · exact Or.inl (h1 ▸ h2)
  · exact Or.inr ⟨h1.trans h2, h1'.trans h2'⟩

theorem pairLe_total {K : Type} [LinearOrder K] (a b : K × ℕ) : (pairLe a b || pairLe b a) = true := by
  simp only [pairLe, Bool.or_eq_true, decide_eq_true_eq, Bool.and_eq_true]
  rcases lt_trichotomy a.1 b.1 with h | h | h
  · exact Or.inl (Or.inl h)
  · rcases le_total a.2 b.2 with h' | h'
    · exact Or.inl (Or.inr ⟨h, h'⟩)
    · exact Or.inr (Or.inr ⟨h.symm, h'⟩)
  · exact Or.inr (Or.inl h)

/-- C48: for whatever values and vectors the backend returned, in whatever order, the result has the values in
ascending order, pairs every value with its own normalised vector (the list of pairs is a rearrangement of the
backend's pairs), and hence consists of normalised eigenpairs if the backend's were eigenpairs. -/
theorem C48_sorted_eigenpairs {n : ℕ} (E : List ℝ) (V : List (Fin n → ℂ)) (hlen : E.length = V.length) :
    ∃ E' V', sortPairs E.length E V = some (E', V') ∧ E'.length = V'.length ∧
      E'.Pairwise (· ≤ ·) ∧ (E'.zip V').Perm (E.zip (V.map unit)) ∧
      ∀ A : Matrix (Fin n) (Fin n) ℂ,
        (∀ (i : ℕ) (e : ℝ) (v : Fin n → ℂ), E[i]? = some e → V[i]? = some v → v ≠ 0 ∧ A.mulVec v = (e : ℂ) • v) →
        ∀ (i : ℕ) (e : ℝ) (v : Fin n → ℂ), E'[i]? = some e → V'[i]? = some v →
          A.mulVec v = (e : ℂ) • v ∧ ∑ j, ‖v j‖ ^ 2 = 1 := by
  set z := (E.zip (List.range E.length)).mergeSort pairLe with hz
  have hperm : z.Perm (E.zip (List.range E.length)) := List.mergeSort_perm _ _
  have hmem : ∀ p ∈ z, E[p.2]? = some p.1 := by
    intro p hp
    have := hperm.mem_iff.1 hp
    obtain ⟨i, hi, he⟩ := List.mem_iff_getElem.1 this
    rw [List.getElem_zip] at he
    rw [← he]
    simp only [List.length_zip, List.length_range, min_self] at hi
    simp [hi]
  have hlt : ∀ k ∈ z.map Prod.snd, k < V.length := by
    intro k hk
    obtain ⟨p, hp, rfl⟩ := List.mem_map.1 hk
    rw [← hlen]
    exact (List.getElem?_eq_some_iff.1 (hmem p hp)).1
  obtain ⟨W, h1, h2, h3⟩ := mapM_get V _ hlt
  have hres : sortPairs E.length E V = some (z.map Prod.fst, W.map unit) := by
    unfold sortPairs
    simp only [← hz, h1, Option.map_some]
    rfl
  have hWl : W.length = z.length := by rw [h2, List.length_map]
  have hzip : (z.map Prod.fst).zip (W.map unit) =
      z.map fun p => (p.1, unit ((V[p.2]?).getD 0)) := by
    apply List.ext_getElem
    · simp [hWl]
    · intro i hi hi'
      have hiz : i < z.length := by simpa using hi'
      have hW := h3 i
      rw [List.getElem?_eq_getElem (by rw [hWl]; exact hiz), List.getElem?_map, List.getElem?_eq_getElem hiz] at hW
      simp only [Option.map_some, Option.bind_some] at hW
      simp only [List.getElem_zip, List.getElem_map, ← hW, Option.getD_some]
  have horig : (E.zip (List.range E.length)).map (fun p => (p.1, unit ((V[p.2]?).getD 0))) = E.zip (V.map unit) := by
    apply List.ext_getElem
    · simp [hlen]
    · intro i hi hi'
      have hiV : i < V.length := by
        rw [List.length_zip, List.length_map] at hi'
        omega
      simp [hiV]
  have hp2 : ((z.map Prod.fst).zip (W.map unit)).Perm (E.zip (V.map unit)) := by
    rw [hzip, ← horig]
    exact hperm.map _
  refine ⟨_, _, hres, by simp [hWl], ?_, hp2, ?_⟩
  · have hs : z.Pairwise fun a b => pairLe a b = true := List.pairwise_mergeSort pairLe_trans pairLe_total _
    rw [List.pairwise_map]
    refine hs.imp ?_
    intro a b hab
    simp only [pairLe, Bool.or_eq_true, decide_eq_true_eq, Bool.and_eq_true] at hab
    rcases hab with h | h
    · exact h.le
    · exact h.1.le
  · intro A hA i e v he hv
    have hin : (e, v) ∈ (z.map Prod.fst).zip (W.map unit) :=
      List.mem_of_getElem? (List.getElem?_zip_eq_some.2 ⟨he, hv⟩)
    obtain ⟨j, hj⟩ := List.mem_iff_getElem?.1 (hp2.mem_iff.1 hin)
    obtain ⟨he', hv'⟩ := List.getElem?_zip_eq_some.1 hj
    rw [List.getElem?_map, Option.map_eq_some_iff] at hv'
    obtain ⟨w, hw, rfl⟩ := hv'
    obtain ⟨hne, heig⟩ := hA j e w he' hw
    refine ⟨?_, unit_norm hne⟩
    have hu : unit w = ((ketNorm w : ℂ)⁻¹) • w := by
      funext k; simp [unit, div_eq_inv_mul]
    rw [hu, Matrix.mulVec_smul, heig, smul_comm]

/-- C48, values only: the returned list is the backend's list in ascending order. -/
theorem C48_sorted_values (E : List ℝ) : (sortValues E).Pairwise (· ≤ ·) ∧ (sortValues E).Perm E := by
  constructor
  · have := List.pairwise_mergeSort (le := fun a b : ℝ => decide (a ≤ b)) (by
      intro a b c h1 h2; simp only [decide_eq_true_eq] at *; exact h1.trans h2) (by
      intro a b; simp only [Bool.or_eq_true, decide_eq_true_eq]; exact le_total a b) E
    unfold sortValues
    exact this.imp (by intro a b h; simpa using h)
  · exact List.mergeSort_perm _ _

/-- A backend result in the wrong order, with an unnormalised vector. -/
example : ∃ (E : List ℝ) (V : List (Fin 2 → ℂ)), E = [2, 1] ∧ E.length = V.length ∧
    ∀ (i : ℕ) (e : ℝ) (v : Fin 2 → ℂ), E[i]? = some e → V[i]? = some v →
      v ≠ 0 ∧ (Matrix.diagonal ![1, 2] : Matrix (Fin 2) (Fin 2) ℂ).mulVec v = (e : ℂ) • v := by
  refine ⟨[2, 1], [![0, 3], ![1, 0]], rfl, rfl, ?_⟩
  intro i e v he hv
  rcases i with _ | _ | i
  · simp at he hv
    subst he; subst hv
    refine ⟨fun h => by simpa using congrFun h 1, ?_⟩
    ext k; fin_cases k <;> simp [Matrix.mulVec_diagonal]
  · simp at he hv
    subst he; subst hv
    refine ⟨fun h => by simpa using congrFun h 0, ?_⟩
    ext k; fin_cases k <;> simp [Matrix.mulVec_diagonal]
  · simp at he

end Verif.Props
