import Mathlib.LinearAlgebra.Matrix.Adjugate
import Verif.Model.AstEngine
import Verif.Spec.Expressions

/-!
# Arithmetic on syntax trees

Sums, determinants by expansion along the first row, and inverses by cofactors, without simplification.  It is used only to show that what is asked
of sympy's arithmetic can be met.
-/

namespace Verif.Ast

open Verif Verif.Spec Verif.Sym Matrix

/-- `f 0 + … + f (n - 1)` -/
def sum : ℕ → (ℕ → Ast) → Ast
  | 0, _ => .lit (.fin 0)
  | n + 1, f => .add (sum n f) (f n)

/-- The indices without `j`. -/
def skip (j b : ℕ) : ℕ := if b < j then b else b + 1

/-- The determinant. -/
def det : ℕ → (ℕ → ℕ → Ast) → Ast
  | 0, _ => .lit (.fin 1)
  | n + 1, M => sum (n + 1) fun j => .mul (.mul (.lit (.fin ((-1) ^ j))) (M 0 j)) (det n fun a b => M (a + 1) (skip j b))

/-- The inverse. -/
def inverse (n : ℕ) (M : ℕ → ℕ → Ast) (i j : ℕ) : Ast :=
  .mul (.inv (det n M)) (.mul (.lit (.fin ((-1) ^ (j + i)))) (det (n - 1) fun a b => M (skip j a) (skip i b)))

/-- The pseudo-inverse of a diagonal matrix. -/
def pinv (M : ℕ → ℕ → Ast) (i j : ℕ) : Ast := if i = j ∧ M i i ≠ .lit (.fin 0) then .inv (M i i) else .lit (.fin 0)

/-- The operations. -/
def arith : Arith Ast where
  sym := .sym
  add := .add
  sub a b := .add a (.mul (.lit (.fin (-1))) b)
  div a b := .mul a (.inv b)
  isZero e := e == .lit (.fin 0)
  inverse n M := .ok (inverse n M)
  pinv _ M := .ok (pinv M)

theorem eval_add {ρ : Verif.Sym → PF} {a b : Ast} {x y : ℚ} (ha : eval ρ a = some (.fin x)) (hb : eval ρ b = some (.fin y)) :
    eval ρ (.add a b) = some (.fin (x + y)) := by
  simp only [eval, ha, hb]; rfl

theorem eval_mul {ρ : Verif.Sym → PF} {a b : Ast} {x y : ℚ} (ha : eval ρ a = some (.fin x)) (hb : eval ρ b = some (.fin y)) :
    eval ρ (.mul a b) = some (.fin (x * y)) := by
  simp only [eval, ha, hb]; rfl

theorem eval_inv {ρ : Verif.Sym → PF} {a : Ast} {x : ℚ} (ha : eval ρ a = some (.fin x)) (hx : x ≠ 0) : eval ρ (.inv a) = some (.fin x⁻¹) := by
  simp [eval, ha, hx]

theorem eval_sum {ρ : Verif.Sym → PF} : ∀ (n : ℕ) (f : ℕ → Ast) (x : Fin n → ℚ), (∀ i : Fin n, eval ρ (f i) = some (.fin (x i))) →
    eval ρ (sum n f) = some (.fin (∑ i, x i))
  | 0, f, x, _ => by simp [sum, eval]
  | n + 1, f, x, h => by
    rw [Fin.sum_univ_castSucc, sum]
    exact eval_add (eval_sum n f (fun i => x i.castSucc) fun i => h i.castSucc) (h (Fin.last n))

theorem skip_eq {n : ℕ} (j : Fin (n + 1)) (b : Fin n) : skip j b = (j.succAbove b : ℕ) := by
  unfold skip Fin.succAbove
  simp only [Fin.lt_def, Fin.val_castSucc]
  split_ifs <;> simp

theorem eval_det {ρ : Verif.Sym → PF} : ∀ (n : ℕ) (M : ℕ → ℕ → Ast) (X : Matrix (Fin n) (Fin n) ℚ),
    (∀ i j : Fin n, eval ρ (M i j) = some (.fin (X i j))) → eval ρ (det n M) = some (.fin X.det)
  | 0, M, X, _ => by simp [det, eval]
  | n + 1, M, X, h => by
    rw [Matrix.det_succ_row_zero, det]
    refine eval_sum (n + 1) _ _ fun j => ?_
    refine eval_mul (eval_mul rfl (h 0 j)) (eval_det n _ (X.submatrix Fin.succ j.succAbove) fun a b => ?_)
    rw [skip_eq]
    exact h a.succ (j.succAbove b)

theorem syms_sum : ∀ (n : ℕ) (f : ℕ → Ast), ∀ x ∈ (sum n f).syms, ∃ i < n, x ∈ (f i).syms
  | 0, f, x, h => by simp [sum, syms] at h
  | n + 1, f, x, h => by
    simp only [sum, syms, List.mem_append] at h
    rcases h with h | h
    · obtain ⟨i, hi, hx⟩ := syms_sum n f x h
      exact ⟨i, by omega, hx⟩
    · exact ⟨n, by omega, h⟩

theorem skip_lt {n j b : ℕ} (h : b < n) : skip j b < n + 1 := by unfold skip; split_ifs <;> omega

theorem syms_det : ∀ (n : ℕ) (M : ℕ → ℕ → Ast), ∀ x ∈ (det n M).syms, ∃ a < n, ∃ b < n, x ∈ (M a b).syms
  | 0, M, x, h => by simp [det, syms] at h
  | n + 1, M, x, h => by
    rw [det] at h
    obtain ⟨j, hj, hx⟩ := syms_sum _ _ x h
    simp only [syms, List.nil_append, List.mem_append] at hx
    rcases hx with hx | hx
    · exact ⟨0, by omega, j, hj, hx⟩
    · obtain ⟨a, ha, b, hb, hx⟩ := syms_det n _ x hx
      exact ⟨a + 1, by omega, skip j b, skip_lt hb, hx⟩

/-- The operations satisfy what is asked of sympy's. -/
theorem arith_laws : ArithLaws engine lawful arith where
  numbers _ := rfl
  mul _ _ := rfl
  sym _ _ := rfl
  add _ _ _ _ _ ha hb := eval_add ha hb
  sub ρ a b x y ha hb := by
    have := eval_add ha (eval_mul (a := .lit (.fin (-1))) rfl hb)
    rw [neg_one_mul, ← sub_eq_add_neg] at this
    exact this
  inverse ρ n M N X hN hM hT hpos i j := by
    cases hN
    have hdet : X.det ≠ 0 := by
      intro h0
      obtain ⟨x, hx, hz⟩ := Matrix.exists_mulVec_eq_zero_iff.2 h0
      have := hpos x hx
      rw [hz] at this
      simp at this
    obtain ⟨m, rfl⟩ : ∃ m, n = m + 1 := ⟨n - 1, by have := i.2; omega⟩
    rw [Matrix.inv_def, Matrix.smul_apply, smul_eq_mul, Ring.inverse_eq_inv', Matrix.adjugate_fin_succ_eq_det_submatrix]
    refine eval_mul (eval_inv (eval_det _ _ _ hM) hdet) (eval_mul rfl (eval_det m _ _ fun a b => ?_))
    rw [skip_eq, skip_eq]
    exact hM _ _
  pinv ρ n M N d hN hoff hd hne i hi j hj := by
    cases hN
    show eval ρ (pinv M i j) = _
    unfold pinv
    by_cases hij : i = j
    · subst hij
      by_cases hz : M i i = .lit (.fin 0)
      · rw [if_neg (by simp [hz]), if_pos rfl]
        have := hd i hi
        rw [hz] at this
        have h0 : (0 : ℚ) = d i := by
          have := Option.some.inj this
          exact PF.fin.inj this
        rw [← h0]; simp [eval, lawful]
      · rw [if_pos ⟨rfl, hz⟩, if_pos rfl]
        exact eval_inv (hd i hi) ((hne i hi).resolve_right hz)
    · rw [if_neg (by simp [hij]), if_neg hij]; rfl
  free_sym s x hx := by simpa [engine, arith, syms] using hx
  free_add a b x hx := by simpa [engine, arith, syms] using hx
  free_sub a b x hx := by simpa [engine, arith, syms] using hx
  free_inverse n M N hN i hi j hj x hx := by
    cases hN
    simp only [engine, inverse, syms, List.mem_dedup, List.mem_append, List.nil_append] at hx ⊢
    rcases hx with hx | hx
    · exact syms_det n M x hx
    · obtain ⟨a, ha, b, hb, hx⟩ := syms_det _ _ x hx
      exact ⟨skip j a, lt_of_lt_of_le (skip_lt ha) (by omega), skip i b, lt_of_lt_of_le (skip_lt hb) (by omega), hx⟩
  free_pinv n M N hN i hi j hj x hx := by
    cases hN
    simp only [engine, pinv, List.mem_dedup] at hx ⊢
    split_ifs at hx with h
    · exact ⟨i, hi, i, hi, hx⟩
    · simp [syms] at hx

end Verif.Ast
