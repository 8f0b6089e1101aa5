import Verif.Lemmas.AstArith
import Verif.Lemmas.MutualUse

/-!
# Arithmetic on syntax trees, with pseudo-inverses of matrices with couplings

It is used only to show that what is asked of sympy's arithmetic can be met.
-/

namespace Verif.Ast

open Verif Verif.Spec Verif.Sym Verif.Props Matrix

/-- The matrix with ones on the diagonal where it has zeros. -/
def filled (M : ℕ → ℕ → Ast) (i j : ℕ) : Ast := if i = j ∧ M i i = .lit (.fin 0) then .lit (.fin 1) else M i j

/-- The pseudo-inverse of a matrix whose rows and columns are zero or make up an invertible matrix. -/
def blockPinv (n : ℕ) (M : ℕ → ℕ → Ast) (i j : ℕ) : Ast :=
  if M i i ≠ .lit (.fin 0) ∧ M j j ≠ .lit (.fin 0) then inverse n (filled M) i j else .lit (.fin 0)

/-- The operations. -/
def coupledArith : Arith Ast := { arith with pinv := fun n M => .ok (blockPinv n M) }

theorem eval_inverse {ρ : Verif.Sym → PF} {n : ℕ} {M : ℕ → ℕ → Ast} {X : Matrix (Fin n) (Fin n) ℚ} (hM : ∀ i j : Fin n, eval ρ (M i j) = some (.fin (X i j)))
    (hdet : X.det ≠ 0) (i j : Fin n) : eval ρ (inverse n M i j) = some (.fin (X⁻¹ i j)) := by
  obtain ⟨m, rfl⟩ : ∃ m, n = m + 1 := ⟨n - 1, by have := i.2; omega⟩
  rw [Matrix.inv_def, Matrix.smul_apply, smul_eq_mul, Ring.inverse_eq_inv', Matrix.adjugate_fin_succ_eq_det_submatrix]
  refine eval_mul (eval_inv (eval_det _ _ _ hM) hdet) (eval_mul rfl (eval_det m _ _ fun a b => ?_))
  rw [skip_eq, skip_eq]
  exact hM _ _

theorem syms_filled {M : ℕ → ℕ → Ast} {i j : ℕ} {x : Verif.Sym} (h : x ∈ (filled M i j).syms) : x ∈ (M i j).syms := by
  unfold filled at h
  split_ifs at h
  · simp [syms] at h
  · exact h

theorem syms_inverse {n : ℕ} {M : ℕ → ℕ → Ast} {i j : ℕ} (hi : i < n) {x : Verif.Sym} (hx : x ∈ (inverse n M i j).syms) :
    ∃ a < n, ∃ b < n, x ∈ (M a b).syms := by
  simp only [inverse, syms, List.mem_append, List.nil_append] at hx
  rcases hx with hx | hx
  · exact syms_det n M x hx
  · obtain ⟨a, ha, b, hb, hx⟩ := syms_det _ _ x hx
    exact ⟨skip j a, lt_of_lt_of_le (skip_lt ha) (by omega), skip i b, lt_of_lt_of_le (skip_lt hb) (by omega), hx⟩

/-- The pseudo-inverse has the right values where the matrix is invertible. -/
theorem eval_blockPinv {ρ : Verif.Sym → PF} {n : ℕ} {M : ℕ → ℕ → Ast} {X : Matrix (Fin n) (Fin n) ℚ} (hM : ∀ i j : Fin n, eval ρ (M i j) = some (.fin (X i j)))
    (S : Fin n → Prop) [DecidablePred S] (hS : ∀ i, S i ↔ M i i ≠ .lit (.fin 0)) (hdet : (X + outside S).det ≠ 0)
    (hout : ∀ i j, ¬ (S i ∧ S j) → ((X + outside S)⁻¹ - outside S) i j = 0)
    (i j : Fin n) : eval ρ (blockPinv n M i j) =
      some (.fin (((X + outside S)⁻¹ - outside S) i j)) := by
  have hfill : ∀ i j : Fin n, eval ρ (filled M i j) = some (.fin ((X + outside S) i j)) := by
    intro i j
    unfold filled
    rw [Matrix.add_apply, outside, Matrix.diagonal_apply]
    by_cases hij : i = j
    · subst hij
      by_cases hz : M i i = .lit (.fin 0)
      · have hx := hM i i
        rw [hz] at hx
        have h0 : (0 : ℚ) = X i i := PF.fin.inj (Option.some.inj hx)
        rw [if_pos ⟨rfl, hz⟩, if_pos rfl, if_neg (fun h => (hS i).1 h hz), ← h0]
        simp [eval]
      · rw [if_neg (fun h => hz h.2), if_pos rfl, if_pos ((hS i).2 hz), add_zero]
        exact hM i i
    · rw [if_neg (fun h => hij (Fin.ext h.1)), if_neg hij, add_zero]
      exact hM i j
  unfold blockPinv
  by_cases hb : S i ∧ S j
  · rw [if_pos ⟨(hS i).1 hb.1, (hS j).1 hb.2⟩, eval_inverse hfill hdet, Matrix.sub_apply, outside, Matrix.diagonal_apply, if_pos hb.1]
    simp
  · rw [if_neg (fun h => hb ⟨(hS i).2 h.1, (hS j).2 h.2⟩), hout i j hb]
    rfl

/-- The operations satisfy what is asked of sympy's. -/
theorem coupled_laws : CoupledLaws engine lawful coupledArith where
  numbers := arith_laws.numbers
  mul := arith_laws.mul
  sym := arith_laws.sym
  add := arith_laws.add
  sub := arith_laws.sub
  inverse := arith_laws.inverse
  pinv ρ n M N d hN hoff hd hne i hi j hj := by
    classical
    cases hN
    show eval ρ (blockPinv n M i j) = _
    let X : Matrix (Fin n) (Fin n) ℚ := Matrix.diagonal fun i => d i
    let S : Fin n → Prop := fun i => M i i ≠ .lit (.fin 0)
    have hM : ∀ i j : Fin n, eval ρ (M i j) = some (.fin (X i j)) := by
      intro i j
      simp only [X, Matrix.diagonal_apply]
      by_cases hij : i = j
      · subst hij; rw [if_pos rfl]; exact hd i i.2
      · rw [if_neg hij, hoff i i.2 j j.2 fun e => hij (Fin.ext e)]; rfl
    have hd0 : ∀ i : Fin n, ¬ S i → d i = 0 := by
      intro i hi
      have hx := hd i i.2
      rw [not_not.1 hi] at hx
      exact (PF.fin.inj (Option.some.inj hx)).symm
    have hX : X + outside S = Matrix.diagonal fun i => if S i then d i else 1 := by
      simp only [X]
      rw [outside, Matrix.diagonal_add]
      congr 1
      funext i
      by_cases h : S i
      · simp [h]
      · simp [h, hd0 i h]
    have hinv : (Matrix.diagonal fun i => if S i then d i else 1 : Matrix (Fin n) (Fin n) ℚ)⁻¹ = Matrix.diagonal fun i => if S i then (d i)⁻¹ else 1 := by
      apply Matrix.inv_eq_right_inv
      rw [Matrix.diagonal_mul_diagonal, ← Matrix.diagonal_one]
      congr 1
      funext i
      by_cases h : S i
      · rw [if_pos h, if_pos h, mul_inv_cancel₀ ((hne i i.2).resolve_right h)]
      · simp [h]
    have hY : (X + outside S)⁻¹ - outside S = Matrix.diagonal fun i : Fin n => (d i)⁻¹ := by
      rw [hX, hinv, outside, Matrix.diagonal_sub]
      congr 1
      funext i
      by_cases h : S i
      · simp [h]
      · simp [h, hd0 i h]
    have := eval_blockPinv hM S (fun _ => Iff.rfl) (by
      rw [hX, Matrix.det_diagonal, Finset.prod_ne_zero_iff]
      intro i _
      by_cases h : S i
      · rw [if_pos h]; exact (hne i i.2).resolve_right h
      · simp [h]) (by
      intro i j hij
      rw [hY, Matrix.diagonal_apply]
      split_ifs with e
      · subst e
        rw [hd0 i fun h => hij ⟨h, h⟩, _root_.inv_zero]
      · rfl) ⟨i, hi⟩ ⟨j, hj⟩
    rw [hY, Matrix.diagonal_apply] at this
    simp only [Fin.mk.injEq] at this
    exact this
  free_sym := arith_laws.free_sym
  free_add := arith_laws.free_add
  free_sub := arith_laws.free_sub
  free_inverse := arith_laws.free_inverse
  free_pinv n M N hN i hi j hj x hx := by
    cases hN
    simp only [engine, blockPinv, List.mem_dedup] at hx ⊢
    split_ifs at hx with h
    · obtain ⟨a, ha, b, hb, hm⟩ := syms_inverse hi hx
      exact ⟨a, ha, b, hb, syms_filled hm⟩
    · simp [syms] at hx
  pinvPos ρ n M N X Y S hN hM hlit hT hpos hP i j := by
    classical
    cases hN
    show eval ρ (blockPinv n M i j) = _
    have hz : ∀ i j, ¬ (S i ∧ S j) → X i j = 0 := by
      intro i j hij
      have hx := hM i j
      rw [hlit i j hij] at hx
      exact (PF.fin.inj (Option.some.inj hx)).symm
    obtain ⟨hdet, hQ⟩ := Verif.Props.pinv_supported X S hT hz hpos
    obtain rfl := Verif.Sym.pinv_unique hP hQ
    have hS : ∀ i, S i ↔ M i i ≠ .lit (.fin 0) := by
      intro i
      constructor
      · intro hi e
        have h1 := hpos (Pi.single i 1) (fun k hk => by
          rw [Pi.single_apply, if_neg]; rintro rfl; exact hk hi) (by
          intro h0
          have := congrFun h0 i
          simp at this)
        have hx := hM i i
        rw [e] at hx
        have h0 : (0 : ℚ) = X i i := PF.fin.inj (Option.some.inj hx)
        simp [← h0] at h1
      · intro hne
        by_contra hi
        exact hne (hlit i i fun h => hi h.1)
    refine eval_blockPinv hM S hS hdet ?_ i j
    intro i j hij
    have hPz := hQ.bab
    have hsy := Verif.Sym.pinv_symm hT hQ
    set Y := (X + outside S)⁻¹ - outside S with hY
    have key : ∀ i j, ¬ S i → Y i j = 0 := by
      intro i j hi
      have e1 : Y * X = X * Y := by
        have := hQ.ab
        rw [Matrix.transpose_mul, hT, hsy] at this
        exact this
      rw [← hPz, e1, Matrix.mul_assoc, Matrix.mul_apply]
      exact Finset.sum_eq_zero fun k _ => by rw [hz i k fun h => hi h.1, zero_mul]
    by_cases hi : S i
    · rw [← hsy]
      exact key j i fun hj => hij ⟨hi, hj⟩
    · exact key i j hi

end Verif.Ast
