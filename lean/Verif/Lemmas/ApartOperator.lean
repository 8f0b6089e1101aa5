import Verif.Lemmas.OperatorMap
import Verif.Spec.Apart
import Mathlib.LinearAlgebra.Matrix.Kronecker

/-!
# The operator of a circuit of two parts that share only the ground
-/

namespace Verif

open Verif.Spec Verif.Circuit Complex Matrix Kronecker

/-- An operator of the first of two parts. -/
def leftHom (ι κ : Type) [Fintype ι] [Fintype κ] [DecidableEq ι] [DecidableEq κ] : Matrix ι ι ℂ →ₐ[ℂ] Matrix (ι × κ) (ι × κ) ℂ :=
  AlgHom.ofLinearMap
    { toFun := fun X => X ⊗ₖ 1
      map_add' := fun X Y => Matrix.add_kronecker X Y 1
      map_smul' := fun r X => Matrix.smul_kronecker r X 1 }
    (Matrix.one_kronecker_one) (fun X Y => by
      show (X * Y) ⊗ₖ 1 = X ⊗ₖ 1 * Y ⊗ₖ 1
      rw [← Matrix.mul_kronecker_mul, one_mul])

/-- An operator of the second of two parts. -/
def rightHom (ι κ : Type) [Fintype ι] [Fintype κ] [DecidableEq ι] [DecidableEq κ] : Matrix κ κ ℂ →ₐ[ℂ] Matrix (ι × κ) (ι × κ) ℂ :=
  AlgHom.ofLinearMap
    { toFun := fun X => 1 ⊗ₖ X
      map_add' := fun X Y => Matrix.kronecker_add 1 X Y
      map_smul' := fun r X => Matrix.kronecker_smul r 1 X }
    (Matrix.one_kronecker_one) (fun X Y => by
      show 1 ⊗ₖ (X * Y) = 1 ⊗ₖ X * 1 ⊗ₖ Y
      rw [← Matrix.mul_kronecker_mul, one_mul])

theorem leftHom_apply {ι κ : Type} [Fintype ι] [Fintype κ] [DecidableEq ι] [DecidableEq κ] (X : Matrix ι ι ℂ) (x y : ι × κ) :
    leftHom ι κ X x y = if x.2 = y.2 then X x.1 y.1 else 0 := by
  show X x.1 y.1 * (1 : Matrix κ κ ℂ) x.2 y.2 = _
  rw [Matrix.one_apply]
  split_ifs <;> simp

theorem rightHom_apply {ι κ : Type} [Fintype ι] [Fintype κ] [DecidableEq ι] [DecidableEq κ] (X : Matrix κ κ ℂ) (x y : ι × κ) :
    rightHom ι κ X x y = if x.1 = y.1 then X x.2 y.2 else 0 := by
  show (1 : Matrix ι ι ℂ) x.1 y.1 * X x.2 y.2 = _
  rw [Matrix.one_apply]
  split_ifs <;> simp

variable {A : Type} [Ring A] [Algebra ℂ A]

theorem atNumber_part {A : Type} {ns n1 n2 : List ℕ} (hnd : ns.Nodup) (hnd1 : n1.Nodup) (σ : Fin n1.length ⊕ Fin n2.length ≃ Fin ns.length)
    (hσ1 : ∀ i, ns.get (σ (.inl i)) = n1.get i) (hσ2 : ∀ i, ns.get (σ (.inr i)) = n2.get i) (X : Fin ns.length → A) (X1 : Fin n1.length → A)
    (hX : ∀ i, X (σ (.inl i)) = X1 i) (z : A) (n : ℕ) (hn2 : n ∉ n2) : atNumber ns X z n = atNumber n1 X1 z n := by
  unfold atNumber
  by_cases hn : n ∈ n1
  · obtain ⟨i, rfl⟩ := List.get_of_mem hn
    have h1 : n1.idxOf (n1.get i) = i := List.get_idxOf hnd1 i
    have h2 : ns.idxOf (n1.get i) = σ (.inl i) := by rw [← hσ1]; exact List.get_idxOf hnd _
    rw [dif_pos (by rw [h2]; exact (σ (.inl i)).2), dif_pos (by rw [h1]; exact i.2)]
    have e1 : (⟨n1.idxOf (n1.get i), by rw [h1]; exact i.2⟩ : Fin n1.length) = i := Fin.ext h1
    have e2 : (⟨ns.idxOf (n1.get i), by rw [h2]; exact (σ (.inl i)).2⟩ : Fin ns.length) = σ (.inl i) := Fin.ext h2
    rw [e1, e2, hX]
  · have h3 : ¬ n1.idxOf n < n1.length := by rw [List.idxOf_lt_length_iff]; exact hn
    rw [dif_neg h3, dif_neg]
    rw [List.idxOf_lt_length_iff]
    intro h1
    obtain ⟨j, hj⟩ := List.get_of_mem h1
    obtain ⟨i | i, rfl⟩ := σ.surjective j
    · rw [hσ1] at hj
      exact hn (hj ▸ List.get_mem _ _)
    · rw [hσ2] at hj
      exact hn2 (hj ▸ List.get_mem _ _)

/-- The operators of the nodes of the whole, restricted to one part. -/
def SameOperators {ns n1 : ℕ} (ι : Fin n1 → Fin ns) (o : NodeOperators A ns) (o1 : NodeOperators A n1) : Prop :=
  ∀ i, o.Q (ι i) = o1.Q i ∧ o.P (ι i) = o1.P i ∧ o.D (ι i) = o1.D i ∧ o.Ddag (ι i) = o1.Ddag i ∧ o.S (ι i) = o1.S i ∧ o.Sdag (ι i) = o1.Sdag i

/-- The inductors, junctions and phase slips among the components `bs`. -/
noncomputable def componentTerms (ns : List ℕ) (bs : List (ℕ × ℕ × String)) (El Ej Ep : ℝ) (val : String → ℝ) (ng : ℕ → ℝ) (f : String → ℝ) (o : NodeOperators A ns.length) : A :=
  ((branchesOf 'L' bs).map fun b => ((El / (2 * val b.2.2) : ℝ) : ℂ) •
    (atNumber ns o.P 0 b.1 - atNumber ns o.P 0 b.2.1 + ((f b.2.2 : ℝ) : ℂ) • 1) ^ 2).sum -
  ((branchesOf 'I' bs).map fun b => ((Ej * val b.2.2 / 2 : ℝ) : ℂ) •
    (exp (2 * Real.pi * f b.2.2 * I) • (atNumber ns o.D 1 b.1 * atNumber ns o.Ddag 1 b.2.1) +
      exp (-(2 * Real.pi * f b.2.2 * I)) • (atNumber ns o.Ddag 1 b.1 * atNumber ns o.D 1 b.2.1))).sum -
  ((branchesOf 'V' bs).map fun b =>
    let q := (if b.1 = 0 then 0 else ng b.1) - if b.2.1 = 0 then 0 else ng b.2.1
    ((Ep * val b.2.2 / 2 : ℝ) : ℂ) •
    (exp (2 * Real.pi * q * I) • (atNumber ns o.S 1 b.1 * atNumber ns o.Sdag 1 b.2.1) +
      exp (-(2 * Real.pi * q * I)) • (atNumber ns o.Sdag 1 b.1 * atNumber ns o.S 1 b.2.1))).sum

theorem componentTerms_perm (ns : List ℕ) {bs bs' : List (ℕ × ℕ × String)} (hp : bs.Perm bs') (El Ej Ep : ℝ) (val : String → ℝ) (ng : ℕ → ℝ) (f : String → ℝ)
    (o : NodeOperators A ns.length) : componentTerms ns bs El Ej Ep val ng f o = componentTerms ns bs' El Ej Ep val ng f o := by
  unfold componentTerms branchesOf
  rw [((hp.filter _).map _).sum_eq, ((hp.filter _).map _).sum_eq, ((hp.filter _).map _).sum_eq]

theorem componentTerms_append (ns : List ℕ) (bs bs' : List (ℕ × ℕ × String)) (El Ej Ep : ℝ) (val : String → ℝ) (ng : ℕ → ℝ) (f : String → ℝ)
    (o : NodeOperators A ns.length) :
    componentTerms ns (bs ++ bs') El Ej Ep val ng f o = componentTerms ns bs El Ej Ep val ng f o + componentTerms ns bs' El Ej Ep val ng f o := by
  unfold componentTerms branchesOf
  simp only [List.filter_append, List.map_append, List.sum_append]
  abel

theorem netlistOperator_eq (ns : List ℕ) (h : List Call) (Ec El Ej Ep : ℝ) (C : Matrix (Fin ns.length) (Fin ns.length) ℝ)
    (val : String → ℝ) (ng : ℕ → ℝ) (f : String → ℝ) (o : NodeOperators A ns.length) :
    netlistOperator ns h Ec El Ej Ep C val ng f o =
      ((Ec / 2 : ℝ) : ℂ) • (∑ i, ∑ j, ((C⁻¹ i j : ℝ) : ℂ) • ((o.Q i + ((ng (ns.get i) : ℝ) : ℂ) • 1) * (o.Q j + ((ng (ns.get j) : ℝ) : ℂ) • 1))) +
      componentTerms ns (branches h) El Ej Ep val ng f o := by
  unfold netlistOperator componentTerms
  abel

theorem componentTerms_part {ns n1 n2 : List ℕ} (hnd : ns.Nodup) (hnd1 : n1.Nodup) (σ : Fin n1.length ⊕ Fin n2.length ≃ Fin ns.length)
    (hσ1 : ∀ i, ns.get (σ (.inl i)) = n1.get i) (hσ2 : ∀ i, ns.get (σ (.inr i)) = n2.get i) (bs : List (ℕ × ℕ × String))
    (hout : ∀ b ∈ bs, b.1 ∉ n2 ∧ b.2.1 ∉ n2) (El Ej Ep : ℝ) (val : String → ℝ) (ng ng1 : ℕ → ℝ) (hng : ∀ b ∈ bs, ng b.1 = ng1 b.1 ∧ ng b.2.1 = ng1 b.2.1)
    (f f1 : String → ℝ) (hf : ∀ b ∈ bs, startsWith b.2.2 'L' = true ∨ startsWith b.2.2 'I' = true → f b.2.2 = f1 b.2.2)
    (o : NodeOperators A ns.length) (o1 : NodeOperators A n1.length) (ho : SameOperators (fun i => σ (.inl i)) o o1) :
    componentTerms ns bs El Ej Ep val ng f o = componentTerms n1 bs El Ej Ep val ng1 f1 o1 := by
  have aP := atNumber_part hnd hnd1 σ hσ1 hσ2 o.P o1.P (fun i => (ho i).2.1) 0
  have aD := atNumber_part hnd hnd1 σ hσ1 hσ2 o.D o1.D (fun i => (ho i).2.2.1) 1
  have aDd := atNumber_part hnd hnd1 σ hσ1 hσ2 o.Ddag o1.Ddag (fun i => (ho i).2.2.2.1) 1
  have aS := atNumber_part hnd hnd1 σ hσ1 hσ2 o.S o1.S (fun i => (ho i).2.2.2.2.1) 1
  have aSd := atNumber_part hnd hnd1 σ hσ1 hσ2 o.Sdag o1.Sdag (fun i => (ho i).2.2.2.2.2) 1
  unfold componentTerms
  congr 1
  · congr 1
    · congr 1
      refine List.map_congr_left fun b hb => ?_
      obtain ⟨hb, hp⟩ := List.mem_filter.1 hb
      rw [aP _ (hout b hb).1, aP _ (hout b hb).2, hf b hb (Or.inl hp)]
    · congr 1
      refine List.map_congr_left fun b hb => ?_
      obtain ⟨hb, hp⟩ := List.mem_filter.1 hb
      rw [aD _ (hout b hb).1, aD _ (hout b hb).2, aDd _ (hout b hb).1, aDd _ (hout b hb).2, hf b hb (Or.inr hp)]
  · congr 1
    refine List.map_congr_left fun b hb => ?_
    obtain ⟨hb, hp⟩ := List.mem_filter.1 hb
    dsimp only
    rw [aS _ (hout b hb).1, aS _ (hout b hb).2, aSd _ (hout b hb).1, aSd _ (hout b hb).2, (hng b hb).1, (hng b hb).2]

/-- The operator of a circuit of two parts is the sum of the operators of the parts. -/
theorem netlistOperator_apart {h h1 h2 : List Call} (hbr : (branches h).Perm (branches h1 ++ branches h2)) {ns n1 n2 : List ℕ} (hnd : ns.Nodup) (hnd1 : n1.Nodup) (hnd2 : n2.Nodup)
    (σ : Fin n1.length ⊕ Fin n2.length ≃ Fin ns.length) (hσ1 : ∀ i, ns.get (σ (.inl i)) = n1.get i) (hσ2 : ∀ i, ns.get (σ (.inr i)) = n2.get i)
    (hout1 : ∀ b ∈ branches h1, b.1 ∉ n2 ∧ b.2.1 ∉ n2) (hout2 : ∀ b ∈ branches h2, b.1 ∉ n1 ∧ b.2.1 ∉ n1) (Ec El Ej Ep : ℝ)
    (C : Matrix (Fin ns.length) (Fin ns.length) ℝ) (C1 : Matrix (Fin n1.length) (Fin n1.length) ℝ) (C2 : Matrix (Fin n2.length) (Fin n2.length) ℝ)
    (hC : C⁻¹ = (fromBlocks C1⁻¹ 0 0 C2⁻¹).submatrix σ.symm σ.symm) (val : String → ℝ) (ng ng1 ng2 : ℕ → ℝ)
    (hn1 : ∀ n ∈ n1, ng n = ng1 n) (hn2 : ∀ n ∈ n2, ng n = ng2 n)
    (hng1 : ∀ b ∈ branches h1, ng b.1 = ng1 b.1 ∧ ng b.2.1 = ng1 b.2.1) (hng2 : ∀ b ∈ branches h2, ng b.1 = ng2 b.1 ∧ ng b.2.1 = ng2 b.2.1)
    (f f1 f2 : String → ℝ) (hf1 : ∀ b ∈ branches h1, startsWith b.2.2 'L' = true ∨ startsWith b.2.2 'I' = true → f b.2.2 = f1 b.2.2)
    (hf2 : ∀ b ∈ branches h2, startsWith b.2.2 'L' = true ∨ startsWith b.2.2 'I' = true → f b.2.2 = f2 b.2.2)
    (o : NodeOperators A ns.length) (o1 : NodeOperators A n1.length) (o2 : NodeOperators A n2.length)
    (ho1 : SameOperators (fun i => σ (.inl i)) o o1) (ho2 : SameOperators (fun i => σ (.inr i)) o o2) :
    netlistOperator ns h Ec El Ej Ep C val ng f o = netlistOperator n1 h1 Ec El Ej Ep C1 val ng1 f1 o1 + netlistOperator n2 h2 Ec El Ej Ep C2 val ng2 f2 o2 := by
  rw [netlistOperator_eq, netlistOperator_eq, netlistOperator_eq, componentTerms_perm ns hbr, componentTerms_append,
    componentTerms_part hnd hnd1 σ hσ1 hσ2 _ hout1 El Ej Ep val ng ng1 hng1 f f1 hf1 o o1 ho1,
    componentTerms_part hnd hnd2 ((Equiv.sumComm _ _).trans σ) hσ2 hσ1 _ hout2 El Ej Ep val ng ng2 hng2 f f2 hf2 o o2 ho2]
  have hsum : (∑ i, ∑ j, ((C⁻¹ i j : ℝ) : ℂ) • ((o.Q i + ((ng (ns.get i) : ℝ) : ℂ) • 1) * (o.Q j + ((ng (ns.get j) : ℝ) : ℂ) • 1))) =
      (∑ i, ∑ j, ((C1⁻¹ i j : ℝ) : ℂ) • ((o1.Q i + ((ng1 (n1.get i) : ℝ) : ℂ) • 1) * (o1.Q j + ((ng1 (n1.get j) : ℝ) : ℂ) • 1))) +
      (∑ i, ∑ j, ((C2⁻¹ i j : ℝ) : ℂ) • ((o2.Q i + ((ng2 (n2.get i) : ℝ) : ℂ) • 1) * (o2.Q j + ((ng2 (n2.get j) : ℝ) : ℂ) • 1))) := by
    rw [← Equiv.sum_comp σ, Fintype.sum_sum_type]
    congr 1
    · refine Finset.sum_congr rfl fun i _ => ?_
      rw [← Equiv.sum_comp σ, Fintype.sum_sum_type]
      simp only [hC, submatrix_apply, Equiv.symm_apply_apply, fromBlocks_apply₁₁, fromBlocks_apply₁₂, Matrix.zero_apply, ofReal_zero, zero_smul, Finset.sum_const_zero, add_zero]
      refine Finset.sum_congr rfl fun j _ => ?_
      rw [hσ1, hσ1, hn1 _ (List.get_mem n1 i), hn1 _ (List.get_mem n1 j), (ho1 i).1, (ho1 j).1]
    · refine Finset.sum_congr rfl fun i _ => ?_
      rw [← Equiv.sum_comp σ, Fintype.sum_sum_type]
      simp only [hC, submatrix_apply, Equiv.symm_apply_apply, fromBlocks_apply₂₂, fromBlocks_apply₂₁, Matrix.zero_apply, ofReal_zero, zero_smul, Finset.sum_const_zero, zero_add]
      refine Finset.sum_congr rfl fun j _ => ?_
      rw [hσ2, hσ2, hn2 _ (List.get_mem n2 i), hn2 _ (List.get_mem n2 j), (ho2 i).1, (ho2 j).1]
  rw [hsum, smul_add]
  abel

end Verif
