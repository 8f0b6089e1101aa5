import Verif.Spec.NetlistOp
import Verif.Lemmas.Redraw
import Mathlib.Algebra.Algebra.Hom

/-!
# Moving the operator of a circuit to another space and to another description
-/

namespace Verif

open Verif.Spec Verif.Circuit Complex Matrix

variable {A B : Type} [Ring A] [Algebra ℂ A] [Ring B] [Algebra ℂ B]

/-- The operators of the nodes on another space. -/
def mapOperators {n : ℕ} (Φ : A →ₐ[ℂ] B) (o : NodeOperators A n) : NodeOperators B n :=
  ⟨fun i => Φ (o.Q i), fun i => Φ (o.P i), fun i => Φ (o.D i), fun i => Φ (o.Ddag i), fun i => Φ (o.S i), fun i => Φ (o.Sdag i)⟩

theorem atNumber_map (Φ : A →ₐ[ℂ] B) (ns : List ℕ) (f : Fin ns.length → A) (z : A) (n : ℕ) :
    Φ (atNumber ns f z n) = atNumber ns (fun i => Φ (f i)) (Φ z) n := by
  unfold atNumber
  split_ifs <;> rfl

theorem netlistOperator_map (Φ : A →ₐ[ℂ] B) (ns : List ℕ) (h : List Call) (Ec El Ej Ep : ℝ) (C : Matrix (Fin ns.length) (Fin ns.length) ℝ)
    (val : String → ℝ) (ng : ℕ → ℝ) (f : String → ℝ) (o : NodeOperators A ns.length) :
    Φ (netlistOperator ns h Ec El Ej Ep C val ng f o) = netlistOperator ns h Ec El Ej Ep C val ng f (mapOperators Φ o) := by
  unfold netlistOperator mapOperators
  simp only [map_sub, map_add, map_smul, map_sum, map_mul, map_list_sum, List.map_map, Function.comp_def, map_pow, map_one, atNumber_map, map_zero]

theorem atNumber_redrawn {A : Type} {ρ : ℕ → ℕ} (hρ : Function.Injective ρ) {ns ns' : List ℕ} (hnd : ns.Nodup) (hnd' : ns'.Nodup)
    (σ : Fin ns.length ≃ Fin ns'.length) (hσ : ∀ i, ns'.get (σ i) = ρ (ns.get i)) (X : Fin ns.length → A) (X' : Fin ns'.length → A)
    (hX : ∀ i, X' (σ i) = X i) (z : A) (n : ℕ) : atNumber ns' X' z (ρ n) = atNumber ns X z n := by
  unfold atNumber
  by_cases hn : n ∈ ns
  · obtain ⟨i, rfl⟩ := List.get_of_mem hn
    have h1 : ns.idxOf (ns.get i) = i := List.get_idxOf hnd i
    have h2 : ns'.idxOf (ρ (ns.get i)) = σ i := by rw [← hσ]; exact List.get_idxOf hnd' (σ i)
    rw [dif_pos (by rw [h2]; exact (σ i).2), dif_pos (by rw [h1]; exact i.2)]
    have e1 : (⟨ns.idxOf (ns.get i), by rw [h1]; exact i.2⟩ : Fin ns.length) = i := Fin.ext h1
    have e2 : (⟨ns'.idxOf (ρ (ns.get i)), by rw [h2]; exact (σ i).2⟩ : Fin ns'.length) = σ i := Fin.ext h2
    rw [e1, e2, hX]
  · have h3 : ¬ ns.idxOf n < ns.length := by rw [List.idxOf_lt_length_iff]; exact hn
    rw [dif_neg h3, dif_neg]
    rw [List.idxOf_lt_length_iff]
    intro h1
    obtain ⟨j, hj⟩ := List.get_of_mem h1
    obtain ⟨i, rfl⟩ := σ.surjective j
    rw [hσ] at hj
    exact hn (hρ hj ▸ List.get_mem _ _)

/-- The operator of a redrawn circuit. -/
theorem netlistOperator_redrawn {ρ : ℕ → ℕ} {h h' : List Call} (hr : Redrawn ρ h h') (hends : ∀ b ∈ branches h, b.1 ≠ b.2.1) {ns ns' : List ℕ} (hnd : ns.Nodup)
    (hnd' : ns'.Nodup) (σ : Fin ns.length ≃ Fin ns'.length) (hσ : ∀ i, ns'.get (σ i) = ρ (ns.get i)) (Ec El Ej Ep : ℝ) (C : Matrix (Fin ns.length) (Fin ns.length) ℝ)
    (C' : Matrix (Fin ns'.length) (Fin ns'.length) ℝ) (hC : C'.submatrix σ σ = C) (val q f f' : String → ℝ)
    (hf : ∀ b ∈ branches h, startsWith b.2.2 'L' = true ∨ startsWith b.2.2 'I' = true → ∀ b' ∈ branches h', b'.2.2 = b.2.2 → (b'.1 = ρ b.1 → b'.2.1 = ρ b.2.1 → f' b.2.2 = f b.2.2) ∧
      (b'.1 = ρ b.2.1 → b'.2.1 = ρ b.1 → f' b.2.2 = - f b.2.2))
    (o : NodeOperators A ns.length) (o' : NodeOperators A ns'.length)
    (ho : ∀ i, o'.Q (σ i) = o.Q i ∧ o'.P (σ i) = o.P i ∧ o'.D (σ i) = o.D i ∧ o'.Ddag (σ i) = o.Ddag i ∧ o'.S (σ i) = o.S i ∧ o'.Sdag (σ i) = o.Sdag i)
    (hD : ∀ a b, a ≠ b → atNumber ns o.D 1 a * atNumber ns o.Ddag 1 b = atNumber ns o.Ddag 1 b * atNumber ns o.D 1 a)
    (hS : ∀ a b, a ≠ b → atNumber ns o.S 1 a * atNumber ns o.Sdag 1 b = atNumber ns o.Sdag 1 b * atNumber ns o.S 1 a) :
    netlistOperator ns' h' Ec El Ej Ep C' val (gateCharge q h') f' o' = netlistOperator ns h Ec El Ej Ep C val (gateCharge q h) f o := by
  have aP := atNumber_redrawn hr.inj hnd hnd' σ hσ o.P o'.P (fun i => (ho i).2.1) 0
  have aD := atNumber_redrawn hr.inj hnd hnd' σ hσ o.D o'.D (fun i => (ho i).2.2.1) 1
  have aDd := atNumber_redrawn hr.inj hnd hnd' σ hσ o.Ddag o'.Ddag (fun i => (ho i).2.2.2.1) 1
  have aS := atNumber_redrawn hr.inj hnd hnd' σ hσ o.S o'.S (fun i => (ho i).2.2.2.2.1) 1
  have aSd := atNumber_redrawn hr.inj hnd hnd' σ hσ o.Sdag o'.Sdag (fun i => (ho i).2.2.2.2.2) 1
  have hz : ∀ n, (if ρ n = 0 then (0 : ℝ) else gateCharge q h' (ρ n)) = if n = 0 then 0 else gateCharge q h n := by
    intro n
    have : ρ n = 0 ↔ n = 0 := ⟨fun hh => hr.inj (hh.trans hr.ground.symm), fun hh => by rw [hh, hr.ground]⟩
    simp only [this, hr.charge]
  have hinv : ∀ i j, C'⁻¹ (σ i) (σ j) = C⁻¹ i j := by
    intro i j
    rw [← hC, Matrix.inv_submatrix_equiv]
    rfl
  unfold netlistOperator
  congr 1
  · congr 1
    · congr 1
      · congr 1
        rw [← Equiv.sum_comp σ]
        refine Finset.sum_congr rfl fun i _ => ?_
        rw [← Equiv.sum_comp σ]
        refine Finset.sum_congr rfl fun j _ => ?_
        rw [hinv, (ho i).1, (ho j).1, hσ, hσ, hr.charge, hr.charge]
      · rw [sum_branchesOf, sum_branchesOf]
        obtain ⟨l, hp, hfo⟩ := hr.branches
        refine sum_redrawn hp hfo _ _ fun b hb b' hb' hbb => ?_
        obtain ⟨hn, hbb⟩ := hbb
        rw [hn]
        split_ifs with hp
        · rcases hbb with ⟨h1, h2⟩ | ⟨h1, h2⟩
          · rw [h1, h2, aP, aP, ((hf b hb (Or.inl hp) b' hb' hn).1 h1 h2)]
          · rw [h1, h2, aP, aP, ((hf b hb (Or.inl hp) b' hb' hn).2 h1 h2)]
            congr 1
            rw [← neg_sq]
            congr 1
            push_cast
            rw [neg_smul]
            abel
        · rfl
    · rw [sum_branchesOf, sum_branchesOf]
      obtain ⟨l, hp, hfo⟩ := hr.branches
      refine sum_redrawn hp hfo _ _ fun b hb b' hb' hbb => ?_
      obtain ⟨hn, hbb⟩ := hbb
      rw [hn]
      split_ifs with hp
      · rcases hbb with ⟨h1, h2⟩ | ⟨h1, h2⟩
        · rw [h1, h2, aD, aD, aDd, aDd, ((hf b hb (Or.inr hp) b' hb' hn).1 h1 h2)]
        · rw [h1, h2, aD, aD, aDd, aDd, ((hf b hb (Or.inr hp) b' hb' hn).2 h1 h2), hD _ _ (hends b hb), ← hD _ _ (hends b hb).symm]
          push_cast
          simp only [mul_neg, neg_mul, neg_neg]
          rw [add_comm]
      · rfl
  · rw [sum_branchesOf, sum_branchesOf]
    obtain ⟨l, hp, hfo⟩ := hr.branches
    refine sum_redrawn hp hfo _ _ fun b hb b' hb' hbb => ?_
    obtain ⟨hn, hbb⟩ := hbb
    rw [hn]
    by_cases hp : startsWith b.2.2 'V' = true
    · rw [if_pos hp, if_pos hp]
      dsimp only
      rcases hbb with ⟨h1, h2⟩ | ⟨h1, h2⟩
      · rw [h1, h2, aS, aS, aSd, aSd, hz, hz]
      · rw [h1, h2, aS, aS, aSd, aSd, hz, hz, hS _ _ (hends b hb), ← hS _ _ (hends b hb).symm]
        rw [← neg_sub (if b.1 = 0 then (0 : ℝ) else gateCharge q h b.1)]
        push_cast
        simp only [mul_neg, neg_mul, neg_neg]
        rw [add_comm]
    · rw [if_neg hp, if_neg hp]

end Verif
