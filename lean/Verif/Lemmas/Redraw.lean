import Verif.Spec.Redraw
import Verif.Spec.Levels
import Mathlib.LinearAlgebra.Matrix.NonsingularInverse
import Mathlib.LinearAlgebra.Matrix.ToLin
import Mathlib.Analysis.Complex.Basic

/-!
# Redrawing a circuit: lemmas
-/

namespace Verif

open Verif.Spec Verif.Circuit Matrix Complex

/-! ### Levels -/

theorem levelsUpTo_reindex {ι κ : Type} [Fintype ι] [Fintype κ] {A : Matrix ι ι ℂ} {B : Matrix κ κ ℂ} (τ : ι ≃ κ)
    (hAB : ∀ i j, B (τ i) (τ j) = A i j) (k : ℕ) (E : ℝ) (h : LevelsUpTo A k E) : LevelsUpTo B k E := by
  obtain ⟨v, hv, hE⟩ := h
  refine ⟨fun j => v j ∘ τ.symm, ?_, ?_⟩
  · rw [Fintype.linearIndependent_iff] at hv ⊢
    intro c hc j
    apply hv c
    funext i
    have := congrFun hc (τ i)
    simpa using this
  · intro j
    obtain ⟨e, he, h1⟩ := hE j
    refine ⟨e, he, ?_⟩
    funext i'
    obtain ⟨i, rfl⟩ := τ.surjective i'
    have := congrFun h1 i
    simp only [mulVec, dotProduct, Pi.smul_apply, Function.comp_apply, Equiv.symm_apply_apply] at this ⊢
    rw [← this, ← Equiv.sum_comp τ]
    simp [hAB]

theorem levelsUpTo_conj {ι κ : Type} [Fintype ι] [Fintype κ] {A : Matrix ι ι ℂ} {B : Matrix κ κ ℂ} (τ : ι ≃ κ)
    (hAB : ∀ i j, B (τ i) (τ j) = (starRingEnd ℂ) (A i j)) (k : ℕ) (E : ℝ) (h : LevelsUpTo A k E) : LevelsUpTo B k E := by
  obtain ⟨v, hv, hE⟩ := h
  refine levelsUpTo_reindex (A := fun i j => (starRingEnd ℂ) (A i j)) τ hAB k E ⟨fun j i => (starRingEnd ℂ) (v j i), ?_, ?_⟩
  · rw [Fintype.linearIndependent_iff] at hv ⊢
    intro c hc j
    have := hv (fun j => (starRingEnd ℂ) (c j)) (by
      funext i
      have := congrArg (starRingEnd ℂ) (congrFun hc i)
      simpa using this) j
    simpa using this
  · intro j
    obtain ⟨e, he, h1⟩ := hE j
    refine ⟨e, he, ?_⟩
    funext i
    have := congrArg (starRingEnd ℂ) (congrFun h1 i)
    simpa [mulVec, dotProduct] using this

/-! ### Quadratic forms -/

theorem symmetric_eq_of_form {n : ℕ} {A B : Matrix (Fin n) (Fin n) ℝ} (hA : Aᵀ = A) (hB : Bᵀ = B)
    (hf : ∀ x, x ⬝ᵥ A.mulVec x = x ⬝ᵥ B.mulVec x) : A = B := by
  have hM : (A - B)ᵀ = A - B := by rw [transpose_sub, hA, hB]
  have h0 : ∀ x, x ⬝ᵥ (A - B).mulVec x = 0 := by
    intro x
    rw [Matrix.sub_mulVec, dotProduct_sub, hf, sub_self]
  have hs : ∀ i j, (Pi.single i 1 : Fin n → ℝ) ⬝ᵥ (A - B).mulVec (Pi.single j 1) = (A - B) i j := by
    intro i j
    simp
  rw [← sub_eq_zero]
  ext i j
  have h1 := h0 (Pi.single i 1 + Pi.single j 1)
  rw [mulVec_add, add_dotProduct, dotProduct_add, dotProduct_add, h0, h0, hs, hs] at h1
  have h2 : (A - B) j i = (A - B) i j := congrFun (congrFun hM i) j
  rw [h2] at h1
  rw [Matrix.zero_apply]
  linarith

/-! ### Sums over redrawn branches -/

theorem sum_redrawn {M : Type} [AddCommMonoid M] {ρ : ℕ → ℕ} {bs l bs' : List (ℕ × ℕ × String)} (hp : l.Perm bs') (hf : List.Forall₂ (SameBranch ρ) bs l)
    (F F' : ℕ × ℕ × String → M) (hF : ∀ b ∈ bs, ∀ b' ∈ bs', SameBranch ρ b b' → F' b' = F b) : (bs'.map F').sum = (bs.map F).sum := by
  rw [← (hp.map F').sum_eq]
  have hmem : ∀ b' ∈ l, b' ∈ bs' := fun b' hb' => hp.subset hb'
  clear hp
  induction hf with
  | nil => rfl
  | @cons b b' bs l hb _ ih =>
    rw [List.map_cons, List.map_cons, List.sum_cons, List.sum_cons, hF b (by simp) b' (hmem _ (by simp)) hb,
      ih (fun d hd d' hd' => hF d (List.mem_cons_of_mem _ hd) d' hd') (fun d' hd' => hmem d' (List.mem_cons_of_mem _ hd'))]

theorem sum_branchesOf {M : Type} [AddCommMonoid M] (p : Char) (bs : List (ℕ × ℕ × String)) (F : ℕ × ℕ × String → M) :
    ((branchesOf p bs).map F).sum = (bs.map fun b => if startsWith b.2.2 p = true then F b else 0).sum := by
  unfold branchesOf
  induction bs with
  | nil => rfl
  | cons b bs ih =>
    rw [List.filter_cons, List.map_cons, List.sum_cons]
    by_cases hb : startsWith b.2.2 p = true
    · rw [if_pos hb, if_pos hb, List.map_cons, List.sum_cons, ih]
    · rw [if_neg hb, if_neg hb, ih, zero_add]

theorem nodesOf_redrawn {ρ : ℕ → ℕ} {h h' : List Call} (hr : Redrawn ρ h h') : nodesOf (branches h') = (nodesOf (branches h)).image ρ := by
  obtain ⟨l, hp, hf⟩ := hr.branches
  have h1 : nodesOf (branches h') = nodesOf l := by
    ext n
    simp only [nodesOf, List.mem_toFinset, List.mem_flatMap]
    exact ⟨fun ⟨b, hb, hn⟩ => ⟨b, hp.symm.subset hb, hn⟩, fun ⟨b, hb, hn⟩ => ⟨b, hp.subset hb, hn⟩⟩
  rw [h1]
  generalize branches h = bs at hf
  clear h1 hp hr
  induction hf with
  | nil => rfl
  | @cons b b' bs l hb _ ih =>
    have hc : ∀ (b : ℕ × ℕ × String) (l), nodesOf (b :: l) = {b.1, b.2.1} ∪ nodesOf l := by
      intro b l
      ext n
      simp [nodesOf, or_assoc]
    rw [hc, hc, ih, Finset.image_union]
    congr 1
    rcases hb.2 with ⟨h1, h2⟩ | ⟨h1, h2⟩ <;> rw [h1, h2] <;> ext n <;> simp <;> tauto

theorem electrostatic_redrawn {ρ : ℕ → ℕ} {h h' : List Call} (hr : Redrawn ρ h h') (val : String → ℝ) (v : ℕ → ℝ) :
    electrostaticForm val h' v = electrostaticForm val h (v ∘ ρ) := by
  unfold electrostaticForm
  congr 1
  · obtain ⟨l, hp, hf⟩ := hr.branches
    unfold capacitorForm
    rw [sum_branchesOf, sum_branchesOf]
    apply sum_redrawn hp hf
    intro b _ b' _ hb
    rw [hb.1]
    rcases hb.2 with ⟨h1, h2⟩ | ⟨h1, h2⟩ <;> rw [h1, h2] <;> simp only [Function.comp_apply]
    split_ifs <;> ring
  · rw [nodesOf_redrawn hr, Finset.sum_image hr.inj.injOn]
    apply Finset.sum_congr rfl
    intro n _
    rw [hr.caps]
    rfl

/-! ### Matrix elements -/

theorem netlistElement_redrawn {ρ : ℕ → ℕ} {h h' : List Call} (hr : Redrawn ρ h h') {ns ns' : List ℕ} {tr : Fin ns.length → ℕ} {tr' : Fin ns'.length → ℕ}
    (σ : Fin ns.length ≃ Fin ns'.length) (hσ : ∀ i, ns'.get (σ i) = ρ (ns.get i)) (C : Matrix (Fin ns.length) (Fin ns.length) ℝ)
    (C' : Matrix (Fin ns'.length) (Fin ns'.length) ℝ) (hC : C'.submatrix σ σ = C) (q : String → ℝ) (qp : ℝ) (EJ f f' : String → ℝ)
    (hf : ∀ b ∈ branches h, ∀ b' ∈ branches h', b'.2.2 = b.2.2 → (b'.1 = ρ b.1 → b'.2.1 = ρ b.2.1 → f' b.2.2 = f b.2.2) ∧
      (b'.1 = ρ b.2.1 → b'.2.1 = ρ b.1 → f' b.2.2 = - f b.2.2))
    (x y : ChargeState tr) (x' y' : ChargeState tr') (hx : ∀ i, excess x' (σ i) = excess x i) (hy : ∀ i, excess y' (σ i) = excess y i)
    (hxy : x' = y' ↔ x = y) :
    netlistElement ns' h' qp C' (gateCharge q h') EJ f' x' y' = netlistElement ns h qp C (gateCharge q h) EJ f x y := by
  classical
  have hcr : ∀ a b (u w : ChargeState tr) (u' w' : ChargeState tr'), (∀ i, excess u' (σ i) = excess u i) → (∀ i, excess w' (σ i) = excess w i) →
      (Crossed ns' (ρ a, ρ b, 0) u' w' ↔ Crossed ns (a, b, 0) u w) := by
    intro a b u w u' w' hu hw
    unfold Crossed
    rw [← σ.forall_congr_right (q := fun i => excess u' i = excess w' i + gains (ρ a, ρ b, 0) (ns'.get i))]
    refine forall_congr' fun i => ?_
    rw [hu, hw, hσ]
    unfold gains
    simp only [hr.inj.eq_iff]
  have hflip : ∀ (nodes : List ℕ) {tr : Fin nodes.length → ℕ} (a b : ℕ) (x y : ChargeState tr),
      Crossed nodes (b, a, 0) x y ↔ Crossed nodes (a, b, 0) y x := by
    intro nodes tr a b x y
    unfold Crossed gains
    constructor <;> intro h i <;> have := h i <;> simp only at this ⊢ <;> omega
  unfold netlistElement
  congr 1
  · have hCi : ∀ i j, C'⁻¹ (σ i) (σ j) = C⁻¹ i j := by
      intro i j
      rw [← hC, inv_submatrix_equiv]
      rfl
    have : (1 / 2 * ∑ i, ∑ j, qp ^ 2 * C'⁻¹ i j * (excess x' i + gateCharge q h' (ns'.get i)) * (excess x' j + gateCharge q h' (ns'.get j)) : ℝ) =
        1 / 2 * ∑ i, ∑ j, qp ^ 2 * C⁻¹ i j * (excess x i + gateCharge q h (ns.get i)) * (excess x j + gateCharge q h (ns.get j)) := by
      congr 1
      rw [← Equiv.sum_comp σ]
      apply Finset.sum_congr rfl; intro i _
      rw [← Equiv.sum_comp σ]
      apply Finset.sum_congr rfl; intro j _
      rw [hCi, hx, hx, hσ, hσ, hr.charge, hr.charge]
    rw [this]
    by_cases hxy' : x = y
    · rw [if_pos hxy', if_pos (hxy.2 hxy')]
    · rw [if_neg hxy', if_neg fun h => hxy' (hxy.1 h)]
  · obtain ⟨l, hp, hfa⟩ := hr.branches
    rw [sum_branchesOf, sum_branchesOf]
    apply sum_redrawn hp hfa
    intro b hb b' hb' hbb
    have h3 := hf b hb b' hb' hbb.1
    rw [hbb.1]
    rcases hbb.2 with ⟨h1, h2⟩ | ⟨h1, h2⟩
    · rw [h1, h2, hcr _ _ x y x' y' hx hy, hcr _ _ y x y' x' hy hx, h3.1 h1 h2]
    · rw [h1, h2, hcr _ _ x y x' y' hx hy, hcr _ _ y x y' x' hy hx, h3.2 h1 h2, hflip ns b.1 b.2.1 x y, hflip ns b.1 b.2.1 y x]
      split_ifs <;> push_cast <;> simp only [mul_neg, neg_mul, neg_neg] <;> ring

theorem netlistElement_conj {h : List Call} {ns : List ℕ} {tr : Fin ns.length → ℕ} (C : Matrix (Fin ns.length) (Fin ns.length) ℝ) (ng : ℕ → ℝ)
    (qp : ℝ) (EJ f : String → ℝ) (x y : ChargeState tr) :
    netlistElement ns h qp C ng EJ (fun c => - f c) x y = (starRingEnd ℂ) (netlistElement ns h qp C ng EJ f x y) := by
  have two : (starRingEnd ℂ) 2 = 2 := Complex.conj_ofNat 2
  unfold netlistElement
  rw [map_sub, map_list_sum, List.map_map]
  congr 1
  · split_ifs
    · rw [Complex.conj_ofReal]
    · simp
  · congr 1
    apply List.map_congr_left
    intro b _
    simp only [Function.comp_apply, map_mul, map_add, map_div₀, Complex.conj_ofReal, two]
    congr 2
    · split_ifs
      · rw [← Complex.exp_conj]
        simp [two]
      · simp
    · split_ifs
      · rw [← Complex.exp_conj]
        simp [two]
      · simp

theorem netlistElement_swap {h : List Call} {ns : List ℕ} {tr : Fin ns.length → ℕ} (C : Matrix (Fin ns.length) (Fin ns.length) ℝ) (ng : ℕ → ℝ)
    (qp : ℝ) (EJ f : String → ℝ) (x y : ChargeState tr) :
    netlistElement ns h qp C ng EJ f y x = (starRingEnd ℂ) (netlistElement ns h qp C ng EJ f x y) := by
  rw [← netlistElement_conj]
  unfold netlistElement
  congr 1
  · by_cases hxy : x = y
    · subst hxy; rfl
    · rw [if_neg hxy, if_neg (Ne.symm hxy)]
  · congr 1
    apply List.map_congr_left
    intro b _
    congr 1
    rw [add_comm]
    push_cast
    simp only [mul_neg, neg_mul, neg_neg]

end Verif
