import Verif.Lemmas.Redraw
import Verif.Spec.Parallel

/-!
# Components in parallel: lemmas
-/

namespace Verif

open Verif.Spec Verif.Circuit Matrix Complex

/-- What the junctions contribute to the `netlistElement`. -/
noncomputable def transfer (nodes : List ℕ) (bs : List (ℕ × ℕ × String)) {tr : Fin nodes.length → ℕ} (EJ f : String → ℝ) (x y : ChargeState tr) : ℂ :=
  open Classical in
  (bs.map fun b => (EJ b.2.2 / 2 : ℂ) *
      ((if Crossed nodes (b.1, b.2.1, 0) x y then exp (2 * Real.pi * f b.2.2 * I) else 0) +
        (if Crossed nodes (b.1, b.2.1, 0) y x then exp (-(2 * Real.pi * f b.2.2 * I)) else 0))).sum

/-- Levels do not change when the states are multiplied by phases. -/
theorem levelsUpTo_gauge {ι κ : Type} [Fintype ι] [Fintype κ] {A : Matrix ι ι ℂ} {B : Matrix κ κ ℂ} (τ : ι ≃ κ) (u : ι → ℂ)
    (hu : ∀ i, (starRingEnd ℂ) (u i) * u i = 1)
    (hAB : ∀ i j, B (τ i) (τ j) = u i * (starRingEnd ℂ) (u j) * A i j) (k : ℕ) (E : ℝ) (h : LevelsUpTo A k E) : LevelsUpTo B k E := by
  obtain ⟨v, hv, hE⟩ := h
  have hu0 : ∀ i, u i ≠ 0 := fun i h0 => by
    have := hu i
    rw [h0, mul_zero] at this
    exact zero_ne_one this
  refine levelsUpTo_reindex (A := fun i j => u i * (starRingEnd ℂ) (u j) * A i j) τ hAB k E ⟨fun j i => u i * v j i, ?_, ?_⟩
  · rw [Fintype.linearIndependent_iff] at hv ⊢
    intro c hc j
    apply hv c
    funext i
    have h1 := congrFun hc i
    simp only [Finset.sum_apply, Pi.smul_apply, smul_eq_mul, Pi.zero_apply] at h1 ⊢
    have h2 : u i * ∑ j, c j * v j i = 0 := by
      rw [Finset.mul_sum, ← h1]
      apply Finset.sum_congr rfl; intro j _; ring
    exact (mul_eq_zero.1 h2).resolve_left (hu0 i)
  · intro j
    obtain ⟨e, he, h1⟩ := hE j
    refine ⟨e, he, ?_⟩
    funext i
    have h2 := congrFun h1 i
    simp only [mulVec, dotProduct, Pi.smul_apply, smul_eq_mul] at h2 ⊢
    have h3 : ∀ m, u i * (starRingEnd ℂ) (u m) * A i m * (u m * v j m) = u i * (A i m * v j m) := fun m => by
      linear_combination u i * A i m * v j m * hu m
    simp only [h3]
    rw [← Finset.mul_sum, h2]
    ring

theorem transfer_perm {nodes : List ℕ} {bs bs' : List (ℕ × ℕ × String)} (hp : bs'.Perm bs) {tr : Fin nodes.length → ℕ} (EJ f : String → ℝ) (x y : ChargeState tr) :
    transfer nodes bs' EJ f x y = transfer nodes bs EJ f x y := by
  unfold transfer
  exact (hp.map _).sum_eq

theorem transfer_conj {nodes : List ℕ} (bs : List (ℕ × ℕ × String)) {tr : Fin nodes.length → ℕ} (EJ f : String → ℝ) (x y : ChargeState tr) :
    transfer nodes bs EJ (fun c => - f c) x y = (starRingEnd ℂ) (transfer nodes bs EJ f x y) := by
  have two : (starRingEnd ℂ) 2 = 2 := Complex.conj_ofNat 2
  unfold transfer
  rw [map_list_sum, List.map_map]
  congr 1
  apply List.map_congr_left
  intro b _
  simp only [Function.comp_apply, map_mul, map_add, map_div₀, Complex.conj_ofReal, two]
  congr 2
  · split_ifs
    · rw [← Complex.exp_conj]
      simp [two]
    · simp
  · split_ifs
    · rw [← Complex.exp_conj]
      simp [two]
    · simp

theorem crossed_reverse (nodes : List ℕ) {tr : Fin nodes.length → ℕ} (a b : ℕ) (x y : ChargeState tr) :
    Crossed nodes (b, a, 0) x y ↔ Crossed nodes (a, b, 0) y x := by
  unfold Crossed gains
  constructor <;> intro h i <;> have := h i <;> simp only at this ⊢ <;> omega

/-- The same junctions, with the nodes listed in another order. -/
theorem transfer_reorder {ns ns' : List ℕ} {tr : Fin ns.length → ℕ} {tr' : Fin ns'.length → ℕ} (σ : Fin ns.length ≃ Fin ns'.length)
    (hσ : ∀ i, ns'.get (σ i) = ns.get i) (bs : List (ℕ × ℕ × String)) (EJ f : String → ℝ) (x y : ChargeState tr) (x' y' : ChargeState tr')
    (hx : ∀ i, excess x' (σ i) = excess x i) (hy : ∀ i, excess y' (σ i) = excess y i) :
    transfer ns' bs EJ f x' y' = transfer ns bs EJ f x y := by
  have hcr : ∀ a b (u w : ChargeState tr) (u' w' : ChargeState tr'), (∀ i, excess u' (σ i) = excess u i) → (∀ i, excess w' (σ i) = excess w i) →
      (Crossed ns' (a, b, 0) u' w' ↔ Crossed ns (a, b, 0) u w) := by
    intro a b u w u' w' hu hw
    unfold Crossed
    rw [← σ.forall_congr_right (q := fun i => excess u' i = excess w' i + gains (a, b, 0) (ns'.get i))]
    refine forall_congr' fun i => ?_
    rw [hu, hw, hσ]
  unfold transfer
  congr 1
  apply List.map_congr_left
  intro b _
  rw [hcr _ _ x y x' y' hx hy, hcr _ _ y x y' x' hy hx]

theorem netlistElement_eq {h : List Call} {ns : List ℕ} {tr : Fin ns.length → ℕ} (C : Matrix (Fin ns.length) (Fin ns.length) ℝ) (ng : ℕ → ℝ)
    (qp : ℝ) (EJ f : String → ℝ) (x y : ChargeState tr) :
    netlistElement ns h qp C ng EJ f x y = (open Classical in
      if x = y then ((1 / 2 * ∑ i, ∑ j, qp ^ 2 * C⁻¹ i j * (excess x i + ng (ns.get i)) * (excess x j + ng (ns.get j)) : ℝ) : ℂ) else 0) -
      transfer ns (branchesOf 'I' (branches h)) EJ f x y := rfl

/-- What a junction contributes does not depend on the end from which it is given, if its bias is reversed. -/
theorem transfer_cons (ns : List ℕ) (b : ℕ × ℕ × String) (l : List (ℕ × ℕ × String)) {tr : Fin ns.length → ℕ} (EJ f : String → ℝ) (x y : ChargeState tr) :
    transfer ns (b :: l) EJ f x y = transfer ns [b] EJ f x y + transfer ns l EJ f x y := by
  unfold transfer
  rw [List.map_cons, List.sum_cons, List.map_cons, List.map_nil, List.sum_cons, List.sum_nil, add_zero]

theorem transfer_congr {ns : List ℕ} {l : List (ℕ × ℕ × String)} {tr : Fin ns.length → ℕ} {EJ EJ' f f' : String → ℝ} (hE : ∀ b ∈ l, EJ' b.2.2 = EJ b.2.2)
    (hf : ∀ b ∈ l, f' b.2.2 = f b.2.2) (x y : ChargeState tr) : transfer ns l EJ' f' x y = transfer ns l EJ f x y := by
  unfold transfer
  congr 1
  apply List.map_congr_left
  intro b hb
  rw [hE b hb, hf b hb]

/-! ### The phase of a part of the circuit -/

/-- The pairs on the nodes of a set. -/
noncomputable def onSet (ns : List ℕ) (S : Set ℕ) {tr : Fin ns.length → ℕ} (x : ChargeState tr) : ℤ :=
  open Classical in ∑ i, if ns.get i ∈ S then excess x i else 0

theorem sum_ends {ns : List ℕ} (hnd : ns.Nodup) (S : Set ℕ) (a : ℕ) (ha : a ∈ S → a ∈ ns) :
    (open Classical in ∑ i : Fin ns.length, if ns.get i ∈ S then (if ns.get i = a then (1 : ℤ) else 0) else 0) = open Classical in if a ∈ S then 1 else 0 := by
  classical
  by_cases hS : a ∈ S
  · obtain ⟨i, hi⟩ := List.get_of_mem (ha hS)
    rw [if_pos hS, Finset.sum_eq_single i]
    · rw [hi, if_pos hS, if_pos rfl]
    · intro j _ hj
      rw [if_neg (c := ns.get j = a), ite_self]
      exact fun h => hj (List.nodup_iff_injective_get.1 hnd (h.trans hi.symm))
    · simp
  · rw [if_neg hS]
    apply Finset.sum_eq_zero
    intro j _
    by_cases hj : ns.get j = a
    · rw [hj, if_neg hS]
    · rw [if_neg hj, ite_self]

theorem onSet_crossed {ns : List ℕ} (hnd : ns.Nodup) (S : Set ℕ) (a b : ℕ) (ha : a ∈ S → a ∈ ns) (hb : b ∈ S → b ∈ ns) {tr : Fin ns.length → ℕ}
    (x y : ChargeState tr) (hc : Crossed ns (a, b, 0) x y) :
    onSet ns S x = onSet ns S y + (open Classical in (if a ∈ S then 1 else 0) - (if b ∈ S then 1 else 0)) := by
  classical
  rw [← sum_ends hnd S a ha, ← sum_ends hnd S b hb]
  unfold onSet
  rw [← Finset.sum_sub_distrib, ← Finset.sum_add_distrib]
  apply Finset.sum_congr rfl
  intro i _
  by_cases hi : ns.get i ∈ S
  · simp only [if_pos hi]
    have := hc i
    unfold gains at this
    exact this
  · simp only [if_neg hi]
    ring

end Verif
