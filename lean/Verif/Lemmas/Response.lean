import Verif.Lemmas.Weyl
import Verif.Lemmas.Parallel
import Verif.Spec.Response
import Mathlib.Analysis.Normed.Group.Basic
import Mathlib.Analysis.SpecialFunctions.Trigonometric.Bounds
import Mathlib.Analysis.SpecialFunctions.Complex.Circle

/-!
# How the levels respond: lemmas
-/

namespace Verif

open Matrix Complex Verif.Spec

/-- Transfers between states that are paired one to one have at most the weight of the state. -/
theorem transfer_weight {ι : Type} [Fintype ι] (R : ι → ι → Prop) [DecidableRel R] (h1 : ∀ x y y', R x y → R x y' → y = y') (h2 : ∀ x x' y, R x y → R x' y → x = x')
    (v : ι → ℂ) : ∑ x, ∑ y, (if R x y then ‖v x‖ * ‖v y‖ else 0) ≤ ∑ x, normSq (v x) := by
  have hle : ∀ x y, (if R x y then ‖v x‖ * ‖v y‖ else 0) ≤ 1 / 2 * (if R x y then normSq (v x) else 0) + 1 / 2 * (if R x y then normSq (v y) else 0) := by
    intro x y
    split_ifs
    · rw [Complex.normSq_eq_norm_sq, Complex.normSq_eq_norm_sq]
      nlinarith [sq_nonneg (‖v x‖ - ‖v y‖)]
    · simp
  have key : ∀ (S : ι → Prop) [DecidablePred S] (t : ℝ), 0 ≤ t → (∀ y y', S y → S y' → y = y') → ∑ y, (if S y then t else 0) ≤ t := by
    intro S _ t ht hS
    by_cases hex : ∃ y, S y
    · obtain ⟨y, hy⟩ := hex
      rw [Finset.sum_eq_single y]
      · rw [if_pos hy]
      · intro y' _ hne
        exact if_neg fun h => hne (hS _ _ h hy)
      · simp
    · push Not at hex
      rw [Finset.sum_eq_zero fun y _ => if_neg (hex y)]
      exact ht
  have s1 : ∑ x, ∑ y, (if R x y then normSq (v x) else 0) ≤ ∑ x, normSq (v x) :=
    Finset.sum_le_sum fun x _ => key (R x) _ (normSq_nonneg _) (h1 x)
  have s2 : ∑ x, ∑ y, (if R x y then normSq (v y) else 0) ≤ ∑ x, normSq (v x) := by
    rw [Finset.sum_comm]
    exact Finset.sum_le_sum fun y _ => key (fun x => R x y) _ (normSq_nonneg _) (fun x x' => h2 x x' y)
  calc ∑ x, ∑ y, (if R x y then ‖v x‖ * ‖v y‖ else 0)
      ≤ ∑ x, ∑ y, (1 / 2 * (if R x y then normSq (v x) else 0) + 1 / 2 * (if R x y then normSq (v y) else 0)) :=
        Finset.sum_le_sum fun x _ => Finset.sum_le_sum fun y _ => hle x y
    _ = 1 / 2 * ∑ x, ∑ y, (if R x y then normSq (v x) else 0) + 1 / 2 * ∑ x, ∑ y, (if R x y then normSq (v y) else 0) := by
        simp only [Finset.sum_add_distrib, Finset.mul_sum]
    _ ≤ _ := by linarith

theorem energy_add {ι : Type} [Fintype ι] (A B : Matrix ι ι ℂ) (v : ι → ℂ) : energy (A + B) v = energy A v + energy B v := by
  unfold energy
  rw [add_mulVec, dotProduct_add, Complex.add_re]

theorem energy_diagonal {ι : Type} [Fintype ι] [DecidableEq ι] (d : ι → ℝ) (v : ι → ℂ) : energy (diagonal fun i => (d i : ℂ)) v = ∑ i, d i * normSq (v i) := by
  unfold energy
  have := quad_isometry (diagonal fun i => (d i : ℂ)) (1 : Matrix ι ι ℂ) d (by simp) v
  rw [one_mulVec] at this
  rw [this, Complex.ofReal_re]

theorem energy_smul {ι : Type} [Fintype ι] (r : ℝ) (A : Matrix ι ι ℂ) (v : ι → ℂ) : energy (fun x y => (r : ℂ) * A x y) v = r * energy A v := by
  unfold energy
  have : ((fun x y => (r : ℂ) * A x y : Matrix ι ι ℂ) *ᵥ v) = (r : ℂ) • (A *ᵥ v) := by
    funext x
    simp only [mulVec, dotProduct, Pi.smul_apply, smul_eq_mul, Finset.mul_sum, mul_assoc]
  rw [this, dotProduct_smul, smul_eq_mul, Complex.re_ofReal_mul]

theorem energy_list {ι β : Type} [Fintype ι] (l : List β) (F : β → Matrix ι ι ℂ) (c : β → ℝ) (v : ι → ℂ) (w : ℝ) (hF : ∀ b ∈ l, |energy (F b) v| ≤ c b * w) :
    |energy (fun x y => (l.map fun b => F b x y).sum) v| ≤ (l.map c).sum * w := by
  induction l with
  | nil =>
    simp only [List.map_nil, List.sum_nil, zero_mul]
    unfold energy
    have : ((fun _ _ => 0 : Matrix ι ι ℂ) *ᵥ v) = 0 := by
      funext x
      simp [mulVec, dotProduct]
    rw [this]
    simp
  | cons b l ih =>
    have h1 : (fun x y => ((b :: l).map fun b => F b x y).sum : Matrix ι ι ℂ) = F b + Matrix.of (fun x y => (l.map fun b => F b x y).sum) := by
      funext x y
      simp
    rw [h1, energy_add, List.map_cons, List.sum_cons, add_mul]
    exact (abs_add_le _ _).trans (add_le_add (hF b (by simp)) (ih fun d hd => hF d (List.mem_cons_of_mem _ hd)))

/-- One junction changes the energy of a state by at most its Josephson energy. -/
theorem energy_junction {ι : Type} [Fintype ι] (R : ι → ι → Prop) [DecidableRel R] (h1 : ∀ x y y', R x y → R x y' → y = y') (h2 : ∀ x x' y, R x y → R x' y → x = x')
    (J : ℂ) (v : ι → ℂ) : |energy (fun x y => (1 / 2 : ℂ) * ((if R x y then J else 0) + if R y x then (starRingEnd ℂ) J else 0)) v| ≤ ‖J‖ * ∑ x, normSq (v x) := by
  have e1 : energy (fun x y => (1 / 2 : ℂ) * ((if R x y then J else 0) + if R y x then (starRingEnd ℂ) J else 0)) v =
      ∑ x, ∑ y, (if R x y then (J * ((starRingEnd ℂ) (v x) * v y)).re else 0) := by
    unfold energy
    have : star v ⬝ᵥ ((fun x y => (1 / 2 : ℂ) * ((if R x y then J else 0) + if R y x then (starRingEnd ℂ) J else 0) : Matrix ι ι ℂ) *ᵥ v) =
        1 / 2 * ∑ x, ∑ y, (if R x y then J * ((starRingEnd ℂ) (v x) * v y) else 0) +
          1 / 2 * ∑ x, ∑ y, (if R x y then (starRingEnd ℂ) (J * ((starRingEnd ℂ) (v x) * v y)) else 0) := by
      rw [Finset.sum_comm (f := fun x y => (if R x y then (starRingEnd ℂ) (J * ((starRingEnd ℂ) (v x) * v y)) else 0))]
      simp only [dotProduct, mulVec, Finset.mul_sum, ← Finset.sum_add_distrib]
      apply Finset.sum_congr rfl; intro x _
      apply Finset.sum_congr rfl; intro y _
      simp only [Pi.star_apply, RCLike.star_def, map_mul, Complex.conj_conj]
      split_ifs <;> ring
    rw [this, Complex.add_re]
    have hh : (1 / 2 : ℂ) = ((1 / 2 : ℝ) : ℂ) := by push_cast; rfl
    rw [hh, Complex.re_ofReal_mul, Complex.re_ofReal_mul]
    simp only [Complex.re_sum]
    have t1 : ∀ x y, (if R x y then J * ((starRingEnd ℂ) (v x) * v y) else 0).re = if R x y then (J * ((starRingEnd ℂ) (v x) * v y)).re else 0 := by
      intro x y; split_ifs <;> simp
    have t2 : ∀ x y, (if R x y then (starRingEnd ℂ) (J * ((starRingEnd ℂ) (v x) * v y)) else 0).re = if R x y then (J * ((starRingEnd ℂ) (v x) * v y)).re else 0 := by
      intro x y
      split_ifs
      · rw [Complex.conj_re]
      · simp
    simp only [t1, t2]
    ring
  rw [e1]
  have hw := transfer_weight R h1 h2 v
  calc |∑ x, ∑ y, (if R x y then (J * ((starRingEnd ℂ) (v x) * v y)).re else 0)|
      ≤ ∑ x, ∑ y, |if R x y then (J * ((starRingEnd ℂ) (v x) * v y)).re else 0| :=
        (Finset.abs_sum_le_sum_abs _ _).trans (Finset.sum_le_sum fun x _ => Finset.abs_sum_le_sum_abs _ _)
    _ ≤ ∑ x, ∑ y, ‖J‖ * (if R x y then ‖v x‖ * ‖v y‖ else 0) := by
        refine Finset.sum_le_sum fun x _ => Finset.sum_le_sum fun y _ => ?_
        split_ifs
        · refine (Complex.abs_re_le_norm _).trans ?_
          rw [norm_mul, norm_mul, RCLike.norm_conj]
        · simp
    _ = ‖J‖ * ∑ x, ∑ y, (if R x y then ‖v x‖ * ‖v y‖ else 0) := by simp only [Finset.mul_sum]
    _ ≤ _ := mul_le_mul_of_nonneg_left hw (norm_nonneg _)

theorem excess_inj {n : ℕ} {tr : Fin n → ℕ} (x y : ChargeState tr) (h : ∀ i, excess x i = excess y i) : x = y := by
  funext i
  have := h i
  unfold excess at this
  apply Fin.ext
  omega

theorem crossed_functional {ns : List ℕ} {tr : Fin ns.length → ℕ} (e : ℕ × ℕ × ℕ) (x y y' : ChargeState tr) (h : Crossed ns e x y) (h' : Crossed ns e x y') : y = y' :=
  excess_inj _ _ fun i => by have := h i; have := h' i; omega

theorem crossed_injective {ns : List ℕ} {tr : Fin ns.length → ℕ} (e : ℕ × ℕ × ℕ) (x x' y : ChargeState tr) (h : Crossed ns e x y) (h' : Crossed ns e x' y) : x = x' :=
  excess_inj _ _ fun i => by have := h i; have := h' i; omega

theorem phase_change (t s : ℝ) : ‖exp ((t : ℂ) * I) - exp ((s : ℂ) * I)‖ ≤ |t - s| := by
  have h1 : exp ((t : ℂ) * I) - exp ((s : ℂ) * I) = exp ((s : ℂ) * I) * (exp (((t - s : ℝ) : ℂ) * I) - 1) := by
    rw [mul_sub, ← Complex.exp_add, mul_one]
    congr 2
    push_cast
    ring
  rw [h1, norm_mul, Complex.norm_exp_ofReal_mul_I, one_mul]
  have h2 := Real.norm_exp_I_mul_ofReal_sub_one_le (x := t - s)
  rw [mul_comm I] at h2
  simpa using h2

/-- Changing the currents and fluxes changes the energy of a state in the junctions by at most the sum of the changes. -/
theorem energy_transfer (ns : List ℕ) (bs : List (ℕ × ℕ × String)) {tr : Fin ns.length → ℕ} (EJ EJ' f f' : String → ℝ) (v : ChargeState tr → ℂ) :
    |energy (fun x y => transfer ns bs EJ' f' x y - transfer ns bs EJ f x y) v| ≤
      (bs.map fun b => |EJ' b.2.2 - EJ b.2.2| + 2 * Real.pi * |EJ b.2.2| * |f' b.2.2 - f b.2.2|).sum * ∑ x, normSq (v x) := by
  classical
  let J : ℕ × ℕ × String → ℂ := fun b => EJ' b.2.2 * exp (2 * Real.pi * f' b.2.2 * I) - EJ b.2.2 * exp (2 * Real.pi * f b.2.2 * I)
  have h1 : (fun x y => transfer ns bs EJ' f' x y - transfer ns bs EJ f x y : Matrix (ChargeState tr) (ChargeState tr) ℂ) =
      fun x y => (bs.map fun b => (fun x y : ChargeState tr => (1 / 2 : ℂ) * ((if Crossed ns (b.1, b.2.1, 0) x y then J b else 0) +
        if Crossed ns (b.1, b.2.1, 0) y x then (starRingEnd ℂ) (J b) else 0)) x y).sum := by
    funext x y
    unfold transfer
    induction bs with
    | nil => simp
    | cons b bs ih =>
      simp only [List.map_cons, List.sum_cons] at ih ⊢
      rw [← ih]
      have hJ : (starRingEnd ℂ) (J b) = EJ' b.2.2 * exp (-(2 * Real.pi * f' b.2.2 * I)) - EJ b.2.2 * exp (-(2 * Real.pi * f b.2.2 * I)) := by
        have two : (starRingEnd ℂ) 2 = 2 := Complex.conj_ofNat 2
        simp only [J, map_sub, map_mul, Complex.conj_ofReal, ← Complex.exp_conj, two, Complex.conj_I, mul_neg]
      rw [hJ]
      simp only [J]
      split_ifs <;> ring
  rw [h1]
  apply energy_list bs (fun b => (fun x y : ChargeState tr => (1 / 2 : ℂ) * ((if Crossed ns (b.1, b.2.1, 0) x y then J b else 0) +
        if Crossed ns (b.1, b.2.1, 0) y x then (starRingEnd ℂ) (J b) else 0)))
  intro b _
  refine (energy_junction (fun x y => Crossed ns (b.1, b.2.1, 0) x y) (crossed_functional _) (crossed_injective _) (J b) v).trans ?_
  refine mul_le_mul_of_nonneg_right ?_ (Finset.sum_nonneg fun _ _ => normSq_nonneg _)
  have t : ∀ r : ℝ, (2 * Real.pi * r * I : ℂ) = ((2 * Real.pi * r : ℝ) : ℂ) * I := fun r => by push_cast; rfl
  have h2 : J b = ((EJ' b.2.2 - EJ b.2.2 : ℝ) : ℂ) * exp (2 * Real.pi * f' b.2.2 * I) +
      (EJ b.2.2 : ℂ) * (exp (2 * Real.pi * f' b.2.2 * I) - exp (2 * Real.pi * f b.2.2 * I)) := by
    simp only [J]; push_cast; ring
  rw [h2, t, t]
  refine (norm_add_le _ _).trans ?_
  rw [norm_mul, norm_mul, Complex.norm_exp_ofReal_mul_I, mul_one, Complex.norm_real, Complex.norm_real, Real.norm_eq_abs, Real.norm_eq_abs]
  refine add_le_add (le_refl _) ?_
  have h3 := phase_change (2 * Real.pi * f' b.2.2) (2 * Real.pi * f b.2.2)
  rw [← mul_sub, abs_mul, abs_of_pos Real.two_pi_pos] at h3
  calc |EJ b.2.2| * _ ≤ |EJ b.2.2| * (2 * Real.pi * |f' b.2.2 - f b.2.2|) := mul_le_mul_of_nonneg_left h3 (abs_nonneg _)
    _ = _ := by ring

end Verif
