import Verif.Lemmas.Parallel

/-!
# Node phases: what a change of the fluxes along a potential does
-/

namespace Verif.Props

open Verif Verif.Spec Verif.Circuit Verif.Sym Verif.Num Matrix Complex

/-- The pairs on the nodes, weighted by `θ`. -/
noncomputable def weighted (ns : List ℕ) (θ : ℕ → ℝ) {tr : Fin ns.length → ℕ} (x : ChargeState tr) : ℝ := ∑ i, θ (ns.get i) * excess x i

theorem weighted_crossed {ns : List ℕ} (hnd : ns.Nodup) (θ : ℕ → ℝ) (a b : ℕ) (ha : a ∈ ns ∨ θ a = 0) (hb : b ∈ ns ∨ θ b = 0) {tr : Fin ns.length → ℕ}
    (x y : ChargeState tr) (hc : Crossed ns (a, b, 0) x y) : weighted ns θ x - weighted ns θ y = θ a - θ b := by
  have one : ∀ n, (n ∈ ns ∨ θ n = 0) → ∑ i : Fin ns.length, θ (ns.get i) * (if ns.get i = n then (1 : ℝ) else 0) = θ n := by
    intro n hn
    by_cases hm : n ∈ ns
    · obtain ⟨i, hi⟩ := List.get_of_mem hm
      rw [Finset.sum_eq_single i]
      · rw [hi, if_pos rfl, mul_one]
      · intro j _ hj
        rw [if_neg, mul_zero]
        intro h
        exact hj (List.nodup_iff_injective_get.1 hnd (h.trans hi.symm))
      · simp
    · rw [hn.resolve_left hm]
      refine Finset.sum_eq_zero fun i _ => ?_
      rw [if_neg, mul_zero]
      intro h
      exact hm (h ▸ List.get_mem ns i)
  rw [← one a ha, ← one b hb]
  unfold weighted
  rw [← Finset.sum_sub_distrib, ← Finset.sum_sub_distrib]
  refine Finset.sum_congr rfl fun i _ => ?_
  rw [hc i]
  unfold gains
  push_cast
  simp only [eq_comm]
  ring

/-- Fluxes that differ by a potential of the nodes transfer pairs in the same way, up to phases of the charge states. -/
theorem transfer_potential {ns : List ℕ} (hnd : ns.Nodup) (bs : List (ℕ × ℕ × String)) (θ : ℕ → ℝ) (hbs : ∀ d ∈ bs, (d.1 ∈ ns ∨ θ d.1 = 0) ∧ (d.2.1 ∈ ns ∨ θ d.2.1 = 0))
    {tr : Fin ns.length → ℕ} (EJ f f' : String → ℝ) (hf : ∀ d ∈ bs, f' d.2.2 = f d.2.2 + (θ d.1 - θ d.2.1)) :
    ∃ p : ChargeState tr → ℂ, (∀ m, (starRingEnd ℂ) (p m) * p m = 1) ∧
      ∀ m m', transfer ns bs EJ f' m m' = p m * (starRingEnd ℂ) (p m') * transfer ns bs EJ f m m' := by
  classical
  obtain ⟨p, hpd⟩ : ∃ p : ChargeState tr → ℂ, ∀ m, p m = exp (((2 * Real.pi * weighted ns θ m : ℝ) : ℂ) * I) := ⟨_, fun _ => rfl⟩
  have hpp : ∀ m m', p m * (starRingEnd ℂ) (p m') = exp (((2 * Real.pi * (weighted ns θ m - weighted ns θ m') : ℝ) : ℂ) * I) := by
    intro m m'
    rw [hpd, hpd, ← Complex.exp_conj, ← Complex.exp_add]
    congr 1
    simp only [map_mul, Complex.conj_ofReal, Complex.conj_I]
    push_cast
    ring
  refine ⟨p, fun m => ?_, fun m m' => ?_⟩
  · rw [mul_comm, hpp, sub_self]
    simp
  · unfold transfer
    rw [← List.sum_map_mul_left]
    congr 1
    apply List.map_congr_left
    intro d hd
    have h1 : (if Crossed ns (d.1, d.2.1, 0) m m' then exp (2 * Real.pi * f' d.2.2 * I) else 0) =
        p m * (starRingEnd ℂ) (p m') * if Crossed ns (d.1, d.2.1, 0) m m' then exp (2 * Real.pi * f d.2.2 * I) else 0 := by
      split_ifs with hc
      · rw [hpp, weighted_crossed hnd θ _ _ (hbs d hd).1 (hbs d hd).2 m m' hc, ← Complex.exp_add, hf d hd]
        congr 1
        push_cast
        ring
      · rw [mul_zero]
    have h2 : (if Crossed ns (d.1, d.2.1, 0) m' m then exp (-(2 * Real.pi * f' d.2.2 * I)) else 0) =
        p m * (starRingEnd ℂ) (p m') * if Crossed ns (d.1, d.2.1, 0) m' m then exp (-(2 * Real.pi * f d.2.2 * I)) else 0 := by
      split_ifs with hc
      · have := weighted_crossed hnd θ _ _ (hbs d hd).1 (hbs d hd).2 m' m hc
        rw [hpp, ← neg_sub, this, ← Complex.exp_add, hf d hd]
        congr 1
        push_cast
        ring
      · rw [mul_zero]
    rw [h1, h2]
    ring

end Verif.Props
