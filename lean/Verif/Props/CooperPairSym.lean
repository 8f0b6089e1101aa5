import Verif.Props.CooperPair

/-!
# C82: symmetries of a Josephson circuit in the charge basis
-/

namespace Verif.Props

open Verif Verif.Sym Verif.Num Verif.Spec Complex Matrix

/-- `E` is an eigenvalue of `H`. -/
def HasLevel {ι : Type} [Fintype ι] (H : Matrix ι ι ℂ) (E : ℝ) : Prop := ∃ v : ι → ℂ, v ≠ 0 ∧ H.mulVec v = (E : ℂ) • v

theorem gains_sum {h : List Circuit.Call} {g : Circuit.CG} (hs : Settled h g) (χ : ℕ → ℝ) (h0 : χ 0 = 0) (k : Fin (edges g).length) :
    ∑ i, χ ((nodes g).get i) * (gains ((edges g).get k) ((nodes g).get i) : ℝ) = χ ((edges g).get k).1 - χ ((edges g).get k).2.1 := by
  rw [← branchFluxes_eq hs χ h0 k]
  unfold branchFluxes Matrix.mulVec dotProduct
  simp only [Matrix.transpose_apply, incidence_eq]
  apply Finset.sum_congr rfl
  intro i _
  unfold gains
  push_cast
  simp only [eq_comm (a := (nodes g).get i)]
  ring

/-- **C82** Every island keeps its charge: if each junction has both ends in the set `W` of nodes, or both outside, then the Hamiltonian has
matrix elements only between states with the same number of pairs on `W`. -/
theorem C82_islands (h : List Circuit.Call) (g : Circuit.CG) (tr : Fin (nodes g).length → ℕ)
    (N : Fin (nodes g).length → BigNode fun i => NodeCfg.mk (tr i) .charge) (s : Sys PUnit (nodes g).length (edges g).length)
    (hc : PairCircuit h g tr N s) (H : BigOp fun i => NodeCfg.mk (tr i) .charge) (hH : hamiltonian (s.withNodes N) = some H)
    (W : Finset ℕ) (h0 : 0 ∉ W) (hW : ∀ k, s.J k ≠ 0 → (((edges g).get k).1 ∈ W ↔ ((edges g).get k).2.1 ∈ W)) (x y : ChargeState tr) (hxy : H x y ≠ 0) :
    ∑ i with (nodes g).get i ∈ W, excess x i = ∑ i with (nodes g).get i ∈ W, excess y i := by
  rw [C81_charge_hamiltonian h g tr N s hc H hH] at hxy
  by_contra hne
  apply hxy
  have hcross : ∀ (x y : ChargeState tr) k, s.J k ≠ 0 → Crossed (nodes g) ((edges g).get k) x y →
      ∑ i with (nodes g).get i ∈ W, excess x i = ∑ i with (nodes g).get i ∈ W, excess y i := by
    intro x y k hk hcr
    have h1 := gains_sum hc.settled (fun v => if v ∈ W then 1 else 0) (if_neg h0) k
    have h2 : ∑ i with (nodes g).get i ∈ W, gains ((edges g).get k) ((nodes g).get i) = 0 := by
      rw [Finset.sum_filter]
      have h3 : ((∑ i, if (nodes g).get i ∈ W then gains ((edges g).get k) ((nodes g).get i) else 0 : ℤ) : ℝ) = 0 := by
        push_cast
        refine Eq.trans (Finset.sum_congr rfl fun i _ => ?_) (h1.trans ?_)
        · split_ifs <;> simp
        · simp only [hW k hk]; ring
      exact_mod_cast h3
    rw [Finset.sum_congr rfl fun i _ => hcr i, Finset.sum_add_distrib, h2, add_zero]
  unfold textbook
  dsimp only
  rw [if_neg (fun hh => hne (by rw [hh])), Finset.sum_eq_zero, sub_zero]
  intro k _
  by_cases hk : s.J k = 0
  · rw [hk]; simp
  · rw [if_neg fun hh => hne (hcross x y k hk hh), if_neg fun hh => hne (hcross y x k hk hh).symm, add_zero, mul_zero]

/-- **C82** A gate charge changed by whole Cooper pairs only renumbers the charge states: matrix elements between the shifted states agree,
as far as the truncation keeps them. -/
theorem C82_gate_shift (h : List Circuit.Call) (g : Circuit.CG) (tr : Fin (nodes g).length → ℕ)
    (N : Fin (nodes g).length → BigNode fun i => NodeCfg.mk (tr i) .charge) (s : Sys PUnit (nodes g).length (edges g).length)
    (hc : PairCircuit h g tr N s) (m : Fin (nodes g).length → ℤ) (H H' : BigOp fun i => NodeCfg.mk (tr i) .charge)
    (hH : hamiltonian (s.withNodes N) = some H) (hH' : hamiltonian (Sys.withNodes { s with Qb := fun i => s.Qb i + m i } N) = some H')
    (x y x' y' : ChargeState tr) (hx : ∀ i, excess x i = excess x' i + m i) (hy : ∀ i, excess y i = excess y' i + m i) :
    H x y = H' x' y' := by
  classical
  have hc' : PairCircuit h g tr N { s with Qb := fun i => s.Qb i + m i } := ⟨hc.1, hc.2, hc.3, hc.4, hc.5⟩
  rw [C81_charge_hamiltonian h g tr N s hc H hH, C81_charge_hamiltonian h g tr N _ hc' H' hH']
  unfold textbook
  dsimp only
  have hcr : ∀ k (x y x' y' : ChargeState tr), (∀ i, excess x i = excess x' i + m i) → (∀ i, excess y i = excess y' i + m i) →
      (Crossed (nodes g) ((edges g).get k) x y ↔ Crossed (nodes g) ((edges g).get k) x' y') := by
    intro k x y x' y' hx hy
    unfold Crossed
    refine forall_congr' fun i => ?_
    rw [hx, hy]; constructor <;> intro h <;> linarith
  have hinj : x = y ↔ x' = y' := by
    constructor
    · rintro rfl
      funext i
      have := (hx i).symm.trans (hy i)
      unfold excess at this
      exact Fin.ext (by omega)
    · rintro rfl
      funext i
      have := (hx i).trans (hy i).symm
      unfold excess at this
      exact Fin.ext (by omega)
  congr 1
  · by_cases hxy : x = y
    · rw [if_pos hxy, if_pos (hinj.1 hxy)]
      congr 3
      funext i
      apply Finset.sum_congr rfl; intro j _
      rw [hx, hx]; push_cast; ring
    · rw [if_neg hxy, if_neg fun hh => hxy (hinj.2 hh)]
  · apply Finset.sum_congr rfl
    intro k _
    congr 2
    · exact if_congr (hcr k x y x' y' hx hy) rfl rfl
    · exact if_congr (hcr k y x y' x' hy hx) rfl rfl

/-! ### Loop fluxes -/

theorem _root_.Verif.Spec.SignedWalk.append {es : List (ℕ × ℕ × ℕ)} {u v w : ℕ} {p q : List ((ℕ × ℕ × ℕ) × Bool)} (hp : SignedWalk es u p v)
    (hq : SignedWalk es v q w) : SignedWalk es u (p ++ q) w := by
  induction hp with
  | nil u => exact hq
  | fwd h _ ih => exact .fwd h (ih hq)
  | bwd h _ ih => exact .bwd h (ih hq)

theorem _root_.Verif.Spec.SignedWalk.back {es : List (ℕ × ℕ × ℕ)} (d : ℕ × ℕ × ℕ → ℝ) {u v : ℕ} {p : List ((ℕ × ℕ × ℕ) × Bool)} (hp : SignedWalk es u p v) :
    ∃ q, SignedWalk es v q u ∧ signedSum d q = -signedSum d p := by
  induction hp with
  | nil u => exact ⟨[], .nil u, by simp [signedSum]⟩
  | @fwd e p v h _ ih =>
    obtain ⟨q, hq, hs⟩ := ih
    refine ⟨q ++ [(e, false)], hq.append (.bwd h (.nil _)), ?_⟩
    unfold signedSum at hs ⊢
    rw [List.map_append, List.sum_append, hs]
    simp
  | @bwd e p v h _ ih =>
    obtain ⟨q, hq, hs⟩ := ih
    refine ⟨q ++ [(e, true)], hq.append (.fwd h (.nil _)), ?_⟩
    unfold signedSum at hs ⊢
    rw [List.map_append, List.sum_append, hs]
    simp

/-- A branch quantity whose sum along every closed walk is an integer is a difference of node values, up to integers. -/
theorem potential (es : List (ℕ × ℕ × ℕ)) (d : ℕ × ℕ × ℕ → ℝ) (hd : ∀ u w, SignedWalk es u w u → ∃ k : ℤ, signedSum d w = k) :
    ∃ χ : ℕ → ℝ, χ 0 = 0 ∧ ∀ e ∈ es, ∃ k : ℤ, d e = χ e.1 - χ e.2.1 + k := by
  classical
  let r : Setoid ℕ := ⟨fun u v => ∃ w, SignedWalk es u w v, fun u => ⟨[], .nil u⟩,
    fun ⟨w, hw⟩ => (hw.back d).imp fun _ h => h.1, fun ⟨w, hw⟩ ⟨w', hw'⟩ => ⟨_, hw.append hw'⟩⟩
  let rep : ℕ → ℕ := fun v => (Quotient.mk r v).out
  have hrep : ∀ v, ∃ w, SignedWalk es v w (rep v) := fun v => r.symm (Quotient.mk_out (s := r) v)
  choose W hW using hrep
  let χ : ℕ → ℝ := fun v => signedSum d (W v) - signedSum d (W 0)
  have happ : ∀ p q : List ((ℕ × ℕ × ℕ) × Bool), signedSum d (p ++ q) = signedSum d p + signedSum d q := by
    intro p q; unfold signedSum; rw [List.map_append, List.sum_append]
  refine ⟨χ, sub_self _, fun e he => ?_⟩
  have hr : rep e.1 = rep e.2.1 := by
    show (Quotient.mk r e.1).out = (Quotient.mk r e.2.1).out
    congr 1
    exact Quotient.sound ⟨[(e, true)], .fwd he (.nil _)⟩
  obtain ⟨q, hq, hqs⟩ := (hW e.1).back d
  have hclosed : SignedWalk es (rep e.1) (q ++ ([(e, true)] ++ W e.2.1)) (rep e.1) := by
    refine hq.append (SignedWalk.append (v := e.2.1) (.fwd he (.nil _)) ?_)
    have := hW e.2.1
    rwa [← hr] at this
  obtain ⟨k, hk⟩ := hd _ _ hclosed
  refine ⟨k, ?_⟩
  rw [happ, happ, hqs] at hk
  have h1 : signedSum d [(e, true)] = d e := by simp [signedSum]
  show d e = (signedSum d (W e.1) - _) - (signedSum d (W e.2.1) - _) + k
  rw [h1] at hk
  linarith

theorem exp_int (x : ℝ) (k : ℤ) : exp (2 * Real.pi * ((x + k : ℝ) : ℂ) * I) = exp (2 * Real.pi * (x : ℂ) * I) := by
  have : 2 * Real.pi * ((x + k : ℝ) : ℂ) * I = 2 * Real.pi * (x : ℂ) * I + (k : ℂ) * (2 * Real.pi * I) := by push_cast; ring
  rw [this, Complex.exp_add, Complex.exp_int_mul_two_pi_mul_I, mul_one]

theorem levels_of_phases {ι : Type} [Fintype ι] [DecidableEq ι] (H H' : Matrix ι ι ℂ) (θ : ι → ℝ)
    (h : ∀ x y, H' x y = exp (2 * Real.pi * θ x * I) * H x y * exp (-(2 * Real.pi * θ y * I))) (E : ℝ) (hE : HasLevel H E) : HasLevel H' E := by
  obtain ⟨v, hv, hHv⟩ := hE
  refine ⟨fun x => exp (2 * Real.pi * θ x * I) * v x, fun h0 => hv (funext fun x => ?_), funext fun x => ?_⟩
  · have := congrFun h0 x
    exact (mul_eq_zero.1 this).resolve_left (Complex.exp_ne_zero _)
  · have h1 := congrFun hHv x
    change ∑ y, H x y * v y = (E : ℂ) * v x at h1
    change ∑ y, H' x y * (exp (2 * Real.pi * θ y * I) * v y) = (E : ℂ) * (exp (2 * Real.pi * θ x * I) * v x)
    rw [mul_left_comm, ← h1, Finset.mul_sum]
    apply Finset.sum_congr rfl
    intro y _
    rw [h]
    have : exp (-(2 * Real.pi * θ y * I)) * exp (2 * Real.pi * θ y * I) = 1 := by rw [← Complex.exp_add, neg_add_cancel, Complex.exp_zero]
    linear_combination (exp (2 * Real.pi * θ x * I) * H x y * v y) * this

/-- **C82** Only the fluxes through loops of junctions count, and only modulo the flux quantum: if along every closed walk through the
junctions the signed sums of the flux biases of two systems differ by an integer, the Hamiltonians differ by phases of the charge
states, and so have the same levels. -/
theorem C82_loop_fluxes (h : List Circuit.Call) (g : Circuit.CG) (tr : Fin (nodes g).length → ℕ)
    (N : Fin (nodes g).length → BigNode fun i => NodeCfg.mk (tr i) .charge) (s : Sys PUnit (nodes g).length (edges g).length)
    (hc : PairCircuit h g tr N s) (p p' : ℕ × ℕ × ℕ → ℝ) (js : List (ℕ × ℕ × ℕ)) (hjs : ∀ k, s.J k ≠ 0 → (edges g).get k ∈ js)
    (hloop : ∀ u w, SignedWalk js u w u → ∃ m : ℤ, signedSum p' w = signedSum p w + m) (H H' : BigOp fun i => NodeCfg.mk (tr i) .charge)
    (hH : hamiltonian (Sys.withNodes { s with Pb := fun k => p ((edges g).get k) } N) = some H)
    (hH' : hamiltonian (Sys.withNodes { s with Pb := fun k => p' ((edges g).get k) } N) = some H') :
    (∃ θ : ChargeState tr → ℝ, ∀ x y, H' x y = exp (2 * Real.pi * θ x * I) * H x y * exp (-(2 * Real.pi * θ y * I))) ∧
      ∀ E, HasLevel H E ↔ HasLevel H' E := by
  classical
  have hc1 : PairCircuit h g tr N { s with Pb := fun k => p ((edges g).get k) } := ⟨hc.1, hc.2, hc.3, hc.4, hc.5⟩
  have hc2 : PairCircuit h g tr N { s with Pb := fun k => p' ((edges g).get k) } := ⟨hc.1, hc.2, hc.3, hc.4, hc.5⟩
  have hsub : ∀ w : List ((ℕ × ℕ × ℕ) × Bool), signedSum (fun e => p' e - p e) w = signedSum p' w - signedSum p w := by
    intro w
    unfold signedSum
    induction w with
    | nil => simp
    | cons a w ih =>
      rw [List.map_cons, List.sum_cons, ih, List.map_cons, List.sum_cons, List.map_cons, List.sum_cons]
      split_ifs <;> ring
  obtain ⟨χ, χ0, hχ⟩ := potential js (fun e => p' e - p e) fun u w hw => by
    obtain ⟨m, hm⟩ := hloop u w hw
    exact ⟨m, by rw [hsub, hm]; ring⟩
  let θ : ChargeState tr → ℝ := fun x => ∑ i, χ ((nodes g).get i) * (excess x i : ℝ)
  have hθ : ∀ k (x y : ChargeState tr), Crossed (nodes g) ((edges g).get k) x y →
      θ x = θ y + (χ ((edges g).get k).1 - χ ((edges g).get k).2.1) := by
    intro k x y hcr
    rw [← gains_sum hc.settled χ χ0 k, ← Finset.sum_add_distrib]
    apply Finset.sum_congr rfl
    intro i _
    rw [hcr i]; push_cast; ring
  have key : ∀ x y, H' x y = exp (2 * Real.pi * θ x * I) * H x y * exp (-(2 * Real.pi * θ y * I)) := by
    intro x y
    rw [C81_charge_hamiltonian h g tr N _ hc1 H hH, C81_charge_hamiltonian h g tr N _ hc2 H' hH']
    unfold textbook
    dsimp only
    rw [mul_sub, sub_mul]
    congr 1
    · by_cases hxy : x = y
      · subst hxy
        rw [if_pos rfl, mul_right_comm, ← Complex.exp_add, add_neg_cancel, Complex.exp_zero, one_mul]
      · rw [if_neg hxy, mul_zero, zero_mul]
    · rw [Finset.mul_sum, Finset.sum_mul]
      apply Finset.sum_congr rfl
      intro k _
      by_cases hk : s.J k = 0
      · simp [hk]
      obtain ⟨m, hm⟩ := hχ _ (hjs k hk)
      have hm' : p' ((edges g).get k) = p ((edges g).get k) + (χ ((edges g).get k).1 - χ ((edges g).get k).2.1) + m := by linarith
      have t1 : (if Crossed (nodes g) ((edges g).get k) x y then exp (2 * Real.pi * (p' ((edges g).get k) : ℝ) * I) else 0) =
          exp (2 * Real.pi * θ x * I) * (if Crossed (nodes g) ((edges g).get k) x y then exp (2 * Real.pi * (p ((edges g).get k) : ℝ) * I) else 0) *
            exp (-(2 * Real.pi * θ y * I)) := by
        by_cases hcr : Crossed (nodes g) ((edges g).get k) x y
        · rw [if_pos hcr, if_pos hcr, hm', exp_int, ← Complex.exp_add, ← Complex.exp_add, hθ k x y hcr]
          congr 1; push_cast; ring
        · rw [if_neg hcr, if_neg hcr, mul_zero, zero_mul]
      have t2 : (if Crossed (nodes g) ((edges g).get k) y x then exp (-(2 * Real.pi * (p' ((edges g).get k) : ℝ) * I)) else 0) =
          exp (2 * Real.pi * θ x * I) * (if Crossed (nodes g) ((edges g).get k) y x then exp (-(2 * Real.pi * (p ((edges g).get k) : ℝ) * I)) else 0) *
            exp (-(2 * Real.pi * θ y * I)) := by
        by_cases hcr : Crossed (nodes g) ((edges g).get k) y x
        · rw [if_pos hcr, if_pos hcr, hm', Complex.exp_neg, exp_int, ← Complex.exp_neg, ← Complex.exp_add, ← Complex.exp_add, hθ k y x hcr]
          congr 1; push_cast; ring
        · rw [if_neg hcr, if_neg hcr, mul_zero, zero_mul]
      rw [t1, t2]; ring
  refine ⟨⟨θ, key⟩, fun E => ⟨levels_of_phases H H' θ key E, levels_of_phases H' H (fun x => -θ x) (fun x y => ?_) E⟩⟩
  rw [key]
  have a1 : exp (2 * Real.pi * ((-θ x : ℝ) : ℂ) * I) * exp (2 * Real.pi * (θ x : ℂ) * I) = 1 := by
    rw [← Complex.exp_add, ← Complex.exp_zero]; congr 1; push_cast; ring
  have a2 : exp (-(2 * Real.pi * (θ y : ℂ) * I)) * exp (-(2 * Real.pi * ((-θ y : ℝ) : ℂ) * I)) = 1 := by
    rw [← Complex.exp_add, ← Complex.exp_zero]; congr 1; push_cast; ring
  linear_combination (-(H x y) * (exp (-(2 * Real.pi * (θ y : ℂ) * I)) * exp (-(2 * Real.pi * ((-θ y : ℝ) : ℂ) * I)))) * a1 - H x y * a2

/-- **C82** Reversing all gate charges and all flux biases reverses the charges: the levels stay the same. -/
theorem C82_reversal (h : List Circuit.Call) (g : Circuit.CG) (tr : Fin (nodes g).length → ℕ)
    (N : Fin (nodes g).length → BigNode fun i => NodeCfg.mk (tr i) .charge) (s : Sys PUnit (nodes g).length (edges g).length)
    (hc : PairCircuit h g tr N s) (H H' : BigOp fun i => NodeCfg.mk (tr i) .charge) (hH : hamiltonian (s.withNodes N) = some H)
    (hH' : hamiltonian (Sys.withNodes { s with Qb := fun i => -s.Qb i, Pb := fun k => -s.Pb k } N) = some H') (E : ℝ) :
    HasLevel H E ↔ HasLevel H' E := by
  have hc' : PairCircuit h g tr N { s with Qb := fun i => -s.Qb i, Pb := fun k => -s.Pb k } := ⟨hc.1, hc.2, hc.3, hc.4, hc.5⟩
  let rev : ChargeState tr → ChargeState tr := fun x i => Fin.rev (x i)
  have hrr : ∀ x, rev (rev x) = x := fun x => funext fun i => Fin.rev_rev _
  have hex : ∀ x i, excess (rev x) i = -excess x i := by
    intro x i
    have h1 : ((rev x i : Fin (2 * tr i + 1)) : ℕ) = 2 * tr i + 1 - ((x i : ℕ) + 1) := Fin.val_rev (n := 2 * tr i + 1) (x i)
    have h2 : (x i : ℕ) < 2 * tr i + 1 := (x i).2
    unfold excess
    rw [h1]
    omega
  have key : ∀ x y, H' (rev x) (rev y) = H x y := by
    intro x y
    rw [C81_charge_hamiltonian h g tr N _ hc H hH, C81_charge_hamiltonian h g tr N _ hc' H' hH']
    unfold textbook
    dsimp only
    have hcr : ∀ k (x y : ChargeState tr), Crossed (nodes g) ((edges g).get k) (rev x) (rev y) ↔ Crossed (nodes g) ((edges g).get k) y x := by
      intro k x y
      unfold Crossed
      refine forall_congr' fun i => ?_
      rw [hex, hex]; constructor <;> intro h <;> linarith
    congr 1
    · by_cases hxy : x = y
      · rw [if_pos hxy, if_pos (by rw [hxy])]
        congr 3
        funext i
        apply Finset.sum_congr rfl; intro j _
        rw [hex, hex]; push_cast; ring
      · rw [if_neg hxy, if_neg fun hh => hxy (by rw [← hrr x, hh, hrr])]
    · apply Finset.sum_congr rfl
      intro k _
      congr 1
      rw [add_comm]
      congr 1
      · by_cases hh : Crossed (nodes g) ((edges g).get k) x y
        · rw [if_pos hh, if_pos ((hcr k y x).2 hh)]; congr 1; push_cast; ring
        · rw [if_neg hh, if_neg fun h => hh ((hcr k y x).1 h)]
      · by_cases hh : Crossed (nodes g) ((edges g).get k) y x
        · rw [if_pos hh, if_pos ((hcr k x y).2 hh)]; congr 1; push_cast; ring
        · rw [if_neg hh, if_neg fun h => hh ((hcr k x y).1 h)]
  have lev : ∀ (A B : BigOp fun i => NodeCfg.mk (tr i) .charge), (∀ x y, B (rev x) (rev y) = A x y) → HasLevel A E → HasLevel B E := by
    rintro A B hAB ⟨v, hv, hAv⟩
    refine ⟨fun x => v (rev x), fun h0 => hv (funext fun x => ?_), funext fun x => ?_⟩
    · have := congrFun h0 (rev x)
      simpa [hrr] using this
    · have h1 := congrFun hAv (rev x)
      change ∑ y, A (rev x) y * v y = (E : ℂ) * v (rev x) at h1
      change ∑ y, B x y * v (rev y) = (E : ℂ) * v (rev x)
      rw [← h1]
      refine Fintype.sum_equiv ⟨rev, rev, hrr, hrr⟩ _ _ fun y => ?_
      show B x y * v (rev y) = A (rev x) (rev y) * v (rev y)
      rw [← hAB, hrr, hrr]
  exact ⟨lev H H' key, lev H' H fun x y => by rw [← key, hrr, hrr]⟩

/-! ### The hypotheses can be met -/

/-- A SQUID: two junctions between the ground and a node. -/
def dcSquid : List Circuit.Call := [.addBranch Circuit.Orc.id 0 1 "C1", .addBranch Circuit.Orc.id 0 1 "I1", .addBranch Circuit.Orc.id 0 1 "I2"]

theorem dcSquid_settled : Settled dcSquid (Circuit.run {} dcSquid) :=
  settled_of_list orcId_ok [(0, 1, "C1"), (0, 1, "I1")] (0, 1, "I2") (by decide +kernel)

/-- For the SQUID, every truncation, junctions, bias and gate charge: the Hamiltonian exists before and after a change of the gate charge
by a pair, of the flux biases by a potential difference and by a flux quantum, and after their reversal; these are the hypotheses of
`C82_gate_shift`, `C82_loop_fluxes` and `C82_reversal`. -/
example (t : ℕ) (J1 J2 ng φ f : ℝ) (u : Prefs) (g : Circuit.CG) (hg : g = Circuit.run {} dcSquid) :
    ∃ (N : Fin (nodes g).length → BigNode fun i => NodeCfg.mk t .charge) (s : Sys PUnit (nodes g).length (edges g).length),
      PairCircuit dcSquid g (fun _ => t) N s ∧ (∀ i, s.Qb i = ng) ∧ (∀ k, s.J k = if ((edges g).get k).2.2 = 1 then J1 else J2) ∧
      (∀ Qb Pb, ∃ H, hamiltonian (Sys.withNodes { s with Qb := Qb, Pb := Pb } N) = some H) ∧
      ∀ v w, SignedWalk (edges g) v w v → ∃ m : ℤ, signedSum (fun e => (if e.2.2 = 1 then φ + 1 else 0) + f * ((e.2.1 : ℝ) - e.1)) w = signedSum (fun e => if e.2.2 = 1 then φ else 0) w + m := by
  have hs : Settled dcSquid g := hg ▸ dcSquid_settled
  have he : edges g = [(0, 1, 1), (1, 0, 2)] := by subst hg; decide +kernel
  obtain ⟨N, s, H, hc, e1, e2, e3, e4, e5, hH⟩ := pair_circuit_exists dcSquid g hs (fun _ => t) 1
    (fun k => if ((edges g).get k).2.2 = 1 then J1 else J2) (fun _ => 0) (fun _ => ng) u (fun k _ => by
      have hm : ∀ e ∈ edges g, e.1 ≠ e.2.1 := by rw [he]; decide
      exact hm _ (List.get_mem _ _))
  refine ⟨N, s, hc, fun i => by rw [e4], fun k => by rw [e2], fun Qb Pb => ?_, ?_⟩
  · have h1 : (hamiltonian (s.withNodes N)).isSome := by rw [hH]; rfl
    have h2 : (hamiltonian (Sys.withNodes { s with Qb := Qb, Pb := Pb } N)).isSome := by
      rw [C66_defined] at h1 ⊢
      exact h1
    exact Option.isSome_iff_exists.1 h2
  · have key : ∀ u w v, SignedWalk (edges g) u w v → ∃ m : ℤ, signedSum (fun e => (if e.2.2 = 1 then φ + 1 else 0) + f * ((e.2.1 : ℝ) - e.1)) w =
        signedSum (fun e => if e.2.2 = 1 then φ else 0) w + f * ((v : ℝ) - u) + m := by
      intro u w v hw
      induction hw with
      | nil u => exact ⟨0, by simp [signedSum]⟩
      | @fwd e p v hm _ ih =>
        obtain ⟨m, hm'⟩ := ih
        unfold signedSum at hm' ⊢
        rw [List.map_cons, List.sum_cons, List.map_cons, List.sum_cons, hm']
        by_cases h1 : e.2.2 = 1
        · exact ⟨m + 1, by simp [h1]; ring⟩
        · exact ⟨m, by simp [h1]; ring⟩
      | @bwd e p v hm _ ih =>
        obtain ⟨m, hm'⟩ := ih
        unfold signedSum at hm' ⊢
        rw [List.map_cons, List.sum_cons, List.map_cons, List.sum_cons, hm']
        by_cases h1 : e.2.2 = 1
        · exact ⟨m - 1, by simp [h1]; ring⟩
        · exact ⟨m, by simp [h1]; ring⟩
    intro v w hw
    obtain ⟨m, hm⟩ := key v w v hw
    exact ⟨m, by rw [hm]; ring⟩

/-- Node 2 is an island in this circuit: the capacitor joins it to node 1, no junction does. -/
def island : List Circuit.Call := [.addBranch Circuit.Orc.id 0 1 "C1", .addBranch Circuit.Orc.id 0 1 "I1", .addBranch Circuit.Orc.id 1 2 "C2"]

/-- The set `{2}` meets the hypotheses of `C82_islands` in `island`. -/
example : Settled island (Circuit.run {} island) ∧ nodes (Circuit.run {} island) = [1, 2] ∧ (0 : ℕ) ∉ ({2} : Finset ℕ) ∧
    ∀ e ∈ edges (Circuit.run {} island), (e.1 ∈ ({2} : Finset ℕ) ↔ e.2.1 ∈ ({2} : Finset ℕ)) := by
  refine ⟨settled_of_list orcId_ok [(0, 1, "C1"), (0, 1, "I1")] (1, 2, "C2") (by decide +kernel), by decide +kernel, by decide, ?_⟩
  have he : edges (Circuit.run {} island) = [(0, 1, 1)] := by decide +kernel
  rw [he]
  decide

end Verif.Props
