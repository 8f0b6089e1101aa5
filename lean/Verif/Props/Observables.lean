import Verif.Props.Hamiltonian
import Verif.Spec.Units
import Verif.Props.Units

/-!
# Properties of the current and voltage operators and of the oscillator levels: C63, C64, C65, C72
-/

namespace Verif.Props

open Verif Verif.Num Verif.Sym Verif.Spec Matrix Complex

/-! ### C63: branch currents -/

section Currents

variable {A : Type} [Ring A] [StarRing A] [Algebra ℂ A] [StarModule ℂ A]

/-- **C63** The current operator is Hermitian. -/
theorem C63_hermitian {n b : ℕ} (s : Sys A n b) (g : GoodOps s) (hf : ∀ j, star (s.flux j) = s.flux j) (i : Fin b) (X : A)
    (hX : currentOperator s i = .ok X) : star X = X := by
  unfold currentOperator at hX
  split at hX
  · split_ifs at hX with he
    rw [← Except.ok.inj hX]
    have hs : ∀ l : List (ℝ × ℕ), star (l.map fun p => num A p.1 * s.flux p.2).sum = (l.map fun p => num A p.1 * s.flux p.2).sum := by
      intro l
      induction l with
      | nil => simp
      | cons p l ih => rw [List.map_cons, List.sum_cons, star_add, ih, star_mul, star_num, hf, ← num_comm]
    rw [star_mul, star_mul, star_num, star_num, hs, num_comm, ← num_comm s.u.IopL, num_comm, mul_assoc]
  · split_ifs at hX with he
    rw [← Except.ok.inj hX]
    have hst := star_dispProduct s.D s.Ddag g.Ddag g.commD (s.terms i) (g.terms i).1 (g.terms i).2
    have hst' : star (dispProduct s.D s.Ddag true (s.terms i) 1) = dispProduct s.D s.Ddag false (s.terms i) 1 := by rw [← hst, star_star]
    rw [dispProduct_mul s.D s.Ddag false, dispProduct_mul s.D s.Ddag true, expTau_eq, expTau_neg_eq]
    have e2 : star (exp (I * (2 * Real.pi * s.Pb i : ℝ))) = exp (-(I * (2 * Real.pi * s.Pb i : ℝ))) := by
      rw [Complex.star_def, ← Complex.exp_conj, map_mul, Complex.conj_I, Complex.conj_ofReal, neg_mul]
    have e3 : star (exp (-(I * (2 * Real.pi * s.Pb i : ℝ)))) = exp (I * (2 * Real.pi * s.Pb i : ℝ)) := by rw [← e2, star_star]
    have hc : algebraMap ℂ A (1 / 2 * I) * num A s.u.IopJ * num A (s.J i) = algebraMap ℂ A (1 / 2 * I * s.u.IopJ * s.J i) := by
      unfold num; simp
    rw [hc, star_mul, star_sub, star_mul, star_mul, hst, hst', ← algebraMap_star_comm, ← algebraMap_star_comm, ← algebraMap_star_comm, e2, e3,
      ← Algebra.commutes, ← Algebra.commutes (exp (-_)) (dispProduct _ _ true _ _), ← Algebra.commutes (exp _) (dispProduct _ _ false _ _)]
    have e1 : star (1 / 2 * I * (s.u.IopJ : ℂ) * (s.J i : ℂ)) = -(1 / 2 * I * s.u.IopJ * s.J i) := by
      simp
    rw [e1, map_neg, neg_mul, ← mul_neg, neg_sub]
  · cases hX

variable {V : Type} [AddCommGroup V] [Module ℂ V] [Module A V] [IsScalarTower ℂ A V]

omit [StarRing A] [StarModule ℂ A] in
/-- **C63** (partial) On a state with definite phases the current of a junction is, up to the unit, *minus* the derivative of its energy
`-J cos θ` in the phase `θ` of the branch; missing: the sign (`C63_sign_false`). -/
theorem C63_josephson_partial {n b : ℕ} (s : Sys A n b) (i : Fin b) (hk : s.kind i = .josephson) (ht : ∀ p ∈ s.terms i, p.1 ≠ 0) (φ : ℕ → ℝ) (v : V)
    (hv : ∀ j, s.D j • v = exp (I * φ j) • v) (hv' : ∀ j, s.Ddag j • v = exp (-(I * φ j)) • v) (X : A) (hX : currentOperator s i = .ok X) :
    ∃ d : ℝ, HasDerivAt (fun θ : ℝ => -(s.J i * Real.cos θ)) d (phaseOf φ (s.terms i) + 2 * Real.pi * s.Pb i) ∧
      X • v = ((-(s.u.IopJ * d) : ℝ) : ℂ) • v := by
  unfold currentOperator at hX
  rw [hk] at hX
  simp only at hX
  split_ifs at hX with he
  rw [← Except.ok.inj hX]
  refine ⟨s.J i * Real.sin (phaseOf φ (s.terms i) + 2 * Real.pi * s.Pb i), ?_, ?_⟩
  · have := ((Real.hasDerivAt_cos (phaseOf φ (s.terms i) + 2 * Real.pi * s.Pb i)).const_mul (s.J i)).neg
    exact this.congr_deriv (by ring)
  · obtain ⟨h1, h2⟩ := dispProduct_eigen s.D s.Ddag φ v hv hv' (s.terms i) ht
    have hd : ∀ (flip : Bool) (ts : List (ℝ × ℕ)) (acc : A), dispProduct s.D s.Ddag flip ts acc = acc * dispProduct s.D s.Ddag flip ts 1 := by
      intro flip ts
      induction ts with
      | nil => intro acc; simp [dispProduct]
      | cons p ts ih =>
        intro acc
        unfold dispProduct
        rw [ih (acc * _), ih (1 * _), one_mul, mul_assoc]
    have hc : algebraMap ℂ A (1 / 2 * I) * num A s.u.IopJ * num A (s.J i) = algebraMap ℂ A (1 / 2 * I * s.u.IopJ * s.J i) := by
      unfold num; simp
    rw [hd false, hd true, hc, expTau_eq, expTau_neg_eq, mul_smul, sub_smul, mul_smul, mul_smul, h1, h2]
    simp only [algebraMap_smul]
    rw [smul_smul, smul_smul, ← sub_smul, smul_smul]
    congr 1
    rw [← Complex.exp_add, ← Complex.exp_add]
    push_cast
    rw [Complex.sin]
    have e1 : I * (2 * (Real.pi : ℂ) * (s.Pb i : ℂ)) + I * (phaseOf φ (s.terms i) : ℂ) = ((phaseOf φ (s.terms i) : ℂ) + 2 * Real.pi * s.Pb i) * I := by ring
    have e2 : -(I * (2 * (Real.pi : ℂ) * (s.Pb i : ℂ))) + -(I * (phaseOf φ (s.terms i) : ℂ)) = -((phaseOf φ (s.terms i) : ℂ) + 2 * Real.pi * s.Pb i) * I := by ring
    rw [e1, e2]
    ring

omit [StarRing A] [StarModule ℂ A] in
/-- **C63** (partial) On a state with definite fluxes the current of an inductor is, up to the unit, the derivative of its energy
`x² / (2 L)` in its flux `x`.  Missing: a flux bias of the branch and mutual inductances (`C63_bias_false`). -/
theorem C63_inductive_partial {n b : ℕ} (s : Sys A n b) (i : Fin b) (hk : s.kind i = .inductive) (φ : ℕ → ℝ) (v : V)
    (hv : ∀ j, s.flux j • v = (φ j : ℂ) • v) (X : A) (hX : currentOperator s i = .ok X) :
    ∃ d : ℝ, HasDerivAt (fun x : ℝ => s.LinvB i i * x ^ 2 / 2) d (((s.terms i).map fun p => p.1 * φ p.2).sum) ∧
      X • v = ((s.u.IopL * d : ℝ) : ℂ) • v := by
  unfold currentOperator at hX
  rw [hk] at hX
  simp only at hX
  split_ifs at hX with he
  rw [← Except.ok.inj hX]
  refine ⟨s.LinvB i i * ((s.terms i).map fun p => p.1 * φ p.2).sum, ?_, ?_⟩
  · have := (((hasDerivAt_id (((s.terms i).map fun p => p.1 * φ p.2).sum)).pow 2).const_mul (s.LinvB i i)).div_const 2
    exact this.congr_deriv (by simp; ring)
  · have hs : ∀ l : List (ℝ × ℕ), (l.map fun p => num A p.1 * s.flux p.2).sum • v = (((l.map fun p => p.1 * φ p.2).sum : ℝ) : ℂ) • v := by
      intro l
      induction l with
      | nil => simp
      | cons p l ih =>
        rw [List.map_cons, List.sum_cons, add_smul, ih, List.map_cons, List.sum_cons, Complex.ofReal_add, add_smul]
        congr 1
        unfold num
        rw [mul_smul, hv, RingHom.comp_apply, algebraMap_smul, smul_smul]
        congr 1
        push_cast; rfl
    rw [← num_comm, ← mul_assoc, mul_smul, hs, ← map_mul]
    unfold num
    rw [RingHom.comp_apply, algebraMap_smul, smul_smul]
    congr 1
    push_cast
    simp
    ring

end Currents

/-- One node with two branches to ground, classical: `x` is the flux of the node (in flux quanta). -/
noncomputable def twoBranches (x bias : ℝ) (k : Kind) : Sys ℂ 1 1 where
  Cinv := 1
  Linv := 1
  LinvB := 1
  J _ := 1
  Ps _ := 0
  Pb _ := 0
  Qbt _ := 0
  Qb _ := 0
  Pbi _ := bias
  kind _ := k
  terms _ := [(1, 0)]
  Q _ := 0
  P _ := x
  flux _ := x
  D _ := exp (I * x)
  Ddag _ := exp (-(I * x))
  S _ := 1
  Sdag _ := 1
  u := ⟨1, 1, 1, 1, 1, 1, 1⟩

/-- **C63** is false of junctions: with the phase `π/2` the energy `-cos θ` grows with the rate 1, but the current is -1; for an inductor
with the same orientation the current has the sign of the derivative. -/
theorem C63_sign_false : currentOperator (twoBranches (Real.pi / 2) 0 .josephson) 0 = .ok (-1) ∧
    HasDerivAt (fun θ : ℝ => -((1 : ℝ) * Real.cos θ)) 1 (Real.pi / 2) ∧
    currentOperator (twoBranches (Real.pi / 2) 0 .inductive) 0 = .ok ((Real.pi / 2 : ℝ) : ℂ) ∧
    HasDerivAt (fun x : ℝ => 1 * x ^ 2 / 2) (Real.pi / 2) (Real.pi / 2) := by
  refine ⟨?_, ?_, ?_, ?_⟩
  · unfold currentOperator twoBranches
    simp only
    rw [if_neg (by simp)]
    congr 1
    have h10 : ¬ (1 : ℝ) < 0 := by norm_num
    simp [dispProduct, expTau, num, h10]
    have e1 : exp (I * ((Real.pi : ℂ) / 2)) = I := by
      rw [mul_comm, Complex.exp_mul_I, Complex.cos_pi_div_two, Complex.sin_pi_div_two]; simp
    have e2 : exp (-(I * ((Real.pi : ℂ) / 2))) = -I := by
      rw [Complex.exp_neg, e1, Complex.inv_I]
    rw [e1, e2]
    have := Complex.I_mul_I
    linear_combination this
  · have := ((Real.hasDerivAt_cos (Real.pi / 2)).const_mul (1 : ℝ)).neg
    exact this.congr_deriv (by simp)
  · unfold currentOperator twoBranches
    simp [num]
  · have := (((hasDerivAt_id (Real.pi / 2)).pow 2).const_mul (1 : ℝ)).div_const 2
    exact this.congr_deriv (by simp)

/-- **C63** is false of biased inductors: the energy of the Hamiltonian is `(x + bias)² / 2`, its derivative at the flux 0 is the bias, but
the current operator is 0. -/
theorem C63_bias_false : (∀ x : ℝ, hamiltonian { twoBranches x 3 .inductive with J := fun _ => 0 } = some (((x + 3) ^ 2 / 2 : ℝ) : ℂ)) ∧
    HasDerivAt (fun x : ℝ => (x + 3) ^ 2 / 2) 3 0 ∧ currentOperator (twoBranches 0 3 .inductive) 0 = .ok 0 := by
  refine ⟨?_, ?_, ?_⟩
  · intro x
    rw [hamiltonian_eq]
    refine ⟨0, 0, ?_, ?_, ?_⟩
    · have : josBranches { twoBranches x 3 .inductive with J := fun _ => 0 } = [] := by
        unfold josBranches; simp
      rw [this]; rfl
    · have : slipBranches { twoBranches x 3 .inductive with J := fun _ => 0 } = [] := by
        unfold slipBranches; simp [twoBranches]
      rw [this]; rfl
    · simp [linearPart, quadOp, twoBranches, num]
      ring
  · have := (((hasDerivAt_id (0 : ℝ)).add_const 3).pow 2).div_const 2
    exact this.congr_deriv (by simp)
  · unfold currentOperator twoBranches
    simp [num]

/-! ### C64: node voltages -/

/-- The charging energy as a function of the charge of node `i`. -/
noncomputable def chargingEnergyAt {n b : ℕ} (s : Sys ℝ n b) (i : Fin n) (q : ℝ) : ℝ :=
  1 / 2 * quadOp (RingHom.id ℝ) s.Cinv (fun j => Function.update s.Q i q j + s.Qb j)

theorem charging_deriv {n b : ℕ} (s : Sys ℝ n b) (hC : s.Cinvᵀ = s.Cinv) (i : Fin n) :
    HasDerivAt (chargingEnergyAt s i) (∑ j, s.Cinv i j * (s.Q j + s.Qb j)) (s.Q i) := by
  have hsym : ∀ a c, s.Cinv a c = s.Cinv c a := fun a c => congrFun (congrFun hC c) a
  have hx : ∀ j, HasDerivAt (fun q => Function.update s.Q i q j + s.Qb j) (if j = i then 1 else 0) (s.Q i) := by
    intro j
    by_cases hj : j = i
    · subst hj
      simp only [Function.update_self, if_true]
      exact (hasDerivAt_id _).add_const _
    · simp only [Function.update_of_ne hj, if_neg hj]
      exact hasDerivAt_const _ _
  have hin : ∀ a, HasDerivAt (fun q => ∑ c, s.Cinv a c * (Function.update s.Q i q c + s.Qb c)) (s.Cinv a i) (s.Q i) := by
    intro a
    have := HasDerivAt.fun_sum (u := Finset.univ) fun c (_ : c ∈ Finset.univ) => (hx c).const_mul (s.Cinv a c)
    exact this.congr_deriv (by simp)
  have hq := HasDerivAt.fun_sum (u := Finset.univ) fun a (_ : a ∈ Finset.univ) => (hx a).mul (hin a)
  have := hq.const_mul (1 / 2 : ℝ)
  refine HasDerivAt.congr_deriv (f := chargingEnergyAt s i) this ?_
  rw [Finset.sum_add_distrib]
  have h1 : ∑ a, (if a = i then (1 : ℝ) else 0) * ∑ c, s.Cinv a c * (Function.update s.Q i (s.Q i) c + s.Qb c) =
      ∑ c, s.Cinv i c * (s.Q c + s.Qb c) := by
    rw [Finset.sum_eq_single i]
    · simp
    · intro a _ ha; simp [ha]
    · simp
  have h2 : ∑ a, (Function.update s.Q i (s.Q i) a + s.Qb a) * s.Cinv a i = ∑ c, s.Cinv i c * (s.Q c + s.Qb c) := by
    refine Finset.sum_congr rfl fun c _ => ?_
    rw [hsym c i, Function.update_eq_self]; ring
  rw [h1, h2]; ring

/-- **C64** (partial) The voltage of a node is the derivative of the charging energy in its charge if the node is not coupled capacitively to
another one.  Missing: coupled nodes (`C64_false`). -/
theorem C64_uncoupled_partial {n b : ℕ} (s : Sys ℝ n b) (hC : s.Cinvᵀ = s.Cinv) (i : Fin n) (h0 : ∀ j, j ≠ i → s.Cinv i j = 0) :
    ∃ d : ℝ, HasDerivAt (chargingEnergyAt s i) d (s.Q i) ∧ voltageOperator (RingHom.id ℝ) s i = s.u.Vop * d := by
  refine ⟨_, charging_deriv s hC i, ?_⟩
  rw [Finset.sum_eq_single i (fun j _ hj => by rw [h0 j hj, zero_mul]) (by simp)]
  unfold voltageOperator
  simp only [RingHom.id_apply]
  ring

/-- Two coupled nodes with one charge on the second. -/
noncomputable def twoNodes : Sys ℝ 2 0 where
  Cinv := !![2, 1; 1, 2]
  Linv := 0
  LinvB := 0
  J _ := 0
  Ps _ := 0
  Pb _ := 0
  Qbt _ := 0
  Qb _ := 0
  Pbi _ := 0
  kind _ := .other
  terms _ := []
  Q := ![0, 1]
  P _ := 0
  flux _ := 0
  D _ := 1
  Ddag _ := 1
  S _ := 1
  Sdag _ := 1
  u := ⟨1, 1, 1, 1, 1, 1, 1⟩

/-- **C64** is false for coupled nodes: a charge on the second node gives the first node the voltage 1, but the operator gives 0. -/
theorem C64_false : twoNodes.Cinvᵀ = twoNodes.Cinv ∧ HasDerivAt (chargingEnergyAt twoNodes 0) 1 (twoNodes.Q 0) ∧ twoNodes.u.Vop = 1 ∧
    voltageOperator (RingHom.id ℝ) twoNodes 0 = 0 := by
  have hsym : twoNodes.Cinvᵀ = twoNodes.Cinv := by
    ext i j; fin_cases i <;> fin_cases j <;> rfl
  refine ⟨hsym, ?_, rfl, ?_⟩
  · have := charging_deriv twoNodes hsym 0
    exact this.congr_deriv (by simp [twoNodes, Fin.sum_univ_two])
  · simp [voltageOperator, twoNodes]

/-! ### C65: matrix elements -/

/-- **C65** (partial) Diagonal matrix elements (expectation values) are exact. -/
theorem C65_diagonal_partial {ι : Type} [Fintype ι] (O : Matrix ι ι ℂ) (hO : O.IsHermitian) (v : ι → ℂ) :
    (matrixElement O v v : ℂ) = star v ⬝ᵥ O.mulVec v := by
  unfold matrixElement
  have h : star (star v ⬝ᵥ O.mulVec v) = star v ⬝ᵥ O.mulVec v := by
    rw [← star_dotProduct_star, star_star, star_mulVec, hO.eq, dotProduct_mulVec, dotProduct_comm]
  apply Complex.ext
  · simp
  · have := congrArg Complex.im h
    simp at this
    simp
    linarith

/-- **C65** (partial) Matrix elements of real matrices between real vectors are exact. -/
theorem C65_real_partial {ι : Type} [Fintype ι] (O : Matrix ι ι ℝ) (v w : ι → ℝ) :
    (matrixElement (O.map (fun x => (x : ℂ))) (fun i => (v i : ℂ)) (fun i => (w i : ℂ)) : ℂ) =
      star (fun i => (v i : ℂ)) ⬝ᵥ (O.map (fun x => (x : ℂ))).mulVec (fun i => (w i : ℂ)) := by
  have : star (fun i => (v i : ℂ)) ⬝ᵥ (O.map (fun x => (x : ℂ))).mulVec (fun i => (w i : ℂ)) = ((v ⬝ᵥ O.mulVec w : ℝ) : ℂ) := by
    unfold dotProduct mulVec dotProduct
    push_cast
    refine Finset.sum_congr rfl fun i _ => ?_
    simp
  unfold matrixElement
  rw [this]
  simp

/-- **C65** is false in general: in the oscillator basis every charge matrix element between neighbouring levels is imaginary, and the
returned value is 0 although the matrix element is not. -/
theorem C65_false (n : ℕ) (Z p : ℝ) (hZ : 0 < Z) (hp : p ≠ 0) (k : ℕ) (hk : k + 1 < n) :
    let v : Fin n → ℂ := Pi.single ⟨k, by omega⟩ 1
    let w : Fin n → ℂ := Pi.single ⟨k + 1, hk⟩ 1
    (oscQ n Z p).IsHermitian ∧ star v ⬝ᵥ (oscQ n Z p).mulVec w ≠ 0 ∧ matrixElement (oscQ n Z p) v w = 0 := by
  intro v w
  have hval : star v ⬝ᵥ (oscQ n Z p).mulVec w = -(I * ((Real.sqrt (1 / (2 * Z)) * p * Real.sqrt ((k : ℝ) + 1) : ℝ) : ℂ)) := by
    simp only [v, w]
    rw [mulVec_single_one]
    have : star (Pi.single (⟨k, by omega⟩ : Fin n) (1 : ℂ) : Fin n → ℂ) = Pi.single ⟨k, by omega⟩ 1 := by
      ext j; simp [Pi.single_apply, apply_ite]
    rw [this, single_dotProduct, one_mul, col_apply]
    unfold oscQ
    rw [Matrix.smul_apply, Matrix.sub_apply, create_apply]
    unfold destroy
    have h2 : ¬ k = k + 1 + 1 := by omega
    simp [h2]
    ring
  refine ⟨(C38_hermitian n Z p 0).1, ?_, ?_⟩
  · rw [hval]
    have h1 : Real.sqrt (1 / (2 * Z)) ≠ 0 := (Real.sqrt_pos.2 (by positivity)).ne'
    have h2 : Real.sqrt ((k : ℝ) + 1) ≠ 0 := (Real.sqrt_pos.2 (by positivity)).ne'
    rw [neg_ne_zero]
    refine mul_ne_zero Complex.I_ne_zero ?_
    exact_mod_cast mul_ne_zero (mul_ne_zero h1 hp) h2
  · unfold matrixElement
    rw [hval]
    simp

/-! ### C72: the levels of an oscillator -/

/-- The Hamiltonian of a node with a capacitance `c` and an inductance `l` to ground, in the oscillator basis with `n` levels, as the code
forms it: `Zosc = √(Cinv / Linv)` times the prefactor `Impe`, prefactors from the units. -/
noncomputable def lcSystem (n : ℕ) (c l : ℝ) (Ec El impe chg flx : ℝ) : Sys (Op n) 1 0 where
  Cinv := !![c⁻¹]
  Linv := !![l⁻¹]
  LinvB := 0
  J := Fin.elim0
  Ps := Fin.elim0
  Pb := Fin.elim0
  Qbt := Fin.elim0
  Qb _ := 0
  Pbi _ := 0
  kind := Fin.elim0
  terms := Fin.elim0
  Q _ := oscQ n (Real.sqrt (c⁻¹ / l⁻¹) * impe) chg
  P _ := oscP n (Real.sqrt (c⁻¹ / l⁻¹) * impe) flx
  flux _ := oscP n (Real.sqrt (c⁻¹ / l⁻¹) * impe) flx
  D _ := 1
  Ddag _ := 1
  S _ := 1
  Sdag _ := 1
  u := ⟨Ec, El, 0, 0, 0, 0, 0⟩

/-- The Hamiltonian of the oscillator is diagonal. -/
theorem lc_hamiltonian (w : Units.World) (i : ℕ) (u : Spec.System) (hu : Consistent w i u) (hp : u.Pos) (n : ℕ) (c l : ℝ) (hc : 0 < c)
    (hl : 0 < l) (Ec El impe chg flx : ℝ) (h1 : Units.getPrefactor w i "Ec" = .ok Ec) (h2 : Units.getPrefactor w i "El" = .ok El)
    (h3 : Units.getPrefactor w i "Impe" = .ok impe) (h4 : Units.getPrefactor w i "ChgOsc" = .ok chg)
    (h5 : Units.getPrefactor w i "FlxOsc" = .ok flx) :
    hamiltonian (lcSystem n c l Ec El impe chg flx) = some (diagonal fun k : Fin n =>
      ((u.E * Units.pc_hbar / Real.sqrt ((c * u.F) * (l * u.H)) * (if (k : ℕ) = n - 1 then (k : ℝ) / 2 else (k : ℝ) + 1 / 2) : ℝ) : ℂ)) := by
  obtain ⟨g1, g2, -, -, -, g3, g5, g4, -⟩ := hu
  rw [h1] at g1; rw [h2] at g2; rw [h3] at g3; rw [h4] at g4; rw [h5] at g5
  obtain ⟨pF, pH, -, -, -, -, pWb, pC, -, -, -, pE, -, -⟩ := hp
  have k1 := Except.ok.inj g1
  have k2 := Except.ok.inj g2
  have k3 := Except.ok.inj g3
  have k4 := Except.ok.inj g4
  have k5 := Except.ok.inj g5
  have hh : (0 : ℝ) ≤ Units.pc_hbar := by unfold Units.pc_hbar; norm_num
  rw [hamiltonian_eq]
  refine ⟨0, 0, rfl, rfl, ?_⟩
  have hZ : Real.sqrt (c⁻¹ / l⁻¹) * impe = Real.sqrt ((l * u.H) / (c * u.F)) := by
    rw [k3, ← Real.sqrt_mul (by positivity)]
    congr 1
    field_simp
  have hw : 0 < Real.sqrt ((c * u.F) * (l * u.H)) := Real.sqrt_pos.2 (by positivity)
  set W := Real.sqrt ((c * u.F) * (l * u.H)) with hW
  have hWW : W * W = (c * u.F) * (l * u.H) := Real.mul_self_sqrt (by positivity)
  have hZW : Real.sqrt ((l * u.H) / (c * u.F)) = W / (c * u.F) := by
    have : (l * u.H) / (c * u.F) = (W / (c * u.F)) ^ 2 := by
      rw [div_pow, sq, hWW]; field_simp
    rw [this, Real.sqrt_sq (by positivity)]
  have a1 : Ec * (1 / 2) * c⁻¹ * (Real.sqrt (1 / (2 * (W / (c * u.F)))) * chg) ^ 2 = u.E * Units.pc_hbar / W / 4 := by
    rw [k1, k4, mul_pow, Real.sq_sqrt (by positivity), div_pow, Real.sq_sqrt hh]
    field_simp; ring
  have a2 : El * (1 / 2) * l⁻¹ * (Real.sqrt ((W / (c * u.F)) / 2) * flx) ^ 2 = u.E * Units.pc_hbar / W / 4 := by
    rw [k2, k5, mul_pow, Real.sq_sqrt (by positivity), div_pow, Real.sq_sqrt hh]
    have : W / (c * u.F) = (l * u.H) / W := by field_simp; rw [sq, hWW]; ring
    rw [this]
    field_simp; ring
  have e : linearPart (num (Op n)) (lcSystem n c l Ec El impe chg flx) =
      ((u.E * Units.pc_hbar / W / 2 : ℝ) : ℂ) • (destroy n * create n + create n * destroy n) := by
    have hn : ∀ (r : ℝ) (X : Op n), num (Op n) r * X = (r : ℂ) • X := by
      intro r X
      unfold num
      rw [RingHom.comp_apply, Algebra.algebraMap_eq_smul_one, smul_mul_assoc, one_mul]; rfl
    unfold linearPart quadOp lcSystem
    simp only [Fin.sum_univ_one, hn, map_zero, add_zero, hZ, hZW]
    unfold oscQ oscP
    simp only [smul_mul_smul_comm, smul_smul, mul_smul_comm, smul_mul_assoc]
    have b0 : (((!![c⁻¹] : Matrix (Fin 1) (Fin 1) ℝ) 0 0 : ℝ) : ℂ) = ((c⁻¹ : ℝ) : ℂ) := by simp
    have b0' : (((!![l⁻¹] : Matrix (Fin 1) (Fin 1) ℝ) 0 0 : ℝ) : ℂ) = ((l⁻¹ : ℝ) : ℂ) := by simp
    rw [b0, b0']
    have b1 : ((Ec * (1 / 2) : ℝ) : ℂ) * (((c⁻¹ : ℝ) : ℂ) *
        (I * (Real.sqrt (1 / (2 * (W / (c * u.F)))) : ℝ) * (chg : ℂ) * (I * (Real.sqrt (1 / (2 * (W / (c * u.F)))) : ℝ) * (chg : ℂ)))) =
        -((u.E * Units.pc_hbar / W / 4 : ℝ) : ℂ) := by
      rw [← a1, Complex.ofReal_mul (Ec * (1 / 2) * c⁻¹), Complex.ofReal_mul (Ec * (1 / 2)), Complex.ofReal_pow, Complex.ofReal_mul (Real.sqrt _)]
      linear_combination (((Ec * (1 / 2) : ℝ) : ℂ) * ((c⁻¹ : ℝ) : ℂ) * (chg : ℂ) ^ 2 * (Real.sqrt (1 / (2 * (W / (c * u.F)))) : ℂ) ^ 2) * Complex.I_mul_I
    have b2 : ((El * (1 / 2) : ℝ) : ℂ) * (((l⁻¹ : ℝ) : ℂ) *
        (((Real.sqrt ((W / (c * u.F)) / 2) : ℝ) : ℂ) * (flx : ℂ) * (((Real.sqrt ((W / (c * u.F)) / 2) : ℝ) : ℂ) * (flx : ℂ)))) =
        ((u.E * Units.pc_hbar / W / 4 : ℝ) : ℂ) := by
      rw [← a2, Complex.ofReal_mul (El * (1 / 2) * l⁻¹), Complex.ofReal_mul (El * (1 / 2)), Complex.ofReal_pow, Complex.ofReal_mul (Real.sqrt _)]
      ring
    rw [mul_assoc ((c⁻¹ : ℝ) : ℂ), mul_assoc ((l⁻¹ : ℝ) : ℂ), b1, b2]
    have e0 : ((u.E * Units.pc_hbar / W / 2 : ℝ) : ℂ) = ((u.E * Units.pc_hbar / W / 4 : ℝ) : ℂ) * 2 := by push_cast; ring
    rw [e0, ← smul_smul, neg_smul, ← smul_neg, ← smul_add]
    congr 1
    rw [two_smul]
    noncomm_ring
  rw [e, destroy_mul_create, create_mul_destroy, diagonal_add, mul_zero, mul_zero, add_zero, add_zero, ← diagonal_smul]
  congr 1
  ext k
  rw [Pi.smul_apply, smul_eq_mul]
  by_cases hk : (k : ℕ) = n - 1
  · rw [if_pos hk, if_pos hk]; push_cast; ring
  · rw [if_neg hk, if_neg hk]; push_cast; ring

/-- The oscillator with the prefactors of instance `i` of `Units`. -/
noncomputable def lcOf (w : Units.World) (i n : ℕ) (c l : ℝ) : Except Err (Sys (Op n) 1 0) := do
  let Ec ← Units.getPrefactor w i "Ec"
  let El ← Units.getPrefactor w i "El"
  let impe ← Units.getPrefactor w i "Impe"
  let chg ← Units.getPrefactor w i "ChgOsc"
  let flx ← Units.getPrefactor w i "FlxOsc"
  return lcSystem n c l Ec El impe chg flx

/-- `x` quanta of the oscillator with the angular frequency `ω = 1 / √(C L)`, in the energy unit: `c` and `l` are in the input units. -/
noncomputable def lcEnergy (u : Spec.System) (c l x : ℝ) : ℝ :=
  u.E * (Units.pc_hbar * (1 / Real.sqrt ((c * u.F) * (l * u.H))) * x)

/-- Vector `v` is an eigenvector of `H` with the eigenvalue `x`. -/
def IsLevel {n : ℕ} (H : Op n) (x : ℝ) : Prop := ∃ v : Fin n → ℂ, v ≠ 0 ∧ H.mulVec v = (x : ℂ) • v

theorem isLevel_diagonal {n : ℕ} (d : Fin n → ℝ) (x : ℝ) : IsLevel (diagonal fun k => (d k : ℂ)) x ↔ ∃ k, d k = x := by
  constructor
  · rintro ⟨v, hv, h⟩
    obtain ⟨k, hk⟩ : ∃ k, v k ≠ 0 := by
      by_contra hcon
      push Not at hcon
      exact hv (funext hcon)
    refine ⟨k, ?_⟩
    have := congrFun h k
    rw [mulVec_diagonal, Pi.smul_apply, smul_eq_mul] at this
    exact_mod_cast mul_right_cancel₀ hk this
  · rintro ⟨k, rfl⟩
    refine ⟨Pi.single k 1, fun h0 => by simpa using congrFun h0 k, ?_⟩
    ext j
    rw [mulVec_diagonal, Pi.smul_apply, smul_eq_mul]
    by_cases hj : j = k
    · subst hj; rfl
    · simp [Pi.single_apply, hj]

/-- The levels of the oscillator, all of them. -/
theorem lc_levels (h : List UCall) (hc : ∀ x ∈ h, x.Clean) (i : ℕ) (hi : i < (runU h).objs.length) :
    ∃ u : Spec.System, u.Pos ∧ Uses (runU h) i u ∧ ∀ (n : ℕ) (c l : ℝ), 0 < c → 0 < l →
      ∃ s H, lcOf (runU h) i n c l = .ok s ∧ hamiltonian s = some H ∧
        ∀ x, IsLevel H x ↔ (∃ k, k + 1 < n ∧ x = lcEnergy u c l (k + 1 / 2)) ∨ (0 < n ∧ x = lcEnergy u c l (((n - 1 : ℕ) : ℝ) / 2)) := by
  obtain ⟨u, hp, hu, hcons⟩ := C44_consistent_partial h hc i hi
  refine ⟨u, hp, hu, fun n c l c0 l0 => ?_⟩
  have hcons' := hcons
  obtain ⟨g1, g2, -, -, -, g3, g5, g4, -⟩ := hcons'
  refine ⟨_, _, ?_, lc_hamiltonian (runU h) i u hcons hp n c l c0 l0 _ _ _ _ _ g1 g2 g3 g4 g5, ?_⟩
  · unfold lcOf
    rw [g1, g2, g3, g4, g5]
    rfl
  intro x
  rw [isLevel_diagonal]
  constructor
  · rintro ⟨k, rfl⟩
    have hk := k.2
    by_cases hkn : (k : ℕ) = n - 1
    · right
      refine ⟨by omega, ?_⟩
      rw [if_pos hkn, hkn]
      unfold lcEnergy
      ring
    · left
      refine ⟨k, by omega, ?_⟩
      rw [if_neg hkn]
      unfold lcEnergy
      ring
  · rintro (⟨k, hk, rfl⟩ | ⟨hn, rfl⟩)
    · refine ⟨⟨k, by omega⟩, ?_⟩
      rw [if_neg (show ¬ k = n - 1 by omega)]
      unfold lcEnergy
      ring
    · refine ⟨⟨n - 1, by omega⟩, ?_⟩
      rw [if_pos (show n - 1 = n - 1 from rfl)]
      unfold lcEnergy
      ring

/-- **C72** (partial) In every unit system reached by clean calls, `ħω (k + 1/2)` is a level of a node with a capacitance `c` and an
inductance `l` for every `k + 1 < n`, and any other level is the one of the last state kept, with the energy of `(n - 1) / 2` quanta.
Missing: that last level (`C72_false`). -/
theorem C72_levels_partial (h : List UCall) (hc : ∀ x ∈ h, x.Clean) (i : ℕ) (hi : i < (runU h).objs.length) :
    ∃ u : Spec.System, u.Pos ∧ Uses (runU h) i u ∧ ∀ (n : ℕ) (c l : ℝ), 0 < c → 0 < l →
      ∃ s H, lcOf (runU h) i n c l = .ok s ∧ hamiltonian s = some H ∧
        (∀ k, k + 1 < n → IsLevel H (lcEnergy u c l (k + 1 / 2))) ∧
        ∀ x, IsLevel H x → (∃ k : ℕ, x = lcEnergy u c l (k + 1 / 2)) ∨ x = lcEnergy u c l (((n - 1 : ℕ) : ℝ) / 2) := by
  obtain ⟨u, hp, hu, h1⟩ := lc_levels h hc i hi
  refine ⟨u, hp, hu, fun n c l c0 l0 => ?_⟩
  obtain ⟨s, H, h2, h3, h4⟩ := h1 n c l c0 l0
  refine ⟨s, H, h2, h3, fun k hk => (h4 _).2 (.inl ⟨k, hk, rfl⟩), fun x hx => ?_⟩
  rcases (h4 x).1 hx with ⟨k, _, hk⟩ | ⟨_, hk⟩
  · exact .inl ⟨k, hk⟩
  · exact .inr hk

/-- **C72** is false: whatever odd number of levels is kept, in every unit system and for every capacitance and inductance, the spectrum has a
level that no oscillator has; for `n ≥ 3` it lies between the true levels, not above them. -/
theorem C72_false (h : List UCall) (hc : ∀ x ∈ h, x.Clean) (i : ℕ) (hi : i < (runU h).objs.length) (m : ℕ) (c l : ℝ) (c0 : 0 < c)
    (l0 : 0 < l) :
    ∃ u s H x, Uses (runU h) i u ∧ lcOf (runU h) i (2 * m + 1) c l = .ok s ∧ hamiltonian s = some H ∧ IsLevel H x ∧
      (∀ k : ℕ, x ≠ lcEnergy u c l (k + 1 / 2)) ∧ (0 < m → x < lcEnergy u c l ((m : ℝ) + 1 / 2)) := by
  obtain ⟨u, hp, hu, h1⟩ := lc_levels h hc i hi
  obtain ⟨s, H, h2, h3, h4⟩ := h1 (2 * m + 1) c l c0 l0
  have hx := (h4 (lcEnergy u c l (((2 * m + 1 - 1 : ℕ) : ℝ) / 2))).2 (.inr ⟨by omega, rfl⟩)
  have e : (((2 * m + 1 - 1 : ℕ) : ℝ) / 2) = m := by
    rw [Nat.add_sub_cancel]; push_cast; ring
  rw [e] at hx
  obtain ⟨pF, pH, -, -, -, -, -, -, -, -, -, pE, -, -⟩ := hp
  have hpos : 0 < u.E * (Units.pc_hbar * (1 / Real.sqrt ((c * u.F) * (l * u.H)))) := by
    have h0 : (0 : ℝ) < Units.pc_hbar := by unfold Units.pc_hbar; norm_num
    have h5 : 0 < Real.sqrt ((c * u.F) * (l * u.H)) := Real.sqrt_pos.2 (by positivity)
    positivity
  have hmono : ∀ a b, a < b → lcEnergy u c l a < lcEnergy u c l b := by
    intro a b hab
    have := mul_lt_mul_of_pos_left hab hpos
    unfold lcEnergy
    linarith
  refine ⟨u, s, H, _, hu, h2, h3, hx, fun k hk => ?_, fun _ => hmono _ _ (by linarith)⟩
  rcases lt_trichotomy (m : ℝ) ((k : ℝ) + 1 / 2) with h5 | h5 | h5
  · exact absurd hk (hmono _ _ h5).ne
  · have h6 : (2 * m : ℝ) = 2 * k + 1 := by linarith
    have h7 : 2 * m = 2 * k + 1 := by exact_mod_cast h6
    omega
  · exact absurd hk.symm (hmono _ _ h5).ne

/-- The hypotheses are met by a fresh unit system. -/
example : ∃ u : Spec.System, u.Pos ∧ Uses (runU [.new "CQED1"]) 0 u := by
  have hi : 0 < (runU ([] ++ [.new "CQED1"])).objs.length := by
    rw [new_length (by simp)]; simp [runU, Units.init]
  obtain ⟨u, hp, hu, _⟩ := C72_levels_partial [.new "CQED1"] (by simp [UCall.Clean]) 0 hi
  exact ⟨u, hp, hu⟩

/-- A state with definite phase exists: the junction of `twoBranches` in the classical theory. -/
example : (∀ j, (twoBranches (Real.pi / 2) 0 .josephson).D j • (1 : ℂ) = exp (I * ((fun _ => Real.pi / 2 : ℕ → ℝ) j : ℝ)) • (1 : ℂ)) ∧
    ∃ X, currentOperator (twoBranches (Real.pi / 2) 0 .josephson) 0 = .ok X :=
  ⟨fun _ => rfl, _, C63_sign_false.1⟩

/-- The operators of `twoBranches` meet the hypotheses of `C63_hermitian`. -/
example (x : ℝ) : ∀ j, star ((twoBranches x 0 .inductive).flux j) = (twoBranches x 0 .inductive).flux j := fun _ => Complex.conj_ofReal x

end Verif.Props
