import Verif.Model.Energies
import Verif.Spec.Energies
import Verif.Props.Hamiltonian
import Verif.Props.Classical

/-!
# C77: the reported energies are the coefficients of the Hamiltonian
-/

namespace Verif.Props

open Verif Verif.Sym Verif.Num Verif.Spec Complex Matrix

theorem foldl_set_get_key {K V : Type} [DecidableEq K] {ι : Type} (key : ι → K) (f : ι → V) : ∀ (l : List ι) (d : Dict K V) (i : ι),
    (∀ j ∈ l, key j = key i → j = i) → i ∈ l → (l.foldl (fun d j => d.set (key j) (f j)) d).get? (key i) = some (f i) := by
  intro l
  induction l using List.reverseRecOn with
  | nil => intro d i _ hi; cases hi
  | append_singleton l j ih =>
    intro d i hinj hi
    rw [List.foldl_append]
    simp only [List.foldl_cons, List.foldl_nil]
    by_cases hj : key j = key i
    · have := hinj j (by simp) hj
      subst this
      rw [Dict.get?_set_self]
    · rw [Dict.get?_set_ne _ _ hj]
      refine ih d i (fun k hk => hinj k (List.mem_append_left _ hk)) ?_
      rcases List.mem_append.1 hi with h | h
      · exact h
      · rw [List.mem_singleton.1 h] at hj; exact absurd rfl hj

theorem foldl_set_mem_keys {K V : Type} [DecidableEq K] {ι : Type} (key : ι → K) (f : ι → V) (k : K) : ∀ (l : List ι) (d : Dict K V),
    (k ∈ (l.foldl (fun d j => d.set (key j) (f j)) d).keys ↔ k ∈ d.keys ∨ ∃ j ∈ l, key j = k) := by
  intro l
  induction l with
  | nil => intro d; simp
  | cons j l ih =>
    intro d
    rw [List.foldl_cons, ih]
    have : k ∈ (d.set (key j) (f j)).keys ↔ k ∈ d.keys ∨ key j = k := by
      rw [Dict.mem_keys_iff, Dict.mem_keys_iff, Dict.get?_set]
      by_cases h : key j = k
      · rw [if_pos h]; simp [h]
      · rw [if_neg h]; simp [h]
    rw [this]
    simp only [List.mem_cons, exists_eq_or_imp]
    tauto

/-- **C77** A report without argument has exactly one entry for each node (branch), and it is the number reported for that node alone;
an unknown node (branch) raises `ValueError`. -/
theorem C77_report {K : Type} [DecidableEq K] (keys : List K) (hnd : keys.Nodup) (f : Fin keys.length → ℝ) :
    ∃ d, report keys f none = .ok (.all d) ∧ (∀ k, k ∈ d.keys ↔ k ∈ keys) ∧
      (∀ i, d.get? (keys.get i) = some (f i) ∧ report keys f (some (keys.get i)) = .ok (.one (f i))) ∧
      ∀ k, k ∉ keys → report keys f (some k) = .error .valueError := by
  refine ⟨reportAll keys f, rfl, fun k => ?_, fun i => ⟨?_, ?_⟩, fun k hk => ?_⟩
  · unfold reportAll
    rw [foldl_set_mem_keys]
    constructor
    · rintro (h | ⟨j, -, rfl⟩)
      · simp [Dict.keys] at h
      · exact List.get_mem _ _
    · intro h
      obtain ⟨j, hj⟩ := List.mem_iff_get.1 h
      exact Or.inr ⟨j, List.mem_finRange j, hj⟩
  · exact foldl_set_get_key keys.get f _ _ i (fun j _ h => hnd.injective_get h) (List.mem_finRange i)
  · have h1 : keys.idxOf (keys.get i) = i := by
      rw [List.get_eq_getElem]; exact hnd.idxOf_getElem _ _
    have h2 : keys.idxOf (keys.get i) < keys.length := by rw [h1]; exact i.2
    unfold report reportOne
    simp only [dif_pos h2]
    congr 3
    exact Fin.ext h1
  · unfold report reportOne
    simp only [dif_neg (by rw [List.idxOf_lt_length_iff]; exact hk : ¬ keys.idxOf k < keys.length)]

variable {A : Type} [Ring A] [Algebra ℂ A]

theorem dispProduct_prod (D Dd : ℕ → A) (flip : Bool) (ts : List (ℝ × ℕ)) (acc : A) :
    dispProduct D Dd flip ts acc =
      acc * (ts.map fun p => if flip then (if p.1 < 0 then D p.2 else Dd p.2) else (if 0 < p.1 then D p.2 else Dd p.2)).prod := by
  induction ts generalizing acc with
  | nil => simp [dispProduct]
  | cons p ts ih =>
    unfold dispProduct
    rw [ih, List.map_cons, List.prod_cons, mul_assoc]

theorem num_mul (x : ℝ) (a : A) : num A x * a = (x : ℂ) • a := by
  unfold num
  rw [Algebra.smul_def]; rfl

theorem quadOp_form {n : ℕ} (c : ℝ) (M : Matrix (Fin n) (Fin n) ℝ) (x : Fin n → A) :
    num A (c * (1 / 2)) * quadOp (num A) M x = quadForm (fun i => 1 / 2 * M i i * c) (fun i j => 1 / 2 * M i j * c) x := by
  unfold quadOp quadForm
  rw [num_mul, ← Finset.sum_add_distrib, Finset.smul_sum]
  apply Finset.sum_congr rfl
  intro i _
  rw [Finset.mul_sum, Finset.smul_sum, ← Finset.add_sum_erase _ _ (Finset.mem_univ i)]
  congr 1
  · rw [num_mul, mul_smul_comm, smul_smul, pow_two]
    congr 1; push_cast; ring
  · apply Finset.sum_congr rfl
    intro j _
    rw [num_mul, mul_smul_comm, smul_smul]
    congr 1; push_cast; ring

theorem cosine_sum {b : ℕ} (D Dd : ℕ → A) (E bias : Fin b → ℝ) (terms : Fin b → List (ℝ × ℕ)) (u : ℝ) (Hj : A)
    (h : branchSum (num A (1 / 2)) D Dd (((List.finRange b).filter fun i => E i ≠ 0).map fun i =>
      ⟨num A (E i), expTau A (bias i), expTau A (-(bias i)), terms i⟩) 0 = some Hj) :
    num A u * Hj = - ∑ i, ((E i * u : ℝ) : ℂ) • cosOp D Dd (bias i) (terms i) := by
  rw [branchSum_spec] at h
  split_ifs at h
  rw [zero_add, Option.some.injEq] at h
  rw [← h, List.map_map, num_mul, ← Finset.sum_neg_distrib, Fin.sum_univ_def]
  have key : ∀ i, E i ≠ 0 → (u : ℂ) • -(num A (1 / 2) * num A (E i) *
      (dispProduct D Dd false (terms i) (expTau A (bias i)) + dispProduct D Dd true (terms i) (expTau A (-(bias i))))) =
        -(((E i * u : ℝ) : ℂ) • cosOp D Dd (bias i) (terms i)) := by
    intro i _
    have e1 : ∀ x : ℝ, ∀ a : A, expTau A x * a = exp (2 * Real.pi * x * I) • a := by
      intro x a
      unfold expTau
      rw [← Algebra.smul_def]
      congr 2; ring
    unfold cosOp
    rw [dispProduct_prod, dispProduct_prod, e1, e1, mul_assoc, num_mul, num_mul, smul_neg, smul_smul, smul_smul, smul_smul]
    simp only [Bool.false_eq_true, if_false, if_true]
    congr 2
    · push_cast; ring
    · congr 3
      push_cast; ring
  generalize List.finRange b = l
  induction l with
  | nil => simp
  | cons i l ih =>
    rw [List.map_cons, List.sum_cons, ← ih]
    by_cases hi : E i = 0
    · rw [List.filter_cons_of_neg (by simpa using hi), hi]
      simp
    · rw [List.filter_cons_of_pos (by simpa using hi), List.map_cons, List.sum_cons, smul_add]
      congr 1
      exact key i hi

/-- **C77** In the Hamiltonian the reported charging energy of a node is the coefficient of the square of its charge (counted from its bias), the
reported flux energy that of the square of its flux, and the reported Josephson and phase-slip energies are minus the coefficients of the cosines
of the branches; everything else in the Hamiltonian are products of charges or fluxes of different nodes.  For every circuit, all values,
every basis. -/
theorem C77_coefficients (nodes : List ℕ) (edges : List (ℕ × ℕ × ℕ)) (hn : nodes.Nodup) (he : edges.Nodup) (s : Sys A nodes.length edges.length)
    (H : A) (hH : hamiltonian s = some H) :
    ∃ (ec el : Fin nodes.length → ℝ) (ej ep : Fin edges.length → ℝ),
      (∀ i, getChargingEnergies nodes s (some (nodes.get i)) = .ok (.one (ec i)) ∧ getFluxEnergies nodes s (some (nodes.get i)) = .ok (.one (el i))) ∧
      (∀ i, getJosephsonEnergies edges s (some (edges.get i)) = .ok (.one (ej i)) ∧
        getPhaseSlipEnergies edges s (some (edges.get i)) = .ok (.one (ep i))) ∧
      H = quadForm ec (fun i j => 1 / 2 * s.Cinv i j * s.u.Ec) (fun i => s.Q i + algebraMap ℂ A (s.Qb i)) +
        quadForm el (fun i j => 1 / 2 * s.Linv i j * s.u.El) (fun i => s.P i + algebraMap ℂ A (s.Pbi i)) -
        ∑ i, (ej i : ℂ) • cosOp s.D s.Ddag (s.Pb i) (s.terms i) - ∑ i, (ep i : ℂ) • cosOp s.S s.Sdag (s.Qbt i) (s.terms i) := by
  have hr : ∀ {K : Type} [DecidableEq K] (keys : List K), keys.Nodup → ∀ (f : Fin keys.length → ℝ) (i : Fin keys.length),
      report keys f (some (keys.get i)) = .ok (.one (f i)) := by
    intro K _ keys hk f i
    obtain ⟨d, -, -, h, -⟩ := C77_report keys hk f
    exact (h i).2
  refine ⟨_, _, _, _, fun i => ⟨hr nodes hn _ i, hr nodes hn _ i⟩, fun i => ⟨hr edges he _ i, hr edges he _ i⟩, ?_⟩
  unfold hamiltonian at hH
  cases h1 : branchSum (num A (1 / 2)) s.D s.Ddag ((josBranches s).map (josData s)) 0 with
  | none => rw [h1] at hH; cases hH
  | some Hj =>
    cases h2 : branchSum (num A (1 / 2)) s.S s.Sdag ((slipBranches s).map (slipData s)) 0 with
    | none => rw [h1] at hH; simp only [h2] at hH; cases hH
    | some Hp =>
      rw [h1] at hH; simp only [h2, Option.some.injEq] at hH
      rw [← hH, cosine_sum s.D s.Ddag s.J s.Pb s.terms s.u.Ej Hj h1, cosine_sum s.S s.Sdag s.Ps s.Qbt s.terms s.u.Ep Hp h2]
      unfold linearPart
      rw [quadOp_form, quadOp_form]
      rw [sub_eq_add_neg, sub_eq_add_neg]
      rfl

omit [Ring A] [Algebra ℂ A] in
/-- **C77** The symbolic system's single-particle charging energy of a node is the energy of one Cooper pair (charge `2 e`) on the node in an
otherwise uncharged, unbiased circuit, with and without a transform. -/
theorem C77_single_particle (h : List Circuit.Call) (g : Circuit.CG) (hs : Settled h g) (b : Biases) (val : String → ℝ) (x : BiasVals)
    (hx : ∀ s, x.charge s = 0) (Cinv L : Matrix (Fin (nodes g).length) (Fin (nodes g).length) ℝ) (e : ℝ) (P p : Fin (nodes g).length → ℝ)
    (i : Fin (nodes g).length) :
    (singleParticleEnergies (nodes g) Cinv e).get? ((nodes g).get i) = some
      (classicalHamiltonian g b val x Cinv L ⟨Pi.single i (2 * e), P, p⟩ - classicalHamiltonian g b val x Cinv L ⟨0, P, p⟩) := by
  have hnd : (nodes g).Nodup := (C29_rows h g hs).1
  unfold singleParticleEnergies reportAll
  rw [foldl_set_get_key (nodes g).get _ _ _ i (fun j _ h => hnd.injective_get h) (List.mem_finRange i)]
  have hb : (fun i : Fin (nodes g).length => chargeBiasVector x.charge g i) = 0 := by
    funext k
    unfold chargeBiasVector
    split
    · split
      · exact hx _
      · rfl
    · rfl
  unfold classicalHamiltonian quadEnergy
  simp only
  rw [hb, add_zero, add_zero]
  simp only [zero_dotProduct, single_dotProduct, mulVec_single, Pi.smul_apply, Matrix.col_apply, MulOpposite.smul_eq_mul_unop, MulOpposite.unop_op]
  congr 1
  ring

/-- **C77 is false** for the Josephson energies that the symbolic system reports: for one junction with Josephson energy `EJ` the Hamiltonian is
`- EJ cos φ`, but the reported energy is `Φ0 EJ / 2π` (the parameter is treated as a critical current). -/
theorem C77_false : ∃ h g b, Settled h g ∧ createFluxBiases g = .ok b ∧ edges g = [(0, 1, 1)] ∧
    ∀ EJ Phi0 : ℝ, (∀ C L x φ, classicalHamiltonian g b (fun _ => EJ) x C L ⟨0, 0, fun _ => φ⟩ = - EJ * Real.cos φ) ∧
      symbolicJosephsonEnergy g (fun _ => EJ) Phi0 0 = Phi0 * EJ / (2 * Real.pi) := by
  refine ⟨oneJunction, _, _, oneJunction_settled, oneJunction_biases, by decide +kernel, fun EJ Phi0 => ⟨fun C L x φ => oneJunction_classical EJ x C L φ, ?_⟩⟩
  have h1 : edges (Circuit.run {} oneJunction) = [(0, 1, 1)] := by decide +kernel
  have h2 : (Circuit.run {} oneJunction).cmap.get? (0, 1, 1) = some "I1" := by decide +kernel
  have h3 : josephsonVector (fun _ => EJ) (Circuit.run {} oneJunction) 0 = EJ := by
    unfold josephsonVector
    rw [h1]
    simp only [List.getElem?_cons_zero, h2]
    exact if_pos (by decide +kernel)
  unfold symbolicJosephsonEnergy
  rw [h3]

-- a Cooper pair box with gate charge 1/4: its Hamiltonian is defined, and the reported energies are EC / 2 and EJ
example : ∃ (s : Sys ℂ [1].length [((0 : ℕ), (1 : ℕ), (0 : ℕ))].length) (H : ℂ), hamiltonian s = some H ∧ s.Cinv 0 0 = 3 ∧ s.J 0 = 5 ∧
    [1].Nodup ∧ [((0 : ℕ), (1 : ℕ), (0 : ℕ))].Nodup := by
  let s : Sys ℂ [1].length [((0 : ℕ), (1 : ℕ), (0 : ℕ))].length := {
    Cinv := fun _ _ => 3, Linv := 0, LinvB := 0, J := fun _ => 5, Ps := fun _ => 0, Pb := fun _ => 1 / 3,
    Qbt := fun _ => 0, Qb := fun _ => 1 / 4, Pbi := fun _ => 0, kind := fun _ => .josephson, terms := fun _ => [(-1, 0)],
    Q := fun _ => 1, P := fun _ => 0, flux := fun _ => 0, D := fun _ => 1, Ddag := fun _ => 1, S := fun _ => 1, Sdag := fun _ => 1,
    u := ⟨1, 1, 1, 1, 1, 1, 1⟩ }
  have hH : (hamiltonian s).isSome := by
    rw [C66_defined]
    intro i _
    simp [s]
  obtain ⟨H, hH⟩ := Option.isSome_iff_exists.1 hH
  exact ⟨s, H, hH, rfl, rfl, by simp, by simp⟩

end Verif.Props
