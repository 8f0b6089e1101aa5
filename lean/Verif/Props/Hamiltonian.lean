import Verif.Model.Hamiltonian
import Verif.Props.SymbolicCos
import Verif.Props.SymbolicModes
import Verif.Props.SymbolicCap
import Verif.Props.SymbolicInd
import Verif.Props.Operators
import Verif.Props.Expansion
import Mathlib.Analysis.Calculus.Deriv.Basic
import Mathlib.Analysis.SpecialFunctions.Trigonometric.Deriv

/-!
# Properties of the Hamiltonian: C66, C70, C71
-/

namespace Verif.Props

open Verif Verif.Num Verif.Sym Verif.Spec Matrix Complex

section General

variable {A : Type} [Ring A] [StarRing A] [Algebra ℂ A] [StarModule ℂ A]

theorem star_num (x : ℝ) : star (num A x) = num A x := by
  unfold num
  rw [RingHom.comp_apply, ← algebraMap_star_comm]
  simp

omit [StarRing A] [StarModule ℂ A] in
theorem num_comm (x : ℝ) (a : A) : num A x * a = a * num A x := Algebra.commutes _ _

omit [StarRing A] [StarModule ℂ A] in
theorem expTau_eq (x : ℝ) : expTau A x = algebraMap ℂ A (exp (I * (2 * Real.pi * x : ℝ))) := by
  unfold expTau
  congr 2
  push_cast; ring

omit [StarRing A] [StarModule ℂ A] in
theorem expTau_neg_eq (x : ℝ) : expTau A (-x) = algebraMap ℂ A (exp (-(I * (2 * Real.pi * x : ℝ)))) := by
  unfold expTau
  congr 2
  push_cast; ring

theorem quadOp_star {n : ℕ} (M : Matrix (Fin n) (Fin n) ℝ) (hM : Mᵀ = M) (x : Fin n → A) (hx : ∀ i, star (x i) = x i) :
    star (quadOp (num A) M x) = quadOp (num A) M x := by
  have e : quadOp (num A) M x = ∑ i, ∑ j, num A (M i j) * (x i * x j) := by
    unfold quadOp
    refine Finset.sum_congr rfl fun i _ => ?_
    rw [Finset.mul_sum]
    refine Finset.sum_congr rfl fun j _ => ?_
    rw [← mul_assoc, ← num_comm, mul_assoc]
  rw [e, star_sum, Finset.sum_comm]
  refine Finset.sum_congr rfl fun j _ => ?_
  rw [star_sum]
  refine Finset.sum_congr rfl fun i _ => ?_
  have : M j i = M i j := congrFun (congrFun hM i) j
  rw [star_mul, star_mul, hx, hx, star_num, ← num_comm, this]

/-- The terms a Josephson junction or phase slip consists of, as a `CosTerm`. -/
noncomputable def josTerm {n b : ℕ} (s : Sys A n b) (i : Fin b) : CosTerm := ⟨s.J i, 2 * Real.pi * s.Pb i, s.terms i⟩

noncomputable def slipTerm {n b : ℕ} (s : Sys A n b) (i : Fin b) : CosTerm := ⟨s.Ps i, 2 * Real.pi * s.Qbt i, s.terms i⟩

omit [StarRing A] [StarModule ℂ A] in
theorem josData_eq {n b : ℕ} (s : Sys A n b) (i : Fin b) : josData s i = (josTerm s i).data A := by
  unfold josData josTerm CosTerm.data
  rw [expTau_eq, expTau_neg_eq]
  rfl

omit [StarRing A] [StarModule ℂ A] in
theorem slipData_eq {n b : ℕ} (s : Sys A n b) (i : Fin b) : slipData s i = (slipTerm s i).data A := by
  unfold slipData slipTerm CosTerm.data
  rw [expTau_eq, expTau_neg_eq]
  rfl

omit [StarRing A] [StarModule ℂ A] in
/-- The Hamiltonian in terms of the cosine terms of `C35`. -/
theorem hamiltonian_eq {n b : ℕ} (s : Sys A n b) (H : A) : hamiltonian s = some H ↔ ∃ Hj Hp,
    cosineTerms s.D s.Ddag ((josBranches s).map (josTerm s)) = some Hj ∧
    cosineTerms s.S s.Sdag ((slipBranches s).map (slipTerm s)) = some Hp ∧
    H = linearPart (num A) s + num A s.u.Ej * Hj + num A s.u.Ep * Hp := by
  have half : num A (1 / 2) = algebraMap ℂ A (1 / 2) := by
    unfold num; simp
  have e1 : branchSum (num A (1 / 2)) s.D s.Ddag ((josBranches s).map (josData s)) 0 =
      cosineTerms s.D s.Ddag ((josBranches s).map (josTerm s)) := by
    unfold cosineTerms
    rw [List.map_map, half]
    congr 1
    exact List.map_congr_left fun i _ => josData_eq s i
  have e2 : branchSum (num A (1 / 2)) s.S s.Sdag ((slipBranches s).map (slipData s)) 0 =
      cosineTerms s.S s.Sdag ((slipBranches s).map (slipTerm s)) := by
    unfold cosineTerms
    rw [List.map_map, half]
    congr 1
    exact List.map_congr_left fun i _ => slipData_eq s i
  unfold hamiltonian
  rw [e1, e2]
  cases cosineTerms s.D s.Ddag ((josBranches s).map (josTerm s)) with
  | none => simp
  | some Hj =>
    cases cosineTerms s.S s.Sdag ((slipBranches s).map (slipTerm s)) with
    | none => simp
    | some Hp => simp [eq_comm]

/-- What the operators of a circuit have in common in every basis: charges and fluxes are Hermitian, the displacements come with their
adjoints, and those of different nodes commute. -/
structure GoodOps {n b : ℕ} (s : Sys A n b) : Prop where
  Q : ∀ i, star (s.Q i) = s.Q i
  P : ∀ i, star (s.P i) = s.P i
  Ddag : ∀ j, s.Ddag j = star (s.D j)
  Sdag : ∀ j, s.Sdag j = star (s.S j)
  commD : ∀ i j, i ≠ j → Commute (s.D i) (s.D j) ∧ Commute (s.D i) (s.Ddag j)
  commS : ∀ i j, i ≠ j → Commute (s.S i) (s.S j) ∧ Commute (s.S i) (s.Sdag j)
  terms : ∀ i, ((s.terms i).map Prod.snd).Nodup ∧ ∀ p ∈ s.terms i, p.1 ≠ 0

/-- **C66** The Hamiltonian is Hermitian: for every circuit, all values of energies, biases and units, and every choice of operators of
the nodes that are Hermitian or come with their adjoints. -/
theorem C66_hermitian {n b : ℕ} (s : Sys A n b) (g : GoodOps s) (hC : s.Cinvᵀ = s.Cinv) (hL : s.Linvᵀ = s.Linv) (H : A)
    (hH : hamiltonian s = some H) : star H = H := by
  obtain ⟨Hj, Hp, h1, h2, rfl⟩ := (hamiltonian_eq s H).1 hH
  have hj := C35_hermitian s.D s.Ddag g.Ddag g.commD _ (by
    intro c hc
    obtain ⟨i, _, rfl⟩ := List.mem_map.1 hc
    exact g.terms i) Hj h1
  have hp := C35_hermitian s.S s.Sdag g.Sdag g.commS _ (by
    intro c hc
    obtain ⟨i, _, rfl⟩ := List.mem_map.1 hc
    exact g.terms i) Hp h2
  have sm : ∀ (x : ℝ) (a : A), star a = a → star (num A x * a) = num A x * a := by
    intro x a ha
    rw [star_mul, ha, star_num, ← num_comm]
  rw [star_add, star_add, sm _ _ hj, sm _ _ hp]
  congr 2
  unfold linearPart
  rw [star_add, sm, sm]
  · exact quadOp_star _ hL _ fun i => by rw [star_add, g.P, star_num]
  · exact quadOp_star _ hC _ fun i => by rw [star_add, g.Q, star_num]

omit [StarRing A] [StarModule ℂ A] in
/-- **C66** It exists exactly when no junction and no phase slip joins a node to itself. -/
theorem C66_defined {n b : ℕ} (s : Sys A n b) :
    (hamiltonian s).isSome ↔ ∀ i, s.J i ≠ 0 ∨ s.Ps i ≠ 0 → s.terms i ≠ [] := by
  have key : ∀ (D Dd : ℕ → A) (l : List (Fin b)) (f : Fin b → BranchData ℝ A), (∀ i, (f i).terms = s.terms i) → ∀ acc,
      (branchSum (num A (1 / 2)) D Dd (l.map f) acc).isSome ↔ ∀ i ∈ l, s.terms i ≠ [] := by
    intro D Dd l f hf
    induction l with
    | nil => intro acc; simp [branchSum]
    | cons i l ih =>
      intro acc
      rw [List.map_cons]
      unfold branchSum branchEnergy
      rw [hf]
      by_cases h : s.terms i = []
      · simp [h]
      · rw [if_neg (by simpa using h)]
        simp only
        rw [ih]
        simp [h]
  have k1 := key s.D s.Ddag (josBranches s) (josData s) (fun _ => rfl) 0
  have k2 := key s.S s.Sdag (slipBranches s) (slipData s) (fun _ => rfl) 0
  unfold hamiltonian
  constructor
  · intro h i hi
    cases e1 : branchSum (num A (1 / 2)) s.D s.Ddag ((josBranches s).map (josData s)) 0 with
    | none => rw [e1] at h; cases h
    | some Hj =>
      cases e2 : branchSum (num A (1 / 2)) s.S s.Sdag ((slipBranches s).map (slipData s)) 0 with
      | none => rw [e1, e2] at h; cases h
      | some Hp =>
        rw [e1] at k1; rw [e2] at k2
        rcases hi with hi | hi
        · exact k1.1 rfl i (List.mem_filter.2 ⟨List.mem_finRange i, by simpa using hi⟩)
        · exact k2.1 rfl i (List.mem_filter.2 ⟨List.mem_finRange i, by simpa using hi⟩)
  · intro h
    have s1 := k1.2 fun i hi => h i (Or.inl (by simpa using (List.mem_filter.1 hi).2))
    have s2 := k2.2 fun i hi => h i (Or.inr (by simpa using (List.mem_filter.1 hi).2))
    obtain ⟨Hj, e1⟩ := Option.isSome_iff_exists.1 s1
    obtain ⟨Hp, e2⟩ := Option.isSome_iff_exists.1 s2
    rw [e1, e2]; rfl

/-! ### C71: flux quantisation of the biases -/

omit [StarRing A] [StarModule ℂ A] in
/-- **C71** Changing the flux biases of the junctions by whole flux quanta (and the branch charge biases of the phase slips by whole Cooper
pairs) does not change the Hamiltonian. -/
theorem C71_periodic {n b : ℕ} (s : Sys A n b) (k l : Fin b → ℤ) :
    hamiltonian { s with Pb := fun i => s.Pb i + k i, Qbt := fun i => s.Qbt i + l i } = hamiltonian s := by
  have hexp : ∀ (x : ℝ) (m : ℤ), expTau A (x + m) = expTau A x ∧ expTau A (-(x + m)) = expTau A (-x) := by
    intro x m
    unfold expTau
    constructor
    · rw [show (2 * I * Real.pi * ((x + m : ℝ) : ℂ)) = 2 * I * Real.pi * x + m * (2 * Real.pi * I) by push_cast; ring,
        Complex.exp_add, Complex.exp_int_mul_two_pi_mul_I, mul_one]
    · rw [show (2 * I * Real.pi * ((-(x + m) : ℝ) : ℂ)) = 2 * I * Real.pi * ((-x : ℝ) : ℂ) + ((-m : ℤ) : ℂ) * (2 * Real.pi * I) by push_cast; ring,
        Complex.exp_add, Complex.exp_int_mul_two_pi_mul_I, mul_one]
  unfold hamiltonian
  have e1 : (josBranches s).map (josData { s with Pb := fun i => s.Pb i + k i, Qbt := fun i => s.Qbt i + l i }) =
      (josBranches s).map (josData s) := by
    refine List.map_congr_left fun i _ => ?_
    unfold josData
    simp only
    rw [(hexp _ _).1, (hexp _ _).2]
  have e2 : (slipBranches s).map (slipData { s with Pb := fun i => s.Pb i + k i, Qbt := fun i => s.Qbt i + l i }) =
      (slipBranches s).map (slipData s) := by
    refine List.map_congr_left fun i _ => ?_
    unfold slipData
    simp only
    rw [(hexp _ _).1, (hexp _ _).2]
  show (match branchSum (num A (1 / 2)) s.D s.Ddag ((josBranches s).map (josData { s with Pb := fun i => s.Pb i + k i, Qbt := fun i => s.Qbt i + l i })) 0 with
    | none => none
    | some Hj => match branchSum (num A (1 / 2)) s.S s.Sdag ((slipBranches s).map (slipData { s with Pb := fun i => s.Pb i + k i, Qbt := fun i => s.Qbt i + l i })) 0 with
      | none => none
      | some Hp => some (linearPart (num A) s + num A s.u.Ej * Hj + num A s.u.Ep * Hp)) = _
  rw [e1, e2]
  rfl

/-! ### C70: the static parts -/

omit [StarRing A] [StarModule ℂ A] in
/-- **C70** The linear part and the two lists of static Josephson parts, the latter multiplied by the exponentials of the biases of their
branches (the branches with a junction, in order), add up to the Hamiltonian of a circuit without phase slips. -/
theorem C70_recombine {n b : ℕ} (s : Sys A n b) (hp : ∀ i, s.Ps i = 0) (L R : List A) (h : staticPart s = some (L, R)) :
    hamiltonian s = some (linearPart (num A) s +
      ((((List.finRange b).filter fun i => s.J i ≠ 0).zip (L.zip R)).map fun p =>
        exp (2 * Real.pi * s.Pb p.1 * I) • p.2.1 + exp (-(2 * Real.pi * s.Pb p.1 * I)) • p.2.2).sum) := by
  unfold staticPart at h
  split_ifs at h with hall
  obtain ⟨hL, hR⟩ := Prod.mk.inj (Option.some.inj h)
  have hslip : slipBranches s = [] := by
    unfold slipBranches
    rw [List.filter_eq_nil_iff]
    intro i _; simp [hp i]
  have hne : ∀ i ∈ josBranches s, s.terms i ≠ [] := by
    intro i hi
    have := List.all_eq_true.1 hall i hi
    simpa using this
  have hd : ∀ (D Dd : ℕ → A) (flip : Bool) (ts : List (ℝ × ℕ)) (acc : A), dispProduct D Dd flip ts acc = acc * dispProduct D Dd flip ts 1 := by
    intro D Dd flip ts
    induction ts with
    | nil => intro acc; simp [dispProduct]
    | cons p ts ih =>
      intro acc
      unfold dispProduct
      rw [ih (acc * _), ih (1 * _), one_mul, mul_assoc]
  rw [hamiltonian_eq]
  have key : ∀ l : List (Fin b), (∀ i ∈ l, s.terms i ≠ []) → ∀ acc, ∃ Hj, branchSum (num A (1 / 2)) s.D s.Ddag (l.map (josData s)) acc = some Hj ∧
      num A s.u.Ej * Hj = num A s.u.Ej * acc +
        ((l.zip ((l.map fun i => -(num A (1 / 2) * num A s.u.Ej * num A (s.J i) * dispProduct s.D s.Ddag false (s.terms i) 1)).zip
          (l.map fun i => -(num A (1 / 2) * num A s.u.Ej * num A (s.J i) * dispProduct s.D s.Ddag true (s.terms i) 1)))).map fun p =>
        exp (2 * Real.pi * s.Pb p.1 * I) • p.2.1 + exp (-(2 * Real.pi * s.Pb p.1 * I)) • p.2.2).sum := by
    intro l
    induction l with
    | nil => intro _ acc; exact ⟨acc, rfl, by simp⟩
    | cons i l ih =>
      intro hl acc
      have hi := hl i (by simp)
      rw [List.map_cons]
      unfold branchSum branchEnergy
      rw [if_neg (by simpa [josData] using hi)]
      simp only
      obtain ⟨Hj, h1, h2⟩ := ih (fun j hj => hl j (List.mem_cons_of_mem _ hj)) (acc + -(num A (1 / 2) * (josData s i).energy *
        (dispProduct s.D s.Ddag false (josData s i).terms (josData s i).ep + dispProduct s.D s.Ddag true (josData s i).terms (josData s i).em)))
      refine ⟨Hj, h1, ?_⟩
      rw [h2]
      simp only [List.map_cons, List.zip_cons_cons, List.sum_cons]
      rw [mul_add, add_assoc]
      congr 2
      have e1 : ∀ a : A, expTau A (s.Pb i) * a = exp (2 * Real.pi * s.Pb i * I) • a := by
        intro a
        unfold expTau
        rw [Algebra.smul_def]
        congr 3; ring
      have e2 : ∀ a : A, expTau A (-(s.Pb i)) * a = exp (-(2 * Real.pi * s.Pb i * I)) • a := by
        intro a
        unfold expTau
        rw [Algebra.smul_def]
        congr 3; push_cast; ring
      simp only [josData]
      rw [hd, hd s.D s.Ddag true, e1, e2]
      simp only [smul_neg, mul_neg, mul_add, mul_smul_comm, ← neg_add_rev, ← mul_assoc, ← map_mul]
      rw [add_comm, mul_comm s.u.Ej]
  obtain ⟨Hj, h1, h2⟩ := key (josBranches s) hne 0
  have half : num A (1 / 2) = algebraMap ℂ A (1 / 2) := by
    unfold num; simp
  refine ⟨Hj, 0, ?_, ?_, ?_⟩
  · unfold cosineTerms
    rw [List.map_map, ← half, ← h1]
    congr 1
    exact List.map_congr_left fun i _ => (josData_eq s i).symm
  · rw [hslip]; rfl
  · rw [h2, ← hL, ← hR]
    simp only [mul_zero, zero_add, add_zero]
    rfl

end General

/-! ### C66 for the operators the code builds -/

/-- The operators of a node come with their adjoints. -/
def Adjoint {d : ℕ} (o : NodeOps d) : Prop := o.Qᴴ = o.Q ∧ o.Pᴴ = o.P ∧ o.Ddag = o.Dᴴ ∧ o.Sdag = o.Sᴴ

theorem fourierOp_hermitian (t : ℕ) (s : Fin (2 * t + 1) → Fin (2 * t + 1) → ℂ) : (fourierOp t s)ᴴ = fourierOp t s := by
  unfold fourierOp
  rw [conjTranspose_sum]
  refine Finset.sum_congr rfl fun i _ => ?_
  rw [conjTranspose_smul]
  have e1 : star (((i : ℕ) - t : ℂ) / (2 * t + 1)) = ((i : ℕ) - t : ℂ) / (2 * t + 1) := by
    have : (((i : ℕ) - t : ℂ) / (2 * t + 1)) = ((((i : ℕ) - t : ℝ) / (2 * t + 1) : ℝ) : ℂ) := by push_cast; rfl
    rw [this, Complex.star_def, Complex.conj_ofReal]
  have e2 : (vecMulVec (fourierState t s i) (star (fourierState t s i)))ᴴ = vecMulVec (fourierState t s i) (star (fourierState t s i)) := by
    ext a b
    simp [vecMulVec_apply, conjTranspose_apply, mul_comm]
  rw [e1, e2]

theorem countOp_hermitian (t : ℕ) : (countOp t)ᴴ = countOp t := by
  have : countOp t = diagonal fun m : Fin (2 * t + 1) => (((t : ℝ) - (m : ℕ) : ℝ) : ℂ) := by
    unfold countOp numOp
    rw [Matrix.diagonal_neg, smul_one_eq_diagonal, diagonal_add]
    congr 1
    ext m
    simp
    ring
  rw [this, diagonal_conjTranspose]
  congr 1
  ext m
  simp

/-- **C66** The operators of every basis come with their adjoints, whatever the diagonalisers returned. -/
theorem C66_bases (t n : ℕ) (Z pq pp : ℝ) (q : Fin (2 * t + 1) → ℝ) (s : Fin (2 * t + 1) → Fin (2 * t + 1) → ℂ)
    (E E' : Fin (2 * t + 1) → ℝ) (V V' : Op (2 * t + 1)) (e e' : Fin n → ℝ) (v v' : Op n) :
    Adjoint (chargeBasis t q s E V) ∧ Adjoint (fluxBasis t s E V E' V') ∧ Adjoint (oscillatorBasis n Z pq pp e v e' v') :=
  ⟨⟨countOp_hermitian t, fourierOp_hermitian t s, rfl, rfl⟩, ⟨fourierOp_hermitian t s, countOp_hermitian t, rfl, rfl⟩,
    ⟨(C38_hermitian n Z pq pp).1, (C38_hermitian n Z pq pp).2, rfl, rfl⟩⟩

theorem actsOn_adjoint {n : ℕ} (cfg : Fin n → NodeCfg) (i : Fin n) (X : Op (cfg i).dim) : (actsOn cfg i X)ᴴ = actsOn cfg i Xᴴ := by
  ext x y
  simp only [actsOn, conjTranspose_apply]
  have : (∀ j, j ≠ i → x j = y j) ↔ ∀ j, j ≠ i → y j = x j := ⟨fun h j hj => (h j hj).symm, fun h j hj => (h j hj).symm⟩
  simp only [this]
  split_ifs <;> simp

theorem expandNode_some {n : ℕ} {cfg : Fin n → NodeCfg} {i : Fin n} {o : NodeOps (cfg i).dim} {N : BigNode cfg} (h : expandNode cfg i o = some N) :
    expandOp cfg i o.Q = some N.Q ∧ expandOp cfg i o.P = some N.P ∧ expandOp cfg i o.D = some N.D ∧ expandOp cfg i o.Ddag = some N.Ddag ∧
      expandOp cfg i o.S = some N.S ∧ expandOp cfg i o.Sdag = some N.Sdag := by
  unfold expandNode at h
  split at h
  · rename_i q p d d' s s' h1 h2 h3 h4 h5 h6
    rw [← Option.some.inj h]
    exact ⟨h1, h2, h3, h4, h5, h6⟩
  · cases h

theorem goodOps_withNodes {B : Type} {n b : ℕ} (s : Sys B n b) {cfg : Fin n → NodeCfg} (N : Fin n → BigNode cfg)
    (o : (i : Fin n) → NodeOps (cfg i).dim) (ho : ∀ i, Adjoint (o i)) (hN : ∀ i, expandNode cfg i (o i) = some (N i))
    (ht : ∀ i, ((s.terms i).map Prod.snd).Nodup ∧ ∀ p ∈ s.terms i, p.1 ≠ 0) : GoodOps (s.withNodes N) := by
  have st : ∀ i (X Y : Op (cfg i).dim) (X' Y' : BigOp cfg), expandOp cfg i X = some X' → expandOp cfg i Y = some Y' → Y = Xᴴ → Y' = star X' := by
    intro i X Y X' Y' h1 h2 h3
    rw [expandOp_some h1, expandOp_some h2, h3, Matrix.star_eq_conjTranspose, actsOn_adjoint]
  have comm : ∀ i j (hij : i ≠ j) (X : Op (cfg i).dim) (Y : Op (cfg j).dim) (X' Y' : BigOp cfg), expandOp cfg i X = some X' →
      expandOp cfg j Y = some Y' → Commute X' Y' := fun i j hij X Y X' Y' h1 h2 => C39_commute cfg i j hij X Y X' Y' h1 h2
  constructor
  · intro i
    obtain ⟨h1, -⟩ := expandNode_some (hN i)
    exact (st i _ _ _ _ h1 h1 (ho i).1.symm).symm
  · intro i
    obtain ⟨-, h1, -⟩ := expandNode_some (hN i)
    exact (st i _ _ _ _ h1 h1 (ho i).2.1.symm).symm
  · intro j
    show (if h : j < n then (N ⟨j, h⟩).Ddag else 0) = star (if h : j < n then (N ⟨j, h⟩).D else 0)
    split_ifs with h
    · obtain ⟨-, -, h1, h2, -⟩ := expandNode_some (hN ⟨j, h⟩)
      exact st _ _ _ _ _ h1 h2 (ho _).2.2.1
    · simp
  · intro j
    show (if h : j < n then (N ⟨j, h⟩).Sdag else 0) = star (if h : j < n then (N ⟨j, h⟩).S else 0)
    split_ifs with h
    · obtain ⟨-, -, -, -, h1, h2⟩ := expandNode_some (hN ⟨j, h⟩)
      exact st _ _ _ _ _ h1 h2 (ho _).2.2.2
    · simp
  · intro i j hij
    show Commute (if h : i < n then (N ⟨i, h⟩).D else 0) (if h : j < n then (N ⟨j, h⟩).D else 0) ∧
      Commute (if h : i < n then (N ⟨i, h⟩).D else 0) (if h : j < n then (N ⟨j, h⟩).Ddag else 0)
    split_ifs with h h'
    · obtain ⟨-, -, h1, -⟩ := expandNode_some (hN ⟨i, h⟩)
      obtain ⟨-, -, h3, h4, -⟩ := expandNode_some (hN ⟨j, h'⟩)
      have hne : (⟨i, h⟩ : Fin n) ≠ ⟨j, h'⟩ := fun hh => hij (congrArg Fin.val hh)
      exact ⟨comm _ _ hne _ _ _ _ h1 h3, comm _ _ hne _ _ _ _ h1 h4⟩
    all_goals simp
  · intro i j hij
    show Commute (if h : i < n then (N ⟨i, h⟩).S else 0) (if h : j < n then (N ⟨j, h⟩).S else 0) ∧
      Commute (if h : i < n then (N ⟨i, h⟩).S else 0) (if h : j < n then (N ⟨j, h⟩).Sdag else 0)
    split_ifs with h h'
    · obtain ⟨-, -, -, -, h1, -⟩ := expandNode_some (hN ⟨i, h⟩)
      obtain ⟨-, -, -, -, h3, h4⟩ := expandNode_some (hN ⟨j, h'⟩)
      have hne : (⟨i, h⟩ : Fin n) ≠ ⟨j, h'⟩ := fun hh => hij (congrArg Fin.val hh)
      exact ⟨comm _ _ hne _ _ _ _ h1 h3, comm _ _ hne _ _ _ _ h1 h4⟩
    all_goals simp
  · exact ht

theorem branchTerms_good (g : Circuit.CG) (Rinv : Mat ℝ) (e : ℕ × ℕ × ℕ) :
    ((branchTerms g Rinv e).map Prod.snd).Nodup ∧ ∀ p ∈ branchTerms g Rinv e, p.1 ≠ 0 := by
  unfold branchTerms
  constructor
  · refine (List.Sublist.map _ List.filter_sublist).nodup ?_
    rw [List.map_map]
    exact List.nodup_range.map fun a b h => h
  · intro p hp
    simpa using (List.mem_filter.1 hp).2

/-- **C66** The Hamiltonian of a circuit is a Hermitian matrix: the inverse capacitance and inductance matrices are the ones computed from
the circuit (with or without a transform), every node has the operators of some basis, expanded to the whole space. -/
theorem C66_circuit (g : Circuit.CG) (val : String → ℝ) (t : Transform ℝ (nodes g).length) (C : Mat ℝ)
    (L : Matrix (Fin (nodes g).length) (Fin (nodes g).length) ℝ) (pinv) (Ci : Matrix (Fin (nodes g).length) (Fin (nodes g).length) ℝ)
    (hC : capacitance val (resonatorCap val) g = .ok C) (hCi : inverseCapacitance t (C.block _ _) = some Ci)
    (hp : ∀ M, branchInductance val g = .ok M → IsPinv (M.block _ _) (pinv (M.block _ _))) (hL : inverseInductance val g pinv = .ok L)
    (Rinv : Mat ℝ) (s : Sys PUnit (nodes g).length (edges g).length) (h1 : s.Cinv = Ci) (h2 : s.Linv = transformInductance t L)
    (h3 : ∀ i, s.terms i = branchTerms g Rinv ((edges g).get i)) {cfg : Fin (nodes g).length → NodeCfg} (N : Fin (nodes g).length → BigNode cfg)
    (o : (i : Fin (nodes g).length) → NodeOps (cfg i).dim) (ho : ∀ i, Adjoint (o i)) (hN : ∀ i, expandNode cfg i (o i) = some (N i))
    (H : BigOp cfg) (hH : hamiltonian (s.withNodes N) = some H) : H.IsHermitian := by
  have hs := C33_symmetric t (C.block _ _) L Ci (C29_symmetric val g C hC) (C30_symmetric val g pinv hp L hL) hCi
  refine C66_hermitian (s.withNodes N) (goodOps_withNodes s N o ho hN fun i => ?_) ?_ ?_ H hH
  · rw [h3]; exact branchTerms_good g Rinv _
  · show s.Cinvᵀ = s.Cinv
    rw [h1]; exact hs.1
  · show s.Linvᵀ = s.Linv
    rw [h2]; exact hs.2

theorem expandNode_standard {n : ℕ} {cfg : Fin n → NodeCfg} (h : Standard cfg) (i : Fin n) (o : NodeOps (cfg i).dim) :
    ∃ N, expandNode cfg i o = some N := by
  unfold expandNode
  rw [C39_expansion_partial cfg h, C39_expansion_partial cfg h, C39_expansion_partial cfg h, C39_expansion_partial cfg h,
    C39_expansion_partial cfg h, C39_expansion_partial cfg h]
  exact ⟨_, rfl⟩

/-- A transmon in the charge basis: the hypotheses of `C66_circuit` (and of `C66_hermitian`, through `goodOps_withNodes`) can be met, and
the Hamiltonian exists. -/
example (t : ℕ) (EJ bias : ℝ) (u : Prefs) (g : Circuit.CG) (hg : g = Circuit.run {} oneJunction) :
    ∃ (C : Mat ℝ) (L Ci : Matrix (Fin (nodes g).length) (Fin (nodes g).length) ℝ) (s : Sys PUnit (nodes g).length (edges g).length)
    (cfg : Fin (nodes g).length → NodeCfg) (N : Fin (nodes g).length → BigNode cfg)
    (o : (i : Fin (nodes g).length) → NodeOps (cfg i).dim) (H : BigOp cfg),
    (nodes g).length = 1 ∧ (edges g).length = 1 ∧
    capacitance (fun _ => (1 : ℝ)) (resonatorCap fun _ => 1) g = .ok C ∧ inverseCapacitance ⟨false, 1⟩ (C.block _ _) = some Ci ∧
    (∀ M, branchInductance (fun _ => (1 : ℝ)) g = .ok M → IsPinv (M.block (edges g).length (edges g).length) (M.block _ _)) ∧
    inverseInductance (fun _ => (1 : ℝ)) g id = .ok L ∧ s.Cinv = Ci ∧ s.Linv = transformInductance ⟨false, 1⟩ L ∧
    (∀ i, s.J i = EJ ∧ s.Pb i = bias) ∧ (∀ i, s.terms i = branchTerms g (fun i j => if i = j then 1 else 0) ((edges g).get i)) ∧
    (∀ i, (cfg i).trunc = t ∧ (cfg i).basis = .charge) ∧ (∀ i, Adjoint (o i)) ∧ (∀ i, expandNode cfg i (o i) = some (N i)) ∧
    hamiltonian (s.withNodes N) = some H := by
  have hn : nodes g = [1] := by subst hg; decide +kernel
  have he : edges g = [(0, 1, 1)] := by subst hg; decide +kernel
  have hC : ∃ C : Mat ℝ, capacitance (fun _ => (1 : ℝ)) (resonatorCap fun _ => 1) g = .ok C ∧ C 0 0 = 0 + 1 := by
    subst hg; exact ⟨_, rfl, rfl⟩
  have hB : branchInductance (fun _ => (1 : ℝ)) g = .ok fun _ _ => 0 := by
    subst hg; rfl
  clear hg
  obtain ⟨C, hC, hC0⟩ := hC
  have hdet : (C.block (nodes g).length (nodes g).length).det ≠ 0 := by
    rw [hn]
    show (C.block 1 1).det ≠ 0
    rw [Matrix.det_fin_one]
    show C 0 0 ≠ 0
    rw [hC0]; norm_num
  have hCi : ∃ Ci, inverseCapacitance ⟨false, 1⟩ (C.block (nodes g).length (nodes g).length) = some Ci := by
    unfold inverseCapacitance
    rw [if_neg hdet]
    exact ⟨_, rfl⟩
  obtain ⟨Ci, hCi⟩ := hCi
  have hL : ∃ L, inverseInductance (fun _ => (1 : ℝ)) g id = .ok L := by
    unfold inverseInductance
    rw [hB]
    exact ⟨_, rfl⟩
  obtain ⟨L, hL⟩ := hL
  let s : Sys PUnit (nodes g).length (edges g).length := {
    Cinv := Ci, Linv := transformInductance ⟨false, 1⟩ L, LinvB := 0, J := fun _ => EJ, Ps := fun _ => 0, Pb := fun _ => bias,
    Qbt := fun _ => 0, Qb := fun _ => 0, Pbi := fun _ => 0, kind := fun _ => .josephson,
    terms := fun i => branchTerms g (fun i j => if i = j then 1 else 0) ((edges g).get i),
    Q := fun _ => ⟨⟩, P := fun _ => ⟨⟩, flux := fun _ => ⟨⟩, D := fun _ => ⟨⟩, Ddag := fun _ => ⟨⟩, S := fun _ => ⟨⟩, Sdag := fun _ => ⟨⟩, u := u }
  let cfg : Fin (nodes g).length → NodeCfg := fun _ => ⟨t, .charge⟩
  let o : (i : Fin (nodes g).length) → NodeOps (cfg i).dim := fun _ => chargeBasis t 0 0 0 0
  have hst : Standard cfg := fun i => Or.inl rfl
  choose N hN using fun i => expandNode_standard hst i (o i)
  have hH : (hamiltonian (s.withNodes N)).isSome := by
    rw [C66_defined]
    intro i _
    show branchTerms g (fun i j => if i = j then 1 else 0) ((edges g).get i) ≠ []
    have hget : (edges g).get i = (0, 1, 1) := by
      have hm : ∀ e ∈ edges g, e = (0, 1, 1) := by rw [he]; simp
      exact hm _ (List.get_mem _ _)
    rw [hget]
    unfold branchTerms
    rw [hn]
    simp
  obtain ⟨H, hH⟩ := Option.isSome_iff_exists.1 hH
  refine ⟨C, L, Ci, s, cfg, N, o, H, by rw [hn]; rfl, by rw [he]; rfl, hC, hCi, ?_, hL, rfl, rfl, fun _ => ⟨rfl, rfl⟩, fun _ => rfl,
    fun _ => ⟨rfl, rfl⟩, fun i => (C66_bases t 0 0 0 0 0 0 0 0 0 0 0 0 0 0).1, hN, hH⟩
  intro M hM
  rw [hB] at hM
  have hM := (Except.ok.inj hM).symm
  subst hM
  have hz : Mat.block (fun _ _ => (0 : ℝ)) (edges g).length (edges g).length = 0 := rfl
  rw [hz]
  constructor <;> simp

end Verif.Props
