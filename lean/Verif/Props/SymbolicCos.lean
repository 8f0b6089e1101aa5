import Verif.Lemmas.SymbolicInd
import Mathlib.Algebra.Star.Module
import Mathlib.LinearAlgebra.Matrix.Kronecker
import Mathlib.LinearAlgebra.Matrix.ConjTranspose
import Mathlib.Analysis.SpecialFunctions.Trigonometric.Basic

/-!
# Properties of the cosine terms: C35 and C61
-/

namespace Verif.Props

open Verif Verif.Circuit Verif.Spec Verif.Sym

/-- A junction (or phase slip) with its energy, the phase of its bias, and the coordinates its phase is made of. -/
structure CosTerm where
  energy : ℝ
  bias : ℝ
  terms : List (ℝ × ℕ)

variable {A : Type} [Ring A] [StarRing A] [Algebra ℂ A] [StarModule ℂ A]

/-- The same as the code sees it. -/
noncomputable def CosTerm.data (A : Type) [Ring A] [Algebra ℂ A] (b : CosTerm) : BranchData ℝ A :=
  ⟨algebraMap ℂ A b.energy, algebraMap ℂ A (Complex.exp (Complex.I * b.bias)), algebraMap ℂ A (Complex.exp (-(Complex.I * b.bias))), b.terms⟩

/-- The sum of the cosine terms, as the code builds it from displacement operators. -/
noncomputable def cosineTerms (D Dd : ℕ → A) (bs : List CosTerm) : Option A :=
  branchSum (algebraMap ℂ A (1 / 2)) D Dd (bs.map (CosTerm.data A)) 0

/-- The phase that enters the cosine of a branch: coordinates with a positive coefficient count positively, the others negatively. -/
noncomputable def phaseOf (φ : ℕ → ℝ) (ts : List (ℝ × ℕ)) : ℝ := (ts.map fun p => if 0 < p.1 then φ p.2 else - φ p.2).sum

theorem dispProduct_mul (D Dd : ℕ → A) (flip : Bool) : ∀ (ts : List (ℝ × ℕ)) (acc : A),
    dispProduct D Dd flip ts acc = acc * dispProduct D Dd flip ts 1 := by
  intro ts
  induction ts with
  | nil => intro acc; simp [dispProduct]
  | cons p ts ih =>
    intro acc
    unfold dispProduct
    rw [ih (acc * _), ih (1 * _), one_mul, mul_assoc]

theorem dispProduct_cons (D Dd : ℕ → A) (flip : Bool) (p : ℝ × ℕ) (ts : List (ℝ × ℕ)) :
    dispProduct D Dd flip (p :: ts) 1 =
      (if flip then (if p.1 < 0 then D p.2 else Dd p.2) else (if 0 < p.1 then D p.2 else Dd p.2)) * dispProduct D Dd flip ts 1 := by
  conv_lhs => unfold dispProduct
  rw [dispProduct_mul, one_mul]

theorem commute_dispProduct (D Dd : ℕ → A) (flip : Bool) (x : A) : ∀ ts : List (ℝ × ℕ),
    (∀ p ∈ ts, Commute x (D p.2) ∧ Commute x (Dd p.2)) → Commute x (dispProduct D Dd flip ts 1) := by
  intro ts
  induction ts with
  | nil => intro _; exact Commute.one_right x
  | cons p ts ih =>
    intro h
    rw [dispProduct_cons]
    refine Commute.mul_right ?_ (ih fun q hq => h q (List.mem_cons_of_mem _ hq))
    obtain ⟨h1, h2⟩ := h p (by simp)
    split_ifs <;> assumption

/-- The two products are adjoint to each other. -/
theorem star_dispProduct (D Dd : ℕ → A) (hD : ∀ j, Dd j = star (D j))
    (hc : ∀ i j, i ≠ j → Commute (D i) (D j) ∧ Commute (D i) (Dd j)) : ∀ ts : List (ℝ × ℕ),
    (ts.map Prod.snd).Nodup → (∀ p ∈ ts, p.1 ≠ 0) → star (dispProduct D Dd false ts 1) = dispProduct D Dd true ts 1 := by
  have hDd : ∀ j, D j = star (Dd j) := fun j => by rw [hD, star_star]
  have hc' : ∀ i j, i ≠ j → Commute (Dd i) (Dd j) := by
    intro i j hij
    rw [hD i, hD j]
    exact (hc i j hij).1.star_star
  intro ts
  induction ts with
  | nil => intro _ _; simp [dispProduct]
  | cons p ts ih =>
    intro hn h0
    obtain ⟨n1, n2⟩ := List.nodup_cons.1 (by simpa using hn : (p.2 :: ts.map Prod.snd).Nodup)
    rw [dispProduct_cons, dispProduct_cons, star_mul, ih n2 fun q hq => h0 q (List.mem_cons_of_mem _ hq)]
    have hne : ∀ q ∈ ts, p.2 ≠ q.2 := fun q hq he => n1 (he ▸ List.mem_map.2 ⟨q, hq, rfl⟩)
    have hp0 := h0 p (by simp)
    simp only [Bool.false_eq_true, if_false, if_true]
    by_cases hp : 0 < p.1
    · rw [if_pos hp, if_neg (by linarith), ← hD]
      refine (commute_dispProduct D Dd true (Dd p.2) ts ?_).eq.symm
      intro q hq
      exact ⟨((hc q.2 p.2 (hne q hq).symm).2).symm, hc' _ _ (hne q hq)⟩
    · have hp' : p.1 < 0 := lt_of_le_of_ne (not_lt.1 hp) hp0
      rw [if_neg hp, if_pos hp', ← hDd]
      refine (commute_dispProduct D Dd true (D p.2) ts ?_).eq.symm
      intro q hq
      exact hc _ _ (hne q hq)

omit [StarRing A] [StarModule ℂ A] in
theorem branchSum_spec (half : A) (D Dd : ℕ → A) : ∀ (bs : List (BranchData ℝ A)) (acc : A),
    branchSum half D Dd bs acc = if ∀ b ∈ bs, b.terms ≠ [] then
      some (acc + (bs.map fun b => -(half * b.energy * (dispProduct D Dd false b.terms b.ep + dispProduct D Dd true b.terms b.em))).sum) else none := by
  intro bs
  induction bs with
  | nil => intro acc; simp [branchSum]
  | cons b bs ih =>
    intro acc
    unfold branchSum branchEnergy
    by_cases hb : b.terms = []
    · rw [if_pos (by simp [hb]), if_neg (by simp [hb])]
    · rw [if_neg (by simpa using hb)]
      simp only
      rw [ih]
      by_cases hall : ∀ b ∈ bs, b.terms ≠ []
      · rw [if_pos hall, if_pos (by simpa [hb] using hall)]
        simp [add_assoc]
      · rw [if_neg hall, if_neg (by simpa [hb] using hall)]

/-- **C35** The cosine terms can be built exactly when no branch lacks a coordinate (a branch from a node to itself raises an
`IndexError`). -/
theorem C35_defined (D Dd : ℕ → A) (bs : List CosTerm) : (cosineTerms D Dd bs).isSome ↔ ∀ b ∈ bs, b.terms ≠ [] := by
  unfold cosineTerms
  rw [branchSum_spec]
  have : (∀ b ∈ bs.map (CosTerm.data A), b.terms ≠ []) ↔ ∀ b ∈ bs, b.terms ≠ [] := by
    simp [CosTerm.data]
  rw [← this]
  by_cases h : ∀ b ∈ bs.map (CosTerm.data A), b.terms ≠ []
  · rw [if_pos h]; exact ⟨fun _ => h, fun _ => rfl⟩
  · rw [if_neg h]; exact ⟨fun hh => (by cases hh), fun hh => absurd hh h⟩

/-- **C35** The cosine terms are Hermitian: for every list of branches, energies, biases and signs, if the displacement operators of
different nodes commute with each other and with each other's adjoints.  (The operators need not be unitary: in the truncated charge
basis they are not.) -/
theorem C35_hermitian (D Dd : ℕ → A) (hD : ∀ j, Dd j = star (D j))
    (hc : ∀ i j, i ≠ j → Commute (D i) (D j) ∧ Commute (D i) (Dd j)) (bs : List CosTerm)
    (hn : ∀ b ∈ bs, (b.terms.map Prod.snd).Nodup ∧ ∀ p ∈ b.terms, p.1 ≠ 0) (H : A) (hH : cosineTerms D Dd bs = some H) :
    star H = H := by
  unfold cosineTerms at hH
  rw [branchSum_spec] at hH
  split_ifs at hH with hall
  rw [← Option.some.inj hH, zero_add, List.map_map]
  have key : ∀ b ∈ bs, star (((fun b : BranchData ℝ A => -(algebraMap ℂ A (1 / 2) * b.energy *
      (dispProduct D Dd false b.terms b.ep + dispProduct D Dd true b.terms b.em))) ∘ CosTerm.data A) b) =
      ((fun b : BranchData ℝ A => -(algebraMap ℂ A (1 / 2) * b.energy *
      (dispProduct D Dd false b.terms b.ep + dispProduct D Dd true b.terms b.em))) ∘ CosTerm.data A) b := by
    intro b hb
    simp only [Function.comp, CosTerm.data]
    have hst := star_dispProduct D Dd hD hc b.terms (hn b hb).1 (hn b hb).2
    have hst' : star (dispProduct D Dd true b.terms 1) = dispProduct D Dd false b.terms 1 := by rw [← hst, star_star]
    rw [dispProduct_mul D Dd false, dispProduct_mul D Dd true]
    rw [← map_mul]
    rw [star_neg, star_mul, star_add, star_mul, star_mul, hst, hst']
    simp only [← algebraMap_star_comm]
    rw [← Algebra.commutes, ← Algebra.commutes (star (Complex.exp (Complex.I * b.bias))), ← Algebra.commutes (star (Complex.exp (-(Complex.I * b.bias))))]
    have e1 : star ((1 / 2 : ℂ) * (b.energy : ℂ)) = (1 / 2 : ℂ) * (b.energy : ℂ) := by
      simp
    have e2 : star (Complex.exp (Complex.I * b.bias)) = Complex.exp (-(Complex.I * b.bias)) := by
      rw [Complex.star_def, ← Complex.exp_conj]; simp
    have e3 : star (Complex.exp (-(Complex.I * b.bias))) = Complex.exp (Complex.I * b.bias) := by
      rw [← e2, star_star]
    rw [e1, e2, e3, add_comm]
  have sumstar : ∀ (bs : List CosTerm) (f : CosTerm → A), (∀ b ∈ bs, star (f b) = f b) → star (bs.map f).sum = (bs.map f).sum := by
    intro bs f
    induction bs with
    | nil => intro _; simp
    | cons b bs ih =>
      intro h
      rw [List.map_cons, List.sum_cons, star_add, h b (by simp), ih fun c hc => h c (List.mem_cons_of_mem _ hc)]
  exact sumstar bs _ key

variable {V : Type} [AddCommGroup V] [Module ℂ V] [Module A V] [IsScalarTower ℂ A V]

omit [StarRing A] [StarModule ℂ A] in
theorem dispProduct_eigen (D Dd : ℕ → A) (φ : ℕ → ℝ) (v : V) (hv : ∀ j, D j • v = Complex.exp (Complex.I * φ j) • v)
    (hv' : ∀ j, Dd j • v = Complex.exp (-(Complex.I * φ j)) • v) : ∀ ts : List (ℝ × ℕ), (∀ p ∈ ts, p.1 ≠ 0) →
    dispProduct D Dd false ts 1 • v = Complex.exp (Complex.I * phaseOf φ ts) • v ∧
    dispProduct D Dd true ts 1 • v = Complex.exp (-(Complex.I * phaseOf φ ts)) • v := by
  haveI : SMulCommClass ℂ A V := IsScalarTower.to_smulCommClass
  haveI : SMulCommClass A ℂ V := IsScalarTower.to_smulCommClass'
  have mulA : ∀ (flip : Bool) (p : ℝ × ℕ) (ts : List (ℝ × ℕ)), dispProduct D Dd flip (p :: ts) 1 =
      (if flip then (if p.1 < 0 then D p.2 else Dd p.2) else (if 0 < p.1 then D p.2 else Dd p.2)) * dispProduct D Dd flip ts 1 := by
    have acc : ∀ (flip : Bool) (ts : List (ℝ × ℕ)) (acc : A), dispProduct D Dd flip ts acc = acc * dispProduct D Dd flip ts 1 := by
      intro flip ts
      induction ts with
      | nil => intro acc; simp [dispProduct]
      | cons p ts ih =>
        intro acc
        unfold dispProduct
        rw [ih (acc * _), ih (1 * _), one_mul, mul_assoc]
    intro flip p ts
    conv_lhs => unfold dispProduct
    rw [acc, one_mul]
  intro ts
  induction ts with
  | nil => intro _; simp [dispProduct, phaseOf]
  | cons p ts ih =>
    intro h0
    obtain ⟨h1, h2⟩ := ih fun q hq => h0 q (List.mem_cons_of_mem _ hq)
    have hp0 := h0 p (by simp)
    have hph : phaseOf φ (p :: ts) = (if 0 < p.1 then φ p.2 else - φ p.2) + phaseOf φ ts := by simp [phaseOf]
    rw [mulA, mulA, hph]
    simp only [Bool.false_eq_true, if_false, if_true]
    rw [mul_smul, mul_smul, h1, h2, smul_comm, smul_comm _ (Complex.exp _)]
    by_cases hp : 0 < p.1
    · simp only [if_pos hp, if_neg (not_lt.2 hp.le)]
      rw [hv, hv', smul_smul, smul_smul, ← Complex.exp_add, ← Complex.exp_add]
      constructor
      · congr 2; push_cast; ring
      · congr 2; push_cast; ring
    · have hp' : p.1 < 0 := lt_of_le_of_ne (not_lt.1 hp) hp0
      simp only [if_neg hp, if_pos hp']
      rw [hv, hv', smul_smul, smul_smul, ← Complex.exp_add, ← Complex.exp_add]
      constructor
      · congr 2; push_cast; ring
      · congr 2; push_cast; ring

/-- **C35** On simultaneous eigenstates of the displacement operators, with phases `φ_j`, the cosine terms are the number
`-Σ E cos(phase + bias)`. -/
theorem C35_cosine (D Dd : ℕ → A) (φ : ℕ → ℝ) (v : V) (hv : ∀ j, D j • v = Complex.exp (Complex.I * φ j) • v)
    (hv' : ∀ j, Dd j • v = Complex.exp (-(Complex.I * φ j)) • v) (bs : List CosTerm) (hn : ∀ b ∈ bs, ∀ p ∈ b.terms, p.1 ≠ 0)
    (H : A) (hH : cosineTerms D Dd bs = some H) :
    H • v = ((bs.map fun b => - b.energy * Real.cos (phaseOf φ b.terms + b.bias)).sum : ℂ) • v := by
  unfold cosineTerms at hH
  rw [branchSum_spec] at hH
  split_ifs at hH with hall
  rw [← Option.some.inj hH, zero_add, List.map_map]
  clear hH hall
  induction bs with
  | nil => simp
  | cons b bs ih =>
    have ih := ih fun c hc => hn c (List.mem_cons_of_mem _ hc)
    rw [List.map_cons, List.sum_cons, List.map_cons, List.sum_cons, Complex.ofReal_add, add_smul, add_smul, ih]
    congr 1
    obtain ⟨h1, h2⟩ := dispProduct_eigen D Dd φ v hv hv' b.terms (hn b (by simp))
    simp only [Function.comp, CosTerm.data]
    rw [dispProduct_mul D Dd false, dispProduct_mul D Dd true, neg_smul, ← map_mul, mul_smul, add_smul, mul_smul, mul_smul, h1, h2]
    simp only [algebraMap_smul]
    rw [smul_smul, smul_smul, ← add_smul, smul_smul, ← neg_smul]
    congr 1
    rw [← Complex.exp_add, ← Complex.exp_add, Complex.ofReal_mul, Complex.ofReal_cos, Complex.cos]
    push_cast
    have e1 : Complex.I * (b.bias : ℂ) + Complex.I * (phaseOf φ b.terms : ℂ) = ((phaseOf φ b.terms : ℂ) + (b.bias : ℂ)) * Complex.I := by ring
    have e2 : -(Complex.I * (b.bias : ℂ)) + -(Complex.I * (phaseOf φ b.terms : ℂ)) = -((phaseOf φ b.terms : ℂ) + (b.bias : ℂ)) * Complex.I := by ring
    rw [e1, e2]
    ring

/-- **C35** In the coordinates of the nodes (no transform) the phase in the cosine of a branch is the difference of the phases of its
ends, and the branch has coordinates exactly when it does not join a node to itself. -/
theorem C35_branch_phase (h : List Call) (g : CG) (hs : Settled h g) (e : ℕ × ℕ × ℕ) (he : e ∈ g.wc) (φ : ℕ → ℝ) (h0 : φ 0 = 0) :
    let ts := branchTerms g (fun i j => if i = j then (1 : ℝ) else 0) e
    phaseOf (fun j => φ ((nodes g).getD j 0)) ts = φ e.1 - φ e.2.1 ∧ (ts ≠ [] ↔ e.1 ≠ e.2.1) ∧
      (ts.map Prod.snd).Nodup ∧ ∀ p ∈ ts, p.1 = 1 ∨ p.1 = -1 := by
  intro ts
  obtain ⟨o, f⟩ := settled_facts hs
  have hw := f.inv.toWF
  have hnd := nodes_nodup hw
  obtain ⟨e1, e2⟩ := wc_ends hs he
  -- the coefficient of coordinate `j`
  let co : ℕ → ℝ := fun j => (if e.1 = 0 then 0 else if (nodes g).idxOf e.1 = j then 1 else 0) -
    (if e.2.1 = 0 then 0 else if (nodes g).idxOf e.2.1 = j then 1 else 0)
  have hts : ts = ((List.range (nodes g).length).map fun j => (co j, j)).filter fun p => p.1 ≠ 0 := rfl
  have hco : ∀ j (hj : j < (nodes g).length), co j = (if e.1 = (nodes g)[j] then 1 else 0) - (if e.2.1 = (nodes g)[j] then 1 else 0) := by
    intro j hj
    have hj0 : (nodes g)[j] ≠ 0 := ((mem_nodes hw _).1 (List.getElem_mem hj)).2
    have one : ∀ a : ℕ, a ∈ g.graph.nodes → (if a = 0 then (0 : ℝ) else if (nodes g).idxOf a = j then 1 else 0) = if a = (nodes g)[j] then 1 else 0 := by
      intro a ha
      by_cases ha0 : a = 0
      · rw [if_pos ha0, if_neg (fun hh => hj0 (Eq.trans (Eq.symm hh) ha0))]
      · rw [if_neg ha0]
        have hin : a ∈ nodes g := (mem_nodes hw a).2 ⟨ha, ha0⟩
        by_cases hidx : (nodes g).idxOf a = j
        · rw [if_pos hidx, if_pos]
          subst hidx; rw [List.getElem_idxOf]
        · rw [if_neg hidx, if_neg]
          intro hh
          apply hidx
          rw [hh]; exact List.Nodup.idxOf_getElem hnd j hj
    simp only [co]
    rw [one _ e1, one _ e2]
  have hvals : ∀ j, co j = 0 ∨ co j = 1 ∨ co j = -1 := by
    intro j
    simp only [co]
    split_ifs <;> simp
  refine ⟨?_, ?_, ?_, ?_⟩
  · have s1 : phaseOf (fun j => φ ((nodes g).getD j 0)) ts =
        ((List.range (nodes g).length).map fun j => co j * φ ((nodes g).getD j 0)).sum := by
      rw [hts]
      unfold phaseOf
      induction List.range (nodes g).length with
      | nil => simp
      | cons j l ih =>
        rw [List.map_cons, List.filter_cons, List.map_cons, List.sum_cons]
        rcases hvals j with hj | hj | hj
        · rw [if_neg (by simp [hj]), ih, hj]; simp
        · rw [if_pos (by simp [hj]), List.map_cons, List.sum_cons, ih, hj]; simp
        · rw [if_pos (by simp [hj]), List.map_cons, List.sum_cons, ih, hj]; norm_num
    rw [s1]
    have s2 := branchFluxes_eq hs φ h0 ⟨(edges g).idxOf e, List.idxOf_lt_length_iff.2 he⟩
    have hget : (edges g).get ⟨(edges g).idxOf e, List.idxOf_lt_length_iff.2 he⟩ = e := List.getElem_idxOf _
    rw [hget] at s2
    rw [← s2]
    unfold branchFluxes Matrix.mulVec dotProduct
    simp only [Matrix.transpose_apply]
    have s3 : ∑ i : Fin (nodes g).length, Mat.block (K := ℝ) (incidence g) (nodes g).length (edges g).length i ⟨(edges g).idxOf e, List.idxOf_lt_length_iff.2 he⟩ *
        φ ((nodes g).get i) = ∑ i : Fin (nodes g).length, (fun j => co j * φ ((nodes g).getD j 0)) i := by
      apply Finset.sum_congr rfl
      intro i _
      show _ = co i * φ ((nodes g).getD i 0)
      rw [incidence_eq, hget, hco i i.2]
      simp
    rw [s3, Fin.sum_univ_eq_sum_range (fun j => co j * φ ((nodes g).getD j 0))]
    induction (nodes g).length with
    | zero => simp
    | succ n ih => rw [List.range_succ, Finset.sum_range_succ, List.map_append, List.sum_append, ih]; simp
  · constructor
    · intro hne heq
      apply hne
      rw [hts, List.filter_eq_nil_iff]
      intro p hp
      obtain ⟨j, _, rfl⟩ := List.mem_map.1 hp
      simp [co, heq]
    · intro hne hnil
      have hz : ∀ j, j < (nodes g).length → co j = 0 := by
        intro j hj
        by_contra hc
        have : (co j, j) ∈ ts := by
          rw [hts, List.mem_filter]
          exact ⟨List.mem_map.2 ⟨j, List.mem_range.2 hj, rfl⟩, by simpa using hc⟩
        rw [hnil] at this; cases this
      have pick : ∀ a, a ∈ g.graph.nodes → a ≠ 0 → ∃ j, ∃ hj : j < (nodes g).length, (nodes g)[j] = a := by
        intro a ha ha0
        exact List.getElem_of_mem ((mem_nodes hw a).2 ⟨ha, ha0⟩)
      by_cases h1 : e.1 = 0
      · obtain ⟨j, hj, hja⟩ := pick e.2.1 e2 (fun hh => hne (h1.trans hh.symm))
        have := hz j hj
        rw [hco j hj, hja, if_pos rfl, if_neg hne] at this
        norm_num at this
      · obtain ⟨j, hj, hja⟩ := pick e.1 e1 h1
        have := hz j hj
        rw [hco j hj, hja, if_pos rfl, if_neg (fun hh => hne hh.symm)] at this
        norm_num at this
  · rw [hts]
    have hsub : ((((List.range (nodes g).length).map fun j => (co j, j)).filter fun p => p.1 ≠ 0).map Prod.snd).Sublist
        (((List.range (nodes g).length).map fun j => (co j, j)).map Prod.snd) := List.Sublist.map _ List.filter_sublist
    refine hsub.nodup ?_
    rw [List.map_map]
    have : (Prod.snd ∘ fun j => (co j, j)) = id := rfl
    rw [this, List.map_id]
    exact List.nodup_range
  · intro p hp
    rw [hts, List.mem_filter] at hp
    obtain ⟨hp1, hp2⟩ := hp
    obtain ⟨j, _, rfl⟩ := List.mem_map.1 hp1
    rcases hvals j with hj | hj | hj
    · simp [hj] at hp2
    · exact Or.inl hj
    · exact Or.inr hj

/-! ### C61: transformed coordinates -/

/-- The phase the code gives a branch in transformed coordinates `x`: each coordinate moves by `cooper_disp`, with the sign of its
coefficient. -/
noncomputable def codePhase (R : Mat ℝ) (order : List ℕ) (ts : List (ℝ × ℕ)) (x : ℕ → ℝ) : ℝ :=
  phaseOf (fun j => (cooperDisp R order j).getD 0 * x j) ts

/-- **C61** (partial) If every coordinate of the branch has a coefficient as large as the displacement the code computed for it, then
the phase of the branch is the right combination `Σ c_j x_j` of the transformed coordinates.  Missing: every other transform
(`C61_false`). -/
theorem C61_partial (R : Mat ℝ) (order : List ℕ) (ts : List (ℝ × ℕ)) (x : ℕ → ℝ)
    (hd : ∀ p ∈ ts, cooperDisp R order p.2 = some |p.1|) : codePhase R order ts x = (ts.map fun p => p.1 * x p.2).sum := by
  unfold codePhase phaseOf
  congr 1
  apply List.map_congr_left
  intro p hp
  simp only [hd p hp, Option.getD_some]
  split_ifs with h
  · rw [abs_of_pos h]
  · rw [abs_of_nonpos (not_lt.1 h)]; ring

/-- **C61** (partial) In particular without a transform: the phase of a branch is the difference of the coordinates of its ends. -/
theorem C61_identity_partial (h : List Call) (g : CG) (hs : Settled h g) (e : ℕ × ℕ × ℕ) (he : e ∈ g.wc) (φ : ℕ → ℝ) (h0 : φ 0 = 0)
    (order : List ℕ) (ho : ∀ j < (nodes g).length, j ∈ order) :
    codePhase (fun i j => if i = j then 1 else 0) order (branchTerms g (fun i j => if i = j then (1 : ℝ) else 0) e)
      (fun j => φ ((nodes g).getD j 0)) = φ e.1 - φ e.2.1 := by
  obtain ⟨h1, _, _, h4⟩ := C35_branch_phase h g hs e he φ h0
  rw [← h1]
  unfold codePhase phaseOf
  congr 1
  apply List.map_congr_left
  intro p hp
  have hj : p.2 < (nodes g).length := by
    unfold branchTerms at hp
    obtain ⟨hp, _⟩ := List.mem_filter.1 hp
    obtain ⟨j, hj, rfl⟩ := List.mem_map.1 hp
    exact List.mem_range.1 hj
  have hc : cooperDisp (fun i j => if i = j then (1 : ℝ) else 0) order p.2 = some 1 := by
    unfold cooperDisp
    have hfind : ∃ c, (order.map fun j => if p.2 = j then (1 : ℝ) else 0).find? (fun c => c ≠ 0) = some c := by
      rw [← Option.isSome_iff_exists, List.find?_isSome]
      exact ⟨1, List.mem_map.2 ⟨p.2, ho _ hj, by simp⟩, by simp⟩
    obtain ⟨c, hc⟩ := hfind
    rw [hc]
    have hne := List.find?_some hc
    obtain ⟨j, _, hjc⟩ := List.mem_map.1 (List.mem_of_find?_eq_some hc)
    by_cases hpj : p.2 = j
    · rw [if_pos hpj] at hjc
      rw [← hjc]; simp
    · rw [if_neg hpj] at hjc
      simp [← hjc] at hne
  simp [hc]

/-- One node with a junction to ground. -/
def oneJunction : List Call := [.addBranch Orc.id 0 1 "C1", .addBranch Orc.id 0 1 "I1"]

/-- **C61** is false in general: one junction from ground to node 1 and the coordinate `x = 2 φ`.  The phase of the junction is `- x / 2`
but the code gives `- 2 x`. -/
theorem C61_false : edges (run {} oneJunction) = [(0, 1, 1)] ∧ nodes (run {} oneJunction) = [1] ∧
    ∃ (R Rinv : Mat ℝ), R 0 0 * Rinv 0 0 = 1 ∧ ∀ x : ℕ → ℝ,
      codePhase R [0] (branchTerms (run {} oneJunction) Rinv (0, 1, 1)) x = - (2 * x 0) ∧
      ((branchTerms (run {} oneJunction) Rinv (0, 1, 1)).map fun p => p.1 * x p.2).sum = - (x 0 / 2) := by
  have hn : nodes (run {} oneJunction) = [1] := by decide +kernel
  refine ⟨by decide +kernel, hn, fun _ _ => 2, fun _ _ => 1 / 2, by norm_num, ?_⟩
  intro x
  have ht : branchTerms (run {} oneJunction) (fun _ _ => (1 / 2 : ℝ)) (0, 1, 1) = [(-(1 / 2), 0)] := by
    unfold branchTerms
    rw [hn]
    simp
  rw [ht]
  constructor
  · simp [codePhase, phaseOf, cooperDisp]
  · simp; ring

/-! ### Concrete cases -/

/-- The hypotheses of `C35_hermitian` hold for operators on two spins. -/
example : ∃ (D Dd : ℕ → Matrix (Fin 2 × Fin 2) (Fin 2 × Fin 2) ℂ), (∀ j, Dd j = star (D j)) ∧
    (∀ i j, i ≠ j → Commute (D i) (D j) ∧ Commute (D i) (Dd j)) ∧ D 0 ≠ D 1 ∧ D 0 ≠ Dd 0 ∧
    ∀ E β : ℝ, (cosineTerms D Dd [⟨E, β, [(1, 0), (-1, 1)]⟩]).isSome := by
  open Kronecker Matrix in
  let s : Matrix (Fin 2) (Fin 2) ℂ := !![0, 1; 0, 0]
  let D : ℕ → Matrix (Fin 2 × Fin 2) (Fin 2 × Fin 2) ℂ := fun j =>
    if j = 0 then s ⊗ₖ (1 : Matrix (Fin 2) (Fin 2) ℂ) else if j = 1 then (1 : Matrix (Fin 2) (Fin 2) ℂ) ⊗ₖ s else 0
  refine ⟨D, fun j => star (D j), fun _ => rfl, ?_, ?_, ?_, ?_⟩
  · have key : ∀ a b : Matrix (Fin 2) (Fin 2) ℂ, Commute (a ⊗ₖ (1 : Matrix (Fin 2) (Fin 2) ℂ)) ((1 : Matrix (Fin 2) (Fin 2) ℂ) ⊗ₖ b) := by
      intro a b
      unfold Commute SemiconjBy
      rw [← Matrix.mul_kronecker_mul, ← Matrix.mul_kronecker_mul]; simp
    have st1 : star (s ⊗ₖ (1 : Matrix (Fin 2) (Fin 2) ℂ)) = star s ⊗ₖ (1 : Matrix (Fin 2) (Fin 2) ℂ) := by
      rw [Matrix.star_eq_conjTranspose, Matrix.conjTranspose_kronecker]; simp [Matrix.star_eq_conjTranspose]
    have st2 : star ((1 : Matrix (Fin 2) (Fin 2) ℂ) ⊗ₖ s) = (1 : Matrix (Fin 2) (Fin 2) ℂ) ⊗ₖ star s := by
      rw [Matrix.star_eq_conjTranspose, Matrix.conjTranspose_kronecker]; simp [Matrix.star_eq_conjTranspose]
    intro i j hij
    simp only [D]
    by_cases hi : i = 0
    · by_cases hj : j = 1
      · subst hi hj; simp only [if_true, one_ne_zero, if_false]; rw [st2]; exact ⟨key _ _, key _ _⟩
      · rw [if_neg (show j ≠ 0 from fun hh => hij (hi.trans hh.symm)), if_neg hj]; simp
    · by_cases hi1 : i = 1
      · by_cases hj : j = 0
        · subst hi1 hj; simp only [if_true, one_ne_zero, if_false]; rw [st1]; exact ⟨(key _ _).symm, (key _ _).symm⟩
        · rw [if_neg hj, if_neg (show j ≠ 1 from fun hh => hij (hi1.trans hh.symm))]; simp
      · rw [if_neg hi, if_neg hi1]; simp
  · intro hh
    have := congrFun (congrFun hh (0, 0)) (1, 0)
    simp [D, s, Matrix.kroneckerMap_apply] at this
  · intro hh
    have := congrFun (congrFun hh (0, 0)) (1, 0)
    simp [D, s, Matrix.kroneckerMap_apply, Matrix.star_eq_conjTranspose] at this
  · intro E β
    rw [C35_defined]; simp

/-- The hypotheses of `C35_cosine`: phases as numbers. -/
example (φ : ℕ → ℝ) (E β : ℝ) : ∃ H : ℂ, cosineTerms (fun j => Complex.exp (Complex.I * φ j)) (fun j => Complex.exp (-(Complex.I * φ j)))
    [⟨E, β, [(1, 0), (-1, 1)]⟩] = some H ∧ H = - E * Real.cos (φ 0 - φ 1 + β) := by
  have hd := (C35_defined (fun j => Complex.exp (Complex.I * φ j)) (fun j => Complex.exp (-(Complex.I * φ j)))
    [⟨E, β, [(1, 0), (-1, 1)]⟩]).2 (by simp)
  obtain ⟨H, hH⟩ := Option.isSome_iff_exists.1 hd
  refine ⟨H, hH, ?_⟩
  have := C35_cosine (V := ℂ) (fun j => Complex.exp (Complex.I * φ j)) (fun j => Complex.exp (-(Complex.I * φ j))) φ 1
    (fun _ => rfl) (fun _ => rfl) _ (by rintro b hb p hp; simp at hb; subst hb; simp at hp; rcases hp with rfl | rfl <;> norm_num) H hH
  have h10 : ¬ (1 : ℝ) < 0 := by norm_num
  simpa [phaseOf, sub_eq_add_neg, h10] using this

/-- A branch of the kind `C35_branch_phase` speaks of. -/
example : Settled oneJunction (run {} oneJunction) ∧ (0, 1, 1) ∈ (run {} oneJunction).wc :=
  ⟨settled_of_list orcId_ok [(0, 1, "C1")] (0, 1, "I1") (by decide +kernel), by decide +kernel⟩

end Verif.Props
