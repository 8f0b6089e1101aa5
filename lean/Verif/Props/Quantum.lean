import Verif.Lemmas.Symbols
import Verif.Props.SymbolicBias
import Verif.Props.SymbolicCos
import Verif.Props.Potential
import Verif.Props.Assembly
import Verif.Props.Classical

/-!
# Properties of the symbolic quantum Hamiltonian: C94
-/

namespace Verif.Props

open Verif Verif.Circuit Verif.Spec Verif.Sym Verif.Num Matrix Complex

/-! ### Substituting operators for the symbols -/

/-- Substituting operators for the symbols of an expression. -/
noncomputable abbrev subst {A : Type} [Ring A] [Algebra ℂ A] (f : Symb → A) : QExpr →ₐ[ℂ] A := FreeAlgebra.lift ℂ f

/-- The operators that the substitution `f` gives to the symbols of node `n` are those of the coordinate. -/
def SubstNode {n : ℕ} {cfg : Fin n → NodeCfg} (f : Symb → BigOp cfg) (d : Dofs) (N : BigNode cfg) : Prop :=
  f d.flux = N.P ∧ f d.charge = N.Q ∧ f d.D = N.D ∧ f d.Ddag = N.Ddag ∧ f d.S = N.S ∧ f d.Sdag = N.Sdag

section hom

variable {A B : Type} [Ring A] [Algebra ℂ A] [Ring B] [Algebra ℂ B] (φ : A →ₐ[ℂ] B)

theorem hom_num (x : ℝ) : φ (num A x) = num B x := φ.commutes _

theorem hom_quadOp {n : ℕ} (M : Matrix (Fin n) (Fin n) ℝ) (x : Fin n → A) :
    φ (quadOp (num A) M x) = quadOp (num B) M fun i => φ (x i) := by
  unfold quadOp
  simp [map_sum, map_mul, hom_num]

theorem hom_dispProduct (D Dd : ℕ → A) (fl : Bool) : ∀ (l : List (ℝ × ℕ)) (acc : A),
    φ (dispProduct D Dd fl l acc) = dispProduct (fun j => φ (D j)) (fun j => φ (Dd j)) fl l (φ acc) := by
  intro l
  induction l with
  | nil => intro acc; rfl
  | cons p l ih =>
    intro acc
    unfold dispProduct
    rw [ih, map_mul]
    congr 2
    split_ifs <;> rfl

omit [Algebra ℂ B] in
theorem sum_filter_zero {ι : Type} (p : ι → Bool) (F : ι → B) : ∀ l : List ι, (∀ i ∈ l, p i = false → F i = 0) → ((l.filter p).map F).sum = (l.map F).sum := by
  intro l
  induction l with
  | nil => intro _; rfl
  | cons i l ih =>
    intro h
    have := ih fun j hj => h j (List.mem_cons_of_mem _ hj)
    by_cases hp : p i = true
    · rw [List.filter_cons_of_pos hp, List.map_cons, List.sum_cons, this, List.map_cons, List.sum_cons]
    · rw [List.filter_cons_of_neg hp, this, List.map_cons, List.sum_cons, h i (by simp) (by simpa using hp), zero_add]

theorem hom_branchSum {b : ℕ} (p q : Fin b → Bool) (E : Fin b → ℝ) (hpq : ∀ i, q i = true → p i = true) (hq : ∀ i, q i = false → E i = 0)
    (terms : Fin b → List (ℝ × ℕ)) (ep em : Fin b → A) (D Dd : ℕ → A) (x : A)
    (h : branchSum (num A (1 / 2)) D Dd (((List.finRange b).filter p).map fun i => ⟨num A (E i), ep i, em i, terms i⟩) 0 = some x) :
    branchSum (num B (1 / 2)) (fun j => φ (D j)) (fun j => φ (Dd j))
      (((List.finRange b).filter q).map fun i => ⟨num B (E i), φ (ep i), φ (em i), terms i⟩) 0 = some (φ x) := by
  rw [branchSum_spec] at h ⊢
  split_ifs at h with h1
  have h2 : ∀ i ∈ (List.finRange b).filter p, terms i ≠ [] := fun i hi => h1 _ (List.mem_map.2 ⟨i, hi, rfl⟩)
  rw [if_pos]
  · rw [← Option.some.inj h, zero_add, zero_add, List.map_map, List.map_map, map_list_sum, List.map_map]
    congr 1
    rw [sum_filter_zero q, sum_filter_zero p]
    · congr 1
      refine List.map_congr_left fun i _ => ?_
      simp only [Function.comp_apply, map_neg, map_mul, map_add, hom_num, hom_dispProduct]
    · intro i _ hp
      have : q i = false := by
        cases hqi : q i with
        | false => rfl
        | true => rw [hpq i hqi] at hp; cases hp
      simp only [Function.comp_apply, map_neg, map_mul, map_add, hom_num, hom_dispProduct, hq i this]
      simp
    · intro i _ hqi
      simp only [Function.comp_apply, hq i hqi]
      simp
  · intro y hy
    obtain ⟨i, hi, rfl⟩ := List.mem_map.1 hy
    exact h2 i (List.mem_filter.2 ⟨List.mem_finRange _, hpq i (List.mem_filter.1 hi).2⟩)

end hom

/-! ### C94 -/

theorem josephson_nonzero {g : CG} {val : String → ℝ} {i : Fin (edges g).length} (h : josephsonVector val g i ≠ 0) :
    ((g.cmap.get? ((edges g).get i)).bind pre) = some 'I' := by
  unfold josephsonVector at h
  rw [List.getElem?_eq_getElem i.2] at h
  simp only at h
  rw [List.get_eq_getElem]
  cases hc : g.cmap.get? (edges g)[(i : ℕ)] with
  | none => rw [hc] at h; exact absurd rfl h
  | some c =>
    rw [hc] at h
    simp only at h
    split_ifs at h with hp
    · exact hp
    · exact absurd rfl h

theorem slip_nonzero {g : CG} {val : String → ℝ} {i : Fin (edges g).length} (h : phaseSlipVector val g i ≠ 0) :
    ((g.cmap.get? ((edges g).get i)).bind pre) = some 'V' := by
  unfold phaseSlipVector at h
  rw [List.getElem?_eq_getElem i.2] at h
  simp only at h
  rw [List.get_eq_getElem]
  cases hc : g.cmap.get? (edges g)[(i : ℕ)] with
  | none => rw [hc] at h; exact absurd rfl h
  | some c =>
    rw [hc] at h
    simp only at h
    split_ifs at h with hp
    · exact hp
    · exact absurd rfl h

theorem redBias_eq {g : CG} {b : Biases} (hb : b.red = b.flux) {flux red : String → ℝ} (hr : ∀ s, red s = 2 * Real.pi * flux s) (i : ℕ) :
    redBiasVector red g b i = 2 * Real.pi * fluxBiasVector flux g b i := by
  unfold redBiasVector fluxBiasVector biasVal
  rw [hb]
  cases (edges g)[i]? with
  | none => simp
  | some e =>
    simp only
    split_ifs
    · cases b.flux.get? e with
      | none => simp
      | some y => cases y with
        | none => simp
        | some y => exact hr y
    · simp

theorem chargeBias_scale {g : CG} {q redq : String → ℝ} (hr : ∀ s, redq s = 2 * Real.pi * q s) (i : ℕ) :
    chargeBiasVector redq g i = 2 * Real.pi * chargeBiasVector q g i := by
  unfold chargeBiasVector
  split
  · split
    · exact hr _
    · simp
  · simp

theorem subst_dofAt {g : CG} {p : DofPrefixes} {A : Type} [Ring A] [Algebra ℂ A] (f : Symb → A) (sel : Dofs → Symb) (j : ℕ) :
    subst f (dofAt p g sel j) = if h : j < (nodes g).length then f (sel (nodeDofs p ((nodes g).get ⟨j, h⟩))) else 0 := by
  unfold dofAt
  by_cases h : j < (nodes g).length
  · rw [List.getElem?_eq_getElem h, dif_pos h]
    exact FreeAlgebra.lift_ι_apply _ _
  · rw [List.getElem?_eq_none (not_lt.1 h), dif_neg h]
    exact map_zero _

/-- **C94** Whatever operators are put in for the symbols: if the symbolic Hamiltonian can be written, the numerical one is built, and it is the
sum of the four symbolic energies with the operators put in, each multiplied by its unit prefactor.  The reduced biases are the
biases in units of the flux quantum and the Cooper pair, times 2π. -/
theorem C94_terms (p : DofPrefixes) (g : CG) (b₀ : Biases) (hb : createFluxBiases g = .ok b₀) (ms : List (Edge × Edge)) (val : String → ℝ)
    (x : BiasVals) (redq : String → ℝ) (hred : ∀ s, x.red s = 2 * Real.pi * x.flux s) (hredq : ∀ s, redq s = 2 * Real.pi * x.charge s)
    (t : Transform ℝ (nodes g).length)
    (pinv : Matrix (Fin (edges g).length) (Fin (edges g).length) ℝ → Matrix (Fin (edges g).length) (Fin (edges g).length) ℝ) (u : Prefs)
    (s : Sys PUnit (nodes g).length (edges g).length) (hs : assemble g (moves g b₀ ms) val x.flux x.charge t pinv u = .ok s)
    (E : QuantumTerms) (hE : quantumTerms p g (moves g b₀ ms) val x redq s.Cinv s.Linv t.R = some E)
    (cfg : Fin (nodes g).length → NodeCfg) (N : Fin (nodes g).length → BigNode cfg) (f : Symb → BigOp cfg)
    (hf : ∀ i, SubstNode f (nodeDofs p ((nodes g).get i)) (N i)) :
    hamiltonian (s.withNodes N) = some (u.Ec • subst f E.charging + u.El • subst f E.flux + u.Ej • subst f E.josephson + u.Ep • subst f E.slip) := by
  set b := moves g b₀ ms with hbd
  have hbr : b.red = b.flux := (moves_inv (create_inv hb) ms).1
  unfold quantumTerms at hE
  simp only at hE
  split at hE
  · cases hE
  rename_i Xj hj
  split at hE
  · cases hE
  rename_i Xp hp
  cases hE
  unfold assemble at hs
  split at hs
  · cases hs
  split at hs
  · cases hs
  split at hs
  · cases hs
  cases hs
  have sel : ∀ (F : Dofs → Symb) (G : BigNode cfg → BigOp cfg), (∀ i, f (F (nodeDofs p ((nodes g).get i))) = G (N i)) →
      (fun j => subst f (dofAt p g F j)) = fun j => if h : j < (nodes g).length then G (N ⟨j, h⟩) else 0 := by
    intro F G hFG
    funext j
    rw [subst_dofAt]
    split_ifs with h
    · exact hFG _
    · rfl
  have hJ := hom_branchSum (subst f) (fun i => decide (((g.cmap.get? ((edges g).get i)).bind pre) = some 'I'))
    (fun i => decide (josephsonVector val g i ≠ 0)) (fun i => josephsonVector val g i) (fun i h => by simpa using josephson_nonzero (by simpa using h))
    (fun i h => by simpa using h) _ (fun i => phaseExp (redBiasVector x.red g b i)) (fun i => phaseExp (-(redBiasVector x.red g b i))) _ _ _ hj
  have hP := hom_branchSum (subst f) (fun i => decide (((g.cmap.get? ((edges g).get i)).bind pre) = some 'V'))
    (fun i => decide (phaseSlipVector val g i ≠ 0)) (fun i => phaseSlipVector val g i) (fun i h => by simpa using slip_nonzero (by simpa using h))
    (fun i h => by simpa using h) _ _ _ _ _ _ hp
  rw [sel Dofs.D BigNode.D fun i => (hf i).2.2.1, sel Dofs.Ddag BigNode.Ddag fun i => (hf i).2.2.2.1] at hJ
  rw [sel Dofs.S BigNode.S fun i => (hf i).2.2.2.2.1, sel Dofs.Sdag BigNode.Sdag fun i => (hf i).2.2.2.2.2] at hP
  have hexp : ∀ y z : ℝ, y = 2 * Real.pi * z → subst f (phaseExp y) = expTau (BigOp cfg) z := by
    intro y z hyz
    unfold phaseExp expTau
    rw [AlgHom.commutes, hyz]
    congr 2
    push_cast
    ring
  have hq : ∀ i, ((Mat.block (incidence (K := ℝ) g) (nodes g).length (edges g).length).transpose.mulVec fun i => chargeBiasVector redq g i) i =
      2 * Real.pi * ((Mat.block (incidence (K := ℝ) g) (nodes g).length (edges g).length).transpose.mulVec fun i => chargeBiasVector x.charge g i) i := by
    intro i
    simp only [mulVec, dotProduct, Finset.mul_sum]
    refine Finset.sum_congr rfl fun k _ => ?_
    rw [chargeBias_scale hredq]
    ring
  have hr : ∀ i : Fin (edges g).length, redBiasVector x.red g b i = 2 * Real.pi * fluxBiasVector x.flux g b i := fun i => redBias_eq hbr hred i
  simp only [fun i : Fin (edges g).length => hexp _ _ (hr i), fun i : Fin (edges g).length => hexp (-(redBiasVector x.red g b i)) (-(fluxBiasVector x.flux g b i)) (by rw [hr]; ring)] at hJ
  have hqn : ∀ i, subst f (phaseExp (-((Mat.block (incidence (K := ℝ) g) (nodes g).length (edges g).length).transpose.mulVec
      fun i => chargeBiasVector redq g i) i)) = expTau (BigOp cfg) (-((Mat.block (incidence (K := ℝ) g) (nodes g).length
        (edges g).length).transpose.mulVec fun i => chargeBiasVector x.charge g i) i) := fun i => hexp _ _ (by rw [hq]; ring)
  simp only [fun i => hexp _ _ (hq i), hqn] at hP
  unfold hamiltonian
  split
  · rename_i h0
    exact absurd (h0.symm.trans hJ) (by simp)
  rename_i Hj h0
  cases h0.symm.trans hJ
  split
  · rename_i h0
    exact absurd (h0.symm.trans hP) (by simp)
  rename_i Hp h0
  cases h0.symm.trans hP
  congr 1
  have hQ : ∀ i : Fin (nodes g).length, subst f (dofAt p g Dofs.charge i) = (N i).Q := fun i => by
    rw [subst_dofAt, dif_pos i.2]; exact (hf i).2.1
  have hF : ∀ i : Fin (nodes g).length, subst f (dofAt p g Dofs.flux i) = (N i).P := fun i => by
    rw [subst_dofAt, dif_pos i.2]; exact (hf i).1
  have hsm : ∀ (r : ℝ) (X : BigOp cfg), r • X = num (BigOp cfg) r * X := fun r X => by
    rw [show num (BigOp cfg) r = algebraMap ℂ (BigOp cfg) (r : ℂ) from rfl, ← Algebra.smul_def]
    rfl
  unfold linearPart
  simp only [hsm, map_mul, map_add, hom_num, hom_quadOp, hQ, hF, mul_assoc]
  rfl

/-- **C94** With unit prefactors 1 the numerical Hamiltonian is the printed one with the operators put in. -/
theorem C94_printed (p : DofPrefixes) (g : CG) (b₀ : Biases) (hb : createFluxBiases g = .ok b₀) (ms : List (Edge × Edge)) (val : String → ℝ)
    (x : BiasVals) (redq : String → ℝ) (hred : ∀ s, x.red s = 2 * Real.pi * x.flux s) (hredq : ∀ s, redq s = 2 * Real.pi * x.charge s)
    (t : Transform ℝ (nodes g).length)
    (pinv : Matrix (Fin (edges g).length) (Fin (edges g).length) ℝ → Matrix (Fin (edges g).length) (Fin (edges g).length) ℝ) (u : Prefs)
    (hu : u.Ec = 1 ∧ u.El = 1 ∧ u.Ej = 1 ∧ u.Ep = 1)
    (s : Sys PUnit (nodes g).length (edges g).length) (hs : assemble g (moves g b₀ ms) val x.flux x.charge t pinv u = .ok s)
    (E : QuantumTerms) (hE : quantumTerms p g (moves g b₀ ms) val x redq s.Cinv s.Linv t.R = some E)
    (cfg : Fin (nodes g).length → NodeCfg) (N : Fin (nodes g).length → BigNode cfg) (f : Symb → BigOp cfg)
    (hf : ∀ i, SubstNode f (nodeDofs p ((nodes g).get i)) (N i)) : hamiltonian (s.withNodes N) = some (subst f E.hamiltonian) := by
  rw [C94_terms p g b₀ hb ms val x redq hred hredq t pinv u s hs E hE cfg N f hf, hu.1, hu.2.1, hu.2.2.1, hu.2.2.2]
  simp only [one_smul, QuantumTerms.hamiltonian, map_add]

/-- The row of a node in the inverse transform; the ground has a row of zeros. -/
theorem row_inj {h : List Call} {g : CG} (hs : Settled h g) (R : Matrix (Fin (nodes g).length) (Fin (nodes g).length) ℝ) (hR : R.det ≠ 0)
    {e : Edge} (he : e ∈ edges g) :
    branchTerms g (fun a j => if h : a < (nodes g).length ∧ j < (nodes g).length then R⁻¹ ⟨a, h.1⟩ ⟨j, h.2⟩ else 0) e = [] ↔ e.1 = e.2.1 := by
  have hw : g.graph.WF := by obtain ⟨o, f⟩ := Circuit.settled_facts hs; exact f.inv.toWF
  obtain ⟨w1, w2⟩ := wc_ends hs he
  unfold branchTerms
  rw [List.filter_eq_nil_iff]
  simp only [List.mem_map, List.mem_range, decide_eq_true_eq, not_not, ne_eq]
  constructor
  · intro hz
    set row : ℕ → Fin (nodes g).length → ℝ := fun v j => if v = 0 then 0 else
      if h : (nodes g).idxOf v < (nodes g).length ∧ (j : ℕ) < (nodes g).length then R⁻¹ ⟨(nodes g).idxOf v, h.1⟩ ⟨j, h.2⟩ else 0 with hrow
    have heq : row e.1 = row e.2.1 := by
      funext j
      have := hz _ ⟨(j : ℕ), j.2, rfl⟩
      simp only [hrow]
      linarith [this]
    have hmul : ∀ v ∈ g.graph.nodes, ∀ k : Fin (nodes g).length, (row v ᵥ* R) k = if v ≠ 0 ∧ (nodes g).idxOf v = k then 1 else 0 := by
      intro v hv k
      by_cases hv0 : v = 0
      · have : row v = 0 := by funext j; simp [hrow, hv0]
        rw [this, Matrix.zero_vecMul, if_neg (fun hh => hh.1 hv0)]
        rfl
      · have hlt : (nodes g).idxOf v < (nodes g).length := List.idxOf_lt_length_iff.2 ((mem_nodes hw v).2 ⟨hv, hv0⟩)
        have : row v = fun j => R⁻¹ ⟨(nodes g).idxOf v, hlt⟩ j := by
          funext j
          simp only [hrow]
          rw [if_neg hv0, dif_pos ⟨hlt, j.2⟩]
        rw [this]
        have hm : (fun j => R⁻¹ ⟨(nodes g).idxOf v, hlt⟩ j) ᵥ* R = (R⁻¹ * R) ⟨(nodes g).idxOf v, hlt⟩ := rfl
        rw [hm, Matrix.nonsing_inv_mul _ (isUnit_iff_ne_zero.2 hR), Matrix.one_apply]
        congr 1
        simp [Fin.ext_iff, hv0]
    by_contra hne
    have hall : ∀ k : Fin (nodes g).length, (if e.1 ≠ 0 ∧ (nodes g).idxOf e.1 = k then (1 : ℝ) else 0) = if e.2.1 ≠ 0 ∧ (nodes g).idxOf e.2.1 = k then 1 else 0 := by
      intro k
      rw [← hmul _ w1, ← hmul _ w2, heq]
    have key : ∀ v w : ℕ, v ∈ g.graph.nodes → v ≠ 0 → v ≠ w → (∀ k : Fin (nodes g).length, (if v ≠ 0 ∧ (nodes g).idxOf v = k then (1 : ℝ) else 0) =
        if w ≠ 0 ∧ (nodes g).idxOf w = k then 1 else 0) → False := by
      intro v w hv hv0 hvw hk
      have hm := (mem_nodes hw v).2 ⟨hv, hv0⟩
      have hlt : (nodes g).idxOf v < (nodes g).length := List.idxOf_lt_length_iff.2 hm
      have := hk ⟨_, hlt⟩
      rw [if_pos ⟨hv0, rfl⟩] at this
      split_ifs at this with h2
      · exact hvw ((List.idxOf_inj hm).1 h2.2.symm)
      · norm_num at this
    by_cases h1 : e.1 = 0
    · exact key e.2.1 e.1 w2 (fun h2 => hne (h1.trans h2.symm)) (Ne.symm hne) fun k => (hall k).symm
    · exact key e.1 e.2.1 w1 h1 hne hall
  · rintro heq p ⟨j, hj, rfl⟩
    simp only [heq, sub_self]

/-- **C94** The symbolic Hamiltonian can be written, in the original and in any transformed coordinates, exactly if no junction and no phase
slip joins a node to itself. -/
theorem C94_defined (p : DofPrefixes) (h : List Call) (g : CG) (hs : Settled h g) (b : Biases) (val : String → ℝ) (x : BiasVals) (redq : String → ℝ)
    (Cinv Linv R : Matrix (Fin (nodes g).length) (Fin (nodes g).length) ℝ) (hR : R.det ≠ 0) :
    (quantumTerms p g b val x redq Cinv Linv R).isSome ↔
      ∀ e ∈ edges g, ∀ c, g.cmap.get? e = some c → startsWith c 'I' = true ∨ startsWith c 'V' = true → e.1 ≠ e.2.1 := by
  have hx : ∀ (ch : Char) (D Dd : ℕ → QExpr) (E ep em : Fin (edges g).length → QExpr),
      (branchSum (num QExpr (1 / 2)) D Dd ((branchesWith g ch).map fun i => ⟨E i, ep i, em i, branchTerms g
        (fun a j => if h : a < (nodes g).length ∧ j < (nodes g).length then R⁻¹ ⟨a, h.1⟩ ⟨j, h.2⟩ else 0) ((edges g).get i)⟩) 0).isSome ↔
        ∀ e ∈ edges g, ∀ c, g.cmap.get? e = some c → startsWith c ch = true → e.1 ≠ e.2.1 := by
    intro ch D Dd E ep em
    rw [branchSum_spec]
    set F : Fin (edges g).length → BranchData ℝ QExpr := fun i => ⟨E i, ep i, em i, branchTerms g
        (fun a j => if h : a < (nodes g).length ∧ j < (nodes g).length then R⁻¹ ⟨a, h.1⟩ ⟨j, h.2⟩ else 0) ((edges g).get i)⟩ with hFd
    have hF : ∀ i, (F i).terms = branchTerms g (fun a j => if h : a < (nodes g).length ∧ j < (nodes g).length then R⁻¹ ⟨a, h.1⟩ ⟨j, h.2⟩ else 0)
      ((edges g).get i) := fun i => rfl
    have : (∀ b ∈ (branchesWith g ch).map F, b.terms ≠ []) ↔ ∀ e ∈ edges g, ∀ c, g.cmap.get? e = some c → startsWith c ch = true → e.1 ≠ e.2.1 := by
      constructor
      · intro hh e he c hc hch
        obtain ⟨i, rfl⟩ := List.get_of_mem he
        have := hh (F i) (List.mem_map.2 ⟨i, List.mem_filter.2 ⟨List.mem_finRange _, by rw [hc]; simpa using (startsWith_iff _ _).1 hch⟩, rfl⟩)
        rw [hF, ne_eq, row_inj hs R hR he] at this
        exact this
      · intro hh y hy
        obtain ⟨i, hi, rfl⟩ := List.mem_map.1 hy
        have hi := (List.mem_filter.1 hi).2
        rw [decide_eq_true_eq] at hi
        obtain ⟨c, hc, hp⟩ := Option.bind_eq_some_iff.1 hi
        rw [hF, ne_eq, row_inj hs R hR (List.get_mem _ _)]
        exact hh _ (List.get_mem _ _) c hc ((startsWith_iff _ _).2 hp)
    rw [← this]
    split_ifs with h1
    · exact ⟨fun _ => h1, fun _ => rfl⟩
    · exact ⟨fun hh => (by cases hh), fun hh => absurd hh h1⟩
  have split2 : (∀ e ∈ edges g, ∀ c, g.cmap.get? e = some c → startsWith c 'I' = true ∨ startsWith c 'V' = true → e.1 ≠ e.2.1) ↔
      (∀ e ∈ edges g, ∀ c, g.cmap.get? e = some c → startsWith c 'I' = true → e.1 ≠ e.2.1) ∧
      (∀ e ∈ edges g, ∀ c, g.cmap.get? e = some c → startsWith c 'V' = true → e.1 ≠ e.2.1) :=
    ⟨fun hh => ⟨fun e he c hc h1 => hh e he c hc (.inl h1), fun e he c hc h1 => hh e he c hc (.inr h1)⟩,
      fun hh e he c hc h1 => h1.elim (hh.1 e he c hc) (hh.2 e he c hc)⟩
  rw [split2]
  unfold quantumTerms
  simp only
  split
  · rename_i h0
    have := (hx 'I' _ _ _ _ _).not.1 (Bool.eq_false_iff.1 ((congrArg Option.isSome h0).trans Option.isSome_none))
    exact ⟨fun hh => (by cases hh), fun hh => absurd hh.1 this⟩
  · rename_i X h0
    have i1 := (hx 'I' _ _ _ _ _).1 ((congrArg Option.isSome h0).trans Option.isSome_some)
    split
    · rename_i h1
      have := (hx 'V' _ _ _ _ _).not.1 (Bool.eq_false_iff.1 ((congrArg Option.isSome h1).trans Option.isSome_none))
      exact ⟨fun hh => (by cases hh), fun hh => absurd hh.2 this⟩
    · rename_i Y h1
      have i2 := (hx 'V' _ _ _ _ _).1 ((congrArg Option.isSome h1).trans Option.isSome_some)
      exact ⟨fun _ => ⟨i1, i2⟩, fun _ => rfl⟩

/-! ### The classical limit -/

theorem dispProduct_congr {D D' Dd Dd' : ℕ → ℂ} (fl : Bool) : ∀ (l : List (ℝ × ℕ)) (acc : ℂ), (∀ q ∈ l, D q.2 = D' q.2 ∧ Dd q.2 = Dd' q.2) →
    dispProduct D Dd fl l acc = dispProduct D' Dd' fl l acc := by
  intro l
  induction l with
  | nil => intro acc _; rfl
  | cons q l ih =>
    intro acc h
    unfold dispProduct
    rw [(h q (by simp)).1, (h q (by simp)).2]
    exact ih _ fun r hr => h r (List.mem_cons_of_mem _ hr)

theorem branchSum_congr {D D' Dd Dd' : ℕ → ℂ} (half : ℂ) (bs : List (BranchData ℝ ℂ)) (acc : ℂ)
    (h : ∀ b ∈ bs, ∀ q ∈ b.terms, D q.2 = D' q.2 ∧ Dd q.2 = Dd' q.2) : branchSum half D Dd bs acc = branchSum half D' Dd' bs acc := by
  rw [branchSum_spec, branchSum_spec]
  congr 3
  congr 1
  refine List.map_congr_left fun b hb => ?_
  rw [dispProduct_congr false b.terms b.ep (h b hb), dispProduct_congr true b.terms b.em (h b hb)]

theorem branchTerms_lt {g : CG} {M : Mat ℝ} {e : Edge} {q : ℝ × ℕ} (h : q ∈ branchTerms g M e) : q.2 < (nodes g).length ∧ q.1 ≠ 0 := by
  unfold branchTerms at h
  obtain ⟨h1, h2⟩ := List.mem_filter.1 h
  obtain ⟨j, hj, rfl⟩ := List.mem_map.1 h1
  exact ⟨List.mem_range.1 hj, by simpa using h2⟩

/-- **C94** In the original coordinates, with numbers for the operators: when charges and fluxes are put in for `Q` and `Φ`, and the
exponentials `exp(±iφ)` of the reduced fluxes for `D` and its adjoint, the charging, flux and Josephson energies of the quantum Hamiltonian are the
classical Hamiltonian.  Without phase slips that is all of it. -/
theorem C94_classical (p : DofPrefixes) (h : List Call) (g : CG) (hs : Settled h g) (b : Biases) (val : String → ℝ) (x : BiasVals)
    (redq : String → ℝ) (Cinv Linv : Matrix (Fin (nodes g).length) (Fin (nodes g).length) ℝ)
    (E : QuantumTerms) (hE : quantumTerms p g b val x redq Cinv Linv 1 = some E) (c : Coords (nodes g).length) (f : Symb → ℂ)
    (hf : ∀ i, f (nodeDofs p ((nodes g).get i)).flux = c.P i ∧ f (nodeDofs p ((nodes g).get i)).charge = c.Q i ∧
      f (nodeDofs p ((nodes g).get i)).D = exp (I * c.p i) ∧ f (nodeDofs p ((nodes g).get i)).Ddag = exp (-(I * c.p i))) :
    subst f (E.charging + E.flux + E.josephson) = (classicalHamiltonian g b val x Cinv Linv c : ℂ) ∧
    ((∀ e ∈ edges g, ∀ d, g.cmap.get? e = some d → startsWith d 'V' = false) → subst f E.hamiltonian = (classicalHamiltonian g b val x Cinv Linv c : ℂ)) := by
  have hw : g.graph.WF := by obtain ⟨o, f⟩ := Circuit.settled_facts hs; exact f.inv.toWF
  have hnd := nodes_nodup hw
  suffices hmain : subst f (E.charging + E.flux + E.josephson) = (classicalHamiltonian g b val x Cinv Linv c : ℂ) by
    refine ⟨hmain, fun hno => ?_⟩
    have hslip : E.slip = 0 := by
      have hV : branchesWith g 'V' = [] := by
        unfold branchesWith
        rw [List.filter_eq_nil_iff]
        intro i _
        rw [decide_eq_true_eq]
        intro hi
        obtain ⟨d, hd, hp⟩ := Option.bind_eq_some_iff.1 hi
        have := hno _ (List.get_mem _ _) d hd
        rw [(startsWith_iff _ _).2 hp] at this
        cases this
      unfold quantumTerms at hE
      simp only at hE
      split at hE
      · cases hE
      · rw [hV] at hE
        simp only [List.map_nil, branchSum] at hE
        cases hE
        rfl
    unfold QuantumTerms.hamiltonian
    rw [hslip, add_zero, hmain]
  unfold quantumTerms at hE
  simp only at hE
  split at hE
  · cases hE
  rename_i Xj hj
  split at hE
  · cases hE
  cases hE
  have hJ := hom_branchSum (subst f) (fun i => decide (((g.cmap.get? ((edges g).get i)).bind pre) = some 'I'))
    (fun i => decide (((g.cmap.get? ((edges g).get i)).bind pre) = some 'I')) (fun i => josephsonVector val g i) (fun i h => h)
    (fun i h => by
      by_contra h0
      exact absurd (josephson_nonzero h0) (by simpa using h)) _ (fun i => phaseExp (redBiasVector x.red g b i))
    (fun i => phaseExp (-(redBiasVector x.red g b i))) _ _ _ hj
  simp only [identity_terms hs 1 rfl (List.get_mem _ _)] at hJ
  obtain ⟨φ, h0, hφ⟩ := atNodes_surj hs c.p
  have hat : ∀ i : Fin (nodes g).length, c.p i = φ ((nodes g).getD i 0) := fun i => by
    rw [hφ]
    show φ ((nodes g).get i) = _
    rw [List.getD_eq_getElem?_getD, List.getElem?_eq_getElem i.2]
    rfl
  rw [branchSum_congr (D' := fun j => exp (I * (φ ((nodes g).getD j 0) : ℝ))) (Dd' := fun j => exp (-(I * (φ ((nodes g).getD j 0) : ℝ))))] at hJ
  swap
  · intro y hy q hq
    obtain ⟨i, hi, rfl⟩ := List.mem_map.1 hy
    have hlt := (branchTerms_lt (show q ∈ branchTerms g (fun i j => if i = j then 1 else 0) ((edges g).get i) from hq)).1
    have := hf ⟨q.2, hlt⟩
    rw [hat ⟨q.2, hlt⟩] at this
    rw [subst_dofAt, dif_pos hlt, subst_dofAt, dif_pos hlt]
    exact ⟨this.2.2.1, this.2.2.2⟩
  have hcos := C35_cosine (A := ℂ) (V := ℂ) (fun j => exp (I * (φ ((nodes g).getD j 0) : ℝ))) (fun j => exp (-(I * (φ ((nodes g).getD j 0) : ℝ))))
    (fun j => φ ((nodes g).getD j 0)) 1 (fun j => rfl) (fun j => rfl)
    ((branchesWith g 'I').map fun i : Fin (edges g).length => ⟨josephsonVector val g i, redBiasVector x.red g b i, branchTerms g (fun i j => if i = j then 1 else 0) ((edges g).get i)⟩)
    (by
      intro y hy q hq
      obtain ⟨i, hi, rfl⟩ := List.mem_map.1 hy
      exact (branchTerms_lt (show q ∈ branchTerms g (fun i j => if i = j then 1 else 0) ((edges g).get i) from hq)).2) (subst f Xj) (by
      unfold cosineTerms
      rw [← hJ, List.map_map]
      have e1 : algebraMap ℂ ℂ (1 / 2) = num ℂ (1 / 2) := by
        show (1 / 2 : ℂ) = ((1 / 2 : ℝ) : ℂ)
        push_cast; rfl
      rw [e1]
      congr 1
      refine List.map_congr_left fun i _ => ?_
      simp only [Function.comp_apply, CosTerm.data]
      congr 1
      · exact ((subst f).commutes _).symm
      · refine Eq.trans ?_ ((subst f).commutes _).symm
        congr 2
        push_cast
        ring)
  have hXj : subst f Xj = ((classicalJosephson g b val x.red c.p : ℝ) : ℂ) := by
    rw [smul_eq_mul, mul_one, smul_eq_mul, mul_one] at hcos
    rw [hcos, List.map_map]
    congr 1
    unfold branchesWith classicalJosephson
    rw [sum_filter_zero, ← List.sum_ofFn, List.ofFn_eq_map]
    · congr 1
      refine List.map_congr_left fun i _ => ?_
      have := (C35_branch_phase h g hs ((edges g).get i) (List.get_mem _ _) φ h0).1
      simp only [Function.comp_apply] at this ⊢
      rw [this, hφ, show atNodes g φ = fun i => φ ((nodes g).get i) from rfl, branchFluxes_eq hs φ h0 i]
    · intro i _ hi
      have : josephsonVector val g i = 0 := by
        by_contra h0
        exact absurd (josephson_nonzero h0) (by simpa using hi)
      simp [this]
  have hquad : ∀ (M : Matrix (Fin (nodes g).length) (Fin (nodes g).length) ℝ) (y w : Fin (nodes g).length → ℝ) (X : Fin (nodes g).length → QExpr),
      (∀ i, subst f (X i) = y i) → subst f (num QExpr (1 / 2) * quadOp (num QExpr) M fun i => X i + num QExpr (w i)) = ((quadEnergy M y w : ℝ) : ℂ) := by
    intro M y w X hX
    rw [map_mul, hom_num, hom_quadOp]
    simp only [map_add, hX, hom_num]
    unfold quadEnergy quadOp
    simp only [dotProduct, mulVec, Pi.add_apply]
    have : ∀ r : ℝ, num ℂ r = (r : ℂ) := fun r => rfl
    simp only [this]
    push_cast
    rfl
  rw [map_add, map_add, hXj]
  unfold classicalHamiltonian
  rw [Complex.ofReal_add, Complex.ofReal_add]
  congr 1
  congr 1
  · refine hquad _ _ _ _ fun i => ?_
    rw [subst_dofAt, dif_pos i.2]; exact (hf i).2.1
  · refine hquad _ _ _ _ fun i => ?_
    rw [subst_dofAt, dif_pos i.2]; exact (hf i).1

/-- What the theorems above ask for exists for every circuit of capacitors and junctions whose nodes are all joined to the ground by capacitors, for
every transform, values, biases, moves of the biases and operators. -/
theorem quantum_exists {h : List Call} {g : CG} (hs : Settled h g) (ha : AllOk h) (hn : JosephsonNetlist h) (b : Biases) (val : String → ℝ) (x : BiasVals)
    (redq : String → ℝ) (hv : NonnegCaps val h) (hconn : ∀ n ∈ nodesOf (branches h), Conn (capacitiveNet val h) n 0)
    (t : Transform ℝ (nodes g).length) (ht : t.R.det ≠ 0)
    (pinv : Matrix (Fin (edges g).length) (Fin (edges g).length) ℝ → Matrix (Fin (edges g).length) (Fin (edges g).length) ℝ) (u : Prefs)
    (cfg : Fin (nodes g).length → NodeCfg) (N : Fin (nodes g).length → BigNode cfg) :
    ∃ s E f, assemble g b val x.flux x.charge t pinv u = .ok s ∧ quantumTerms DofPrefixes.default g b val x redq s.Cinv s.Linv t.R = some E ∧
      ∀ i, SubstNode f (nodeDofs DofPrefixes.default ((nodes g).get i)) (N i) := by
  obtain ⟨C, hC, hsym, hform⟩ := netlist_capacitance hs ha hn val
  have hdet := (netlist_det hs val hv _ hsym hform).2 hconn
  obtain ⟨s, hsok⟩ := (assemble_eq hs hn b val x.flux x.charge t pinv u hC).2 hdet
  have hE : (quantumTerms DofPrefixes.default g b val x redq s.Cinv s.Linv t.R).isSome := by
    rw [C94_defined DofPrefixes.default h g hs b val x redq s.Cinv s.Linv t.R ht]
    intro e he c hc _
    obtain ⟨b', -, -, -, -, hne⟩ := netlist_edge hs hn he
    exact hne
  obtain ⟨E, hE⟩ := Option.isSome_iff_exists.1 hE
  obtain ⟨f, hf⟩ := substitution_exists default_apart (C29_rows h g hs).1 (fun i => (N i).P) (fun i => (N i).Q) (fun i => (N i).D) (fun i => (N i).Ddag)
    (fun i => (N i).S) (fun i => (N i).Sdag)
  exact ⟨s, E, f, hsok, hE, hf⟩

-- a SQUID with gate and flux bias in the charge basis, in a transformed coordinate
example : ∃ (b : Biases) (t : Transform ℝ (nodes (run {} biasedSquid)).length) (u : Prefs) (val : String → ℝ) (x : BiasVals) (redq : String → ℝ)
    (N : Fin (nodes (run {} biasedSquid)).length → BigNode fun _ : Fin (nodes (run {} biasedSquid)).length => NodeCfg.mk 5 .charge) (s : _) (E : _) (f : _),
    createFluxBiases (run {} biasedSquid) = .ok b ∧ (∀ s, x.red s = 2 * Real.pi * x.flux s) ∧ (∀ s, redq s = 2 * Real.pi * x.charge s) ∧
    t.R ≠ 1 ∧ (u.Ec = 1 ∧ u.El = 1 ∧ u.Ej = 1 ∧ u.Ep = 1) ∧
    assemble (run {} biasedSquid) (moves (run {} biasedSquid) b [((1, 0, 2), (0, 1, 1))]) val x.flux x.charge t (fun M => M) u = .ok s ∧
    quantumTerms DofPrefixes.default (run {} biasedSquid) (moves (run {} biasedSquid) b [((1, 0, 2), (0, 1, 1))]) val x redq s.Cinv s.Linv t.R = some E ∧
    ∀ i, SubstNode f (nodeDofs DofPrefixes.default ((nodes (run {} biasedSquid)).get i)) (N i) := by
  have hb : branches biasedSquid = [(0, 1, "C1"), (0, 1, "I1"), (0, 1, "I2")] := by decide +kernel
  obtain ⟨N, -⟩ := charge_nodes_exist (fun _ : Fin (nodes (run {} biasedSquid)).length => 5)
  have hlen : (nodes (run {} biasedSquid)).length = 1 := by decide +kernel
  have hc : ∀ n ∈ nodesOf (branches biasedSquid), Conn (capacitiveNet (fun _ => (1 : ℝ)) biasedSquid) n 0 := by
    intro n hn
    rw [hb] at hn
    have hn' : n = 0 ∨ n = 1 := by
      revert hn; revert n; decide +kernel
    rcases hn' with rfl | rfl
    · exact Conn.refl _ _
    · refine Conn.symm (Conn.edge (e := (0, 1, 0)) ?_)
      unfold capacitiveNet
      rw [hb]
      simp [branchesOf, wires]
      decide
  have hv : NonnegCaps (fun _ => (1 : ℝ)) biasedSquid := ⟨fun _ _ => zero_le_one, fun n _ => by
    unfold Spec.gateCap biasedSquid
    by_cases hn : 1 = n <;> simp [hn]⟩
  obtain ⟨s, E, f, h1, h2, h3⟩ := quantum_exists biasedSquid_settled biasedSquid_ok biasedSquid_netlist (moves (run {} biasedSquid)
    ⟨[((0, 1, 1), none), ((1, 0, 2), some "z")], [((0, 1, 1), none), ((1, 0, 2), some "z")]⟩ [((1, 0, 2), (0, 1, 1))]) (fun _ => 1)
    ⟨fun _ => 1 / 4, fun _ => 1 / 3, fun _ => 2 * Real.pi * (1 / 3)⟩ (fun _ => 2 * Real.pi * (1 / 4)) hv hc ⟨true, (2 : ℝ) • 1⟩ (by simp [Matrix.det_smul])
    (fun M => M) ⟨1, 1, 1, 1, 1, 1, 1⟩ _ N
  refine ⟨_, _, _, _, _, _, N, s, E, f, by decide +kernel, fun _ => rfl, fun _ => rfl, ?_, ⟨rfl, rfl, rfl, rfl⟩, h1, h2, h3⟩
  intro h
  have := congrFun (congrFun h ⟨0, by rw [hlen]; decide⟩) ⟨0, by rw [hlen]; decide⟩
  simp at this

/-- **C94 is false** of the values: a junction of critical current 1 appears in the printed Hamiltonian with the energy 1, whereas the Josephson
energy of the branch reported by the same system is `Φ₀/2π`.  (At zero phase, where the displacement operators are 1.) -/
theorem C94_false_energy : ∃ h g b E, h = oneJunction ∧ Settled h g ∧ createFluxBiases g = .ok b ∧
    quantumTerms DofPrefixes.default g b (fun _ => 1) ⟨fun _ => 0, fun _ => 0, fun _ => 0⟩ (fun _ => 0) 0 0 1 = some E ∧
    subst (fun _ => (1 : ℂ)) E.josephson = -1 ∧
    ∀ Phi0, symbolicJosephsonEnergy g (fun _ => 1) Phi0 0 = Phi0 / (2 * Real.pi) ∧ (Phi0 ≠ 2 * Real.pi → symbolicJosephsonEnergy g (fun _ => 1) Phi0 0 ≠ 1) := by
  have hE : (quantumTerms DofPrefixes.default (run {} oneJunction) ⟨[((0, 1, 1), none)], [((0, 1, 1), none)]⟩ (fun _ => 1) ⟨fun _ => 0, fun _ => 0, fun _ => 0⟩ (fun _ => 0) 0 0 1).isSome := by
    rw [C94_defined DofPrefixes.default oneJunction _ oneJunction_settled _ _ _ _ _ _ _ (by simp)]
    have : ∀ e ∈ edges (run {} oneJunction), e.1 ≠ e.2.1 := by decide +kernel
    exact fun e he _ _ _ => this e he
  obtain ⟨E, hE⟩ := Option.isSome_iff_exists.1 hE
  refine ⟨_, _, _, E, rfl, oneJunction_settled, (by decide +kernel : createFluxBiases (run {} oneJunction) = .ok ⟨[((0, 1, 1), none)], [((0, 1, 1), none)]⟩), hE, ?_, ?_⟩
  · have hc := (C94_classical _ _ _ oneJunction_settled _ _ _ _ _ _ E hE ⟨fun _ => 1, fun _ => 1, fun _ => 0⟩ (fun _ => 1) (by simp)).1
    have h1 : subst (fun _ => (1 : ℂ)) (E.charging + E.flux) = 0 := by
      unfold quantumTerms at hE
      simp only at hE
      split at hE
      · cases hE
      split at hE
      · cases hE
      cases hE
      simp [quadOp]
    rw [map_add, h1, zero_add] at hc
    rw [hc]
    unfold classicalHamiltonian quadEnergy classicalJosephson
    have hlen : (edges (run {} oneJunction)).length = 1 := by decide +kernel
    have hj : ∀ i : Fin (edges (run {} oneJunction)).length, josephsonVector (fun _ => (1 : ℝ)) (run {} oneJunction) i = 1 := by
      intro i
      have : (i : ℕ) = 0 := by have := i.2; omega
      rw [this]
      rfl
    have hr : ∀ i : Fin (edges (run {} oneJunction)).length, redBiasVector (fun _ => (0 : ℝ)) (run {} oneJunction)
        ⟨[((0, 1, 1), none)], [((0, 1, 1), none)]⟩ i = 0 := by
      intro i
      unfold redBiasVector biasVal
      split
      · split_ifs
        · split <;> rfl
        · rfl
      · rfl
    have hf : ∀ i, branchFluxes (run {} oneJunction) (fun _ => (0 : ℝ)) i = 0 := fun i => by
      unfold branchFluxes
      exact congrFun (Matrix.mulVec_zero _) i
    simp [hj, hr, hf, hlen]
  · intro Phi0
    have h1 : symbolicJosephsonEnergy (run {} oneJunction) (fun _ => 1) Phi0 0 = Phi0 / (2 * Real.pi) := by
      unfold symbolicJosephsonEnergy
      rw [show josephsonVector (fun _ => (1 : ℝ)) (run {} oneJunction) 0 = 1 from rfl, mul_one]
    refine ⟨h1, fun hne he => hne ?_⟩
    rw [h1, div_eq_one_iff_eq (by positivity)] at he
    exact he

end Verif.Props
