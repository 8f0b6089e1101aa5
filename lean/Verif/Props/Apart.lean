import Verif.Props.Response
import Verif.Lemmas.Apart
import Verif.Spec.Apart

/-!
# C93: Parts that share only the ground do not influence each other
-/

namespace Verif.Props

open Verif Verif.Spec Verif.Circuit Verif.Sym Verif.Num Verif.Units Matrix Complex

theorem nodesOf_append (bs bs' : List (ℕ × ℕ × String)) : nodesOf (bs ++ bs') = nodesOf bs ∪ nodesOf bs' := by
  ext n
  simp [nodesOf]

theorem apart_nodes {h h1 h2 : List Call} (hap : Apart h h1 h2) : nodesOf (branches h) = nodesOf (branches h1) ∪ nodesOf (branches h2) := by
  rw [nodesOf_perm hap.branches, nodesOf_append]

theorem branchesOf_append (p : Char) (l l' : List (ℕ × ℕ × String)) : branchesOf p (l ++ l') = branchesOf p l ++ branchesOf p l' := by
  unfold branchesOf
  rw [List.filter_append]

/-- The energy stored in the capacitors of the circuit is the sum of those of its parts. -/
theorem apart_form {h h1 h2 : List Call} (hap : Apart h h1 h2) (val : String → ℝ) (v : ℕ → ℝ) (h0 : v 0 = 0) :
    electrostaticForm val h v = electrostaticForm val h1 v + electrostaticForm val h2 v := by
  have hC : capacitorForm val (branches h) v = capacitorForm val (branches h1) v + capacitorForm val (branches h2) v := by
    rw [capacitorForm_perm val hap.branches]
    unfold capacitorForm
    rw [branchesOf_append, List.map_append, List.sum_append]
  have hG : ∑ n ∈ nodesOf (branches h), Spec.gateCap val h n * v n ^ 2 =
      ∑ n ∈ nodesOf (branches h1), Spec.gateCap val h1 n * v n ^ 2 + ∑ n ∈ nodesOf (branches h2), Spec.gateCap val h2 n * v n ^ 2 := by
    have e1 : ∑ n ∈ nodesOf (branches h1), Spec.gateCap val h1 n * v n ^ 2 = ∑ n ∈ nodesOf (branches h1), Spec.gateCap val h n * v n ^ 2 :=
      Finset.sum_congr rfl fun n hn => by rw [hap.caps1 val n hn]
    have e2 : ∑ n ∈ nodesOf (branches h2), Spec.gateCap val h2 n * v n ^ 2 = ∑ n ∈ nodesOf (branches h2), Spec.gateCap val h n * v n ^ 2 :=
      Finset.sum_congr rfl fun n hn => by rw [hap.caps2 val n hn]
    rw [e1, e2, ← Finset.sum_union_inter, apart_nodes hap]
    rw [left_eq_add]
    refine Finset.sum_eq_zero fun n hn => ?_
    obtain ⟨ha, hb⟩ := Finset.mem_inter.1 hn
    rw [hap.common n ha hb, h0]
    ring
  unfold electrostaticForm
  rw [hC, hG]
  ring

/-- The nodes of the circuit are those of its parts. -/
theorem apart_equiv {h h1 h2 : List Call} {g g1 g2 : CG} (hs : Settled h g) (hs1 : Settled h1 g1) (hs2 : Settled h2 g2) (hap : Apart h h1 h2) :
    ∃ σ : Fin (nodes g1).length ⊕ Fin (nodes g2).length ≃ Fin (nodes g).length,
      (∀ i, (nodes g).get (σ (.inl i)) = (nodes g1).get i) ∧ ∀ i, (nodes g).get (σ (.inr i)) = (nodes g2).get i := by
  obtain ⟨hnd, hmem⟩ := C29_rows h g hs
  obtain ⟨hnd1, hmem1⟩ := C29_rows h1 g1 hs1
  obtain ⟨hnd2, hmem2⟩ := C29_rows h2 g2 hs2
  let nd : Fin (nodes g1).length ⊕ Fin (nodes g2).length → ℕ := Sum.elim (nodes g1).get (nodes g2).get
  have hin : ∀ k, nd k ∈ nodes g := by
    intro k
    rw [hmem, apart_nodes hap, Finset.mem_union]
    rcases k with k | k
    · have := (hmem1 _).1 (List.get_mem (nodes g1) k)
      exact ⟨.inl this.1, this.2⟩
    · have := (hmem2 _).1 (List.get_mem (nodes g2) k)
      exact ⟨.inr this.1, this.2⟩
  have hlt : ∀ k, (nodes g).idxOf (nd k) < (nodes g).length := fun k => List.idxOf_lt_length_iff.2 (hin k)
  have hget : ∀ k, (nodes g).get ⟨_, hlt k⟩ = nd k := fun k => List.idxOf_get _
  have hinj : Function.Injective nd := by
    have hcross : ∀ i j, (nodes g1).get i ≠ (nodes g2).get j := by
      intro i j hij
      have a1 := (hmem1 _).1 (List.get_mem (nodes g1) i)
      have a2 := (hmem2 _).1 (List.get_mem (nodes g2) j)
      exact a1.2 (hap.common _ a1.1 (hij ▸ a2.1))
    rintro (i | i) (j | j) hij
    · exact congrArg Sum.inl (List.nodup_iff_injective_get.1 hnd1 hij)
    · exact absurd hij (hcross i j)
    · exact absurd hij.symm (hcross j i)
    · exact congrArg Sum.inr (List.nodup_iff_injective_get.1 hnd2 hij)
  refine ⟨Equiv.ofBijective (fun k => ⟨_, hlt k⟩) ⟨fun k l hkl => ?_, fun j => ?_⟩, fun i => hget (.inl i), fun i => hget (.inr i)⟩
  · exact hinj ((hget k).symm.trans ((congrArg (nodes g).get hkl).trans (hget l)))
  · have hj := (hmem _).1 (List.get_mem (nodes g) j)
    rw [apart_nodes hap, Finset.mem_union] at hj
    obtain ⟨k, hk⟩ : ∃ k, nd k = (nodes g).get j := by
      rcases hj with ⟨hj | hj, hne⟩
      · obtain ⟨i, hi⟩ := List.get_of_mem ((hmem1 _).2 ⟨hj, hne⟩)
        exact ⟨.inl i, hi⟩
      · obtain ⟨i, hi⟩ := List.get_of_mem ((hmem2 _).2 ⟨hj, hne⟩)
        exact ⟨.inr i, hi⟩
    exact ⟨k, List.nodup_iff_injective_get.1 hnd ((hget k).trans hk)⟩

/-- The capacitance matrix of the circuit consists of those of its parts. -/
theorem apart_matrix {h h1 h2 : List Call} {g g1 g2 : CG} (hs : Settled h g) (hap : Apart h h1 h2)
    (σ : Fin (nodes g1).length ⊕ Fin (nodes g2).length ≃ Fin (nodes g).length) (hσ1 : ∀ i, (nodes g).get (σ (.inl i)) = (nodes g1).get i)
    (hσ2 : ∀ i, (nodes g).get (σ (.inr i)) = (nodes g2).get i) (val : String → ℝ)
    (C : Matrix (Fin (nodes g).length) (Fin (nodes g).length) ℝ) (C1 : Matrix (Fin (nodes g1).length) (Fin (nodes g1).length) ℝ)
    (C2 : Matrix (Fin (nodes g2).length) (Fin (nodes g2).length) ℝ) (hC : Cᵀ = C) (hC1 : C1ᵀ = C1) (hC2 : C2ᵀ = C2)
    (hf : ∀ v : ℕ → ℝ, v 0 = 0 → atNodes g v ⬝ᵥ C.mulVec (atNodes g v) = electrostaticForm val h v)
    (hf1 : ∀ v : ℕ → ℝ, v 0 = 0 → atNodes g1 v ⬝ᵥ C1.mulVec (atNodes g1 v) = electrostaticForm val h1 v)
    (hf2 : ∀ v : ℕ → ℝ, v 0 = 0 → atNodes g2 v ⬝ᵥ C2.mulVec (atNodes g2 v) = electrostaticForm val h2 v) :
    C = (fromBlocks C1 0 0 C2).submatrix σ.symm σ.symm := by
  apply symmetric_eq_of_form hC
  · rw [transpose_submatrix, fromBlocks_transpose, hC1, hC2, transpose_zero, transpose_zero]
  · intro x
    obtain ⟨v, h0, rfl⟩ := atNodes_surj hs x
    rw [hf v h0, apart_form hap val v h0, ← hf1 v h0, ← hf2 v h0]
    have hv : (atNodes g v) ∘ σ = Sum.elim (atNodes g1 v) (atNodes g2 v) := by
      funext k
      rcases k with k | k
      · show v ((nodes g).get (σ (.inl k))) = v ((nodes g1).get k)
        rw [hσ1]
      · show v ((nodes g).get (σ (.inr k))) = v ((nodes g2).get k)
        rw [hσ2]
    rw [submatrix_mulVec_equiv, Equiv.symm_symm, hv, ← comp_equiv_symm_dotProduct, fromBlocks_mulVec]
    simp [hv, Matrix.zero_mulVec, sumElim_dotProduct_sumElim]

/-- In a part with at most one flux bias, the sense of the flux does not change the levels. -/
theorem part_levels {h1 : List Call} {ns : List ℕ} {tr : Fin ns.length → ℕ} (phi : String → ℝ) (hone : OneBias phi h1) (sgn sgn1 f : String → ℝ)
    (hsgn : ∀ c, sgn c = 1 ∨ sgn c = -1) (hsgn1 : ∀ c, sgn1 c = 1 ∨ sgn1 c = -1) (hf : ∀ d ∈ branchesOf 'I' (branches h1), f d.2.2 = sgn d.2.2 * fluxOn phi h1 d.2.2)
    (E qp : ℝ) (C : Matrix (Fin ns.length) (Fin ns.length) ℝ) (ng : ℕ → ℝ) (EJ : String → ℝ) (H A : Matrix (ChargeState tr) (ChargeState tr) ℂ)
    (hH : ∀ x y, H x y = E * netlistElement ns h1 qp C ng EJ (fun c => sgn1 c * fluxOn phi h1 c) x y)
    (hA : ∀ x y, A x y = E * netlistElement ns h1 qp C ng EJ f x y) (k : ℕ) (e : ℝ) : LevelsUpTo A k e ↔ LevelsUpTo H k e := by
  classical
  rcases one_sign phi h1 h1 (fun _ => rfl) hone sgn1 sgn hsgn1 hsgn with ht | ht
  · have : A = H := by
      ext x y
      rw [hA, hH, netlistElement_eq, netlistElement_eq]
      congr 2
      exact transfer_congr (fun _ _ => rfl) (fun d hd => by rw [hf d hd, ht]) x y
    rw [this]
  · have hc : ∀ x y, A x y = (starRingEnd ℂ) (H x y) := by
      intro x y
      rw [hA, hH, netlistElement_eq, netlistElement_eq, map_mul, map_sub, Complex.conj_ofReal, ← transfer_conj,
        transfer_congr (f := fun c => -(sgn1 c * fluxOn phi h1 c)) (fun _ _ => rfl) (fun d hd => by rw [hf d hd, ht]) x y]
      congr 2
      split_ifs
      · rw [Complex.conj_ofReal]
      · rw [map_zero]
    refine ⟨levelsUpTo_conj (Equiv.refl _) (fun x y => ?_) k e, levelsUpTo_conj (Equiv.refl _) (fun x y => hc x y) k e⟩
    simp only [Equiv.refl_apply]
    rw [hc, Complex.conj_conj]

theorem apart_conn {h h1 h2 : List Call} (hap : Apart h h1 h2) (val : String → ℝ) (hconn1 : ∀ n ∈ nodesOf (branches h1), Conn (capacitiveNet val h1) n 0)
    (hconn2 : ∀ n ∈ nodesOf (branches h2), Conn (capacitiveNet val h2) n 0) : ∀ n ∈ nodesOf (branches h), Conn (capacitiveNet val h) n 0 := by
  have hsub : ∀ h' : List Call, (∀ b ∈ branches h', b ∈ branches h) → (∀ n ∈ nodesOf (branches h'), Spec.gateCap val h n = Spec.gateCap val h' n) →
      nodesOf (branches h') ⊆ nodesOf (branches h) → ∀ e ∈ capacitiveNet val h', e ∈ capacitiveNet val h := by
    intro h' hb hg hn e he
    unfold capacitiveNet at he ⊢
    rcases List.mem_append.1 he with he | he
    · refine List.mem_append_left _ ?_
      obtain ⟨d, hd, rfl⟩ := List.mem_map.1 he
      obtain ⟨hd1, hd2⟩ := List.mem_filter.1 hd
      obtain ⟨hd3, hd4⟩ := List.mem_filter.1 hd1
      exact List.mem_map.2 ⟨d, List.mem_filter.2 ⟨List.mem_filter.2 ⟨hb d hd3, hd4⟩, hd2⟩, rfl⟩
    · refine List.mem_append_right _ ?_
      obtain ⟨n, hd, rfl⟩ := List.mem_map.1 he
      obtain ⟨hd1, hd2⟩ := List.mem_filter.1 hd
      have hd1' := Finset.mem_toList.1 hd1
      refine List.mem_map.2 ⟨n, List.mem_filter.2 ⟨Finset.mem_toList.2 (hn hd1'), ?_⟩, rfl⟩
      rw [hg n hd1']
      exact hd2
  intro n hn
  rw [apart_nodes hap, Finset.mem_union] at hn
  rcases hn with hn | hn
  · refine Conn.subset (hsub h1 (fun b hb => hap.branches.symm.subset (List.mem_append_left _ hb)) (hap.caps1 val) ?_) (hconn1 n hn)
    rw [apart_nodes hap]; exact Finset.subset_union_left
  · refine Conn.subset (hsub h2 (fun b hb => hap.branches.symm.subset (List.mem_append_right _ hb)) (hap.caps2 val) ?_) (hconn2 n hn)
    rw [apart_nodes hap]; exact Finset.subset_union_right

/-- The inverse capacitance matrix is block diagonal over the parts. -/
theorem apart_inverse {n n1 n2 : ℕ} (σ : Fin n1 ⊕ Fin n2 ≃ Fin n) (C : Matrix (Fin n) (Fin n) ℝ) (C1 : Matrix (Fin n1) (Fin n1) ℝ) (C2 : Matrix (Fin n2) (Fin n2) ℝ)
    (hC : C = (fromBlocks C1 0 0 C2).submatrix σ.symm σ.symm) (hd1 : C1.det ≠ 0) (hd2 : C2.det ≠ 0) : C⁻¹ = (fromBlocks C1⁻¹ 0 0 C2⁻¹).submatrix σ.symm σ.symm := by
  have hb : (fromBlocks C1 0 0 C2)⁻¹ = fromBlocks C1⁻¹ 0 0 C2⁻¹ := by
    refine inv_eq_right_inv ?_
    rw [fromBlocks_multiply]
    simp only [Matrix.mul_zero, Matrix.zero_mul, add_zero, zero_add]
    rw [mul_nonsing_inv _ (isUnit_iff_ne_zero.2 hd1), mul_nonsing_inv _ (isUnit_iff_ne_zero.2 hd2), fromBlocks_one]
  rw [hC, inv_submatrix_equiv, hb]

/-- The electrostatic energy of a charge state is the sum of those of the parts. -/
theorem apart_energy {ns n1 n2 : List ℕ} {tr : Fin ns.length → ℕ} {t1 : Fin n1.length → ℕ} {t2 : Fin n2.length → ℕ} (σ : Fin n1.length ⊕ Fin n2.length ≃ Fin ns.length)
    (hσ1 : ∀ i, ns.get (σ (.inl i)) = n1.get i) (hσ2 : ∀ i, ns.get (σ (.inr i)) = n2.get i) (qp : ℝ)
    (C : Matrix (Fin ns.length) (Fin ns.length) ℝ) (C1 : Matrix (Fin n1.length) (Fin n1.length) ℝ) (C2 : Matrix (Fin n2.length) (Fin n2.length) ℝ)
    (hC : C = (fromBlocks C1 0 0 C2).submatrix σ.symm σ.symm) (hd1 : C1.det ≠ 0) (hd2 : C2.det ≠ 0) (ng ng1 ng2 : ℕ → ℝ)
    (hn1 : ∀ n ∈ n1, ng n = ng1 n) (hn2 : ∀ n ∈ n2, ng n = ng2 n) (x : ChargeState tr) (x1 : ChargeState t1) (x2 : ChargeState t2)
    (hx1 : ∀ i, excess x (σ (.inl i)) = excess x1 i) (hx2 : ∀ i, excess x (σ (.inr i)) = excess x2 i) :
    electrostaticEnergy ns qp C ng x = electrostaticEnergy n1 qp C1 ng1 x1 + electrostaticEnergy n2 qp C2 ng2 x2 := by
  have hinv := apart_inverse σ C C1 C2 hC hd1 hd2
  unfold electrostaticEnergy
  rw [← mul_add]
  congr 1
  rw [← Equiv.sum_comp σ, Fintype.sum_sum_type]
  congr 1 <;> refine Finset.sum_congr rfl fun i _ => ?_ <;> rw [← Equiv.sum_comp σ, Fintype.sum_sum_type] <;>
    simp only [hinv, submatrix_apply, Equiv.symm_apply_apply, fromBlocks_apply₁₁, fromBlocks_apply₁₂, fromBlocks_apply₂₁, fromBlocks_apply₂₂, Matrix.zero_apply, mul_zero, zero_mul,
      Finset.sum_const_zero, add_zero, zero_add, hx1, hx2, hσ1, hσ2]
  · refine Finset.sum_congr rfl fun j _ => ?_
    rw [hn1 _ (List.get_mem n1 i), hn1 _ (List.get_mem n1 j)]
  · refine Finset.sum_congr rfl fun j _ => ?_
    rw [hn2 _ (List.get_mem n2 i), hn2 _ (List.get_mem n2 j)]

/-- The charge states of the circuit are the pairs of charge states of its parts. -/
theorem apart_states {ns n1 n2 : List ℕ} (tr : ℕ → ℕ) (σ : Fin n1.length ⊕ Fin n2.length ≃ Fin ns.length)
    (hσ1 : ∀ i, ns.get (σ (.inl i)) = n1.get i) (hσ2 : ∀ i, ns.get (σ (.inr i)) = n2.get i) :
    ∃ τ : ChargeState (fun i => tr (n1.get i)) × ChargeState (fun i => tr (n2.get i)) ≃ ChargeState (fun i => tr (ns.get i)),
      ∀ x, (∀ i, excess (τ x) (σ (.inl i)) = excess x.1 i) ∧ ∀ i, excess (τ x) (σ (.inr i)) = excess x.2 i := by
  have htr : ∀ k, tr (ns.get (σ k)) = tr (Sum.elim n1.get n2.get k) := by
    rintro (i | i)
    · rw [hσ1]; rfl
    · rw [hσ2]; rfl
  let ψ := (Equiv.sumPiEquivProdPi (fun k => Fin (NodeCfg.mk (tr (Sum.elim n1.get n2.get k)) .charge).dim)).symm
  let ρ : ((k : Fin n1.length ⊕ Fin n2.length) → Fin (NodeCfg.mk (tr (Sum.elim n1.get n2.get k)) .charge).dim) ≃ ChargeState (fun i => tr (ns.get i)) :=
    σ.piCongr fun k => finCongr (by dsimp only; rw [htr k])
  have hρ : ∀ z k, ((ρ z (σ k) : Fin _) : ℕ) = ((z k : Fin _) : ℕ) := by
    intro z k
    have h2 : ρ z (σ k) = finCongr (by dsimp only; rw [htr k]) (z k) := Equiv.piCongr_apply_apply _ _ _ _
    rw [h2]
    rfl
  let τ : ChargeState (fun i => tr (n1.get i)) × ChargeState (fun i => tr (n2.get i)) ≃ ChargeState (fun i => tr (ns.get i)) := ψ.trans ρ
  have hval : ∀ x k, ((τ x (σ k) : Fin _) : ℕ) = ((ψ x k : Fin _) : ℕ) := fun x k => hρ (ψ x) k
  refine ⟨τ, fun x => ⟨fun i => ?_, fun i => ?_⟩⟩
  · show (tr (ns.get (σ (.inl i))) : ℤ) - (((τ x (σ (.inl i)) : Fin _) : ℕ) : ℤ) = (tr (n1.get i) : ℤ) - ((x.1 i : ℕ) : ℤ)
    rw [hval, hσ1]
    rfl
  · show (tr (ns.get (σ (.inr i))) : ℤ) - (((τ x (σ (.inr i)) : Fin _) : ℕ) : ℤ) = (tr (n2.get i) : ℤ) - ((x.2 i : ℕ) : ℤ)
    rw [hval, hσ2]
    rfl

/-- **C93** The levels of a circuit of two parts that share only the ground are the sums of a level of one part and a level of the other, with the multiplicities this gives.  In each part at
most one junction is biased by a flux.  The circuit can be quantised if its parts can. -/
theorem C93_parts (h h1 h2 : List Call) (g g1 g2 : CG) (hs : Settled h g) (hs1 : Settled h1 g1) (hs2 : Settled h2 g2) (ha : AllOk h) (ha1 : AllOk h1) (ha2 : AllOk h2)
    (hn : JosephsonNetlist h) (hn1 : JosephsonNetlist h1) (hn2 : JosephsonNetlist h2) (b b1 b2 : Biases) (hb : createFluxBiases g = .ok b) (hb1 : createFluxBiases g1 = .ok b1)
    (hb2 : createFluxBiases g2 = .ok b2) (hap : Apart h h1 h2)
    (w : List UCall) (hw : ∀ c ∈ w, c.Clean) (i : ℕ) (U : Spec.System) (hU : Uses (runU w) i U) (h2e : U.C = 2 * Units.pc_e) (hphi : U.Wb = Units.pc_phi0)
    (u : Prefs) (hEc : Units.getPrefactor (runU w) i "Ec" = .ok u.Ec) (hEj : Units.getPrefactor (runU w) i "Ej" = .ok u.Ej)
    (val phi q : String → ℝ) (hv1 : NonnegCaps val h1) (hv2 : NonnegCaps val h2) (hconn1 : ∀ n ∈ nodesOf (branches h1), Conn (capacitiveNet val h1) n 0)
    (hconn2 : ∀ n ∈ nodesOf (branches h2), Conn (capacitiveNet val h2) n 0) (hone1 : OneBias phi h1) (hone2 : OneBias phi h2)
    (pinv : Matrix (Fin (edges g).length) (Fin (edges g).length) ℝ → Matrix (Fin (edges g).length) (Fin (edges g).length) ℝ) (hp : ∀ M, IsPinv M (pinv M))
    (pinv1 : Matrix (Fin (edges g1).length) (Fin (edges g1).length) ℝ → Matrix (Fin (edges g1).length) (Fin (edges g1).length) ℝ) (hp1 : ∀ M, IsPinv M (pinv1 M))
    (pinv2 : Matrix (Fin (edges g2).length) (Fin (edges g2).length) ℝ → Matrix (Fin (edges g2).length) (Fin (edges g2).length) ℝ) (hp2 : ∀ M, IsPinv M (pinv2 M)) (tr : ℕ → ℕ)
    (N : Fin (nodes g).length → BigNode fun i => NodeCfg.mk (tr ((nodes g).get i)) .charge) (hN : ChargeNodes (fun i => tr ((nodes g).get i)) N)
    (N1 : Fin (nodes g1).length → BigNode fun i => NodeCfg.mk (tr ((nodes g1).get i)) .charge) (hN1 : ChargeNodes (fun i => tr ((nodes g1).get i)) N1)
    (N2 : Fin (nodes g2).length → BigNode fun i => NodeCfg.mk (tr ((nodes g2).get i)) .charge) (hN2 : ChargeNodes (fun i => tr ((nodes g2).get i)) N2) :
    ∃ s H s1 H1 s2 H2, assemble g b val phi q ⟨false, 1⟩ pinv u = .ok s ∧ hamiltonian (s.withNodes N) = some H ∧
      assemble g1 b1 val phi q ⟨false, 1⟩ pinv1 u = .ok s1 ∧ hamiltonian (s1.withNodes N1) = some H1 ∧
      assemble g2 b2 val phi q ⟨false, 1⟩ pinv2 u = .ok s2 ∧ hamiltonian (s2.withNodes N2) = some H2 ∧
      ∃ (a : ChargeState (fun i => tr ((nodes g1).get i)) → ℝ) (c : ChargeState (fun i => tr ((nodes g2).get i)) → ℝ),
        (∀ k E, LevelsUpTo H1 k E ↔ k ≤ (Finset.univ.filter fun x => a x ≤ E).card) ∧ (∀ k E, LevelsUpTo H2 k E ↔ k ≤ (Finset.univ.filter fun x => c x ≤ E).card) ∧
        ∀ k E, LevelsUpTo H k E ↔ k ≤ (Finset.univ.filter fun x : ChargeState (fun i => tr ((nodes g1).get i)) × ChargeState (fun i => tr ((nodes g2).get i)) => a x.1 + c x.2 ≤ E).card := by
  classical
  have hconn := apart_conn hap val hconn1 hconn2
  have hv : NonnegCaps val h := by
    refine ⟨fun d hd => ?_, fun n hn => ?_⟩
    · obtain ⟨hd1, hd2⟩ := List.mem_filter.1 hd
      rcases List.mem_append.1 (hap.branches.subset hd1) with hd3 | hd3
      · exact hv1.1 d (List.mem_filter.2 ⟨hd3, hd2⟩)
      · exact hv2.1 d (List.mem_filter.2 ⟨hd3, hd2⟩)
    · rw [apart_nodes hap, Finset.mem_union] at hn
      rcases hn with hn | hn
      · rw [hap.caps1 val n hn]; exact hv1.2 n hn
      · rw [hap.caps2 val n hn]; exact hv2.2 n hn
  obtain ⟨sgn, hsgn, -, hE⟩ := C86_hamiltonian h g hs ha hn b hb
  obtain ⟨sgn1, hsgn1, -, hE1⟩ := C86_hamiltonian h1 g1 hs1 ha1 hn1 b1 hb1
  obtain ⟨sgn2, hsgn2, -, hE2⟩ := C86_hamiltonian h2 g2 hs2 ha2 hn2 b2 hb2
  obtain ⟨s, H, C, e1, e2, e3, e4, e5, e6⟩ := hE w hw i U hU h2e hphi u hEc hEj val phi q hv hconn pinv hp _ N hN
  obtain ⟨s1, H1, C1, f1, f2, f3, f4, f5, f6⟩ := hE1 w hw i U hU h2e hphi u hEc hEj val phi q hv1 hconn1 pinv1 hp1 _ N1 hN1
  obtain ⟨s2, H2, C2, k1, k2, k3, k4, k5, k6⟩ := hE2 w hw i U hU h2e hphi u hEc hEj val phi q hv2 hconn2 pinv2 hp2 _ N2 hN2
  refine ⟨s, H, s1, H1, s2, H2, e1, e2, f1, f2, k1, k2, ?_⟩
  obtain ⟨σ, hσ1, hσ2⟩ := apart_equiv hs hs1 hs2 hap
  have hC := apart_matrix hs hap σ hσ1 hσ2 _ C C1 C2 e3 f3 k3 e5 f5 k5
  obtain ⟨τ, hτ⟩ := apart_states tr σ hσ1 hσ2
  obtain ⟨-, hmem1⟩ := C29_rows h1 g1 hs1
  obtain ⟨-, hmem2⟩ := C29_rows h2 g2 hs2
  set EJ : String → ℝ := fun c => Units.pc_phi0 * (val c * U.A) / (2 * Real.pi) with hEJ
  set f : String → ℝ := fun c => sgn c * fluxOn phi h c with hf
  let A : Matrix (ChargeState fun i => tr ((nodes g1).get i)) (ChargeState fun i => tr ((nodes g1).get i)) ℂ := Matrix.of fun x y =>
    (U.E : ℂ) * netlistElement (nodes g1) h1 (2 * Units.pc_e) C1 (gateCharge q h1) EJ f x y
  let B : Matrix (ChargeState fun i => tr ((nodes g2).get i)) (ChargeState fun i => tr ((nodes g2).get i)) ℂ := Matrix.of fun x y =>
    (U.E : ℂ) * netlistElement (nodes g2) h2 (2 * Units.pc_e) C2 (gateCharge q h2) EJ f x y
  have hA : A.IsHermitian := netlist_hermitian (h := h1) U.E C1 (gateCharge q h1) (2 * Units.pc_e) EJ f fun _ _ => rfl
  have hB : B.IsHermitian := netlist_hermitian (h := h2) U.E C2 (gateCharge q h2) (2 * Units.pc_e) EJ f fun _ _ => rfl
  have hends : ∀ h' : List Call, ∀ d ∈ branchesOf 'I' (branches h'), d.1 ∈ nodesOf (branches h') ∧ d.2.1 ∈ nodesOf (branches h') := by
    intro h' d hd
    have hd' := (List.mem_filter.1 hd).1
    simp only [nodesOf, List.mem_toFinset, List.mem_flatMap]
    exact ⟨⟨d, hd', by simp⟩, ⟨d, hd', by simp⟩⟩
  have hout1 : ∀ d ∈ branchesOf 'I' (branches h1), d.1 ∉ nodes g2 ∧ d.2.1 ∉ nodes g2 := by
    intro d hd
    obtain ⟨a1, a2⟩ := hends h1 d hd
    exact ⟨fun hc => ((hmem2 _).1 hc).2 (hap.common _ a1 ((hmem2 _).1 hc).1), fun hc => ((hmem2 _).1 hc).2 (hap.common _ a2 ((hmem2 _).1 hc).1)⟩
  have hout2 : ∀ d ∈ branchesOf 'I' (branches h2), d.1 ∉ nodes g1 ∧ d.2.1 ∉ nodes g1 := by
    intro d hd
    obtain ⟨a1, a2⟩ := hends h2 d hd
    exact ⟨fun hc => ((hmem1 _).1 hc).2 (hap.common _ ((hmem1 _).1 hc).1 a1), fun hc => ((hmem1 _).1 hc).2 (hap.common _ ((hmem1 _).1 hc).1 a2)⟩
  obtain ⟨a, c, hac1, hac2, hac⟩ := levelsUpTo_sum hA hB (M := H) τ (by
    intro x y
    have t1 := transfer_part σ hσ1 hσ2 (branchesOf 'I' (branches h1)) hout1 EJ f (τ x) (τ y) x.1 y.1 x.2 y.2 (hτ x).1 (hτ y).1 (hτ x).2 (hτ y).2
    have t2 := transfer_part ((Equiv.sumComm _ _).trans σ) hσ2 hσ1 (branchesOf 'I' (branches h2)) hout2 EJ f (τ x) (τ y) x.2 y.2 x.1 y.1 (hτ x).2 (hτ y).2 (hτ x).1 (hτ y).1
    have hen := apart_energy σ hσ1 hσ2 (2 * Units.pc_e) C C1 C2 hC f4 k4 (gateCharge q h) (gateCharge q h1) (gateCharge q h2)
      (fun n hn => hap.charge1 q n ((hmem1 n).1 hn).1) (fun n hn => hap.charge2 q n ((hmem2 n).1 hn).1) (τ x) x.1 x.2 (hτ x).1 (hτ x).2
    unfold electrostaticEnergy at hen
    rw [e6, netlistElement_eq, transfer_perm (branchesOf_perm 'I' hap.branches), branchesOf_append, transfer_append, t1, t2, hen]
    show _ = (if x.2 = y.2 then (U.E : ℂ) * netlistElement (nodes g1) h1 (2 * Units.pc_e) C1 (gateCharge q h1) EJ f x.1 y.1 else 0) +
      (if x.1 = y.1 then (U.E : ℂ) * netlistElement (nodes g2) h2 (2 * Units.pc_e) C2 (gateCharge q h2) EJ f x.2 y.2 else 0)
    rw [netlistElement_eq, netlistElement_eq]
    have hxy : τ x = τ y ↔ x.1 = y.1 ∧ x.2 = y.2 := by rw [τ.injective.eq_iff, Prod.ext_iff]
    by_cases c1 : x.1 = y.1 <;> by_cases c2 : x.2 = y.2
    · rw [if_pos (hxy.2 ⟨c1, c2⟩), if_pos c2, if_pos c1, if_pos c2, if_pos c1, if_pos c1, if_pos c2]
      push_cast
      ring
    · rw [if_neg (fun hc => c2 (hxy.1 hc).2), if_neg c2, if_pos c1, if_neg c2, if_pos c1, if_neg c2]
      ring
    · rw [if_neg (fun hc => c1 (hxy.1 hc).1), if_pos c2, if_neg c1, if_pos c2, if_neg c1, if_neg c1]
      ring
    · rw [if_neg (fun hc => c1 (hxy.1 hc).1), if_neg c2, if_neg c1, if_neg c2, if_neg c1]
      ring)
  refine ⟨a, c, fun k E => ?_, fun k E => ?_, fun k E => ?_⟩
  · rw [← part_levels phi hone1 sgn sgn1 f hsgn hsgn1 (fun d hd => by rw [hf]; simp only; rw [hap.flux1 phi d (List.mem_filter.1 hd).1]) U.E (2 * Units.pc_e) C1 (gateCharge q h1) EJ H1 A f6 (fun _ _ => rfl) k E, hac1]
  · rw [← part_levels phi hone2 sgn sgn2 f hsgn hsgn2 (fun d hd => by rw [hf]; simp only; rw [hap.flux2 phi d (List.mem_filter.1 hd).1]) U.E (2 * Units.pc_e) C2 (gateCharge q h2) EJ H2 B k6 (fun _ _ => rfl) k E, hac2]
  · rw [hac]

/-! ### The hypotheses are met -/

/-- A transmon on node 2. -/
def secondTransmon : List Call := [.addBranch Orc.id 2 0 "C2", .addBranch Orc.id 0 2 "I3", .addChargeBias 2 (some "g2") none]

/-- The biased SQUID on node 1 and the transmon on node 2. -/
def squidAndTransmon : List Call :=
  [.addBranch Orc.id 0 1 "C1", .addBranch Orc.id 2 0 "C2", .addBranch Orc.id 0 1 "I1", .addBranch Orc.id 0 2 "I3", .addBranch Orc.id 0 1 "I2", .addFluxBias "I2" (some "z") none,
    .addChargeBias 2 (some "g2") none, .addChargeBias 1 (some "g") (some "Cg")]

example (phi : String → ℝ) : (Settled secondTransmon (run {} secondTransmon) ∧ AllOk secondTransmon ∧ JosephsonNetlist secondTransmon ∧
      ∃ b, createFluxBiases (run {} secondTransmon) = .ok b) ∧
    (Settled squidAndTransmon (run {} squidAndTransmon) ∧ AllOk squidAndTransmon ∧ JosephsonNetlist squidAndTransmon ∧
      ∃ b, createFluxBiases (run {} squidAndTransmon) = .ok b) ∧
    Apart squidAndTransmon biasedSquid secondTransmon ∧ OneBias phi biasedSquid ∧ OneBias phi secondTransmon ∧ fluxOn phi squidAndTransmon "I2" = phi "z" := by
  have hbs : ∀ g : CG, (createFluxBiases g).toOption.isSome = true → ∃ b, createFluxBiases g = .ok b := by
    intro g hg
    cases hc : createFluxBiases g with
    | ok b => exact ⟨b, rfl⟩
    | error e => rw [hc] at hg; cases hg
  have hb1 : branches biasedSquid = [(0, 1, "C1"), (0, 1, "I1"), (0, 1, "I2")] := by decide +kernel
  have hb2 : branches secondTransmon = [(2, 0, "C2"), (0, 2, "I3")] := by decide +kernel
  have hb : branches squidAndTransmon = [(0, 1, "C1"), (2, 0, "C2"), (0, 1, "I1"), (0, 2, "I3"), (0, 1, "I2")] := by decide +kernel
  have n1 : ∀ n, n ∈ nodesOf (branches biasedSquid) → n = 0 ∨ n = 1 := by
    intro n hn; rw [hb1] at hn; simpa [nodesOf] using hn
  have n2 : ∀ n, n ∈ nodesOf (branches secondTransmon) → n = 0 ∨ n = 2 := by
    intro n hn; rw [hb2] at hn; simp [nodesOf] at hn; tauto
  refine ⟨⟨⟨[.addBranch Orc.id 2 0 "C2"], Orc.id, 0, 2, "I3", [.addChargeBias 2 (some "g2") none], rfl,
      by simp [secondTransmon, Call.OK, orcId_ok], by decide +kernel, by simp, rfl⟩, ?_, ?_, hbs _ (by decide +kernel)⟩,
    ⟨⟨[.addBranch Orc.id 0 1 "C1", .addBranch Orc.id 2 0 "C2", .addBranch Orc.id 0 1 "I1", .addBranch Orc.id 0 2 "I3"], Orc.id, 0, 1, "I2",
      [.addFluxBias "I2" (some "z") none, .addChargeBias 2 (some "g2") none, .addChargeBias 1 (some "g") (some "Cg")], rfl,
      by simp [squidAndTransmon, Call.OK, orcId_ok], by decide +kernel, by simp, rfl⟩, ?_, ?_, hbs _ (by decide +kernel)⟩,
    ⟨?_, fun n h1 h2 => ?_, fun q n hn => ?_, fun q n hn => ?_, fun q n hn => ?_, fun q n hn => ?_, fun q d hd => ?_, fun q d hd => ?_⟩, ?_, ?_, ?_⟩
  · apply allOk_of_prefixes; decide +kernel
  · refine ⟨by simp [secondTransmon], ?_, ?_, ?_⟩ <;> rw [hb2] <;> decide +kernel
  · apply allOk_of_prefixes; decide +kernel
  · refine ⟨by simp [squidAndTransmon], ?_, ?_, ?_⟩ <;> rw [hb] <;> decide +kernel
  · rw [hb, hb1, hb2]; decide +kernel
  · rcases n1 n h1 with h | h
    · exact h
    · rcases n2 n h2 with h' | h' <;> omega
  · rcases n1 n hn with rfl | rfl <;> simp [gateCharge, biasedSquid, squidAndTransmon]
  · rcases n2 n hn with rfl | rfl <;> simp [gateCharge, secondTransmon, squidAndTransmon]
  · rcases n1 n hn with rfl | rfl <;> simp [Spec.gateCap, biasedSquid, squidAndTransmon]
  · rcases n2 n hn with rfl | rfl <;> simp [Spec.gateCap, secondTransmon, squidAndTransmon]
  · rw [hb1] at hd
    simp only [List.mem_cons, List.not_mem_nil, or_false] at hd
    rcases hd with rfl | rfl | rfl <;> simp [fluxOn, biasedSquid, squidAndTransmon]
  · rw [hb2] at hd
    simp only [List.mem_cons, List.not_mem_nil, or_false] at hd
    rcases hd with rfl | rfl <;> simp [fluxOn, secondTransmon, squidAndTransmon]
  · have key : ∀ c, fluxOn phi biasedSquid c ≠ 0 → c = "I2" := by
      intro c hc
      by_contra hne
      apply hc
      simp [fluxOn, biasedSquid, Ne.symm hne]
    intro c c' hc hc'
    rw [key c hc, key c' hc']
  · intro c c' hc
    exact absurd (by simp [fluxOn, secondTransmon]) hc
  · simp [fluxOn, squidAndTransmon]

end Verif.Props
