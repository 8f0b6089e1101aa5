import Verif.Spec.CooperPair
import Verif.Props.Energies
import Verif.Props.Units

/-!
# C81: the Hamiltonian of a Josephson circuit in the charge basis
-/

namespace Verif.Props

open Verif Verif.Sym Verif.Num Verif.Spec Complex Matrix

/-- What a list of displacements adds to the number of pairs on node `i`. -/
noncomputable def jump (ts : List (ℝ × ℕ)) (i : ℕ) : ℤ := (ts.map fun p => if p.2 = i then (if 0 < p.1 then (1 : ℤ) else -1) else 0).sum

theorem jump_absent (ts : List (ℝ × ℕ)) (i : ℕ) (h : i ∉ ts.map Prod.snd) : jump ts i = 0 := by
  unfold jump
  apply List.sum_eq_zero
  intro z hz
  obtain ⟨p, hp, rfl⟩ := List.mem_map.1 hz
  rw [if_neg]
  intro hpi
  exact h (List.mem_map.2 ⟨p, hp, hpi⟩)

theorem actsOn_mul_apply {n : ℕ} (cfg : Fin n → NodeCfg) (i : Fin n) (X : Op (cfg i).dim) (M : BigOp cfg)
    (hM : ∀ x y, x i ≠ y i → M x y = 0) (x y) : (actsOn cfg i X * M) x y = X (x i) (y i) * M (Function.update x i (y i)) y := by
  rw [Matrix.mul_apply, Finset.sum_eq_single (Function.update x i (y i))]
  · unfold actsOn
    rw [if_pos, Function.update_self]
    intro j hj
    rw [Function.update_of_ne hj]
  · intro z _ hz
    by_cases h1 : z i = y i
    · unfold actsOn
      rw [if_neg, zero_mul]
      intro h2
      apply hz
      funext j
      by_cases hj : j = i
      · subst hj; rw [Function.update_self, h1]
      · rw [Function.update_of_ne hj, h2 j hj]
    · rw [hM z y h1, mul_zero]
  · intro h; exact absurd (Finset.mem_univ _) h

theorem ite_mul_ite_and (P Q : Prop) [Decidable P] [Decidable Q] [Decidable (P ∧ Q)] :
    (if P then (1 : ℂ) else 0) * (if Q then 1 else 0) = if P ∧ Q then 1 else 0 := by
  by_cases h1 : P <;> by_cases h2 : Q <;> simp [h1, h2]

open Classical in
/-- A product of displacements of different nodes moves the charges. -/
theorem moves_apply {n : ℕ} (tr : Fin n → ℕ) (up down : ℕ → BigOp fun i => NodeCfg.mk (tr i) .charge)
    (hup : ∀ i : Fin n, ∃ X : Op (NodeCfg.mk (tr i) .charge).dim, (∀ a b, X a b = if (b : ℕ) = a + 1 then 1 else 0) ∧
      up i = actsOn (fun i => NodeCfg.mk (tr i) .charge) i X)
    (hdown : ∀ i : Fin n, ∃ X : Op (NodeCfg.mk (tr i) .charge).dim, (∀ a b, X a b = if (a : ℕ) = b + 1 then 1 else 0) ∧
      down i = actsOn (fun i => NodeCfg.mk (tr i) .charge) i X) :
    ∀ ts : List (ℝ × ℕ), (ts.map Prod.snd).Nodup → (∀ p ∈ ts, p.2 < n) → ∀ x y : ChargeState tr,
      (ts.map fun p => if 0 < p.1 then up p.2 else down p.2).prod x y = if ∀ i, excess x i = excess y i + jump ts i then 1 else 0 := by
  intro ts
  induction ts with
  | nil =>
    intro _ _ x y
    rw [List.map_nil, List.prod_nil, Matrix.one_apply]
    congr 1
    simp only [jump, List.map_nil, List.sum_nil, add_zero, eq_iff_iff]
    constructor
    · rintro rfl _; rfl
    · intro h
      funext i
      have := h i
      unfold excess at this
      exact Fin.ext (by omega)
  | cons p ts ih =>
    intro hnd hlt x y
    rw [List.map_cons, List.nodup_cons] at hnd
    have hp := hlt p (by simp)
    have hM := ih hnd.2 (fun q hq => hlt q (by simp [hq]))
    set M := (ts.map fun p => if 0 < p.1 then up p.2 else down p.2).prod with hMdef
    have hj0 : jump ts p.2 = 0 := jump_absent ts p.2 hnd.1
    have hz : ∀ x y : ChargeState tr, x ⟨p.2, hp⟩ ≠ y ⟨p.2, hp⟩ → M x y = 0 := by
      intro x y hxy
      rw [hM, if_neg]
      intro h
      have h1 := h ⟨p.2, hp⟩
      rw [hj0] at h1
      unfold excess at h1
      exact hxy (Fin.ext (by omega))
    have hj : ∀ i, jump (p :: ts) i = (if p.2 = i then (if 0 < p.1 then (1 : ℤ) else -1) else 0) + jump ts i := by
      intro i; unfold jump; rw [List.map_cons, List.sum_cons]
    -- the rest does not see the coordinate of the first
    have hrest : (∀ i, excess (tr := tr) (Function.update x ⟨p.2, hp⟩ (y ⟨p.2, hp⟩)) i = excess y i + jump ts i) ↔
        ∀ i : Fin n, (i : ℕ) ≠ p.2 → excess x i = excess y i + jump ts i := by
      constructor
      · intro h i hi
        have h1 := h i
        unfold excess at h1 ⊢
        rw [Function.update_of_ne (fun hh => hi (congrArg Fin.val hh))] at h1
        exact h1
      · intro h i
        by_cases hi : i = ⟨p.2, hp⟩
        · subst hi
          unfold excess
          rw [Function.update_self, hj0]; ring
        · have h1 := h i (fun hh => hi (Fin.ext hh))
          unfold excess at h1 ⊢
          rw [Function.update_of_ne hi]
          exact h1
    have hall : (∀ i, excess x i = excess y i + jump (p :: ts) i) ↔
        excess x ⟨p.2, hp⟩ = excess y ⟨p.2, hp⟩ + (if 0 < p.1 then 1 else -1) ∧
        ∀ i : Fin n, (i : ℕ) ≠ p.2 → excess x i = excess y i + jump ts i := by
      constructor
      · intro h
        refine ⟨?_, fun i hi => ?_⟩
        · rw [h ⟨p.2, hp⟩, hj, if_pos rfl, hj0, add_zero]
        · rw [h i, hj, if_neg (Ne.symm hi), zero_add]
      · rintro ⟨h1, h2⟩ i
        by_cases hi : (i : ℕ) = p.2
        · have : i = ⟨p.2, hp⟩ := Fin.ext hi
          subst this
          rw [h1, hj, if_pos rfl, hj0, add_zero]
        · rw [h2 i hi, hj, if_neg (Ne.symm hi), zero_add]
    rw [List.map_cons, List.prod_cons]
    show (_ * M) x y = _
    by_cases hpos : 0 < p.1
    · rw [if_pos hpos]
      obtain ⟨X, hX, hXa⟩ := hup ⟨p.2, hp⟩
      have e : up p.2 = actsOn (fun i => NodeCfg.mk (tr i) .charge) ⟨p.2, hp⟩ X := hXa
      rw [e, actsOn_mul_apply _ _ _ _ hz, hM, hX]
      have h1 : ((y ⟨p.2, hp⟩ : ℕ) = (x ⟨p.2, hp⟩ : ℕ) + 1) ↔ excess x ⟨p.2, hp⟩ = excess y ⟨p.2, hp⟩ + 1 := by
        unfold excess; omega
      rw [ite_mul_ite_and]
      congr 1
      rw [eq_iff_iff, hall, hrest, if_pos hpos, h1]
    · rw [if_neg hpos]
      obtain ⟨X, hX, hXa⟩ := hdown ⟨p.2, hp⟩
      have e : down p.2 = actsOn (fun i => NodeCfg.mk (tr i) .charge) ⟨p.2, hp⟩ X := hXa
      rw [e, actsOn_mul_apply _ _ _ _ hz, hM, hX]
      have h1 : ((x ⟨p.2, hp⟩ : ℕ) = (y ⟨p.2, hp⟩ : ℕ) + 1) ↔ excess x ⟨p.2, hp⟩ = excess y ⟨p.2, hp⟩ + -1 := by
        unfold excess; omega
      rw [ite_mul_ite_and]
      congr 1
      rw [eq_iff_iff, hall, hrest, if_neg hpos, h1]

theorem jump_mem (ts : List (ℝ × ℕ)) (hnd : (ts.map Prod.snd).Nodup) (c : ℝ) (i : ℕ) (h : (c, i) ∈ ts) :
    jump ts i = if 0 < c then 1 else -1 := by
  induction ts with
  | nil => cases h
  | cons p ts ih =>
    rw [List.map_cons, List.nodup_cons] at hnd
    have hj : jump (p :: ts) i = (if p.2 = i then (if 0 < p.1 then (1 : ℤ) else -1) else 0) + jump ts i := by
      unfold jump; rw [List.map_cons, List.sum_cons]
    rw [hj]
    rcases List.mem_cons.1 h with h | h
    · subst h
      rw [if_pos rfl, jump_absent ts i hnd.1, add_zero]
    · rw [if_neg, zero_add, ih hnd.2 h]
      intro hp
      exact hnd.1 (hp ▸ List.mem_map.2 ⟨_, h, rfl⟩)

theorem jump_neg (ts : List (ℝ × ℕ)) (h : ∀ p ∈ ts, p.1 ≠ 0) (i : ℕ) : jump (ts.map fun p => (-p.1, p.2)) i = -jump ts i := by
  induction ts with
  | nil => rfl
  | cons p ts ih =>
    have hj : ∀ (p : ℝ × ℕ) ts, jump (p :: ts) i = (if p.2 = i then (if 0 < p.1 then (1 : ℤ) else -1) else 0) + jump ts i := by
      intro p ts; unfold jump; rw [List.map_cons, List.sum_cons]
    rw [List.map_cons, hj, hj, ih fun q hq => h q (by simp [hq])]
    rcases lt_or_gt_of_ne (h p (by simp)) with h1 | h1
    · rw [if_pos (show 0 < -p.1 by linarith), if_neg (show ¬ 0 < p.1 by linarith)]; split_ifs <;> ring
    · rw [if_neg (show ¬ 0 < -p.1 by linarith), if_pos h1]; split_ifs <;> ring

/-- Without a transform the displacements of a branch are those of one pair crossing it. -/
theorem jump_branch (g : Circuit.CG) (hnd : (nodes g).Nodup) (h0 : 0 ∉ nodes g) (e : ℕ × ℕ × ℕ) (i : Fin (nodes g).length) :
    jump (branchTerms g (fun i j => if i = j then (1 : ℝ) else 0) e) i = gains e ((nodes g).get i) := by
  have hidx : ∀ v, ((if v = 0 then (0 : ℝ) else if (nodes g).idxOf v = i then 1 else 0)) = if (nodes g).get i = v then 1 else 0 := by
    intro v
    by_cases hv : v = 0
    · rw [if_pos hv, if_neg]
      rintro rfl
      exact h0 (hv ▸ List.get_mem _ _)
    · rw [if_neg hv]
      congr 1
      rw [eq_iff_iff]
      constructor
      · intro h
        have hm : v ∈ nodes g := List.idxOf_lt_length_iff.1 (h ▸ i.2)
        rw [List.get_eq_getElem]
        simp only [← h]
        exact List.getElem_idxOf _
      · rintro rfl
        rw [List.get_eq_getElem]
        exact hnd.idxOf_getElem _ _
  have hgood := branchTerms_good g (fun i j => if i = j then (1 : ℝ) else 0) e
  have hmem : ∀ c, (c, (i : ℕ)) ∈ branchTerms g (fun i j => if i = j then (1 : ℝ) else 0) e ↔
      c = (if (nodes g).get i = e.1 then 1 else 0) - (if (nodes g).get i = e.2.1 then 1 else 0) ∧ c ≠ 0 := by
    intro c
    unfold branchTerms
    rw [List.mem_filter, List.mem_map]
    constructor
    · rintro ⟨⟨j, hj, h1⟩, h2⟩
      rw [Prod.mk.injEq] at h1
      obtain ⟨h1, rfl⟩ := h1
      refine ⟨?_, by simpa using h2⟩
      rw [← h1, hidx, hidx]
    · rintro ⟨h1, h2⟩
      refine ⟨⟨i, by simp, ?_⟩, by simpa using h2⟩
      rw [hidx, hidx, h1]
  unfold gains
  by_cases hc : ((if (nodes g).get i = e.1 then (1 : ℝ) else 0) - (if (nodes g).get i = e.2.1 then 1 else 0)) = 0
  · rw [jump_absent]
    · split_ifs at hc ⊢ <;> simp_all
    · intro hm
      obtain ⟨⟨c, j⟩, hp, rfl⟩ := List.mem_map.1 hm
      obtain ⟨h1, h2⟩ := (hmem c).1 hp
      exact h2 (h1.trans hc)
  · rw [jump_mem _ hgood.1 _ _ ((hmem _).2 ⟨rfl, hc⟩)]
    split_ifs at hc ⊢ <;> first | rfl | (exfalso; simp_all; done) | (exfalso; norm_num at *; done)

theorem diagonal_quad {ι : Type} [Fintype ι] [DecidableEq ι] {n : ℕ} (c : ℝ) (M : Matrix (Fin n) (Fin n) ℝ) (d : Fin n → ι → ℝ) (x y : ι) :
    (num (Matrix ι ι ℂ) (c * (1 / 2)) * quadOp (num (Matrix ι ι ℂ)) M fun i => diagonal fun x => (d i x : ℂ)) x y =
      if x = y then ((1 / 2 * ∑ i, ∑ j, c * M i j * d i x * d j x : ℝ) : ℂ) else 0 := by
  have h1 : (quadOp (num (Matrix ι ι ℂ)) M fun i => diagonal fun x => (d i x : ℂ)) = diagonal fun x => ∑ i, (d i x : ℂ) * ∑ j, (M i j : ℂ) * (d j x : ℂ) := by
    unfold quadOp
    ext x y
    rw [Matrix.sum_apply]
    simp only [diagonal_mul, Matrix.sum_apply, num_mul, Matrix.smul_apply, diagonal_apply, smul_eq_mul]
    by_cases h : x = y
    · simp [h]
    · simp [h]
  rw [h1, num_mul, Matrix.smul_apply, diagonal_apply]
  by_cases h : x = y
  · rw [if_pos h, if_pos h, smul_eq_mul]
    push_cast
    rw [Finset.mul_sum, Finset.mul_sum]
    apply Finset.sum_congr rfl
    intro i _
    rw [Finset.mul_sum, Finset.mul_sum, Finset.mul_sum]
    apply Finset.sum_congr rfl
    intro j _
    ring
  · rw [if_neg h, if_neg h, smul_zero]

/-- The operators of every node are those of the charge basis with truncation `tr i`, from diagonalisers that give the states equal phases. -/
structure ChargeNodes {n : ℕ} (tr : Fin n → ℕ) (N : Fin n → BigNode fun i => NodeCfg.mk (tr i) .charge) : Prop where
  basis : ∀ i, ∃ q s E V, IsEigenstates (-(numOp (2 * tr i + 1) (tr i))) q s ∧ (∀ j k, s j (Fin.rev j) = s k (Fin.rev k)) ∧
    IsEigh (fourierOp (tr i) s) E V ∧ expandNode (fun i => NodeCfg.mk (tr i) .charge) i (chargeBasis (tr i) q s E V) = some (N i)

theorem ChargeNodes.ops {n : ℕ} {tr : Fin n → ℕ} {N : Fin n → BigNode fun i => NodeCfg.mk (tr i) .charge} (h : ChargeNodes tr N) (i : Fin n) :
    ((N i).Q = diagonal fun x => ((excess (tr := tr) x i : ℝ) : ℂ)) ∧
    (∃ X : Op (NodeCfg.mk (tr i) .charge).dim, (∀ a b, X a b = if (b : ℕ) = a + 1 then 1 else 0) ∧
      (N i).D = actsOn (fun i => NodeCfg.mk (tr i) .charge) i X) ∧
    ∃ X : Op (NodeCfg.mk (tr i) .charge).dim, (∀ a b, X a b = if (a : ℕ) = b + 1 then 1 else 0) ∧
      (N i).Ddag = actsOn (fun i => NodeCfg.mk (tr i) .charge) i X := by
  obtain ⟨q, s, E, V, h1, h2, h3, h4⟩ := h.basis i
  obtain ⟨c1, c2, c3, -⟩ := C37_charge_basis_partial (tr i) q s E V h1 h2 h3
  obtain ⟨e1, -, e3, e4, -⟩ := expandNode_some h4
  refine ⟨?_, ⟨_, c2, expandOp_some e3⟩, ⟨_, fun a b => ?_, expandOp_some e4⟩⟩
  · rw [expandOp_some e1]
    ext x y
    unfold actsOn
    have hq : (chargeBasis (tr i) q s E V).Q (x i) (y i) = if x i = y i then (((excess (tr := tr) x i : ℤ) : ℝ) : ℂ) else 0 := by
      have hd : ∀ a b : Fin (2 * tr i + 1), (chargeBasis (tr i) q s E V).Q a b = if a = b then (tr i : ℂ) - (a : ℕ) else 0 := by
        intro a b; rw [c1, diagonal_apply]
      refine (hd (x i) (y i)).trans ?_
      unfold excess
      push_cast
      rfl
    rw [hq, diagonal_apply]
    by_cases hxy : x = y
    · subst hxy; simp
    · rw [if_neg hxy]
      by_cases hall : ∀ j, j ≠ i → x j = y j
      · rw [if_pos hall, if_neg]
        intro hi
        apply hxy
        funext j
        by_cases hj : j = i
        · subst hj; exact hi
        · exact hall j hj
      · rw [if_neg hall]
  · have hd : ∀ a b : Fin (2 * tr i + 1), (chargeBasis (tr i) q s E V).Ddag a b = if (a : ℕ) = b + 1 then 1 else 0 := by
      intro a b
      rw [c3, conjTranspose_apply, c2]
      split_ifs <;> simp
    exact hd a b

/-- A circuit of capacitors and junctions (no inductors, no phase slips) without a transform, all nodes in the charge basis; `s` has its
matrices, component values and biases. -/
structure PairCircuit (h : List Circuit.Call) (g : Circuit.CG) (tr : Fin (nodes g).length → ℕ)
    (N : Fin (nodes g).length → BigNode fun i => NodeCfg.mk (tr i) .charge) (s : Sys PUnit (nodes g).length (edges g).length) : Prop where
  settled : Settled h g
  charge : ChargeNodes tr N
  noInductance : s.Linv = 0
  noSlips : ∀ k, s.Ps k = 0
  terms : ∀ k, s.terms k = branchTerms g (fun i j => if i = j then 1 else 0) ((edges g).get k)

/-- **C81** The Hamiltonian of a circuit of capacitors and junctions (no inductors, no phase slips), all nodes in the charge basis, has
the textbook matrix elements between charge states: for every circuit, truncations, component values, gate charges and flux biases. -/
theorem C81_charge_hamiltonian (h : List Circuit.Call) (g : Circuit.CG) (tr : Fin (nodes g).length → ℕ)
    (N : Fin (nodes g).length → BigNode fun i => NodeCfg.mk (tr i) .charge) (s : Sys PUnit (nodes g).length (edges g).length)
    (hc : PairCircuit h g tr N s) (H : BigOp fun i => NodeCfg.mk (tr i) .charge) (hH : hamiltonian (s.withNodes N) = some H)
    (x y : ChargeState tr) :
    H x y = textbook (nodes g) (edges g) (fun i j => s.u.Ec * s.Cinv i j) s.Qb (fun k => s.J k * s.u.Ej) s.Pb x y := by
  obtain ⟨hg, hN, hL, hP, ht⟩ := hc
  obtain ⟨hnd, hn0⟩ := C29_rows h g hg
  have h0 : 0 ∉ nodes g := fun hh => ((hn0 0).1 hh).2 rfl
  set S := s.withNodes N with hS
  unfold hamiltonian at hH
  cases h1 : branchSum (num _ (1 / 2)) S.D S.Ddag ((josBranches S).map (josData S)) 0 with
  | none => rw [h1] at hH; cases hH
  | some Hj =>
    cases h2 : branchSum (num _ (1 / 2)) S.S S.Sdag ((slipBranches S).map (slipData S)) 0 with
    | none => rw [h1] at hH; simp only [h2] at hH; cases hH
    | some Hp =>
      rw [h1] at hH; simp only [h2, Option.some.injEq] at hH
      rw [← hH, cosine_sum S.D S.Ddag S.J S.Pb S.terms S.u.Ej Hj h1, cosine_sum S.S S.Sdag S.Ps S.Qbt S.terms S.u.Ep Hp h2]
      have hp0 : ∑ i, ((S.Ps i * S.u.Ep : ℝ) : ℂ) • cosOp S.S S.Sdag (S.Qbt i) (S.terms i) = 0 := by
        apply Finset.sum_eq_zero
        intro k _
        rw [show S.Ps k = 0 from hP k]; simp
      have hl : linearPart (num _) S = num _ (s.u.Ec * (1 / 2)) * quadOp (num _) s.Cinv fun i =>
          diagonal fun x : ChargeState tr => ((((excess x i : ℤ) : ℝ) + s.Qb i : ℝ) : ℂ) := by
        unfold linearPart
        have hz : quadOp (num _) S.Linv (fun i => S.P i + num _ (S.Pbi i)) = 0 := by
          rw [show S.Linv = 0 from hL]; unfold quadOp; simp
        rw [hz, mul_zero, add_zero]
        congr 2
        funext i
        show (N i).Q + num _ (s.Qb i) = _
        rw [(hN.ops i).1]
        ext x y
        rw [Matrix.add_apply, diagonal_apply, diagonal_apply, ← mul_one (num _ (s.Qb i)), num_mul, Matrix.smul_apply, Matrix.one_apply]
        by_cases hxy : x = y
        · simp [hxy]
        · simp [hxy]
      rw [hp0, neg_zero, add_zero, hl, ← sub_eq_add_neg, Matrix.sub_apply, diagonal_quad, Matrix.sum_apply]
      unfold textbook
      congr 1
      · apply Finset.sum_congr rfl
        intro k _
        have hgood := branchTerms_good g (fun i j => if i = j then (1 : ℝ) else 0) ((edges g).get k)
        have hlt : ∀ p ∈ S.terms k, p.2 < (nodes g).length := by
          intro p hp
          rw [show S.terms k = s.terms k from rfl, ht] at hp
          unfold branchTerms at hp
          obtain ⟨j, hj, rfl⟩ := List.mem_map.1 (List.mem_filter.1 hp).1
          exact List.mem_range.1 hj
        have hup : ∀ i : Fin (nodes g).length, ∃ X : Op (NodeCfg.mk (tr i) .charge).dim, (∀ a b, X a b = if (b : ℕ) = a + 1 then 1 else 0) ∧
            S.D i = actsOn (fun i => NodeCfg.mk (tr i) .charge) i X := by
          intro i
          obtain ⟨X, hX, hX'⟩ := (hN.ops i).2.1
          refine ⟨X, hX, ?_⟩
          show (if h : (i : ℕ) < (nodes g).length then (N ⟨i, h⟩).D else 0) = _
          rw [dif_pos i.2]; exact hX'
        have hdown : ∀ i : Fin (nodes g).length, ∃ X : Op (NodeCfg.mk (tr i) .charge).dim, (∀ a b, X a b = if (a : ℕ) = b + 1 then 1 else 0) ∧
            S.Ddag i = actsOn (fun i => NodeCfg.mk (tr i) .charge) i X := by
          intro i
          obtain ⟨X, hX, hX'⟩ := (hN.ops i).2.2
          refine ⟨X, hX, ?_⟩
          show (if h : (i : ℕ) < (nodes g).length then (N ⟨i, h⟩).Ddag else 0) = _
          rw [dif_pos i.2]; exact hX'
        have hnd' : ((S.terms k).map Prod.snd).Nodup := by
          rw [show S.terms k = s.terms k from rfl, ht]; exact hgood.1
        have hne : ∀ p ∈ S.terms k, p.1 ≠ 0 := by
          rw [show S.terms k = s.terms k from rfl, ht]; exact hgood.2
        have m1 := moves_apply tr S.D S.Ddag hup hdown (S.terms k) hnd' hlt x y
        have m2 := moves_apply tr S.D S.Ddag hup hdown ((S.terms k).map fun p => (-p.1, p.2)) (by rw [List.map_map]; exact hnd')
          (by intro p hp; obtain ⟨q, hq, rfl⟩ := List.mem_map.1 hp; exact hlt q hq) x y
        rw [List.map_map] at m2
        have hj : ∀ i : Fin (nodes g).length, jump (S.terms k) i = gains ((edges g).get k) ((nodes g).get i) := by
          intro i
          rw [show S.terms k = s.terms k from rfl, ht]; exact jump_branch g hnd h0 _ i
        have c1 : (∀ i, excess x i = excess y i + jump (S.terms k) i) ↔ Crossed (nodes g) ((edges g).get k) x y := by
          unfold Crossed; simp only [hj]
        have c2 : (∀ i : Fin (nodes g).length, excess x i = excess y i + jump ((S.terms k).map fun p => (-p.1, p.2)) i) ↔
            Crossed (nodes g) ((edges g).get k) y x := by
          unfold Crossed; simp only [jump_neg _ hne, hj]
          constructor
          · intro h i; have := h i; omega
          · intro h i; have := h i; omega
        have e2 : ((fun p : ℝ × ℕ => if 0 < p.1 then S.D p.2 else S.Ddag p.2) ∘ fun p : ℝ × ℕ => (-p.1, p.2)) =
            fun p : ℝ × ℕ => if p.1 < 0 then S.D p.2 else S.Ddag p.2 := by
          funext p
          simp only [Function.comp, Left.neg_pos_iff]
        rw [e2] at m2
        unfold cosOp
        rw [Matrix.smul_apply, Matrix.smul_apply, Matrix.add_apply, Matrix.smul_apply, Matrix.smul_apply]
        simp only [smul_eq_mul]
        show ((s.J k * s.u.Ej : ℝ) : ℂ) * _ = _
        push_cast
        show (s.J k : ℂ) * (s.u.Ej : ℂ) * (1 / 2 * (exp (2 * Real.pi * s.Pb k * I) * _ + exp (-(2 * Real.pi * s.Pb k * I)) * _)) = _
        by_cases hA : Crossed (nodes g) ((edges g).get k) x y <;> by_cases hB : Crossed (nodes g) ((edges g).get k) y x
        · rw [m1, m2, if_pos (c1.2 hA), if_pos (c2.2 hB), if_pos hA, if_pos hB]; ring
        · rw [m1, m2, if_pos (c1.2 hA), if_neg (fun h => hB (c2.1 h)), if_pos hA, if_neg hB]; ring
        · rw [m1, m2, if_neg (fun h => hA (c1.1 h)), if_pos (c2.2 hB), if_neg hA, if_pos hB]; ring
        · rw [m1, m2, if_neg (fun h => hA (c1.1 h)), if_neg (fun h => hB (c2.1 h)), if_neg hA, if_neg hB]; ring

/-- **C81** Without inductors the inverse inductance matrix of the circuit is zero, whatever the pseudo-inverse of a zero matrix. -/
theorem C81_no_inductors (h : List Circuit.Call) (g : Circuit.CG) (hs : Settled h g) (hno : ∀ e ∈ edges g, ¬ IsInductor g e) (val : String → ℝ)
    (pinv : Matrix (Fin (edges g).length) (Fin (edges g).length) ℝ → Matrix (Fin (edges g).length) (Fin (edges g).length) ℝ)
    (hp : ∀ M, branchInductance val g = .ok M → IsPinv (M.block _ _) (pinv (M.block _ _)))
    (L : Matrix (Fin (nodes g).length) (Fin (nodes g).length) ℝ) (hL : inverseInductance val g pinv = .ok L) : L = 0 := by
  obtain ⟨M, hM, rfl⟩ := inverseInductance_ok hL
  have h0 : M.block (edges g).length (edges g).length = 0 := by
    ext i j
    exact (C30_branch_matrix h g hs val M hM i j).2.1 (hno _ (List.get_mem _ _))
  have h1 : pinv (M.block _ _) = 0 := by
    have := (hp M hM).bab
    rw [← this]
    conv_lhs => rw [h0]
    simp
  unfold toNodes
  rw [h1]
  simp

/-! ### The hypotheses can be met -/

/-- Every node of a circuit can be put into the charge basis, with any truncations. -/
theorem charge_nodes_exist {n : ℕ} (tr : Fin n → ℕ) : ∃ N, ChargeNodes tr N := by
  have h : ∀ i, ∃ Ni, ∃ q s E V, IsEigenstates (-(numOp (2 * tr i + 1) (tr i))) q s ∧ (∀ j k, s j (Fin.rev j) = s k (Fin.rev k)) ∧
      IsEigh (fourierOp (tr i) s) E V ∧ expandNode (fun i => NodeCfg.mk (tr i) .charge) i (chargeBasis (tr i) q s E V) = some Ni := by
    intro i
    obtain ⟨q, E, V, h1, h2⟩ := charge_diagonalisation (tr i) (fun _ => 1) (by simp)
    obtain ⟨N, hN⟩ := expandNode_standard (cfg := fun i => NodeCfg.mk (tr i) .charge) (fun i => Or.inl rfl) i
      (chargeBasis (tr i) q (fun j => Pi.single (Fin.rev j) 1) E V)
    exact ⟨N, q, _, E, V, h1, by simp, h2, hN⟩
  choose N hN using h
  exact ⟨N, ⟨hN⟩⟩

/-- The branches of a circuit, seen from its nodes: none is empty, except those from a node to itself. -/
theorem terms_nonempty {h : List Circuit.Call} {g : Circuit.CG} (hs : Settled h g) (k : Fin (edges g).length)
    (hk : ((edges g).get k).1 ≠ ((edges g).get k).2.1) : branchTerms g (fun i j => if i = j then (1 : ℝ) else 0) ((edges g).get k) ≠ [] := by
  obtain ⟨hnd, hn0⟩ := C29_rows h g hs
  have h0 : 0 ∉ nodes g := fun hh => ((hn0 0).1 hh).2 rfl
  have hw : g.graph.WF := by obtain ⟨o, f⟩ := Circuit.settled_facts hs; exact f.inv.toWF
  obtain ⟨w1, w2⟩ := wc_ends hs (List.get_mem (edges g) k)
  intro he
  have hg : ∀ i : Fin (nodes g).length, gains ((edges g).get k) ((nodes g).get i) = 0 := by
    intro i
    rw [← jump_branch g hnd h0, he]; rfl
  have hv : ∀ v ∈ nodes g, gains ((edges g).get k) v = 0 := by
    intro v hv
    obtain ⟨i, rfl⟩ := List.get_of_mem hv
    exact hg i
  unfold gains at hv
  by_cases h1 : ((edges g).get k).1 = 0
  · have := hv _ ((mem_nodes hw _).2 ⟨w2, fun h2 => hk (h1.trans h2.symm)⟩)
    rw [if_neg (Ne.symm hk), if_pos rfl] at this
    omega
  · have := hv _ ((mem_nodes hw _).2 ⟨w1, h1⟩)
    rw [if_neg hk, if_pos rfl] at this
    omega

/-- For every circuit without inductors and phase slips whose junctions join different nodes, all component values, biases and
truncations: the charge bases exist and the Hamiltonian is defined. -/
theorem pair_circuit_exists (h : List Circuit.Call) (g : Circuit.CG) (hs : Settled h g) (tr : Fin (nodes g).length → ℕ)
    (Ci : Matrix (Fin (nodes g).length) (Fin (nodes g).length) ℝ) (J Pb : Fin (edges g).length → ℝ) (Qb : Fin (nodes g).length → ℝ) (u : Prefs)
    (hJ : ∀ k, J k ≠ 0 → ((edges g).get k).1 ≠ ((edges g).get k).2.1) :
    ∃ (N : _) (s : Sys PUnit (nodes g).length (edges g).length) (H : BigOp fun i => NodeCfg.mk (tr i) .charge), PairCircuit h g tr N s ∧ s.Cinv = Ci ∧ s.J = J ∧ s.Pb = Pb ∧ s.Qb = Qb ∧ s.u = u ∧
      hamiltonian (s.withNodes N) = some H := by
  obtain ⟨N, hN⟩ := charge_nodes_exist tr
  let s : Sys PUnit (nodes g).length (edges g).length := {
    Cinv := Ci, Linv := 0, LinvB := 0, J := J, Ps := fun _ => 0, Pb := Pb,
    Qbt := fun _ => 0, Qb := Qb, Pbi := fun _ => 0, kind := fun _ => .josephson,
    terms := fun k => branchTerms g (fun i j => if i = j then 1 else 0) ((edges g).get k),
    Q := fun _ => ⟨⟩, P := fun _ => ⟨⟩, flux := fun _ => ⟨⟩, D := fun _ => ⟨⟩, Ddag := fun _ => ⟨⟩, S := fun _ => ⟨⟩, Sdag := fun _ => ⟨⟩, u := u }
  have hH : (hamiltonian (s.withNodes N)).isSome := by
    rw [C66_defined]
    rintro k (hk | hk)
    · exact terms_nonempty hs k (hJ k hk)
    · exact absurd rfl hk
  obtain ⟨H, hH⟩ := Option.isSome_iff_exists.1 hH
  exact ⟨N, s, H, ⟨hs, hN, rfl, fun _ => rfl, fun _ => rfl⟩, rfl, rfl, rfl, rfl, rfl, hH⟩

/-- A transmon: a concrete circuit with the hypotheses of `C81_charge_hamiltonian` and `C81_no_inductors`. -/
example : Settled oneJunction (Circuit.run {} oneJunction) ∧ (∀ e ∈ edges (Circuit.run {} oneJunction), ¬ IsInductor (Circuit.run {} oneJunction) e ∧ e.1 ≠ e.2.1) := by
  refine ⟨oneJunction_settled, ?_⟩
  have he : edges (Circuit.run {} oneJunction) = [(0, 1, 1)] := by decide +kernel
  rw [he]
  intro e hm
  obtain rfl : e = (0, 1, 1) := by simpa using hm
  refine ⟨?_, by decide⟩
  have h2 : (Circuit.run {} oneJunction).cmap.get? (0, 1, 1) = some "I1" := by decide +kernel
  unfold IsInductor
  rw [h2]
  rintro ⟨n, hn, hL⟩
  obtain rfl := Option.some.inj hn
  revert hL
  decide

/-! ### Units -/

/-- **C81** In every system of units in which charges are counted in Cooper pairs and fluxes in flux quanta (the presets "CQED1" and
"CQED2", for example) the matrix elements are the physical ones: with capacitances in farad, critical currents in ampere, the pair charge
`2e`, the Josephson energy `Φ0 Ic / 2π`, converted from joule to the energy unit. -/
theorem C81_units (w : List UCall) (hw : ∀ c ∈ w, c.Clean) (i : ℕ) (U : Spec.System) (hU : Uses (runU w) i U)
    (h2e : U.C = 2 * Units.pc_e) (hphi : U.Wb = Units.pc_phi0) (h : List Circuit.Call) (g : Circuit.CG) (tr : Fin (nodes g).length → ℕ)
    (N : Fin (nodes g).length → BigNode fun i => NodeCfg.mk (tr i) .charge) (s : Sys PUnit (nodes g).length (edges g).length)
    (hc : PairCircuit h g tr N s) (hEc : Units.getPrefactor (runU w) i "Ec" = .ok s.u.Ec) (hEj : Units.getPrefactor (runU w) i "Ej" = .ok s.u.Ej)
    (H : BigOp fun i => NodeCfg.mk (tr i) .charge) (hH : hamiltonian (s.withNodes N) = some H) (x y : ChargeState tr) :
    H x y = U.E * textbook (nodes g) (edges g) (fun i j => (2 * Units.pc_e) ^ 2 * (s.Cinv i j / U.F)) s.Qb
      (fun k => Units.pc_phi0 * (s.J k * U.A) / (2 * Real.pi)) s.Pb x y := by
  obtain ⟨c1, -, c3, -⟩ := uses_consistent (Units.uinv_runU w hw) hU
  rw [c1] at hEc
  rw [c3] at hEj
  have e1 := Except.ok.inj hEc
  have e3 := Except.ok.inj hEj
  rw [C81_charge_hamiltonian h g tr N s hc H hH, ← e1, ← e3, h2e, hphi]
  unfold textbook
  dsimp only
  rw [mul_sub]
  congr 1
  · by_cases hxy : x = y
    · rw [if_pos hxy, if_pos hxy, ← Complex.ofReal_mul]
      congr 1
      rw [mul_left_comm, Finset.mul_sum, Finset.mul_sum, Finset.mul_sum]
      apply Finset.sum_congr rfl; intro i _
      rw [Finset.mul_sum, Finset.mul_sum, Finset.mul_sum]
      apply Finset.sum_congr rfl; intro j _
      ring
    · rw [if_neg hxy, if_neg hxy, mul_zero]
  · rw [Finset.mul_sum]
    apply Finset.sum_congr rfl; intro k _
    push_cast
    ring

/-- **C81** is false in other units: the charge basis counts Cooper pairs whatever the charge unit.  In SI units (any name that is not a
preset) the energy of one pair on a node with a capacitance of 1 F comes out as if its charge were 1 C. -/
theorem C81_false_units : ∃ (w : List UCall) (U : Spec.System) (h : List Circuit.Call) (g : Circuit.CG) (tr : Fin (nodes g).length → ℕ)
    (N : Fin (nodes g).length → BigNode fun i => NodeCfg.mk (tr i) .charge) (s : Sys PUnit (nodes g).length (edges g).length)
    (H : BigOp fun i => NodeCfg.mk (tr i) .charge) (x : ChargeState tr), (∀ c ∈ w, c.Clean) ∧ Uses (runU w) 0 U ∧ PairCircuit h g tr N s ∧
    Units.getPrefactor (runU w) 0 "Ec" = .ok s.u.Ec ∧ Units.getPrefactor (runU w) 0 "Ej" = .ok s.u.Ej ∧ hamiltonian (s.withNodes N) = some H ∧
    s.Cinv = 1 ∧ (∀ k, s.J k = 0) ∧ (∀ i, s.Qb i = 0 ∧ excess x i = 1) ∧ H x x = 1 / 2 ∧
    H x x ≠ U.E * textbook (nodes g) (edges g) (fun i j => (2 * Units.pc_e) ^ 2 * (s.Cinv i j / U.F)) s.Qb
      (fun k => Units.pc_phi0 * (s.J k * U.A) / (2 * Real.pi)) s.Pb x x := by
  obtain ⟨w, o, hw, hinv, ho, hH, -⟩ := one_instance "SI"
  have hst : startUnits "SI" = SI := by unfold startUnits; rw [if_neg (by decide), if_neg (by decide)]
  rw [hst] at hH
  have hU : Uses (runU [.new "SI"]) 0 SI := by
    rw [hw, Units.uses_iff (o := o) (by rw [ho]; rfl)]; exact hH
  have hcl : ∀ c ∈ [UCall.new "SI"], c.Clean := by simp [UCall.Clean]
  obtain ⟨c1, -, c3, -⟩ := uses_consistent (Units.uinv_runU _ hcl) hU
  set g := Circuit.run {} oneJunction with hg
  have hn : (nodes g).length = 1 := by rw [show nodes g = [1] by rw [hg]; decide +kernel]; rfl
  obtain ⟨N, s, H, hc, e1, e2, e3, e4, e5, hHs⟩ := pair_circuit_exists oneJunction g oneJunction_settled (fun _ => 1) 1 (fun _ => 0) (fun _ => 0)
    (fun _ => 0) ⟨SI.E * SI.C ^ 2 / SI.F, 0, SI.E * SI.Wb * SI.A / (2 * Real.pi), 0, 0, 0, 0⟩ (fun k hk => absurd rfl hk)
  let x : ChargeState (fun _ : Fin (nodes g).length => 1) := fun i => ⟨0, Nat.succ_pos _⟩
  have hx : ∀ i, excess x i = 1 := fun i => by simp [excess, x]
  have hval : ∀ (c : ℝ) (K : Fin (nodes g).length → Fin (nodes g).length → ℝ) (EJ : Fin (edges g).length → ℝ), (∀ i j, K i j = c) → (∀ k, EJ k = 0) →
      textbook (nodes g) (edges g) K s.Qb EJ s.Pb x x = ((c / 2 : ℝ) : ℂ) := by
    intro c K EJ hK hE
    unfold textbook
    rw [if_pos rfl]
    simp only [hE]
    rw [Complex.ofReal_zero, zero_div, Finset.sum_congr rfl fun k _ => zero_mul _, Finset.sum_const_zero, sub_zero]
    congr 1
    rw [Finset.sum_congr rfl fun i _ => Finset.sum_congr rfl fun j _ => by rw [hK, hx, hx, e4]]
    simp [hn]
    ring
  have hone : ∀ i j : Fin (nodes g).length, (1 : Matrix (Fin (nodes g).length) (Fin (nodes g).length) ℝ) i j = 1 := by
    intro i j
    have : i = j := by apply Fin.ext; have := i.2; have := j.2; omega
    rw [this, Matrix.one_apply_eq]
  have hE : H x x = 1 / 2 := by
    rw [C81_charge_hamiltonian _ _ _ N s hc H hHs, hval 1 _ _ (fun i j => by rw [e5, e1, hone]; simp [SI]) (fun k => by rw [e2]; simp)]
    norm_num
  refine ⟨[.new "SI"], SI, oneJunction, g, fun _ => 1, N, s, H, x, hcl, hU, hc, by rw [e5]; exact c1, by rw [e5]; exact c3, hHs, e1,
    fun k => by rw [e2], fun i => ⟨by rw [e4], hx i⟩, hE, ?_⟩
  rw [hE, hval ((2 * Units.pc_e) ^ 2) _ _ (fun i j => by rw [e1, hone]; simp [SI]) (fun k => by rw [e2]; simp)]
  have : (1 / 2 : ℂ) = ((1 / 2 : ℝ) : ℂ) := by push_cast; rfl
  rw [this, show (SI.E : ℂ) = ((1 : ℝ) : ℂ) by simp [SI], ← Complex.ofReal_mul]
  intro hcon
  have := Complex.ofReal_injective hcon
  unfold Units.pc_e at this
  norm_num at this

/-- The presets meet the hypotheses of `C81_units`. -/
example : ∃ U : Spec.System, Uses (runU [.new "CQED1"]) 0 U ∧ U.C = 2 * Units.pc_e ∧ U.Wb = Units.pc_phi0 := by
  obtain ⟨w, o, hw, hinv, ho, hH, -⟩ := one_instance "CQED1"
  have hst : startUnits "CQED1" = CQED1 := by unfold startUnits; rw [if_pos rfl]
  rw [hst] at hH
  exact ⟨CQED1, by rw [hw, Units.uses_iff (o := o) (by rw [ho]; rfl)]; exact hH, rfl, rfl⟩

end Verif.Props
