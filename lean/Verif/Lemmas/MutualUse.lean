import Verif.Spec.MutualUse
import Verif.Props.NetlistMutual
import Verif.Props.Expressions

/-!
# Lemmas about the use of circuits with mutual inductances
-/

namespace Verif.Props

open Verif Verif.Circuit Verif.Sym Verif.Num Verif.Spec Matrix

variable {K K' : Type}

theorem foldlM_rel {α β γ : Type} (P : α → β → Prop) {f : α → γ → Except Err α} {f' : β → γ → Except Err β} : ∀ (l : List γ) (a : α) (b : β) (r : α) (r' : β),
    P a b → (∀ x ∈ l, ∀ a b a' b', P a b → f a x = .ok a' → f' b x = .ok b' → P a' b') → l.foldlM f a = .ok r → l.foldlM f' b = .ok r' → P r r'
  | [], a, b, r, r', hP, _, h, h' => by
    cases h; cases h'; exact hP
  | x :: l, a, b, r, r', hP, hs, h, h' => by
    rw [List.foldlM_cons] at h h'
    cases hf : f a x with
    | error e => rw [hf] at h; cases h
    | ok a' =>
      cases hf' : f' b x with
      | error e => rw [hf'] at h'; cases h'
      | ok b' =>
        rw [hf] at h; rw [hf'] at h'
        exact foldlM_rel P l a' b' r r' (hs x (by simp) a b a' b' hP hf hf') (fun y hy => hs y (by simp [hy])) h h'

theorem branchInductance_rel [Zero K] [Zero K'] {R : K → K' → Prop} (h0 : R 0 0) {val : String → K} {val' : String → K'} {g : CG}
    (hval : ∀ c, ReadsBare g c → R (val c) (val' c)) {M : Mat K} {M' : Mat K'} (h : branchInductance val g = .ok M) (h' : branchInductance val' g = .ok M') :
    MatRel R M M' := by
  have hS : ∀ (i j : ℕ) (c : String) (N : Mat K) (N' : Mat K'), MatRel R N N' → R (val c) (val' c) → MatRel R (N.setAt i j (val c)) (N'.setAt i j (val' c)) := by
    intro i j c N N' hN hc a b
    unfold Mat.setAt
    split_ifs
    · exact hc
    · exact hN a b
  unfold branchInductance at h h'
  split at h
  · cases h
  rename_i M1 h1
  split at h'
  · cases h'
  rename_i M1' h1'
  refine foldlM_rel (MatRel R) _ _ _ _ _ (foldlM_rel (MatRel R) _ _ _ _ _ (fun _ _ => h0) ?_ h1 h1') ?_ h h'
  · intro p _ N N' N1 N1' hN e e'
    unfold indDiag at e e'
    cases hc : g.cmap.get? p.1 with
    | none => rw [hc] at e; cases e
    | some c =>
      rw [hc] at e e'
      simp only at e e'
      split_ifs at e e' with hL
      · cases hb : g.fluxBias.get? p.1 with
        | none => rw [hb] at e e'; cases e; cases e'; exact hS _ _ _ _ _ hN (hval c (Or.inl ⟨_, hc⟩))
        | some b =>
          rw [hb] at e e'
          simp only at e e'
          cases hm : b.comp with
          | none => rw [hm] at e e'; cases e; cases e'; exact hS _ _ _ _ _ hN (hval c (Or.inl ⟨_, hc⟩))
          | some x => rw [hm] at e; cases e
      · cases e; cases e'; exact hN
  · intro q hq N N' N1 N1' hN e e'
    unfold indOff at e e'
    split_ifs at e e'
    cases e; cases e'
    have hv := hval q.1 (Or.inr (Or.inl (List.mem_map.2 ⟨q, hq, rfl⟩)))
    exact hS _ _ _ _ _ (hS _ _ _ _ _ hN hv) hv

/-- The rows and columns of other components are zero. -/
theorem branchInductance_zero [Zero K] {h : List Call} {g : CG} (hs : Settled h g) {val : String → K} {M : Mat K}
    (hM : branchInductance val g = .ok M) (i j : Fin (edges g).length) (hij : ¬ (IsInductor g ((edges g).get i) ∧ IsInductor g ((edges g).get j))) :
    M i j = 0 := by
  obtain ⟨h1, h2, h3⟩ := branchInductance_ok hM
  have key : ∀ i j : Fin (edges g).length, ¬ IsInductor g ((edges g).get i) → M i j = 0 := by
    intro i j hni
    rcases h2 i j with ⟨_, he⟩ | ⟨q, hq, hpq, _⟩
    · rw [he]
      split_ifs with hij
      · rw [List.getElem?_eq_getElem i.2, Option.bind_some]
        have : indVal val g ((edges g).get i) = none := by
          rw [isInductor_iff (val := val)] at hni
          simpa using hni
        change (indVal val g ((edges g).get i)).getD 0 = 0
        rw [this]; rfl
      · rfl
    · exfalso
      apply hni
      obtain ⟨b, _, _, hc⟩ := wc_branch hs (e := (edges g).get i) (List.get_mem _ _)
      refine ⟨_, hc, coupled_inductors hs hq ?_ hc⟩
      rcases (pairs_iff hs (h1 q hq).1 (h1 q hq).2 i j).1 hpq with ⟨a, _⟩ | ⟨a, _⟩
      · exact Or.inl a
      · exact Or.inr a
  by_cases hi : IsInductor g ((edges g).get i)
  · rw [h3]
    exact key j i fun hj => hij ⟨hi, hj⟩
  · exact key i j hi

/-- Ones on the diagonal where `S` does not hold. -/
def outside {n : ℕ} (S : Fin n → Prop) [DecidablePred S] : Matrix (Fin n) (Fin n) ℚ := Matrix.diagonal fun i => if S i then 0 else 1

/-- A symmetric rational matrix that is positive definite on the vectors supported in `S`, and zero elsewhere, has a pseudo-inverse. -/
theorem pinv_supported {n : ℕ} (X : Matrix (Fin n) (Fin n) ℚ) (S : Fin n → Prop) [DecidablePred S] (hT : X.transpose = X) (hz : ∀ i j, ¬ (S i ∧ S j) → X i j = 0)
    (hpos : ∀ x : Fin n → ℚ, (∀ i, ¬ S i → x i = 0) → x ≠ 0 → 0 < x ⬝ᵥ X.mulVec x) :
    (X + outside S).det ≠ 0 ∧
    IsPinv X ((X + outside S)⁻¹ - outside S) := by
  set Q := outside S with hQ
  have hXQ : X * Q = 0 := by
    ext i j
    rw [hQ, outside, Matrix.mul_diagonal]
    by_cases hj : S j
    · simp [hj]
    · rw [hz i j fun h => hj h.2]; simp
  have hQX : Q * X = 0 := by
    ext i j
    rw [hQ, outside, Matrix.diagonal_mul]
    by_cases hj : S i
    · simp [hj]
    · rw [hz i j fun h => hj h.1]; simp
  have hQQ : Q * Q = Q := by
    rw [hQ, outside, Matrix.diagonal_mul_diagonal]
    congr 1
    funext i
    split_ifs <;> simp
  have hQT : Qᵀ = Q := by rw [hQ, outside, Matrix.diagonal_transpose]
  have hdet : (X + Q).det ≠ 0 := by
    intro h0
    obtain ⟨x, hx, hx0⟩ := Matrix.exists_mulVec_eq_zero_iff.2 h0
    have hQx : Q.mulVec x = 0 := by
      have : Q.mulVec ((X + Q).mulVec x) = 0 := by rw [hx0, Matrix.mulVec_zero]
      rwa [Matrix.mulVec_mulVec, Matrix.mul_add, hQX, hQQ, zero_add] at this
    have hsup : ∀ i, ¬ S i → x i = 0 := by
      intro i hi
      have := congrFun hQx i
      rw [hQ, outside, Matrix.mulVec_diagonal, if_neg hi, one_mul] at this
      exact this
    have h1 := hpos x hsup hx
    have hXx : X.mulVec x = 0 := by rwa [Matrix.add_mulVec, hQx, add_zero] at hx0
    rw [hXx] at h1
    simp at h1
  refine ⟨hdet, ?_⟩
  have hu : IsUnit (X + Q).det := isUnit_iff_ne_zero.2 hdet
  set I := (X + Q)⁻¹ with hI
  have hr : (X + Q) * I = 1 := Matrix.mul_nonsing_inv _ hu
  have hl : I * (X + Q) = 1 := Matrix.nonsing_inv_mul _ hu
  have hQI : Q * I = Q := by
    have : Q * ((X + Q) * I) = Q := by rw [hr, Matrix.mul_one]
    rwa [← Matrix.mul_assoc, Matrix.mul_add, hQX, hQQ, zero_add] at this
  have hIQ : I * Q = Q := by
    have : I * (X + Q) * Q = Q := by rw [hl, Matrix.one_mul]
    rwa [Matrix.mul_assoc, Matrix.add_mul, hXQ, hQQ, zero_add] at this
  have hXY : X * (I - Q) = 1 - Q := by
    have : X * I = 1 - Q := by rw [← hr, Matrix.add_mul, hQI]; simp
    rw [Matrix.mul_sub, hXQ, this, sub_zero]
  have hYX : (I - Q) * X = 1 - Q := by
    have : I * X = 1 - Q := by rw [← hl, Matrix.mul_add, hIQ]; simp
    rw [Matrix.sub_mul, hQX, this, sub_zero]
  refine ⟨?_, ?_, ?_, ?_⟩
  · rw [hXY, Matrix.sub_mul, hQX, Matrix.one_mul, sub_zero]
  · rw [hYX, Matrix.sub_mul, Matrix.one_mul, Matrix.mul_sub, hQI, hQQ, sub_self, sub_zero]
  · rw [hXY, Matrix.transpose_sub, Matrix.transpose_one, hQT]
  · rw [hYX, Matrix.transpose_sub, Matrix.transpose_one, hQT]

/-- Currents with a positive energy: the inductance matrix is invertible, in whatever directions the currents are counted. -/
theorem coupled_det {val : String → ℝ} {h : List Call} (hnd : ((branches h).map fun b => b.2.2).Nodup)
    (hpos : ∀ j : String → ℝ, (∃ br ∈ branchesOf 'L' (branches h), j br.2.2 ≠ 0) → 0 < magneticForm val h j) {sgn : String → ℝ} (hsgn : ∀ c, sgn c = 1 ∨ sgn c = -1) :
    (inductanceMatrix val sgn h).det ≠ 0 := by
  intro h0
  obtain ⟨x, hx, hx0⟩ := Matrix.exists_mulVec_eq_zero_iff.2 h0
  have hndL : ((branchesOf 'L' (branches h)).map fun b => b.2.2).Nodup := hnd.sublist (List.Sublist.map _ List.filter_sublist)
  have hdef : ∀ i j, inductanceMatrix val sgn h i j =
    inductanceOf val sgn h ((branchesOf 'L' (branches h)).get i).2.2 ((branchesOf 'L' (branches h)).get j).2.2 := fun _ _ => rfl
  have hsq : ∀ c, sgn c * sgn c = 1 := fun c => by rcases hsgn c with e | e <;> rw [e] <;> norm_num
  unfold magneticForm at hpos
  revert x h0 hdef
  generalize inductanceMatrix val sgn h = Λ
  revert Λ
  generalize branchesOf 'L' (branches h) = L at hpos hndL ⊢
  intro Λ h0 x hx hx0 hdef
  let j : String → ℝ := fun c => sgn c * ∑ i, if (L.get i).2.2 = c then x i else 0
  have hj : ∀ i, j (L.get i).2.2 = sgn (L.get i).2.2 * x i := by
    intro i
    simp only [j]
    rw [Finset.sum_eq_single i]
    · simp
    · intro k _ hk
      rw [if_neg]
      intro e
      apply hk
      have : (L.map fun b => b.2.2)[(k : ℕ)]'(by simp) = (L.map fun b => b.2.2)[(i : ℕ)]'(by simp) := by simpa using e
      exact Fin.ext ((List.Nodup.getElem_inj_iff hndL).1 this)
    · simp
  obtain ⟨i0, hi0⟩ := Function.ne_iff.1 hx
  have hp := hpos j ⟨L.get i0, List.get_mem _ _, by
    rw [hj]
    rcases hsgn (L.get i0).2.2 with e | e <;> rw [e] <;> simpa using hi0⟩
  have hE : (L.map fun b => (L.map fun b' => inductanceOf val (fun _ => 1) h b.2.2 b'.2.2 * j b.2.2 * j b'.2.2).sum).sum = x ⬝ᵥ Λ.mulVec x := by
    rw [← Fin.sum_univ_fun_getElem]
    unfold dotProduct Matrix.mulVec dotProduct
    refine Finset.sum_congr rfl fun i _ => ?_
    rw [← Fin.sum_univ_fun_getElem, Finset.mul_sum]
    refine Finset.sum_congr rfl fun k _ => ?_
    change _ = x i * (Λ i k * x k)
    rw [hdef]
    have e1 := hj i
    have e2 := hj k
    simp only [List.get_eq_getElem] at e1 e2 ⊢
    rw [e1, e2]
    unfold inductanceOf
    by_cases hc : (L[(i : ℕ)]).2.2 = (L[(k : ℕ)]).2.2
    · rw [if_pos hc, if_pos hc, ← hc]
      linear_combination val L[(i : ℕ)].2.2 * x i * x k * hsq L[(i : ℕ)].2.2
    · rw [if_neg hc, if_neg hc]; ring
  rw [hE, hx0] at hp
  simp at hp

/-- Currents with a positive energy: the branch inductance matrix is positive definite on the inductors. -/
theorem coupled_positive {h : List Call} {g : CG} (hs : Settled h g) (ha : AllOk h) (hn : LoadedNetlist h) (val : String → ℝ) {M : Mat ℝ}
    (hM : branchInductance val g = .ok M)
    (hpos : ∀ j : String → ℝ, (∃ br ∈ branchesOf 'L' (branches h), j br.2.2 ≠ 0) → 0 < magneticForm val h j)
    (x : Fin (edges g).length → ℝ) (hsup : ∀ i, ¬ IsInductor g ((edges g).get i) → x i = 0) (hx : x ≠ 0) :
    0 < x ⬝ᵥ (M.block (edges g).length (edges g).length).mulVec x := by
  have hnd : (edges g).Nodup := wc_nodup hs
  let j : String → ℝ := fun c => if hc : (edges g).idxOf (edgeOf g c) < (edges g).length then x ⟨_, hc⟩ else 0
  have hj : ∀ k c, g.cmap.get? ((edges g).get k) = some c → j c = x k := by
    intro k c hc
    have he : edgeOf g c = (edges g).get k := edgeOf_eq hs (List.get_mem _ _) hc
    have hk : (edges g).idxOf ((edges g).get k) = k := hnd.idxOf_getElem _ k.2
    simp only [j]
    rw [dif_pos (by rw [he, hk]; exact k.2)]
    congr 1
    apply Fin.ext
    simp only [he, hk]
  have hE : x ⬝ᵥ (M.block (edges g).length (edges g).length).mulVec x = magneticForm val h j := by
    unfold magneticForm dotProduct
    refine sum_netlist hs hn.ends 'L' (by decide) (fun _ _ c _ => ((branchesOf 'L' (branches h)).map fun b' =>
      inductanceOf val (fun _ => 1) h c b'.2.2 * j c * j b'.2.2).sum) (fun _ _ _ _ _ => rfl) _ ?_
    intro k c hc
    by_cases hL : startsWith c 'L' = true
    · rw [if_pos hL]
      unfold Matrix.mulVec dotProduct
      rw [Finset.mul_sum]
      refine sum_netlist hs hn.ends 'L' (by decide) (fun _ _ c' _ => inductanceOf val (fun _ => 1) h c c' * j c * j c') (fun _ _ _ _ _ => rfl) _ ?_
      intro l c' hc'
      by_cases hL' : startsWith c' 'L' = true
      · rw [if_pos hL', hj k c hc, hj l c' hc']
        have : M.block (edges g).length (edges g).length k l = if c = c' then val c else mutualOf val h c c' := branch_entry hs ha hn val hM k l hc hc' hL
        change x k * (M.block (edges g).length (edges g).length k l * x l) = _
        rw [this]
        unfold inductanceOf
        split_ifs <;> ring
      · rw [if_neg hL', hsup l]
        · ring
        · rintro ⟨c'', e1, e2⟩
          rw [hc'] at e1
          cases e1
          exact hL' e2
    · rw [if_neg hL, hsup k, zero_mul]
      rintro ⟨c', e1, e2⟩
      rw [hc] at e1
      cases e1
      exact hL e2
  rw [hE]
  apply hpos
  obtain ⟨k, hk⟩ := Function.ne_iff.1 hx
  have hI : IsInductor g ((edges g).get k) := by
    by_contra hI
    exact hk (hsup k hI)
  obtain ⟨c, hc, hL⟩ := hI
  obtain ⟨br, hbr, -, hcb⟩ := wc_branch hs (e := (edges g).get k) (List.get_mem _ _)
  rw [hc] at hcb
  cases hcb
  refine ⟨br, List.mem_filter.2 ⟨(List.mem_filter.1 hbr).1, hL⟩, ?_⟩
  rw [hj k _ hc]
  exact hk

theorem coupled_noRes {h : List Call} (hn : CoupledNetlist h) : NoResonators h := by
  intro x hx
  rcases hn.calls _ hx with ⟨o, a, b, c, rfl⟩ | ⟨c, s, m, rfl, -⟩ | ⟨n, s, c, rfl⟩ | ⟨c, c', m, rfl, -⟩ <;> simp

end Verif.Props
